import Verif.Lemmas.TLMor
/-!
# Cell modules: diagrams with the maximal number of through strands
-/
namespace Peyl
namespace TL

/-- All `b` bottom points are joined to top points. -/
structure Cell (n b : Nat) (D : List Nat) : Prop where
  nc : Crossingless D
  len : D.length = n + b
  up : ∀ i, i < b → b ≤ at_ D i

theorem through_eq (d : TLDiag) : throughStrands d = d.through := by
  rw [throughStrands, TLDiag.through, Finset.card_def, Finset.filter_val, Finset.range_val, Multiset.range, Multiset.filter_coe, Multiset.coe_card]
  rfl

theorem through_le (d : TLDiag) : d.through ≤ d.bot := by
  rw [TLDiag.through]
  exact (Finset.card_filter_le _ _).trans (by simp)

theorem cell_iff (d : TLDiag) (hd : d.Ok) : Cell d.top d.bot d.seq ↔ d.through = d.bot := by
  have : d.through = d.bot ↔ ∀ i, i < d.bot → d.bot ≤ at_ d.seq i := by
    rw [TLDiag.through]
    conv_lhs => rw [show d.bot = (Finset.range d.bot).card by simp]
    rw [Finset.card_range, show (Finset.filter (fun i => d.bot ≤ at_ d.seq i) (Finset.range d.bot)).card = d.bot ↔
      (Finset.filter (fun i => d.bot ≤ at_ d.seq i) (Finset.range d.bot)).card = (Finset.range d.bot).card by simp]
    rw [Finset.card_filter_eq_iff]
    simp
  rw [this]
  exact ⟨fun h => h.up, fun h => ⟨hd.2, hd.1.symm, h⟩⟩

/-- The action never creates through strands. -/
theorem Cell.of_act {n b k : Nat} {D : List Nat} (hD : Crossingless D) (hl : D.length = n + b) (hk : b ≤ k) (hk' : k + 1 < D.length)
    (h : Cell n b (actSeq k D)) : Cell n b D := by
  refine ⟨hD, hl, fun i hi => ?_⟩
  have := h.up i hi
  rw [at_actSeq _ _ _ (by omega), cupCap, if_neg (by omega), if_neg (by omega)] at this
  split_ifs at this <;> omega

/-- A cell diagram pairs the first top point either with the last bottom point or with a later top point. -/
theorem Cell.first {n b : Nat} {D : List Nat} (h : Cell (n + 1) b D) : (∃ c, b = c + 1 ∧ at_ D b = c ∧ at_ D c = b) ∨ b < at_ D b := by
  have hl := h.len
  by_cases hb : b < at_ D b
  · exact .inr hb
  have h1 := h.nc.nofix b (by omega)
  have h2 := h.nc.invol b (by omega)
  refine .inl ⟨b - 1, by omega, ?_, ?_⟩
  · by_contra hne
    have h3 := h.up (b - 1) (by omega)
    have h4 := h.nc.invol (b - 1) (by omega)
    have h5 : at_ D (b - 1) ≠ b := fun e => by rw [e] at h4; omega
    refine h.nc.noncross (at_ D b) (b - 1) (by omega) (by omega) (by omega) ?_ ?_
    · rw [h2]; omega
    · rw [h2]; omega
  · have h3 := h.up (b - 1) (by omega)
    have : at_ D b = b - 1 := by
      by_contra hne
      have h4 := h.nc.invol (b - 1) (by omega)
      have h5 : at_ D (b - 1) ≠ b := fun e => by rw [e] at h4; omega
      refine h.nc.noncross (at_ D b) (b - 1) (by omega) (by omega) (by omega) ?_ ?_
      · rw [h2]; omega
      · rw [h2]; omega
    rw [this] at h2
    exact h2

/-- The first top point of a diagram whose last top point is a cup can be moved to the bottom. -/
theorem Cell.shift {n b : Nat} {D : List Nat} : (Cell (n + 1) b D ∧ b < at_ D b) ↔ Cell n (b + 1) D := by
  constructor
  · rintro ⟨h, hb⟩
    refine ⟨h.nc, by rw [h.len]; omega, fun i hi => ?_⟩
    by_cases hib : i = b
    · rw [hib]; omega
    · have h1 := h.up i (by omega)
      have h2 := h.nc.invol i (by rw [h.len]; omega)
      by_contra hlt
      have : at_ D i = b := by omega
      rw [this] at h2
      omega
  · intro h
    have := h.up b (by omega)
    exact ⟨⟨h.nc, by rw [h.len]; omega, fun i hi => by have := h.up i (by omega); omega⟩, by omega⟩

/-- Inserting a strand between the bottom and the top. -/
def insBar (b : Nat) (D : List Nat) : List Nat :=
  (List.range (D.length + 2)).map fun x => if x = b then b + 1 else if x = b + 1 then b else
    let y := at_ D (if x < b then x else x - 2)
    if y < b then y else y + 2

@[simp] theorem insBar_length (b : Nat) (D : List Nat) : (insBar b D).length = D.length + 2 := by simp [insBar]

theorem at_insBar (b : Nat) (D : List Nat) (x : Nat) (hx : x < D.length + 2) : at_ (insBar b D) x =
    if x = b then b + 1 else if x = b + 1 then b else
      if at_ D (if x < b then x else x - 2) < b then at_ D (if x < b then x else x - 2) else at_ D (if x < b then x else x - 2) + 2 :=
  at_range _ _ _ hx

theorem insert_eq (b : Nat) (D : List Nat) (hb : b ≤ D.length) : TL.insert D [1, 0] b = .ok (insBar b D) := by
  rw [TL.insert, pyAssert, if_pos (by simpa using hb), bind_ok]
  refine congrArg Except.ok (ext_at ?_ fun x hx => ?_)
  · simp only [insBar_length, List.length_append, List.length_map, List.length_take, List.length_drop, List.length_cons, List.length_nil]; omega
  have hx' : x < D.length + 2 := by
    simp only [List.length_append, List.length_map, List.length_take, List.length_drop, List.length_cons, List.length_nil] at hx; omega
  rw [at_insBar _ _ _ hx', at_, List.getD_eq_getElem?_getD]
  by_cases h1 : x < b
  · rw [List.getElem?_append_left (by simp; omega), List.getElem?_append_left (by simp; omega), List.getElem?_map, List.getElem?_take_of_lt h1,
      List.getElem?_eq_getElem (by omega : x < D.length)]
    rw [if_neg (by omega), if_neg (by omega), if_pos h1, at_lt _ _ (by omega)]
    rfl
  · by_cases h2 : x < b + 2
    · rw [List.getElem?_append_left (by simp; omega), List.getElem?_append_right (by simp; omega)]
      have : ((D.take b).map fun x => if x < b then x else x + [1, 0].length).length = b := by simp; omega
      rw [this]
      by_cases h3 : x = b
      · subst h3; simp; omega
      · have : x = b + 1 := by omega
        subst this; simp
    · have e : ((D.take b).map (fun x => if x < b then x else x + [1, 0].length) ++ [1, 0].map (· + b)).length = b + 2 := by simp; omega
      rw [List.getElem?_append_right (by rw [e]; omega), e, List.getElem?_map, List.getElem?_drop,
        List.getElem?_eq_getElem (by omega : b + (x - (b + 2)) < D.length), if_neg (by omega), if_neg (by omega), if_neg h1, at_lt _ _ (by omega)]
      simp only [show b + (x - (b + 2)) = x - 2 by omega]
      rfl

/-- The points other than the new strand, in terms of the old diagram. -/
theorem insBar_arc {b : Nat} {D : List Nat} (hD : Crossingless D) (x : Nat) (hx : x < D.length + 2) (h1 : x ≠ b) (h2 : x ≠ b + 1) (hb : b ≤ D.length) :
    ∃ y, y < D.length ∧ (y < b ∧ x = y ∨ b ≤ y ∧ x = y + 2) ∧
      (at_ D y < b ∧ at_ (insBar b D) x = at_ D y ∨ b ≤ at_ D y ∧ at_ (insBar b D) x = at_ D y + 2) ∧
      at_ D y < D.length ∧ at_ D y ≠ y ∧ at_ D (at_ D y) = y := by
  obtain ⟨y, y1, y2⟩ : ∃ y, y < D.length ∧ (y < b ∧ x = y ∨ b ≤ y ∧ x = y + 2) := ⟨if x < b then x else x - 2, by split_ifs <;> omega, by split_ifs <;> omega⟩
  refine ⟨y, y1, y2, ?_, hD.lt y y1, hD.nofix y y1, hD.invol y y1⟩
  rw [at_insBar _ _ _ hx, if_neg h1, if_neg h2]
  have : (if x < b then x else x - 2) = y := by split_ifs <;> omega
  rw [this]
  split_ifs <;> omega

theorem Cell.insBar {n b : Nat} {D : List Nat} (h : Cell n b D) : Cell (n + 1) (b + 1) (TL.insBar b D) := by
  have hl := h.len
  have arc := fun x hx h1 h2 => insBar_arc (b := b) h.nc x hx h1 h2 (by omega)
  have k0 : at_ (TL.insBar b D) b = b + 1 := by rw [at_insBar _ _ _ (by omega), if_pos rfl]
  have k1 : at_ (TL.insBar b D) (b + 1) = b := by rw [at_insBar _ _ _ (by omega), if_neg (by omega), if_pos rfl]
  refine ⟨⟨fun x hx => ?_, fun x hx => ?_, fun x hx => ?_, fun p q hp hq q1 q2 q3 => ?_⟩, by simp; omega, fun i hi => ?_⟩
  · rw [insBar_length] at hx ⊢
    by_cases h1 : x = b
    · subst h1; omega
    by_cases h2 : x = b + 1
    · subst h2; omega
    obtain ⟨y, y1, y2, y3, y4, y5, y6⟩ := arc x hx h1 h2
    omega
  · rw [insBar_length] at hx
    by_cases h1 : x = b
    · subst h1; omega
    by_cases h2 : x = b + 1
    · subst h2; omega
    obtain ⟨y, y1, y2, y3, y4, y5, y6⟩ := arc x hx h1 h2
    omega
  · rw [insBar_length] at hx
    by_cases h1 : x = b
    · subst h1; rw [k0, k1]
    by_cases h2 : x = b + 1
    · subst h2; rw [k1, k0]
    obtain ⟨y, y1, y2, y3, y4, y5, y6⟩ := arc x hx h1 h2
    obtain ⟨z, z1, z2, z3, z4, z5, z6⟩ := arc (at_ (TL.insBar b D) x) (by omega) (by omega) (by omega)
    have : z = at_ D y := by omega
    subst this
    omega
  · rw [insBar_length] at hp hq
    by_cases a1 : p = b
    · subst a1; omega
    by_cases a2 : p = b + 1
    · subst a2; omega
    obtain ⟨y, y1, y2, y3, y4, y5, y6⟩ := arc p hp a1 a2
    by_cases b1 : q = b
    · subst b1; omega
    by_cases b2 : q = b + 1
    · subst b2; omega
    obtain ⟨z, z1, z2, z3, z4, z5, z6⟩ := arc q hq b1 b2
    exact h.nc.noncross y z y1 z1 (by omega) (by omega) (by omega)
  · by_cases h1 : i = b
    · subst h1; omega
    obtain ⟨y, y1, y2, y3, y4, y5, y6⟩ := arc i (by omega) h1 (by omega)
    have := h.up y (by omega)
    omega

/-- Removing the strand. -/
def delBar (b : Nat) (D : List Nat) : List Nat :=
  (List.range (D.length - 2)).map fun x => let y := at_ D (if x < b then x else x + 2); if y < b then y else y - 2

theorem insBar_delBar {n b : Nat} {D : List Nat} (h : Cell (n + 1) (b + 1) D) (hb : at_ D (b + 1) = b) :
    Cell n b (delBar b D) ∧ insBar b (delBar b D) = D := by
  have hl := h.len
  have hb' : at_ D b = b + 1 := by have := h.nc.invol (b + 1) (by omega); rw [hb] at this; exact this
  have len : (delBar b D).length = D.length - 2 := by simp [delBar]
  have arc : ∀ x, x < D.length - 2 → ∃ y, y < D.length ∧ (y < b ∧ x = y ∨ b + 2 ≤ y ∧ y = x + 2) ∧
      (at_ D y < b ∧ at_ (delBar b D) x = at_ D y ∨ b + 2 ≤ at_ D y ∧ at_ D y = at_ (delBar b D) x + 2) ∧
      at_ D y < D.length ∧ at_ D y ≠ y ∧ at_ D (at_ D y) = y := by
    intro x hx
    obtain ⟨y, y1, y2⟩ : ∃ y, y < D.length ∧ (y < b ∧ x = y ∨ b + 2 ≤ y ∧ y = x + 2) :=
      ⟨if x < b then x else x + 2, by split_ifs <;> omega, by split_ifs <;> omega⟩
    have key : at_ (delBar b D) x = if at_ D y < b then at_ D y else at_ D y - 2 := by
      rw [delBar, at_range _ _ _ hx]
      have : (if x < b then x else x + 2) = y := by split_ifs <;> omega
      rw [this]
    have i1 := h.nc.invol y y1
    have n1 : at_ D y ≠ b := fun e => by rw [e, hb'] at i1; omega
    have n2 : at_ D y ≠ b + 1 := fun e => by rw [e, hb] at i1; omega
    refine ⟨y, y1, y2, ?_, h.nc.lt y y1, h.nc.nofix y y1, i1⟩
    rw [key]
    split_ifs <;> omega
  have cell : Cell n b (delBar b D) := by
    refine ⟨⟨fun x hx => ?_, fun x hx => ?_, fun x hx => ?_, fun p q hp hq q1 q2 q3 => ?_⟩, by omega, fun i hi => ?_⟩
    · rw [len] at hx ⊢
      obtain ⟨y, y1, y2, y3, y4, y5, y6⟩ := arc x hx
      omega
    · rw [len] at hx
      obtain ⟨y, y1, y2, y3, y4, y5, y6⟩ := arc x hx
      omega
    · rw [len] at hx
      obtain ⟨y, y1, y2, y3, y4, y5, y6⟩ := arc x hx
      obtain ⟨z, z1, z2, z3, z4, z5, z6⟩ := arc (at_ (delBar b D) x) (by omega)
      have : z = at_ D y := by omega
      subst this
      omega
    · rw [len] at hp hq
      obtain ⟨y, y1, y2, y3, y4, y5, y6⟩ := arc p hp
      obtain ⟨z, z1, z2, z3, z4, z5, z6⟩ := arc q hq
      exact h.nc.noncross y z y1 z1 (by omega) (by omega) (by omega)
    · obtain ⟨y, y1, y2, y3, y4, y5, y6⟩ := arc i (by omega)
      have := h.up y (by omega)
      omega
  refine ⟨cell, ext_at (by rw [insBar_length, len]; omega) fun x hx => ?_⟩
  rw [insBar_length, len] at hx
  by_cases h1 : x = b
  · rw [at_insBar _ _ _ (by rw [len]; omega), if_pos h1, h1, hb']
  by_cases h2 : x = b + 1
  · rw [at_insBar _ _ _ (by rw [len]; omega), if_neg h1, if_pos h2, h2, hb]
  obtain ⟨y, y1, y2, y3, y4, y5, y6⟩ := insBar_arc cell.nc x (by omega) h1 h2 (by omega)
  obtain ⟨z, z1, z2, z3, z4, z5, z6⟩ := arc y (by omega)
  have : z = x := by omega
  subst this
  omega

theorem insBar_inj {n b : Nat} {D E : List Nat} (hD : Cell n b D) (hE : Cell n b E) (h : insBar b D = insBar b E) : D = E := by
  have l1 := hD.len; have l2 := hE.len
  refine ext_at (by omega) fun x hx => ?_
  obtain ⟨x', hx'⟩ : ∃ x', x < b ∧ x' = x ∨ b ≤ x ∧ x' = x + 2 := ⟨if x < b then x else x + 2, by split_ifs <;> omega⟩
  obtain ⟨y, y1, y2, y3, y4, y5, y6⟩ := insBar_arc (b := b) hD.nc x' (by omega) (by omega) (by omega) (by omega)
  obtain ⟨z, z1, z2, z3, z4, z5, z6⟩ := insBar_arc (b := b) hE.nc x' (by omega) (by omega) (by omega) (by omega)
  have e1 : y = x := by omega
  have e2 : z = x := by omega
  subst e1; subst e2
  rw [h] at y3
  omega

/-- The only cell diagram without cups is the identity. -/
theorem Cell.eq_id {n : Nat} {D : List Nat} (h : Cell n n D) : D = idSeq n := by
  induction n generalizing D with
  | zero =>
    have := h.len
    exact ext_at (by simp [this]) fun i hi => by omega
  | succ n ih =>
    rcases h.first with ⟨c, c1, c2, c3⟩ | hf
    · have hc : c = n := by omega
      subst hc
      obtain ⟨d1, d2⟩ := insBar_delBar h c2
      rw [ih d1] at d2
      rw [← d2]
      have hl : (TL.insBar c (idSeq c)).length = 2 * c + 2 := by simp
      refine ext_at (by rw [hl, idSeq_length]; omega) fun x hx => ?_
      rw [hl] at hx
      rw [at_idSeq _ _ (by omega)]
      by_cases h1 : x = c
      · subst h1; rw [at_insBar _ _ _ (by simp; omega), if_pos rfl]; omega
      by_cases h2 : x = c + 1
      · subst h2; rw [at_insBar _ _ _ (by simp; omega), if_neg (by omega), if_pos rfl]; omega
      obtain ⟨y, y1, y2, y3, y4, y5, y6⟩ := insBar_arc (b := c) (idSeq_nc c) x (by simp; omega) h1 h2 (by simp; omega)
      rw [idSeq_length] at y1
      rw [at_idSeq _ _ y1] at y3
      omega
    · exfalso
      -- too many points below
      have h2 := Cell.shift.1 ⟨h, hf⟩
      have hi : Set.InjOn (at_ D) (Finset.range (n + 2) : Finset Nat) := by
        intro x hx y hy e
        simp only [Finset.coe_range, Set.mem_Iio] at hx hy
        have a := h.nc.invol x (by rw [h.len]; omega)
        have b := h.nc.invol y (by rw [h.len]; omega)
        rw [← a, e, b]
      have := Finset.card_le_card_of_injOn (s := Finset.range (n + 2)) (t := Finset.Ico (n + 2) (n + 1 + (n + 1))) (at_ D) (by
        intro x hx
        have hx' : x < n + 2 := by simpa using hx
        have a := h2.up x hx'
        have b := h.nc.lt x (by rw [h.len]; omega)
        rw [h.len] at b
        simp; omega) hi
      simp at this
      omega

end TL
end Peyl
