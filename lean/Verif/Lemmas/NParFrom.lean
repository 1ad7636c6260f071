import Verif.Lemmas.NParBlocks
/-!
# `from_components`, `is_parallel_descending_cycles`, `from_permutation`
-/
namespace Peyl
open Equiv Perms TL
variable {n : Nat}

theorem getD_lt {α : Type} {l : List α} {i : Nat} {d : α} (h : i < l.length) : l.getD i d = l[i] := by
  rw [List.getD_eq_getElem?_getD, List.getElem?_eq_getElem h]; rfl

theorem getD_inj {l : List Nat} (hl : l.Nodup) {i j : Nat} (hi : i < l.length) (hj : j < l.length) (h : l.getD i 0 = l.getD j 0) : i = j := by
  rw [getD_lt hi, getD_lt hj] at h; exact (hl.getElem_inj_iff).1 h

theorem getD_mem {l : List Nat} {i : Nat} (hi : i < l.length) : l.getD i 0 ∈ l := by rw [getD_lt hi]; exact List.getElem_mem _

theorem mem_getD {l : List Nat} {k : Nat} (h : k ∈ l) : ∃ i, i < l.length ∧ l.getD i 0 = k := by
  obtain ⟨i, hi, e⟩ := List.mem_iff_getElem.1 h; exact ⟨i, hi, by rw [getD_lt hi, e]⟩

theorem succ_mod_inj {i j m : Nat} (hi : i < m) (hj : j < m) (h : (i + 1) % m = (j + 1) % m) : i = j := by
  rcases Nat.lt_or_ge (i + 1) m with h1 | h1 <;> rcases Nat.lt_or_ge (j + 1) m with h2 | h2
  · rw [Nat.mod_eq_of_lt h1, Nat.mod_eq_of_lt h2] at h; omega
  · rw [Nat.mod_eq_of_lt h1, show j + 1 = m by omega, Nat.mod_self] at h; omega
  · rw [Nat.mod_eq_of_lt h2, show i + 1 = m by omega, Nat.mod_self] at h; omega
  · omega

theorem linkComponent_spec {inv comp : List Nat} (hnd : comp.Nodup) (hlt : ∀ k ∈ comp, 2 * k + 1 < inv.length) :
    (NPar.linkComponent inv comp).length = inv.length ∧
    (∀ i, i < comp.length → at_ (NPar.linkComponent inv comp) (2 * comp.getD i 0 + 1) = 2 * comp.getD ((i + 1) % comp.length) 0 ∧
      at_ (NPar.linkComponent inv comp) (2 * comp.getD ((i + 1) % comp.length) 0) = 2 * comp.getD i 0 + 1) ∧
    ∀ k, k ∉ comp → at_ (NPar.linkComponent inv comp) (2 * k) = at_ inv (2 * k) ∧ at_ (NPar.linkComponent inv comp) (2 * k + 1) = at_ inv (2 * k + 1) := by
  set A := fun i => comp.getD i 0 with hA
  set B := fun i => comp.getD ((i + 1) % comp.length) 0 with hB
  have inA : ∀ i j, i < comp.length → j < comp.length → A i = A j → i = j := fun i j hi hj h => getD_inj hnd hi hj h
  have inB : ∀ i j, i < comp.length → j < comp.length → B i = B j → i = j := fun i j hi hj h =>
    succ_mod_inj hi hj (getD_inj hnd (Nat.mod_lt _ (by omega)) (Nat.mod_lt _ (by omega)) h)
  have key : ∀ m, m ≤ comp.length →
      let r := (List.range m).foldl (init := inv) fun inv i => (inv.set (2 * A i + 1) (2 * B i)).set (2 * B i) (2 * A i + 1)
      r.length = inv.length ∧ (∀ i, i < m → at_ r (2 * A i + 1) = 2 * B i ∧ at_ r (2 * B i) = 2 * A i + 1) ∧
      ∀ k, (∀ i, i < m → k ≠ 2 * A i + 1 ∧ k ≠ 2 * B i) → at_ r k = at_ inv k := by
    intro m
    induction m with
    | zero => intro _; exact ⟨rfl, by intro i hi; omega, fun _ _ => rfl⟩
    | succ m ih =>
      intro hm
      obtain ⟨h1, h2, h3⟩ := ih (by omega)
      set r := (List.range m).foldl (init := inv) fun inv i => (inv.set (2 * A i + 1) (2 * B i)).set (2 * B i) (2 * A i + 1) with hr
      have e : (List.range (m + 1)).foldl (init := inv) (fun inv i => (inv.set (2 * A i + 1) (2 * B i)).set (2 * B i) (2 * A i + 1)) =
          (r.set (2 * A m + 1) (2 * B m)).set (2 * B m) (2 * A m + 1) := by
        rw [List.range_succ, List.foldl_append, ← hr]; rfl
      simp only [e]
      have la : 2 * A m + 1 < inv.length := hlt _ (getD_mem (by omega))
      have lb : 2 * B m + 1 < inv.length := hlt _ (getD_mem (Nat.mod_lt _ (by omega)))
      have hat : ∀ k, at_ ((r.set (2 * A m + 1) (2 * B m)).set (2 * B m) (2 * A m + 1)) k =
          if k = 2 * B m then 2 * A m + 1 else if k = 2 * A m + 1 then 2 * B m else at_ r k := by
        intro k
        rw [at_set, at_set, List.length_set, h1]
        have c1 : 2 * B m < inv.length := by omega
        simp only [c1, la, and_true]
      refine ⟨by simp [h1], fun i hi => ?_, fun k hk => ?_⟩
      · rw [hat, hat]
        rcases Nat.lt_succ_iff_lt_or_eq.1 hi with h | rfl
        · have n1 : A i ≠ A m := fun e => by have := inA i m (by omega) (by omega) e; omega
          have n2 : B i ≠ B m := fun e => by have := inB i m (by omega) (by omega) e; omega
          have := h2 i h
          rw [if_neg (by omega), if_neg (by omega), if_neg (by omega), if_neg (by omega)]
          exact this
        · rw [if_neg (by omega), if_pos rfl, if_pos rfl]; exact ⟨rfl, rfl⟩
      · have := hk m (by omega)
        rw [hat, if_neg this.2, if_neg this.1]
        exact h3 k fun i hi => hk i (by omega)
  obtain ⟨h1, h2, h3⟩ := key comp.length le_rfl
  refine ⟨h1, h2, fun k hk => ?_⟩
  have ne : ∀ i, i < comp.length → k ≠ A i ∧ k ≠ B i := fun i hi =>
    ⟨fun e => hk (e ▸ getD_mem hi), fun e => hk (e ▸ getD_mem (Nat.mod_lt _ (by omega)))⟩
  exact ⟨h3 _ fun i hi => by have := ne i hi; omega, h3 _ fun i hi => by have := ne i hi; omega⟩

theorem links_spec (L : List (List Nat)) : ∀ (inv : List Nat), L.flatten.Nodup → (∀ k ∈ L.flatten, 2 * k + 1 < inv.length) →
    (L.foldl NPar.linkComponent inv).length = inv.length ∧
    (∀ c ∈ L, ∀ i, i < c.length → at_ (L.foldl NPar.linkComponent inv) (2 * c.getD i 0 + 1) = 2 * c.getD ((i + 1) % c.length) 0 ∧
      at_ (L.foldl NPar.linkComponent inv) (2 * c.getD ((i + 1) % c.length) 0) = 2 * c.getD i 0 + 1) ∧
    ∀ k, k ∉ L.flatten → at_ (L.foldl NPar.linkComponent inv) (2 * k) = at_ inv (2 * k) ∧
      at_ (L.foldl NPar.linkComponent inv) (2 * k + 1) = at_ inv (2 * k + 1) := by
  induction L with
  | nil => intro inv _ _; exact ⟨rfl, by simp, fun _ _ => ⟨rfl, rfl⟩⟩
  | cons c L ih =>
    intro inv hnd hlt
    rw [List.flatten_cons, List.nodup_append] at hnd
    simp only [List.flatten_cons, List.mem_append] at hlt ⊢
    obtain ⟨l1, l2, l3⟩ := linkComponent_spec hnd.1 (fun k hk => hlt k (Or.inl hk))
    obtain ⟨h1, h2, h3⟩ := ih (NPar.linkComponent inv c) hnd.2.1 (fun k hk => by rw [l1]; exact hlt k (Or.inr hk))
    rw [List.foldl_cons]
    refine ⟨h1.trans l1, fun d hd i hi => ?_, fun k hk => ?_⟩
    · rcases List.mem_cons.1 hd with rfl | hd
      · have m1 := h3 _ (fun hc => hnd.2.2 _ (getD_mem hi) _ hc rfl)
        have m2 := h3 _ (fun hc => hnd.2.2 _ (getD_mem (Nat.mod_lt (i + 1) (by omega : d.length > 0))) _ hc rfl)
        rw [m1.2, m2.1]; exact l2 i hi
      · exact h2 d hd i hi
    · push Not at hk
      have m1 := h3 k hk.2
      have m2 := l3 k hk.1
      rw [m1.1, m1.2, m2.1, m2.2]; exact ⟨rfl, rfl⟩

/-- Linking ascending blocks produces the arcs of the descending permutation with these cycles. -/
theorem links_perm {L : List (List Nat)} (hnd : L.flatten.Nodup) (hlt : ∀ k ∈ L.flatten, k < n) (hasc : ∀ c ∈ L, c.Pairwise (· < ·)) :
    ∃ x : Perm (Fin n), L.foldl NPar.linkComponent (NPar.finest n).inv = (nparOf x).inv ∧ Descending x ∧
      ∀ a b, x.SameCycle a b ↔ a = b ∨ ∃ c ∈ L, (a : Nat) ∈ c ∧ (b : Nat) ∈ c := by
  have hfin : (NPar.finest n).inv.length = 2 * n := by simp [NPar.finest]
  obtain ⟨h1, h2, h3⟩ := links_spec L (NPar.finest n).inv hnd (fun k hk => by have := hlt k hk; omega)
  set r := L.foldl NPar.linkComponent (NPar.finest n).inv with hr
  rw [hfin] at h1
  have f1 : ∀ k, k < n → at_ (NPar.finest n).inv (2 * k) = 2 * k + 1 ∧ at_ (NPar.finest n).inv (2 * k + 1) = 2 * k := by
    intro k hk
    rw [finest_eq, show 2 * k = 2 * ((⟨k, hk⟩ : Fin n) : Nat) from rfl, nparOf_even, nparOf_odd]
    exact ⟨rfl, rfl⟩
  have hmem : ∀ c ∈ L, ∀ i, i < c.length → c.getD i 0 < n := fun c hc i hi => hlt _ (List.mem_flatten.2 ⟨c, hc, getD_mem hi⟩)
  have su : ∀ a : Fin n, ∃ b : Fin n, at_ r (2 * a + 1) = 2 * b ∧ at_ r (2 * b) = 2 * a + 1 := by
    intro a
    by_cases ha : (a : Nat) ∈ L.flatten
    · obtain ⟨c, hc, hac⟩ := List.mem_flatten.1 ha
      obtain ⟨i, hi, e⟩ := mem_getD hac
      have := h2 c hc i hi
      rw [e] at this
      exact ⟨⟨_, hmem c hc _ (Nat.mod_lt _ (by omega : c.length > 0))⟩, this⟩
    · exact ⟨a, by rw [(h3 a ha).1, (h3 a ha).2]; exact (f1 a a.2).symm⟩
  have pr : ∀ b : Fin n, ∃ a : Fin n, at_ r (2 * a + 1) = 2 * b ∧ at_ r (2 * b) = 2 * a + 1 := by
    intro b
    by_cases hb : (b : Nat) ∈ L.flatten
    · obtain ⟨c, hc, hbc⟩ := List.mem_flatten.1 hb
      obtain ⟨j, hj, e⟩ := mem_getD hbc
      have hpos : c.length > 0 := by omega
      have := h2 c hc ((j + c.length - 1) % c.length) (Nat.mod_lt _ hpos)
      have em : ((j + c.length - 1) % c.length + 1) % c.length = j := by
        rw [Nat.mod_add_mod, show j + c.length - 1 + 1 = j + c.length by omega, Nat.add_mod_right, Nat.mod_eq_of_lt hj]
      rw [em, e] at this
      exact ⟨⟨_, hmem c hc _ (Nat.mod_lt _ hpos)⟩, this⟩
    · exact ⟨b, by rw [(h3 b hb).1, (h3 b hb).2]; exact (f1 b b.2).symm⟩
  choose s hs1 hs2 using su
  choose p hp1 hp2 using pr
  let x : Perm (Fin n) :=
    { toFun := p
      invFun := s
      left_inv := fun b => by apply Fin.ext; have := hs1 (p b); rw [hp1] at this; omega
      right_inv := fun a => by apply Fin.ext; have := hp2 (s a); rw [hs2] at this; omega }
  have xp : ∀ b, x b = p b := fun _ => rfl
  have xs : ∀ a, x⁻¹ a = s a := fun _ => rfl
  have step : ∀ c (hc : c ∈ L) i (hi : i < c.length), x⁻¹ ⟨c.getD i 0, hmem c hc i hi⟩ =
      ⟨c.getD ((i + 1) % c.length) 0, hmem c hc _ (Nat.mod_lt _ (by omega))⟩ := by
    intro c hc i hi
    rw [xs]; apply Fin.ext
    have := hs1 ⟨c.getD i 0, hmem c hc i hi⟩
    rw [(h2 c hc i hi).1] at this
    simp only; omega
  have pstep : ∀ c (hc : c ∈ L) i (hi : i + 1 < c.length), x ⟨c.getD (i + 1) 0, hmem c hc _ hi⟩ = ⟨c.getD i 0, hmem c hc i (by omega)⟩ := by
    intro c hc i hi
    have := step c hc i (by omega)
    have e : (i + 1) % c.length = i + 1 := Nat.mod_eq_of_lt hi
    simp only [e] at this
    rw [← this, inv_apply]
  have hfix : ∀ k : Fin n, (k : Nat) ∉ L.flatten → x k = k := by
    intro k hk
    rw [xp]; apply Fin.ext
    have := hp2 k
    rw [(h3 k hk).1, (f1 k k.2).1] at this; omega
  have hsame : ∀ a b, x.SameCycle a b ↔ a = b ∨ ∃ c ∈ L, (a : Nat) ∈ c ∧ (b : Nat) ∈ c := by
    intro a b
    constructor
    · intro h
      refine sameCycle_mem (p := fun j => a = j ∨ ∃ c ∈ L, (a : Nat) ∈ c ∧ (j : Nat) ∈ c) (fun j hj => ?_) h (Or.inl rfl)
      by_cases hm : (j : Nat) ∈ L.flatten
      · obtain ⟨c, hc, hjc⟩ := List.mem_flatten.1 hm
        have hac : (a : Nat) ∈ c := by
          rcases hj with rfl | ⟨d, hd, h4, h5⟩
          · exact hjc
          · have : c = d := by
              by_contra hne
              obtain ⟨i1, hi1, rfl⟩ := List.mem_iff_getElem.1 hc
              obtain ⟨i2, hi2, rfl⟩ := List.mem_iff_getElem.1 hd
              have hpw := List.pairwise_iff_getElem.1 (List.nodup_flatten.1 hnd).2
              rcases lt_trichotomy i1 i2 with h | h | h
              · exact hpw _ _ hi1 hi2 h hjc h5
              · subst h; exact hne rfl
              · exact hpw _ _ hi2 hi1 h h5 hjc
            rw [this]; exact h4
        refine Or.inr ⟨c, hc, hac, ?_⟩
        obtain ⟨i, hi, e⟩ := mem_getD hjc
        have hpos : c.length > 0 := by omega
        have st := step c hc ((i + c.length - 1) % c.length) (Nat.mod_lt _ hpos)
        have em : ((i + c.length - 1) % c.length + 1) % c.length = i := by
          rw [Nat.mod_add_mod, show i + c.length - 1 + 1 = i + c.length by omega, Nat.add_mod_right, Nat.mod_eq_of_lt hi]
        simp only [em, e] at st
        rw [show j = x⁻¹ _ from (st.trans rfl).symm, inv_apply]
        exact getD_mem (Nat.mod_lt _ hpos)
      · rw [hfix j hm]; exact hj
    · rintro (rfl | ⟨c, hc, h4, h5⟩)
      · exact .refl _ _
      · have hall : ∀ i (hi : i < c.length), x.SameCycle ⟨c.getD 0 0, hmem c hc 0 (by omega)⟩ ⟨c.getD i 0, hmem c hc i hi⟩ := by
          intro i
          induction i with
          | zero => intro _; exact .refl _ _
          | succ i ih => intro hi; exact (ih (by omega)).trans (by rw [← pstep c hc i hi]; exact Perm.sameCycle_apply_left.2 (.refl _ _))
        obtain ⟨i, hi, e⟩ := mem_getD h4
        obtain ⟨j, hj, e'⟩ := mem_getD h5
        have k1 := hall i hi; have k2 := hall j hj
        simp only [e, e'] at k1 k2
        exact k1.symm.trans k2
  refine ⟨x, ?_, ?_, hsame⟩
  · refine list_ext_at h1 (nparOf_length x) fun k hk => ?_
    rw [nparOf_at x hk]
    obtain ⟨i, hi⟩ : ∃ i : Fin n, k = 2 * i ∨ k = 2 * i + 1 := ⟨⟨k / 2, by omega⟩, by simp only; omega⟩
    rcases hi with rfl | rfl
    · rw [arcOf_even]; exact hp2 i
    · rw [arcOf_odd]; exact hs1 i
  · intro a b hab hlt'
    rcases (hsame a b).1 hab with rfl | ⟨c, hc, h4, h5⟩
    · exact absurd hlt' (lt_irrefl _)
    · obtain ⟨i, hi, e⟩ := mem_getD h4
      obtain ⟨j, hj, e'⟩ := mem_getD h5
      have mono := List.pairwise_iff_getElem.1 (hasc c hc)
      have hij : i < j := by
        by_contra hc'
        rcases eq_or_lt_of_le (not_lt.1 hc') with rfl | hlt2
        · rw [Fin.lt_def] at hlt'; omega
        · have := mono j i hj hi hlt2
          rw [← getD_lt (d := 0) hj, ← getD_lt (d := 0) hi, e, e'] at this
          rw [Fin.lt_def] at hlt'; omega
      obtain ⟨j, rfl⟩ : ∃ j', j = j' + 1 := ⟨j - 1, by omega⟩
      have st := pstep c hc j hj
      simp only [e'] at st
      rw [show x b = _ from st]
      constructor
      · rw [Fin.le_def]; simp only
        rcases eq_or_lt_of_le (Nat.lt_succ_iff.1 hij) with rfl | h6
        · omega
        · have := mono i j hi (by omega) h6
          rw [← getD_lt (d := 0) hi, ← getD_lt (d := 0) (by omega : j < c.length), e] at this
          omega
      · rw [Fin.lt_def]; simp only
        have := mono j (j + 1) (by omega) hj (by omega)
        rw [← getD_lt (d := 0) hj, ← getD_lt (d := 0) (by omega : j < c.length), e'] at this
        exact this

theorem disjointLoop_iff (l : List Int) : ∀ seen, NPar.disjointLoop seen l = true ↔ l.Nodup ∧ ∀ x ∈ l, x ∉ seen := by
  induction l with
  | nil => intro seen; simp [NPar.disjointLoop]
  | cons x l ih =>
    intro seen
    unfold NPar.disjointLoop
    split_ifs with h
    · have : x ∈ seen := by simpa using h
      simp [this]
    · have hx : x ∉ seen := by simpa using h
      rw [ih, List.nodup_cons]
      constructor
      · rintro ⟨h1, h2⟩
        refine ⟨⟨fun hc => h2 x hc (by simp), h1⟩, fun y hy => ?_⟩
        rcases List.mem_cons.1 hy with rfl | hy
        · exact hx
        · exact fun hc => h2 y hy (by simp [hc])
      · rintro ⟨⟨h1, h2⟩, h3⟩
        refine ⟨h2, fun y hy hc => ?_⟩
        rcases List.mem_cons.1 hc with rfl | hc
        · exact h1 hy
        · exact h3 y (by simp [hy]) hc

theorem disjoint_iff (comps : List (List Int)) : NPar.arePairwiseDisjoint comps = true ↔ comps.flatten.Nodup := by
  rw [NPar.arePairwiseDisjoint, disjointLoop_iff]; simp

/-- `from_components` on disjoint components in range. -/
theorem fromComponents_spec {comps : List (List Int)} (h1 : comps.flatten.Nodup) (h2 : ∀ k ∈ comps.flatten, 0 ≤ k ∧ k < n) :
    ∃ x : Perm (Fin n), Descending x ∧ (∀ a b, x.SameCycle a b ↔ a = b ∨ ∃ c ∈ comps, (a : Int) ∈ c ∧ (b : Int) ∈ c) ∧
      (NCP x → NPar.fromComponents n comps = .ok (nparOf x)) ∧ (¬ NCP x → NPar.fromComponents n comps = .error .value) := by
  set L := comps.map fun comp => (comp.map Int.toNat).insertionSort (· ≤ ·) with hL
  have hfl : ∀ (l : List (List Int)), (l.map fun comp => (comp.map Int.toNat).insertionSort (· ≤ ·)).flatten.Perm (l.flatten.map Int.toNat) := by
    intro l
    induction l with
    | nil => simp
    | cons c l ih =>
      rw [List.map_cons, List.flatten_cons, List.flatten_cons, List.map_append]
      exact (List.perm_insertionSort _ _).append ih
  have hinj : ∀ a ∈ comps.flatten, ∀ b ∈ comps.flatten, a.toNat = b.toNat → a = b := by
    intro a ha b hb e
    have := h2 a ha; have := h2 b hb; omega
  have hnd : L.flatten.Nodup := (hfl comps).nodup_iff.2 ((List.nodup_map_iff_inj_on h1).2 hinj)
  have hlt : ∀ k ∈ L.flatten, k < n := by
    intro k hk
    obtain ⟨a, ha, rfl⟩ := List.mem_map.1 ((hfl comps).mem_iff.1 hk)
    have := h2 a ha; omega
  have hasc : ∀ c ∈ L, c.Pairwise (· < ·) := by
    intro c hc
    have hs : c.Pairwise (· ≤ ·) := by
      obtain ⟨d, -, rfl⟩ := List.mem_map.1 hc
      exact List.pairwise_insertionSort _ _
    have := (List.nodup_flatten.1 hnd).1 c hc
    exact List.Pairwise.imp₂ (fun a b h h' => lt_of_le_of_ne h h') hs this
  obtain ⟨x, x1, x2, x3⟩ := links_perm hnd hlt hasc
  have hn : ∀ (k : Fin n) (c : List Int), c ∈ comps → ((k : Nat) ∈ (c.map Int.toNat).insertionSort (· ≤ ·) ↔ (k : Int) ∈ c) := by
    intro k c hc
    rw [List.mem_insertionSort, List.mem_map]
    constructor
    · rintro ⟨a, ha, e⟩
      have := h2 a (List.mem_flatten.2 ⟨c, hc, ha⟩)
      rw [show (k : Int) = a by omega]; exact ha
    · intro h; exact ⟨_, h, by simp⟩
  refine ⟨x, x2, fun a b => ?_, fun hN => ?_, fun hN => ?_⟩
  · rw [x3]
    refine or_congr Iff.rfl ?_
    constructor
    · rintro ⟨c, hc, ha, hb⟩
      obtain ⟨d, hd, rfl⟩ := List.mem_map.1 hc
      exact ⟨d, hd, (hn a d hd).1 ha, (hn b d hd).1 hb⟩
    · rintro ⟨d, hd, ha, hb⟩
      exact ⟨_, List.mem_map.2 ⟨d, hd, rfl⟩, (hn a d hd).2 ha, (hn b d hd).2 hb⟩
  all_goals
    have g1 : NPar.arePairwiseDisjoint comps = true := (disjoint_iff _).2 h1
    have g2 : (comps.all fun comp => comp.all fun x => decide (0 ≤ x ∧ x < n)) = true := by
      rw [List.all_eq_true]; intro c hc
      rw [List.all_eq_true]; intro k hk
      exact decide_eq_true (h2 k (List.mem_flatten.2 ⟨c, hc, hk⟩))
    unfold NPar.fromComponents
    rw [if_neg (by simp [g1]), if_neg (by rw [g2]; simp)]
    simp only [← hL]
    rw [x1, isCM_spec, bind_ok]
  · have : Crossingless (nparOf x).inv := (nparOf_ok.2 hN).2
    simp only [this, decide_true, if_true]
    rfl
  · have : ¬ Crossingless (nparOf x).inv := fun hc => hN (nparOf_ok.1 ⟨nparOf_length x, hc⟩)
    simp only [this, decide_false, Bool.false_eq_true, if_false]

theorem fromComponents_bad {comps : List (List Int)} (h : ¬ (comps.flatten.Nodup ∧ ∀ k ∈ comps.flatten, 0 ≤ k ∧ k < n)) :
    NPar.fromComponents n comps = .error .value := by
  unfold NPar.fromComponents
  by_cases h1 : NPar.arePairwiseDisjoint comps = true
  · rw [if_neg (by simp [h1])]
    by_cases h2 : (comps.all fun comp => comp.all fun x => decide (0 ≤ x ∧ x < n)) = true
    · exfalso
      refine h ⟨(disjoint_iff _).1 h1, fun k hk => ?_⟩
      rw [List.all_eq_true] at h2
      obtain ⟨c, hc, hkc⟩ := List.mem_flatten.1 hk
      have := h2 c hc
      rw [List.all_eq_true] at this
      exact of_decide_eq_true (this k hkc)
    · rw [if_pos h2]
  · rw [if_pos h1]

end Peyl
