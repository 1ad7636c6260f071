import Verif.Lemmas.TLComposeSpec
/-!
# Composition with identities and with the generators `e_i`
-/
namespace Peyl
namespace TL

theorem at_range (T : Nat) (f : Nat → Nat) (i : Nat) (h : i < T) : at_ ((List.range T).map f) i = f i := by
  rw [at_lt _ _ (by simpa using h)]; simp

theorem ext_at {s t : List Nat} (hl : s.length = t.length) (h : ∀ i, i < s.length → at_ s i = at_ t i) : s = t := by
  apply List.ext_getElem hl
  intro i h1 h2
  rw [← at_lt s i h1, ← at_lt t i h2, h i h1]

section
variable {upper lower : List Nat} {mid : Nat}

theorem Joined.refl (x : Pt) : Joined upper lower mid x x := Relation.EqvGen.refl _
theorem Joined.symm {x y : Pt} (h : Joined upper lower mid x y) : Joined upper lower mid y x := Relation.EqvGen.symm _ _ h
theorem Joined.trans {x y z : Pt} (h : Joined upper lower mid x y) (h' : Joined upper lower mid y z) : Joined upper lower mid x z :=
  Relation.EqvGen.trans _ _ _ h h'
theorem Joined.lowArc {v w : Nat} (h : v < lower.length) (e : at_ lower v = w) : Joined upper lower mid (false, v) (false, w) :=
  e ▸ Relation.EqvGen.rel _ _ (.lower v h)
theorem Joined.upArc {v w : Nat} (h : v < upper.length) (e : at_ upper v = w) : Joined upper lower mid (true, v) (true, w) :=
  e ▸ Relation.EqvGen.rel _ _ (.upper v h)
theorem Joined.glue {v w : Nat} (h : v < mid) (e : lower.length - 1 - v = w) : Joined upper lower mid (true, v) (false, w) :=
  e ▸ Relation.EqvGen.rel _ _ (.glue v h)

theorem Joined.closed (X : Pt → Prop) (h : ∀ x y, Link upper lower mid x y → (X x ↔ X y)) {x y : Pt} (hj : Joined upper lower mid x y) :
    X x ↔ X y := by
  induction hj with
  | rel x y hxy => exact h x y hxy
  | refl => exact Iff.rfl
  | symm _ _ _ ih => exact ih.symm
  | trans _ _ _ _ _ ih1 ih2 => exact ih1.trans ih2

theorem compose_eq (hu : Crossingless upper) (hl : Crossingless lower) (h1 : mid ≤ lower.length) (h2 : mid ≤ upper.length)
    (res : List Nat) (hlen : res.length = (lower.length - mid) + (upper.length - mid))
    (hres : ∀ i, i < res.length → at_ res i < res.length ∧ at_ res i ≠ i ∧
      Joined upper lower mid (outer lower mid i) (outer lower mid (at_ res i))) :
    compose upper lower mid = .ok (res, (closedLoops upper lower mid).ncard) ∧ Crossingless res := by
  obtain ⟨r, r1, r2, r3, r4⟩ := compose_spec hu hl h1 h2
  have : r = res := by
    refine ext_at (by omega) fun i hi => ?_
    obtain ⟨a, b, c⟩ := hres i (by omega)
    exact (r4 i _ (by omega) (by omega)).2 ⟨fun e => b e.symm, c⟩
  rw [← this]
  exact ⟨r1, r3⟩

theorem no_loops (h : ∀ v, v < mid → ∃ i, i < (lower.length - mid) + (upper.length - mid) ∧ Joined upper lower mid (true, v) (outer lower mid i)) :
    (closedLoops upper lower mid).ncard = 0 := by
  have : closedLoops upper lower mid = ∅ := by
    ext C
    simp only [closedLoops, Set.mem_setOf_eq, Set.mem_empty_iff_false, iff_false]
    rintro ⟨v, hv, rfl, hno⟩
    obtain ⟨i, hi, hj⟩ := h v hv
    exact hno i hi hj
  rw [this, Set.ncard_empty]
end

/-- The identity matching. -/
def idSeq (n : Nat) : List Nat := (List.range (2 * n)).map fun i => 2 * n - i - 1

@[simp] theorem idSeq_length (n : Nat) : (idSeq n).length = 2 * n := by simp [idSeq]

theorem at_idSeq (n i : Nat) (h : i < 2 * n) : at_ (idSeq n) i = 2 * n - i - 1 := at_range _ _ _ h

theorem idSeq_nc (n : Nat) : Crossingless (idSeq n) := by
  refine ⟨fun i hi => ?_, fun i hi => ?_, fun i hi => ?_, fun a b ha hb q1 q2 q3 => ?_⟩ <;> rw [idSeq_length] at *
  · rw [at_idSeq n i hi]; omega
  · rw [at_idSeq n i hi]; omega
  · rw [at_idSeq n i hi, at_idSeq n _ (by omega)]; omega
  · rw [at_idSeq n a ha, at_idSeq n b hb] at q3; omega

theorem compose_id_left {D : List Nat} {n : Nat} (hD : Crossingless D) (hn : n ≤ D.length) : compose (idSeq n) D n = .ok (D, 0) := by
  have key : ∀ k, k < D.length → Joined (idSeq n) D n (outer D n k) (false, k) := by
    intro k hk
    unfold outer
    split
    · exact .refl _
    · refine Joined.trans (Joined.upArc (w := D.length - 1 - k) (by simp; omega) ?_) (Joined.glue (by omega) (by omega))
      rw [at_idSeq _ _ (by omega)]; omega
  have h := compose_eq (mid := n) (idSeq_nc n) hD hn (by simp; omega) D (by simp; omega) fun i hi => ⟨hD.lt i hi, hD.nofix i hi, ?_⟩
  · rw [h.1, no_loops]
    intro v hv
    refine ⟨D.length - 1 - v, by simp; omega, ?_⟩
    exact (Joined.glue hv rfl).trans (key _ (by omega)).symm
  · exact (key i hi).trans ((Joined.lowArc hi rfl).trans (key _ (hD.lt i hi)).symm)

theorem compose_id_right {D : List Nat} {n : Nat} (hD : Crossingless D) (hn : n ≤ D.length) : compose D (idSeq n) n = .ok (D, 0) := by
  have key : ∀ k, k < D.length → Joined D (idSeq n) n (outer (idSeq n) n k) (true, k) := by
    intro k hk
    unfold outer
    simp only [idSeq_length]
    split
    · refine (Joined.lowArc (w := 2 * n - k - 1) (by simp; omega) (at_idSeq _ _ (by omega))).trans (Joined.glue (by omega) ?_).symm
      simp; omega
    · rw [show k - (2 * n - n) + n = k by omega]; exact .refl _
  have h := compose_eq (mid := n) hD (idSeq_nc n) (by simp; omega) hn D (by simp; omega) fun i hi => ⟨hD.lt i hi, hD.nofix i hi, ?_⟩
  · rw [h.1, no_loops]
    intro v hv
    exact ⟨v, by simp; omega, (key v (by omega)).symm⟩
  · exact (key i hi).trans ((Joined.upArc hi rfl).trans (key _ (hD.lt i hi)).symm)

/-! ### The generators -/

/-- Cutting the arcs at the neighbours `k`, `k+1` and joining: what `e` does to a matching. -/
def cupCap (k : Nat) (f : Nat → Nat) (x : Nat) : Nat :=
  if x = k then k + 1 else if x = k + 1 then k else if f x = k then f (k + 1) else if f x = k + 1 then f k else f x

/-- `cupCap` on lists. -/
def actSeq (k : Nat) (D : List Nat) : List Nat := (List.range D.length).map (cupCap k (at_ D))

@[simp] theorem actSeq_length (k : Nat) (D : List Nat) : (actSeq k D).length = D.length := by simp [actSeq]

theorem at_actSeq (k : Nat) (D : List Nat) (i : Nat) (h : i < D.length) : at_ (actSeq k D) i = cupCap k (at_ D) i := at_range _ _ _ h

/-- The number of loops `e` creates. -/
def actLoops (k : Nat) (D : List Nat) : Nat := if at_ D k = k + 1 then 1 else 0

theorem eSeq_length (i n : Nat) : (eSeq i n).length = 2 * n := by simp [eSeq]

theorem eSeq_eq {i n : Nat} (h : i + 1 < n) : eSeq i n = actSeq i (idSeq n) := by
  refine ext_at (by simp [eSeq_length]) fun x hx => ?_
  rw [eSeq_length] at hx
  rw [at_actSeq _ _ _ (by simpa using hx)]
  unfold cupCap
  rw [at_idSeq _ _ hx, at_idSeq _ _ (by omega), at_idSeq _ _ (by omega)]
  unfold eSeq at_
  simp only [List.getD_eq_getElem?_getD, List.getElem?_set, List.length_set, List.length_map, List.length_range]
  have hx' : (List.map (fun i => 2 * n - i - 1) (List.range (2 * n)))[x]? = some (2 * n - x - 1) := by
    simp [hx]
  rw [hx']
  have c1 : i < 2 * n := by omega
  have c2 : i + 1 < 2 * n := by omega
  have c3 : 2 * n - i - 1 < 2 * n := by omega
  have c4 : 2 * n - i - 2 < 2 * n := by omega
  simp only [c1, c2, c3, c4, if_true]
  by_cases q1 : x = i
  · subst q1
    rw [if_neg (by omega), if_neg (by omega), if_neg (by omega), if_pos rfl, if_pos rfl]; rfl
  · by_cases q2 : x = i + 1
    · subst q2
      rw [if_neg (by omega), if_neg (by omega), if_pos rfl, if_neg (by omega), if_pos rfl]; rfl
    · by_cases q3 : 2 * n - i - 1 = x
      · subst q3
        rw [if_neg (by omega), if_pos rfl, if_neg (by omega), if_neg (by omega), if_pos (by omega), Option.getD_some]; omega
      · by_cases q4 : 2 * n - i - 2 = x
        · subst q4
          rw [if_pos rfl, if_neg (by omega), if_neg (by omega), if_neg (by omega), if_pos (by omega), Option.getD_some]
        · rw [if_neg q4, if_neg q3, if_neg (by omega), if_neg (by omega), if_neg q1, if_neg q2, if_neg (by omega), if_neg (by omega), Option.getD_some]

/-- `cupCap` of a crossingless matching at two neighbouring points of the line is again one (no bound on the number of arcs). -/
theorem act_involutive {D : List Nat} (hD : Crossingless D) {k : Nat} (hk : k + 1 < D.length) (x : Nat) (hx : x < D.length) :
    cupCap k (at_ D) x < D.length ∧ cupCap k (at_ D) x ≠ x := by
  have a1 := hD.lt k (by omega); have a2 := hD.lt (k + 1) hk; have a3 := hD.lt x hx
  have b1 := hD.invol k (by omega); have b2 := hD.invol (k + 1) hk; have b3 := hD.invol x hx
  have c1 := hD.nofix x hx
  unfold cupCap
  split_ifs with q1 q2 q3 q4
  · omega
  · omega
  · refine ⟨a2, fun e => ?_⟩
    rw [q3] at b3; rw [e] at b2; omega
  · refine ⟨a1, fun e => ?_⟩
    rw [q4] at b3; rw [e] at b1; omega
  · exact ⟨a3, c1⟩

section
variable {upper lower : List Nat} {mid : Nat}

/-- The common part of composing with `e` from above and from below. -/
theorem compose_act (hu : Crossingless upper) (hl : Crossingless lower) (h1 : mid ≤ lower.length) (h2 : mid ≤ upper.length)
    {D : List Nat} (hD : Crossingless D) (hT : D.length = (lower.length - mid) + (upper.length - mid)) {k i : Nat} (hk : k + 1 < D.length)
    (hi : i + 1 < mid) (p : Nat → Pt) (hp : ∀ x, x < D.length → Joined upper lower mid (p x) (p (at_ D x)))
    (hpo : ∀ x, x < D.length → x ≠ k → x ≠ k + 1 → Joined upper lower mid (outer lower mid x) (p x))
    (hoo : Joined upper lower mid (outer lower mid k) (outer lower mid (k + 1))) (hpp : Joined upper lower mid (p k) (p (k + 1)))
    (hmid : ∀ v, v < mid → v ≠ i → v ≠ i + 1 → ∃ x, x < D.length ∧ Joined upper lower mid (true, v) (outer lower mid x))
    (hm1 : Joined upper lower mid (true, i) (p k)) (hm2 : Joined upper lower mid (true, i) (true, i + 1))
    (hloop : at_ D k = k + 1 → at_ upper i = i + 1 ∧ at_ lower (lower.length - 1 - i) = lower.length - 1 - (i + 1))  :
    compose upper lower mid = .ok (actSeq k D, actLoops k D) ∧ Crossingless (actSeq k D) := by
  have a1 := hD.lt k (by omega); have a2 := hD.lt (k + 1) hk
  have b1 := hD.invol k (by omega); have b2 := hD.invol (k + 1) hk
  have f1 := hD.nofix k (by omega); have f2 := hD.nofix (k + 1) hk
  have h := compose_eq hu hl h1 h2 (actSeq k D) (by simpa using hT) fun x hx => ?_
  · refine ⟨?_, h.2⟩
    rw [h.1]
    congr 2
    unfold actLoops
    split
    · next hloop1 =>
      obtain ⟨e1, e2⟩ := hloop hloop1
      have e1' : at_ upper (i + 1) = i := by rw [← e1]; exact hu.invol i (by omega)
      have e2' : at_ lower (lower.length - 1 - (i + 1)) = lower.length - 1 - i := by rw [← e2]; exact hl.invol _ (by omega)
      -- the loop
      have hcl : ∀ y, Joined upper lower mid (true, i) y → (y = (true, i) ∨ y = (true, i + 1) ∨ y = (false, lower.length - 1 - i) ∨
          y = (false, lower.length - 1 - (i + 1))) := by
        intro y hy
        have := Joined.closed (fun y => y = (true, i) ∨ y = (true, i + 1) ∨ y = (false, lower.length - 1 - i) ∨
          y = (false, lower.length - 1 - (i + 1))) ?_ hy
        · exact this.1 (Or.inl rfl)
        · rintro _ _ (⟨v, hv⟩ | ⟨v, hv⟩ | ⟨v, hv⟩)
          · have hvi := hl.invol v hv
            simp only [Prod.mk.injEq, Bool.false_eq_true, false_and, true_and, false_or]
            constructor
            · rintro (rfl | rfl)
              · exact Or.inr e2
              · exact Or.inl e2'
            · rintro (e | e)
              · rw [e, e2] at hvi; exact Or.inr hvi.symm
              · rw [e, e2'] at hvi; exact Or.inl hvi.symm
          · have hvi := hu.invol v hv
            simp only [Prod.mk.injEq, Bool.true_eq_false, false_and, true_and, or_false]
            constructor
            · rintro (rfl | rfl)
              · exact Or.inr e1
              · exact Or.inl e1'
            · rintro (e | e)
              · rw [e, e1] at hvi; exact Or.inr hvi.symm
              · rw [e, e1'] at hvi; exact Or.inl hvi.symm
          · simp only [Prod.mk.injEq, Bool.true_eq_false, Bool.false_eq_true, false_and, true_and, or_false, false_or]
            omega
      have : closedLoops upper lower mid = {{x | Joined upper lower mid (true, i) x}} := by
        ext C
        simp only [closedLoops, Set.mem_setOf_eq, Set.mem_singleton_iff]
        constructor
        · rintro ⟨v, hv, rfl, hno⟩
          by_cases hvi : v = i
          · rw [hvi]
          by_cases hvi' : v = i + 1
          · subst hvi'
            ext x
            exact ⟨fun hx => hm2.trans hx, fun hx => hm2.symm.trans hx⟩
          · obtain ⟨x, hx, hj⟩ := hmid v hv hvi hvi'
            exact absurd hj (hno x (by omega))
        · rintro rfl
          refine ⟨i, by omega, rfl, fun x hx hj => ?_⟩
          have := hcl _ hj
          unfold outer at this
          split at this
          · simp only [Prod.mk.injEq, Bool.false_eq_true, false_and, true_and, false_or] at this; omega
          · simp only [Prod.mk.injEq, Bool.true_eq_false, false_and, true_and, or_false] at this; omega
      rw [this, Set.ncard_singleton]
    · next hne =>
      apply no_loops
      -- the component of `p k` reaches the outside
      have hk' : at_ D k ≠ k := f1
      have hout := (hp k (by omega)).trans (hpo (at_ D k) a1 f1 hne).symm
      intro v hv
      by_cases hvi : v = i
      · subst hvi
        exact ⟨at_ D k, by omega, hm1.trans hout⟩
      by_cases hvi' : v = i + 1
      · subst hvi'
        exact ⟨at_ D k, by omega, hm2.symm.trans (hm1.trans hout)⟩
      · obtain ⟨x, hx, hj⟩ := hmid v hv hvi hvi'
        exact ⟨x, by omega, hj⟩
  · rw [actSeq_length] at hx ⊢
    rw [at_actSeq _ _ _ hx]
    obtain ⟨i1, i2⟩ := act_involutive hD hk x hx
    refine ⟨i1, i2, ?_⟩
    have b3 := hD.invol x hx
    have a3 := hD.lt x hx
    unfold cupCap
    split_ifs with q1 q2 q3 q4
    · rw [q1]; exact hoo
    · rw [q2]; exact hoo.symm
    · rw [q3] at b3
      have hne1 : at_ D (k + 1) ≠ k := fun e => by rw [e] at b2; omega
      refine (hpo x hx q1 q2).trans ((hp x hx).trans ?_)
      rw [q3]
      exact hpp.trans ((hp (k + 1) hk).trans (hpo _ a2 hne1 f2).symm)
    · rw [q4] at b3
      have hne1 : at_ D k ≠ k + 1 := fun e => by rw [e] at b1; omega
      refine (hpo x hx q1 q2).trans ((hp x hx).trans ?_)
      rw [q4]
      exact hpp.symm.trans ((hp k (by omega)).trans (hpo _ a1 f1 hne1).symm)
    · exact (hpo x hx q1 q2).trans ((hp x hx).trans (hpo _ a3 q3 q4).symm)
end

theorem eSeq_nc {i n : Nat} (h : i + 1 < n) : Crossingless (eSeq i n) := by
  rw [eSeq_eq h]
  have at' : ∀ x, x < 2 * n → at_ (actSeq i (idSeq n)) x = if x = i then i + 1 else if x = i + 1 then i else
      if x = 2 * n - 1 - i then 2 * n - 2 - i else if x = 2 * n - 2 - i then 2 * n - 1 - i else 2 * n - 1 - x := by
    intro x hx
    rw [at_actSeq _ _ _ (by simpa using hx), cupCap, at_idSeq _ _ hx, at_idSeq _ _ (by omega), at_idSeq _ _ (by omega)]
    split_ifs <;> omega
  refine ⟨fun x hx => ?_, fun x hx => ?_, fun x hx => ?_, fun a b ha hb q1 q2 q3 => ?_⟩ <;> rw [actSeq_length, idSeq_length] at *
  · rw [at' x hx]; split_ifs <;> omega
  · rw [at' x hx]; split_ifs <;> omega
  · rw [at' x hx]
    have : (if x = i then i + 1 else if x = i + 1 then i else
      if x = 2 * n - 1 - i then 2 * n - 2 - i else if x = 2 * n - 2 - i then 2 * n - 1 - i else 2 * n - 1 - x) < 2 * n := by
      split_ifs <;> omega
    rw [at' _ this]; split_ifs <;> omega
  · rw [at' a ha] at q2 q3
    rw [at' b hb] at q3
    split_ifs at q2 q3 <;> omega

theorem at_eSeq {i n : Nat} (h : i + 1 < n) (x : Nat) (hx : x < 2 * n) : at_ (eSeq i n) x = if x = i then i + 1 else if x = i + 1 then i else
      if x = 2 * n - 1 - i then 2 * n - 2 - i else if x = 2 * n - 2 - i then 2 * n - 1 - i else 2 * n - 1 - x := by
  rw [eSeq_eq h, at_actSeq _ _ _ (by simpa using hx), cupCap, at_idSeq _ _ hx, at_idSeq _ _ (by omega), at_idSeq _ _ (by omega)]
  split_ifs <;> omega

/-- `e_i` on top of `D`. -/
theorem compose_e_left {D : List Nat} {n i : Nat} (hD : Crossingless D) (hn : n ≤ D.length) (hi : i + 1 < n) :
    compose (eSeq i n) D n = .ok (actSeq (D.length - 2 - i) D, actLoops (D.length - 2 - i) D) ∧ Crossingless (actSeq (D.length - 2 - i) D) := by
  have len := eSeq_length i n
  have topj : ∀ v, v < n → v ≠ i → v ≠ i + 1 → Joined (eSeq i n) D n (outer D n (D.length - 1 - v)) (true, v) := by
    intro v hv h1 h2
    unfold outer
    rw [if_neg (by omega)]
    refine Joined.upArc (by omega) ?_
    rw [at_eSeq hi _ (by omega)]
    split_ifs <;> omega
  refine compose_act (mid := n) (i := i) (eSeq_nc hi) hD hn (by omega) hD (by omega) (by omega) hi (fun x => (false, x)) ?_ ?_ ?_ ?_ ?_ ?_ ?_ ?_
  · intro x hx; exact Joined.lowArc hx rfl
  · intro x hx h1 h2
    by_cases hb : x < D.length - n
    · unfold outer; rw [if_pos hb]; exact .refl _
    · have := topj (D.length - 1 - x) (by omega) (by omega) (by omega)
      rw [show D.length - 1 - (D.length - 1 - x) = x by omega] at this
      exact this.trans (Joined.glue (by omega) (by omega))
  · unfold outer
    rw [if_neg (by omega), if_neg (by omega)]
    refine Joined.upArc (by omega) ?_
    rw [at_eSeq hi _ (by omega)]
    split_ifs <;> omega
  · refine (Joined.glue (v := i + 1) (by omega) (by omega)).symm.trans ((Joined.upArc (w := i) (by omega) ?_).trans (Joined.glue (by omega) (by omega)))
    rw [at_eSeq hi _ (by omega)]; simp
  · intro v hv h1 h2
    exact ⟨D.length - 1 - v, by omega, (topj v hv h1 h2).symm⟩
  · refine (Joined.upArc (w := i + 1) (by omega) ?_).trans (Joined.glue (by omega) (by omega))
    rw [at_eSeq hi _ (by omega)]; simp
  · refine Joined.upArc (by omega) ?_
    rw [at_eSeq hi _ (by omega)]; simp
  · intro h
    refine ⟨by rw [at_eSeq hi _ (by omega)]; simp, ?_⟩
    have := hD.invol (D.length - 2 - i) (by omega)
    rw [h, show D.length - 2 - i + 1 = D.length - 1 - i by omega] at this
    rw [this]; omega

/-- `D` on top of `e_i`. -/
theorem compose_e_right {D : List Nat} {n i : Nat} (hD : Crossingless D) (hn : n ≤ D.length) (hi : i + 1 < n) :
    compose D (eSeq i n) n = .ok (actSeq i D, actLoops i D) ∧ Crossingless (actSeq i D) := by
  have len := eSeq_length i n
  have botj : ∀ v, v < n → v ≠ i → v ≠ i + 1 → Joined D (eSeq i n) n (outer (eSeq i n) n v) (true, v) := by
    intro v hv h1 h2
    unfold outer
    rw [if_pos (by omega)]
    refine (Joined.lowArc (w := 2 * n - 1 - v) (by omega) ?_).trans (Joined.glue (by omega) (by omega)).symm
    rw [at_eSeq hi _ (by omega)]
    split_ifs <;> omega
  refine compose_act (mid := n) (i := i) hD (eSeq_nc hi) (by omega) hn hD (by omega) (by omega) hi (fun x => (true, x)) ?_ ?_ ?_ ?_ ?_ ?_ ?_ ?_
  · intro x hx; exact Joined.upArc hx rfl
  · intro x hx h1 h2
    by_cases hb : x < n
    · exact botj x hb h1 h2
    · unfold outer; rw [if_neg (by omega), show x - ((eSeq i n).length - n) + n = x by omega]; exact .refl _
  · unfold outer
    rw [if_pos (by omega), if_pos (by omega)]
    refine Joined.lowArc (by omega) ?_
    rw [at_eSeq hi _ (by omega)]
    split_ifs <;> omega
  · refine (Joined.glue (v := i) (by omega) rfl).trans ((Joined.lowArc (w := (eSeq i n).length - 1 - (i + 1)) (by omega) ?_).trans (Joined.glue (by omega) rfl).symm)
    rw [at_eSeq hi _ (by omega)]; split_ifs <;> omega
  · intro v hv h1 h2
    exact ⟨v, by omega, (botj v hv h1 h2).symm⟩
  · exact .refl _
  · refine (Joined.glue (v := i) (by omega) rfl).trans ((Joined.lowArc (w := (eSeq i n).length - 1 - (i + 1)) (by omega) ?_).trans (Joined.glue (by omega) rfl).symm)
    rw [at_eSeq hi _ (by omega)]; split_ifs <;> omega
  · intro h
    refine ⟨h, ?_⟩
    rw [at_eSeq hi _ (by omega)]; split_ifs <;> omega

end TL
end Peyl
