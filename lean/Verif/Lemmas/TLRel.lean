import Verif.Lemmas.TLAct
/-!
# The Temperley–Lieb relations for the action on matchings
-/
namespace Peyl
namespace TL
variable {D : List Nat}

theorem act_nc (hD : Crossingless D) {k : Nat} (hk : k + 1 < D.length) : Crossingless (actSeq k D) := by
  have := (compose_e_left (n := D.length) (i := D.length - 2 - k) hD le_rfl (by omega)).2
  rwa [show D.length - 2 - (D.length - 2 - k) = k by omega] at this

theorem at_act_self {k : Nat} (hk : k + 1 < D.length) : at_ (actSeq k D) k = k + 1 := by
  rw [at_actSeq _ _ _ (by omega), cupCap, if_pos rfl]

theorem at_act_self' {k : Nat} (hk : k + 1 < D.length) : at_ (actSeq k D) (k + 1) = k := by
  rw [at_actSeq _ _ _ (by omega), cupCap, if_neg (by omega), if_pos rfl]

/-- Acting on a cup does nothing (and makes a loop). -/
theorem act_of_cup (hD : Crossingless D) {k : Nat} (hk : k + 1 < D.length) (h : at_ D k = k + 1) : actSeq k D = D := by
  refine ext_at (by simp) fun x hx => ?_
  rw [actSeq_length] at hx
  rw [at_actSeq _ _ _ hx, cupCap]
  have h' := hD.invol k (by omega)
  rw [h] at h'
  have b3 := hD.invol x hx
  split_ifs with q1 q2 q3 q4
  · rw [q1, h]
  · rw [q2, h']
  · rw [q3, h] at b3; omega
  · rw [q4, h'] at b3; omega
  · rfl

/-- A cup moved one step to the left comes back. -/
theorem act_return_left (hD : Crossingless D) {t : Nat} (ht : t + 2 < D.length) (h : at_ D (t + 1) = t + 2) :
    actSeq (t + 1) (actSeq t D) = D ∧ actLoops t D = 0 ∧ actLoops (t + 1) (actSeq t D) = 0 := by
  have h' := hD.invol (t + 1) (by omega)
  rw [h] at h'
  have ht0 := hD.invol t (by omega)
  have hl := hD.lt t (by omega)
  have hf := hD.nofix t (by omega)
  have n1 : at_ D t ≠ t + 1 := fun e => by rw [e, h] at ht0; omega
  have n2 : at_ D t ≠ t + 2 := fun e => by rw [e, h'] at ht0; omega
  refine ⟨?_, ?_, ?_⟩
  · refine ext_at (by simp) fun x hx => ?_
    rw [actSeq_length, actSeq_length] at hx
    rw [at_actSeq _ _ _ (by simpa using hx), cupCap, at_actSeq _ _ _ hx, at_actSeq _ _ _ (by omega), at_actSeq _ _ _ (by omega)]
    have b3 := hD.invol x hx
    have c : ∀ y, at_ D x = y → at_ D y = x := fun y e => e ▸ b3
    have c1 := c t; have c2 := c (t + 1); have c3 := c (t + 2)
    have d1 : x = t → at_ D x = at_ D t := fun e => by rw [e]
    have d2 : x = t + 1 → at_ D x = at_ D (t + 1) := fun e => by rw [e]
    have d3 : x = t + 2 → at_ D x = at_ D (t + 2) := fun e => by rw [e]
    unfold cupCap
    simp only [h, h', show t + 1 + 1 = t + 2 from rfl] at c1 c2 c3 d1 d2 d3 ⊢
    split_ifs <;> omega
  · unfold actLoops; rw [if_neg n1]
  · unfold actLoops; rw [if_neg]
    rw [at_actSeq _ _ _ (by omega), cupCap, if_neg (by omega), if_pos rfl]; omega

/-- A cup moved one step to the right comes back. -/
theorem act_return_right (hD : Crossingless D) {t : Nat} (ht : t + 2 < D.length) (h : at_ D t = t + 1) :
    actSeq t (actSeq (t + 1) D) = D ∧ actLoops (t + 1) D = 0 ∧ actLoops t (actSeq (t + 1) D) = 0 := by
  have h' := hD.invol t (by omega)
  rw [h] at h'
  have ht0 := hD.invol (t + 2) (by omega)
  have hl := hD.lt (t + 2) (by omega)
  have hf := hD.nofix (t + 2) (by omega)
  have n1 : at_ D (t + 2) ≠ t + 1 := fun e => by rw [e, h'] at ht0; omega
  have n2 : at_ D (t + 2) ≠ t := fun e => by rw [e, h] at ht0; omega
  refine ⟨?_, ?_, ?_⟩
  · refine ext_at (by simp) fun x hx => ?_
    rw [actSeq_length, actSeq_length] at hx
    rw [at_actSeq _ _ _ (by simpa using hx), cupCap, at_actSeq _ _ _ hx, at_actSeq _ _ _ (by omega), at_actSeq _ _ _ (by omega)]
    have b3 := hD.invol x hx
    have c : ∀ y, at_ D x = y → at_ D y = x := fun y e => e ▸ b3
    have c1 := c t; have c2 := c (t + 1); have c3 := c (t + 2)
    have d1 : x = t → at_ D x = at_ D t := fun e => by rw [e]
    have d2 : x = t + 1 → at_ D x = at_ D (t + 1) := fun e => by rw [e]
    have d3 : x = t + 2 → at_ D x = at_ D (t + 2) := fun e => by rw [e]
    unfold cupCap
    simp only [h, h', show t + 1 + 1 = t + 2 from rfl] at c1 c2 c3 d1 d2 d3 ⊢
    split_ifs <;> omega
  · unfold actLoops; rw [if_neg]; rw [h']; omega
  · unfold actLoops; rw [if_neg]
    rw [at_actSeq _ _ _ (by omega), cupCap, if_neg (by omega), if_neg (by omega), h, if_pos rfl]; exact n1

theorem act_act (hD : Crossingless D) {k : Nat} (hk : k + 1 < D.length) :
    actSeq k (actSeq k D) = actSeq k D ∧ actLoops k (actSeq k D) = 1 :=
  ⟨act_of_cup (act_nc hD hk) (by simpa using hk) (at_act_self hk), by unfold actLoops; rw [if_pos (at_act_self hk)]⟩

theorem act_up (hD : Crossingless D) {k : Nat} (hk : k + 2 < D.length) :
    actSeq k (actSeq (k + 1) (actSeq k D)) = actSeq k D ∧ actLoops (k + 1) (actSeq k D) = 0 ∧
      actLoops k (actSeq (k + 1) (actSeq k D)) = 0 :=
  act_return_right (act_nc hD (by omega)) (by simpa using hk) (at_act_self (by omega))

theorem act_down (hD : Crossingless D) {k : Nat} (hk : k + 2 < D.length) :
    actSeq (k + 1) (actSeq k (actSeq (k + 1) D)) = actSeq (k + 1) D ∧ actLoops k (actSeq (k + 1) D) = 0 ∧
      actLoops (k + 1) (actSeq k (actSeq (k + 1) D)) = 0 :=
  act_return_left (act_nc hD (by omega)) (by simpa using hk) (at_act_self (by omega))

theorem cupCap_l (k : Nat) (f : Nat → Nat) : cupCap k f k = k + 1 := by rw [cupCap, if_pos rfl]
theorem cupCap_r (k : Nat) (f : Nat → Nat) : cupCap k f (k + 1) = k := by rw [cupCap, if_neg (by omega), if_pos rfl]
theorem cupCap_off (k : Nat) (f : Nat → Nat) (x : Nat) (h1 : x ≠ k) (h2 : x ≠ k + 1) (h3 : f x ≠ k) (h4 : f x ≠ k + 1) :
    cupCap k f x = f x := by rw [cupCap, if_neg h1, if_neg h2, if_neg h3, if_neg h4]
theorem cupCap_congr {k : Nat} {f g : Nat → Nat} {x : Nat} (h1 : f x = g x) (h2 : f k = g k) (h3 : f (k + 1) = g (k + 1)) :
    cupCap k f x = cupCap k g x := by rw [cupCap, cupCap, h1, h2, h3]

set_option maxHeartbeats 1000000 in
/-- Two far cuts commute: the arithmetic. -/
theorem cupCap_far (f : Nat → Nat) {j k x : Nat} (hjk : j + 2 ≤ k) (inj : ∀ y ∈ [x, j, j + 1, k, k + 1], f (f y) = y) (nf : ∀ y ∈ [x, j, j + 1, k, k + 1], f y ≠ y) :
    cupCap j (cupCap k f) x = cupCap k (cupCap j f) x := by
  simp only [List.mem_cons, List.not_mem_nil, or_false, forall_eq_or_imp, forall_eq] at inj nf
  obtain ⟨i1, i2, i3, i4, i5⟩ := inj
  obtain ⟨n1, n2, n3, n4, n5⟩ := nf
  have t : ∀ y z, f (f y) = y → f y = z → f z = y := fun y z e e' => e' ▸ e
  have p1 := t j (j + 1) i2; have p2 := t j k i2; have p3 := t j (k + 1) i2
  have p4 := t (j + 1) j i3; have p5 := t (j + 1) k i3; have p6 := t (j + 1) (k + 1) i3
  have p7 := t k j i4; have p8 := t k (j + 1) i4; have p9 := t k (k + 1) i4
  have p10 := t (k + 1) j i5; have p11 := t (k + 1) (j + 1) i5; have p12 := t (k + 1) k i5
  have q1 := t x j i1; have q2 := t x (j + 1) i1; have q3 := t x k i1; have q4 := t x (k + 1) i1
  by_cases hx1 : x = j
  · subst hx1
    rw [cupCap_l, cupCap_off, cupCap_l] <;> (try rw [cupCap_l]) <;> omega
  by_cases hx2 : x = j + 1
  · subst hx2
    rw [cupCap_r, cupCap_off, cupCap_r] <;> (try rw [cupCap_r]) <;> omega
  by_cases hx3 : x = k
  · subst hx3
    rw [cupCap_l, cupCap_off, cupCap_l] <;> (try rw [cupCap_l]) <;> omega
  by_cases hx4 : x = k + 1
  · subst hx4
    rw [cupCap_r, cupCap_off, cupCap_r] <;> (try rw [cupCap_r]) <;> omega
  have e1 : cupCap j (cupCap k f) x = (fun y => if y = j then cupCap k f (j + 1) else if y = j + 1 then cupCap k f j else y) (cupCap k f x) := by
    rw [cupCap, if_neg hx1, if_neg hx2]
  have e2 : cupCap k (cupCap j f) x = (fun y => if y = k then cupCap j f (k + 1) else if y = k + 1 then cupCap j f k else y) (cupCap j f x) := by
    rw [cupCap, if_neg hx3, if_neg hx4]
  have a1 : cupCap k f x = if f x = k then f (k + 1) else if f x = k + 1 then f k else f x := by rw [cupCap, if_neg hx3, if_neg hx4]
  have a2 : cupCap j f x = if f x = j then f (j + 1) else if f x = j + 1 then f j else f x := by rw [cupCap, if_neg hx1, if_neg hx2]
  have b1 : cupCap k f j = if f j = k then f (k + 1) else if f j = k + 1 then f k else f j := by
    rw [cupCap, if_neg (by omega), if_neg (by omega)]
  have b2 : cupCap k f (j + 1) = if f (j + 1) = k then f (k + 1) else if f (j + 1) = k + 1 then f k else f (j + 1) := by
    rw [cupCap, if_neg (by omega), if_neg (by omega)]
  have b3 : cupCap j f k = if f k = j then f (j + 1) else if f k = j + 1 then f j else f k := by
    rw [cupCap, if_neg (by omega), if_neg (by omega)]
  have b4 : cupCap j f (k + 1) = if f (k + 1) = j then f (j + 1) else if f (k + 1) = j + 1 then f j else f (k + 1) := by
    rw [cupCap, if_neg (by omega), if_neg (by omega)]
  by_cases c1 : f x = j
  · have := q1 c1
    have g1 : cupCap k f x = j := by rw [a1, if_neg (by omega), if_neg (by omega), c1]
    have g2 : cupCap j f x = f (j + 1) := by rw [a2, if_pos c1]
    rw [e1, e2, g1, g2]; dsimp only
    rw [if_pos rfl, b2, b3, b4]
    clear e1 e2 a1 a2 b1 b2 b3 b4
    split_ifs <;> omega
  by_cases c2 : f x = j + 1
  · have := q2 c2
    have g1 : cupCap k f x = j + 1 := by rw [a1, if_neg (by omega), if_neg (by omega), c2]
    have g2 : cupCap j f x = f j := by rw [a2, if_neg c1, if_pos c2]
    rw [e1, e2, g1, g2]; dsimp only
    rw [if_neg (by omega), if_pos rfl, b1, b3, b4]
    clear e1 e2 a1 a2 b1 b2 b3 b4
    split_ifs <;> omega
  by_cases c3 : f x = k
  · have := q3 c3
    have g1 : cupCap k f x = f (k + 1) := by rw [a1, if_pos c3]
    have g2 : cupCap j f x = k := by rw [a2, if_neg c1, if_neg c2, c3]
    rw [e1, e2, g1, g2]; dsimp only
    rw [if_pos rfl, b1, b2, b4]
    clear e1 e2 a1 a2 b1 b2 b3 b4
    split_ifs <;> omega
  by_cases c4 : f x = k + 1
  · have := q4 c4
    have g1 : cupCap k f x = f k := by rw [a1, if_neg c3, if_pos c4]
    have g2 : cupCap j f x = k + 1 := by rw [a2, if_neg c1, if_neg c2, c4]
    rw [e1, e2, g1, g2]; dsimp only
    rw [if_neg (show ¬ k + 1 = k by omega), if_pos rfl, b1, b2, b3]
    clear e1 e2 a1 a2 b1 b2 b3 b4
    split_ifs <;> omega
  rw [e1, e2, a1, a2, if_neg c3, if_neg c4, if_neg c1, if_neg c2]
  dsimp only
  rw [if_neg c1, if_neg c2, if_neg c3, if_neg c4]

theorem act_far (hD : Crossingless D) {j k : Nat} (hjk : j + 2 ≤ k) (hk : k + 1 < D.length) :
    actSeq j (actSeq k D) = actSeq k (actSeq j D) ∧
      actLoops k D + actLoops j (actSeq k D) = actLoops j D + actLoops k (actSeq j D) := by
  constructor
  · refine ext_at (by simp) fun x hx => ?_
    rw [actSeq_length, actSeq_length] at hx
    rw [at_actSeq _ _ _ (by simpa using hx), at_actSeq _ _ _ (by simpa using hx)]
    have hh : ∀ y ∈ [x, j, j + 1, k, k + 1], y < D.length := by
      simp only [List.mem_cons, List.not_mem_nil, or_false, forall_eq_or_imp, forall_eq]; omega
    have e := cupCap_far (at_ D) hjk (fun y hy => hD.invol y (hh y hy)) (fun y hy => hD.nofix y (hh y hy))
    rw [cupCap_congr (g := cupCap k (at_ D)), e, cupCap_congr (f := cupCap j (at_ D)) (g := at_ (actSeq j D))] <;>
      rw [at_actSeq _ _ _ (by omega)]
  · have inj : ∀ x y, x < D.length → at_ D x = y → at_ D y = x := fun x y hx e => e ▸ hD.invol x hx
    have p1 := inj j (j + 1) (by omega); have p2 := inj j k (by omega); have p3 := inj j (k + 1) (by omega)
    have p7 := inj k j (by omega); have p8 := inj k (j + 1) (by omega); have p9 := inj k (k + 1) (by omega)
    have p10 := inj (k + 1) (j + 1) (by omega)
    have p11 := inj (j + 1) (k + 1) (by omega)
    unfold actLoops
    have b1 : at_ (actSeq k D) j = if at_ D j = k then at_ D (k + 1) else if at_ D j = k + 1 then at_ D k else at_ D j := by
      rw [at_actSeq _ _ _ (by omega), cupCap, if_neg (by omega), if_neg (by omega)]
    have b3 : at_ (actSeq j D) k = if at_ D k = j then at_ D (j + 1) else if at_ D k = j + 1 then at_ D j else at_ D k := by
      rw [at_actSeq _ _ _ (by omega), cupCap, if_neg (by omega), if_neg (by omega)]
    rw [b1, b3]
    clear b1 b3
    split_ifs <;> omega

end TL
end Peyl
