import Verif.Lemmas.GermNF
/-!
# The combing algorithm on lists of simple elements
-/
namespace Peyl
namespace Germ
open Relation
variable {W : Type} [Group W] {g : Germ W}

/-- What can be reached from a pair. -/
theorem steps_pair {x y : W} (hx : g.P x) (hy : g.P y) {l : List W} (h : g.Steps [x, y] l) :
    ∃ m, l = [x * m, m⁻¹ * y] ∧ g.le m (x⁻¹ * g.D) ∧ g.le m y := by
  induction h with
  | refl => exact ⟨1, by simp, g.one_le _, g.one_le _⟩
  | tail h1 h ih =>
    obtain ⟨m, rfl, m1, m2⟩ := ih
    cases h with
    | @head s _ _ _ hs s1 s2 =>
      refine ⟨m * s, by simp [mul_assoc], ?_, ?_⟩
      · have e : (x * m)⁻¹ * g.D = m⁻¹ * (x⁻¹ * g.D) := by group
        rw [e] at s1
        have := (g.of_mul_le_mul (x := m) (y := s) (z := m⁻¹ * (x⁻¹ * g.D)) (by rw [mul_inv_cancel_left]; exact m1) s1).2
        rwa [mul_inv_cancel_left] at this
      · have := (g.of_mul_le_mul (x := m) (y := s) (z := m⁻¹ * y) (by rw [mul_inv_cancel_left]; exact m2) s2).2
        rwa [mul_inv_cancel_left] at this
    | tail h => cases h with | tail h => cases h

/-- Normalising a pair moves the greatest common divisor. -/
theorem nf_pair {x y : W} (hx : g.P x) (hy : g.P y) :
    ∃ m, g.nf [x, y] = [x * m, m⁻¹ * y] ∧ g.le m (x⁻¹ * g.D) ∧ g.le m y ∧
      ∀ t, g.le t (x⁻¹ * g.D) → g.le t y → g.le t m := by
  have hl : g.AllP [x, y] := by simp [hx, hy]
  obtain ⟨m, h1, h2, h3⟩ := steps_pair hx hy (nf_steps hl)
  refine ⟨m, h1, h2, h3, fun t t1 t2 => ?_⟩
  have s := move (l := []) hx hy t1 t2
  have e := nf_of_steps hl s
  have px := ((g.le_rc_iff hx).1 t1).2
  obtain ⟨m', e1, e2, e3⟩ := steps_pair px (g.P_div t2 hy) (nf_steps (s.allP hl))
  rw [← e, h1] at e1
  simp only [List.cons.injEq] at e1
  have em : m = t * m' := by have := e1.1; rw [mul_assoc] at this; exact mul_left_cancel this
  rw [em]
  have e' : (x * t)⁻¹ * g.D = t⁻¹ * (x⁻¹ * g.D) := by group
  rw [e'] at e2
  exact (g.of_mul_le_mul (x := t) (y := m') (z := t⁻¹ * (x⁻¹ * g.D)) (by rw [mul_inv_cancel_left]; exact t1) e2).1

/-- Renormalise the pair at positions `i`, `i + 1`. -/
noncomputable def E (g : Germ W) : ℕ → List W → List W
  | 0, x :: y :: l => g.nf [x, y] ++ l
  | 0, [x] => [x]
  | _, [] => []
  | i + 1, x :: l => x :: E g i l

theorem E_steps (i : ℕ) {l : List W} (hl : g.AllP l) : g.Steps l (g.E i l) := by
  induction i generalizing l with
  | zero =>
    match l with
    | [] => exact .refl
    | [x] => exact .refl
    | x :: y :: l =>
      simp only [AllP_cons] at hl
      exact (nf_steps (l := [x, y]) (by simp [hl])).append l
  | succ i ih =>
    match l with
    | [] => exact .refl
    | x :: l => simp only [AllP_cons] at hl; exact (ih hl.2).cons x

theorem E_allP (i : ℕ) {l : List W} (hl : g.AllP l) : g.AllP (g.E i l) := (E_steps i hl).allP hl
theorem E_length (i : ℕ) {l : List W} (hl : g.AllP l) : (g.E i l).length = l.length := (E_steps i hl).length

theorem E_at (pre : List W) (x y : W) (post : List W) :
    g.E pre.length (pre ++ x :: y :: post) = pre ++ (g.nf [x, y] ++ post) := by
  induction pre with
  | nil => rfl
  | cons a pre ih => simp only [List.length_cons, List.cons_append, E, ih]

/-- Renormalising is monotone for the order generated by moves. -/
theorem E_step (i : ℕ) {l l' : List W} (hl : g.AllP l) (h : g.Step l l') : g.Steps (g.E i l) (g.E i l') := by
  induction i generalizing l l' with
  | zero =>
    cases h with
    | @head s x y r hs s1 s2 =>
      simp only [AllP_cons] at hl
      have : g.nf [x, y] = g.nf [x * s, s⁻¹ * y] := nf_of_steps (by simp [hl]) (.single (.head hs s1 s2))
      simp only [E, this]; exact .refl
    | @tail x l1 l2 h =>
      cases h with
      | @head s y z r hs s1 s2 =>
        simp only [AllP_cons] at hl
        obtain ⟨hx, hy, hz, hr⟩ := hl
        have q := (g.le_rc_iff hy).1 s1
        obtain ⟨m, e1, m1, m2, m3⟩ := nf_pair hx hy
        obtain ⟨m', e1', m1', m2', m3'⟩ := nf_pair hx q.2
        have hmm : g.le m m' := m3' m m1 (g.le_trans m2 q.1)
        have hP1 := ((g.le_rc_iff hx).1 m1).2
        have hP2 := g.P_div m2 hy
        have hP3 := g.P_div (g.le_trans m2 q.1) q.2
        simp only [E, e1, e1', List.cons_append, List.nil_append]
        have st1 : g.Step (x * m :: m⁻¹ * y :: z :: r) (x * m :: m⁻¹ * y * s :: s⁻¹ * z :: r) := by
          refine .tail (.head hs ?_ s2)
          rw [g.le_rc_iff hP2, mul_assoc]
          exact ⟨g.div_le_div m2 q.1, hP3⟩
        have st2 := move (g := g) (l := s⁻¹ * z :: r) (m := m⁻¹ * m') (x := x * m) (y := m⁻¹ * (y * s)) hP1 hP3
          (by have := g.div_le_div hmm m1'; rwa [mul_inv_rev, mul_assoc]) (g.div_le_div hmm m2')
        have e3 : x * m * (m⁻¹ * m') = x * m' := by group
        have e4 : (m⁻¹ * m')⁻¹ * (m⁻¹ * (y * s)) = m'⁻¹ * (y * s) := by group
        rw [e3, e4] at st2
        rw [mul_assoc] at st1
        exact ReflTransGen.head st1 st2
      | @tail y l1 l2 h => simp only [E]; exact Steps.prepend _ (.single h)
  | succ i ih =>
    cases h with
    | @head s x y r hs s1 s2 =>
      simp only [AllP_cons] at hl
      obtain ⟨hx, hy, hr⟩ := hl
      cases i with
      | succ i => simp only [E]; exact .single (.head hs s1 s2)
      | zero =>
        cases r with
        | nil => simp only [E]; exact .single (.head hs s1 s2)
        | cons z r =>
          simp only [AllP_cons] at hr
          obtain ⟨hz, hr⟩ := hr
          have hyP := g.P_div s2 hy
          obtain ⟨m, e1, m1, m2, m3⟩ := nf_pair hy hz
          obtain ⟨m', e1', m1', m2', m3'⟩ := nf_pair hyP hz
          have q := (g.le_rc_iff hy).1 m1
          have hsm : g.le s (y * m) := g.le_trans s2 q.1
          have hm1 : g.le m ((s⁻¹ * y)⁻¹ * g.D) := by
            rw [g.le_rc_iff hyP, mul_assoc]
            exact ⟨g.div_le_div s2 q.1, g.P_div hsm q.2⟩
          have hmm : g.le m m' := m3' m hm1 m2
          simp only [E, e1, e1', List.cons_append, List.nil_append]
          have st1 : g.Step (x :: y * m :: m⁻¹ * z :: r) (x * s :: s⁻¹ * (y * m) :: m⁻¹ * z :: r) := .head hs s1 hsm
          have st2 := move (g := g) (l := r) (m := m⁻¹ * m') (x := s⁻¹ * (y * m)) (y := m⁻¹ * z) (g.P_div hsm q.2)
            (g.P_div m2 hz)
            (by
              have := g.div_le_div hmm m1'
              have e : (s⁻¹ * (y * m))⁻¹ * g.D = m⁻¹ * ((s⁻¹ * y)⁻¹ * g.D) := by group
              rw [e]; exact this)
            (g.div_le_div hmm m2')
          have e3 : s⁻¹ * (y * m) * (m⁻¹ * m') = s⁻¹ * y * m' := by group
          have e4 : (m⁻¹ * m')⁻¹ * (m⁻¹ * z) = m'⁻¹ * z := by group
          rw [e3, e4] at st2
          exact ReflTransGen.head st1 (st2.cons _)
    | @tail x l1 l2 h =>
      simp only [AllP_cons] at hl
      simp only [E]; exact (ih hl.2 h).cons x

theorem E_mono (i : ℕ) {l l' : List W} (hl : g.AllP l) (h : g.Steps l l') : g.Steps (g.E i l) (g.E i l') := by
  induction h with
  | refl => exact .refl
  | tail h1 h ih => exact ih.trans (E_step i (Steps.allP h1 hl) h)

/-- Comb backwards from position `j - 1` to `0`. -/
noncomputable def back (g : Germ W) : ℕ → List W → List W
  | 0, l => l
  | j + 1, l => back g j (g.E j l)

theorem back_allP (j : ℕ) {l : List W} (hl : g.AllP l) : g.AllP (g.back j l) := by
  induction j generalizing l with
  | zero => exact hl
  | succ j ih => exact ih (E_allP j hl)

theorem back_steps (j : ℕ) {l : List W} (hl : g.AllP l) : g.Steps l (g.back j l) := by
  induction j generalizing l with
  | zero => exact .refl
  | succ j ih => exact (E_steps j hl).trans (ih (E_allP j hl))

theorem back_mono (j : ℕ) {l l' : List W} (hl : g.AllP l) (h : g.Steps l l') : g.Steps (g.back j l) (g.back j l') := by
  induction j generalizing l l' with
  | zero => exact h
  | succ j ih => exact ih (E_allP j hl) (E_mono j hl h)

theorem nrm_snoc2 {l : List W} {x y : W} : g.Nrm (l ++ [x, y]) ↔ g.Nrm (l ++ [x]) ∧ g.PairN x y := by
  unfold Nrm
  rw [List.isChain_append_cons_cons]
  simp

/-- Combing a renormalised pair backwards through a normal prefix. -/
theorem comb (hD : g.D ≠ 1) (pre : List W) {b c b1 c1 : W} (post : List W) (hpre : g.AllP pre) (hb : g.P b) (hc : g.P c)
    (hn : g.Nrm (pre ++ [b])) (h1 : g.Steps [b, c] [b1, c1]) (hn1 : g.PairN b1 c1) :
    ∃ r, g.back pre.length (pre ++ b1 :: c1 :: post) = r ++ c1 :: post ∧ g.Nrm (r ++ [c1]) ∧ r.length = pre.length + 1 := by
  induction pre using List.reverseRecOn generalizing b c b1 c1 post with
  | nil => exact ⟨[b1], rfl, by simp [Nrm, hn1], rfl⟩
  | append_singleton pre a ih =>
    simp only [AllP_append, AllP_cons] at hpre
    have p1 := h1.allP (by simp [hb, hc])
    simp only [AllP_cons] at p1
    rw [List.append_assoc, List.singleton_append, nrm_snoc2] at hn
    have hab : g.AllP [a, b1] := by simp [hpre.2.1, p1.1]
    obtain ⟨m, e, _⟩ := nf_pair (g := g) hpre.2.1 p1.1
    have hs : g.Steps [a, b1] [a * m, m⁻¹ * b1] := e ▸ nf_steps hab
    have hN : g.PairN (a * m) (m⁻¹ * b1) := by
      have := nf_nrm hab; rw [e] at this; simpa [Nrm] using this
    obtain ⟨r, r1, r2, r3⟩ := ih (c1 :: post) hpre.1 hpre.2.1 p1.1 hn.1 hs hN
    have hdom := domino hD hpre.2.1 hb hc hn.2 h1 hn1 hs
    refine ⟨r ++ [m⁻¹ * b1], ?_, ?_, by simp [r3]⟩
    · rw [List.length_append, List.length_singleton, back, List.append_assoc, List.singleton_append, E_at, e]
      simp only [List.cons_append, List.nil_append] at r1 ⊢
      rw [r1]; simp
    · rw [List.append_assoc, List.singleton_append, nrm_snoc2]; exact ⟨r2, hdom⟩

/-- One insertion: the normal prefix grows by one. -/
theorem insert_step (hD : g.D ≠ 1) {l : List W} (hl : g.AllP l) (i : ℕ) (hi : i + 1 < l.length) (hn : g.Nrm (l.take (i + 1))) :
    g.Nrm ((g.back i (g.E i l)).take (i + 2)) := by
  obtain ⟨pre, b, c, post, rfl, rfl⟩ : ∃ pre b c post, l = pre ++ b :: c :: post ∧ i = pre.length := by
    refine ⟨l.take i, l[i], l[i + 1], l.drop (i + 2), ?_, by simp; omega⟩
    rw [List.getElem_cons_drop, List.getElem_cons_drop, List.take_append_drop]
  have ht : (pre ++ b :: c :: post).take (pre.length + 1) = pre ++ [b] := by
    rw [List.take_append]; simp
  rw [ht] at hn
  simp only [AllP_append, AllP_cons] at hl
  have hbc : g.AllP [b, c] := by simp [hl.2.1, hl.2.2.1]
  obtain ⟨m, e, _⟩ := nf_pair (g := g) hl.2.1 hl.2.2.1
  have hs : g.Steps [b, c] [b * m, m⁻¹ * c] := e ▸ nf_steps hbc
  have hN : g.PairN (b * m) (m⁻¹ * c) := by
    have := nf_nrm hbc; rw [e] at this; simpa [Nrm] using this
  obtain ⟨r, r1, r2, r3⟩ := comb hD pre post hl.1 hl.2.1 hl.2.2.1 hn hs hN
  rw [E_at, e]
  simp only [List.cons_append, List.nil_append] at r1 ⊢
  rw [r1]
  have : (r ++ m⁻¹ * c :: post).take (pre.length + 2) = r ++ [m⁻¹ * c] := by
    rw [List.take_append, r3]; simp [List.take_of_length_le, r3]
  rw [this]; exact r2

/-- `k` insertions. -/
noncomputable def ins (g : Germ W) : ℕ → List W → List W
  | 0, l => l
  | k + 1, l => g.back k (g.E k (ins g k l))

theorem ins_allP (k : ℕ) {l : List W} (hl : g.AllP l) : g.AllP (g.ins k l) := by
  induction k with
  | zero => exact hl
  | succ k ih => exact back_allP k (E_allP k ih)

theorem ins_steps (k : ℕ) {l : List W} (hl : g.AllP l) : g.Steps l (g.ins k l) := by
  induction k with
  | zero => exact .refl
  | succ k ih => exact ih.trans ((E_steps k (ins_allP k hl)).trans (back_steps k (E_allP k (ins_allP k hl))))

theorem ins_nrm (hD : g.D ≠ 1) (k : ℕ) {l : List W} (hl : g.AllP l) (hk : k < l.length ∨ k = 0) :
    g.Nrm ((g.ins k l).take (k + 1)) := by
  induction k with
  | zero => cases l <;> simp [ins, Nrm]
  | succ k ih =>
    have hk' : k + 1 < l.length := by omega
    exact insert_step hD (ins_allP k hl) k (by rw [(ins_steps k hl).length]; exact hk') (ih (Or.inl (by omega)))

/-- Insertion of all factors produces the normal form. -/
theorem ins_eq_nf (hD : g.D ≠ 1) {l : List W} (hl : g.AllP l) : g.ins (l.length - 1) l = g.nf l := by
  have h := ins_nrm hD (l.length - 1) hl (by omega)
  rw [List.take_of_length_le (by rw [(ins_steps _ hl).length]; omega)] at h
  exact (nf_eq hl (ins_steps _ hl) h).symm

end Germ
end Peyl
