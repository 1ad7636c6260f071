import Verif.Lemmas.GermNF
/-!
# Matsumoto's theorem for germs

If the joins of pairs of atoms have reduced words with the same value, then the value of a reduced word of a simple element
depends only on the element.
-/
namespace Peyl
namespace Germ
variable {W : Type} [Group W] {g : Germ W} {ι : Type} (ok : ι → Prop) (a : ι → W)

/-- `w` is a reduced word of `x` in the atoms `a i`. -/
def Red (g : Germ W) (ok : ι → Prop) (a : ι → W) (w : List ι) (x : W) : Prop :=
  (∀ s ∈ w, ok s) ∧ (w.map a).prod = x ∧ w.length = g.len x

variable {ok a}

theorem len_prod_le (ha : ∀ i, ok i → g.atom (a i)) {w : List ι} (hw : ∀ s ∈ w, ok s) : g.len (w.map a).prod ≤ w.length := by
  induction w with
  | nil => simp [g.len_one]
  | cons i w ih =>
    have h1 := ih (fun s hs => hw s (by simp [hs]))
    have h2 := g.len_mul_le (a i) (w.map a).prod
    rw [g.atom_len (ha i (hw i (by simp)))] at h2
    simp only [List.map_cons, List.prod_cons, List.length_cons]; omega

theorem Red.cons (ha : ∀ i, ok i → g.atom (a i)) {i : ι} {w : List ι} {x : W} (h : Red g ok a (i :: w) x) :
    g.le (a i) x ∧ Red g ok a w ((a i)⁻¹ * x) := by
  obtain ⟨h1, h2, h3⟩ := h
  have hw : ∀ s ∈ w, ok s := fun s hs => h1 s (by simp [hs])
  have e : (w.map a).prod = (a i)⁻¹ * x := by rw [← h2]; simp
  have l1 := len_prod_le ha hw
  have l2 := g.atom_len (ha i (h1 i (by simp)))
  rw [e] at l1
  have hle : g.le (a i) x := by rw [g.le_iff, l2]; simp only [List.length_cons] at h3; omega
  refine ⟨hle, hw, e, ?_⟩
  unfold le at hle; simp only [List.length_cons] at h3; omega

theorem Red.append {u w : List ι} {x y : W} (hu : Red g ok a u x) (hw : Red g ok a w y) (h : g.le x (x * y)) :
    Red g ok a (u ++ w) (x * y) := by
  refine ⟨fun s hs => (List.mem_append.1 hs).elim (hu.1 s) (hw.1 s), by simp [hu.2.1, hw.2.1], ?_⟩
  rw [List.length_append, hu.2.2, hw.2.2, g.le_mul.1 h]

theorem exists_red (ha : ∀ i, ok i → g.atom (a i)) (hA : ∀ s, g.atom s → ∃ i, ok i ∧ a i = s) {x : W} (hx : g.P x) :
    ∃ w, Red g ok a w x := by
  induction hn : g.len x using Nat.strong_induction_on generalizing x with
  | _ N ih =>
    by_cases h1 : x = 1
    · exact ⟨[], by simp, by simp [h1], by simp [h1, g.len_one]⟩
    · obtain ⟨s, hs, hsx⟩ := g.exists_atom h1 hx
      have hsx : g.le s x := hsx
      obtain ⟨i, hi, rfl⟩ := hA s hs
      have l := g.atom_len hs
      obtain ⟨w, hw⟩ := ih (g.len ((a i)⁻¹ * x)) (by unfold le at hsx; omega) (g.P_div hsx hx) rfl
      refine ⟨i :: w, ?_, by simp [hw.2.1], ?_⟩
      · intro s hs; rcases List.mem_cons.1 hs with rfl | hs
        · exact hi
        · exact hw.1 s hs
      · rw [List.length_cons, hw.2.2]; unfold le at hsx; omega

variable {H : Type} [Group H] {f : ι → H}

/-- The condition on joins of pairs of atoms. -/
def JoinCond (g : Germ W) (ok : ι → Prop) (a : ι → W) (f : ι → H) : Prop :=
  ∀ i j x, ok i → ok j → g.P x → g.le (a i) x → g.le (a j) x → ∃ J u u', g.le J x ∧ Red g ok a (i :: u) J ∧
    Red g ok a (j :: u') J ∧ ((i :: u).map f).prod = ((j :: u').map f).prod

theorem matsumoto (ha : ∀ i, ok i → g.atom (a i)) (hA : ∀ s, g.atom s → ∃ i, ok i ∧ a i = s) (hJ : JoinCond g ok a f)
    {x : W} (hx : g.P x) {w w' : List ι} (hw : Red g ok a w x) (hw' : Red g ok a w' x) : (w.map f).prod = (w'.map f).prod := by
  induction hn : g.len x using Nat.strong_induction_on generalizing x w w' with
  | _ N ih =>
    cases w with
    | nil =>
      have : w'.length = 0 := by rw [hw'.2.2, ← hw.2.2]; rfl
      rw [List.length_eq_zero_iff.1 this]
    | cons i w =>
      cases w' with
      | nil => have := hw.2.2; rw [← hw'.2.2] at this; simp at this
      | cons j w' =>
        have oi := hw.1 i (by simp)
        have oj := hw'.1 j (by simp)
        have c1 := hw.cons ha
        have c2 := hw'.cons ha
        obtain ⟨J, u, u', j1, j2, j3, j4⟩ := hJ i j x oi oj hx c1.1 c2.1
        obtain ⟨r, hr⟩ := exists_red ha hA (g.P_div j1 hx)
        have hJx : J * (J⁻¹ * x) = x := by group
        have r1 := (j2.append hr (by rw [hJx]; exact j1))
        have r2 := (j3.append hr (by rw [hJx]; exact j1))
        rw [hJx] at r1 r2
        have l1 := g.atom_len (ha i oi)
        have l2 := g.atom_len (ha j oj)
        have e1 := ih (g.len ((a i)⁻¹ * x)) (by have := c1.1; unfold le at this; omega) (g.P_div c1.1 hx) c1.2 (Red.cons ha r1).2 rfl
        have e2 := ih (g.len ((a j)⁻¹ * x)) (by have := c2.1; unfold le at this; omega) (g.P_div c2.1 hx) c2.2 (Red.cons ha r2).2 rfl
        rw [List.map_cons, List.prod_cons, e1, List.map_cons, List.prod_cons, e2]
        simp only [List.map_cons, List.prod_cons] at j4
        change f i * ((u ++ r).map f).prod = f j * ((u' ++ r).map f).prod
        rw [List.map_append, List.prod_append, List.map_append, List.prod_append, ← mul_assoc, ← mul_assoc, j4]

/-- The value function on simple elements is multiplicative. -/
theorem germHom_of_matsumoto (ha : ∀ i, ok i → g.atom (a i)) (hA : ∀ s, g.atom s → ∃ i, ok i ∧ a i = s) (hJ : JoinCond g ok a f)
    {β : W → H} (hβ : ∀ x w, g.P x → Red g ok a w x → β x = (w.map f).prod) : g.GermHom β := by
  intro x y hx hxy h
  have hy : g.P y := by have := g.P_div h hxy; simpa using this
  obtain ⟨u, hu⟩ := exists_red ha hA hx
  obtain ⟨w, hw⟩ := exists_red ha hA hy
  rw [hβ _ _ hxy (hu.append hw h), hβ _ _ hx hu, hβ _ _ hy hw, List.map_append, List.prod_append]

end Germ
end Peyl
