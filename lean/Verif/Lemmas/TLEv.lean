import Verif.Lemmas.TLMor
/-!
# Linear functionals on morphisms
-/
namespace Peyl
open LaurentPolynomial
namespace TLMor
variable {m a b c : TLMor}

/-- The linear extension of `G` to morphisms. -/
noncomputable def ev (m : TLMor) (G : TLDiag → ℤ[T;T⁻¹]) : ℤ[T;T⁻¹] := (m.terms.map fun t => t.2.den * G t.1).sum

theorem sum_eq_finset (G : TLDiag → ℤ[T;T⁻¹]) (ts : List (TLDiag × ℤ[T;T⁻¹])) (S : Finset TLDiag) (hS : ∀ t ∈ ts, t.1 ∈ S) :
    (ts.map fun t => t.2 * G t.1).sum = ∑ d ∈ S, (ts.map fun t => if t.1 = d then t.2 else 0).sum * G d := by
  induction ts with
  | nil => simp
  | cons t ts ih =>
    rw [List.map_cons, List.sum_cons, ih fun x hx => hS x (List.mem_cons_of_mem _ hx)]
    simp only [List.map_cons, List.sum_cons, add_mul, Finset.sum_add_distrib]
    congr 1
    rw [Finset.sum_eq_single t.1]
    · simp
    · intro d _ hd; rw [if_neg (Ne.symm hd), zero_mul]
    · intro hd; exact absurd (hS t (List.mem_cons_self ..)) hd

theorem coef_eq (m : TLMor) (d : TLDiag) : m.coef d = ((m.terms.map fun t => (t.1, t.2.den)).map fun t => if t.1 = d then t.2 else 0).sum := by
  rw [List.map_map]; rfl

theorem ev_eq (m : TLMor) (G : TLDiag → ℤ[T;T⁻¹]) : m.ev G = ((m.terms.map fun t => (t.1, t.2.den)).map fun t => t.2 * G t.1).sum := by
  rw [List.map_map]; rfl

/-- A functional can be computed from any list with the same coefficients. -/
theorem ev_of_coef (L : List (TLDiag × ℤ[T;T⁻¹])) (h : ∀ d, m.coef d = (L.map fun t => if t.1 = d then t.2 else 0).sum) (G : TLDiag → ℤ[T;T⁻¹]) :
    m.ev G = (L.map fun t => t.2 * G t.1).sum := by
  classical
  rw [ev_eq, sum_eq_finset G _ ((m.terms.map (·.1)).toFinset ∪ (L.map (·.1)).toFinset), sum_eq_finset G L ((m.terms.map (·.1)).toFinset ∪ (L.map (·.1)).toFinset)]
  · exact Finset.sum_congr rfl fun d _ => by rw [← coef_eq, h]
  · intro t ht; exact Finset.mem_union_right _ (List.mem_toFinset.2 (List.mem_map_of_mem ht))
  · intro t ht
    obtain ⟨s, hs, rfl⟩ := List.mem_map.1 ht
    exact Finset.mem_union_left _ (List.mem_toFinset.2 (List.mem_map_of_mem hs))

theorem ev_congr (h : ∀ d, a.coef d = b.coef d) (G : TLDiag → ℤ[T;T⁻¹]) : a.ev G = b.ev G := by
  rw [ev_of_coef (m := a) (b.terms.map fun t => (t.1, t.2.den)) (fun d => by rw [h, coef_eq]), ← ev_eq]

theorem ev_single {d : TLDiag} (h : ∀ x, m.coef x = if d = x then 1 else 0) (G : TLDiag → ℤ[T;T⁻¹]) : m.ev G = G d := by
  rw [ev_of_coef [(d, 1)] (fun x => by rw [h]; simp)]; simp

theorem coef_ev (m : TLMor) (d : TLDiag) : m.coef d = m.ev fun x => if x = d then 1 else 0 := by
  rw [coef, coefIn, ev]
  congr 2
  funext t
  split <;> simp

theorem ev_add_fun (G H : TLDiag → ℤ[T;T⁻¹]) : m.ev (fun d => G d + H d) = m.ev G + m.ev H := by
  rw [ev, ev, ev, ← List.sum_map_add]; simp only [mul_add]

theorem ev_mul_fun (x : ℤ[T;T⁻¹]) (G : TLDiag → ℤ[T;T⁻¹]) : m.ev (fun d => x * G d) = x * m.ev G := by
  rw [ev, ev, ← List.sum_map_mul_left]
  simp only [mul_left_comm]

/-- The coefficients of a product. -/
theorem mul_coef (ha : a.WF) (hb : b.WF) (h : a.bot = b.top) : ∃ c, mul a b = .ok c ∧ c.WF ∧ c.top = a.top ∧ c.bot = b.bot ∧
    ∀ d, c.coef d = a.ev fun x => b.ev fun y => if TLDiag.prodD x y = d then (T 1 + T (-1)) ^ TLDiag.prodL x y else 0 := by
  obtain ⟨c, c1, c2, c3, c4, c5⟩ := mul_spec ha hb h
  refine ⟨c, c1, c2, c3, c4, fun d => ?_⟩
  rw [c5, ev]
  congr 2
  funext t
  rw [ev, ← List.sum_map_mul_left]
  congr 2
  funext s
  rw [contrib]
  split <;> ring

theorem ev_list_sum {α : Type*} (l : List α) (G : α → TLDiag → ℤ[T;T⁻¹]) : m.ev (fun d => (l.map fun x => G x d).sum) = (l.map fun x => m.ev (G x)).sum := by
  induction l with
  | nil => simp [ev]
  | cons x l ih => simp only [List.map_cons, List.sum_cons, ev_add_fun, ih]

/-- Functionals of a product. -/
theorem mul_ev (ha : a.WF) (hb : b.WF) (h : a.bot = b.top) {c : TLMor} (hc : mul a b = .ok c) (G : TLDiag → ℤ[T;T⁻¹]) :
    c.ev G = a.ev fun x => b.ev fun y => (T 1 + T (-1)) ^ TLDiag.prodL x y * G (TLDiag.prodD x y) := by
  obtain ⟨c', c1, c2, c3, c4, c5⟩ := mul_coef ha hb h
  rw [hc] at c1
  cases c1
  have key : ∀ d, c.coef d = (((a.terms.flatMap fun t => b.terms.map fun s =>
      (TLDiag.prodD t.1 s.1, t.2.den * (s.2.den * (T 1 + T (-1)) ^ TLDiag.prodL t.1 s.1)))).map fun t => if t.1 = d then t.2 else 0).sum := by
    intro d
    rw [c5, ev, List.map_flatMap, List.flatMap_def, List.sum_flatten, List.map_map]
    congr 2
    funext t
    simp only [Function.comp_apply, List.map_map, ev, ← List.sum_map_mul_left]
    congr 2
    funext s
    simp only [Function.comp_apply]
    split <;> simp
  rw [ev_of_coef _ key, List.map_flatMap, List.flatMap_def, List.sum_flatten, List.map_map, ev]
  congr 2
  funext t
  simp only [Function.comp_apply, List.map_map, ev, ← List.sum_map_mul_left]
  congr 2
  funext s
  simp only [Function.comp_apply]
  ring

/-- Acting from below on both kinds of factors of interest. -/
theorem prod_e_left {i n : Nat} (hi : i + 1 < n) {d : TLDiag} (hd : d.Ok) (ht : d.top = n) :
    TLDiag.prodD ⟨n, n, TL.eSeq i n⟩ d = ⟨n, d.bot, TL.actSeq (d.seq.length - 2 - i) d.seq⟩ ∧
      TLDiag.prodL ⟨n, n, TL.eSeq i n⟩ d = TL.actLoops (d.seq.length - 2 - i) d.seq := by
  have ok : (⟨n, n, TL.eSeq i n⟩ : TLDiag).Ok := ⟨by rw [TL.eSeq_length]; dsimp only; omega, TL.eSeq_nc hi⟩
  obtain ⟨-, h2, h3, h4, -⟩ := TLDiag.mul_ok ok hd ht.symm
  have := (TL.compose_e_left (n := n) hd.2 (by have := hd.1; omega) hi).1
  dsimp only at h2
  rw [this] at h2
  injection h2 with h2
  injection h2 with e1 e2
  exact ⟨TLDiag.ext' h3 h4 e1.symm, e2.symm⟩

theorem prod_id_left {n : Nat} {d : TLDiag} (hd : d.Ok) (ht : d.top = n) :
    TLDiag.prodD ⟨n, n, TL.idSeq n⟩ d = d ∧ TLDiag.prodL ⟨n, n, TL.idSeq n⟩ d = 0 := by
  have ok : (⟨n, n, TL.idSeq n⟩ : TLDiag).Ok := ⟨by simp; omega, TL.idSeq_nc n⟩
  obtain ⟨-, h2, h3, h4, -⟩ := TLDiag.mul_ok ok hd ht.symm
  have := TL.compose_id_left (n := n) hd.2 (by have := hd.1; omega)
  dsimp only at h2
  rw [this] at h2
  injection h2 with h2
  injection h2 with e1 e2
  exact ⟨TLDiag.ext' (by rw [h3, ht]) h4 e1.symm, e2.symm⟩

theorem prod_id_right {n : Nat} {d : TLDiag} (hd : d.Ok) (hb : d.bot = n) :
    TLDiag.prodD d ⟨n, n, TL.idSeq n⟩ = d ∧ TLDiag.prodL d ⟨n, n, TL.idSeq n⟩ = 0 := by
  have ok : (⟨n, n, TL.idSeq n⟩ : TLDiag).Ok := ⟨by simp; omega, TL.idSeq_nc n⟩
  obtain ⟨-, h2, h3, h4, -⟩ := TLDiag.mul_ok hd ok hb
  have := TL.compose_id_right (n := n) hd.2 (by have := hd.1; omega)
  rw [hb] at h2
  dsimp only at h2
  rw [this] at h2
  injection h2 with h2
  injection h2 with e1 e2
  exact ⟨TLDiag.ext' h3 (by rw [h4, hb]) e1.symm, e2.symm⟩

theorem prod_e_right {i n : Nat} (hi : i + 1 < n) {d : TLDiag} (hd : d.Ok) (hb : d.bot = n) :
    TLDiag.prodD d ⟨n, n, TL.eSeq i n⟩ = ⟨d.top, n, TL.actSeq i d.seq⟩ ∧ TLDiag.prodL d ⟨n, n, TL.eSeq i n⟩ = TL.actLoops i d.seq := by
  have ok : (⟨n, n, TL.eSeq i n⟩ : TLDiag).Ok := ⟨by rw [TL.eSeq_length]; dsimp only; omega, TL.eSeq_nc hi⟩
  obtain ⟨-, h2, h3, h4, -⟩ := TLDiag.mul_ok hd ok hb
  have := (TL.compose_e_right (n := n) hd.2 (by have := hd.1; omega) hi).1
  rw [hb] at h2
  dsimp only at h2
  rw [this] at h2
  injection h2 with h2
  injection h2 with e1 e2
  exact ⟨TLDiag.ext' h3 h4 e1.symm, e2.symm⟩

end TLMor
end Peyl
