import Verif.Spec.Matrix
import Verif.Lemmas.LPolyCoeff
/-!
# Lemmas about the `Matrix` model
-/
namespace Peyl
open LaurentPolynomial

namespace Entry

theorem den_add (x y : Entry) : (add x y).den = x.den + y.den := by
  cases x <;> cases y <;> simp only [add, den, map_add, LPoly.den_addInt, LPoly.den_add]
  ring
theorem den_sub (x y : Entry) : (sub x y).den = x.den - y.den := by
  cases x <;> cases y <;> simp only [sub, den, map_sub, LPoly.den_rsubInt, LPoly.den_subInt, LPoly.den_sub]
theorem den_mul (x y : Entry) : (mul x y).den = x.den * y.den := by
  cases x <;> cases y <;> simp only [mul, den, map_mul, LPoly.den_mulInt, LPoly.den_mul]
  ring
theorem ok_add (x y : Entry) : (add x y).Ok := by
  cases x <;> cases y <;> first | trivial | exact LPoly.trimmed_make _ _
theorem ok_sub (x y : Entry) : (sub x y).Ok := by
  cases x <;> cases y <;> first | trivial | exact LPoly.trimmed_make _ _
theorem ok_mul (x y : Entry) : (mul x y).Ok := by
  cases x <;> cases y <;> first | trivial | exact LPoly.trimmed_make _ _
theorem ok_modp (p : Int) (x : Entry) : (modp p x).Ok := by
  cases x <;> first | trivial | exact LPoly.trimmed_make _ _
theorem red_modp (p : ℕ) (x : Entry) : LPoly.red p (modp p x).den = LPoly.red p x.den := by
  cases x
  · rfl
  · exact LPoly.red_map p _

end Entry

namespace Matrix

theorem idx_lt {m n i j : Nat} (hi : i < m) (hj : j < n) : n * i + j < m * n := by
  calc n * i + j < n * i + n := by omega
    _ = n * (i + 1) := by ring
    _ ≤ n * m := Nat.mul_le_mul_left _ hi
    _ = m * n := by ring

theorem idx_inj {n i j i' j' : Nat} (hj : j < n) (hj' : j' < n) (h : n * i + j = n * i' + j') : i = i' ∧ j = j' := by
  have h1 : (n * i + j) / n = (n * i' + j') / n := by rw [h]
  have hn : 0 < n := by omega
  rw [Nat.mul_add_div hn, Nat.mul_add_div hn, Nat.div_eq_of_lt hj, Nat.div_eq_of_lt hj'] at h1
  have : i = i' := by omega
  subst this
  exact ⟨rfl, by omega⟩

theorem length_tabulate (m n : Nat) (f : Nat → Nat → Entry) : (tabulate m n f).length = m * n := by
  simp [tabulate, List.length_flatMap]

theorem at_tabulate_aux (n : Nat) (f : Nat → Nat → Entry) (i j : Nat) (hj : j < n) :
    ∀ (l : List Nat) (hi : i < l.length),
    (l.flatMap fun i => (List.range n).map fun j => f i j).getD (n * i + j) (.int 0) = f l[i] j := by
  induction i with
  | zero =>
    intro l hi
    cases l with
    | nil => simp at hi
    | cons a l =>
      simp only [List.flatMap_cons, List.getD_eq_getElem?_getD]
      rw [List.getElem?_append_left (by simpa using hj)]
      simp [hj]
  | succ i ih =>
    intro l hi
    cases l with
    | nil => simp at hi
    | cons a l =>
      simp only [List.flatMap_cons, List.getD_eq_getElem?_getD]
      have e : n * (i + 1) + j = n + (n * i + j) := by ring
      rw [List.getElem?_append_right (by simp; rw [e]; omega), ← List.getD_eq_getElem?_getD]
      have := ih l (by simpa using hi)
      simp only [List.length_map, List.length_range, e, Nat.add_sub_cancel_left]
      rw [this]; simp

theorem at_tabulate (m n : Nat) (f : Nat → Nat → Entry) (i j : Nat) (hi : i < m) (hj : j < n) :
    at' (tabulate m n f) (n * i + j) = f i j := by
  have := at_tabulate_aux n f i j hj (List.range m) (by simpa using hi)
  rw [at', tabulate, this]; simp

theorem get_eq {m : Matrix} {r c : Nat} (h : m.Shape r c) {i j : Nat} (hi : i < r) (hj : j < c) :
    m.get i j = .ok (at' m.data (c * i + j)) := by
  rw [get, h.nrows, h.ncols, if_pos (by omega)]; rfl

theorem den_apply {m : Matrix} {r c : Nat} (h : m.Shape r c) (i : Fin r) (j : Fin c) :
    m.den r c i j = (at' m.data (c * i + j)).den := by
  rw [den, get_eq h i.2 j.2]

theorem at_ok {m : Matrix} {r c : Nat} (h : m.Shape r c) (k : Nat) : (at' m.data k).Ok := by
  rw [at']
  by_cases hk : k < m.data.length
  · rw [List.getD_eq_getElem?_getD, List.getElem?_eq_getElem hk]; exact h.ok _ (List.getElem_mem hk)
  · rw [List.getD_eq_getElem?_getD, List.getElem?_eq_none (by omega)]; trivial

theorem ok_of_at {l : List Entry} (h : ∀ k < l.length, (at' l k).Ok) : ∀ x ∈ l, x.Ok := by
  intro x hx
  obtain ⟨k, hk, rfl⟩ := List.mem_iff_getElem.1 hx
  have := h k hk
  rwa [at', List.getD_eq_getElem?_getD, List.getElem?_eq_getElem hk] at this

theorem make_shape {r c : Nat} {d : List Entry} (hl : d.length = r * c) (hok : ∀ x ∈ d, x.Ok) :
    make r c d = .ok ⟨r, c, d⟩ ∧ Shape ⟨r, c, d⟩ r c := by
  constructor
  · rw [make, if_neg (by simp), if_neg (by rw [hl]; push_cast; simp)]; simp
  · exact ⟨rfl, rfl, hl, hok⟩

theorem shape_tabulate (m n : Nat) (f : Nat → Nat → Entry) (hf : ∀ i j, (f i j).Ok) : Shape ⟨m, n, tabulate m n f⟩ m n := by
  refine ⟨rfl, rfl, length_tabulate _ _ _, ?_⟩
  intro x hx
  simp only [tabulate, List.mem_flatMap, List.mem_map] at hx
  obtain ⟨i, _, j, _, rfl⟩ := hx
  exact hf i j

theorem shape_identity (n : Nat) : (identity n).Shape n n := shape_tabulate _ _ _ fun _ _ => trivial

theorem den_identity (n : Nat) : (identity n).den n n = 1 := by
  funext i j
  rw [den_apply (shape_identity n), identity, at_tabulate _ _ _ _ _ i.2 j.2, _root_.Matrix.one_apply]
  simp only [Entry.den, Fin.ext_iff]
  split <;> simp

theorem shape_scalar (n : Nat) (s : Int) : (scalar n s).Shape n n := shape_tabulate _ _ _ fun _ _ => trivial

theorem den_scalar (n : Nat) (s : Int) : (scalar n s).den n n = _root_.Matrix.scalar (Fin n) (LaurentPolynomial.C s) := by
  funext i j
  rw [den_apply (shape_scalar n s), scalar, at_tabulate _ _ _ _ _ i.2 j.2, _root_.Matrix.scalar_apply, _root_.Matrix.diagonal_apply]
  simp only [Entry.den, Fin.ext_iff]
  split <;> simp

theorem at_addAt (l : List Entry) (k c : Nat) (x : Entry) (h : k < l.length) :
    at' (addAt l k x) c = if k = c then (at' l c).add x else at' l c := by
  simp only [at', addAt, List.getD_eq_getElem?_getD, List.getElem?_modify]
  split
  · subst_vars; rw [List.getElem?_eq_getElem h]; rfl
  · cases l[c]? <;> rfl

/-- In-place accumulation, entry by entry. -/
theorem foldl_addAt {α : Type} (ps : List α) (f : α → Nat) (g : α → Entry) (acc : List Entry)
    (h : ∀ p ∈ ps, f p < acc.length) (hok : ∀ k, (at' acc k).Ok) :
    (ps.foldl (fun acc p => addAt acc (f p) (g p)) acc).length = acc.length ∧
    (∀ k, (at' (ps.foldl (fun acc p => addAt acc (f p) (g p)) acc) k).Ok) ∧
    ∀ c, (at' (ps.foldl (fun acc p => addAt acc (f p) (g p)) acc) c).den =
      (at' acc c).den + (ps.map fun p => if f p = c then (g p).den else 0).sum := by
  induction ps generalizing acc with
  | nil => simpa using hok
  | cons p ps ih =>
    have h1 := h p (by simp)
    obtain ⟨h2, h3, h4⟩ := ih (addAt acc (f p) (g p))
      (by intro q hq; simpa [addAt] using h q (by simp [hq]))
      (by intro k; rw [at_addAt _ _ _ _ h1]; split
          · exact Entry.ok_add _ _
          · exact hok k)
    refine ⟨by simpa [addAt] using h2, h3, ?_⟩
    intro c
    rw [List.foldl_cons, h4, at_addAt _ _ _ _ h1, List.map_cons, List.sum_cons]
    by_cases hc : f p = c
    · simp only [hc, if_true, Entry.den_add]; ring
    · simp only [hc, if_false]; ring

theorem sum_list_range (n : Nat) (f : Nat → ℤ[T;T⁻¹]) : ((List.range n).map f).sum = ∑ i ∈ Finset.range n, f i := by
  rw [Finset.sum_range, ← List.sum_ofFn]
  congr 1
  apply List.ext_getElem <;> simp

theorem sum_flatMap {α : Type} (l : List α) (f : α → List ℤ[T;T⁻¹]) : (l.flatMap f).sum = (l.map fun a => (f a).sum).sum := by
  induction l with
  | nil => rfl
  | cons a l ih => simp [ih]

theorem mul_spec {a b : Matrix} {r m c : Nat} (ha : a.Shape r m) (hb : b.Shape m c) :
    ∃ x, mul a b = .ok x ∧ x.Shape r c ∧ x.den r c = a.den r m * b.den m c := by
  unfold mul
  rw [ha.ncols, ha.nrows, hb.nrows, hb.ncols, if_neg (by simp)]
  simp only
  set triples := (List.range r).flatMap fun i => (List.range c).flatMap fun j => (List.range m).map fun k => (i, j, k) with ht
  obtain ⟨h1, h2, h3⟩ := foldl_addAt triples (fun t => c * t.1 + t.2.1)
    (fun t => Entry.mul (at' a.data (m * t.1 + t.2.2)) (at' b.data (c * t.2.2 + t.2.1)))
    (List.replicate (r * c) (.int 0))
    (by
      intro p hp
      simp only [ht, List.mem_flatMap, List.mem_map, List.mem_range] at hp
      obtain ⟨i, hi, j, hj, k, hk, rfl⟩ := hp
      simpa using idx_lt hi hj)
    (by
      intro k
      simp only [at', List.getD_eq_getElem?_getD, List.getElem?_replicate]
      split <;> trivial)
  obtain ⟨e1, e2⟩ := make_shape (r := r) (c := c) (by rw [h1]; simp) (ok_of_at fun k _ => h2 k)
  refine ⟨_, e1, e2, ?_⟩
  funext i j
  rw [den_apply e2, h3, _root_.Matrix.mul_apply]
  have h0 : (at' (List.replicate (r * c) (Entry.int 0)) (c * i + j)).den = 0 := by
    simp only [at', List.getD_eq_getElem?_getD, List.getElem?_replicate]
    split <;> simp [Entry.den]
  rw [h0, zero_add, ht]
  simp only [List.map_flatMap, List.map_map, Function.comp_def]
  rw [sum_flatMap, sum_list_range]
  simp only [sum_flatMap, sum_list_range]
  rw [Finset.sum_eq_single i.1]
  · rw [Finset.sum_eq_single j.1]
    · simp only [if_true]
      rw [Finset.sum_range]
      apply Finset.sum_congr rfl
      intro k _
      rw [Entry.den_mul, den_apply ha, den_apply hb]
    · intro j' hj' hne
      apply Finset.sum_eq_zero
      intro k _
      rw [if_neg]
      intro h
      exact hne (idx_inj (by simpa using hj') j.2 h).2
    · intro h; exact absurd (Finset.mem_range.2 j.2) h
  · intro i' hi' hne
    apply Finset.sum_eq_zero
    intro j' hj'
    apply Finset.sum_eq_zero
    intro k _
    rw [if_neg]
    intro h
    exact hne (idx_inj (by simpa using hj') j.2 h).1
  · intro h; exact absurd (Finset.mem_range.2 i.2) h

theorem mul_error {a b : Matrix} (h : a.ncols ≠ b.nrows) : mul a b = .error .value := by
  rw [mul, if_pos h]

theorem powLoop_spec (exp : Nat) {n : Nat} : ∀ {acc pow2 : Matrix}, acc.Shape n n → pow2.Shape n n →
    ∃ x, powLoop acc pow2 exp = .ok x ∧ x.Shape n n ∧ x.den n n = acc.den n n * pow2.den n n ^ exp := by
  induction exp using Nat.strong_induction_on with
  | _ exp ih =>
    intro acc pow2 ha hp
    unfold powLoop
    split
    · subst_vars; exact ⟨acc, rfl, ha, by simp⟩
    · rename_i h0
      obtain ⟨acc', e1, s1, d1⟩ : ∃ x, (if exp % 2 = 1 then mul acc pow2 else .ok acc) = .ok x ∧ x.Shape n n ∧
          x.den n n = acc.den n n * pow2.den n n ^ (exp % 2) := by
        split
        · rename_i h; obtain ⟨x, h1, h2, h3⟩ := mul_spec ha hp; exact ⟨x, h1, h2, by rw [h3, h, pow_one]⟩
        · rename_i h; exact ⟨acc, rfl, ha, by rw [show exp % 2 = 0 by omega]; simp⟩
      obtain ⟨sq, e2, s2, d2⟩ := mul_spec hp hp
      obtain ⟨x, e3, s3, d3⟩ := ih (exp / 2) (by omega) s1 s2
      refine ⟨x, ?_, s3, ?_⟩
      · by_cases h : exp % 2 = 1
        · simp only [h, if_true] at e1 ⊢
          simp only [e1, e2, bind, Except.bind]; exact e3
        · simp only [h, if_false] at e1 ⊢
          cases e1
          simp only [e2, bind, Except.bind]; exact e3
      · rw [d3, d1, d2, ← pow_two, ← pow_mul, mul_assoc, ← pow_add]
        congr 2; omega

theorem pow_spec {a : Matrix} {n : Nat} (ha : a.Shape n n) (e : Nat) :
    ∃ x, pow a e = .ok x ∧ x.Shape n n ∧ x.den n n = a.den n n ^ e := by
  obtain ⟨x, h1, h2, h3⟩ := powLoop_spec e (shape_identity n) ha
  refine ⟨x, ?_, h2, by rw [h3, den_identity, one_mul]⟩
  rw [pow, ha.nrows, ha.ncols, if_neg (by simp), if_neg (by omega)]; exact h1

theorem shape_map {a : Matrix} {r c : Nat} (ha : a.Shape r c) (f : Entry → Entry) (hf : ∀ x, (f x).Ok) : (a.map f).Shape r c :=
  ⟨ha.nrows, ha.ncols, by simp [map, ha.length], by
    intro x hx; simp only [map, List.mem_map] at hx; obtain ⟨y, _, rfl⟩ := hx; exact hf y⟩

theorem at_map (l : List Entry) (f : Entry → Entry) (k : Nat) (h : k < l.length) : at' (l.map f) k = f (at' l k) := by
  simp [at', List.getD_eq_getElem?_getD, List.getElem?_eq_getElem h]

theorem den_map {a : Matrix} {r c : Nat} (ha : a.Shape r c) (f : Entry → Entry) (hf : ∀ x, (f x).Ok) (i : Fin r) (j : Fin c) :
    (a.map f).den r c i j = (f (at' a.data (c * i + j))).den := by
  rw [den_apply (shape_map ha f hf), map, at_map _ _ _ (by rw [ha.length]; exact idx_lt i.2 j.2)]

theorem mulInt_spec {a : Matrix} {r c : Nat} (ha : a.Shape r c) (k : Int) :
    (mulInt a k).Shape r c ∧ (mulInt a k).den r c = LaurentPolynomial.C k • a.den r c := by
  refine ⟨shape_map ha (fun x => Entry.mul x (.int k)) fun x => Entry.ok_mul _ _, ?_⟩
  funext i j
  have := den_map ha (fun x => Entry.mul x (.int k)) (fun x => Entry.ok_mul _ _) i j
  rw [show mulInt a k = a.map (fun x => Entry.mul x (.int k)) from rfl, this, Entry.den_mul, _root_.Matrix.smul_apply,
    den_apply ha, smul_eq_mul, mul_comm]; rfl

theorem sub_spec {a b : Matrix} {r c : Nat} (ha : a.Shape r c) (hb : b.Shape r c) :
    ∃ x, sub a b = .ok x ∧ x.Shape r c ∧ x.den r c = a.den r c - b.den r c := by
  have hs : Shape ⟨a.nrows, a.ncols, List.zipWith Entry.sub a.data b.data⟩ r c :=
    ⟨ha.nrows, ha.ncols, by simp [ha.length, hb.length], by
      intro x hx
      obtain ⟨k, hk, rfl⟩ := List.mem_iff_getElem.1 hx
      simp only [List.getElem_zipWith]; exact Entry.ok_sub _ _⟩
  refine ⟨_, by rw [sub, ha.nrows, ha.ncols, hb.nrows, hb.ncols, if_neg (by simp)], by simpa [ha.nrows, ha.ncols] using hs, ?_⟩
  funext i j
  rw [den_apply (by simpa [ha.nrows, ha.ncols] using hs), _root_.Matrix.sub_apply, den_apply ha, den_apply hb, ← Entry.den_sub]
  congr 1
  have h1 : c * i + j < a.data.length := by rw [ha.length]; exact idx_lt i.2 j.2
  have h2 : c * i + j < b.data.length := by rw [hb.length]; exact idx_lt i.2 j.2
  simp only [at', List.getD_eq_getElem?_getD, List.getElem?_zipWith]
  rw [List.getElem?_eq_getElem h1, List.getElem?_eq_getElem h2]; rfl

theorem trace_spec {a : Matrix} {n : Nat} (ha : a.Shape n n) :
    ∃ x, trace a = .ok x ∧ x.Ok ∧ x.den = (a.den n n).trace := by
  have key : ∀ (l : List Nat) (acc : Entry), acc.Ok →
      (l.foldl (fun acc i => Entry.add acc (at' a.data (n * i + i))) acc).Ok ∧
      (l.foldl (fun acc i => Entry.add acc (at' a.data (n * i + i))) acc).den =
        acc.den + (l.map fun i => (at' a.data (n * i + i)).den).sum := by
    intro l
    induction l with
    | nil => intro acc h; simpa using h
    | cons k l ih =>
      intro acc h
      obtain ⟨h1, h2⟩ := ih (Entry.add acc (at' a.data (n * k + k))) (Entry.ok_add _ _)
      refine ⟨h1, ?_⟩
      rw [List.foldl_cons, h2, Entry.den_add, List.map_cons, List.sum_cons]; ring
  obtain ⟨h1, h2⟩ := key (List.range n) (.int 0) trivial
  refine ⟨_, by rw [trace, ha.nrows, ha.ncols, if_neg (by simp)], h1, ?_⟩
  rw [h2, sum_list_range, _root_.Matrix.trace, Finset.sum_range]
  simp only [Entry.den, map_zero, zero_add, _root_.Matrix.diag, den_apply ha]

theorem mapM_ok {α : Type} {β : Type} (l : List α) (f : α → Except Err β) (g : α → β) (h : ∀ x ∈ l, f x = .ok (g x)) :
    l.mapM f = .ok (l.map g) := by
  induction l with
  | nil => rfl
  | cons a l ih =>
    rw [List.mapM_cons, h a (by simp), ih (fun x hx => h x (by simp [hx]))]; rfl

theorem transpose_spec {a : Matrix} {r c : Nat} (ha : a.Shape r c) :
    ∃ x, transpose a = .ok x ∧ x.Shape c r ∧ x.den c r = (a.den r c).transpose := by
  have hm := mapM_ok ((List.range a.ncols).flatMap fun i => (List.range a.nrows).map fun j => (i, j))
    (fun ij => a.get ij.2 ij.1) (fun ij => at' a.data (c * ij.2 + ij.1)) (by
      rintro ⟨i, j⟩ hx
      simp only [List.mem_flatMap, List.mem_map, List.mem_range, Prod.mk.injEq, ha.nrows, ha.ncols] at hx
      obtain ⟨i', hi, j', hj, rfl, rfl⟩ := hx
      exact get_eq ha hj hi)
  have hd : (((List.range a.ncols).flatMap fun i => (List.range a.nrows).map fun j => (i, j)).map
      fun ij => at' a.data (c * ij.2 + ij.1)) = tabulate c r fun i j => at' a.data (c * j + i) := by
    simp only [List.map_flatMap, List.map_map, tabulate, Function.comp_def, ha.nrows, ha.ncols]
  rw [hd] at hm
  have hs := shape_tabulate c r (fun i j => at' a.data (c * j + i)) (fun i j => at_ok ha _)
  obtain ⟨e1, e2⟩ := make_shape hs.length hs.ok
  refine ⟨_, ?_, e2, ?_⟩
  · rw [transpose]
    rw [hm, ha.nrows, ha.ncols]; exact e1
  · funext i j
    rw [den_apply e2, at_tabulate _ _ _ _ _ i.2 j.2, _root_.Matrix.transpose_apply, den_apply ha]

/-- `red p` applied entrywise. -/
theorem red_map_modp {a : Matrix} {r c : Nat} (ha : a.Shape r c) (p : ℕ) :
    ((a.map (Entry.modp p)).den r c).map (LPoly.red p) = (a.den r c).map (LPoly.red p) := by
  funext i j
  simp only [_root_.Matrix.map_apply]
  rw [den_map ha _ (Entry.ok_modp p), Entry.red_modp, den_apply ha]

end Matrix
end Peyl
