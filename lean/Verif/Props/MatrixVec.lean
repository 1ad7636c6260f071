import Verif.Props.Matrix
/-!
# C134: row vectors, column vectors and coordinate vectors
-/
namespace Peyl
open LaurentPolynomial

namespace Matrix

theorem shape_rowVector (xs : List Entry) (h : ∀ x ∈ xs, x.Ok) : (rowVector xs).Shape 1 xs.length := ⟨rfl, rfl, by simp [rowVector], h⟩

theorem shape_colVector (xs : List Entry) (h : ∀ x ∈ xs, x.Ok) : (colVector xs).Shape xs.length 1 := ⟨rfl, rfl, by simp [colVector], h⟩

theorem shape_colCoord (n : Nat) (i : Int) : (colCoordVector n i).Shape n 1 :=
  ⟨rfl, rfl, by simp [colCoordVector], by
    intro x hx
    simp only [colCoordVector, List.mem_map] at hx
    obtain ⟨j, -, rfl⟩ := hx
    trivial⟩

theorem den_rowVector (xs : List Entry) (h : ∀ x ∈ xs, x.Ok) (i : Fin 1) (j : Fin xs.length) : (rowVector xs).den 1 xs.length i j = xs[j].den := by
  rw [den_apply (shape_rowVector xs h)]
  have : (i : Nat) = 0 := by omega
  simp [this, at', rowVector, List.getD_eq_getElem?_getD]

theorem den_colVector (xs : List Entry) (h : ∀ x ∈ xs, x.Ok) (i : Fin xs.length) (j : Fin 1) : (colVector xs).den xs.length 1 i j = xs[i].den := by
  rw [den_apply (shape_colVector xs h)]
  have : (j : Nat) = 0 := by omega
  simp [this, at', colVector, List.getD_eq_getElem?_getD]

theorem den_colCoord (n : Nat) (k : Int) (i : Fin n) (j : Fin 1) : (colCoordVector n k).den n 1 i j = if k = ((i : Nat) : Int) then 1 else 0 := by
  rw [den_apply (shape_colCoord n k)]
  have : (j : Nat) = 0 := by omega
  simp only [this, at', colCoordVector, List.getD_eq_getElem?_getD, Nat.one_mul, Nat.add_zero, List.getElem?_map]
  rw [List.getElem?_range i.2]
  simp only [Option.map_some, Option.getD_some, Entry.den]
  split <;> simp

end Matrix

/-- C134: `row_vector` and `col_vector` have the given entries, in order, in one row or one column, and are transposes of each other. -/
theorem C134_vectors (xs : List Entry) (h : ∀ x ∈ xs, x.Ok) :
    (Matrix.rowVector xs).Shape 1 xs.length ∧ (Matrix.colVector xs).Shape xs.length 1 ∧
    (∀ j (hj : j < xs.length), (Matrix.rowVector xs).get 0 j = .ok xs[j] ∧ (Matrix.colVector xs).get j 0 = .ok xs[j]) ∧
    (Matrix.rowVector xs).rows = [xs] ∧ (Matrix.colVector xs).rows = xs.map (fun x => [x]) ∧
    ∃ x, (Matrix.rowVector xs).transpose = .ok x ∧ x.Shape xs.length 1 ∧ x.den xs.length 1 = (Matrix.colVector xs).den xs.length 1 := by
  refine ⟨Matrix.shape_rowVector xs h, Matrix.shape_colVector xs h, fun j hj => ⟨?_, ?_⟩, ?_, ?_, ?_⟩
  · have := Matrix.get_eq (Matrix.shape_rowVector xs h) (i := 0) (j := j) (by norm_num) hj
    rw [Nat.cast_zero] at this
    rw [this]; simp [Matrix.at', Matrix.rowVector, List.getD_eq_getElem?_getD, hj]
  · have := Matrix.get_eq (Matrix.shape_colVector xs h) (i := j) (j := 0) hj (by norm_num)
    rw [Nat.cast_zero] at this
    rw [this]; simp [Matrix.at', Matrix.colVector, List.getD_eq_getElem?_getD, hj]
  · simp [Matrix.rows, Matrix.rowVector]
  · apply List.ext_getElem (by simp [Matrix.rows, Matrix.colVector])
    intro i h1 h2
    have hi : i < xs.length := by simpa using h2
    simp [Matrix.rows, Matrix.colVector]
    rw [List.drop_take]; simp [List.take_one_drop_eq_of_lt_length hi]
  · obtain ⟨x, h1, h2, h3⟩ := Matrix.transpose_spec (Matrix.shape_rowVector xs h)
    refine ⟨x, h1, h2, ?_⟩
    rw [h3]; funext i j
    rw [_root_.Matrix.transpose_apply, Matrix.den_rowVector xs h, Matrix.den_colVector xs h]

/-- C134: multiplying by `col_coord_vector(c, j)` picks column `j`; for `j` outside of the range the coordinate vector is zero. -/
theorem C134_coordinate (a : Matrix) {r c : Nat} (ha : a.Shape r c) :
    (∀ j (hj : j < c), ∃ x y, a.mul (Matrix.colCoordVector c j) = .ok x ∧ a.column j = .ok y ∧ x.Shape r 1 ∧ x.den r 1 = y.den r 1 ∧
      ∀ i k, x.den r 1 i k = a.den r c i ⟨j, hj⟩) ∧
    (∀ j : ℤ, j < 0 ∨ (c : ℤ) ≤ j → ∃ x, a.mul (Matrix.colCoordVector c j) = .ok x ∧ x.Shape r 1 ∧ x.den r 1 = 0) ∧
    ∀ j : ℤ, (Matrix.colCoordVector c j).Shape c 1 ∧ ∀ i k, (Matrix.colCoordVector c j).den c 1 i k = if j = ((i : Nat) : ℤ) then 1 else 0 := by
  refine ⟨fun j hj => ?_, fun j hj => ?_, fun j => ⟨Matrix.shape_colCoord c j, ?_⟩⟩
  · obtain ⟨x, h1, h2, h3⟩ := Matrix.mul_spec ha (Matrix.shape_colCoord c j)
    obtain ⟨y, y1, -, -, y2⟩ := (C43_row_column_partial a ha).1 j hj
    have key : ∀ i k, x.den r 1 i k = a.den r c i ⟨j, hj⟩ := ?_
    · refine ⟨x, y, h1, y1, h2, ?_, key⟩
      funext i k
      rw [key, Matrix.den, Matrix.den]
      have : ((k : Nat) : ℤ) = 0 := by have := k.2; omega
      rw [this, y2 i i.2]
    intro i k
    rw [h3]
    rw [_root_.Matrix.mul_apply, Finset.sum_eq_single ⟨j, hj⟩]
    · rw [Matrix.den_colCoord]; simp
    · intro b _ hb
      rw [Matrix.den_colCoord, if_neg, mul_zero]
      intro e; exact hb (Fin.ext (by simpa using e.symm))
    · simp
  · obtain ⟨x, h1, h2, h3⟩ := Matrix.mul_spec ha (Matrix.shape_colCoord c j)
    refine ⟨x, h1, h2, ?_⟩
    rw [h3]; funext i k
    rw [_root_.Matrix.mul_apply, Finset.sum_eq_zero]
    · rfl
    · intro b _
      rw [Matrix.den_colCoord, if_neg, mul_zero]
      have := b.2; omega
  · intro i k; exact Matrix.den_colCoord c j i k

/-- C134: `row_vector(xs) * col_vector(ys)` is the scalar product, and raises ValueError if the lengths differ. -/
theorem C134_scalar_product (xs ys : List Entry) (hx : ∀ x ∈ xs, x.Ok) (hy : ∀ y ∈ ys, y.Ok) :
    (∀ h : xs.length = ys.length, ∃ z, (Matrix.rowVector xs).mul (Matrix.colVector ys) = .ok z ∧ z.Shape 1 1 ∧
      z.den 1 1 0 0 = ((List.finRange xs.length).map fun i => xs[i].den * (ys[i.val]'(h ▸ i.2)).den).sum) ∧
    (xs.length ≠ ys.length → (Matrix.rowVector xs).mul (Matrix.colVector ys) = .error .value) := by
  refine ⟨fun h => ?_, fun h => (C42_matrix_mul _ _ (Matrix.shape_rowVector xs hx) (Matrix.shape_colVector ys hy)).2 h⟩
  have hs := Matrix.shape_colVector ys hy
  have hs' : (Matrix.colVector ys).Shape xs.length 1 := by rw [h]; exact hs
  obtain ⟨z, z1, z2, z3⟩ := Matrix.mul_spec (Matrix.shape_rowVector xs hx) hs'
  refine ⟨z, z1, z2, ?_⟩
  rw [z3, _root_.Matrix.mul_apply, ← List.sum_ofFn, List.ofFn_eq_map]
  refine congrArg List.sum (List.map_congr_left fun i _ => ?_)
  rw [Matrix.den_rowVector xs hx]
  congr 1
  rw [Matrix.den_apply hs']
  have hi : i.val < ys.length := h ▸ i.2
  simp [Matrix.at', Matrix.colVector, List.getD_eq_getElem?_getD, hi]

/-- C134: `is_square` says whether there is a trace and whether there are powers. -/
theorem C134_is_square (a : Matrix) {r c : Nat} (ha : a.Shape r c) : (a.isSquare = true ↔ r = c) ∧ (a.isSquare = true ↔ ∃ x, a.trace = .ok x) ∧
    (a.isSquare = true ↔ ∃ x, a.pow 2 = .ok x) := by
  have h : a.isSquare = true ↔ r = c := by rw [Matrix.isSquare, ha.nrows, ha.ncols]; simp
  refine ⟨h, h.trans ⟨fun e => ?_, fun ⟨x, hx⟩ => ?_⟩, h.trans ⟨fun e => ?_, fun ⟨x, hx⟩ => ?_⟩⟩
  · obtain ⟨x, hx, -⟩ := (C42_matrix_ops a a ha ha 0).2.2.2.1 e
    exact ⟨x, hx⟩
  · by_contra hne
    rw [(C42_matrix_ops a a ha ha 0).2.2.2.2 hne] at hx; cases hx
  · obtain ⟨x, hx, -⟩ := (C42_matrix_pow a ha).1 e 2
    exact ⟨x, hx⟩
  · by_contra hne
    rw [(C42_matrix_pow a ha).2.1 hne 2] at hx; cases hx

/-- C134: `M[i, j]` is entry `j` of row `i` of `rows()` for indices in the range, and raises IndexError for all others, also negative ones. -/
theorem C134_getitem (a : Matrix) {r c : Nat} (ha : a.Shape r c) (i j : ℤ) :
    (∀ (h : 0 ≤ i ∧ i < r ∧ 0 ≤ j ∧ j < c), ∃ row x, a.rows[i.toNat]? = some row ∧ row[j.toNat]? = some x ∧ a.get i j = .ok x) ∧
    (¬ (0 ≤ i ∧ i < r ∧ 0 ≤ j ∧ j < c) → a.get i j = .error .index) := by
  refine ⟨fun h => ?_, fun h => by rw [Matrix.get, ha.nrows, ha.ncols, if_neg h]⟩
  have hi : i.toNat < r := by omega
  have hj : j.toNat < c := by omega
  have hk := Matrix.idx_lt hi hj
  refine ⟨(a.data.drop (c * i.toNat)).take c, a.data[c * i.toNat + j.toNat]'(by rw [ha.length]; exact hk), ?_, ?_, ?_⟩
  · rw [Matrix.rows, List.getElem?_map, ha.nrows, List.getElem?_range hi, ha.ncols, Option.map_some, List.drop_take, Nat.mul_succ, Nat.add_sub_cancel_left]
  · rw [List.getElem?_take_of_lt hj, List.getElem?_drop, List.getElem?_eq_getElem]
  · rw [Matrix.get, ha.nrows, ha.ncols, if_pos h, Matrix.at', List.getD_eq_getElem?_getD, List.getElem?_eq_getElem (by rw [ha.length]; exact hk)]; rfl

example : (Matrix.rowVector [.int 1, .int 2]).mul (Matrix.colVector [.int 3, .lp ⟨1, [1]⟩]) = .ok ⟨1, 1, [.lp ⟨0, [3, 2]⟩]⟩ ∧
    (Matrix.colCoordVector 3 1).data = [.int 0, .int 1, .int 0] ∧ (Matrix.colCoordVector 2 (-1)).data = [.int 0, .int 0] := by decide

end Peyl
