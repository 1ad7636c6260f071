import Verif.Lemmas.MatrixMod
/-!
# Properties C42–C44: matrices
-/
namespace Peyl
open LaurentPolynomial

/-! ## C42 -/

/-- C42: `*` is the matrix product; incompatible shapes raise `ValueError`. -/
theorem C42_matrix_mul (a b : Matrix) {r m m' c : Nat} (ha : a.Shape r m) (hb : b.Shape m' c) :
    (∀ h : m = m', ∃ x, a.mul b = .ok x ∧ x.Shape r c ∧ x.den r c = a.den r m * (h ▸ b.den m' c)) ∧
    (m ≠ m' → a.mul b = .error .value) := by
  refine ⟨?_, fun h => Matrix.mul_error (by rw [ha.ncols, hb.nrows]; exact h)⟩
  rintro rfl
  exact Matrix.mul_spec ha hb

/-- C42: `*` is associative up to the represented matrices, and the identity is a two-sided unit. -/
theorem C42_matrix_assoc (a b c : Matrix) {p q r s : Nat} (ha : a.Shape p q) (hb : b.Shape q r) (hc : c.Shape r s) :
    ∃ ab bc x y, a.mul b = .ok ab ∧ b.mul c = .ok bc ∧ ab.mul c = .ok x ∧ a.mul bc = .ok y ∧ x.den p s = y.den p s := by
  obtain ⟨ab, h1, s1, d1⟩ := Matrix.mul_spec ha hb
  obtain ⟨bc, h2, s2, d2⟩ := Matrix.mul_spec hb hc
  obtain ⟨x, h3, s3, d3⟩ := Matrix.mul_spec s1 hc
  obtain ⟨y, h4, s4, d4⟩ := Matrix.mul_spec ha s2
  exact ⟨ab, bc, x, y, h1, h2, h3, h4, by rw [d3, d4, d1, d2, _root_.Matrix.mul_assoc]⟩

theorem C42_matrix_identity (a : Matrix) {r c : Nat} (ha : a.Shape r c) :
    (∃ x, (Matrix.identity r).mul a = .ok x ∧ x.den r c = a.den r c) ∧
    (∃ x, a.mul (Matrix.identity c) = .ok x ∧ x.den r c = a.den r c) ∧ (Matrix.identity r).den r r = 1 := by
  obtain ⟨x, h1, _, d1⟩ := Matrix.mul_spec (Matrix.shape_identity r) ha
  obtain ⟨y, h2, _, d2⟩ := Matrix.mul_spec ha (Matrix.shape_identity c)
  exact ⟨⟨x, h1, by rw [d1, Matrix.den_identity, _root_.Matrix.one_mul]⟩,
    ⟨y, h2, by rw [d2, Matrix.den_identity, _root_.Matrix.mul_one]⟩, Matrix.den_identity r⟩

/-- C42: powers; non-square bases and negative exponents raise. -/
theorem C42_matrix_pow (a : Matrix) {r c : Nat} (ha : a.Shape r c) :
    (r = c → ∀ e : Nat, ∃ x, a.pow e = .ok x ∧ x.Shape r r ∧ x.den r r = (a.den r r) ^ e) ∧
    (r ≠ c → ∀ e : Int, a.pow e = .error .value) ∧ (r = c → ∀ e : Int, e < 0 → a.pow e = .error .notImpl) := by
  refine ⟨?_, ?_, ?_⟩
  · rintro rfl e; exact Matrix.pow_spec ha e
  · intro h e; rw [Matrix.pow, ha.nrows, ha.ncols, if_pos h]
  · intro h e he; rw [Matrix.pow, ha.nrows, ha.ncols, if_neg (by simpa using h), if_pos he]

/-- C42: difference, integer multiples, trace, transpose. -/
theorem C42_matrix_ops (a b : Matrix) {r c : Nat} (ha : a.Shape r c) (hb : b.Shape r c) (k : Int) :
    (∃ x, a.sub b = .ok x ∧ x.Shape r c ∧ x.den r c = a.den r c - b.den r c) ∧
    ((a.mulInt k).Shape r c ∧ (a.mulInt k).den r c = LaurentPolynomial.C k • a.den r c) ∧
    (∃ x, a.transpose = .ok x ∧ x.Shape c r ∧ x.den c r = (a.den r c).transpose) ∧
    (r = c → ∃ x, a.trace = .ok x ∧ x.den = (a.den r r).trace) ∧
    (r ≠ c → a.trace = .error .value) := by
  refine ⟨Matrix.sub_spec ha hb, Matrix.mulInt_spec ha k, Matrix.transpose_spec ha, ?_, ?_⟩
  · rintro rfl
    obtain ⟨x, h1, _, h3⟩ := Matrix.trace_spec ha
    exact ⟨x, h1, h3⟩
  · intro h; rw [Matrix.trace, ha.nrows, ha.ncols, if_pos h]

/-- C42: `from_rows` and `rows` are inverse to each other. -/
theorem C42_matrix_rows :
    (∀ (rs : List (List Entry)) (m : Matrix), Matrix.fromRows rs = .ok m → m.rows = rs) ∧
    (∀ (m : Matrix) (r c : Nat), m.Shape r c → 0 < r → Matrix.fromRows m.rows = .ok m) :=
  ⟨fun _ _ h => Matrix.rows_fromRows h, fun _ _ _ h hr => Matrix.fromRows_rows h hr⟩

example : ∃ a b : Matrix, a.Shape 2 3 ∧ b.Shape 3 1 ∧
    a.mul b = .ok ⟨2, 1, [.lp ⟨-1, [1, 4, 2]⟩, .int 32]⟩ :=
  ⟨⟨2, 3, [.int 1, .int 0, .lp ⟨-1, [1, 0, 2]⟩, .int 4, .int 5, .int 6]⟩, ⟨3, 1, [.int 4, .int 2, .int 1]⟩,
    ⟨rfl, rfl, rfl, by
      intro x hx
      simp only [List.mem_cons, List.not_mem_nil, or_false] at hx
      rcases hx with rfl | rfl | rfl | rfl | rfl | rfl <;> first | trivial | (show LPoly.Trimmed _; decide)⟩,
    ⟨rfl, rfl, rfl, by
      intro x hx
      simp only [List.mem_cons, List.not_mem_nil, or_false] at hx
      rcases hx with rfl | rfl | rfl <;> trivial⟩, by decide +kernel⟩

/-! ## C43: the code violates the property; what it does instead -/

/-- C43 fails: `is_symmetric()` only looks at the diagonal and answers `True` for every matrix. -/
theorem C43_is_symmetric_always_true (a : Matrix) {r c : Nat} (ha : a.Shape r c) : a.isSymmetric = .ok true := by
  unfold Matrix.isSymmetric
  rw [ha.nrows, ha.ncols]
  have key : ∀ l : List (Nat × Nat), (∀ p ∈ l, p.1 = p.2 ∧ p.1 < r ∧ p.1 < c) →
      l.foldlM (m := Except Err) (init := true) (fun acc ij => do
        if acc then
          let x ← a.get ij.1 ij.2
          let y ← a.get ij.2 ij.1
          .ok (Matrix.entryEq x y)
        else .ok false) = .ok true := by
    intro l
    induction l with
    | nil => intro _; rfl
    | cons p l ih =>
      intro h
      obtain ⟨i, j⟩ := p
      obtain ⟨h1, h2, h3⟩ := h (i, j) (by simp)
      simp only at h1 h2 h3
      subst h1
      rw [List.foldlM_cons]
      simp only [if_true, Matrix.get_eq ha h2 h3, bind, Except.bind, Matrix.entryEq, decide_true]
      exact ih fun p hp => h p (by simp [hp])
  apply key
  intro p hp
  obtain ⟨i, hi, rfl⟩ := List.mem_iff_getElem.1 hp
  simp only [List.length_zip, List.length_range, lt_min_iff] at hi
  simp [List.getElem_zip, hi]

/-- C43 refutation: a matrix which is not symmetric but reported symmetric. -/
theorem C43_is_symmetric_refuted : ∃ a : Matrix, a.Shape 2 2 ∧ a.isSymmetric = .ok true ∧
    a.get 0 1 = .ok (.int 2) ∧ a.get 1 0 = .ok (.int 3) := by
  refine ⟨⟨2, 2, [.int 1, .int 2, .int 3, .int 4]⟩, ⟨rfl, rfl, rfl, ?_⟩, by decide, by decide, by decide⟩
  intro x hx
  simp only [List.mem_cons, List.not_mem_nil, or_false] at hx
  rcases hx with rfl | rfl | rfl | rfl <;> trivial

/-- C43 (proved part): `column(j)` for every legal `j`, and `row(i)` for `i < min(nrows, ncols)`, return that
column/row.  Missing: `row(i)` for `ncols ≤ i < nrows` (refuted below). -/
theorem C43_row_column_partial (a : Matrix) {r c : Nat} (ha : a.Shape r c) :
    (∀ j, j < c → ∃ x, a.column j = .ok x ∧ x.nrows = r ∧ x.ncols = 1 ∧ ∀ i, i < r → x.get i 0 = a.get i j) ∧
    (∀ i, i < r → i < c → ∃ x, a.row i = .ok x ∧ x.nrows = 1 ∧ x.ncols = c ∧ ∀ j, j < c → x.get 0 j = a.get i j) := by
  constructor
  · intro j hj
    have hm := Matrix.mapM_ok (List.range a.nrows) (fun i : Nat => a.get i j) (fun i => Matrix.at' a.data (c * i + j)) (by
      intro i hi
      rw [ha.nrows, List.mem_range] at hi
      exact Matrix.get_eq ha hi hj)
    refine ⟨⟨r, 1, (List.range r).map fun i => Matrix.at' a.data (c * i + j)⟩, ?_, rfl, rfl, ?_⟩
    · rw [Matrix.column, ha.ncols, if_neg (by omega), hm, ha.nrows]; rfl
    · intro i hi
      rw [Matrix.get_eq ha hi hj]
      rw [Matrix.get, if_pos (by simp; omega)]
      simp [Matrix.at', hi]
  · intro i hi hc
    have hm := Matrix.mapM_ok (List.range a.ncols) (fun j : Nat => a.get i j) (fun j => Matrix.at' a.data (c * i + j)) (by
      intro j hj
      rw [ha.ncols, List.mem_range] at hj
      exact Matrix.get_eq ha hi hj)
    refine ⟨⟨1, c, (List.range c).map fun j => Matrix.at' a.data (c * i + j)⟩, ?_, rfl, rfl, ?_⟩
    · rw [Matrix.row, if_neg (by rw [ha.ncols]; omega), hm, ha.ncols]; rfl
    · intro j hj
      rw [Matrix.get_eq ha hi hj]
      rw [Matrix.get, if_pos (by simp; omega)]
      simp [Matrix.at', hj]

/-- C43 refutation: in a matrix with more rows than columns, `row` rejects every row index from `ncols` on. -/
theorem C43_row_refuted (a : Matrix) {r c : Nat} (ha : a.Shape r c) (i : Nat) (h1 : c ≤ i) : a.row i = .error .index := by
  rw [Matrix.row, if_pos (by rw [ha.ncols]; omega)]

example : ∃ a : Matrix, a.Shape 2 1 ∧ a.row 1 = .error .index ∧ a.get 1 0 = .ok (.int 7) :=
  ⟨⟨2, 1, [.int 5, .int 7]⟩, ⟨rfl, rfl, rfl, by
      intro x hx
      simp only [List.mem_cons, List.not_mem_nil, or_false] at hx
      rcases hx with rfl | rfl <;> trivial⟩, by decide, by decide⟩

/-! ## C44 -/

/-- C44: for every list of matrices (with mixed int / `LPoly` entries) reducing all factors modulo `p` before the
product, or not, gives the same object (or the same exception) after the final reduction. -/
theorem C44_reduction_commutes (p : ℕ) (l : List Matrix) (init : Matrix) :
    ((l.map (Matrix.map (Entry.modp p))).foldlM Matrix.mul init).map (Matrix.map (Entry.modp p)) =
      (l.foldlM Matrix.mul init).map (Matrix.map (Entry.modp p)) := by
  rcases Matrix.reduce_sim (p := p) (l.map (Matrix.map (Entry.modp p))) l init init
    (by rw [List.forall₂_map_left_iff]; exact List.forall₂_same.2 fun a _ => Matrix.sim_map p a) rfl with
    ⟨e, h1, h2⟩ | ⟨x, x', h1, h2, h3⟩
  · rw [h1, h2]
  · rw [h1, h2]
    show Except.ok _ = Except.ok _
    congr 1

/-- C44: the same for powers of a single matrix. -/
theorem C44_reduction_pow (p : ℕ) (a : Matrix) (e : Int) :
    ((a.map (Entry.modp p)).pow e).map (Matrix.map (Entry.modp p)) = (a.pow e).map (Matrix.map (Entry.modp p)) := by
  rcases Matrix.pow_sim (Matrix.sim_map p a) e with ⟨err, h1, h2⟩ | ⟨x, x', h1, h2, h3⟩
  · rw [h1, h2]
  · rw [h1, h2]
    show Except.ok _ = Except.ok _
    congr 1

/-- C44: reduction keeps the image in `(ℤ/p)[v,v⁻¹]`, and reduced objects are equal iff those images agree. -/
theorem C44_reduction_sound (p : ℕ) (x y : LPoly) :
    LPoly.red p (LPoly.map (fun n => n.fmod p) x).den = LPoly.red p x.den ∧
    (LPoly.map (fun n => n.fmod p) x = LPoly.map (fun n => n.fmod p) y ↔ LPoly.red p x.den = LPoly.red p y.den) :=
  ⟨LPoly.red_map p x, LPoly.map_mod_eq_iff p x y⟩

end Peyl
