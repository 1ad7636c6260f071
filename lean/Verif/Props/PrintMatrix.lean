import Verif.Lemmas.PrintMatrix
import Verif.Props.Display
/-!
# The printed forms of matrices (C114)

Vocabulary (Spec/Printing.lean, Spec/Matrix.lean): `Text.rows s` are the texts of the entries of a matrix printed with brackets, `Text.latexRows s`
those of a matrix printed in LaTeX; `m.Shape r c` says that `m` is a well-formed `r × c` matrix.
-/
namespace Peyl
open Adapter Text LaurentPolynomial

namespace Text

theorem entry_inj {x y : Entry} (hx : x.Ok) (hy : y.Ok) (h : x.repr = y.repr) : x = y := by
  have hL : ∀ (k : Int) (p : LPoly), reprInt k ≠ p.repr := by
    intro k p e
    have h1 : 'L' ∈ p.repr := by simp [LPoly.repr]
    rw [← e] at h1
    exact not_mem_reprInt (by decide) (by decide) k h1
  cases x with
  | int k =>
    cases y with
    | int k' =>
      have : k = k' := by
        have e := congrArg signed h
        have h0 : ∀ z : Int, signed (reprInt z) = z := fun z => by
          simpa using signed_pad (A := []) (Z := []) (by decide) (by decide) (by decide) (by decide) z
        simpa only [Entry.repr, h0] using e
      rw [this]
    | lp p => exact absurd h (hL k p)
  | lp p =>
    cases y with
    | int k' => exact absurd h.symm (hL k' p)
    | lp q => rw [((C92_injective p q hx hy).2).1 h]

theorem latex_int (latex : Bool) (k : Int) : reprInt k = (LPoly.make 0 [k]).fmt latex := by
  by_cases hk : k = 0
  · subst hk; rfl
  · have e : LPoly.make 0 [k] = ⟨0, [k]⟩ := by
      have h1 : LPoly.leadZeros [k] = 0 := by simp [LPoly.leadZeros, hk]
      rw [LPoly.make, h1]
      simp [LPoly.trimRight, hk]
    rw [e, LPoly.fmt, if_neg (by simp)]
    simp only [enumFrom, List.reverse_cons, List.reverse_nil, List.nil_append, LPoly.fmtLoop, if_neg hk, Display.signText, LPoly.fmtCoeff, LPoly.fmtTerm]
    cases k with
    | ofNat m =>
      have : 0 < m := by rcases Nat.eq_zero_or_pos m with h | h; · subst h; exact absurd rfl hk
                         · exact h
      simp [reprInt, this]
    | negSucc m => simp [reprInt]

/-- The LaTeX form of an entry reads as its value. -/
theorem read_entry {x : Entry} (hx : x.Ok) : Display.read x.latex = x.den := by
  cases x with
  | int k =>
    rw [Entry.latex, latex_int true, C92_read true _ (LPoly.trimmed_make 0 [k]), LPoly.den_int]
    rfl
  | lp p => exact C92_read true p hx

end Text

/-! ## C114 -/

/-- C114: if a matrix has entries, the brackets and commas of its `repr` and of its `str` delimit the `repr`s of its entries, row by row; if it has none, its
`repr` has no inner brackets and shows the two sizes. -/
theorem C114_repr (r c : Nat) (m : Matrix) (h : m.Shape r c) :
    (0 < r → 0 < c → ∃ e : Nat → Nat → Entry, (∀ i j : Nat, i < r → j < c → m.get i j = .ok (e i j)) ∧
      rows m.repr = ((List.range r).map fun i => (List.range c).map fun j => (e i j).repr) ∧ rows m.str = rows m.repr) ∧
    (r = 0 ∨ c = 0 → rows m.repr = [] ∧ numbers m.repr = [r, c]) := by
  constructor
  · intro hr hc
    have hL : m.rows.map (List.map Entry.repr) = (List.range r).map fun i => (List.range c).map fun j => (Matrix.at' m.data (c * i + j)).repr := by
      rw [← Matrix.printRows_eq h, Matrix.printRows, h.nrows, h.ncols]
    set L := m.rows.map (List.map Entry.repr) with hLd
    have hne : L ≠ [] := by rw [hL]; simp; omega
    have hrow : ∀ q ∈ L, q ≠ [] := by
      intro q hq
      rw [hL] at hq
      obtain ⟨i, -, rfl⟩ := List.mem_map.1 hq
      simp; omega
    have hch : ∀ q ∈ L, ∀ t ∈ q, '[' ∉ t ∧ ']' ∉ t ∧ ',' ∉ t := by
      intro q hq t ht
      rw [hL] at hq
      obtain ⟨i, -, rfl⟩ := List.mem_map.1 hq
      obtain ⟨j, -, rfl⟩ := List.mem_map.1 ht
      exact Entry.repr_char _
    have main := rows_join L hne hrow hch
    have hstr : rows m.str = L := by
      rw [← main ['M'] [] [',', ' '] [']'] (by decide) (by decide) (by decide) (by decide)]
      congr 1
      rw [Matrix.str, hLd, List.map_map]
      simp [Function.comp_def]
    have hrepr : rows m.repr = L := by
      have hf := Matrix.rows_flatten h
      rw [Matrix.repr, h.nrows, h.ncols, if_neg (by omega)]
      split
      · rename_i hr1
        have : m.rows = [m.data] := by
          have hlen : m.rows.length = 1 := by rw [Matrix.length_rows, h.nrows, hr1]
          obtain ⟨q, hq⟩ := List.length_eq_one_iff.1 hlen
          rw [hq] at hf
          rw [hq, ← hf]; simp
        rw [← main ['M', 'a', 't', 'r', 'i', 'x', '('] [] [] [']', ')'] (by decide) (by decide) (by decide) (by decide)]
        congr 1
        rw [hLd, this]
        simp [joinWith]
      · split
        · rename_i hc1
          have : m.rows = m.data.map fun x => [x] := by
            rw [← hf]
            have hl := Matrix.rows_getElem_length h
            generalize m.rows = R at hl
            induction R with
            | nil => rfl
            | cons q R ih =>
              obtain ⟨x, rfl⟩ := List.length_eq_one_iff.1 ((hl q (by simp)).trans hc1)
              rw [List.flatten_cons, List.map_append, ← ih fun p hp => hl p (by simp [hp])]; rfl
          rw [← main ['M', 'a', 't', 'r', 'i', 'x', '('] [] [',', ' '] [']', ')'] (by decide) (by decide) (by decide) (by decide)]
          congr 1
          rw [hLd, this]
          simp [joinWith, Function.comp_def]
        · rw [← main ['M', 'a', 't', 'r', 'i', 'x', '('] ['\n', ' ', ' ', ' ', ' '] [',', '\n', ' ', ' ', ' ', ' '] [',', '\n', ']', ')'] (by decide) (by decide) (by decide) (by decide)]
          congr 1
          have hj : ∀ (X : List (List Char)), X ≠ [] → ∀ A B : List Char, joinWith ['\n'] ([A] ++ X ++ [B]) = A ++ ['\n'] ++ joinWith ['\n'] X ++ ['\n'] ++ B := by
            intro X
            have h2 : ∀ X : List (List Char), X ≠ [] → ∀ B : List Char, joinWith ['\n'] (X ++ [B]) = joinWith ['\n'] X ++ ['\n'] ++ B := by
              intro X hX B
              induction X with
              | nil => exact absurd rfl hX
              | cons a X ih =>
                cases X with
                | nil => rfl
                | cons b X =>
                  have := ih (by simp)
                  rw [List.cons_append, List.cons_append, joinWith, joinWith]
                  rw [List.cons_append] at this
                  rw [this]; simp
            intro hX A B
            obtain ⟨a, X', rfl⟩ := List.exists_cons_of_ne_nil hX
            have := h2 (a :: X') hX B
            show joinWith ['\n'] (A :: a :: (X' ++ [B])) = _
            rw [joinWith]
            rw [List.cons_append] at this
            rw [this]; simp
          rw [Matrix.printRows_eq h, ← hLd, hj _ (by simpa using hne)]
          have e : (L.map fun row => [' ', ' ', ' ', ' ', '['] ++ joinWith [',', ' '] row ++ [']', ',']) =
              ((L.map fun r => [] ++ '[' :: (joinWith [',', ' '] r ++ [']'])).map fun l => [' ', ' ', ' ', ' '] ++ l ++ [',']) := by
            clear_value L
            rw [List.map_map]
            refine List.map_congr_left fun q _ => ?_
            simp
          rw [e, join_around _ _ _ _ (by simpa using hne)]
          have e2 : [','] ++ ['\n'] ++ [' ', ' ', ' ', ' '] = [',', '\n', ' ', ' ', ' ', ' '] := rfl
          rw [e2]
          generalize joinWith _ _ = J
          simp
    refine ⟨fun i j => Matrix.at' m.data (c * i + j), fun i j hi hj => ?_, by rw [hrepr, hL], by rw [hstr, hrepr]⟩
    rw [Matrix.get, h.nrows, h.ncols, if_pos (by omega)]; rfl
  · intro h0
    rw [Matrix.repr, h.nrows, h.ncols, if_pos h0]
    constructor
    · have e : ['M', 'a', 't', 'r', 'i', 'x', '('] ++ reprNat r ++ [',', ' '] ++ reprNat c ++ [',', ' ', '[', ']', ')'] =
          (['M', 'a', 't', 'r', 'i', 'x', '('] ++ reprNat r ++ [',', ' '] ++ reprNat c ++ [',', ' ']) ++ '[' :: [']', ')'] := by simp
      have h1 := not_mem_reprNat (c := '[') (by decide) r
      have h2 := not_mem_reprNat (c := '[') (by decide) c
      rw [rows, e, cut_first _ (by simp [h1, h2])]
      rfl
    · have e : ['M', 'a', 't', 'r', 'i', 'x', '('] ++ reprNat r ++ [',', ' '] ++ reprNat c ++ [',', ' ', '[', ']', ')'] =
          ['M', 'a', 't', 'r', 'i', 'x', '('] ++ (reprNat r ++ [',', ' '] ++ reprNat c) ++ [',', ' ', '[', ']', ')'] := by simp
      rw [e, numbers_pad (by decide) (by decide), numbers_append (by decide) (by decide), numbers_repr, numbers_repr]; rfl

theorem Text.texts_inj {r c r' c' : Nat} (hr : 0 < r) (e e' : Nat → Nat → List Char)
    (h : ((List.range r).map fun i => (List.range c).map fun j => e i j) = (List.range r').map fun i => (List.range c').map fun j => e' i j) :
    r = r' ∧ c = c' ∧ ∀ i j, i < r → j < c → e i j = e' i j := by
  have h1 : r = r' := by simpa using congrArg List.length h
  subst h1
  have hrow : ∀ i, i < r → ((List.range c).map fun j => e i j) = (List.range c').map fun j => e' i j := by
    intro i hi
    have := List.getElem_of_eq h (i := i) (by simpa using hi)
    rw [List.getElem_map, List.getElem_map, List.getElem_range] at this
    exact this
  have h2 : c = c' := by simpa using congrArg List.length (hrow 0 hr)
  subst h2
  refine ⟨rfl, rfl, fun i j hi hj => ?_⟩
  have := List.getElem_of_eq (hrow i hi) (i := j) (by simpa using hj)
  rw [List.getElem_map, List.getElem_map, List.getElem_range] at this
  exact this

theorem Text.ext_get {m m' : Matrix} {r c : Nat} (h : m.Shape r c) (h' : m'.Shape r c) (e : ∀ i j : Nat, i < r → j < c → m.get i j = m'.get i j) : m = m' := by
  have hrows : m.rows = m'.rows := by
    rw [Matrix.rows_eq h, Matrix.rows_eq h']
    refine List.map_congr_left fun i hi => List.map_congr_left fun j hj => ?_
    rw [List.mem_range] at hi hj
    have := e i j hi hj
    rw [Matrix.get, Matrix.get, h.nrows, h.ncols, h'.nrows, h'.ncols, if_pos (by omega), if_pos (by omega)] at this
    exact Except.ok.inj this
  have hd : m.data = m'.data := by rw [← Matrix.rows_flatten h, hrows, Matrix.rows_flatten h']
  have h1 := h.nrows; have h2 := h.ncols; have h3 := h'.nrows; have h4 := h'.ncols
  cases m; cases m'
  simp_all

/-- C114: so matrices with the same `repr` are equal, and so are matrices with entries and with the same `str`. -/
theorem C114_injective (r c r' c' : Nat) (m m' : Matrix) (h : m.Shape r c) (h' : m'.Shape r' c') :
    (m.repr = m'.repr → m = m') ∧ (0 < r → 0 < c → 0 < r' → 0 < c' → m.str = m'.str → m = m') := by
  have full : 0 < r → 0 < c → 0 < r' → 0 < c' → (m.repr = m'.repr ∨ m.str = m'.str) → m = m' := by
    intro hr hc hr' hc' e
    obtain ⟨f, f1, f2, f3⟩ := (C114_repr r c m h).1 hr hc
    obtain ⟨f', f1', f2', f3'⟩ := (C114_repr r' c' m' h').1 hr' hc'
    have e2 : rows m.repr = rows m'.repr := by
      rcases e with e | e
      · rw [e]
      · rw [← f3, ← f3', e]
    rw [f2, f2'] at e2
    obtain ⟨rfl, rfl, e3⟩ := texts_inj hr (fun i j => (f i j).repr) (fun i j => (f' i j).repr) e2
    refine ext_get h h' fun i j hi hj => ?_
    have ok : ∀ (q : Matrix), q.Shape r c → ∀ x, q.get i j = .ok x → x.Ok := by
      intro q hq x hx
      rw [Matrix.get, hq.nrows, hq.ncols, if_pos (by omega)] at hx
      cases hx
      have hb : c * i + j < q.data.length := by
        rw [hq.length, mul_comm r c]
        calc c * i + j < c * i + c := by omega
          _ = c * (i + 1) := by ring
          _ ≤ c * r := Nat.mul_le_mul_left _ hi
      refine hq.ok _ ?_
      simp only [Matrix.at', Int.toNat_natCast]
      rw [List.getD_eq_getElem?_getD, List.getElem?_eq_getElem hb]
      exact List.getElem_mem hb
    rw [f1 i j hi hj, f1' i j hi hj, entry_inj (ok m h _ (f1 i j hi hj)) (ok m' h' _ (f1' i j hi hj)) (e3 i j hi hj)]
  have hrl : ∀ (q : Matrix) (a b : Nat), q.Shape a b → 0 < a → 0 < b → rows q.repr ≠ [] := by
    intro q a b hq ha hb
    obtain ⟨f, -, f2, -⟩ := (C114_repr a b q hq).1 ha hb
    rw [f2]; simp; omega
  refine ⟨fun e => ?_, fun hr hc hr' hc' e => full hr hc hr' hc' (.inr e)⟩
  by_cases h0 : r = 0 ∨ c = 0
  · obtain ⟨k1, k2⟩ := (C114_repr r c m h).2 h0
    by_cases h0' : r' = 0 ∨ c' = 0
    · obtain ⟨-, k2'⟩ := (C114_repr r' c' m' h').2 h0'
      rw [e, k2'] at k2
      obtain ⟨rfl, rfl⟩ : r' = r ∧ c' = c := by simpa using k2
      exact ext_get h h' fun i j hi hj => by omega
    · exact absurd (by rw [← e]; exact k1) (hrl m' r' c' h' (by omega) (by omega))
  · by_cases h0' : r' = 0 ∨ c' = 0
    · obtain ⟨k1', -⟩ := (C114_repr r' c' m' h').2 h0'
      exact absurd (by rw [e]; exact k1') (hrl m r c h (by omega) (by omega))
    · exact full (by omega) (by omega) (by omega) (by omega) (.inl e)

/-- C114: in the LaTeX form of a matrix with entries, double backslashes delimit the rows and ampersands the entries, and each entry reads as its value. -/
theorem C114_latex (r c : Nat) (hr : 0 < r) (hc : 0 < c) (m : Matrix) (h : m.Shape r c) :
    (latexRows m.latex).map (List.map Display.read) = (List.range r).map fun i => (List.range c).map fun j =>
      if h : i < r ∧ j < c then m.den r c ⟨i, h.1⟩ ⟨j, h.2⟩ else 0 := by
  have hne : Matrix.printRows Entry.latex m ≠ [] := by rw [Matrix.printRows, h.nrows]; simp; omega
  have hlr : latexRows m.latex = Matrix.printRows Entry.latex m := by
    have hcut : ∀ M : List Char, ((['\\', 'b', 'e', 'g', 'i', 'n', '{', 'p', 'm', 'a', 't', 'r', 'i', 'x', '}'] ++ M ++ ['\\', 'e', 'n', 'd', '{', 'p', 'm', 'a', 't', 'r', 'i', 'x', '}']).drop 15).take
        ((['\\', 'b', 'e', 'g', 'i', 'n', '{', 'p', 'm', 'a', 't', 'r', 'i', 'x', '}'] ++ M ++ ['\\', 'e', 'n', 'd', '{', 'p', 'm', 'a', 't', 'r', 'i', 'x', '}']).length - 28) = M := by
      intro M
      simp
    have hrow : ∀ q ∈ Matrix.printRows Entry.latex m, q ≠ [] ∧ ∀ t ∈ q, '\\' ∉ t ∧ '&' ∉ t := by
      intro q hq
      obtain ⟨i, -, rfl⟩ := List.mem_map.1 hq
      refine ⟨by rw [h.ncols]; simp; omega, fun t ht => ?_⟩
      obtain ⟨j, -, rfl⟩ := List.mem_map.1 ht
      exact Entry.latex_char _
    rw [latexRows, Matrix.latex, hcut, cutText_join2 (by decide) _ (by simpa using hne) (by
      intro l hl
      obtain ⟨q, hq, rfl⟩ := List.mem_map.1 hl
      exact mem_join (by decide) fun t ht => ((hrow q hq).2 t ht).1), List.map_map]
    refine (List.map_congr_left fun q hq => ?_).trans (List.map_id _)
    rw [Function.comp_apply, cutText_join2 (by decide) q (hrow q hq).1 fun t ht => ((hrow q hq).2 t ht).2]; rfl
  rw [hlr, Matrix.printRows, h.nrows, h.ncols, List.map_map]
  refine List.map_congr_left fun i hi => ?_
  rw [Function.comp_apply, List.map_map]
  refine List.map_congr_left fun j hj => ?_
  rw [List.mem_range] at hi hj
  rw [dif_pos ⟨hi, hj⟩, Function.comp_apply, Matrix.den, Matrix.get, h.nrows, h.ncols, if_pos (by simp [hi, hj])]
  simp only [Int.toNat_natCast]
  refine read_entry ?_
  have hb : c * i + j < m.data.length := by
    rw [h.length, mul_comm r c]
    calc c * i + j < c * i + c := by omega
      _ = c * (i + 1) := by ring
      _ ≤ c * r := Nat.mul_le_mul_left _ hi
  refine h.ok _ ?_
  rw [Matrix.at', List.getD_eq_getElem?_getD, List.getElem?_eq_getElem hb]
  exact List.getElem_mem hb

/-- C114: `str` does not tell apart matrices without rows. -/
theorem C114_str_empty : (⟨0, 2, []⟩ : Matrix).str = (⟨0, 3, []⟩ : Matrix).str ∧ (⟨0, 2, []⟩ : Matrix) ≠ ⟨0, 3, []⟩ := by decide

example : (⟨2, 2, [.int (-3), .lp ⟨-1, [1, 0, -2]⟩, .int 0, .lp ⟨0, [2]⟩]⟩ : Matrix).repr = "Matrix([\n    [-3, LPoly('-2v + v^-1')],\n    [0, LPoly('2')],\n])".toList ∧
    (⟨2, 2, [.int (-3), .lp ⟨-1, [1, 0, -2]⟩, .int 0, .lp ⟨0, [2]⟩]⟩ : Matrix).str = "M[[-3, LPoly('-2v + v^-1')], [0, LPoly('2')]]".toList ∧
    (⟨2, 2, [.int (-3), .lp ⟨-1, [1, 0, -2]⟩, .int 0, .lp ⟨0, [2]⟩]⟩ : Matrix).latex = "\\begin{pmatrix}-3 & -2v + v^{-1} \\\\ 0 & 2\\end{pmatrix}".toList := by decide

example : (⟨2, 1, [.int (-3), .lp ⟨0, [2]⟩]⟩ : Matrix).Shape 2 1 :=
  ⟨rfl, rfl, rfl, by intro x hx; simp at hx; rcases hx with rfl | rfl; exact trivial; show LPoly.Trimmed _; decide⟩

end Peyl
