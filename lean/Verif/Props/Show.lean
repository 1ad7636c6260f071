import Verif.Model.Show
import Verif.Spec.Show
import Verif.Props.PrintMatrix
import Verif.Lemmas.TLCellBasis
/-!
# Tables and rows of objects in a notebook (C118, C119)

Vocabulary (Spec/Show.lean): `Text.table s` are the texts in the cells of the rows of the HTML table `s`, `Text.boxesInside s` the texts in
the boxes inside an outer box. `</td>` must not occur in the texts put in cells, nor `</div>` in those put in boxes, or the reader cannot find
the end; other tags, such as the pictures of diagrams, may.
-/
namespace Peyl
open Text Adapter
namespace Show


/-! ### Finding -/

theorem find_hit (pat t s : List Char) (c0 : Char) (p : List Char) (hp : pat = c0 :: p) (h0 : c0 ∉ p) (h : ¬ pat <:+: t) : find pat (t ++ pat ++ s) = some (t, s) := by
  induction t with
  | nil =>
    subst hp
    rw [List.nil_append, List.cons_append, find, if_pos (by rw [List.isPrefixOf_iff_prefix, ← List.cons_append]; exact List.prefix_append _ _),
      ← List.cons_append, List.drop_left]
  | cons c t ih =>
    rw [List.cons_append, List.cons_append, find, if_neg, ih, Option.map_some]
    · exact fun hi => h (hi.trans (List.suffix_cons c t).isInfix)
    · rw [List.isPrefixOf_iff_prefix]
      rintro ⟨r, hr⟩
      rw [← List.cons_append, ← List.cons_append, List.append_assoc] at hr
      rcases List.append_eq_append_iff.1 hr with ⟨u, h1, -⟩ | ⟨u, h1, h2⟩
      · exact h ⟨[], u, by rw [List.nil_append, h1]⟩
      · cases u with
        | nil =>
          rw [List.append_nil] at h1
          exact h ⟨[], [], by rw [h1]; simp⟩
        | cons x u =>
          rw [hp] at h1 h2
          have hx : x = c0 := (List.cons.inj h2).1.symm
          refine h0 ?_
          rw [List.cons_append] at h1
          rw [(List.cons.inj h1).2, ← hx]
          simp

theorem find_gt (t s : List Char) (h : '>' ∉ t) : find ['>'] (t ++ '>' :: s) = some (t, s) := by
  have := find_hit ['>'] t s '>' [] rfl (by simp) fun hi => h (List.IsInfix.subset hi (by simp))
  rwa [List.append_assoc] at this

theorem noInfix_append (p a b : List Char) (h0 : '<' ∉ p ++ ['>']) (h1 : '>' ∉ p) (ha : ¬ ('<' :: p ++ ['>']) <:+: a) (hb : ¬ ('<' :: p ++ ['>']) <:+: b)
    (h : (∃ a', a = a' ++ ['>']) ∨ (∃ b', b = '<' :: b') ∨ b = []) : ¬ ('<' :: p ++ ['>']) <:+: a ++ b := by
  rintro ⟨l, r, e⟩
  rw [List.append_assoc] at e
  rcases List.append_eq_append_iff.1 e with ⟨u, e1, e2⟩ | ⟨u, e1, e2⟩
  · rcases List.append_eq_append_iff.1 e2 with ⟨v, e3, e4⟩ | ⟨v, e3, e4⟩
    · exact ha ⟨l, v, by rw [e1, e3, List.append_assoc]⟩
    · cases u with
      | nil =>
        rw [List.nil_append] at e3
        exact hb ⟨[], r, by rw [List.nil_append, e4, e3]⟩
      | cons x u =>
        cases v with
        | nil => exact ha ⟨l, [], by rw [e3]; simpa using e1.symm⟩
        | cons y v =>
          rcases h with ⟨a', h⟩ | ⟨b', h⟩ | h
          · have h2 : ∃ w, x :: u = w ++ ['>'] := by
              obtain ⟨w, z, hw⟩ : ∃ w z, x :: u = w ++ [z] := ⟨_, _, (List.dropLast_append_getLast (List.cons_ne_nil x u)).symm⟩
              rw [hw, ← List.append_assoc] at e1
              rw [e1] at h
              have := (List.append_inj' h rfl).2
              exact ⟨w, by rw [hw, this]⟩
            obtain ⟨w, hw⟩ := h2
            obtain ⟨v', z, hv⟩ : ∃ v' z, y :: v = v' ++ [z] := ⟨_, _, (List.dropLast_append_getLast (List.cons_ne_nil y v)).symm⟩
            rw [hv, ← List.append_assoc] at e3
            have h3 := (List.append_inj' e3 rfl).1
            rw [hw] at h3
            cases w with
            | nil => simp at h3
            | cons q w =>
              simp only [List.cons_append] at h3
              exact h1 (by rw [(List.cons.inj h3).2]; simp)
          · rw [h] at e4
            rw [List.cons_append] at e3 e4
            have := (List.cons.inj e4).1
            refine h0 ?_
            rw [List.cons_append] at e3
            rw [(List.cons.inj e3).2, ← this]
            simp
          · rw [h] at e4; simp at e4
  · exact hb ⟨u, r, by rw [e2, List.append_assoc]⟩

/-! ### Cells -/

/-- The tag that opens a cell. -/
def tdOpen : List Char := ['<', 't', 'd', ' ', 's', 't', 'y', 'l', 'e', '=', '\"', 't', 'e', 'x', 't', '-', 'a', 'l', 'i', 'g', 'n', ':', ' ', 'c', 'e', 'n', 't', 'e', 'r', '\"', '>']

theorem cells_skip (n : Nat) (c : Char) (s : List Char) (h : c ≠ '<') : cells (n + 1) (c :: s) = cells n s := by
  rw [cells, if_neg, if_neg]
  · simpa [List.isPrefixOf] using fun e : '<' = c => absurd e.symm h
  · simpa [List.isPrefixOf] using fun e : '<' = c => absurd e.symm h

theorem cells_td (n : Nat) (attr t s : List Char) (ha : '>' ∉ attr) (ht : ¬ ['<', '/', 't', 'd', '>'] <:+: t) :
    cells (n + 1) (['<', 't', 'd'] ++ attr ++ ['>'] ++ t ++ ['<', '/', 't', 'd', '>'] ++ s) = (t :: (cells n s).1, (cells n s).2) := by
  have e : ['<', 't', 'd'] ++ attr ++ ['>'] ++ t ++ ['<', '/', 't', 'd', '>'] ++ s = '<' :: (('t' :: 'd' :: attr) ++ '>' :: (t ++ ['<', '/', 't', 'd', '>'] ++ s)) := by simp
  rw [e, cells, if_neg (by simp [List.isPrefixOf]), if_pos (by simp [List.isPrefixOf]), find_gt _ _ (by simpa using ha)]
  simp only
  rw [find_hit ['<', '/', 't', 'd', '>'] t s '<' _ rfl (by decide) ht]

theorem cells_td' (n : Nat) (t s : List Char) (ht : ¬ ['<', '/', 't', 'd', '>'] <:+: t) :
    cells (n + 1) (tdOpen ++ t ++ ['<', '/', 't', 'd', '>'] ++ s) = (t :: (cells n s).1, (cells n s).2) :=
  cells_td n [' ', 's', 't', 'y', 'l', 'e', '=', '\"', 't', 'e', 'x', 't', '-', 'a', 'l', 'i', 'g', 'n', ':', ' ', 'c', 'e', 'n', 't', 'e', 'r', '\"'] t s (by decide) ht

theorem cells_tds (l : List (List Char)) (n : Nat) (s : List Char) (h : ∀ t ∈ l, ¬ ['<', '/', 't', 'd', '>'] <:+: t) :
    cells (n + l.length) (l.flatMap (fun t => tdOpen ++ t ++ ['<', '/', 't', 'd', '>']) ++ s) = (l ++ (cells n s).1, (cells n s).2) := by
  induction l with
  | nil => rfl
  | cons t l ih =>
    rw [List.flatMap_cons, List.append_assoc, List.length_cons, ← Nat.add_assoc, cells_td' _ _ _ (h t (by simp)), ih fun x hx => h x (by simp [hx])]
    rfl

/-- More looking changes nothing once the whole text has been looked at. -/
theorem find_length (pat : List Char) (hp : pat ≠ []) (s : List Char) (x : List Char × List Char) (h : find pat s = some x) : x.2.length < s.length := by
  induction s generalizing x with
  | nil => cases h
  | cons c s ih =>
    rw [find] at h
    split at h
    · cases h
      have := List.length_pos_iff.2 hp
      simp only [List.length_drop, List.length_cons]
      omega
    · obtain ⟨y, hy, rfl⟩ := Option.map_eq_some_iff.1 h
      have := ih y hy
      simp only [List.length_cons]
      omega

theorem cells_fuel (n m : Nat) (s : List Char) (hn : s.length ≤ n) (hm : s.length ≤ m) : cells n s = cells m s := by
  induction n generalizing m s with
  | zero =>
    obtain rfl : s = [] := List.length_eq_zero_iff.1 (by omega)
    cases m <;> rfl
  | succ n ih =>
    cases s with
    | nil => cases m <;> rfl
    | cons c s =>
      cases m with
      | zero => simp at hm
      | succ m =>
        simp only [List.length_cons] at hn hm
        rw [cells, cells, ih m s (by omega) (by omega)]
        split
        · rfl
        · split
          · cases h1 : find ['>'] s with
            | none => rfl
            | some x =>
              simp only
              have l1 := find_length _ (by simp) _ _ h1
              cases h2 : find ['<', '/', 't', 'd', '>'] x.2 with
              | none => rfl
              | some y =>
                simp only
                have l2 := find_length _ (by simp) _ _ h2
                rw [ih m y.2 (by omega) (by omega)]
          · rfl

/-- Reading a whole text. -/
def scan (s : List Char) : List (List Char) × List (List (List Char)) := cells s.length s

theorem scan_eq (n : Nat) (s : List Char) (h : s.length ≤ n) : cells n s = scan s := cells_fuel _ _ _ h (Nat.le_refl _)

theorem scan_skip (c : Char) (s : List Char) (h : c ≠ '<') : scan (c :: s) = scan s := by
  rw [scan, List.length_cons, cells_skip _ _ _ h]; rfl

theorem scan_other (c d : Char) (s : List Char) (h1 : d ≠ 't') : scan ('<' :: d :: s) = scan (d :: s) := by
  rw [scan, List.length_cons, cells, if_neg, if_neg]
  · rfl
  · simpa [List.isPrefixOf] using fun e : 't' = d => absurd e.symm h1
  · simpa [List.isPrefixOf] using fun e : 't' = d => absurd e.symm h1

theorem scan_tr (s : List Char) : scan (['<', 't', 'r', '>'] ++ s) = ([], (scan s).1 :: (scan s).2) := by
  rw [scan, List.cons_append, List.length_cons, cells, if_pos (by simp [List.isPrefixOf]), scan_eq _ _ (Nat.le_refl _)]
  rw [List.cons_append, scan_skip _ _ (by decide), List.cons_append, scan_skip _ _ (by decide), List.cons_append, scan_skip _ _ (by decide), List.nil_append]

theorem scan_trEnd (s : List Char) : scan (['<', '/', 't', 'r', '>'] ++ s) = scan s := by
  simp only [List.cons_append, List.nil_append]
  rw [scan_other ' ' _ _ (by decide), scan_skip _ _ (by decide), scan_skip _ _ (by decide), scan_skip _ _ (by decide), scan_skip _ _ (by decide)]

theorem scan_table (s : List Char) : scan (['<', 't', 'a', 'b', 'l', 'e', '>'] ++ s) = scan s := by
  simp only [List.cons_append, List.nil_append]
  rw [scan, List.length_cons, cells, if_neg (by simp [List.isPrefixOf]), if_neg (by simp [List.isPrefixOf]), scan_eq _ _ (Nat.le_refl _),
    scan_skip _ _ (by decide), scan_skip _ _ (by decide), scan_skip _ _ (by decide), scan_skip _ _ (by decide), scan_skip _ _ (by decide), scan_skip _ _ (by decide)]

theorem scan_tds (l : List (List Char)) (s : List Char) (h : ∀ t ∈ l, ¬ ['<', '/', 't', 'd', '>'] <:+: t) :
    scan (l.flatMap (fun t => tdOpen ++ t ++ ['<', '/', 't', 'd', '>']) ++ s) = (l ++ (scan s).1, (scan s).2) := by
  have hl : l.length ≤ (l.flatMap (fun t => tdOpen ++ t ++ ['<', '/', 't', 'd', '>'])).length := by
    clear h
    induction l with
    | nil => simp
    | cons t l ih =>
      simp only [List.flatMap_cons, List.length_append, List.length_cons] at *
      omega
  have e : ∃ n, (l.flatMap (fun t => tdOpen ++ t ++ ['<', '/', 't', 'd', '>']) ++ s).length = n + l.length ∧ s.length ≤ n :=
    ⟨_ - l.length, (Nat.sub_add_cancel (by rw [List.length_append]; omega)).symm, by rw [List.length_append]; omega⟩
  obtain ⟨n, e, hn⟩ := e
  rw [scan, e, cells_tds l n s h, scan_eq n s hn]

/-- A row of a table. -/
def tr (l : List (List Char)) : List Char := ['<', 't', 'r', '>'] ++ l.flatMap (fun t => tdOpen ++ t ++ ['<', '/', 't', 'd', '>']) ++ ['<', '/', 't', 'r', '>']

theorem scan_trs (L : List (List (List Char))) (h : ∀ l ∈ L, ∀ t ∈ l, ¬ ['<', '/', 't', 'd', '>'] <:+: t) :
    scan (L.flatMap tr ++ ['<', '/', 't', 'a', 'b', 'l', 'e', '>']) = ([], L) := by
  induction L with
  | nil => rfl
  | cons l L ih =>
    rw [List.flatMap_cons, tr, List.append_assoc, List.append_assoc, List.append_assoc, scan_tr, scan_tds l _ (h l (by simp)), scan_trEnd,
      ih fun x hx => h x (by simp [hx])]
    simp

theorem table_scan (heads : List (List Char)) (L : List (List (List Char))) (h1 : ∀ t ∈ heads, ¬ ['<', '/', 't', 'd', '>'] <:+: t)
    (h2 : ∀ l ∈ L, ∀ t ∈ l, ¬ ['<', '/', 't', 'd', '>'] <:+: t) :
    table (['<', 't', 'a', 'b', 'l', 'e', '>'] ++ ['<', 't', 'r', '>'] ++ ['<', 't', 'd', '>', '<', '/', 't', 'd', '>'] ++
      heads.flatMap (fun t => tdOpen ++ t ++ ['<', '/', 't', 'd', '>']) ++ ['<', '/', 't', 'r', '>'] ++ L.flatMap tr ++ ['<', '/', 't', 'a', 'b', 'l', 'e', '>']) = ([] :: heads) :: L := by
  show (scan _).2 = _
  have as : ∀ a b c d e f g : List Char, a ++ b ++ c ++ d ++ e ++ f ++ g = a ++ (b ++ (c ++ (d ++ (e ++ (f ++ g))))) := by
    intros; simp only [List.append_assoc]
  rw [as, scan_table, scan_tr]
  have e : ∀ s, scan (['<', 't', 'd', '>', '<', '/', 't', 'd', '>'] ++ s) = ([] :: (scan s).1, (scan s).2) := by
    intro s
    have := cells_td (8 + s.length) [] [] s (by simp) (by decide)
    have hlen : (['<', 't', 'd', '>', '<', '/', 't', 'd', '>'] ++ s).length = 8 + s.length + 1 := by simp; omega
    rw [scan, hlen]
    rw [scan_eq (8 + s.length) s (by omega)] at this
    exact this
  rw [e, scan_tds _ _ h1, scan_trEnd, scan_trs L h2]
  simp

theorem framed_eq (rows cols : List Obj) (es : Entries) (H : Obj → List Char) (E : Nat → Nat → Obj) (hH : ∀ o ∈ cols, o.html = some (H o))
    (hE : ∀ i j, i < rows.length → j < cols.length → es.get i j = .ok (E i j)) :
    framedMatrix rows cols es = .ok (['<', 't', 'a', 'b', 'l', 'e', '>'] ++ ['<', 't', 'r', '>'] ++ ['<', 't', 'd', '>', '<', '/', 't', 'd', '>'] ++
      (cols.map H).flatMap (fun t => tdOpen ++ t ++ ['<', '/', 't', 'd', '>']) ++ ['<', '/', 't', 'r', '>'] ++
      (rows.zipIdx.map fun x => htmlRepr x.1 :: (List.range cols.length).map fun j => blankZero (htmlRepr (E x.2 j) true)).flatMap tr ++
      ['<', '/', 't', 'a', 'b', 'l', 'e', '>']) := by
  have e1 : cols.mapM heading = .ok (cols.map fun o => tdOpen ++ H o ++ ['<', '/', 't', 'd', '>']) := by
    refine TL.mapM_ok _ _ _ fun o ho => ?_
    rw [heading, hH o ho]; rfl
  have e2 : rows.zipIdx.mapM (tableRow cols.length es) = .ok (rows.zipIdx.map fun x =>
      tr (htmlRepr x.1 :: (List.range cols.length).map fun j => blankZero (htmlRepr (E x.2 j) true))) := by
    refine TL.mapM_ok _ _ _ fun x hx => ?_
    have hlt : x.2 < rows.length := by
      have := List.mem_zipIdx hx
      omega
    have e3 : (List.range cols.length).mapM (cell es x.2) = .ok ((List.range cols.length).map fun j => tdOpen ++ blankZero (htmlRepr (E x.2 j) true) ++ ['<', '/', 't', 'd', '>']) := by
      refine TL.mapM_ok _ _ _ fun j hj => ?_
      rw [cell, hE x.2 j hlt (List.mem_range.1 hj), bind_ok]; rfl
    rw [tableRow, e3, bind_ok, tr, List.flatMap_cons, List.flatMap_map, ← List.flatMap_def]
    simp only [List.append_assoc]
    rfl
  rw [framedMatrix, e1, bind_ok, e2, bind_ok, List.flatMap_map, ← List.flatMap_def, List.flatMap_map, ← List.flatMap_def]

/-! ## C118 -/

/-- C118: the table of a `FramedMatrix` has the column headings in its first row, after an empty cell, and in row `i` the heading of the row and
then, in column `j`, what `html_repr` gives for the entry `(i, j)` (nothing for the text `0`). -/
theorem C118_table (rows cols : List Obj) (es : Entries) (H : Obj → List Char) (E : Nat → Nat → Obj)
    (hH : ∀ o ∈ cols, o.html = some (H o) ∧ ¬ "</td>".toList <:+: H o) (hr : ∀ o ∈ rows, ¬ "</td>".toList <:+: htmlRepr o)
    (hE : ∀ i j, i < rows.length → j < cols.length → es.get i j = .ok (E i j) ∧ ¬ "</td>".toList <:+: htmlRepr (E i j) true) :
    ∃ s, framedMatrix rows cols es = .ok s ∧ table s = ([] :: cols.map H) :: rows.zipIdx.map fun x =>
      htmlRepr x.1 :: (List.range cols.length).map fun j => if htmlRepr (E x.2 j) true = "0".toList then [] else htmlRepr (E x.2 j) true := by
  refine ⟨_, framed_eq rows cols es H E (fun o ho => (hH o ho).1) (fun i j hi hj => (hE i j hi hj).1), ?_⟩
  rw [table_scan]
  · rfl
  · intro s hs
    obtain ⟨o, ho, rfl⟩ := List.mem_map.1 hs
    exact (hH o ho).2
  · intro l hl s hs
    obtain ⟨x, hx, rfl⟩ := List.mem_map.1 hl
    have hxl := List.mem_zipIdx hx
    rcases List.mem_cons.1 hs with rfl | hs
    · refine hr _ ?_
      rw [hxl.2.2]
      exact List.getElem_mem _
    · obtain ⟨j, hj, rfl⟩ := List.mem_map.1 hs
      unfold blankZero
      split
      · simp
      · exact (hE x.2 j (by omega) (List.mem_range.1 hj)).2

/-- C118: a column heading that cannot be shown as HTML raises AttributeError. -/
theorem C118_heading (rows cols : List Obj) (es : Entries) (h : ∃ o ∈ cols, o.html = none) : framedMatrix rows cols es = .error .attribute := by
  have : cols.mapM heading = .error .attribute := by
    induction cols with
    | nil => obtain ⟨o, ho, -⟩ := h; cases ho
    | cons c cols ih =>
      rw [List.mapM_cons]
      cases hc : c.html with
      | none =>
        have : heading c = .error .attribute := by rw [heading, hc]
        rw [this]; rfl
      | some t =>
        obtain ⟨o, ho, h2⟩ := h
        have ho' : o ∈ cols := by
          rcases List.mem_cons.1 ho with rfl | ho
          · rw [hc] at h2; cases h2
          · exact ho
        have e : ∃ y, heading c = .ok y := by rw [heading, hc]; exact ⟨_, rfl⟩
        obtain ⟨y, e⟩ := e
        rw [e, ih ⟨o, ho', h2⟩]; rfl
  rw [framedMatrix, this]; rfl

/-- What a cell shows for an entry of a matrix. -/
def shown : Entry → List Char
  | .int k => if k = 0 then [] else reprInt k
  | .lp p => " $ ".toList ++ p.fmt true ++ " $ ".toList

theorem reprInt_zero (k : Int) : reprInt k = "0".toList ↔ k = 0 := by
  constructor
  · intro h
    have := entry_inj (x := .int k) (y := .int 0) trivial trivial h
    exact Entry.int.inj this
  · rintro rfl; decide

theorem shown_eq (x : Entry) : (if htmlRepr (.ofEntry x) true = "0".toList then [] else htmlRepr (.ofEntry x) true) = shown x := by
  cases x with
  | int k =>
    show (if reprInt k = "0".toList then [] else reprInt k) = if k = 0 then [] else reprInt k
    by_cases h : k = 0
    · rw [if_pos ((reprInt_zero k).2 h), if_pos h]
    · rw [if_neg fun e => h ((reprInt_zero k).1 e), if_neg h]
  | lp p =>
    show (if [' ', '$', ' '] ++ p.fmt true ++ [' ', '$', ' '] = "0".toList then [] else [' ', '$', ' '] ++ p.fmt true ++ [' ', '$', ' ']) = _
    rw [if_neg (by intro h; have := congrArg List.head? h; simp at this)]
    rfl

theorem entry_clean (x : Entry) : '<' ∉ htmlRepr (.ofEntry x) true := by
  have key : ∀ (l : List Char), (∀ c ∈ l, LPoly.fmtChar c) → '<' ∉ l := by
    intro l h hc
    rcases h _ hc with h | h
    · revert h; decide
    · revert h; decide
  cases x with
  | int k => exact key _ (LPoly.fmtChar_int k)
  | lp p =>
    show '<' ∉ [' ', '$', ' '] ++ p.fmt true ++ [' ', '$', ' ']
    have := key _ (LPoly.fmtChar_fmt true p)
    simp [this]

/-- C118: so the table of a `Matrix` shows its entries where they are. -/
theorem C118_matrix (r c : Nat) (m : Matrix) (h : m.Shape r c) (rows cols : List Obj) (hr : rows.length = r) (hc : cols.length = c) (H : Obj → List Char)
    (hH : ∀ o ∈ cols, o.html = some (H o) ∧ ¬ "</td>".toList <:+: H o) (hrow : ∀ o ∈ rows, ¬ "</td>".toList <:+: htmlRepr o) :
    ∃ s, ∃ e : Nat → Nat → Entry, framedMatrix rows cols (.mat m) = .ok s ∧ (∀ i j : Nat, i < r → j < c → m.get i j = .ok (e i j)) ∧
      table s = ([] :: cols.map H) :: rows.zipIdx.map fun x => htmlRepr x.1 :: (List.range c).map fun j => shown (e x.2 j) := by
  have hget : ∀ i j : Nat, i < r → j < c → m.get i j = .ok (Matrix.at' m.data (c * i + j)) := fun i j hi hj => Matrix.get_eq h hi hj
  obtain ⟨s, h1, h2⟩ := C118_table rows cols (.mat m) H (fun i j => .ofEntry (Matrix.at' m.data (c * i + j))) hH hrow fun i j hi hj =>
    ⟨by rw [Entries.get, hget i j (by omega) (by omega)]; rfl, fun hi => entry_clean _ (List.IsInfix.subset hi (by simp))⟩
  refine ⟨s, fun i j => Matrix.at' m.data (c * i + j), h1, hget, ?_⟩
  rw [h2, hc]
  simp only [shown_eq]

theorem shown_inj {x y : Entry} (hx : x.Ok) (hy : y.Ok) (h : shown x = shown y) : x = y := by
  have head : ∀ k : Int, (if k = 0 then [] else reprInt k).head? ≠ some ' ' := by
    intro k e
    split at e
    · simp at e
    · cases k with
      | ofNat k =>
        have := List.mem_of_mem_head? (Option.mem_def.2 e)
        have := reprNat_digits k _ this
        revert this; decide
      | negSucc k => rw [reprInt] at e; simp at e
  cases x with
  | int k =>
    cases y with
    | int l =>
      simp only [shown] at h
      have ne : ∀ k : Int, reprInt k ≠ [] := by
        intro k e
        cases k with
        | ofNat k => exact reprNat_ne_nil k e
        | negSucc k => rw [reprInt] at e; simp at e
      split at h <;> split at h
      · simp_all
      · exact absurd h.symm (ne l)
      · exact absurd h (ne k)
      · exact entry_inj hx hy h
    | lp q =>
      have := head k
      simp only [shown] at h
      rw [h] at this
      exact absurd rfl this
  | lp p =>
    cases y with
    | int l =>
      have := head l
      simp only [shown] at h
      rw [← h] at this
      exact absurd rfl this
    | lp q =>
      simp only [shown] at h
      have := List.append_cancel_left (List.append_cancel_right h)
      rw [((C92_injective p q hx hy).1 true).1 this]

/-- C118: matrices of the same size shown alike, with the same headings, are equal. -/
theorem C118_faithful (r c : Nat) (m m' : Matrix) (h : m.Shape r c) (h' : m'.Shape r c) (rows cols : List Obj) (hr : rows.length = r) (hc : cols.length = c)
    (hH : ∀ o ∈ cols, ∃ t, o.html = some t ∧ ¬ "</td>".toList <:+: t) (hrow : ∀ o ∈ rows, ¬ "</td>".toList <:+: htmlRepr o)
    (he : framedMatrix rows cols (.mat m) = framedMatrix rows cols (.mat m')) : m = m' := by
  have hH' : ∀ o ∈ cols, o.html = some (o.html.getD []) ∧ ¬ "</td>".toList <:+: o.html.getD [] := by
    intro o ho
    obtain ⟨t, h1, h2⟩ := hH o ho
    rw [h1]; exact ⟨rfl, h2⟩
  obtain ⟨s, e, h1, h2, h3⟩ := C118_matrix r c m h rows cols hr hc _ hH' hrow
  obtain ⟨s', e', h1', h2', h3'⟩ := C118_matrix r c m' h' rows cols hr hc _ hH' hrow
  rw [h1, h1'] at he
  cases he
  rw [h3] at h3'
  have h4 := (List.cons.inj h3').2
  refine ext_get h h' fun i j hi hj => ?_
  have ok : ∀ (q : Matrix), q.Shape r c → ∀ x, q.get i j = .ok x → x.Ok := by
    intro q hq x hx
    rw [Matrix.get, hq.nrows, hq.ncols, if_pos (by omega)] at hx
    cases hx
    have hb : c * i + j < q.data.length := by
      rw [hq.length, mul_comm r c]
      calc c * i + j < c * i + c := by omega
        _ = c * (i + 1) := by ring
        _ ≤ c * r := Nat.mul_le_mul_left _ hi
    refine hq.ok _ ?_
    simp only [Matrix.at', Int.toNat_natCast]
    rw [List.getD_eq_getElem?_getD, List.getElem?_eq_getElem hb]
    exact List.getElem_mem hb
  have h5 : ∀ (f : Nat → Nat → Entry), (rows.zipIdx.map fun x => htmlRepr x.1 :: (List.range c).map fun j => shown (f x.2 j))[i]? =
      some (htmlRepr (rows[i]'(by omega)) :: (List.range c).map fun j => shown (f i j)) := by
    intro f
    have hi' : i < rows.length := by omega
    rw [List.getElem?_map, List.getElem?_zipIdx, List.getElem?_eq_getElem hi']
    simp
  have h6 := h5 e
  rw [h4, h5 e'] at h6
  have h7 := (List.cons.inj (Option.some.inj h6)).2
  have h8 := congrArg (·[j]?) h7
  simp only [List.getElem?_map, List.getElem?_range hj, Option.map_some, Option.some.injEq] at h8
  rw [h2 i j hi hj, h2' i j hi hj, shown_inj (ok m h _ (h2 i j hi hj)) (ok m' h' _ (h2' i j hi hj)) h8.symm]

/-! ### Rows -/

theorem boxes_skip (n : Nat) (c : Char) (s : List Char) (h : c ≠ '<') : boxes (n + 1) (c :: s) = boxes n s := by
  rw [boxes, if_neg]
  simpa [List.isPrefixOf] using fun e : '<' = c => absurd e.symm h

theorem boxes_div (n : Nat) (attr t s : List Char) (ha : '>' ∉ attr) (ht : ¬ ['<', '/', 'd', 'i', 'v', '>'] <:+: t) :
    boxes (n + 1) (['<', 'd', 'i', 'v'] ++ attr ++ ['>'] ++ t ++ ['<', '/', 'd', 'i', 'v', '>'] ++ s) = t :: boxes n s := by
  have e : ['<', 'd', 'i', 'v'] ++ attr ++ ['>'] ++ t ++ ['<', '/', 'd', 'i', 'v', '>'] ++ s =
      '<' :: (('d' :: 'i' :: 'v' :: attr) ++ '>' :: (t ++ ['<', '/', 'd', 'i', 'v', '>'] ++ s)) := by simp
  rw [e, boxes, if_pos (by simp [List.isPrefixOf]), find_gt _ _ (by simpa using ha)]
  simp only
  rw [find_hit ['<', '/', 'd', 'i', 'v', '>'] t s '<' _ rfl (by decide) ht]

theorem boxes_fuel (n m : Nat) (s : List Char) (hn : s.length ≤ n) (hm : s.length ≤ m) : boxes n s = boxes m s := by
  induction n generalizing m s with
  | zero =>
    obtain rfl : s = [] := List.length_eq_zero_iff.1 (by omega)
    cases m <;> rfl
  | succ n ih =>
    cases s with
    | nil => cases m <;> rfl
    | cons c s =>
      cases m with
      | zero => simp at hm
      | succ m =>
        simp only [List.length_cons] at hn hm
        rw [boxes, boxes, ih m s (by omega) (by omega)]
        split
        · cases h1 : find ['>'] s with
          | none => rfl
          | some x =>
            simp only
            have l1 := find_length _ (by simp) _ _ h1
            cases h2 : find ['<', '/', 'd', 'i', 'v', '>'] x.2 with
            | none => rfl
            | some y =>
              simp only
              have l2 := find_length _ (by simp) _ _ h2
              rw [ih m y.2 (by omega) (by omega)]
        · rfl

/-- The attributes of a box. -/
def boxAttr : List Char := [' ', 's', 't', 'y', 'l', 'e', '=', '\"', 'd', 'i', 's', 'p', 'l', 'a', 'y', ':', ' ', 'f', 'l', 'e', 'x', ';', ' ', 'f', 'l', 'e', 'x', '-', 'd', 'i', 'r', 'e', 'c', 't', 'i', 'o', 'n', ':', ' ', 'c', 'o', 'l', 'u', 'm', 'n', ';', ' ', 'a', 'l', 'i', 'g', 'n', '-', 'i', 't', 'e', 'm', 's', ':', ' ', 'c', 'e', 'n', 't', 'e', 'r', ';', '\"']

theorem boxes_join (l : List (List Char)) (h : ∀ t ∈ l, ¬ ['<', '/', 'd', 'i', 'v', '>'] <:+: t) (n : Nat) (s : List Char)
    (hs : s = joinWith [',', ' '] (l.map fun t => ['<', 'd', 'i', 'v'] ++ boxAttr ++ ['>'] ++ t ++ ['<', '/', 'd', 'i', 'v', '>']) ++ ['<', '/', 'd', 'i', 'v', '>'])
    (hn : s.length ≤ n) : boxes n s = l := by
  induction l generalizing n s with
  | nil =>
    subst hs
    rw [boxes_fuel n 6 _ hn (by decide)]
    decide
  | cons t l ih =>
    have e : ∀ r, s = ['<', 'd', 'i', 'v'] ++ boxAttr ++ ['>'] ++ t ++ ['<', '/', 'd', 'i', 'v', '>'] ++ r → boxes n s = t :: boxes (n - 1) r := by
      intro r hr
      have hlen : r.length + 1 ≤ s.length := by rw [hr]; simp only [List.length_append, List.length_cons]; omega
      obtain ⟨k, rfl⟩ : ∃ k, n = k + 1 := ⟨n - 1, by omega⟩
      rw [hr, boxes_div k _ _ _ (by decide) (h t (by simp))]
      rfl
    cases l with
    | nil =>
      rw [List.map_singleton, joinWith] at hs
      rw [e _ hs]
      have := ih (by simp) (n - 1) ['<', '/', 'd', 'i', 'v', '>'] rfl (by
        have := congrArg List.length hs
        simp only [List.length_append, List.length_cons, List.length_nil] at this ⊢
        omega)
      rw [this]
    | cons u l =>
      rw [List.map_cons, List.map_cons, joinWith, ← List.map_cons (f := fun t => ['<', 'd', 'i', 'v'] ++ boxAttr ++ ['>'] ++ t ++ ['<', '/', 'd', 'i', 'v', '>'])] at hs
      rw [List.append_assoc, List.append_assoc] at hs
      have hlen := congrArg List.length hs
      rw [e _ hs]
      congr 1
      obtain ⟨k, rfl⟩ : ∃ k, n = k + 3 := ⟨n - 3, by simp only [List.length_append, List.length_cons] at hlen; omega⟩
      rw [List.cons_append, List.cons_append, List.nil_append]
      show boxes (k + 1 + 1) _ = _
      rw [boxes_skip _ _ _ (by decide), boxes_skip _ _ _ (by decide)]
      refine ih (fun x hx => h x (by simp only [List.mem_cons] at hx ⊢; tauto)) k _ rfl ?_
      simp only [List.length_append, List.length_cons, List.length_nil] at hlen ⊢
      omega

/-- C118: a `Row` shows its items in order, in one box each inside a common box, the caption of item number `i` under it. -/
theorem C118_row (items : List Obj) (caption : Option (Nat → Obj → Obj)) (h : ∀ o ∈ items, ¬ "</div>".toList <:+: htmlRepr o)
    (hcap : ∀ f, caption = some f → ∀ x ∈ items.zipIdx, ¬ "</div>".toList <:+: htmlRepr (f x.2 x.1)) :
    boxesInside (row items caption) = items.zipIdx.map fun x => htmlRepr x.1 ++ caption.elim [] fun f => "<p>".toList ++ htmlRepr (f x.2 x.1) ++ "</p>".toList := by
  have key : ∀ t ∈ (items.zipIdx.map fun x => htmlRepr x.1 ++ caption.elim [] fun f => "<p>".toList ++ htmlRepr (f x.2 x.1) ++ "</p>".toList),
      ¬ ['<', '/', 'd', 'i', 'v', '>'] <:+: t := by
    intro t ht
    obtain ⟨x, hx, rfl⟩ := List.mem_map.1 ht
    have h1 := h x.1 (by rw [(List.mem_zipIdx hx).2.2]; exact List.getElem_mem _)
    cases hc : caption with
    | none => simpa using h1
    | some f =>
      have h2 := hcap f hc x hx
      have ap := noInfix_append ['/', 'd', 'i', 'v']
      refine ap _ _ (by decide) (by decide) h1 ?_ (.inr (.inl ⟨_, rfl⟩))
      refine ap _ _ (by decide) (by decide) ?_ (by decide) (.inr (.inl ⟨_, rfl⟩))
      exact ap _ _ (by decide) (by decide) (by decide) h2 (.inl ⟨['<', 'p'], rfl⟩)
  have e : row items caption = ('<' :: 'd' :: 'i' :: 'v' :: [' ', 's', 't', 'y', 'l', 'e', '=', '\"', 'd', 'i', 's', 'p', 'l', 'a', 'y', ':', ' ', 'f', 'l', 'e', 'x', ';', ' ', 'f', 'l', 'e', 'x', '-', 'd', 'i', 'r', 'e', 'c', 't', 'i', 'o', 'n', ':', ' ', 'r', 'o', 'w', ';', ' ', 'f', 'l', 'e', 'x', '-', 'w', 'r', 'a', 'p', ':', ' ', 'w', 'r', 'a', 'p', ';', ' ', 'r', 'o', 'w', '-', 'g', 'a', 'p', ':', ' ', '1', 'e', 'm', ';', ' ', 'a', 'l', 'i', 'g', 'n', '-', 'i', 't', 'e', 'm', 's', ':', ' ', 'c', 'e', 'n', 't', 'e', 'r', ';', '\"']) ++ '>' :: (joinWith [',', ' '] ((items.zipIdx.map fun x => htmlRepr x.1 ++ caption.elim [] fun f => "<p>".toList ++ htmlRepr (f x.2 x.1) ++ "</p>".toList).map
      fun t => ['<', 'd', 'i', 'v'] ++ boxAttr ++ ['>'] ++ t ++ ['<', '/', 'd', 'i', 'v', '>']) ++ ['<', '/', 'd', 'i', 'v', '>']) := by
    have e' : ∀ J : List Char, ['<', 'd', 'i', 'v', ' ', 's', 't', 'y', 'l', 'e', '=', '\"', 'd', 'i', 's', 'p', 'l', 'a', 'y', ':', ' ', 'f', 'l', 'e', 'x', ';', ' ', 'f', 'l', 'e', 'x', '-', 'd', 'i', 'r', 'e', 'c', 't', 'i', 'o', 'n', ':', ' ', 'r', 'o', 'w', ';', ' ', 'f', 'l', 'e', 'x', '-', 'w', 'r', 'a', 'p', ':', ' ', 'w', 'r', 'a', 'p', ';', ' ', 'r', 'o', 'w', '-', 'g', 'a', 'p', ':', ' ', '1', 'e', 'm', ';', ' ', 'a', 'l', 'i', 'g', 'n', '-', 'i', 't', 'e', 'm', 's', ':', ' ', 'c', 'e', 'n', 't', 'e', 'r', ';', '\"', '>'] ++ J ++ ['<', '/', 'd', 'i', 'v', '>'] = ('<' :: 'd' :: 'i' :: 'v' :: [' ', 's', 't', 'y', 'l', 'e', '=', '\"', 'd', 'i', 's', 'p', 'l', 'a', 'y', ':', ' ', 'f', 'l', 'e', 'x', ';', ' ', 'f', 'l', 'e', 'x', '-', 'd', 'i', 'r', 'e', 'c', 't', 'i', 'o', 'n', ':', ' ', 'r', 'o', 'w', ';', ' ', 'f', 'l', 'e', 'x', '-', 'w', 'r', 'a', 'p', ':', ' ', 'w', 'r', 'a', 'p', ';', ' ', 'r', 'o', 'w', '-', 'g', 'a', 'p', ':', ' ', '1', 'e', 'm', ';', ' ', 'a', 'l', 'i', 'g', 'n', '-', 'i', 't', 'e', 'm', 's', ':', ' ', 'c', 'e', 'n', 't', 'e', 'r', ';', '\"']) ++ '>' :: (J ++ ['<', '/', 'd', 'i', 'v', '>']) := by
      intro J; rw [List.append_assoc]; rfl
    rw [row, e', List.map_map]
    refine congrArg (fun J => ('<' :: 'd' :: 'i' :: 'v' :: [' ', 's', 't', 'y', 'l', 'e', '=', '\"', 'd', 'i', 's', 'p', 'l', 'a', 'y', ':', ' ', 'f', 'l', 'e', 'x', ';', ' ', 'f', 'l', 'e', 'x', '-', 'd', 'i', 'r', 'e', 'c', 't', 'i', 'o', 'n', ':', ' ', 'r', 'o', 'w', ';', ' ', 'f', 'l', 'e', 'x', '-', 'w', 'r', 'a', 'p', ':', ' ', 'w', 'r', 'a', 'p', ';', ' ', 'r', 'o', 'w', '-', 'g', 'a', 'p', ':', ' ', '1', 'e', 'm', ';', ' ', 'a', 'l', 'i', 'g', 'n', '-', 'i', 't', 'e', 'm', 's', ':', ' ', 'c', 'e', 'n', 't', 'e', 'r', ';', '\"']) ++ '>' :: (joinWith [',', ' '] J ++ ['<', '/', 'd', 'i', 'v', '>'])) ?_
    refine List.map_congr_left fun x _ => ?_
    cases caption with
    | none =>
      simp only [Function.comp, Option.elim_none, List.append_nil]
      rfl
    | some f =>
      simp only [Function.comp, Option.elim_some]
      rw [← List.append_assoc (as := ['<', 'd', 'i', 'v'] ++ boxAttr ++ ['>'])]
      rfl
  rw [boxesInside, e, find_gt _ _ (by decide)]
  exact boxes_join _ key _ _ rfl (Nat.le_refl _)

/-! ## C119 -/

theorem shown_int (k : Int) : shown (.int k) = [] ↔ k = 0 := by
  simp only [shown]
  constructor
  · intro h
    by_contra hk
    rw [if_neg hk] at h
    cases k with
    | ofNat k => exact reprNat_ne_nil k h
    | negSucc k => rw [reprInt] at h; simp at h
  · intro h; rw [if_pos h]

/-- C119 (part): the cell of an integer entry is empty exactly if the entry is 0. -/
theorem C119_int_partial (m : Matrix) (rows cols : List Obj) (s : List Char) (h : m.Shape rows.length cols.length)
    (hH : ∀ o ∈ cols, ∃ t, o.html = some t ∧ ¬ "</td>".toList <:+: t) (hrow : ∀ o ∈ rows, ¬ "</td>".toList <:+: htmlRepr o)
    (hs : framedMatrix rows cols (.mat m) = .ok s) (i j : Nat) (hi : i < rows.length) (hj : j < cols.length) (k : Int) (hk : m.get i j = .ok (.int k)) :
    ((table s)[i + 1]?.bind fun l => l[j + 1]?) = some [] ↔ k = 0 := by
  have hH' : ∀ o ∈ cols, o.html = some (o.html.getD []) ∧ ¬ "</td>".toList <:+: o.html.getD [] := by
    intro o ho
    obtain ⟨t, h1, h2⟩ := hH o ho
    rw [h1]; exact ⟨rfl, h2⟩
  obtain ⟨s', e, h1, h2, h3⟩ := C118_matrix _ _ m h rows cols rfl rfl _ hH' hrow
  rw [h1] at hs
  cases hs
  have hek : e i j = .int k := by
    have := h2 i j hi hj
    rw [hk] at this
    exact (Except.ok.inj this).symm
  rw [h3]
  simp [hi, hj, hek, shown_int]

/-- C119 is refuted for matrices of Laurent polynomials: the cell of a zero entry is not empty. -/
theorem C119_refuted : ¬ ∀ (m : Matrix) (rows cols : List Obj) (s : List Char), m.Shape rows.length cols.length → framedMatrix rows cols (.mat m) = .ok s →
    ∀ i j : Nat, m.get i j = .ok (.lp ⟨0, []⟩) → ((table s)[i + 1]?.bind fun l => l[j + 1]?) = some [] := by
  intro H
  have := H ⟨1, 1, [.lp ⟨0, []⟩]⟩ [.ofStr ['x']] [⟨some ['y'], none, none, []⟩] _ ⟨rfl, rfl, rfl, by
    intro x hx; simp at hx; subst hx; show LPoly.Trimmed _; decide⟩ rfl 0 0 rfl
  revert this
  decide +kernel

set_option maxRecDepth 10000 in
/-- A concrete table. -/
example : framedMatrix [.ofStr ['a']] [⟨some ['b'], none, none, []⟩, ⟨some ['c'], none, none, []⟩] (.mat ⟨1, 2, [.int 0, .lp ⟨-1, [1, 0, -2]⟩]⟩) =
    .ok ("<table><tr><td></td><td style=\"text-align: center\">b</td><td style=\"text-align: center\">c</td></tr><tr><td style=\"text-align: center\">a</td>" ++
      "<td style=\"text-align: center\"></td><td style=\"text-align: center\"> $ -2v + v^{-1} $ </td></tr></table>").toList := by decide

/-- Its headings and entries meet the hypotheses of `C118_table`, and so would a heading with a picture. -/
example : table ("<table><tr><td></td><td style=\"text-align: center\"><svg><path /></svg></td></tr><tr><td style=\"text-align: center\">a</td><td style=\"text-align: center\">7</td></tr></table>").toList =
    [[[], "<svg><path /></svg>".toList], [['a'], ['7']]] := by decide +kernel

example : ∃ s, framedMatrix [.ofInt 5, ⟨some "<svg></svg>".toList, none, none, []⟩] [⟨some "<svg><path /></svg>".toList, none, none, []⟩] (.seq [[.ofInt 0], [.ofLPoly ⟨1, [2]⟩]]) = .ok s ∧
    table s = [[[], "<svg><path /></svg>".toList], [['5'], []], ["<svg></svg>".toList, " $ 2v $ ".toList]] := ⟨_, rfl, by decide +kernel⟩

/-- A row of two with captions. -/
example : boxesInside (row [.ofInt 5, ⟨some "<svg></svg>".toList, none, none, []⟩] (some fun i _ => .ofInt i)) =
    ["5<p>0</p>".toList, "<svg></svg><p>1</p>".toList] := by decide +kernel

end Show
end Peyl
