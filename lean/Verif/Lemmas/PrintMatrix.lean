import Verif.Lemmas.Printing
import Verif.Lemmas.MatrixMod
import Verif.Model.PrintMatrix
/-! # Reading back printed matrices -/
namespace Peyl
open Adapter
namespace Text

theorem cutGo_skip (sep : List Char) (a b : List Char) (k : Nat) (h : a.length = k) : cutGo sep (a ++ b) k = cutGo sep b 0 := by
  induction a generalizing k with
  | nil => subst h; rfl
  | cons x xs ih => subst h; exact ih _ rfl

/-- A separator that no piece touches is found. -/
theorem cutText_first {s0 : Char} {st : List Char} (l rest : List Char)
    (h : ∀ a x b, l = a ++ x :: b → (s0 :: st).isPrefixOf (x :: b ++ (s0 :: st) ++ rest) = false) :
    cutText (s0 :: st) (l ++ (s0 :: st) ++ rest) = l :: cutText (s0 :: st) rest := by
  unfold cutText
  induction l with
  | nil =>
    rw [List.nil_append, List.cons_append, cutGo, if_pos]
    · rw [cutGo_skip _ st rest _ (by simp)]
    · exact List.isPrefixOf_iff_prefix.2 ⟨rest, by simp⟩
  | cons x xs ih =>
    have h0 := h [] x xs rfl
    have := ih fun a y b e => h (x :: a) y b (by rw [e]; rfl)
    rw [List.cons_append, List.cons_append] at h0
    rw [List.cons_append, List.cons_append, cutGo, if_neg (by rw [h0]; simp), this]

theorem cutText_none {s0 : Char} {st : List Char} (l : List Char)
    (h : ∀ a x b, l = a ++ x :: b → (s0 :: st).isPrefixOf (x :: b) = false) : cutText (s0 :: st) l = [l] := by
  unfold cutText
  induction l with
  | nil => rfl
  | cons x xs ih =>
    rw [cutGo, if_neg (by rw [h [] x xs rfl]; simp), ih fun a y b e => h (x :: a) y b (by rw [e]; rfl)]

/-- Pieces without the first character of the separator. -/
theorem cutText_join {s0 : Char} {st : List Char} (ls : List (List Char)) (hne : ls ≠ []) (h : ∀ l ∈ ls, s0 ∉ l) :
    cutText (s0 :: st) (joinWith (s0 :: st) ls) = ls := by
  have key : ∀ l : List Char, s0 ∉ l → ∀ a x b, l = a ++ x :: b → ∀ r, (s0 :: st).isPrefixOf (x :: b ++ r) = false := by
    rintro l hl a x b rfl r
    have : s0 ≠ x := fun e => hl (by simp [e])
    simp [List.isPrefixOf, this]
  induction ls with
  | nil => exact absurd rfl hne
  | cons a l ih =>
    cases l with
    | nil =>
      refine cutText_none a fun u x b e => ?_
      simpa using key a (h a (by simp)) u x b e []
    | cons b0 l =>
      rw [joinWith, cutText_first a _ fun u x b e => ?_, ih (by simp) fun x hx => h x (by simp [hx])]
      have := key a (h a (by simp)) u x b e (s0 :: st ++ joinWith (s0 :: st) (b0 :: l))
      rw [← List.append_assoc] at this
      exact this

/-- Pieces without the second character of the separator, which differs from the first. -/
theorem cutText_join2 {s0 s1 : Char} {st : List Char} (hs : s0 ≠ s1) (ls : List (List Char)) (hne : ls ≠ []) (h : ∀ l ∈ ls, s1 ∉ l) :
    cutText (s0 :: s1 :: st) (joinWith (s0 :: s1 :: st) ls) = ls := by
  have key : ∀ l : List Char, s1 ∉ l → ∀ a x b, l = a ++ x :: b → ∀ r, (r = [] ∨ ∃ r', r = s0 :: r') → (s0 :: s1 :: st).isPrefixOf (x :: b ++ r) = false := by
    rintro l hl a x b rfl r hr
    cases b with
    | nil =>
      rcases hr with rfl | ⟨r', rfl⟩
      · simp [List.isPrefixOf]
      · simp [List.isPrefixOf, Ne.symm hs]
    | cons y b =>
      have : s1 ≠ y := fun e => hl (by simp [e])
      simp [List.isPrefixOf, this]
  induction ls with
  | nil => exact absurd rfl hne
  | cons a l ih =>
    cases l with
    | nil =>
      refine cutText_none a fun u x b e => ?_
      simpa using key a (h a (by simp)) u x b e [] (.inl rfl)
    | cons b0 l =>
      rw [joinWith, cutText_first a _ fun u x b e => ?_, ih (by simp) fun x hx => h x (by simp [hx])]
      have := key a (h a (by simp)) u x b e (s0 :: s1 :: st ++ joinWith (s0 :: s1 :: st) (b0 :: l)) (.inr ⟨_, rfl⟩)
      rw [← List.append_assoc] at this
      exact this

/-- What comes before and after every part can be moved into the separator. -/
theorem join_around (sep pre post : List Char) (ls : List (List Char)) (hne : ls ≠ []) :
    joinWith sep (ls.map fun l => pre ++ l ++ post) = pre ++ joinWith (post ++ sep ++ pre) ls ++ post := by
  induction ls with
  | nil => exact absurd rfl hne
  | cons a l ih =>
    cases l with
    | nil => rfl
    | cons b l =>
      rw [List.map_cons, List.map_cons, joinWith, joinWith]
      have := ih (by simp)
      rw [List.map_cons] at this
      rw [this]; simp

/-- Rows in brackets. -/
theorem rows_join (L : List (List (List Char))) (hL : L ≠ []) (hrow : ∀ r ∈ L, r ≠ []) (hch : ∀ r ∈ L, ∀ t ∈ r, '[' ∉ t ∧ ']' ∉ t ∧ ',' ∉ t)
    (P1 P2 sep Z : List Char) (h1 : '[' ∉ P1) (h2 : '[' ∉ P2) (h3 : '[' ∉ sep) (h4 : '[' ∉ Z) :
    rows (P1 ++ '[' :: (P2 ++ joinWith sep (L.map fun r => [] ++ '[' :: (joinWith [',', ' '] r ++ [']'])) ++ Z)) = L := by
  have hj : ∀ c : Char, (c = '[' ∨ c = ']') → ∀ r ∈ L, c ∉ joinWith [',', ' '] r := by
    intro c hc r hr
    refine mem_join (by rcases hc with rfl | rfl <;> decide) fun t ht => ?_
    rcases hc with rfl | rfl
    · exact (hch r hr t ht).1
    · exact (hch r hr t ht).2.1
  obtain ⟨B, bs, -, b2, b3, b4⟩ := cut_pref '[' [] (by decide) sep h3 L (fun r => joinWith [',', ' '] r ++ [']']) (by
      intro r hr
      have := hj '[' (.inl rfl) r hr
      simp [this]) P2 Z h2 h4 (fun t => cutText [',', ' '] ((cut ']' t).headD [])) id (by
      intro r hr Z' _
      have := hj ']' (.inr rfl) r hr
      rw [List.append_assoc, List.singleton_append, cut_first _ this, List.headD_cons, cutText_join r (hrow r hr) fun t ht => (hch r hr t ht).2.2]; rfl)
  rw [rows, cut_first _ h1, b3]
  show bs.map _ = _
  rw [b4, List.map_id]

end Text

namespace LPoly

/-- The characters of a printed Laurent polynomial. -/
def fmtChar (c : Char) : Prop := isDig c = true ∨ c ∈ ['v', '^', '{', '}', '-', '+', ' ']

theorem fmtChar_int (z : Int) : ∀ c ∈ reprInt z, fmtChar c := by
  intro c hc
  cases z with
  | ofNat k => exact .inl (reprNat_digits k c hc)
  | negSucc k =>
    rw [reprInt, List.mem_cons] at hc
    rcases hc with rfl | hc
    · exact .inr (by decide)
    · exact .inl (reprNat_digits _ c hc)

theorem fmtChar_of (l : List Char) (h : l.all (fun c => decide (c ∈ ['v', '^', '{', '}', '-', '+', ' '])) = true) : ∀ c ∈ l, fmtChar c := by
  intro c hc
  exact .inr (by simpa using List.all_eq_true.1 h c hc)

theorem fmtChar_loop (latex : Bool) (l : List (Int × Int)) (parts : List (List Char)) (h : ∀ p ∈ parts, ∀ c ∈ p, fmtChar c) :
    ∀ p ∈ fmtLoop latex l parts, ∀ c ∈ p, fmtChar c := by
  induction l generalizing parts with
  | nil => exact h
  | cons ic l ih =>
    obtain ⟨i, k⟩ := ic
    rw [fmtLoop]
    split
    · exact ih parts h
    · refine ih _ fun p hp => ?_
      rw [List.mem_append, List.mem_singleton] at hp
      rcases hp with hp | rfl
      · exact h p hp
      · intro c hc
        rw [List.mem_append, List.mem_append] at hc
        rcases hc with (hc | hc) | hc
        · revert hc
          unfold Display.signText
          split_ifs <;> intro hc
          · exact fmtChar_of _ (by decide) c hc
          · exact fmtChar_of _ (by decide) c hc
          · cases hc
          · exact fmtChar_of _ (by decide) c hc
        · revert hc
          unfold fmtCoeff
          split_ifs <;> intro hc
          · exact .inl (reprNat_digits _ c hc)
          · cases hc
          · exact .inl (reprNat_digits _ c hc)
        · revert hc
          unfold fmtTerm
          split_ifs <;> intro hc
          · cases hc
          · exact fmtChar_of _ (by decide) c hc
          · rw [List.mem_append, List.mem_append] at hc
            rcases hc with (hc | hc) | hc
            · exact fmtChar_of _ (by decide) c hc
            · exact fmtChar_int i c hc
            · exact fmtChar_of _ (by decide) c hc
          · rw [List.mem_append] at hc
            rcases hc with hc | hc
            · exact fmtChar_of _ (by decide) c hc
            · exact fmtChar_int i c hc

theorem fmtChar_fmt (latex : Bool) (p : LPoly) : ∀ c ∈ p.fmt latex, fmtChar c := by
  intro c hc
  unfold fmt at hc
  split at hc
  · left
    simp only [List.mem_singleton] at hc
    subst hc; decide
  · obtain ⟨q, hq, hc⟩ := List.mem_flatten.1 hc
    exact fmtChar_loop latex _ [] (by simp) q hq c hc

end LPoly

namespace Entry

theorem latex_char (x : Entry) : '\\' ∉ x.latex ∧ '&' ∉ x.latex := by
  have key : ∀ c ∈ x.latex, LPoly.fmtChar c := by
    cases x with
    | int k => exact LPoly.fmtChar_int k
    | lp p => exact LPoly.fmtChar_fmt true p
  constructor <;> intro h <;> have := key _ h <;> revert this <;> unfold LPoly.fmtChar <;> decide

theorem repr_char (x : Entry) : '[' ∉ x.repr ∧ ']' ∉ x.repr ∧ ',' ∉ x.repr := by
  have key : ∀ d : Char, d ∈ ['[', ']', ','] → d ∉ x.repr := by
    intro d hd
    have hf : ¬ LPoly.fmtChar d := by
      revert hd; revert d; unfold LPoly.fmtChar; decide
    cases x with
    | int k => exact fun h => hf (LPoly.fmtChar_int k d h)
    | lp p =>
      have : d ∉ p.fmt false := fun h => hf (LPoly.fmtChar_fmt false p d h)
      simp only [Entry.repr, LPoly.repr, List.mem_append, not_or]
      clear hf
      refine ⟨⟨?_, this⟩, ?_⟩ <;> clear this <;> revert hd <;> revert d <;> decide
  exact ⟨key _ (by simp), key _ (by simp), key _ (by simp)⟩

end Entry

namespace Matrix

theorem rows_eq {m : Matrix} {r c : Nat} (h : m.Shape r c) : m.rows = (List.range r).map fun i => (List.range c).map fun j => at' m.data (c * i + j) := by
  have hl := rows_getElem_length h
  refine List.ext_getElem (by rw [length_rows, h.nrows]; simp) fun i hi hi' => ?_
  refine List.ext_getElem (by rw [hl _ (List.getElem_mem hi)]; simp) fun j hj hj' => ?_
  have hj2 : j < c := by rw [hl _ (List.getElem_mem hi)] at hj; exact hj
  have hi2 : i < r := by simpa using hi'
  have hb : c * i + j < m.data.length := by
    rw [h.length, mul_comm r c]
    calc c * i + j < c * i + c := by omega
      _ = c * (i + 1) := by ring
      _ ≤ c * r := Nat.mul_le_mul_left _ hi2
  simp only [rows, List.getElem_map, List.getElem_range, List.getElem_drop, List.getElem_take, h.ncols]
  rw [at', List.getD_eq_getElem?_getD, List.getElem?_eq_getElem hb]; rfl

theorem printRows_eq {m : Matrix} {r c : Nat} (h : m.Shape r c) (f : Entry → List Char) : printRows f m = m.rows.map (List.map f) := by
  rw [rows_eq h, printRows, h.nrows, h.ncols, List.map_map]
  refine List.map_congr_left fun i _ => ?_
  rw [Function.comp_apply, List.map_map]; rfl

end Matrix
end Peyl
