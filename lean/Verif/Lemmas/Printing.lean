import Verif.Spec.Printing
import Verif.Model.Printing
import Verif.Lemmas.Adapter
/-! # Reading back joined text -/
namespace Peyl
open Adapter
namespace Text

/-- Text without digits. -/
def ND (s : List Char) : Prop := ∀ c ∈ s, isDig c = false

instance (s : List Char) : Decidable (ND s) := by unfold ND; infer_instance

theorem cut_of_not_mem {c : Char} {l : List Char} (h : c ∉ l) : cut c l = [l] := by
  induction l with
  | nil => rfl
  | cons x xs ih =>
    simp only [List.mem_cons, not_or] at h
    rw [cut, if_neg (Ne.symm h.1), ih h.2]

theorem cut_first {c : Char} {X : List Char} (Y : List Char) (h : c ∉ X) : cut c (X ++ c :: Y) = X :: cut c Y := by
  induction X with
  | nil => simp [cut]
  | cons x xs ih =>
    simp only [List.mem_cons, not_or] at h
    rw [List.cons_append, cut, if_neg (Ne.symm h.1), ih h.2]

theorem scan_nd {s : List Char} (h : ND s) (b : List Char) : scan (s ++ b) none = scan b none := by
  induction s with
  | nil => rfl
  | cons c cs ih =>
    rw [List.cons_append, scan, if_neg (by rw [h c (by simp)]; simp), Option.toList_none, List.nil_append]
    exact ih fun d hd => h d (by simp [hd])

theorem scan_sep (a : List Char) {c : Char} (hc : isDig c = false) (b : List Char) (acc : Option Nat) :
    scan (a ++ c :: b) acc = scan a acc ++ scan b none := by
  induction a generalizing acc with
  | nil =>
    show scan (c :: b) acc = acc.toList ++ scan b none
    rw [scan, if_neg (by simp [hc])]
  | cons x xs ih =>
    rw [List.cons_append, scan, scan]
    split
    · rw [ih]
    · rw [ih, List.append_assoc]

/-- Padding does not matter. -/
theorem numbers_pad {A Z : List Char} (hA : ND A) (hZ : ND Z) (l : List Char) : numbers (A ++ l ++ Z) = numbers l := by
  rw [numbers, List.append_assoc, scan_nd hA]
  cases Z with
  | nil => rw [List.append_nil]; rfl
  | cons c cs =>
    rw [scan_sep _ (hZ c (by simp))]
    have := scan_nd (s := cs) (fun d hd => hZ d (by simp [hd])) []
    rw [List.append_nil] at this
    rw [this]; simp [scan, numbers]

theorem numbers_append {s : List Char} (hs : ND s) (hne : s ≠ []) (a b : List Char) : numbers (a ++ s ++ b) = numbers a ++ numbers b := by
  cases s with
  | nil => exact absurd rfl hne
  | cons c cs =>
    rw [numbers, List.append_assoc, List.cons_append, scan_sep _ (hs c (by simp)), scan_nd fun d hd => hs d (by simp [hd])]; rfl

theorem scan_digits {s : List Char} (h : ∀ c ∈ s, isDig c = true) (acc : Nat) :
    scan s (some acc) = [s.foldl (fun a c => 10 * a + (c.toNat - 48)) acc] := by
  induction s generalizing acc with
  | nil => rfl
  | cons c cs ih =>
    rw [scan, if_pos (h c (by simp)), ih fun d hd => h d (by simp [hd])]
    rfl

theorem numbers_repr (k : Nat) : numbers (reprNat k) = [k] := by
  obtain ⟨c, l, e, hc⟩ := reprNat_cons k
  have hd := reprNat_digits k
  have hv := reprNat_val k
  rw [e] at hd hv ⊢
  rw [numbers, scan, if_pos hc, scan_digits fun d hd' => hd d (by simp [hd'])]
  rw [← hv]; rfl

theorem numbers_join {sep : List Char} (hs : ND sep) (hne : sep ≠ []) (l : List Nat) (f : Nat → List Char) (hf : ∀ k, numbers (f k) = [k]) :
    numbers (joinWith sep (l.map f)) = l := by
  induction l with
  | nil => rfl
  | cons a l ih =>
    cases l with
    | nil => exact hf a
    | cons b l =>
      rw [List.map_cons, List.map_cons, joinWith, numbers_append hs hne, hf]
      rw [List.map_cons] at ih
      rw [ih]; rfl

/-- Joined text is cut into its parts, up to padding. -/
theorem cut_items {α β : Type} (c : Char) (pre post : List Char) (hpre : c ∉ pre) (g : List Char → β) (f : α → List Char) (G : α → β) (Z : List Char) (hZ : c ∉ Z)
    (ls : List α) (hne : ls ≠ []) (hl : ∀ l ∈ ls, c ∉ f l) (A : List Char) (hA : c ∉ A) (hpost : c ∉ post)
    (hg : ∀ l ∈ ls, ∀ A', A' = A ∨ A' = post → ∀ Z', Z' = Z ∨ Z' = pre → g (A' ++ f l ++ Z') = G l) :
    (cut c (A ++ joinWith (pre ++ c :: post) (ls.map f) ++ Z)).map g = ls.map G := by
  induction ls generalizing A with
  | nil => exact absurd rfl hne
  | cons a l ih =>
    cases l with
    | nil =>
      have ha := hl a (by simp)
      rw [List.map_cons, List.map_nil, joinWith, cut_of_not_mem (by simp [hA, ha, hZ])]
      simp only [List.map_cons, List.map_nil, hg a (by simp) A (.inl rfl) Z (.inl rfl)]
    | cons b l =>
      have ha := hl a (by simp)
      have e : A ++ joinWith (pre ++ c :: post) ((a :: b :: l).map f) ++ Z = (A ++ f a ++ pre) ++ c :: (post ++ joinWith (pre ++ c :: post) ((b :: l).map f) ++ Z) := by
        rw [List.map_cons, List.map_cons, joinWith]; simp
      rw [e, cut_first _ (by simp [hA, ha, hpre]), List.map_cons, List.map_cons, hg a (by simp) A (.inl rfl) pre (.inr rfl)]
      congr 1
      exact ih (by simp) (fun x hx => hl x (by simp [hx])) post hpost (fun x hx A' hA' Z' hZ' => hg x (by simp [hx]) A' (.inr (by tauto)) Z' hZ')

theorem cut_join {β : Type} (c : Char) (pre post : List Char) (hpre : c ∉ pre) (g : List Char → β) (G : List Char → β) (Z : List Char) (hZ : c ∉ Z)
    (ls : List (List Char)) (hne : ls ≠ []) (hl : ∀ l ∈ ls, c ∉ l) (A : List Char) (hA : c ∉ A) (hpost : c ∉ post)
    (hg : ∀ l ∈ ls, ∀ A', A' = A ∨ A' = post → ∀ Z', Z' = Z ∨ Z' = pre → g (A' ++ l ++ Z') = G l) :
    (cut c (A ++ joinWith (pre ++ c :: post) ls ++ Z)).map g = ls.map G := by
  have := cut_items c pre post hpre g id G Z hZ ls hne hl A hA hpost hg
  rwa [List.map_id] at this

theorem mem_join {c : Char} {sep : List Char} (hs : c ∉ sep) {ls : List (List Char)} (h : ∀ l ∈ ls, c ∉ l) : c ∉ joinWith sep ls := by
  induction ls with
  | nil => simp [joinWith]
  | cons a l ih =>
    cases l with
    | nil => exact h a (by simp)
    | cons b l =>
      rw [joinWith]
      simp only [List.mem_append, not_or]
      exact ⟨⟨h a (by simp), hs⟩, ih fun x hx => h x (by simp [hx])⟩

theorem joinItems_eq (l : List (List Char)) : joinItems l = joinWith [',', ' '] l := by
  induction l with
  | nil => rfl
  | cons a l ih =>
    cases l with
    | nil => rfl
    | cons b l => rw [joinItems, joinWith, ih]

/-- A prefix common to all parts can be moved into the separator. -/
theorem join_prefix (sep pre : List Char) (ls : List (List Char)) (hne : ls ≠ []) :
    joinWith sep (ls.map (pre ++ ·)) = pre ++ joinWith (sep ++ pre) ls := by
  induction ls with
  | nil => exact absurd rfl hne
  | cons a l ih =>
    cases l with
    | nil => rfl
    | cons b l =>
      rw [List.map_cons, List.map_cons, joinWith, joinWith]
      have := ih (by simp)
      rw [List.map_cons] at this
      rw [this]; simp

/-- Texts that begin alike, joined and cut at a character of the beginning. -/
theorem cut_pref {α β : Type} (c : Char) (pre : List Char) (hpre : c ∉ pre) (sep : List Char) (hsep : c ∉ sep) (items : List α) (f : α → List Char)
    (hf : ∀ a ∈ items, c ∉ f a) (A Z : List Char) (hA : c ∉ A) (hZ : c ∉ Z) (r : List Char → β) (v : α → β)
    (hr : ∀ a ∈ items, ∀ Z', Z' = Z ∨ Z' = sep ++ pre → r (f a ++ Z') = v a) :
    ∃ B bs, (items = [] → B = []) ∧ (items ≠ [] → B = pre) ∧
      cut c (A ++ joinWith sep (items.map fun a => pre ++ c :: f a) ++ Z) = (A ++ B ++ if items = [] then Z else []) :: bs ∧
      bs.map r = items.map v := by
  by_cases hi : items = []
  · subst hi
    refine ⟨[], [], fun _ => rfl, fun h => absurd rfl h, ?_, rfl⟩
    rw [List.map_nil, joinWith, cut_of_not_mem (by simp [hA, hZ])]; simp
  · have e1 : items.map (fun a => pre ++ c :: f a) = (items.map f).map ((pre ++ [c]) ++ ·) := by
      rw [List.map_map]; exact List.map_congr_left fun a _ => by simp
    have e2 : A ++ joinWith sep (items.map fun a => pre ++ c :: f a) ++ Z =
        (A ++ pre) ++ c :: (joinWith (sep ++ (pre ++ [c])) (items.map f) ++ Z) := by
      rw [e1, join_prefix _ _ _ (by simpa using hi)]; simp
    refine ⟨pre, _, fun h => absurd h hi, fun _ => rfl, by rw [e2, cut_first _ (by simp [hA, hpre]), if_neg hi, List.append_nil], ?_⟩
    have h := cut_items c (sep ++ pre) [] (by simp [hsep, hpre]) r f v Z hZ items hi hf [] (by simp) (by simp) (by
      intro a ha A' hA' Z' hZ'
      have : A' = [] := by tauto
      subst this
      exact hr a ha Z' hZ')
    rw [← h]
    simp

/-- Numbers have no other characters. -/
theorem not_mem_reprNat {c : Char} (hc : isDig c = false) (k : Nat) : c ∉ reprNat k := by
  intro h
  have := reprNat_digits k c h
  rw [hc] at this; cases this

theorem not_mem_reprInt {c : Char} (hc : isDig c = false) (h : c ≠ '-') (z : Int) : c ∉ reprInt z := by
  cases z with
  | ofNat k => exact not_mem_reprNat hc k
  | negSucc k =>
    rw [reprInt, List.mem_cons, not_or]
    exact ⟨h, not_mem_reprNat hc _⟩

theorem signed_pad {A Z : List Char} (hA : ND A) (hZ : ND Z) (hA' : '-' ∉ A) (hZ' : '-' ∉ Z) (z : Int) : signed (A ++ reprInt z ++ Z) = z := by
  rw [signed, numbers_pad hA hZ]
  cases z with
  | ofNat k =>
    have : '-' ∉ A ++ reprInt (Int.ofNat k) ++ Z := by
      simp only [List.mem_append, not_or]
      exact ⟨⟨hA', not_mem_reprNat (by decide) k⟩, hZ'⟩
    rw [if_neg this, reprInt, numbers_repr]; rfl
  | negSucc k =>
    have : '-' ∈ A ++ reprInt (Int.negSucc k) ++ Z := by simp [reprInt]
    rw [if_pos this, reprInt]
    have e : numbers ('-' :: reprNat (k + 1)) = [k + 1] := by
      rw [numbers, scan, if_neg (by decide)]
      exact numbers_repr (k + 1)
    rw [e]
    simp [Int.negSucc_eq]

theorem strip_pad {s : List Char} (h : '$' ∉ s) : stripDollar (['$'] ++ s ++ ['$']) = s := by
  have drop : ∀ l : List Char, '$' ∉ l → l.dropWhile (· == '$') = l := by
    intro l hl
    cases l with
    | nil => rfl
    | cons x xs =>
      rw [List.dropWhile_cons, if_neg]
      intro e
      simp at e
      exact hl (by simp [e])
  rw [stripDollar]
  have h1 : (['$'] ++ s ++ ['$']).dropWhile (· == '$') = (s ++ ['$']).dropWhile (· == '$') := by simp
  rw [h1]
  cases s with
  | nil => simp
  | cons x xs =>
    have hx : x ≠ '$' := fun e => h (by simp [e])
    rw [List.cons_append, List.dropWhile_cons, if_neg (by simpa using hx)]
    have h2 : (x :: (xs ++ ['$'])).reverse = '$' :: (x :: xs).reverse := by simp
    rw [h2, List.dropWhile_cons, if_pos (by simp), drop _ (fun hm => h (List.mem_reverse.mp hm)), List.reverse_reverse]

end Text
end Peyl
