import Verif.Model.Adapter
import Mathlib.Data.Nat.Digits.Lemmas

namespace Peyl.Adapter
open Peyl

theorem isDig_digitChar {d : Nat} (h : d < 10) : isDig (digitChar d) = true := by
  interval_cases d <;> decide

theorem digitChar_val {d : Nat} (h : d < 10) : (digitChar d).toNat - 48 = d := by
  interval_cases d <;> decide

theorem digitChar_ne_zero {d : Nat} (h : d < 10) (h0 : d ≠ 0) : digitChar d ≠ '0' := by
  interval_cases d <;> first | exact absurd rfl h0 | decide

theorem reprNat_digits (k : Nat) : ∀ c ∈ reprNat k, isDig c = true := by
  unfold reprNat
  split
  · intro c hc; rw [List.mem_singleton] at hc; subst hc; decide
  · intro c hc
    rw [List.mem_reverse, List.mem_map] at hc
    obtain ⟨d, hd, rfl⟩ := hc
    exact isDig_digitChar (Nat.digits_lt_base (by omega) hd)

theorem reprNat_ne_nil (k : Nat) : reprNat k ≠ [] := by
  unfold reprNat
  split
  · simp
  · rename_i h; simp [Nat.digits_ne_nil_iff_ne_zero.2 h]

theorem reprNat_val (k : Nat) : (reprNat k).foldl (fun a c => 10 * a + (c.toNat - 48)) 0 = k := by
  unfold reprNat
  split
  · rename_i h; subst h; decide
  · rw [List.foldl_reverse, List.foldr_map]
    have key : ∀ l : List Nat, (∀ d ∈ l, d < 10) → l.foldr (fun d a => 10 * a + ((digitChar d).toNat - 48)) 0 = Nat.ofDigits 10 l := by
      intro l hl
      induction l with
      | nil => rfl
      | cons d l ih =>
        rw [List.foldr_cons, ih fun x hx => hl x (List.mem_cons_of_mem _ hx), digitChar_val (hl d List.mem_cons_self), Nat.ofDigits_cons]
        push_cast; ring
    rw [key _ fun d hd => Nat.digits_lt_base (by omega) hd, Nat.ofDigits_digits]

theorem reprNat_head (k : Nat) (h : (reprNat k).head? = some '0') : k = 0 := by
  by_contra hk
  unfold reprNat at h
  rw [if_neg hk, List.head?_reverse, List.getLast?_map] at h
  have hne : Nat.digits 10 k ≠ [] := Nat.digits_ne_nil_iff_ne_zero.2 hk
  rw [List.getLast?_eq_some_getLast hne, Option.map_some] at h
  exact digitChar_ne_zero (Nat.digits_lt_base (by omega) (List.getLast_mem hne)) (Nat.getLast_digit_ne_zero 10 hk) (Option.some.inj h)

/-- The remaining text does not continue a number. -/
def NoDig (r : List Char) : Prop := ∀ c, r.head? = some c → isDig c = false

theorem parseNum_repr (k : Nat) (r : List Char) (hr : NoDig r) : parseNum (reprNat k ++ r) = some ((k : Int), r) := by
  have h1 : (reprNat k ++ r).takeWhile isDig = reprNat k := by
    rw [List.takeWhile_append_of_pos (reprNat_digits k)]
    cases r with
    | nil => simp
    | cons c r => rw [List.takeWhile_cons_of_neg (by rw [hr c rfl]; simp)]; simp
  have h2 : (reprNat k ++ r).dropWhile isDig = r := by
    rw [List.dropWhile_append_of_pos (reprNat_digits k)]
    cases r with
    | nil => simp
    | cons c r => rw [List.dropWhile_cons_of_neg (by rw [hr c rfl]; simp)]
  unfold parseNum
  simp only [h1, h2, reprNat_val]
  rw [if_neg (by simpa using reprNat_ne_nil k), if_neg]
  simp only [Bool.and_eq_true, beq_iff_eq, bne_iff_ne, ne_eq, not_and, not_not]
  exact reprNat_head k

theorem reprNat_cons (k : Nat) : ∃ c l, reprNat k = c :: l ∧ isDig c = true := by
  cases h : reprNat k with
  | nil => exact absurd h (reprNat_ne_nil k)
  | cons c l => exact ⟨c, l, rfl, reprNat_digits k c (h ▸ List.mem_cons_self)⟩

/-- `s` is read as the value `v`, whatever (non-digit) follows. -/
def Parses (s : List Char) (v : PyVal) : Prop :=
  (∃ c l, s = c :: l ∧ c ≠ ' ' ∧ c ≠ '\t' ∧ c ≠ ')') ∧
  ∀ fuel r, s.length ≤ fuel → NoDig r → parseExpr (fuel + 1) (s ++ r) = some (v, r)

theorem isDig_ne {c : Char} (h : isDig c = true) : c ≠ ' ' ∧ c ≠ '\t' ∧ c ≠ ')' ∧ c ≠ '(' ∧ c ≠ '-' ∧ c ≠ '+' := by
  refine ⟨?_, ?_, ?_, ?_, ?_, ?_⟩ <;> rintro rfl <;> revert h <;> decide

theorem skipWs_cons {c : Char} (l : List Char) (h1 : c ≠ ' ') (h2 : c ≠ '\t') : skipWs (c :: l) = c :: l := by
  unfold skipWs
  rw [List.dropWhile_cons_of_neg (by simp [h1, h2])]

theorem parses_int (z : Int) : Parses (reprInt z) (.int z) := by
  cases z with
  | ofNat k =>
    obtain ⟨c, l, h, hc⟩ := reprNat_cons k
    obtain ⟨a1, a2, a3, a4, a5, a6⟩ := isDig_ne hc
    refine ⟨⟨c, l, h, a1, a2, a3⟩, fun fuel r _ hr => ?_⟩
    have hp := parseNum_repr k r hr
    unfold parseExpr
    simp only [reprInt]
    rw [h, List.cons_append] at hp ⊢
    rw [skipWs_cons _ a1 a2]
    split
    · rename_i e; exact absurd (List.cons.inj e).1 a4
    · rename_i e; exact absurd (List.cons.inj e).1 a5
    · rename_i e; exact absurd (List.cons.inj e).1 a6
    · rw [hp]; rfl
  | negSucc k =>
    refine ⟨⟨'-', _, rfl, by decide, by decide, by decide⟩, fun fuel r _ hr => ?_⟩
    unfold parseExpr
    simp only [reprInt, List.cons_append]
    rw [skipWs_cons _ (by decide) (by decide)]
    simp only
    obtain ⟨c, l, h, hc⟩ := reprNat_cons (k + 1)
    obtain ⟨a1, a2, -⟩ := isDig_ne hc
    have hp := parseNum_repr (k + 1) r hr
    rw [h, List.cons_append] at hp ⊢
    rw [skipWs_cons _ a1 a2, hp]
    rfl

theorem noDig_comma (r : List Char) : NoDig (',' :: r) := by
  intro c h; simp only [List.head?_cons, Option.some.injEq] at h; subst h; decide

theorem noDig_paren (r : List Char) : NoDig (')' :: r) := by
  intro c h; simp only [List.head?_cons, Option.some.injEq] at h; subst h; decide

theorem skipWs_space (l : List Char) : skipWs (' ' :: l) = skipWs l := by
  unfold skipWs; rw [List.dropWhile_cons_of_pos (by decide)]

/-- Reading the items after the first comma. -/
theorem parseTail_join {l : List (List Char × PyVal)} (h : ∀ p ∈ l, Parses p.1 p.2) (hne : l ≠ []) (r : List Char) (fuel : Nat)
    (hf : (joinItems (l.map (·.1))).length + 1 ≤ fuel) :
    parseTail (fuel + 1) (' ' :: (joinItems (l.map (·.1)) ++ ')' :: r)) = some (l.map (·.2), r) := by
  induction l generalizing fuel with
  | nil => exact absurd rfl hne
  | cons p l ih =>
    obtain ⟨⟨c, q, hc, c1, c2, c3⟩, hp⟩ := h p List.mem_cons_self
    cases l with
    | nil =>
      simp only [List.map_cons, List.map_nil, joinItems, List.length_cons, List.length_nil] at hf ⊢
      obtain ⟨fuel, rfl⟩ : ∃ f, fuel = f + 1 := ⟨fuel - 1, by omega⟩
      have := hp fuel (')' :: r) (by omega) (noDig_paren r)
      unfold parseTail
      rw [skipWs_space]
      rw [hc, List.cons_append] at this ⊢
      rw [skipWs_cons _ c1 c2]
      split
      · rename_i e; exact absurd (List.cons.inj e).1 c3
      · rw [this]
        simp only [Option.bind_eq_bind, Option.bind_some]
        rw [skipWs_cons _ (by decide) (by decide)]
        rfl
    | cons p' l =>
      have hl1 : 1 ≤ p.1.length := by rw [hc]; simp
      have ih := ih (fun x hx => h x (List.mem_cons_of_mem _ hx)) (by simp)
      simp only [List.map_cons, joinItems, List.length_cons, List.length_append, List.length_nil] at hf ih ⊢
      obtain ⟨fuel, rfl⟩ : ∃ f, fuel = f + 1 := ⟨fuel - 1, by omega⟩
      have h1 := hp fuel (',' :: ' ' :: (joinItems (p'.1 :: l.map (·.1)) ++ ')' :: r)) (by omega) (noDig_comma _)
      unfold parseTail
      rw [skipWs_space]
      have e : (p.1 ++ [',', ' '] ++ joinItems (p'.1 :: l.map (·.1))) ++ ')' :: r =
          p.1 ++ (',' :: ' ' :: (joinItems (p'.1 :: l.map (·.1)) ++ ')' :: r)) := by simp
      rw [e]
      rw [hc, List.cons_append] at h1 ⊢
      rw [skipWs_cons _ c1 c2]
      split
      · rename_i e; exact absurd (List.cons.inj e).1 c3
      · rw [h1]
        simp only [Option.bind_eq_bind, Option.bind_some]
        rw [skipWs_cons _ (by decide) (by decide)]
        simp only
        rw [ih fuel (by omega)]
        rfl

theorem parses_tuple (l : List (List Char × PyVal)) (h : ∀ p ∈ l, Parses p.1 p.2) : Parses (reprTuple (l.map (·.1))) (.tuple (l.map (·.2))) := by
  match l, h with
  | [], _ =>
    refine ⟨⟨'(', _, rfl, by decide, by decide, by decide⟩, fun fuel r _ _ => ?_⟩
    simp only [List.map_nil, reprTuple, joinItems, List.append_nil, List.cons_append, List.nil_append]
    unfold parseExpr
    rw [skipWs_cons _ (by decide) (by decide)]
    simp only
    rw [skipWs_cons _ (by decide) (by decide)]
    rfl
  | [p], h =>
    refine ⟨⟨'(', _, rfl, by decide, by decide, by decide⟩, fun fuel r hf _ => ?_⟩
    obtain ⟨⟨c, q, hc, c1, c2, c3⟩, hp⟩ := h p List.mem_cons_self
    simp only [List.map_cons, List.map_nil, reprTuple, List.cons_append, List.nil_append, List.append_assoc, List.length_cons, List.length_append,
      List.length_nil] at hf ⊢
    obtain ⟨fuel, rfl⟩ : ∃ f, fuel = f + 1 := ⟨fuel - 1, by omega⟩
    have h1 := hp fuel (',' :: ')' :: r) (by omega) (noDig_comma _)
    unfold parseExpr
    rw [skipWs_cons _ (by decide) (by decide)]
    simp only
    rw [hc, List.cons_append] at h1 ⊢
    rw [skipWs_cons _ c1 c2]
    split
    · rename_i e; exact absurd (List.cons.inj e).1 c3
    · rw [h1]
      simp only [Option.bind_eq_bind, Option.bind_some]
      rw [skipWs_cons _ (by decide) (by decide)]
      simp only [parseTail]
      rw [skipWs_cons _ (by decide) (by decide)]
      rfl
  | p :: p' :: l, h =>
    refine ⟨⟨'(', _, rfl, by decide, by decide, by decide⟩, fun fuel r hf _ => ?_⟩
    obtain ⟨⟨c, q, hc, c1, c2, c3⟩, hp⟩ := h p List.mem_cons_self
    have ht := parseTail_join (l := p' :: l) (fun x hx => h x (List.mem_cons_of_mem _ hx)) (by simp) r
    simp only [List.map_cons, reprTuple, joinItems, List.cons_append, List.nil_append, List.append_assoc, List.length_cons, List.length_append,
      List.length_nil, List.length_map] at hf ht ⊢
    obtain ⟨fuel, rfl⟩ : ∃ f, fuel = f + 1 := ⟨fuel - 1, by omega⟩
    have h1 := hp fuel (',' :: ' ' :: (joinItems (p'.1 :: l.map (·.1)) ++ ')' :: r)) (by omega) (noDig_comma _)
    unfold parseExpr
    rw [skipWs_cons _ (by decide) (by decide)]
    simp only
    rw [hc, List.cons_append] at h1 ⊢
    rw [skipWs_cons _ c1 c2]
    have hl1 : 1 ≤ p.1.length := by rw [hc]; simp
    split
    · rename_i e; exact absurd (List.cons.inj e).1 c3
    · rw [h1]
      simp only [Option.bind_eq_bind, Option.bind_some]
      rw [skipWs_cons _ (by decide) (by decide)]
      simp only
      rw [ht fuel (by omega)]
      rfl

theorem literalEval_of_parses {s : List Char} {v : PyVal} (h : Parses s v) : literalEval s = some v := by
  unfold literalEval
  have := h.2 s.length [] le_rfl (fun c hc => by simp at hc)
  rw [List.append_nil] at this
  rw [this]; rfl

/-- The value printed by `adapt_braid` after the class name. -/
def tupleVal (x : NF) : PyVal := .tuple [.int x.n, .int x.power, .tuple (x.factors.map fun (f : Nat) => PyVal.int f)]

theorem parses_astuple (x : NF) : Parses (reprTuple [reprInt x.n, reprInt x.power, reprTuple (x.factors.map fun (f : Nat) => reprInt f)]) (tupleVal x) := by
  have h3 := parses_tuple (x.factors.map fun (f : Nat) => (reprInt f, PyVal.int f)) (by
    intro p hp; obtain ⟨f, -, rfl⟩ := List.mem_map.1 hp; exact parses_int f)
  rw [List.map_map, List.map_map] at h3
  have := parses_tuple [(reprInt (x.n : Int), PyVal.int (x.n : Int)), (reprInt x.power, PyVal.int x.power),
    (reprTuple (x.factors.map fun (f : Nat) => reprInt f), .tuple (x.factors.map fun (f : Nat) => PyVal.int f))] (by
      intro p hp
      simp only [List.mem_cons, List.not_mem_nil, or_false] at hp
      rcases hp with rfl | rfl | rfl
      · exact parses_int (x.n : Int)
      · exact parses_int x.power
      · exact h3)
  exact this

theorem natList_map (fs : List Nat) : natList (fs.map fun (f : Nat) => PyVal.int f) = some fs := by
  induction fs with
  | nil => rfl
  | cons f fs ih =>
    rw [List.map_cons]
    change (natList (fs.map fun (f : Nat) => PyVal.int f)).map (f :: ·) = _
    rw [ih]; rfl

theorem construct_tupleVal {T : Type} (tbl : Nat → Except Err (NFTable T)) (x : NF) : construct tbl (tupleVal x) = NF.make tbl x.n x.power x.factors := by
  unfold tupleVal construct
  have : ((x.n : Int)) = .ofNat x.n := rfl
  simp only [natList_map, this]

end Peyl.Adapter
