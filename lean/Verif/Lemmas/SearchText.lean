import Verif.Model.SearchText
import Verif.Lemmas.Adapter

namespace Peyl.SearchText
open Peyl Adapter

/-- `s` is read as the value `v`, whatever (non-digit) follows. -/
def Reads (s : List Char) (v : Lit) : Prop :=
  (∃ c l, s = c :: l ∧ c ≠ ' ' ∧ c ≠ '\t' ∧ c ≠ ')' ∧ c ≠ ']') ∧
  ∀ fuel r, s.length ≤ fuel → NoDig r → parse (fuel + 1) (s ++ r) = some (v, r)

theorem isDig_ne' {c : Char} (h : isDig c = true) : c ≠ ']' ∧ c ≠ '[' := by
  refine ⟨?_, ?_⟩ <;> rintro rfl <;> revert h <;> decide

theorem reads_int (z : Int) : Reads (reprInt z) (.int z) := by
  cases z with
  | ofNat k =>
    obtain ⟨c, l, h, hc⟩ := reprNat_cons k
    obtain ⟨a1, a2, a3, a4, a5, a6⟩ := isDig_ne hc
    obtain ⟨a7, a8⟩ := isDig_ne' hc
    refine ⟨⟨c, l, h, a1, a2, a3, a7⟩, fun fuel r _ hr => ?_⟩
    have hp := parseNum_repr k r hr
    unfold parse
    simp only [reprInt]
    rw [h, List.cons_append] at hp ⊢
    rw [skipWs_cons _ a1 a2]
    split
    · rename_i e; exact absurd (List.cons.inj e).1 a8
    · rename_i e; exact absurd (List.cons.inj e).1 a4
    · rename_i e; exact absurd (List.cons.inj e).1 a5
    · rename_i e; exact absurd (List.cons.inj e).1 a6
    · rw [hp]; rfl
  | negSucc k =>
    refine ⟨⟨'-', _, rfl, by decide, by decide, by decide, by decide⟩, fun fuel r _ hr => ?_⟩
    unfold parse
    simp only [reprInt, List.cons_append]
    rw [skipWs_cons _ (by decide) (by decide)]
    simp only
    obtain ⟨c, l, h, hc⟩ := reprNat_cons (k + 1)
    obtain ⟨a1, a2, -⟩ := isDig_ne hc
    have hp := parseNum_repr (k + 1) r hr
    rw [h, List.cons_append] at hp ⊢
    rw [skipWs_cons _ a1 a2, hp]
    rfl

theorem parseItems_space (fuel : Nat) (close : Char) (l : List Char) : parseItems fuel close (' ' :: l) = parseItems fuel close l := by
  cases fuel with
  | zero => rfl
  | succ f => unfold parseItems; rw [skipWs_space]

/-- Reading the items before a closing bracket. -/
theorem parseItems_join {close : Char} (hcl : close = ')' ∨ close = ']') {l : List (List Char × Lit)} (h : ∀ p ∈ l, Reads p.1 p.2) (r : List Char) (fuel : Nat)
    (hf : (joinItems (l.map (·.1))).length + 1 ≤ fuel) :
    parseItems (fuel + 1) close (joinItems (l.map (·.1)) ++ close :: r) = some (l.map (·.2), r) := by
  have hws : close ≠ ' ' ∧ close ≠ '\t' := by rcases hcl with rfl | rfl <;> decide
  have hcomma : ',' ≠ close := by rcases hcl with rfl | rfl <;> decide
  have hnd : NoDig (close :: r) := by
    intro c hc; simp only [List.head?_cons, Option.some.injEq] at hc; subst hc; rcases hcl with rfl | rfl <;> decide
  induction l generalizing fuel with
  | nil =>
    unfold parseItems
    simp only [List.map_nil, joinItems, List.nil_append]
    rw [skipWs_cons _ hws.1 hws.2]
    simp only [if_true]
  | cons p l ih =>
    obtain ⟨⟨c, q, hc, c1, c2, c3, c4⟩, hp⟩ := h p List.mem_cons_self
    have hne : c ≠ close := by rcases hcl with rfl | rfl <;> assumption
    cases l with
    | nil =>
      simp only [List.map_cons, List.map_nil, joinItems] at hf ⊢
      obtain ⟨fuel, rfl⟩ : ∃ f, fuel = f + 1 := ⟨fuel - 1, by omega⟩
      have := hp fuel (close :: r) (by omega) hnd
      unfold parseItems
      rw [hc, List.cons_append] at this ⊢
      rw [skipWs_cons _ c1 c2]
      simp only
      rw [if_neg hne, this]
      simp only [Option.bind_eq_bind, Option.bind_some]
      rw [skipWs_cons _ hws.1 hws.2]
      simp only [if_true]
    | cons p' l =>
      have hl1 : 1 ≤ p.1.length := by rw [hc]; simp
      have ih := ih (fun x hx => h x (List.mem_cons_of_mem _ hx))
      simp only [List.map_cons, joinItems, List.length_cons, List.length_append, List.length_nil] at hf ih ⊢
      obtain ⟨fuel, rfl⟩ : ∃ f, fuel = f + 1 := ⟨fuel - 1, by omega⟩
      have h1 := hp fuel (',' :: ' ' :: (joinItems (p'.1 :: l.map (·.1)) ++ close :: r)) (by omega) (noDig_comma _)
      unfold parseItems
      have e : (p.1 ++ [',', ' '] ++ joinItems (p'.1 :: l.map (·.1))) ++ close :: r =
          p.1 ++ (',' :: ' ' :: (joinItems (p'.1 :: l.map (·.1)) ++ close :: r)) := by simp
      rw [e]
      rw [hc, List.cons_append] at h1 ⊢
      rw [skipWs_cons _ c1 c2]
      simp only
      rw [if_neg hne, h1]
      simp only [Option.bind_eq_bind, Option.bind_some]
      rw [skipWs_cons _ (by decide) (by decide)]
      simp only
      rw [if_neg hcomma, if_pos trivial, parseItems_space, ih fuel (by omega)]
      rfl

theorem reads_list (l : List (List Char × Lit)) (h : ∀ p ∈ l, Reads p.1 p.2) : Reads (reprList (l.map (·.1))) (.list (l.map (·.2))) := by
  refine ⟨⟨'[', _, rfl, by decide, by decide, by decide, by decide⟩, fun fuel r hf _ => ?_⟩
  simp only [reprList, List.cons_append, List.nil_append, List.append_assoc, List.length_cons, List.length_append, List.length_nil] at hf ⊢
  obtain ⟨fuel, rfl⟩ : ∃ f, fuel = f + 1 := ⟨fuel - 1, by omega⟩
  unfold parse
  rw [skipWs_cons _ (by decide) (by decide)]
  simp only
  rw [parseItems_join (.inr rfl) h r fuel (by omega)]
  rfl

theorem reads_tuple (l : List (List Char × Lit)) (h : ∀ p ∈ l, Reads p.1 p.2) : Reads (reprTuple (l.map (·.1))) (.tuple (l.map (·.2))) := by
  match l, h with
  | [], _ =>
    refine ⟨⟨'(', _, rfl, by decide, by decide, by decide, by decide⟩, fun fuel r _ _ => ?_⟩
    simp only [List.map_nil, Adapter.reprTuple, joinItems, List.append_nil, List.cons_append, List.nil_append]
    unfold parse
    rw [skipWs_cons _ (by decide) (by decide)]
    simp only
    rw [skipWs_cons _ (by decide) (by decide)]
    rfl
  | [p], h =>
    refine ⟨⟨'(', _, rfl, by decide, by decide, by decide, by decide⟩, fun fuel r hf _ => ?_⟩
    obtain ⟨⟨c, q, hc, c1, c2, c3, c4⟩, hp⟩ := h p List.mem_cons_self
    simp only [List.map_cons, List.map_nil, Adapter.reprTuple, List.cons_append, List.nil_append, List.append_assoc, List.length_cons, List.length_append,
      List.length_nil] at hf ⊢
    obtain ⟨fuel, rfl⟩ : ∃ f, fuel = f + 1 := ⟨fuel - 1, by omega⟩
    have h1 := hp fuel (',' :: ')' :: r) (by omega) (noDig_comma _)
    unfold parse
    rw [skipWs_cons _ (by decide) (by decide)]
    simp only
    rw [hc, List.cons_append] at h1 ⊢
    rw [skipWs_cons _ c1 c2]
    split
    · rename_i e; exact absurd (List.cons.inj e).1 c3
    · rw [h1]
      simp only [Option.bind_eq_bind, Option.bind_some]
      rw [skipWs_cons _ (by decide) (by decide)]
      simp only [parseItems]
      rw [skipWs_cons _ (by decide) (by decide)]
      simp only [if_true, Option.bind_some]
  | p :: p' :: l, h =>
    refine ⟨⟨'(', _, rfl, by decide, by decide, by decide, by decide⟩, fun fuel r hf _ => ?_⟩
    obtain ⟨⟨c, q, hc, c1, c2, c3, c4⟩, hp⟩ := h p List.mem_cons_self
    have ht := parseItems_join (.inl rfl) (l := p' :: l) (fun x hx => h x (List.mem_cons_of_mem _ hx)) r
    simp only [List.map_cons, Adapter.reprTuple, joinItems, List.cons_append, List.nil_append, List.append_assoc, List.length_cons, List.length_append,
      List.length_nil, List.length_map] at hf ht ⊢
    obtain ⟨fuel, rfl⟩ : ∃ f, fuel = f + 1 := ⟨fuel - 1, by omega⟩
    have h1 := hp fuel (',' :: ' ' :: (joinItems (p'.1 :: l.map (·.1)) ++ ')' :: r)) (by omega) (noDig_comma _)
    unfold parse
    rw [skipWs_cons _ (by decide) (by decide)]
    simp only
    rw [hc, List.cons_append] at h1 ⊢
    rw [skipWs_cons _ c1 c2]
    have hl1 : 1 ≤ p.1.length := by rw [hc]; simp
    split
    · rename_i e; exact absurd (List.cons.inj e).1 c3
    · rw [h1]
      simp only [Option.bind_eq_bind, Option.bind_some]
      rw [skipWs_cons _ (by decide) (by decide)]
      simp only
      rw [parseItems_space, ht fuel (by omega)]
      rfl

theorem evalText_of_reads {s : List Char} {v : Lit} (h : Reads s v) : evalText s = some v := by
  unfold evalText
  have := h.2 s.length [] le_rfl (fun c hc => by simp at hc)
  rw [List.append_nil] at this
  rw [this]; rfl

theorem reads_pair (y : Int × List (List Nat)) : Reads (pairText y) (pairLit y) := by
  have hw : ∀ w : List Nat, Reads (reprTuple (w.map fun k : Nat => reprInt k)) (.tuple (w.map fun k : Nat => .int k)) := by
    intro w
    have h := reads_tuple (w.map fun k : Nat => (reprInt k, Lit.int k)) (by
      intro p hp; obtain ⟨f, -, rfl⟩ := List.mem_map.1 hp; exact reads_int f)
    rwa [List.map_map, List.map_map] at h
  have hl := reads_list (y.2.map fun w => (reprTuple (w.map fun k : Nat => reprInt k), Lit.tuple (w.map fun k : Nat => .int k))) (by
    intro p hp; obtain ⟨f, -, rfl⟩ := List.mem_map.1 hp; exact hw f)
  rw [List.map_map, List.map_map] at hl
  have h2 := reads_tuple [(reprInt y.1, Lit.int y.1), (reprList (y.2.map fun w => reprTuple (w.map fun k : Nat => reprInt k)),
    Lit.list (y.2.map fun w => .tuple (w.map fun k : Nat => .int k)))] (by
      intro p hp
      simp only [List.mem_cons, List.not_mem_nil, or_false] at hp
      rcases hp with rfl | rfl
      · exact reads_int _
      · exact hl)
  have e : pairText y = Adapter.reprTuple [reprInt y.1, reprList (y.2.map fun w => Adapter.reprTuple (w.map fun k : Nat => reprInt k))] := by
    unfold pairText
    generalize reprList _ = s
    simp [Adapter.reprTuple, joinItems]
  rw [e]; exact h2

theorem pairLit_inj {y y' : Int × List (List Nat)} (h : pairLit y = pairLit y') : y = y' := by
  obtain ⟨k, ws⟩ := y
  obtain ⟨k', ws'⟩ := y'
  simp only [pairLit, Lit.tuple.injEq, List.cons.injEq, Lit.int.injEq, Lit.list.injEq, and_true] at h
  obtain ⟨rfl, h⟩ := h
  have inj1 : Function.Injective fun k : Nat => Lit.int k := by
    intro a b hab; simpa using hab
  have inj2 : Function.Injective fun w : List Nat => Lit.tuple (w.map fun k : Nat => .int k) := by
    intro a b hab
    simp only [Lit.tuple.injEq] at hab
    exact List.map_injective_iff.2 inj1 hab
  rw [List.map_injective_iff.2 inj2 h]

/-- Two printed integers followed by something that does not begin with a digit. -/
theorem reprInt_append {a b : ℤ} {s t : List Char} (hs : NoDig s) (ht : NoDig t) (h : reprInt a ++ s = reprInt b ++ t) : a = b ∧ s = t := by
  have h1 := (reads_int a).2 ((reprInt a).length + (reprInt b).length) s (by omega) hs
  have h2 := (reads_int b).2 ((reprInt a).length + (reprInt b).length) t (by omega) ht
  rw [h, h2] at h1
  simp only [Option.some.injEq, Prod.mk.injEq, Lit.int.injEq] at h1
  exact ⟨h1.1.symm, h1.2.symm⟩

theorem noDig_append {s : List Char} {c : Char} (hs : s.head? = some c) (hc : isDig c = false) (l : List Char) : NoDig (s ++ l) := by
  intro c' h'
  cases s with
  | nil => cases hs
  | cons a s => cases hs; cases h'; exact hc

theorem line_inj {n r p n' r' p' : Nat} {y y' : Int × List (List Nat)} (h : line n r p y = line n' r' p' y') :
    n = n' ∧ r = r' ∧ p = p' ∧ y = y' := by
  simp only [line, lineHead, List.append_assoc] at h
  generalize e1 : ", r=".toList = s1 at h
  generalize e2 : ", p=".toList = s2 at h
  generalize e3 : ") near-kernel element: Garside length ".toList = s3 at h
  generalize e4 : ", Garside form ".toList = s4 at h
  have d1 : ∀ l, NoDig (s1 ++ l) := noDig_append (c := ',') (by rw [← e1]; decide +kernel) (by decide)
  have d2 : ∀ l, NoDig (s2 ++ l) := noDig_append (c := ',') (by rw [← e2]; decide +kernel) (by decide)
  have d3 : ∀ l, NoDig (s3 ++ l) := noDig_append (c := ')') (by rw [← e3]; decide +kernel) (by decide)
  have d4 : ∀ l, NoDig (s4 ++ l) := noDig_append (c := ',') (by rw [← e4]; decide +kernel) (by decide)
  obtain ⟨h1, h⟩ := reprInt_append (d1 _) (d1 _) (List.append_cancel_left h)
  obtain ⟨h2, h⟩ := reprInt_append (d2 _) (d2 _) (List.append_cancel_left h)
  obtain ⟨h3, h⟩ := reprInt_append (d3 _) (d3 _) (List.append_cancel_left h)
  obtain ⟨-, h⟩ := reprInt_append (d4 _) (d4 _) (List.append_cancel_left h)
  have h := List.append_cancel_left h
  have r1 := evalText_of_reads (reads_pair y)
  rw [h, evalText_of_reads (reads_pair y')] at r1
  exact ⟨by omega, by omega, by omega, (pairLit_inj (Option.some.inj r1)).symm⟩

/-! ### thousands separators -/

theorem reprNat_thousand {a : Nat} (ha : 0 < a) (b : Nat) (hb : b < 1000) : reprNat (1000 * a + b) = reprNat a ++ pad3 b := by
  unfold reprNat
  rw [if_neg (by omega), if_neg (by omega)]
  rw [Nat.digits_def' (by omega) (by omega), Nat.digits_def' (by omega) (by omega), Nat.digits_def' (by omega) (by omega)]
  have e1 : (1000 * a + b) / 10 / 10 / 10 = a := by omega
  have e2 : (1000 * a + b) % 10 = b % 10 := by omega
  have e3 : (1000 * a + b) / 10 % 10 = b / 10 % 10 := by omega
  have e4 : (1000 * a + b) / 10 / 10 % 10 = b / 100 % 10 := by omega
  rw [e1, e2, e3, e4]
  simp [pad3]

theorem not_comma_of_dig {c : Char} (h : isDig c = true) : c ≠ ',' := by rintro rfl; revert h; decide

theorem commaNat_digits (k : Nat) : (commaNat k).filter (· != ',') = reprNat k := by
  induction k using Nat.strong_induction_on with
  | _ k ih =>
    rw [commaNat]
    split
    · exact List.filter_eq_self.2 fun c hc => by simpa using not_comma_of_dig (reprNat_digits k c hc)
    · rw [List.filter_append, ih (k / 1000) (by omega), List.filter_cons_of_neg (by decide)]
      have h3 : (pad3 (k % 1000)).filter (· != ',') = pad3 (k % 1000) :=
        List.filter_eq_self.2 fun c hc => by
          simp only [pad3, List.mem_cons, List.not_mem_nil, or_false] at hc
          rcases hc with rfl | rfl | rfl <;> simpa using not_comma_of_dig (isDig_digitChar (by omega))
      rw [h3, ← reprNat_thousand (by omega) _ (by omega)]
      congr 1; omega

end Peyl.SearchText
