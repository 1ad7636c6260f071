import Verif.Spec.TL
import Mathlib.Data.List.Nodup
/-!
# `is_crossingless_matching` decides crossingless matchings
-/
namespace Peyl
namespace TL

theorem lookup_lt {α : Type} (l : List α) (i : Nat) (h : i < l.length) : lookup l i = .ok l[i] := by
  simp [lookup, List.getElem?_eq_getElem h]

theorem at_lt (s : List Nat) (i : Nat) (h : i < s.length) : at_ s i = s[i] := by
  simp [at_, List.getD_eq_getElem?_getD, List.getElem?_eq_getElem h]

theorem lookup_at (s : List Nat) (i : Nat) (h : i < s.length) : lookup s i = .ok (at_ s i) := by
  rw [lookup_lt s i h, at_lt s i h]

theorem lookup_map (s : List Nat) (i : Nat) (h : i < s.length) : lookup (s.map Int.ofNat) i = .ok (at_ s i : Int) := by
  rw [lookup_lt _ i (by simpa using h), at_lt s i h]; simp

theorem allM_ok {α : Type} (f : α → Except Err Bool) (g : α → Prop) [DecidablePred g] (l : List α)
    (h : ∀ x ∈ l, f x = .ok (decide (g x))) : allM f l = .ok (decide (∀ x ∈ l, g x)) := by
  induction l with
  | nil => simp [allM]
  | cons x xs ih =>
    rw [allM, h x (by simp)]
    by_cases hx : g x
    · simp only [hx, decide_true]
      change allM f xs = _
      rw [ih fun y hy => h y (by simp [hy])]
      congr 1
      simp [hx]
    · simp only [hx, decide_false]
      change Except.ok false = _
      simp [hx]

/-- The partners of the arcs open before the point `i`, innermost first. -/
def openStack (f : Nat → Nat) (i : Nat) : List Nat := ((List.range i).reverse.filter fun a => i ≤ f a).map f

theorem openStack_push {f : Nat → Nat} {N i : Nat} (hinv : ∀ a, a < N → f (f a) = a) (hi : i < N) (h : i < f i) :
    openStack f (i + 1) = f i :: openStack f i := by
  unfold openStack
  rw [List.range_succ, List.reverse_append]
  simp only [List.reverse_cons, List.reverse_nil, List.nil_append, List.singleton_append]
  rw [List.filter_cons_of_pos (by simpa using h), List.map_cons]
  congr 2
  apply List.filter_congr
  intro a ha
  have : a < i := by simpa using ha
  have : f a ≠ i := fun e => by have := hinv a (by omega); rw [e] at this; omega
  simp only [decide_eq_decide]
  omega

/-- The decreasing list of open points. -/
theorem open_sorted (f : Nat → Nat) (i : Nat) : ((List.range i).reverse.filter fun a => i ≤ f a).Pairwise (· > ·) := by
  apply List.Pairwise.filter
  rw [List.pairwise_reverse]
  exact List.pairwise_lt_range

theorem openStack_pop {f : Nat → Nat} {N i : Nat} (hinv : ∀ a, a < N → f (f a) = a) (hi : i < N) (h : f i < i) :
    ∃ x, openStack f i = x :: openStack f (i + 1) ∧ x = i ∧ (∀ a, f i < a → a < i → f a < i) ∨
    ∃ x l, openStack f i = x :: l ∧ x ≠ i ∧ ∃ a, f i < a ∧ a < i ∧ i < f a := by
  have hs := open_sorted f i
  have hmem : f i ∈ ((List.range i).reverse.filter fun a => i ≤ f a) := by
    simp [h, hinv i hi]
  unfold openStack
  cases hl : ((List.range i).reverse.filter fun a => i ≤ f a) with
  | nil => rw [hl] at hmem; simp at hmem
  | cons a0 l =>
    rw [hl] at hmem hs
    have ha0 : a0 < i ∧ i ≤ f a0 := by
      have : a0 ∈ ((List.range i).reverse.filter fun a => i ≤ f a) := by rw [hl]; simp
      simpa using this
    rw [List.pairwise_cons] at hs
    by_cases he : f a0 = i
    · refine ⟨f a0, ?_⟩
      left
      have ea : a0 = f i := by rw [← he, hinv a0 (by omega)]
      refine ⟨?_, he, ?_⟩
      · rw [List.map_cons]
        congr 2
        rw [List.range_succ, List.reverse_append]
        simp only [List.reverse_cons, List.reverse_nil, List.nil_append, List.singleton_append]
        rw [List.filter_cons_of_neg (by simp; omega)]
        have h1 : ((List.range i).reverse.filter fun a => i + 1 ≤ f a) =
            (((List.range i).reverse.filter fun a => i ≤ f a).filter fun a => i + 1 ≤ f a) := by
          rw [List.filter_filter]
          apply List.filter_congr
          intro a ha
          rw [Bool.eq_iff_iff]
          simp; omega
        rw [h1, hl, List.filter_cons_of_neg (by simp; omega)]
        symm
        rw [List.filter_eq_self]
        intro a ha
        have hal : a ∈ ((List.range i).reverse.filter fun a => i ≤ f a) := by rw [hl]; simp [ha]
        have hal' : a < i ∧ i ≤ f a := by simpa using hal
        have := hs.1 a ha
        have : f a ≠ i := fun e => by
          have := hinv a (by omega)
          rw [e] at this; omega
        simp; omega
      · intro a h1 h2
        by_contra hc
        have : a ∈ a0 :: l := by rw [← hl]; simp; omega
        rcases List.mem_cons.1 this with e | hm
        · omega
        · have := hs.1 a hm; omega
    · refine ⟨0, Or.inr ⟨f a0, l.map f, rfl, he, a0, ?_, ha0.1, by omega⟩⟩
      rcases List.mem_cons.1 hmem with e | hm
      · exact absurd (by rw [← e, hinv i hi]) he
      · exact hs.1 _ hm

/-- No arc that closes at `k` or later is crossed by an arc open at that moment. -/
def GoodFrom (f : Nat → Nat) (N i : Nat) : Prop := ∀ k, i ≤ k → k < N → f k < k → ∀ a, f k < a → a < k → f a < k

theorem stackLoop_spec (s : List Nat) (hlt : ∀ a, a < s.length → at_ s a < s.length)
    (hne : ∀ a, a < s.length → at_ s a ≠ a) (hinv : ∀ a, a < s.length → at_ s (at_ s a) = a) (m i : Nat)
    (hm : i + m = s.length) :
    ∃ b, stackLoop (s.map Int.ofNat) (List.range' i m) ((openStack (at_ s) i).map Int.ofNat) = .ok b ∧
      (b = true ↔ GoodFrom (at_ s) s.length i) := by
  induction m generalizing i with
  | zero =>
    refine ⟨true, by simp [stackLoop], by simp only [true_iff]; intro k h1 h2; omega⟩
  | succ m ih =>
    have hi : i < s.length := by omega
    obtain ⟨b, hb, hb2⟩ := ih (i + 1) (by omega)
    rw [List.range'_succ, stackLoop.eq_def]
    dsimp only
    rw [lookup_map s i hi]
    change ∃ b, (if (i : Int) < (at_ s i : Int) then _ else _) = _ ∧ _
    by_cases hlt' : i < at_ s i
    · rw [if_pos (by exact_mod_cast hlt')]
      rw [openStack_push hinv hi hlt', List.map_cons] at hb
      refine ⟨b, hb, hb2.trans ⟨fun h k h1 h2 h3 => ?_, fun h k h1 => h k (by omega)⟩⟩
      rcases Nat.eq_or_lt_of_le h1 with e | h1
      · subst e; omega
      · exact h k h1 h2 h3
    · rw [if_neg (by exact_mod_cast hlt')]
      have hlt2 : at_ s i < i := by have := hne i hi; omega
      obtain ⟨x, hx⟩ := openStack_pop hinv hi hlt2
      rcases hx with ⟨hx, rfl, hg⟩ | ⟨y, l, hx, hne', a, h1, h2, h3⟩
      · rw [hx, List.map_cons]
        simp only [Int.ofNat_eq_natCast, ne_eq, not_true_eq_false, if_false]
        refine ⟨b, hb, hb2.trans ⟨fun h k h1 h2 h3 => ?_, fun h k h1 => h k (by omega)⟩⟩
        rcases Nat.eq_or_lt_of_le h1 with e | h1
        · rw [← e]; exact hg
        · exact h k h1 h2 h3
      · rw [hx, List.map_cons]
        refine ⟨false, ?_, ?_⟩
        · simp only [Int.ofNat_eq_natCast]
          rw [if_pos (by exact_mod_cast hne')]
        · simp only [Bool.false_eq_true, false_iff]
          intro hg
          have := hg i (le_refl _) hi hlt2 a h1 h2
          omega

theorem good_iff {f : Nat → Nat} {N : Nat} (hlt : ∀ a, a < N → f a < N) (hne : ∀ a, a < N → f a ≠ a)
    (hinv : ∀ a, a < N → f (f a) = a) : GoodFrom f N 0 ↔ NCMatching N f := by
  constructor
  · refine fun h => ⟨hlt, hne, hinv, fun a b ha hb h1 h2 h3 => ?_⟩
    have := h (f a) (by omega) (hlt a ha) (by rw [hinv a ha]; omega) b (by rw [hinv a ha]; omega) h2
    omega
  · intro h k _ hk h1 a h2 h3
    by_contra hc
    have h4 : f a ≠ k := fun e => by have := hinv a (by omega); rw [e] at this; omega
    exact h.noncross (f k) a (hlt k hk) (by omega) h2 (by rw [hinv k hk]; exact h3) (by rw [hinv k hk]; omega)

open Classical in
theorem pointOk_spec (s : List Int) (i : Nat) (hi : i < s.length) :
    pointOk s i = .ok (decide (0 ≤ s.getD i 0 ∧ s.getD i 0 < s.length ∧ s.getD i 0 ≠ i ∧ s.getD (s.getD i 0).toNat 0 = i)) := by
  unfold pointOk
  rw [lookup_lt s i hi]
  have e : s.getD i 0 = s[i] := by simp [List.getD_eq_getElem?_getD, List.getElem?_eq_getElem hi]
  rw [e]
  change (if _ then _ else _) = _
  split
  · rename_i h
    symm; congr 1
    simp only [decide_eq_false_iff_not]
    tauto
  · rename_i h
    rw [not_not] at h
    have hl : s[i].toNat < s.length := by omega
    rw [lookup_lt s _ hl]
    have e2 : s.getD s[i].toNat 0 = s[s[i].toNat] := by simp [List.getD_eq_getElem?_getD, List.getElem?_eq_getElem hl]
    rw [e2]
    change Except.ok _ = Except.ok _
    congr 1
    rw [Bool.eq_iff_iff]
    simp only [beq_iff_eq, decide_eq_true_eq]
    tauto

theorem isCrossinglessMatching_spec (s : List Int) :
    ∃ b, isCrossinglessMatching s = .ok b ∧ (b = true ↔ ∃ t : List Nat, s = t.map Int.ofNat ∧ Crossingless t) := by
  classical
  unfold isCrossinglessMatching
  rw [allM_ok (pointOk s) (fun i => 0 ≤ s.getD i 0 ∧ s.getD i 0 < s.length ∧ s.getD i 0 ≠ i ∧ s.getD (s.getD i 0).toNat 0 = i)
    (List.range s.length) fun i hi => by rw [pointOk_spec s i (by simpa using hi)]]
  by_cases h : ∀ i ∈ List.range s.length, 0 ≤ s.getD i 0 ∧ s.getD i 0 < s.length ∧ s.getD i 0 ≠ i ∧ s.getD (s.getD i 0).toNat 0 = i
  · rw [decide_eq_true h]
    change ∃ b, stackLoop s (List.range s.length) [] = .ok b ∧ _
    have hs : s = (s.map Int.toNat).map Int.ofNat := by
      rw [List.map_map]
      refine (List.map_id s).symm.trans (List.map_congr_left fun x hx => ?_)
      obtain ⟨i, hi, rfl⟩ := List.getElem_of_mem hx
      have := (h i (by simpa using hi)).1
      simp only [List.getD_eq_getElem?_getD, List.getElem?_eq_getElem hi, Option.getD_some] at this
      simp [this]
    generalize s.map Int.toNat = t at hs
    subst hs
    have hat : ∀ i, (t.map Int.ofNat).getD i 0 = (at_ t i : Int) := by
      intro i
      by_cases hi : i < t.length
      · simp [at_, List.getD_eq_getElem?_getD, hi]
      · simp [at_, List.getD_eq_getElem?_getD, List.getElem?_eq_none (Nat.le_of_not_lt hi)]
    simp only [hat, List.length_map, List.mem_range, Int.toNat_natCast] at h
    have hlt : ∀ a, a < t.length → at_ t a < t.length := fun a ha => by exact_mod_cast (h a ha).2.1
    have hne : ∀ a, a < t.length → at_ t a ≠ a := fun a ha => by exact_mod_cast (h a ha).2.2.1
    have hinv : ∀ a, a < t.length → at_ t (at_ t a) = a := fun a ha => by exact_mod_cast (h a ha).2.2.2
    obtain ⟨b, hb, hb2⟩ := stackLoop_spec t hlt hne hinv t.length 0 (by omega)
    rw [List.range_eq_range', List.length_map]
    refine ⟨b, hb, hb2.trans ((good_iff hlt hne hinv).trans ⟨fun hc => ⟨t, rfl, hc⟩, ?_⟩)⟩
    rintro ⟨t', e, hc⟩
    have : t = t' := List.map_injective_iff.2 (fun a b e => by simpa using e) e
    rw [this]; exact hc
  · rw [decide_eq_false h]
    refine ⟨false, rfl, ?_⟩
    simp only [Bool.false_eq_true, false_iff]
    rintro ⟨t, rfl, hc⟩
    apply h
    intro i hi
    have hi' : i < t.length := by simpa using hi
    have hat : ∀ i, (t.map Int.ofNat).getD i 0 = (at_ t i : Int) := by
      intro i
      by_cases hi : i < t.length
      · simp [at_, List.getD_eq_getElem?_getD, hi]
      · simp [at_, List.getD_eq_getElem?_getD, List.getElem?_eq_none (Nat.le_of_not_lt hi)]
    rw [hat, Int.toNat_natCast, hat, List.length_map]
    have := hc.lt i hi'; have := hc.nofix i hi'; have := hc.invol i hi'
    omega

open Classical in
theorem isCM_spec (s : List Nat) : isCM s = .ok (decide (Crossingless s)) := by
  obtain ⟨b, hb, hb2⟩ := isCrossinglessMatching_spec (s.map Int.ofNat)
  unfold isCM
  rw [hb]; congr 1
  rw [Bool.eq_iff_iff, hb2, decide_eq_true_eq]
  constructor
  · rintro ⟨t, e, hc⟩
    have : s = t := List.map_injective_iff.2 (fun a b e => by simpa using e) e
    rw [this]; exact hc
  · exact fun h => ⟨s, rfl, h⟩

theorem isCM_true {s : List Nat} (h : Crossingless s) : isCM s = .ok true := by
  classical rw [isCM_spec, decide_eq_true h]

end TL
end Peyl
