import Verif.Lemmas.TLMatch
import Mathlib.Combinatorics.Enumerative.Catalan.Basic
import Mathlib.Data.ZMod.Basic
/-!
# `generate_sequences` enumerates the crossingless matchings
-/
namespace Peyl
namespace TL

/-- The arcs placed by `place_trees`, in the order of the enumeration. -/
def conf (i size : Nat) : List (List (Nat × Nat)) :=
  match size with
  | 0 => [[]]
  | s + 1 => (List.finRange (s + 1)).flatMap fun left => (conf (i + 1) left.1).flatMap fun A =>
      (conf (i + 2 + 2 * left.1) (s - left.1)).map fun B => (i, i + 1 + 2 * left.1) :: (A ++ B)
termination_by size

theorem conf_zero (i : Nat) : conf i 0 = [[]] := by rw [conf]
theorem conf_succ (i s : Nat) : conf i (s + 1) = (List.finRange (s + 1)).flatMap fun left => (conf (i + 1) left.1).flatMap fun A =>
      (conf (i + 2 + 2 * left.1) (s - left.1)).map fun B => (i, i + 1 + 2 * left.1) :: (A ++ B) := by rw [conf]

theorem mem_conf_succ {i s : Nat} {C : List (Nat × Nat)} : C ∈ conf i (s + 1) ↔ ∃ left, left ≤ s ∧ ∃ A ∈ conf (i + 1) left,
    ∃ B ∈ conf (i + 2 + 2 * left) (s - left), C = (i, i + 1 + 2 * left) :: (A ++ B) := by
  rw [conf_succ]
  simp only [List.mem_flatMap, List.mem_finRange, true_and, List.mem_map]
  constructor
  · rintro ⟨left, A, hA, B, hB, rfl⟩
    exact ⟨left.1, by omega, A, hA, B, hB, rfl⟩
  · rintro ⟨left, hl, A, hA, B, hB, rfl⟩
    exact ⟨⟨left, by omega⟩, A, hA, B, hB, rfl⟩

theorem length_of_mem_conf (s : Nat) : ∀ (i : Nat) (C : List (Nat × Nat)), C ∈ conf i s → C.length = s := by
  induction s using Nat.strong_induction_on with
  | _ s ih =>
    intro i C hC
    cases s with
    | zero => rw [conf_zero] at hC; simp at hC; simp [hC]
    | succ s =>
      obtain ⟨left, hl, A, hA, B, hB, rfl⟩ := mem_conf_succ.1 hC
      rw [List.length_cons, List.length_append, ih left (by omega) _ _ hA, ih (s - left) (by omega) _ _ hB]
      omega

theorem conf_length (s : Nat) : ∀ i, (conf i s).length = catalan s := by
  induction s using Nat.strong_induction_on with
  | _ s ih =>
    intro i
    cases s with
    | zero => rw [conf_zero]; simp
    | succ s =>
      rw [conf_succ, catalan_succ, List.length_flatMap]
      rw [← List.ofFn_eq_map, List.sum_ofFn]
      refine Finset.sum_congr rfl fun left _ => ?_
      rw [List.length_flatMap]
      simp only [List.length_map, List.map_const', List.sum_replicate, smul_eq_mul]
      rw [ih left.1 left.2, ih (s - left.1) (by omega)]

theorem conf_nodup (s : Nat) : ∀ i, (conf i s).Nodup := by
  induction s using Nat.strong_induction_on with
  | _ s ih =>
    intro i
    cases s with
    | zero => rw [conf_zero]; simp
    | succ s =>
      rw [conf_succ, List.nodup_flatMap]
      refine ⟨fun left _ => ?_, ?_⟩
      · rw [List.nodup_flatMap]
        refine ⟨fun A hA => ?_, ?_⟩
        · refine (ih (s - left.1) (by omega) _).map fun B B' h => ?_
          simpa using h
        · refine (ih left.1 left.2 _).imp_of_mem fun {A A'} hA hA' hne C hC hC' => ?_
          obtain ⟨B, -, rfl⟩ := List.mem_map.1 hC
          obtain ⟨B', -, e⟩ := List.mem_map.1 hC'
          injection e with _ e
          exact hne (List.append_inj_left e (by rw [length_of_mem_conf _ _ _ hA, length_of_mem_conf _ _ _ hA'])).symm
      · refine (List.nodup_finRange _).imp fun {l l'} hne C hC hC' => ?_
        simp only [List.mem_flatMap, List.mem_map] at hC hC'
        obtain ⟨A, -, B, -, rfl⟩ := hC
        obtain ⟨A', -, B', -, e⟩ := hC'
        injection e with e _
        injection e with _ e
        exact hne (Fin.ext (by omega))

/-- `f` realises the arcs. -/
def Agree (C : List (Nat × Nat)) (f : Nat → Nat) : Prop := ∀ ab ∈ C, f ab.1 = ab.2 ∧ f ab.2 = ab.1

/-- A crossingless matching of the points `i, …, i + 2s - 1`. -/
structure Matches (f : Nat → Nat) (i s : Nat) : Prop where
  mem : ∀ x, i ≤ x → x < i + 2 * s → i ≤ f x ∧ f x < i + 2 * s
  nofix : ∀ x, i ≤ x → x < i + 2 * s → f x ≠ x
  invol : ∀ x, i ≤ x → x < i + 2 * s → f (f x) = x
  noncross : ∀ a b, i ≤ a → b < i + 2 * s → a < b → b < f a → f a < f b → False

theorem agree_matches (s : Nat) : ∀ (i : Nat) (C : List (Nat × Nat)) (f : Nat → Nat), C ∈ conf i s → Agree C f → Matches f i s := by
  induction s using Nat.strong_induction_on with
  | _ s ih =>
    intro i C f hC hf
    cases s with
    | zero => exact ⟨fun x _ _ => by omega, fun x _ _ => by omega, fun x _ _ => by omega, fun a b _ _ _ => by omega⟩
    | succ s =>
      obtain ⟨left, hl, A, hA, B, hB, rfl⟩ := mem_conf_succ.1 hC
      have h0 := hf (i, i + 1 + 2 * left) (List.mem_cons_self ..)
      dsimp only at h0
      have hA' := ih left (by omega) _ _ f hA fun ab h => hf ab (by simp [h])
      have hB' := ih (s - left) (by omega) _ _ f hB fun ab h => hf ab (by simp [h])
      have cases : ∀ x, i ≤ x → x < i + 2 * (s + 1) → x = i ∨ x = i + 1 + 2 * left ∨ (i + 1 ≤ x ∧ x < i + 1 + 2 * left) ∨
          (i + 2 + 2 * left ≤ x ∧ x < i + 2 + 2 * left + 2 * (s - left)) := fun x _ _ => by omega
      refine ⟨fun x h1 h2 => ?_, fun x h1 h2 => ?_, fun x h1 h2 => ?_, fun a b h1 h2 h3 h4 h5 => ?_⟩
      · rcases cases x h1 h2 with rfl | rfl | h | h
        · rw [h0.1]; omega
        · rw [h0.2]; omega
        · have := hA'.mem x h.1 h.2; omega
        · have := hB'.mem x h.1 h.2; omega
      · rcases cases x h1 h2 with rfl | rfl | h | h
        · rw [h0.1]; omega
        · rw [h0.2]; omega
        · exact hA'.nofix x h.1 h.2
        · exact hB'.nofix x h.1 h.2
      · rcases cases x h1 h2 with rfl | rfl | h | h
        · rw [h0.1, h0.2]
        · rw [h0.2, h0.1]
        · exact hA'.invol x h.1 h.2
        · exact hB'.invol x h.1 h.2
      · rcases cases a h1 (by omega) with e | e | h | h <;> rcases cases b (by omega) h2 with e' | e' | h' | h'
        · omega
        · subst e; subst e'; omega
        · subst e; have := hA'.mem b h'.1 h'.2; omega
        · subst e; omega
        · omega
        · omega
        · omega
        · subst e; omega
        · omega
        · have := hA'.mem a h.1 h.2; omega
        · exact hA'.noncross a b h.1 h'.2 h3 h4 h5
        · have := hA'.mem a h.1 h.2; omega
        · omega
        · omega
        · omega
        · exact hB'.noncross a b h.1 h'.2 h3 h4 h5

theorem even_of_matching (f : Nat → Nat) (a b : Nat) (h1 : ∀ x, a ≤ x → x < b → a ≤ f x ∧ f x < b) (h2 : ∀ x, a ≤ x → x < b → f x ≠ x)
    (h3 : ∀ x, a ≤ x → x < b → f (f x) = x) : 2 ∣ b - a := by
  have : ∑ _x ∈ Finset.Ico a b, (1 : ZMod 2) = 0 := by
    refine Finset.sum_involution (fun x _ => f x) (fun _ _ => by decide) (fun x hx _ => ?_) (fun x hx => ?_) (fun x hx => ?_)
    · have := Finset.mem_Ico.1 hx; exact h2 x this.1 this.2
    · have := Finset.mem_Ico.1 hx; exact Finset.mem_Ico.2 (h1 x this.1 this.2)
    · have := Finset.mem_Ico.1 hx; exact h3 x this.1 this.2
  rw [Finset.sum_const, Nat.card_Ico, nsmul_one] at this
  exact (ZMod.natCast_eq_zero_iff _ _).1 this

theorem exists_agree (s : Nat) : ∀ (i : Nat) (f : Nat → Nat), Matches f i s → ∃ C ∈ conf i s, Agree C f := by
  induction s using Nat.strong_induction_on with
  | _ s ih =>
    intro i f hf
    cases s with
    | zero => exact ⟨[], by rw [conf_zero]; simp, fun ab h => by simp at h⟩
    | succ s =>
      have m0 := hf.mem i le_rfl (by omega)
      have n0 := hf.nofix i le_rfl (by omega)
      have v0 := hf.invol i le_rfl (by omega)
      have inside : ∀ x, i + 1 ≤ x → x < f i → i + 1 ≤ f x ∧ f x < f i := by
        intro x h1 h2
        have m := hf.mem x (by omega) (by omega)
        have v := hf.invol x (by omega) (by omega)
        have q1 : f x ≠ i := fun e => by rw [e] at v; omega
        have q2 : f x ≠ f i := fun e => by rw [e, v0] at v; omega
        by_contra hcon
        exact hf.noncross i x le_rfl (by omega) (by omega) h2 (by omega)
      obtain ⟨left, hleft⟩ := even_of_matching f (i + 1) (f i) inside (fun x h1 h2 => hf.nofix x (by omega) (by omega)) (fun x h1 h2 => hf.invol x (by omega) (by omega))
      have e : f i = i + 1 + 2 * left := by omega
      have outside : ∀ x, f i + 1 ≤ x → x < i + 2 * (s + 1) → f i + 1 ≤ f x := by
        intro x h1 h2
        have m := hf.mem x (by omega) (by omega)
        have v := hf.invol x (by omega) (by omega)
        have q1 : f x ≠ i := fun e => by rw [e] at v; omega
        have q2 : f x ≠ f i := fun e => by rw [e, v0] at v; omega
        by_contra hcon
        have := inside (f x) (by omega) (by omega)
        omega
      obtain ⟨A, hA, hA'⟩ := ih left (by omega) (i + 1) f ⟨fun x h1 h2 => by have := inside x h1 (by omega); omega,
        fun x h1 h2 => hf.nofix x (by omega) (by omega), fun x h1 h2 => hf.invol x (by omega) (by omega),
        fun a b h1 h2 => hf.noncross a b (by omega) (by omega)⟩
      obtain ⟨B, hB, hB'⟩ := ih (s - left) (by omega) (i + 2 + 2 * left) f ⟨fun x h1 h2 => by
          have := outside x (by omega) (by omega); have := hf.mem x (by omega) (by omega); omega,
        fun x h1 h2 => hf.nofix x (by omega) (by omega), fun x h1 h2 => hf.invol x (by omega) (by omega),
        fun a b h1 h2 => hf.noncross a b (by omega) (by omega)⟩
      refine ⟨_, mem_conf_succ.2 ⟨left, by omega, A, hA, B, hB, rfl⟩, fun ab hab => ?_⟩
      rcases List.mem_cons.1 hab with rfl | hab
      · exact ⟨e, by rw [← e]; exact v0⟩
      · rcases List.mem_append.1 hab with h | h
        · exact hA' ab h
        · exact hB' ab h

theorem agree_unique (s : Nat) : ∀ (i : Nat) (C C' : List (Nat × Nat)) (f : Nat → Nat), C ∈ conf i s → C' ∈ conf i s → Agree C f → Agree C' f → C = C' := by
  induction s using Nat.strong_induction_on with
  | _ s ih =>
    intro i C C' f hC hC' hf hf'
    cases s with
    | zero => rw [conf_zero, List.mem_singleton] at hC hC'; rw [hC, hC']
    | succ s =>
      obtain ⟨left, hl, A, hA, B, hB, rfl⟩ := mem_conf_succ.1 hC
      obtain ⟨left', hl', A', hA', B', hB', rfl⟩ := mem_conf_succ.1 hC'
      have e1 := (hf _ (List.mem_cons_self ..)).1
      have e2 := (hf' _ (List.mem_cons_self ..)).1
      dsimp only at e1 e2
      have : left = left' := by omega
      subst this
      rw [ih left (by omega) _ A A' f hA hA' (fun ab h => hf ab (by simp [h])) (fun ab h => hf' ab (by simp [h])),
        ih (s - left) (by omega) _ B B' f hB hB' (fun ab h => hf ab (by simp [h])) (fun ab h => hf' ab (by simp [h]))]

/-- The arcs determine the matching. -/
theorem agree_eq (s : Nat) : ∀ (i : Nat) (C : List (Nat × Nat)) (f g : Nat → Nat), C ∈ conf i s → Agree C f → Agree C g →
    ∀ x, i ≤ x → x < i + 2 * s → f x = g x := by
  induction s using Nat.strong_induction_on with
  | _ s ih =>
    intro i C f g hC hf hg x h1 h2
    cases s with
    | zero => omega
    | succ s =>
      obtain ⟨left, hl, A, hA, B, hB, rfl⟩ := mem_conf_succ.1 hC
      have e1 := hf _ (List.mem_cons_self ..)
      have e2 := hg _ (List.mem_cons_self ..)
      dsimp only at e1 e2
      have : x = i ∨ x = i + 1 + 2 * left ∨ (i + 1 ≤ x ∧ x < i + 1 + 2 * left) ∨ (i + 2 + 2 * left ≤ x ∧ x < i + 2 + 2 * left + 2 * (s - left)) := by omega
      rcases this with rfl | rfl | h | h
      · rw [e1.1, e2.1]
      · rw [e1.2, e2.2]
      · exact ih left (by omega) _ A f g hA (fun ab h => hf ab (by simp [h])) (fun ab h => hg ab (by simp [h])) x h.1 h.2
      · exact ih (s - left) (by omega) _ B f g hB (fun ab h => hf ab (by simp [h])) (fun ab h => hg ab (by simp [h])) x h.1 h.2

/-- Write arcs into a list. -/
def write : List (Nat × Nat) → List Nat → List Nat
  | [], q => q
  | ab :: C, q => write C ((q.set ab.1 ab.2).set ab.2 ab.1)

theorem write_append (A B : List (Nat × Nat)) (q : List Nat) : write (A ++ B) q = write B (write A q) := by
  induction A generalizing q with
  | nil => rfl
  | cons a A ih => rw [List.cons_append, write, write, ih]

theorem write_length (C : List (Nat × Nat)) (q : List Nat) : (write C q).length = q.length := by
  induction C generalizing q with
  | nil => rfl
  | cons a C ih => rw [write, ih]; simp

theorem at_set (q : List Nat) (a b x : Nat) : at_ (q.set a b) x = if x = a ∧ a < q.length then b else at_ q x := by
  unfold at_
  simp only [List.getD_eq_getElem?_getD, List.getElem?_set]
  by_cases h : a = x
  · subst h
    by_cases h' : a < q.length
    · simp [h']
    · simp [h']
  · rw [if_neg h, if_neg (by tauto)]

theorem mem_conf_range (s : Nat) : ∀ (i : Nat) (C : List (Nat × Nat)), C ∈ conf i s → ∀ ab ∈ C, i ≤ ab.1 ∧ ab.1 < ab.2 ∧ ab.2 < i + 2 * s := by
  induction s using Nat.strong_induction_on with
  | _ s ih =>
    intro i C hC ab hab
    cases s with
    | zero => rw [conf_zero, List.mem_singleton] at hC; subst hC; cases hab
    | succ s =>
      obtain ⟨left, hl, A, hA, B, hB, rfl⟩ := mem_conf_succ.1 hC
      rcases List.mem_cons.1 hab with rfl | hab
      · dsimp only; omega
      · rcases List.mem_append.1 hab with h | h
        · have := ih left (by omega) _ _ hA ab h; omega
        · have := ih (s - left) (by omega) _ _ hB ab h; omega

theorem write_frame (C : List (Nat × Nat)) (q : List Nat) (x : Nat) (h : ∀ ab ∈ C, x ≠ ab.1 ∧ x ≠ ab.2) : at_ (write C q) x = at_ q x := by
  induction C generalizing q with
  | nil => rfl
  | cons a C ih =>
    rw [write, ih _ fun ab hab => h ab (List.mem_cons_of_mem _ hab), at_set, at_set, if_neg (fun e => (h a (List.mem_cons_self ..)).2 e.1),
      if_neg (fun e => (h a (List.mem_cons_self ..)).1 e.1)]

theorem write_agree (s : Nat) : ∀ (i : Nat) (C : List (Nat × Nat)) (q : List Nat), C ∈ conf i s → i + 2 * s ≤ q.length → Agree C (at_ (write C q)) := by
  induction s using Nat.strong_induction_on with
  | _ s ih =>
    intro i C q hC hq
    cases s with
    | zero => rw [conf_zero, List.mem_singleton] at hC; subst hC; intro ab hab; cases hab
    | succ s =>
      obtain ⟨left, hl, A, hA, B, hB, rfl⟩ := mem_conf_succ.1 hC
      have rA := mem_conf_range _ _ _ hA
      have rB := mem_conf_range _ _ _ hB
      intro ab hab
      rw [write, write_append]
      rcases List.mem_cons.1 hab with rfl | hab
      · dsimp only
        constructor
        · rw [write_frame B _ _ (fun ab hab => by have := rB ab hab; omega), write_frame A _ _ (fun ab hab => by have := rA ab hab; omega),
            at_set, at_set, if_neg (by omega), if_pos (by omega)]
        · rw [write_frame B _ _ (fun ab hab => by have := rB ab hab; omega), write_frame A _ _ (fun ab hab => by have := rA ab hab; omega),
            at_set, if_pos (by simp; omega)]
      · rcases List.mem_append.1 hab with h | h
        · have r := rA ab h
          rw [write_frame B _ _ (fun ab hab => by have := rB ab hab; omega), write_frame B _ _ (fun ab hab => by have := rB ab hab; omega)]
          exact ih left (by omega) _ A _ hA (by simp; omega) ab h
        · exact ih (s - left) (by omega) _ B _ hB (by simp [write_length]; omega) ab h

/-- What `place_trees` does for a consumer that yields `Y seq` and keeps the positions in `P`. -/
theorem placeTrees_spec (N : Nat) (size : Nat) : ∀ (i : Nat) (body : List Nat × List (List Nat) → List Nat × List (List Nat)) (P : Nat → Prop)
    (Y : List Nat → List (List Nat)), i + 2 * size ≤ N → (∀ x, i ≤ x → x < i + 2 * size → P x) →
    (∀ st, st.1.length = N → (body st).1.length = N ∧ (∀ x, P x → at_ (body st).1 x = at_ st.1 x) ∧ (body st).2 = st.2 ++ Y st.1) →
    (∀ s s', s.length = N → s'.length = N → (∀ x, P x → at_ s x = at_ s' x) → Y s = Y s') →
    ∀ st, st.1.length = N → (placeTrees i size body st).1.length = N ∧
      (∀ x, P x → ¬ (i ≤ x ∧ x < i + 2 * size) → at_ (placeTrees i size body st).1 x = at_ st.1 x) ∧
      (placeTrees i size body st).2 = st.2 ++ (conf i size).flatMap fun C => Y (write C st.1) := by
  induction size using Nat.strong_induction_on with
  | _ size ih =>
    intro i body P Y hN hP hbody hY st hst
    cases size with
    | zero =>
      obtain ⟨h1, h2, h3⟩ := hbody st hst
      rw [placeTrees]
      simp only [if_true, List.finRange_zero, List.foldl_nil, conf_zero, List.flatMap_cons, List.flatMap_nil, List.append_nil, write]
      exact ⟨h1, fun x hx _ => h2 x hx, h3⟩
    | succ s =>
      rw [placeTrees]
      simp only [Nat.succ_ne_zero, Nat.add_eq_zero_iff, Nat.one_ne_zero, and_false, if_false]
      -- the yields of one round
      set Z : Fin (s + 1) → List Nat → List (List Nat) := fun left q => (conf (i + 1) left.1).flatMap fun A =>
        (conf (i + 2 + 2 * left.1) (s - left.1)).flatMap fun B => Y (write ((i, i + 1 + 2 * left.1) :: (A ++ B)) q) with hZ
      set P' : Nat → Prop := fun x => P x ∧ ¬ (i ≤ x ∧ x < i + 2 * (s + 1)) with hP'
      have round : ∀ (left : Fin (s + 1)) (st : List Nat × List (List Nat)), st.1.length = N →
          (placeTrees (i + 1) left.1 (fun st => placeTrees (i + 1 + 2 * left.1 + 1) (s + 1 - left.1 - 1) body st)
            ((st.1.set i (i + 1 + 2 * left.1)).set (i + 1 + 2 * left.1) i, st.2)).1.length = N ∧
          (∀ x, P' x → at_ (placeTrees (i + 1) left.1 (fun st => placeTrees (i + 1 + 2 * left.1 + 1) (s + 1 - left.1 - 1) body st)
            ((st.1.set i (i + 1 + 2 * left.1)).set (i + 1 + 2 * left.1) i, st.2)).1 x = at_ st.1 x) ∧
          (placeTrees (i + 1) left.1 (fun st => placeTrees (i + 1 + 2 * left.1 + 1) (s + 1 - left.1 - 1) body st)
            ((st.1.set i (i + 1 + 2 * left.1)).set (i + 1 + 2 * left.1) i, st.2)).2 = st.2 ++ Z left st.1 := by
        intro left st hst
        have hl := left.2
        have e1 : i + 1 + 2 * left.1 + 1 = i + 2 + 2 * left.1 := by omega
        have e2 : s + 1 - left.1 - 1 = s - left.1 := by omega
        rw [e1, e2]
        have right := ih (s - left.1) (by omega) (i + 2 + 2 * left.1) body P Y (by omega) (fun x _ _ => hP x (by omega) (by omega)) hbody hY
        have lft := ih left.1 (by omega) (i + 1) (fun st => placeTrees (i + 2 + 2 * left.1) (s - left.1) body st)
          (fun x => P x ∧ ¬ (i + 2 + 2 * left.1 ≤ x ∧ x < i + 2 + 2 * left.1 + 2 * (s - left.1)))
          (fun q => (conf (i + 2 + 2 * left.1) (s - left.1)).flatMap fun B => Y (write B q)) (by omega)
          (fun x _ _ => ⟨hP x (by omega) (by omega), by omega⟩)
          (fun st hst => by
            obtain ⟨r1, r2, r3⟩ := right st hst
            exact ⟨r1, fun x hx => r2 x hx.1 hx.2, r3⟩)
          (fun q q' hq hq' hqq => by
            refine List.flatMap_congr fun B hB => ?_
            refine hY _ _ (by rw [write_length, hq]) (by rw [write_length, hq']) fun x hx => ?_
            by_cases hr : i + 2 + 2 * left.1 ≤ x ∧ x < i + 2 + 2 * left.1 + 2 * (s - left.1)
            · exact agree_eq _ _ B _ _ hB (write_agree _ _ B q hB (by omega)) (write_agree _ _ B q' hB (by omega)) x hr.1 hr.2
            · have rB := mem_conf_range _ _ _ hB
              rw [write_frame B _ _ (fun ab hab => by have := rB ab hab; omega), write_frame B _ _ (fun ab hab => by have := rB ab hab; omega)]
              exact hqq x ⟨hx, hr⟩)
          ((st.1.set i (i + 1 + 2 * left.1)).set (i + 1 + 2 * left.1) i, st.2) (by simpa using hst)
        obtain ⟨l1, l2, l3⟩ := lft
        refine ⟨l1, fun x hx => ?_, ?_⟩
        · have h1 := hx.2
          rw [l2 x ⟨hx.1, by omega⟩ (by omega)]
          dsimp only
          rw [at_set, at_set, if_neg (by omega), if_neg (by omega)]
        · rw [l3]
          congr 1
          refine List.flatMap_congr fun A _ => List.flatMap_congr fun B _ => ?_
          rw [write, write_append]
      have hZdep : ∀ left q q', q.length = N → q'.length = N → (∀ x, P' x → at_ q x = at_ q' x) → Z left q = Z left q' := by
        intro left q q' hq hq' hqq
        refine List.flatMap_congr fun A hA => List.flatMap_congr fun B hB => ?_
        have hC : (i, i + 1 + 2 * left.1) :: (A ++ B) ∈ conf i (s + 1) := mem_conf_succ.2 ⟨left.1, by omega, A, hA, B, hB, rfl⟩
        refine hY _ _ (by rw [write_length, hq]) (by rw [write_length, hq']) fun x hx => ?_
        by_cases hr : i ≤ x ∧ x < i + 2 * (s + 1)
        · exact agree_eq _ _ _ _ _ hC (write_agree _ _ _ q hC (by omega)) (write_agree _ _ _ q' hC (by omega)) x hr.1 hr.2
        · have rC := mem_conf_range _ _ _ hC
          rw [write_frame _ _ _ (fun ab hab => by have := rC ab hab; omega), write_frame _ _ _ (fun ab hab => by have := rC ab hab; omega)]
          exact hqq x ⟨hx, hr⟩
      have fold : ∀ (ls : List (Fin (s + 1))) (st' : List Nat × List (List Nat)), st'.1.length = N → (∀ x, P' x → at_ st'.1 x = at_ st.1 x) →
          (ls.foldl (fun st left => placeTrees (i + 1) left.1 (fun st => placeTrees (i + 1 + 2 * left.1 + 1) (s + 1 - left.1 - 1) body st)
            ((st.1.set i (i + 1 + 2 * left.1)).set (i + 1 + 2 * left.1) i, st.2)) st').1.length = N ∧
          (∀ x, P' x → at_ (ls.foldl (fun st left => placeTrees (i + 1) left.1 (fun st => placeTrees (i + 1 + 2 * left.1 + 1) (s + 1 - left.1 - 1) body st)
            ((st.1.set i (i + 1 + 2 * left.1)).set (i + 1 + 2 * left.1) i, st.2)) st').1 x = at_ st.1 x) ∧
          (ls.foldl (fun st left => placeTrees (i + 1) left.1 (fun st => placeTrees (i + 1 + 2 * left.1 + 1) (s + 1 - left.1 - 1) body st)
            ((st.1.set i (i + 1 + 2 * left.1)).set (i + 1 + 2 * left.1) i, st.2)) st').2 = st'.2 ++ ls.flatMap fun left => Z left st.1 := by
        intro ls
        induction ls with
        | nil => intro st' h1 h2; exact ⟨h1, h2, by simp⟩
        | cons l ls ihl =>
          intro st' h1 h2
          obtain ⟨r1, r2, r3⟩ := round l st' h1
          obtain ⟨q1, q2, q3⟩ := ihl _ r1 (fun x hx => (r2 x hx).trans (h2 x hx))
          rw [List.foldl_cons]
          refine ⟨q1, q2, ?_⟩
          rw [q3, r3, hZdep l st'.1 st.1 h1 hst h2, List.flatMap_cons, List.append_assoc]
      obtain ⟨f1, f2, f3⟩ := fold (List.finRange (s + 1)) st hst fun _ _ => rfl
      refine ⟨f1, fun x hx hr => f2 x ⟨hx, hr⟩, ?_⟩
      rw [f3, conf_succ, List.flatMap_assoc]
      congr 1
      refine List.flatMap_congr fun left _ => ?_
      rw [List.flatMap_assoc]
      refine List.flatMap_congr fun A _ => ?_
      rw [List.flatMap_map]

theorem list_ext_at {s s' : List Nat} {N : Nat} (h : s.length = N) (h' : s'.length = N) (e : ∀ x, x < N → at_ s x = at_ s' x) : s = s' := by
  apply List.ext_getElem (by omega)
  intro i h1 h2
  have := e i (by omega)
  unfold at_ at this
  simpa [h1, h2] using this

theorem generateSequences_eq (m : Nat) : generateSequences (2 * m : Nat) = .ok ((conf 0 m).map fun C => write C (List.replicate (2 * m) 0)) := by
  rw [generateSequences, if_neg]
  · have := placeTrees_spec (2 * m) m 0 (fun st => (st.1, st.2 ++ [st.1])) (fun _ => True) (fun s => [s]) (by omega) (fun _ _ _ => trivial)
      (fun st hst => ⟨hst, fun _ _ => rfl, rfl⟩) (fun s s' h h' e => by rw [list_ext_at h h' fun x _ => e x trivial])
      (List.replicate (2 * m) 0, []) (by simp)
    have e1 : (((2 * m : Nat) : Int) / 2).toNat = m := by omega
    have e2 : ((2 * m : Nat) : Int).toNat = 2 * m := by omega
    rw [e1, e2, this.2.2, List.nil_append]
    exact congrArg Except.ok List.map_eq_flatMap.symm
  · rw [Int.fmod_eq_emod_of_nonneg _ (by omega)]; omega

/-- `generate_sequences(2m)`. -/
theorem generateSequences_spec (m : Nat) : ∃ l, generateSequences (2 * m : Nat) = .ok l ∧ l.Nodup ∧ l.length = catalan m ∧
    ∀ s, s ∈ l ↔ s.length = 2 * m ∧ Crossingless s := by
  have hag : ∀ C ∈ conf 0 m, Agree C (at_ (write C (List.replicate (2 * m) 0))) := fun C hC => write_agree m 0 C _ hC (by simp)
  refine ⟨_, generateSequences_eq m, ?_, by rw [List.length_map, conf_length], fun s => ?_⟩
  · refine (List.nodup_map_iff_inj_on (conf_nodup m 0)).2 fun C hC C' hC' e => ?_
    exact agree_unique m 0 C C' _ hC hC' (hag C hC) (by rw [e]; exact hag C' hC')
  · rw [List.mem_map]
    constructor
    · rintro ⟨C, hC, rfl⟩
      have hM := agree_matches m 0 C _ hC (hag C hC)
      have hl : (write C (List.replicate (2 * m) 0)).length = 2 * m := by rw [write_length]; simp
      refine ⟨hl, ⟨fun x hx => ?_, fun x hx => ?_, fun x hx => ?_, fun a b _ hb h1 h2 h3 => ?_⟩⟩
      · have := hM.mem x (by omega) (by omega); omega
      · exact hM.nofix x (by omega) (by omega)
      · exact hM.invol x (by omega) (by omega)
      · exact hM.noncross a b (by omega) (by omega) h1 h2 h3
    · rintro ⟨hl, hs⟩
      obtain ⟨C, hC, hf⟩ := exists_agree m 0 (at_ s) ⟨fun x _ hx => by have := hs.lt x (by omega); omega, fun x _ hx => hs.nofix x (by omega),
        fun x _ hx => hs.invol x (by omega), fun a b _ hb h1 h2 h3 => hs.noncross a b (by omega) (by omega) h1 h2 h3⟩
      refine ⟨C, hC, list_ext_at (by rw [write_length]; simp) hl fun x hx => ?_⟩
      exact agree_eq m 0 C _ _ hC (hag C hC) hf x (by omega) (by omega)

end TL
end Peyl
