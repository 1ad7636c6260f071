import Mathlib.Tactic
import Mathlib.Algebra.Group.Basic
import Mathlib.Logic.Relation
import Mathlib.Data.List.Chain
/-!
# Garside germs

An abstract length function on a group with a Garside element `D`.  Everything about normal forms (existence, uniqueness,
domino rule) is proved here once, for the permutation germ and the noncrossing-partition germ alike.
-/
namespace Peyl
open Relation

/-- A group with a length function, a Garside element `D` and atoms. -/
structure Germ (W : Type) [Group W] where
  len : W → ℕ
  D : W
  atom : W → Prop
  len_eq_zero : ∀ {x}, len x = 0 ↔ x = 1
  len_mul_le : ∀ x y, len (x * y) ≤ len x + len y
  len_inv : ∀ x, len x⁻¹ = len x
  len_conj : ∀ x, len (D⁻¹ * x * D) = len x
  atom_len : ∀ {s}, atom s → len s = 1
  exists_atom : ∀ {x}, x ≠ 1 → len x + len (x⁻¹ * D) = len D → ∃ s, atom s ∧ len s + len (s⁻¹ * x) = len x
  join : ∀ {s t x}, atom s → atom t → len x + len (x⁻¹ * D) = len D →
    len s + len (s⁻¹ * x) = len x → len t + len (t⁻¹ * x) = len x →
    ∃ j, len s + len (s⁻¹ * j) = len j ∧ len t + len (t⁻¹ * j) = len j ∧
      ∀ y, len y + len (y⁻¹ * D) = len D → len s + len (s⁻¹ * y) = len y → len t + len (t⁻¹ * y) = len y →
        len j + len (j⁻¹ * y) = len y

namespace Germ
variable {W : Type} [Group W] (g : Germ W)

/-- Left divisibility in the germ. -/
def le (x y : W) : Prop := g.len x + g.len (x⁻¹ * y) = g.len y

/-- The simple elements. -/
def P (x : W) : Prop := g.le x g.D

theorem len_one : g.len 1 = 0 := g.len_eq_zero.2 rfl
theorem one_le (x : W) : g.le 1 x := by simp [le, len_one]
theorem le_refl (x : W) : g.le x x := by simp [le, len_one]
theorem le_one {x : W} (h : g.le x 1) : x = 1 := by
  have := h; unfold le at this; rw [len_one] at this; exact g.len_eq_zero.1 (by omega)
theorem P_one : g.P 1 := g.one_le _
theorem P_D : g.P g.D := g.le_refl _

theorem len_le_of (x y : W) : g.len y ≤ g.len x + g.len (x⁻¹ * y) := by
  have := g.len_mul_le x (x⁻¹ * y); simpa using this

theorem le_iff {x y : W} : g.le x y ↔ g.len x + g.len (x⁻¹ * y) ≤ g.len y :=
  ⟨fun h => h.le, fun h => le_antisymm h (g.len_le_of x y)⟩

/-- `x ≼ x s` written with the quotient. -/
theorem le_mul {x s : W} : g.le x (x * s) ↔ g.len (x * s) = g.len x + g.len s := by
  unfold le; rw [inv_mul_cancel_left]; exact eq_comm

theorem trans_aux {x y z : W} (h : g.le x y) (h' : g.le y z) :
    g.le x z ∧ g.le (x⁻¹ * y) (x⁻¹ * z) := by
  have e : (x⁻¹ * y)⁻¹ * (x⁻¹ * z) = y⁻¹ * z := by group
  have h1 := g.len_le_of x z
  have h2 := g.len_le_of (x⁻¹ * y) (x⁻¹ * z)
  unfold le at *; rw [e] at h2 ⊢; omega

theorem le_trans {x y z : W} (h : g.le x y) (h' : g.le y z) : g.le x z := (g.trans_aux h h').1
theorem div_le_div {x y z : W} (h : g.le x y) (h' : g.le y z) : g.le (x⁻¹ * y) (x⁻¹ * z) := (g.trans_aux h h').2

theorem le_antisymm' {x y : W} (h : g.le x y) (h' : g.le y x) : x = y := by
  unfold le at *
  have : g.len (x⁻¹ * y) = 0 := by omega
  have := g.len_eq_zero.1 this
  exact (inv_mul_eq_one.1 this)

/-- If `x ≼ z` and `x⁻¹ y ≼ x⁻¹ z` then `x ≼ y ≼ z`. -/
theorem of_div_le_div {x y z : W} (h : g.le x z) (h' : g.le (x⁻¹ * y) (x⁻¹ * z)) : g.le x y ∧ g.le y z := by
  have e : (x⁻¹ * y)⁻¹ * (x⁻¹ * z) = y⁻¹ * z := by group
  have h1 := g.len_le_of x y
  have h2 := g.len_le_of y z
  unfold le at *; rw [e] at h'; omega

theorem of_mul_le_mul {x y z : W} (h : g.le x (x * z)) (h' : g.le y z) : g.le x (x * y) ∧ g.le (x * y) (x * z) :=
  g.of_div_le_div h (by simpa using h')

theorem mul_le_mul {x y z : W} (h1 : g.le x (x * y)) (h2 : g.le (x * y) (x * z)) : g.le y z := by
  have := g.div_le_div h1 h2; simpa using this

theorem P_of_le {x y : W} (h : g.le x y) (hy : g.P y) : g.P x := g.le_trans h hy

/-- Right complement. -/
theorem P_rc {x : W} (h : g.P x) : g.P (x⁻¹ * g.D) := by
  have h1 := g.len_conj x
  have e : (x⁻¹ * g.D)⁻¹ * g.D = g.D⁻¹ * x * g.D := by group
  unfold P le at *; rw [e]; omega

theorem P_div {x y : W} (h : g.le x y) (hy : g.P y) : g.P (x⁻¹ * y) :=
  g.P_of_le (g.div_le_div h hy) (g.P_rc (g.P_of_le h hy))

theorem len_conj' (x : W) : g.len (g.D * x * g.D⁻¹) = g.len x := by
  have h := g.len_conj (g.D * x * g.D⁻¹)
  rw [← h]; congr 1; group

/-- Left complement. -/
theorem P_lc {x : W} (h : g.P x) : g.P (g.D * x⁻¹) := by
  have h1 := g.len_conj' x⁻¹
  have h2 := g.len_conj' (x⁻¹ * g.D)
  have h3 := g.len_inv x
  have e2 : g.D * (x⁻¹ * g.D) * g.D⁻¹ = g.D * x⁻¹ := by group
  have e3 : (g.D * x⁻¹)⁻¹ * g.D = x := by group
  rw [e2] at h2
  unfold P le at *
  rw [e3, h2]; omega

/-- Conjugation by `D`. -/
def tau (x : W) : W := g.D⁻¹ * x * g.D

theorem len_tau (x : W) : g.len (g.tau x) = g.len x := g.len_conj x
theorem tau_mul (x y : W) : g.tau (x * y) = g.tau x * g.tau y := by simp [tau, mul_assoc]
theorem tau_inv (x : W) : g.tau x⁻¹ = (g.tau x)⁻¹ := by simp [tau, mul_assoc]
theorem tau_D : g.tau g.D = g.D := by simp [tau]
theorem tau_one : g.tau 1 = 1 := by simp [tau]
theorem tau_injective : Function.Injective g.tau := fun x y h => by
  unfold tau at h; exact mul_left_cancel (mul_right_cancel h)
theorem le_tau {x y : W} : g.le (g.tau x) (g.tau y) ↔ g.le x y := by
  unfold le; rw [← tau_inv, ← tau_mul, len_tau, len_tau, len_tau]
theorem P_tau {x : W} : g.P (g.tau x) ↔ g.P x := by
  unfold P; rw [← le_tau (x := x), tau_D]
theorem rc_rc (x : W) : (x⁻¹ * g.D)⁻¹ * g.D = g.tau x := by unfold tau; group
theorem mul_tau (x : W) : g.D * g.tau x = x * g.D := by unfold tau; group

/-- `s` may be moved to the right end of the simple element `x`. -/
theorem le_rc_iff {x s : W} (hx : g.P x) : g.le s (x⁻¹ * g.D) ↔ g.le x (x * s) ∧ g.P (x * s) := by
  constructor
  · intro h
    have := g.of_mul_le_mul (x := x) (y := s) (z := x⁻¹ * g.D) (by rw [mul_inv_cancel_left]; exact hx) h
    refine ⟨this.1, ?_⟩
    have := this.2; rwa [mul_inv_cancel_left] at this
  · rintro ⟨h1, h2⟩
    have := g.div_le_div h1 h2
    simpa using this

/-! ### Moves -/

/-- One atom moves from the left end of a factor to the right end of its predecessor. -/
inductive Step : List W → List W → Prop
  | head {s x y : W} {l : List W} : g.atom s → g.le s (x⁻¹ * g.D) → g.le s y →
      Step (x :: y :: l) (x * s :: s⁻¹ * y :: l)
  | tail {x : W} {l l' : List W} : Step l l' → Step (x :: l) (x :: l')

/-- Finitely many moves. -/
abbrev Steps := ReflTransGen g.Step

/-- All factors simple. -/
def AllP (l : List W) : Prop := ∀ x ∈ l, g.P x

variable {g}

@[simp] theorem AllP_nil : g.AllP [] := by simp [AllP]
@[simp] theorem AllP_cons {x : W} {l : List W} : g.AllP (x :: l) ↔ g.P x ∧ g.AllP l := by simp [AllP]
@[simp] theorem AllP_append {l l' : List W} : g.AllP (l ++ l') ↔ g.AllP l ∧ g.AllP l' := by
  simp only [AllP, List.mem_append]
  exact ⟨fun h => ⟨fun x hx => h x (Or.inl hx), fun x hx => h x (Or.inr hx)⟩,
    fun h x hx => hx.elim (h.1 x) (h.2 x)⟩

theorem Step.allP {l l' : List W} (h : g.Step l l') (hl : g.AllP l) : g.AllP l' := by
  induction h with
  | head hs h1 h2 =>
    simp only [AllP_cons] at hl ⊢
    exact ⟨((g.le_rc_iff hl.1).1 h1).2, g.P_div h2 hl.2.1, hl.2.2⟩
  | tail _ ih => simp only [AllP_cons] at hl ⊢; exact ⟨hl.1, ih hl.2⟩

theorem Steps.allP {l l' : List W} (h : g.Steps l l') (hl : g.AllP l) : g.AllP l' := by
  induction h with
  | refl => exact hl
  | tail _ h ih => exact h.allP ih

theorem Step.length {l l' : List W} (h : g.Step l l') : l'.length = l.length := by
  induction h <;> simp_all

theorem Steps.length {l l' : List W} (h : g.Steps l l') : l'.length = l.length := by
  induction h with
  | refl => rfl
  | tail _ h ih => rw [h.length, ih]

theorem Step.append {l l' : List W} (m : List W) (h : g.Step l l') : g.Step (l ++ m) (l' ++ m) := by
  induction h with
  | head hs h1 h2 => exact .head hs h1 h2
  | tail _ ih => exact .tail ih

theorem Steps.append {l l' : List W} (m : List W) (h : g.Steps l l') : g.Steps (l ++ m) (l' ++ m) :=
  ReflTransGen.lift (r := g.Step) (p := g.Step) (· ++ m) (fun _ _ h => Step.append m h) l l' h

theorem Steps.cons {l l' : List W} (x : W) (h : g.Steps l l') : g.Steps (x :: l) (x :: l') :=
  ReflTransGen.lift (r := g.Step) (p := g.Step) (x :: ·) (fun _ _ h => Step.tail h) l l' h

theorem Steps.prepend {l l' : List W} (m : List W) (h : g.Steps l l') : g.Steps (m ++ l) (m ++ l') := by
  induction m with
  | nil => exact h
  | cons x m ih => exact ih.cons x

/-- A move of an arbitrary common divisor. -/
theorem move {m x y : W} {l : List W} (hx : g.P x) (hy : g.P y) (h1 : g.le m (x⁻¹ * g.D)) (h2 : g.le m y) :
    g.Steps (x :: y :: l) (x * m :: m⁻¹ * y :: l) := by
  induction hn : g.len m using Nat.strong_induction_on generalizing m x y with
  | _ N ih =>
    by_cases hm : m = 1
    · subst hm; simp; exact .refl
    · obtain ⟨s, hs, hsm⟩ := g.exists_atom hm (g.P_of_le h2 hy)
      have hsm : g.le s m := hsm
      have a1 := g.le_trans hsm h1
      have a2 := g.le_trans hsm h2
      have st : g.Step (x :: y :: l) (x * s :: s⁻¹ * y :: l) := .head hs a1 a2
      have := @ih (g.len (s⁻¹ * m)) (by have := g.atom_len hs; unfold le at hsm; omega) (s⁻¹ * m) (x * s)
        (s⁻¹ * y) ((g.le_rc_iff hx).1 a1).2 (g.P_div a2 hy)
        (by have := g.div_le_div hsm h1; rwa [mul_inv_rev, mul_assoc])
        (g.div_le_div hsm h2) rfl
      have e1 : x * s * (s⁻¹ * m) = x * m := by group
      have e2 : (s⁻¹ * m)⁻¹ * (s⁻¹ * y) = m⁻¹ * y := by group
      rw [e1, e2] at this
      exact ReflTransGen.head st this

/-! ### Termination -/

/-- Total length. -/
def tot (g : Germ W) (l : List W) : ℕ := (l.map g.len).sum
/-- Position-weighted length, which every move lowers. -/
def wt (g : Germ W) : List W → ℕ
  | [] => 0
  | _ :: l => g.wt l + g.tot l

theorem Step.tot_wt {l l' : List W} (h : g.Step l l') (hl : g.AllP l) : g.tot l' = g.tot l ∧ g.wt l' < g.wt l := by
  induction h with
  | head hs h1 h2 =>
    simp only [AllP_cons] at hl
    have a := (g.le_mul).1 ((g.le_rc_iff hl.1).1 h1).1
    have b := g.atom_len hs
    unfold le at h2
    simp only [tot, wt, List.map_cons, List.sum_cons]; omega
  | tail _ ih =>
    have := ih (by simp_all)
    simp only [wt]; constructor
    · simp only [tot, List.map_cons, List.sum_cons] at this ⊢; omega
    · omega

/-! ### Confluence -/

/-- Two moves out of the same list can be closed. -/
theorem local_confl {l a b : List W} (hl : g.AllP l) (ha : g.Step l a) (hb : g.Step l b) :
    ∃ c, g.Steps a c ∧ g.Steps b c := by
  induction l generalizing a b with
  | nil => cases ha
  | cons x l ih =>
    simp only [AllP_cons] at hl
    cases ha with
    | @head s _ y l0 hs s1 s2 =>
      simp only [AllP_cons] at hl
      cases hb with
      | @head t _ _ _ ht t1 t2 =>
        obtain ⟨j, j1, j2, j3⟩ := g.join hs ht hl.2.1 s2 t2
        have jx := j3 _ (g.P_rc hl.1) s1 t1
        have jy := j3 _ hl.2.1 s2 t2
        have key : ∀ {s : W}, g.le s j → g.le s (x⁻¹ * g.D) → g.le s y →
            g.Steps (x * s :: s⁻¹ * y :: l0) (x * j :: j⁻¹ * y :: l0) := by
          intro s hj h1 h2
          have := move (l := l0) ((g.le_rc_iff hl.1).1 h1).2 (g.P_div h2 hl.2.1) (m := s⁻¹ * j)
            (by have := g.div_le_div hj jx; rwa [mul_inv_rev, mul_assoc]) (g.div_le_div hj jy)
          have e1 : x * s * (s⁻¹ * j) = x * j := by group
          have e2 : (s⁻¹ * j)⁻¹ * (s⁻¹ * y) = j⁻¹ * y := by group
          rwa [e1, e2] at this
        exact ⟨_, key j1 s1 s2, key j2 t1 t2⟩
      | tail hb =>
        cases hb with
        | @head t _ z l1 ht t1 t2 =>
          simp only [AllP_cons] at hl
          have q := (g.le_rc_iff hl.2.1).1 t1
          refine ⟨x * s :: s⁻¹ * (y * t) :: t⁻¹ * z :: l1, ?_, ?_⟩
          · have : g.Step (x * s :: s⁻¹ * y :: z :: l1) (x * s :: s⁻¹ * y * t :: t⁻¹ * z :: l1) := by
              refine .tail (.head ht ?_ t2)
              rw [g.le_rc_iff (g.P_div s2 hl.2.1)]
              have h1 := g.div_le_div s2 q.1
              have h2 := g.P_div (g.le_trans s2 q.1) q.2
              rw [mul_assoc]; exact ⟨h1, h2⟩
            rw [mul_assoc] at this; exact .single this
          · exact .single (.head hs s1 (g.le_trans s2 q.1))
        | @tail _ _ l1 hb =>
          exact ⟨x * s :: s⁻¹ * y :: l1, .single (.tail (.tail hb)), .single (.head hs s1 s2)⟩
    | @tail _ _ a ha =>
      cases hb with
      | @head t _ y l0 ht t1 t2 =>
        cases ha with
        | @head s _ z l1 hs s1 s2 =>
          simp only [AllP_cons] at hl
          have q := (g.le_rc_iff hl.2.1).1 s1
          refine ⟨x * t :: t⁻¹ * (y * s) :: s⁻¹ * z :: l1, ?_, ?_⟩
          · exact .single (.head ht t1 (g.le_trans t2 q.1))
          · have : g.Step (x * t :: t⁻¹ * y :: z :: l1) (x * t :: t⁻¹ * y * s :: s⁻¹ * z :: l1) := by
              refine .tail (.head hs ?_ s2)
              rw [g.le_rc_iff (g.P_div t2 hl.2.1)]
              have h1 := g.div_le_div t2 q.1
              have h2 := g.P_div (g.le_trans t2 q.1) q.2
              rw [mul_assoc]; exact ⟨h1, h2⟩
            rw [mul_assoc] at this; exact .single this
        | @tail _ _ l1 ha =>
          exact ⟨x * t :: t⁻¹ * y :: l1, .single (.head ht t1 t2), .single (.tail (.tail ha))⟩
      | tail hb =>
        obtain ⟨c, h1, h2⟩ := ih hl.2 ha hb
        exact ⟨x :: c, h1.cons x, h2.cons x⟩

/-- Confluence (Newman's lemma). -/
theorem confl {l a b : List W} (hl : g.AllP l) (ha : g.Steps l a) (hb : g.Steps l b) :
    ∃ c, g.Steps a c ∧ g.Steps b c := by
  induction hn : g.wt l using Nat.strong_induction_on generalizing l a b with
  | _ n ih =>
    rcases ReflTransGen.cases_head ha with rfl | ⟨a1, ha1, ha⟩
    · exact ⟨b, hb, .refl⟩
    rcases ReflTransGen.cases_head hb with rfl | ⟨b1, hb1, hb⟩
    · exact ⟨a, .refl, ReflTransGen.head ha1 ha⟩
    obtain ⟨d, d1, d2⟩ := local_confl hl ha1 hb1
    obtain ⟨e, e1, e2⟩ := ih (g.wt a1) (hn ▸ (ha1.tot_wt hl).2) (ha1.allP hl) ha d1 rfl
    obtain ⟨f, f1, f2⟩ := ih (g.wt b1) (hn ▸ (hb1.tot_wt hl).2) (hb1.allP hl) (d2.trans e2) hb rfl
    exact ⟨f, e1.trans f1, f2⟩

/-- The pair cannot be renormalised: no atom can move. -/
def PairN (g : Germ W) (x y : W) : Prop := ∀ s, g.atom s → g.le s (x⁻¹ * g.D) → ¬ g.le s y

/-- Normal lists. -/
def Nrm (g : Germ W) (l : List W) : Prop := l.IsChain g.PairN

theorem nrm_iff {l : List W} : g.Nrm l ↔ ∀ l', ¬ g.Step l l' := by
  induction l with
  | nil => simp only [Nrm, List.isChain_nil, true_iff]; intro l' h; cases h
  | cons x l ih =>
    cases l with
    | nil => simp only [Nrm, List.isChain_singleton, true_iff]; intro l' h; cases h with | tail h => cases h
    | cons y l =>
      unfold Nrm at *
      rw [List.isChain_cons_cons, ih]
      constructor
      · rintro ⟨h1, h2⟩ l' h
        cases h with
        | head hs a b => exact h1 _ hs a b
        | tail h => exact h2 _ h
      · intro h
        exact ⟨fun s hs a b => h _ (.head hs a b), fun l' h' => h _ (.tail h')⟩

theorem Nrm.steps {l l' : List W} (h : g.Nrm l) (hs : g.Steps l l') : l' = l := by
  rcases ReflTransGen.cases_head hs with rfl | ⟨a, ha, _⟩
  · rfl
  · exact absurd ha (nrm_iff.1 h a)

theorem exists_nf {l : List W} (hl : g.AllP l) : ∃ l', g.Steps l l' ∧ g.Nrm l' := by
  induction hn : g.wt l using Nat.strong_induction_on generalizing l with
  | _ n ih =>
    by_cases h : g.Nrm l
    · exact ⟨l, .refl, h⟩
    · rw [nrm_iff] at h; push Not at h
      obtain ⟨l1, h1⟩ := h
      obtain ⟨l2, h2, h3⟩ := ih _ (hn ▸ (h1.tot_wt hl).2) (h1.allP hl) rfl
      exact ⟨l2, ReflTransGen.head h1 h2, h3⟩

open Classical in
/-- The normal form of a list of simple elements. -/
noncomputable def nf (g : Germ W) (l : List W) : List W := if h : g.AllP l then (exists_nf h).choose else l

theorem nf_steps {l : List W} (hl : g.AllP l) : g.Steps l (g.nf l) := by
  rw [nf, dif_pos hl]; exact (exists_nf hl).choose_spec.1
theorem nf_nrm {l : List W} (hl : g.AllP l) : g.Nrm (g.nf l) := by
  rw [nf, dif_pos hl]; exact (exists_nf hl).choose_spec.2
theorem nf_allP {l : List W} (hl : g.AllP l) : g.AllP (g.nf l) := (nf_steps hl).allP hl
theorem nf_length {l : List W} (hl : g.AllP l) : (g.nf l).length = l.length := (nf_steps hl).length

theorem nf_eq {l l' : List W} (hl : g.AllP l) (h : g.Steps l l') (hn : g.Nrm l') : g.nf l = l' := by
  obtain ⟨c, h1, h2⟩ := confl hl (nf_steps hl) h
  rw [← (nf_nrm hl).steps h1, hn.steps h2]

theorem nf_of_steps {l l' : List W} (hl : g.AllP l) (h : g.Steps l l') : g.nf l = g.nf l' :=
  nf_eq hl (h.trans (nf_steps (h.allP hl))) (nf_nrm (h.allP hl))

theorem nf_of_nrm {l : List W} (hl : g.AllP l) (h : g.Nrm l) : g.nf l = l := nf_eq hl .refl h

end Germ
end Peyl
