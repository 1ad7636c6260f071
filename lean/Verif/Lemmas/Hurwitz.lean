import Verif.Lemmas.BurauCompute
import Mathlib.Algebra.Group.End
import Mathlib.Dynamics.PeriodicPts.Defs
/-!
# Braids acting on sequences of a finite quandle of transpositions

Used to show that given braids are not the identity.
-/
namespace Peyl
namespace Bur
section hurwitz
variable {α : Type*} (op : α → α → α)

/-- `σ_i` takes the entries `a, b` at `i, i+1` to `a ▷ b, a`. -/
def hact (i : Nat) (t : ℕ → α) : ℕ → α := fun j => if j = i then op (t i) (t (i + 1)) else if j = i + 1 then t i else t j

def hactInv (i : Nat) (t : ℕ → α) : ℕ → α := fun j => if j = i then t (i + 1) else if j = i + 1 then op (t (i + 1)) (t i) else t j

variable {op}

theorem exists_hurwitz (hi : ∀ a b, op a (op a b) = b) (hd : ∀ a b c, op a (op b c) = op (op a b) (op a c)) (n : Nat) :
    ∃ ρ : Braid n →* Function.End (ℕ → α), ∀ i, i + 1 < n → (ρ (sigma n i) = hact op i ∧ ρ (sigma n i)⁻¹ = hactInv op i) := by
  refine exists_braidHom (M := Function.End (ℕ → α)) n (hact op) (hactInv op) ?_ ?_ ?_ ?_
  · intro i _
    refine funext fun t => funext fun j => ?_
    show hact op i (hactInv op i t) j = t j
    simp only [hact, hactInv]
    split_ifs with h1 h2 h3 <;> first | omega | (subst_vars; simp [hi])
  · intro i _
    refine funext fun t => funext fun j => ?_
    show hactInv op i (hact op i t) j = t j
    simp only [hact, hactInv]
    split_ifs with h1 h2 h3 <;> first | omega | (subst_vars; simp [hi])
  · intro i j hij _
    refine funext fun t => funext fun m => ?_
    show hact op i (hact op j t) m = hact op j (hact op i t) m
    simp only [hact]
    split_ifs <;> first | omega | rfl
  · intro i _
    refine funext fun t => funext fun m => ?_
    show hact op i (hact op (i + 1) (hact op i t)) m = hact op (i + 1) (hact op i (hact op (i + 1) t)) m
    simp only [hact]
    split_ifs <;> first | omega | rfl | simp [← hd]

/-- The same on lists. -/
def hstep (op : α → α → α) (d : α) (l : Nat × Bool) (xs : List α) : List α :=
  let a := xs.getD l.1 d
  let b := xs.getD (l.1 + 1) d
  if l.2 then (xs.set l.1 (op a b)).set (l.1 + 1) a else (xs.set l.1 b).set (l.1 + 1) (op b a)

def hrun (op : α → α → α) (d : α) (w : List (Nat × Bool)) (xs : List α) : List α := w.foldr (hstep op d) xs

/-- The sequence of a list. -/
def seq (d : α) (xs : List α) : ℕ → α := fun j => xs.getD j d

theorem hstep_seq (d : α) {l : Nat × Bool} {xs : List α} (h : l.1 + 1 < xs.length) :
    seq d (hstep op d l xs) = (if l.2 then hact op l.1 else hactInv op l.1) (seq d xs) ∧ (hstep op d l xs).length = xs.length := by
  constructor
  · funext j
    cases hb : l.2 <;> simp only [hstep, hb, Bool.false_eq_true, if_false, if_true, seq, hact, hactInv, List.getD_eq_getElem?_getD, List.getElem?_set, List.length_set] <;>
    · by_cases h1 : j = l.1
      · subst h1; simp [show l.1 < xs.length by omega]
      · by_cases h2 : j = l.1 + 1
        · subst h2; simp [h]
        · simp [Ne.symm h1, Ne.symm h2, h1, h2]
  · cases hb : l.2 <;> simp [hstep, hb]

theorem hrun_seq {n : Nat} {ρ : Braid n →* Function.End (ℕ → α)} (hρ : ∀ i, i + 1 < n → (ρ (sigma n i) = hact op i ∧ ρ (sigma n i)⁻¹ = hactInv op i)) (d : α)
    {ℓ : Nat} (hn : ℓ + 1 ≤ n) (w : List (Nat × Bool)) (hw : ∀ l ∈ w, l.1 < ℓ) (xs : List α) (hx : xs.length = ℓ + 1) :
    ρ (sword n w) (seq d xs) = seq d (hrun op d w xs) ∧ (hrun op d w xs).length = ℓ + 1 := by
  induction w with
  | nil => exact ⟨by simp only [sword, List.map_nil, List.prod_nil, map_one]; rfl, hx⟩
  | cons l w ih =>
    obtain ⟨i1, i2⟩ := ih fun l hl => hw l (by simp [hl])
    have hl := hw l (by simp)
    obtain ⟨s1, s2⟩ := hstep_seq (op := op) d (l := l) (xs := hrun op d w xs) (by omega)
    refine ⟨?_, by rw [hrun, List.foldr_cons]; rw [hrun] at s2 i2; omega⟩
    rw [sword_cons, map_mul]
    show ρ _ (ρ (sword n w) (seq d xs)) = _
    have e : hrun op d (l :: w) xs = hstep op d l (hrun op d w xs) := rfl
    rw [i1, e, s1]
    obtain ⟨g1, g2⟩ := hρ l.1 (by omega)
    cases l.2
    · simp only [Bool.false_eq_true, if_false, g2]
    · simp only [if_true, g1]

theorem seq_inj {d : α} {xs ys : List α} (hl : xs.length = ys.length) (h : seq d xs = seq d ys) : xs = ys := by
  refine List.ext_getElem hl fun i h1 h2 => ?_
  have := congrFun h i
  simpa [seq, List.getD_eq_getElem?_getD, List.getElem?_eq_getElem h1, List.getElem?_eq_getElem h2] using this
end hurwitz

/-- The quandle of the transpositions of five letters, as a table. -/
def quandle : List (List Nat) :=
  [[0,2,1,3,5,4,6,7,9,8],[2,1,0,4,3,5,6,8,7,9],[1,0,2,5,4,3,6,9,8,7],[0,4,5,3,1,2,7,6,8,9],[5,3,2,1,4,0,8,7,6,9],[4,1,3,2,0,5,9,7,8,6],
   [0,1,2,7,8,9,6,3,4,5],[0,8,9,6,4,5,3,7,1,2],[9,7,2,3,6,5,4,1,8,0],[8,1,7,3,4,6,5,2,0,9]]

def qop (a b : Fin 10) : Fin 10 := Fin.ofNat 10 ((quandle.getD a []).getD b 0)

theorem qop_inv : ∀ a b, qop a (qop a b) = b := by decide +kernel
theorem qop_dist : ∀ a b c, qop a (qop b c) = qop (qop a b) (qop a c) := by decide +kernel

/-- Does a word move a list? -/
def hmoves (ℓ : Nat) (u w : List (Nat × Bool)) (t : List (Fin 10)) : Bool :=
  u.all (fun l => decide (l.1 < ℓ)) && w.all (fun l => decide (l.1 < ℓ)) && decide (t.length = ℓ + 1) && !decide (hrun qop 0 u t = hrun qop 0 w t)

/-- Two words that act differently are different braids, on any number of strands. -/
theorem sword_ne {ℓ n : Nat} (hn : ℓ + 1 ≤ n) {u w : List (Nat × Bool)} {t : List (Fin 10)} (h : hmoves ℓ u w t = true) : sword n u ≠ sword n w := by
  simp only [hmoves, Bool.and_eq_true, List.all_eq_true, decide_eq_true_eq, Bool.not_eq_true', decide_eq_false_iff_not] at h
  obtain ⟨⟨⟨hu, hw⟩, ht⟩, hne⟩ := h
  obtain ⟨ρ, hρ⟩ := exists_hurwitz qop_inv qop_dist n
  intro e
  obtain ⟨a1, a2⟩ := hrun_seq hρ 0 hn u hu t ht
  obtain ⟨b1, b2⟩ := hrun_seq hρ 0 hn w hw t ht
  exact hne (seq_inj (a2.trans b2.symm) (by rw [← a1, ← b1, e]))

end Bur
end Peyl
