import Verif.Lemmas.BurauDelta
/-!
# Computing with the Burau representation on lists of coefficients
-/
namespace Peyl
namespace Bur
open _root_.Matrix LaurentPolynomial

section act
variable {R : Type*} [CommRing R] {n : Nat}

/-- The generators on sequences of coordinates. -/
def act (v : Rˣ) (i : Nat) : (ℕ → R) →ₗ[R] (ℕ → R) where
  toFun X := fun j => if j = i then X i - v * ((v + (v⁻¹ : Rˣ)) * X i + X (i + 1) + (if 0 < i then X (i - 1) else 0)) else X j
  map_add' X Y := by
    funext j
    simp only [Pi.add_apply]
    split_ifs <;> ring
  map_smul' c X := by
    funext j
    simp only [Pi.smul_apply, smul_eq_mul, RingHom.id_apply]
    split_ifs <;> ring

/-- Words with signs: `(i, true)` is the generator `i`, `(i, false)` its inverse. -/
def wordAct (v : Rˣ) : List (Nat × Bool) → (ℕ → R) →ₗ[R] (ℕ → R)
  | [] => LinearMap.id
  | l :: w => (act (if l.2 then v else v⁻¹) l.1).comp (wordAct v w)

/-- The braid of a signed word. -/
noncomputable def sword (n : Nat) (w : List (Nat × Bool)) : Braid n := (w.map fun l => if l.2 then sigma n l.1 else (sigma n l.1)⁻¹).prod

theorem sword_cons (l : Nat × Bool) (w) : sword n (l :: w) = (if l.2 then sigma n l.1 else (sigma n l.1)⁻¹) * sword n w := by simp [sword]
theorem sword_append (u w) : sword n (u ++ w) = sword n u * sword n w := by simp [sword]

/-- Extension by zero. -/
def ext (x : Fin (n - 1) → R) : ℕ → R := fun j => if h : j < n - 1 then x ⟨j, h⟩ else 0

theorem ext_inj {x y : Fin (n - 1) → R} (h : ext x = ext y) : x = y := by
  funext j
  have := congrFun h j.val
  simpa [ext] using this

theorem ext_gen (v : Rˣ) {i : Nat} (hi : i < n - 1) (x : Fin (n - 1) → R) : ext (gen v ⟨i, hi⟩ *ᵥ x) = act v i (ext x) := by
  funext j
  show _ = if j = i then _ else _
  by_cases hj : j < n - 1
  · have e : ext (gen v ⟨i, hi⟩ *ᵥ x) j = (gen v ⟨i, hi⟩ *ᵥ x) ⟨j, hj⟩ := by rw [ext, dif_pos hj]
    rw [e, gen_mulVec, J_mulVec, Pi.sub_apply, Pi.smul_apply, smul_eq_mul, Pi.single_apply]
    by_cases hij : j = i
    · subst hij
      rw [if_pos rfl, if_pos rfl]
      simp only [ext, hj, dif_pos]
      by_cases h0 : 0 < j
      · simp only [h0, if_true, dif_pos, dif_pos (show j - 1 < n - 1 by omega)]
      · simp only [h0, if_false, dif_neg, not_false_eq_true]
    · rw [if_neg (fun q => hij (congrArg Fin.val q)), if_neg hij, mul_zero, sub_zero, ext, dif_pos hj]
  · rw [if_neg (by omega), ext, dif_neg hj, ext, dif_neg hj]

theorem ext_word (v : Rˣ) (w : List (Nat × Bool)) (hw : ∀ l ∈ w, l.1 < n - 1) (x : Fin (n - 1) → R) : ext (rep n v (sword n w) *ᵥ x) = wordAct v w (ext x) := by
  induction w with
  | nil => simp [sword, wordAct]
  | cons l w ih =>
    have hl := hw l (by simp)
    rw [sword_cons, map_mul, ← mulVec_mulVec, wordAct, LinearMap.comp_apply, ← ih fun l hl => hw l (by simp [hl])]
    cases hb : l.2
    · simp only [if_false, Bool.false_eq_true]
      rw [rep_sigma_inv v hl, ext_gen]
    · simp only [if_true]
      rw [rep_sigma v hl, ext_gen]

theorem wordAct_far (v : Rˣ) {ℓ : Nat} (w : List (Nat × Bool)) (hw : ∀ l ∈ w, l.1 < ℓ) {k : Nat} (hk : ℓ < k) : wordAct v w (Pi.single k 1) = Pi.single k 1 := by
  induction w with
  | nil => rfl
  | cons l w ih =>
    have hl := hw l (by simp)
    rw [wordAct, LinearMap.comp_apply, ih fun l hl => hw l (by simp [hl])]
    funext j
    show (if j = l.1 then _ else _) = _
    by_cases hj : j = l.1
    · have z : ∀ i, i < k → (Pi.single k 1 : ℕ → R) i = 0 := fun i hi => by rw [Pi.single_apply, if_neg (by omega)]
      rw [if_pos hj, z l.1 (by omega), z (l.1 + 1) (by omega), z (l.1 - 1) (by omega), z j (by omega)]
      simp
    · rw [if_neg hj]

/-- Two words that act in the same way on the first coordinates have the same matrix, on any number of strands. -/
theorem rep_eq_of_act (v : Rˣ) {ℓ : Nat} (hn : ℓ + 1 ≤ n) (u w : List (Nat × Bool)) (hu : ∀ l ∈ u, l.1 < ℓ) (hw : ∀ l ∈ w, l.1 < ℓ)
    (h : ∀ k ≤ ℓ, wordAct v u (Pi.single k 1) = wordAct v w (Pi.single k 1)) : rep n v (sword n u) = rep n v (sword n w) := by
  have hcol : ∀ k : Fin (n - 1), rep n v (sword n u) *ᵥ Pi.single k 1 = rep n v (sword n w) *ᵥ Pi.single k 1 := by
    intro k
    refine ext_inj ?_
    rw [ext_word v u (fun l hl => by have := hu l hl; omega), ext_word v w (fun l hl => by have := hw l hl; omega)]
    have e : ext (Pi.single k 1 : Fin (n - 1) → R) = Pi.single k.val 1 := by
      funext j
      rw [ext, Pi.single_apply]
      by_cases hj : j < n - 1
      · rw [dif_pos hj, Pi.single_apply]
        by_cases q : j = k.val
        · rw [if_pos q, if_pos (Fin.ext q)]
        · rw [if_neg q, if_neg (fun q' => q (congrArg Fin.val q'))]
      · rw [dif_neg hj, if_neg (by omega)]
    rw [e]
    rcases Nat.lt_or_ge ℓ k.val with q | q
    · rw [wordAct_far v u hu q, wordAct_far v w hw q]
    · exact h _ q
  ext i j
  have := congrFun (hcol j) i
  simpa using this
end act

/-! ## Lists of coefficients -/
section lists
variable (K : Type*) [CommRing K]

/-- The Laurent polynomial of a list of coefficients. -/
noncomputable def pden : List ℤ → K[T;T⁻¹]
  | [] => 0
  | c :: f => C (c : K) + T 1 * pden f

def padd : List ℤ → List ℤ → List ℤ
  | [], g => g
  | a :: f, [] => a :: f
  | a :: f, b :: g => (a + b) :: padd f g

/-- A coefficient in front, without zeros at the end. -/
def pcons (c : ℤ) (f : List ℤ) : List ℤ := match f with
  | [] => if c = 0 then [] else [c]
  | a :: f => c :: a :: f

def pneg (p : Nat) : List ℤ → List ℤ
  | [] => []
  | c :: f => pcons ((-c) % (p : ℤ)) (pneg p f)

/-- Division by `v`. -/
def pdown : List ℤ → Option (List ℤ)
  | [] => some []
  | c :: f => if c = 0 then some f else none

theorem pden_padd : ∀ f g, pden K (padd f g) = pden K f + pden K g
  | [], g => by simp [padd, pden]
  | a :: f, [] => by simp [padd, pden]
  | a :: f, b :: g => by rw [padd, pden, pden, pden, pden_padd f g]; push_cast; rw [map_add]; ring

theorem pden_pcons (c : ℤ) (f : List ℤ) : pden K (pcons c f) = C (c : K) + T 1 * pden K f := by
  cases f with
  | nil =>
    rw [pcons]
    split_ifs with h
    · simp [pden, h]
    · rfl
  | cons a f => rfl

theorem pden_pneg {p : Nat} [CharP K p] (f : List ℤ) : pden K (pneg p f) = -pden K f := by
  induction f with
  | nil => simp [pneg, pden]
  | cons c f ih =>
    rw [pneg, pden_pcons, pden, ih]
    have : (((-c) % (p : ℤ) : ℤ) : K) = -(c : K) := by
      rw [← Int.cast_neg, CharP.intCast_eq_intCast K p]
      exact Int.mod_modEq _ _
    rw [this, map_neg]; ring

theorem pden_pdown {f g : List ℤ} (h : pdown f = some g) : pden K f = T 1 * pden K g := by
  cases f with
  | nil => cases h; simp [pden]
  | cons c f =>
    rw [pdown] at h
    split_ifs at h with hc
    cases h
    rw [pden, hc]; simp

/-- One generator. -/
def pstep (p : Nat) (l : Nat × Bool) (xs : List (List ℤ)) : Option (List (List ℤ)) :=
  let a := if 0 < l.1 then xs.getD (l.1 - 1) [] else []
  let b := xs.getD l.1 []
  let c := xs.getD (l.1 + 1) []
  if l.2 then some (xs.set l.1 (pcons 0 (pneg p (padd (padd a c) (pcons 0 b)))))
  else match pdown b with
    | none => none
    | some b' => match pdown (padd (padd a c) b') with
      | none => none
      | some s => some (xs.set l.1 (pneg p s))

def prun (p : Nat) : List (Nat × Bool) → List (List ℤ) → Option (List (List ℤ))
  | [], xs => some xs
  | l :: w, xs => match prun p w xs with
    | none => none
    | some ys => pstep p l ys

/-- The sequence of a list. -/
noncomputable def vec (xs : List (List ℤ)) : ℕ → K[T;T⁻¹] := fun j => pden K (xs.getD j [])

theorem T1Tm : (T 1 * T (-1) : K[T;T⁻¹]) = 1 := by rw [← T_add]; simp

theorem pstep_vec {p : Nat} [CharP K p] {l : Nat × Bool} {xs ys : List (List ℤ)} (hl : l.1 < xs.length) (h : pstep p l xs = some ys) :
    vec K ys = act (if l.2 then vT K else (vT K)⁻¹) l.1 (vec K xs) ∧ ys.length = xs.length := by
  have hset : ∀ z, vec K (xs.set l.1 z) = fun j => if j = l.1 then pden K z else vec K xs j := by
    intro z
    funext j
    simp only [vec, List.getD_eq_getElem?_getD, List.getElem?_set]
    by_cases hj : j = l.1
    · subst hj; simp [hl]
    · rw [if_neg (fun q => hj q.symm), if_neg hj]
  have ha : pden K (if 0 < l.1 then xs.getD (l.1 - 1) [] else []) = if 0 < l.1 then vec K xs (l.1 - 1) else 0 := by
    split_ifs <;> simp [vec, pden]
  have hδ : ∀ b : Bool, (((if b then vT K else (vT K)⁻¹ : (K[T;T⁻¹])ˣ) : K[T;T⁻¹]) + (((if b then vT K else (vT K)⁻¹ : (K[T;T⁻¹])ˣ)⁻¹ : (K[T;T⁻¹])ˣ) : K[T;T⁻¹])) = T 1 + T (-1) := by
    intro b
    cases b
    · simp only [Bool.false_eq_true, if_false, _root_.inv_inv]
      show (T (-1) + T 1 : K[T;T⁻¹]) = _
      rw [add_comm]
    · rfl
  have h1 := T1Tm K
  rw [pstep] at h
  cases hb : l.2
  · rw [hb] at h
    simp only [Bool.false_eq_true, if_false] at h
    cases hd : pdown (xs.getD l.1 []) with
    | none => rw [hd] at h; cases h
    | some b' =>
      rw [hd] at h
      dsimp only at h
      cases hs : pdown (padd (padd (if 0 < l.1 then xs.getD (l.1 - 1) [] else []) (xs.getD (l.1 + 1) [])) b') with
      | none => rw [hs] at h; cases h
      | some s =>
        rw [hs] at h
        cases h
        refine ⟨?_, by simp⟩
        have e1 : vec K xs l.1 = T 1 * pden K b' := pden_pdown K hd
        have e2 := pden_pdown K hs
        rw [pden_padd, pden_padd, ha] at e2
        rw [hset]
        funext j
        show _ = if j = l.1 then _ else _
        by_cases hj : j = l.1
        · rw [if_pos hj, if_pos hj, pden_pneg]
          have := hδ false
          simp only [Bool.false_eq_true, if_false] at this ⊢
          rw [this]
          have e3 : (((vT K)⁻¹ : (K[T;T⁻¹])ˣ) : K[T;T⁻¹]) = T (-1) := rfl
          rw [e3]
          have e4 : pden K (xs.getD (l.1 + 1) []) = vec K xs (l.1 + 1) := rfl
          rw [e4] at e2
          linear_combination T (-1) * e2 + (T (-1) * T (-1)) * e1 + pden K s * h1 + (T (-1) * pden K b') * h1 + vec K xs l.1 * h1
        · rw [if_neg hj, if_neg hj]
  · rw [hb] at h
    simp only [if_true] at h
    cases h
    refine ⟨?_, by simp⟩
    rw [hset]
    funext j
    show _ = if j = l.1 then _ else _
    by_cases hj : j = l.1
    · rw [if_pos hj, if_pos hj, pden_pcons, pden_pneg, pden_padd, pden_padd, ha, pden_pcons]
      have := hδ true
      simp only [if_true] at this ⊢
      rw [this]
      have e3 : ((vT K : (K[T;T⁻¹])ˣ) : K[T;T⁻¹]) = T 1 := rfl
      have e4 : pden K (xs.getD (l.1 + 1) []) = vec K xs (l.1 + 1) := rfl
      have e5 : pden K (xs.getD l.1 []) = vec K xs l.1 := rfl
      rw [e3, e4, e5]
      simp only [Int.cast_zero, map_zero, zero_add]
      linear_combination vec K xs l.1 * h1
    · rw [if_neg hj, if_neg hj]

theorem prun_vec {p : Nat} [CharP K p] {w : List (Nat × Bool)} {xs ys : List (List ℤ)} (hw : ∀ l ∈ w, l.1 < xs.length) (h : prun p w xs = some ys) :
    vec K ys = wordAct (vT K) w (vec K xs) ∧ ys.length = xs.length := by
  induction w generalizing ys with
  | nil => cases h; exact ⟨rfl, rfl⟩
  | cons l w ih =>
    rw [prun] at h
    cases hz : prun p w xs with
    | none => rw [hz] at h; cases h
    | some zs =>
      rw [hz] at h
      obtain ⟨i1, i2⟩ := ih (fun l hl => hw l (by simp [hl])) hz
      obtain ⟨s1, s2⟩ := pstep_vec K (by rw [i2]; exact hw l (by simp)) h
      exact ⟨by rw [s1, i1]; rfl, by omega⟩

/-- `v^N` times a basis vector. -/
def unit (N ℓ k : Nat) : List (List ℤ) := (List.range (ℓ + 1)).map fun j => if j = k then List.replicate N 0 ++ [1] else []

theorem pden_mono (N : Nat) : pden K (List.replicate N 0 ++ [1]) = T N := by
  induction N with
  | zero => simp [pden]
  | succ N ih => rw [List.replicate_succ, List.cons_append, pden, ih, ← T_add]; simp [add_comm]

theorem unit_vec (N ℓ k : Nat) (hk : k ≤ ℓ) : vec K (unit N ℓ k) = (T N : K[T;T⁻¹]) • Pi.single k 1 := by
  funext j
  rw [vec, unit, Pi.smul_apply, Pi.single_apply, List.getD_eq_getElem?_getD, List.getElem?_map]
  by_cases hj : j = k
  · rw [if_pos hj, List.getElem?_range (by omega)]
    simp [hj, pden_mono]
  · rw [if_neg hj]
    by_cases hl : j < ℓ + 1
    · rw [List.getElem?_range hl]; simp [hj, pden]
    · rw [List.getElem?_eq_none (by simp; omega)]; simp [pden]

/-- Do two words act in the same way? -/
def psame (p N ℓ : Nat) (u w : List (Nat × Bool)) : Bool :=
  u.all (fun l => decide (l.1 < ℓ)) && w.all (fun l => decide (l.1 < ℓ)) &&
  (List.range (ℓ + 1)).all fun k => match prun p u (unit N ℓ k) with
    | none => false
    | some xs => decide (prun p w (unit N ℓ k) = some xs)

theorem rep_eq_of_psame {p : Nat} [CharP K p] {N ℓ n : Nat} {u w : List (Nat × Bool)} (h : psame p N ℓ u w = true) (hn : ℓ + 1 ≤ n) :
    rep n (vT K) (sword n u) = rep n (vT K) (sword n w) := by
  simp only [psame, Bool.and_eq_true, List.all_eq_true, decide_eq_true_eq, List.mem_range] at h
  obtain ⟨⟨hu, hw⟩, hk⟩ := h
  refine rep_eq_of_act (vT K) hn u w hu hw fun k hkl => ?_
  have hk := hk k (by omega)
  have hlen : (unit N ℓ k).length = ℓ + 1 := by simp [unit]
  cases h1 : prun p u (unit N ℓ k) with
  | none => rw [h1] at hk; cases hk
  | some xs =>
    rw [h1] at hk
    have h2 : prun p w (unit N ℓ k) = some xs := by simpa using hk
    have e1 := (prun_vec K (fun l hl => by rw [hlen]; have := hu l hl; omega) h1).1
    have e2 := (prun_vec K (fun l hl => by rw [hlen]; have := hw l hl; omega) h2).1
    rw [unit_vec K N ℓ k hkl, map_smul] at e1 e2
    have e3 := e1.symm.trans e2
    have e4 := congrArg (fun X => (T (-N : ℤ) : K[T;T⁻¹]) • X) e3
    simp only [smul_smul, ← T_add, neg_add_cancel, T_zero, one_smul] at e4
    exact e4
end lists

end Bur
end Peyl
