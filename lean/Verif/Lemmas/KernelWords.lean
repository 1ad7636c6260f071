import Verif.Lemmas.KernelChecks
/-!
# Elements of the kernels on four and more, and on five and more strands
-/
namespace Peyl
namespace Bur
open LaurentPolynomial
variable {n : Nat}

theorem sword_pinv (w : List (Nat × Bool)) : sword n (pinv w) = (sword n w)⁻¹ := by
  induction w with
  | nil => simp [pinv, sword]
  | cons l w ih =>
    rw [show pinv (l :: w) = pinv w ++ [(l.1, !l.2)] by simp [pinv], sword_append, ih, sword_cons l w, mul_inv_rev]
    congr 1
    cases hb : l.2 <;> simp [sword]

theorem sword_pos (w : List Nat) : sword n (pos w) = posWord n w := by
  rw [sword, pos, posWord, List.map_map]; rfl

theorem posWord_rept (k : Nat) (w : List Nat) : posWord n (rept k w) = posWord n w ^ k := by
  induction k with
  | zero => simp [rept, posWord]
  | succ k ih =>
    rw [show rept (k + 1) w = w ++ rept k w by simp [rept, List.replicate_succ], pow_succ', ← ih]
    simp [posWord]

theorem halfTwist_word (hn : 1 ≤ n) : halfTwist n = posWord n (halfW (n - 1)) := lift_eq_posWord (halfW_reduced hn)

/-! ## Five strands and more -/

theorem big_ne : hmoves 4 (bigA ++ bigB) (bigB ++ bigA) [5, 2, 4, 1, 6] = true := by decide +kernel

theorem five (hn : 5 ≤ n) : ∃ b : Braid n, b ≠ 1 ∧ ∀ N : Nat, rep n (vT (ZMod N)) b = 1 := by
  have h1 := rep_eq_of_psame ℤ big_same (n := n) (by omega)
  have h2 := sword_ne (n := n) (by omega) big_ne
  refine ⟨sword n (bigA ++ bigB) * (sword n (bigB ++ bigA))⁻¹, fun h => h2 (mul_inv_eq_one.1 h), fun N => ker_zero ?_ N⟩
  rw [map_mul, h1, ← map_mul, mul_inv_cancel, map_one]

/-! ## Four strands and more -/

/-- A word whose braid is in the kernel modulo 3 up to the twelfth power of the half twist. -/
def word3 : List Nat :=
  [1,0,2,0,1,2,1,1,0,2,0,2,1,1,0,2,2,1,1,0,2,0,2,0,1,2,1,1,0,2,0,2,1,1,1,1,0,2,2,1,1,0,2,0,2,1,0,1,0,2,0,2,1,1,0,2,1,1,0,2,0,1,1,0,2,0,1,2,1,0,0,2]

def word2 : List Nat := (seqWord elemP2.seq).getD []
def word5 : List Nat := (seqWord elemA.seq).getD []

def x2 : List (Nat × Bool) := pinv (pos (rept 4 (halfW 3))) ++ pos word2
def x3 : List (Nat × Bool) := pinv (pos (rept 12 (halfW 3))) ++ pos word3
def x5 : List (Nat × Bool) := pinv (pos (rept 27 (halfW 3))) ++ pos word5

theorem same3 : psame 3 0 3 (pos word3) (pos (rept 12 (halfW 3))) = true := by decide +kernel

theorem same_of_check {x : KernelElement} (h : checkElement x = true) : ∃ w, seqWord x.seq = some w ∧ psame x.p 0 (x.n - 1) (pos w) (pos (rept x.power (halfW (x.n - 1)))) = true := by
  rw [checkElement] at h
  cases hs : seqWord x.seq with
  | none => rw [hs] at h; cases h
  | some w => rw [hs] at h; exact ⟨w, rfl, h⟩

theorem same2 : psame 2 0 3 (pos word2) (pos (rept 4 (halfW 3))) = true := by
  obtain ⟨w, h1, h2⟩ := same_of_check check_P2
  rw [word2, h1]; exact h2

theorem same5 : psame 5 0 3 (pos word5) (pos (rept 27 (halfW 3))) = true := by
  obtain ⟨w, h1, h2⟩ := same_of_check check_A
  rw [word5, h1]; exact h2

theorem ker_of_same {p k : Nat} {w : List Nat} (hn : 4 ≤ n) (h : psame p 0 3 (pos w) (pos (rept k (halfW 3))) = true) :
    rep n (vT (ZMod p)) (sword n (pinv (pos (rept k (halfW 3))) ++ pos w)) = 1 := by
  rw [sword_append, map_mul, rep_eq_of_psame (ZMod p) h (by omega), ← map_mul, sword_pinv, inv_mul_cancel, map_one]

/-- One step of the action, with a period. -/
def hcyc (ℓ : Nat) (w : List (Nat × Bool)) (u v : List (Fin 10)) : Bool :=
  w.all (fun l => decide (l.1 < 3)) && decide (u.length = 4) && decide (hrun qop 0 w u = v) && decide ((hrun qop 0 w)^[ℓ] u = u)

theorem hpow (hn : 4 ≤ n) {ρ : Braid n →* Function.End (ℕ → Fin 10)} (hρ : ∀ i, i + 1 < n → (ρ (sigma n i) = hact qop i ∧ ρ (sigma n i)⁻¹ = hactInv qop i))
    {ℓ : Nat} {w : List (Nat × Bool)} {u v : List (Fin 10)} (h : hcyc ℓ w u v = true) {k : Nat} (hk : k % ℓ = 1) : ρ (sword n w ^ k) (seq 0 u) = seq 0 v := by
  simp only [hcyc, Bool.and_eq_true, List.all_eq_true, decide_eq_true_eq] at h
  obtain ⟨⟨⟨hw, hu⟩, h1⟩, h2⟩ := h
  have it : ∀ m, ρ (sword n w ^ m) (seq 0 u) = seq 0 ((hrun qop 0 w)^[m] u) ∧ ((hrun qop 0 w)^[m] u).length = 4 := by
    intro m
    induction m with
    | zero =>
      refine ⟨?_, hu⟩
      rw [pow_zero, map_one]; rfl
    | succ m ih =>
      obtain ⟨a, b⟩ := hrun_seq hρ 0 (show 3 + 1 ≤ n by omega) w hw _ ih.2
      rw [Function.iterate_succ_apply', pow_succ', map_mul]
      refine ⟨?_, b⟩
      show ρ (sword n w) (ρ (sword n w ^ m) (seq 0 u)) = _
      rw [ih.1]
      exact a
  have hp : Function.IsPeriodicPt (hrun qop 0 w) ℓ u := h2
  rw [(it k).1, ← hp.iterate_mod_apply, hk]
  exact congrArg _ h1

set_option maxRecDepth 100000 in
theorem c1 : hcyc 4 x5 [0,9,3,0] [0,0,3,8] = true := by decide +kernel
theorem c2 : hcyc 3 x2 [0,0,3,8] [0,9,3,0] = true := by decide +kernel
theorem c3 : hcyc 4 x3 [0,9,3,0] [0,0,3,8] = true := by decide +kernel
theorem c4 : hcyc 3 x2 [0,9,3,0] [0,8,3,9] = true := by decide +kernel
theorem c5 : hcyc 4 x3 [0,8,3,9] [8,0,3,0] = true := by decide +kernel
set_option maxRecDepth 100000 in
theorem c6 : hcyc 4 x5 [8,0,3,0] [9,8,3,0] = true := by decide +kernel
theorem c7 : hcyc 4 x3 [8,0,3,0] [9,8,3,0] = true := by decide +kernel
theorem c8 : hcyc 3 x2 [8,0,3,0] [8,0,3,0] = true := by decide +kernel
theorem c9 : hcyc 3 x2 [9,8,3,0] [9,9,3,8] = true := by decide +kernel

theorem four (hn : 4 ≤ n) (m : Nat) : ∃ b : Braid n, b ≠ 1 ∧ rep n (vT (ZMod (30 ^ m))) b = 1 := by
  have k2 : 2 ^ (2 * m) % 3 = 1 := by rw [pow_mul, Nat.pow_mod]; simp
  have k3 : 3 ^ (2 * m) % 4 = 1 := by rw [pow_mul, Nat.pow_mod]; simp
  have k5 : 5 ^ (2 * m) % 4 = 1 := by rw [pow_mul, Nat.pow_mod]; simp
  have dv : ∀ q : Nat, q ^ m ∣ q ^ (2 * m + 1) := fun q => pow_dvd_pow _ (by omega)
  have X2 := ker_dvd (dv 2) (ker_pow (ker_of_same hn same2) (2 * m))
  have X3 := ker_dvd (dv 3) (ker_pow (ker_of_same hn same3) (2 * m))
  have X5 := ker_dvd (dv 5) (ker_pow (ker_of_same hn same5) (2 * m))
  obtain ⟨ρ, hρ⟩ := exists_hurwitz qop_inv qop_dist n
  have d1 := hpow hn hρ c1 k5
  have d2 := hpow hn hρ c2 k2
  have d3 := hpow hn hρ c3 k3
  have d4 := hpow hn hρ c4 k2
  have d5 := hpow hn hρ c5 k3
  have d6 := hpow hn hρ c6 k5
  have d7 := hpow hn hρ c7 k3
  have d8 := hpow hn hρ c8 k2
  have d9 := hpow hn hρ c9 k2
  change rep n (vT (ZMod (2 ^ m))) (sword n x2 ^ 2 ^ (2 * m)) = 1 at X2
  change rep n (vT (ZMod (3 ^ m))) (sword n x3 ^ 3 ^ (2 * m)) = 1 at X3
  change rep n (vT (ZMod (5 ^ m))) (sword n x5 ^ 5 ^ (2 * m)) = 1 at X5
  generalize sword n x2 ^ 2 ^ (2 * m) = A at *
  generalize sword n x3 ^ 3 ^ (2 * m) = B at *
  generalize sword n x5 ^ 5 ^ (2 * m) = D at *
  have iv : ∀ (b : Braid n) (s t : ℕ → Fin 10), ρ b s = t → ρ b⁻¹ t = s := by
    rintro b s _ rfl
    have : (ρ b⁻¹ * ρ b) s = s := by rw [← map_mul, inv_mul_cancel, map_one]; rfl
    exact this
  refine ⟨(A * B * A⁻¹ * B⁻¹) * D * (A * B * A⁻¹ * B⁻¹)⁻¹ * D⁻¹, fun h => ?_, ?_⟩
  · have e1 : ρ ((A * B * A⁻¹ * B⁻¹) * D * (A * B * A⁻¹ * B⁻¹)⁻¹ * D⁻¹) (seq 0 [0,0,3,8]) = seq 0 [9,9,3,8] := by
      rw [show (A * B * A⁻¹ * B⁻¹) * D * (A * B * A⁻¹ * B⁻¹)⁻¹ * D⁻¹ = A * (B * (A⁻¹ * (B⁻¹ * (D * (B * (A * (B⁻¹ * (A⁻¹ * D⁻¹)))))))) by group]
      simp only [map_mul]
      show ρ A (ρ B (ρ A⁻¹ (ρ B⁻¹ (ρ D (ρ B (ρ A (ρ B⁻¹ (ρ A⁻¹ (ρ D⁻¹ (seq 0 [0,0,3,8])))))))))) = _
      rw [iv _ _ _ d1, iv _ _ _ d2, iv _ _ _ d3, d4, d5, d6, iv _ _ _ d7, iv _ _ _ d8, d7, d9]
    rw [h, map_one] at e1
    have := congrFun e1 0
    simp [seq, Function.End] at this
    exact absurd this (by decide)
  · rw [show 30 ^ m = 2 ^ m * 3 ^ m * 5 ^ m by rw [← mul_pow, ← mul_pow]; norm_num]
    refine ker_coprime ?_ (ker_coprime ?_ ?_ ?_) ?_
    · exact (Nat.Coprime.mul_left (Nat.Coprime.pow _ _ (by decide)) (Nat.Coprime.pow _ _ (by decide)))
    · exact Nat.Coprime.pow _ _ (by decide)
    · exact ker_comm_left (ker_comm_left X2 B) D
    · exact ker_comm_left (ker_comm_right X3 A) D
    · exact ker_comm_right X5 _

end Bur
end Peyl
