import Verif.Spec.MachineTracker
import Verif.Lemmas.MachineTracker
import Verif.Props.MachineEval
import Verif.Props.SearchComplete
/-!
# The search with 32-bit integers (C136)

`peyl/braidsearch.py` keeps the images modulo `p` as 32-bit integers and multiplies them without checking for overflow.
-/
namespace Peyl
open Polymat LaurentPolynomial Jones BraidSearch Search
variable {lim : Nat} {ω : List Nat → List Nat → Nat → Nat} {S : Type}

theorem pow_two_lt {a b m : Nat} (h : a * b ^ 2 < m) : a * b * b < m := by rw [mul_assoc, ← pow_two]; exact h

/-- C136: modulo `p`, as long as `dim * (n (n - 1) + 1) * (p - 1)^2 < 2^31`, every history of a tracker for `JonesSummand(n, r, p)` that consists
of small operations gives the same buckets, the same counters, the same random choices and the same exceptions as exact integers would give,
however long the history and however long the braids. -/
theorem C136_history (n r p : Nat) (hn : 2 ≤ n) (h : 2 * r ≤ n) (hp : 2 ≤ p) (hb : dimension n r * (n * (n - 1) + 1) * (p - 1) ^ 2 < 2 ^ 31) :
    ∃ sm : Summand (dimension n r), summand n r p = .ok sm ∧ ∀ (c : Config S NF (dimension n r)) (seed : S) (ops : List (TrackerOp (dimension n r))),
      (∀ op ∈ ops, op.Small n p) →
      ops.foldlM (TrackerOp.execW 32 (GNF.tbl lim ω) sm c) (State.init seed) = ops.foldlM (TrackerOp.exec (GNF.tbl lim ω) sm c) (State.init seed) := by
  obtain ⟨ρ, G, I, gs, -, -, g1, g2, hF, hd⟩ := C54_hypotheses n r p hn h
  obtain ⟨a1, a2⟩ := summand_mod (w := 32) hn h hp (by norm_num) hb g1
  have hb' : dimension n r * (n * (n - 1) + 1) * (p - 1) * (p - 1) < 2 ^ (32 - 1) := pow_two_lt hb
  have hW : 1 ≤ n * (n - 1) + 1 := by omega
  refine ⟨_, g1, fun c seed ops hops => ?_⟩
  refine foldlM_congr _ _ (StBd (p - 1)) _ (fun st hs op hop => ?_) (State.init seed) (fun t B h => by simp [State.init, Dict.get?] at h)
  have hsm := hops op hop
  cases op with
  | add b =>
    refine ⟨rfl, fun st' he => add_bd c he hs fun S hS a i j => ?_⟩
    have := hsm S hS a i j
    rw [abs_of_nonneg this.1]
    omega
  | bootstrap upto => exact bootstrap_same (rep := ⟨n, p, gs⟩) (by norm_num) hp hb' a1 a2 hW c upto st hs
  | descend t k => exact descendants_same (rep := ⟨n, p, gs⟩) (by norm_num) hp hb' a1 a2 hW c k (pow_two_lt hsm) t st hs
  | product t u => exact product_same (rep := ⟨n, p, gs⟩) (by norm_num) hp c t u st (pow_two_lt hsm) hs
  | substrings t => exact substrings_same (rep := ⟨n, p, gs⟩) (by norm_num) hp hb' a1 a2 hW c t st hs
  | discard t => exact ⟨rfl, fun st' he => by cases he; exact discard_bd hs t⟩

/-- Modulo 5, on four strands: bootstrapping, 100 factors at once, products of images of width up to 100. -/
example : ∀ op ∈ ([.bootstrap 3, .descend (3, 7) 100, .product (3, 7) (6, 100), .substrings (6, 9), .discard (3, 7)] : List (TrackerOp 3)), op.Small 4 5 := by
  intro op hop
  fin_cases hop <;> norm_num [TrackerOp.Small]
  decide

/-- C136: `search.py` with the 32-bit integers it uses prints, saves and selects exactly what it would with exact integers, and fails exactly
when it would. -/
theorem C136_main (n r p : Nat) (hn : 2 ≤ n) (h : 2 * r ≤ n) (hp : 2 ≤ p) (a : Args) (hb : dimension n r * ((a.stepSize + 1) * (n * (n - 1)) + 1) * (p - 1) ^ 2 < 2 ^ 31) :
    ∃ sm : Summand (dimension n r), summand n r p = .ok sm ∧
      ∀ (size : Nat) (rank : (Fin (dimension n r) → Fin (dimension n r) → ℤ) → Nat) (g : Rng S) (seed : S) (ord : ℤ → List Row → List Row),
        Search.mainW 32 (GNF.tbl lim ω) a sm size rank g seed ord = Search.main (GNF.tbl lim ω) a sm size rank g seed ord := by
  obtain ⟨ρ, G, I, gs, -, -, g1, g2, hF, hd⟩ := C54_hypotheses n r p hn h
  have hb0 : dimension n r * (n * (n - 1) + 1) * (p - 1) ^ 2 < 2 ^ 31 := by
    refine lt_of_le_of_lt ?_ hb
    refine Nat.mul_le_mul_right _ (Nat.mul_le_mul_left _ (Nat.succ_le_succ ?_))
    exact Nat.le_mul_of_pos_left _ (Nat.succ_pos _)
  obtain ⟨a1, a2⟩ := summand_mod (w := 32) hn h hp (by norm_num) hb0 g1
  have hb' : dimension n r * (n * (n - 1) + 1) * (p - 1) * (p - 1) < 2 ^ (32 - 1) := pow_two_lt hb0
  exact ⟨_, g1, fun size rank g seed ord => Search.main_same (rep := ⟨n, p, gs⟩) (by norm_num) hp hb' a1 a2 (by omega) a (pow_two_lt hb) size rank g seed ord⟩

/-- The searches of the paper: four strands, Burau representation, one factor at a time, safe up to `p = 5350`. -/
example : dimension 4 1 * ((1 + 1) * (4 * 3) + 1) * (5350 - 1) ^ 2 < 2 ^ 31 ∧ ¬ dimension 4 1 * ((1 + 1) * (4 * 3) + 1) * (5353 - 1) ^ 2 < 2 ^ 31 := by decide +kernel
example := C136_main (lim := 7) (ω := pop0) (S := Unit) 4 1 5 (by decide) (by decide) (by decide) ⟨2, 10, 10, 1, false, true⟩ (by decide +kernel)

/-- C136: hence the braids which `search.py`, run with 32-bit integers, finds are in the near kernel, and if the buckets and the
budget are large enough for the braids of length at most `M` it finds all those of the near kernel. -/
theorem C136_search (n r p : Nat) (hn : 2 ≤ n) (hl : n < lim) (hr : 2 * r ≤ n) (hp : 2 ≤ p)
    (a : Args) (hb : dimension n r * ((a.stepSize + 1) * (n * (n - 1)) + 1) * (p - 1) ^ 2 < 2 ^ 31)
    (hboot : 1 ≤ a.bootstrapLength) (hb5 : a.bootstrapLength < 500) (hstep : 1 ≤ a.stepSize) (hstop : a.stopAtProjlen1 = false) (size : Nat)
    (rank : (Fin (dimension n r) → Fin (dimension n r) → ℤ) → Nat) (g : Rng S) (seed : S) (ord : ℤ → List Row → List Row) (ho : ∀ L l, (ord L l).Perm l) (M : Nat) (hM1 : 1 ≤ M)
    (hM : ∀ m, 1 ≤ m → m ≤ M → ∃ k, NF.countAllOfLength (GNF.tbl lim ω) n m = .ok k ∧ k < size ∧ (k : ℤ) ≤ a.useBest) :
    ∃ (ρ : Braid n →* LMat p (dimension n r)) (G I : List Matrix) (sm : Summand (dimension n r)) (outs : List (ℤ × Out)) (st' : _),
      cellRep n r p = .ok ⟨n, p, G, I⟩ ∧ Realises (⟨n, p, G, I⟩ : RepBase (dimension n r)) ρ ∧ summand n r p = .ok sm ∧
      Search.mainW 32 (GNF.tbl lim ω) a sm size rank g seed ord = .ok (outs, st') ∧
      ∀ x, IsGNF lim ω n x → x.power = 0 → 1 ≤ x.factors.length → x.factors.length ≤ M → x.factors.length ≤ 499 →
        ((∃ o ∈ outs, printed n x ∈ o.2.found) ↔ NearKernel ρ (gnfBraid n x)) := by
  obtain ⟨ρ, G, I, sm, outs, st', e1, e2, e3, e4, e5⟩ := C82_jones n r p hn hl hr (by omega) a hboot hb5 hstep hstop size rank g seed ord ho M hM1 hM
  obtain ⟨sm', s1, s2⟩ := C136_main (lim := lim) (ω := ω) (S := S) n r p hn hr hp a hb
  rw [e3] at s1; cases s1
  exact ⟨ρ, G, I, sm, outs, st', e1, e2, e3, (s2 size rank g seed ord).trans e4, e5⟩

example := C136_search (lim := 7) (ω := fun _ _ _ => 0) (S := Unit) 3 1 5 (by decide) (by decide) (by decide) (by decide) ⟨1, 16, 10, 1, false, false⟩ (by decide +kernel)
  (by decide) (by decide) (by decide) rfl 17 (fun _ => 0) ⟨fun s => (0, s), fun s _ => (0, s), fun _ _ h => h⟩ () (fun _ l => l) (fun _ l => .refl l) 3 (by decide) (by
    intro m h1 h3
    interval_cases m
    · exact ⟨4, by decide +kernel, by norm_num, by norm_num⟩
    · exact ⟨8, by decide +kernel, by norm_num, by norm_num⟩
    · exact ⟨16, by decide +kernel, by norm_num, by norm_num⟩)

end Peyl
