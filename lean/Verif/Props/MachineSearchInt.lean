import Verif.Lemmas.MachineTrackerInt
import Verif.Props.MachineSearch
/-!
# `braidsearch.Tracker` with 64-bit integers (C136 without a modulus)

For `p = 0` the images of `peyl/braidsearch.py` are 64-bit integers.
-/
namespace Peyl
open Polymat LaurentPolynomial Jones BraidSearch
variable {lim : Nat} {ω : List Nat → List Nat → Nat → Nat} {S : Type}

theorem exec_int {n r : Nat} {G I : List Matrix} {gs : List (Img (dimension n r))} {ρ : Braid n →* LMat 0 (dimension n r)} (I0 : IntSetup n r 62 64 G I gs ρ) (hm : n * (n - 1) / 2 ≤ 62)
    (hl : n < lim) (c : Config S NF (dimension n r)) (hsz : 1 ≤ c.size) (hc : c.length = NF.canonicalLength) (st : State S NF (dimension n r))
    (hr : Reach lim ω (⟨n, 0, gs⟩ : Summand (dimension n r)) ρ c (fun _ => True) st) (op : TrackerOp (dimension n r))
    (ha : op.Allowed lim ω (⟨n, 0, gs⟩ : Summand (dimension n r)) ρ st) (hs : op.Short n) :
    op.execW 64 (GNF.tbl lim ω) (⟨n, 0, gs⟩ : Summand (dimension n r)) c st = op.exec (GNF.tbl lim ω) (⟨n, 0, gs⟩ : Summand (dimension n r)) c st := by
  cases op with
  | add b => rfl
  | bootstrap upto => exact bootstrap_int I0 hm hl upto hs st
  | descend t k => exact descend_int I0 hm hl hsz hc t k hs st hr ha
  | product t u => exact product_int I0 hc t u hs st hr
  | substrings t => exact substrings_int I0 hm hl hc t hs st hr
  | discard t => rfl

/-- C136: over the integers, for up to eleven strands, every history of short operations on a tracker for `JonesSummand(n, r, 0)` with the 64-bit
integers the code uses leads to a state that exact integers lead to as well, and there every further short operation does exactly
what it does with exact integers, exceptions included; every stored image is that of its braid. -/
theorem C136_integers (n r : Nat) (hn : 2 ≤ n) (hn' : n ≤ 11) (hl : n < lim) (h : 2 * r ≤ n) :
    ∃ (gs : List (Img (dimension n r))) (ρ : Braid n →* LMat 0 (dimension n r)), summand n r 0 = .ok ⟨n, 0, gs⟩ ∧ SummandRealises (⟨n, 0, gs⟩ : Summand (dimension n r)) ρ ∧
      ∀ (c : Config S NF (dimension n r)), 1 ≤ c.size → c.length = NF.canonicalLength → ∀ st : State S NF (dimension n r),
        MachineState lim ω (⟨n, 0, gs⟩ : Summand (dimension n r)) ρ c st →
        TrackerState lim ω (⟨n, 0, gs⟩ : Summand (dimension n r)) ρ c st ∧ Sound lim ω (⟨n, 0, gs⟩ : Summand (dimension n r)) ρ st ∧
        ∀ op : TrackerOp (dimension n r), op.Allowed lim ω (⟨n, 0, gs⟩ : Summand (dimension n r)) ρ st → op.Short n →
          op.execW 64 (GNF.tbl lim ω) (⟨n, 0, gs⟩ : Summand (dimension n r)) c st = op.exec (GNF.tbl lim ω) (⟨n, 0, gs⟩ : Summand (dimension n r)) c st := by
  obtain ⟨ρ, G, I, gs, g1, g2, g3, g4, hF, hd⟩ := C54_hypotheses n r 0 hn h
  have I0 : IntSetup n r 62 64 G I gs ρ := ⟨hn, h, g1, g2, g4, hF, hd, by norm_num, by norm_num⟩
  have hm : n * (n - 1) / 2 ≤ 62 := by interval_cases n <;> simp
  refine ⟨gs, ρ, g3, g4, fun c hsz hc => ?_⟩
  have hreach : ∀ st, TrackerState lim ω (⟨n, 0, gs⟩ : Summand (dimension n r)) ρ c st → Reach lim ω (⟨n, 0, gs⟩ : Summand (dimension n r)) ρ c (fun _ => True) st :=
    fun st hst => hst.reach hn hl g4 hF hd (by show (0 : Nat) ≠ 1; decide) hsz hc
  have key : ∀ st, TrackerState lim ω (⟨n, 0, gs⟩ : Summand (dimension n r)) ρ c st → ∀ op : TrackerOp (dimension n r), op.Allowed lim ω (⟨n, 0, gs⟩ : Summand (dimension n r)) ρ st →
      op.Short n → op.execW 64 (GNF.tbl lim ω) (⟨n, 0, gs⟩ : Summand (dimension n r)) c st = op.exec (GNF.tbl lim ω) (⟨n, 0, gs⟩ : Summand (dimension n r)) c st :=
    fun st hst op ha hs => exec_int I0 hm hl c hsz hc st (hreach st hst) op ha hs
  intro st hst
  have hT : TrackerState lim ω (⟨n, 0, gs⟩ : Summand (dimension n r)) ρ c st := by
    induction hst with
    | new s => exact .new s
    | step h op ha hs he ih => exact .step ih op ha ((key _ ih op ha hs).symm.trans he)
  exact ⟨hT, (hreach st hT).sound hd (by show (0 : Nat) ≠ 1; decide) hc, key st hT⟩

/-- On four strands: six factors from the bootstrap, or buckets of length four and three multiplied. -/
example : ∀ op ∈ ([.bootstrap 6, .descend (6, 9) 4, .product (4, 7) (4, 9), .substrings (9, 9), .discard (3, 7)] : List (TrackerOp 3)), op.Short 4 := by
  intro op hop
  fin_cases hop <;> simp [TrackerOp.Short]

/-- A history: bootstrapping a new tracker with all braids of up to twenty factors on three strands. -/
theorem machine20 (c : Config Unit NF (dimension 3 1)) (h1 : 1 ≤ c.size) (h2 : c.length = NF.canonicalLength) :
    ∃ (gs : List (Img (dimension 3 1))) (ρ : Braid 3 →* LMat 0 (dimension 3 1)) (st : State Unit NF (dimension 3 1)), summand 3 1 0 = .ok ⟨3, 0, gs⟩ ∧
      bootstrapExhaustiveW 64 (GNF.tbl 7 pop0) (⟨3, 0, gs⟩ : Summand (dimension 3 1)) c (State.init ()) 20 = .ok st ∧
      MachineState 7 pop0 (⟨3, 0, gs⟩ : Summand (dimension 3 1)) ρ c st := by
  obtain ⟨ρ, G, I, gs, g1, g2, g3, g4, hF, hd⟩ := C54_hypotheses 3 1 0 (by decide) (by decide)
  have I0 : IntSetup 3 1 62 64 G I gs ρ := ⟨by decide, by decide, g1, g2, g4, hF, hd, by norm_num, by norm_num⟩
  have hr : Reach 7 pop0 (⟨3, 0, gs⟩ : Summand (dimension 3 1)) ρ c (fun _ => True) (State.init ()) := ⟨(), [], by simp, rfl⟩
  obtain ⟨st, -, e1, -⟩ := bootstrap_spec_gen (lim := 7) (ω := pop0) (rep := (⟨3, 0, gs⟩ : Summand (dimension 3 1))) (by decide : 2 ≤ 3) (by decide : 3 < 7) g4 hd
    (by show (0 : Nat) ≠ 1; decide) hF h1 20 (fun _ _ => trivial) hr
  have e := bootstrap_int (c := c) (ω := pop0) (lim := 7) I0 (by decide) (by decide) 20 (by decide) (State.init ())
  exact ⟨gs, ρ, st, g3, e.trans e1, .step (.new ()) (.bootstrap 20) trivial (by show 20 * (3 * (3 - 1) / 2) ≤ 62; decide) (e.trans e1)⟩

end Peyl
