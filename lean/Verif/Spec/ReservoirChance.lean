import Verif.Spec.Bucketing
import Mathlib.Data.Fintype.BigOperators
/-!
# Specification vocabulary: chances over the draws of a random generator

`random.random()` returns one of `M` equally likely numbers `0, 1/M, ..., (M-1)/M` (Python: `M = 2^53`), `randrange(0, K)` one of `K` equally
likely indices, and all draws are independent.
-/
namespace Peyl
namespace Bucketing

/-- A generator that reads its draws from a tape: every call of `random()` takes the next pair `(k, r)` of the tape and returns `k / M`;
`randrange` then returns `r` (reduced to the range).  The state holds the last `r` and the rest of the tape. -/
def coinRng (M : Nat) : Rng (Nat × List (Nat × Nat)) where
  random s := match s.2 with
    | [] => (0, s)
    | (k, r) :: w => ((k : ℚ) / M, (r, w))
  randrange s K := (s.1 % K, s)
  randrange_lt s K h := Nat.mod_lt _ h

/-- The chance of the event `E` over all tapes of `T` pairs, each of them one of `M * K` equally likely ones: favourable tapes over all tapes. -/
noncomputable def coinChance (M K T : Nat) (E : List (Nat × Nat) → Prop) : ℚ :=
  open Classical in
  ((Finset.univ.filter fun w : Fin T → Fin M × Fin K => E (List.ofFn fun j => ((w j).1.val, (w j).2.val))).card : ℚ) / ((M * K : Nat) : ℚ) ^ T

variable {β : Type} {d : Nat}

/-- After the operations, the bucket `t` contains the braid `x`; `w` is the tape of draws. -/
def Retained (M : Nat) (c : Config β d) (ops : List (Op β d)) (t : Tag) (x : β) (w : List (Nat × Nat)) : Prop :=
  ∃ r b, run (coinRng M) c ([], (0, w)) ops = .ok r ∧ (t, b) ∈ r.1 ∧ x ∈ b.braids

/-- After the operations, there is a bucket `t` and the set of its braids is one of the sets in `𝒜`; `w` is the tape of draws. -/
def ContentsIn [DecidableEq β] (M : Nat) (c : Config β d) (ops : List (Op β d)) (t : Tag) (𝒜 : Finset (Finset β)) (w : List (Nat × Nat)) : Prop :=
  ∃ r b, run (coinRng M) c ([], (0, w)) ops = .ok r ∧ (t, b) ∈ r.1 ∧ b.braids.toFinset ∈ 𝒜

/-- The sum of the weights of some offers. -/
def totalWeight (l : List (Offer β d)) : ℚ := (l.map Offer.weight).sum

/-- The number of triples that are offered to a tracker (with any tag). -/
def offerCount (c : Config β d) (ops : List (Op β d)) : Nat :=
  (ops.map fun op => match op with | .add b => (offersOf c b).length | .discard _ => 0).sum

end Bucketing
end Peyl
