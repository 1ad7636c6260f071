import Verif.Spec.BraidSearch
import Mathlib.Data.Fintype.BigOperators
/-!
# Specification vocabulary: chances over the draws of `braidsearch.Tracker`

`randint(1, k)` must return each of `1, ..., k` with the same chance, independently of the other draws.  `tapeRng` reduces the entries of a tape modulo `k`; if the entries are
independent and uniform on `0, ..., L-1` and every `k` that occurs divides `L`, this is what happens.
-/
namespace Peyl
namespace BraidSearch
variable {β : Type} [DecidableEq β] {d : Nat}

/-- The chance of the event `E` over all tapes of `T` entries, each of them one of `L` equally likely ones: favourable tapes over all tapes. -/
noncomputable def tapeChance (L T : Nat) (E : List Nat → Prop) : ℚ :=
  open Classical in
  ((Finset.univ.filter fun w : Fin T → Fin L => E (List.ofFn fun j => (w j).val)).card : ℚ) / (L : ℚ) ^ T

/-- The number of pairs that are kept (with any tag). -/
def keptCount (c : Config (List Nat) β d) (ops : List (Op β d)) : Nat :=
  (ops.map fun op => match op with | .add b => (keptOf c b).length | .discard _ => 0).sum

/-- After the operations, there is a bucket `t` and the set of its braids is one of the sets in `𝒜`; `w` is the tape of draws. -/
def ContentsIn (c : Config (List Nat) β d) (ops : List (Op β d)) (t : Tag) (𝒜 : Finset (Finset β)) (w : List Nat) : Prop :=
  ∃ st b, run c (State.init w) ops = .ok st ∧ Dict.get? st.buckets t = some b ∧ b.braids.toFinset ∈ 𝒜

/-- After the operations, the bucket `t` contains the braid `x`; `w` is the tape of draws. -/
def Retained (c : Config (List Nat) β d) (ops : List (Op β d)) (t : Tag) (x : β) (w : List Nat) : Prop :=
  ∃ st b, run c (State.init w) ops = .ok st ∧ Dict.get? st.buckets t = some b ∧ x ∈ b.braids

end BraidSearch
end Peyl
