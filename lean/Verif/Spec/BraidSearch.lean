import Verif.Model.BraidSearch
/-!
# Specification vocabulary for `braidsearch.Tracker`: histories of offers
-/
namespace Peyl
namespace BraidSearch
variable {S β : Type} [DecidableEq β] {d : Nat}

/-- A braid with its projectivised image. -/
structure Offer (β : Type) (d : Nat) where
  braid : β
  image : Img d

/-- The projectivised image; empty for a zero matrix, which has none. -/
def projOf (A : Img d) : Img d := match Polymat.projectivise A with | .ok P => P | .error _ => []

/-- The pairs of a batch that pass the criterion, with their tags (length, projlen), in order. -/
def keptOf (c : Config S β d) (b : Bucketing.Batch β d) : List (Tag × Offer β d) :=
  match braidImageStats c b, Polymat.projlen b.images with
  | .ok st, .ok pl => ((List.finRange b.len).filter (c.criterion b.len st)).map fun i =>
      ((c.length (b.braids i), pl i), ⟨b.braids i, projOf (imgAt b.images i)⟩)
  | _, _ => []

/-- Operations of a tracker. -/
inductive Op (β : Type) (d : Nat) where
  | add (b : Bucketing.Batch β d)
  | discard (t : Tag)

/-- Execute operations. -/
def run (c : Config S β d) (st : State S β d) : List (Op β d) → Except Err (State S β d)
  | [] => .ok st
  | .add b :: ops => do run c (← addBraidsImages c st b) ops
  | .discard t :: ops => run c (discardBucket st t) ops

/-- The pairs kept with tag `t` since `t` was last discarded. -/
def offeredSince (c : Config S β d) (t : Tag) (acc : List (Offer β d)) : List (Op β d) → List (Offer β d)
  | [] => acc
  | .add b :: ops => offeredSince c t (acc ++ (keptOf c b).filterMap fun o => if o.1 = t then some o.2 else none) ops
  | .discard t' :: ops => offeredSince c t (if t' = t then [] else acc) ops

def offered (c : Config S β d) (ops : List (Op β d)) (t : Tag) : List (Offer β d) := offeredSince c t [] ops

/-- The first occurrence of each braid, in order. -/
def firstDistinct (log : List (Offer β d)) : List (Offer β d) :=
  log.foldl (fun acc o => if o.braid ∈ acc.map Offer.braid then acc else acc ++ [o]) []

/-- Contents of a bucket, index by index. -/
def Holds (b : Bucket β d) (l : List (Offer β d)) : Prop :=
  b.braids = l.map Offer.braid ∧ b.images.take l.length = l.map Offer.image

/-- A batch that can be offered: some degree, a constant term in every image (which the statistics assert), no zero image. -/
def Valid (b : Bucketing.Batch β d) : Prop :=
  b.images ≠ [] ∧ ∀ i, ∃ r s, Polymat.slice b.images 0 i r s ≠ 0

/-- The initial state of a tracker. -/
def State.init (s : S) : State S β d := ⟨[], [], s⟩

/-- A random generator that reads a tape of outcomes. -/
def tapeRng : Rng (List Nat) where
  random s := (0, s)
  randrange s k := match s with | [] => (0, []) | j :: s => (j % k, s)
  randrange_lt s k h := by cases s with | nil => exact h | cons j s => exact Nat.mod_lt _ h

/-- All outcomes of the draws `randint(1, K+1), ..., randint(1, N)` (minus one), each listed once: the uniform distribution
of independent uniform draws is the uniform distribution on this list. -/
def tapes (K : Nat) : Nat → List (List Nat)
  | 0 => [[]]
  | N + 1 => if K ≤ N then (tapes K N).flatMap fun w => (List.range (N + 1)).map fun j => w ++ [j] else [[]]

end BraidSearch
end Peyl
