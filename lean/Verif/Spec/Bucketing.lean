import Verif.Model.Bucketing
/-!
# Specification vocabulary for the trackers: histories of offers
-/
namespace Peyl
namespace Bucketing

/-- A (braid, image, weight) triple. -/
structure Offer (β : Type) (d : Nat) where
  braid : β
  image : Img d
  weight : ℚ

/-- The triples a batch offers, with their tags, in order; the images are projectivised one by one. -/
def offersOf {β : Type} {d : Nat} (c : Config β d) (b : Batch β d) : List (Tag × Offer β d) :=
  match c.tags b, c.weights b with
  | .ok tags, .ok ws => (List.finRange b.len).map fun i =>
      (tags i, ⟨b.braids i, match Polymat.projectivise (imgAt b.images i) with | .ok A => A | .error _ => [], ws i⟩)
  | _, _ => []

/-- Operations of a tracker. -/
inductive Op (β : Type) (d : Nat) where
  | add (b : Batch β d)
  | discard (t : Tag)

/-- Execute operations. -/
def run {S β : Type} {d : Nat} (g : Rng S) (c : Config β d) (st : Buckets β d × S) : List (Op β d) → Except Err (Buckets β d × S)
  | [] => .ok st
  | .add b :: ops => do run g c (← addBraidsImages g c st b) ops
  | .discard t :: ops => run g c (discardBucket st.1 t, st.2) ops

/-- The triples offered with tag `t` by a list of operations since the last time that `t` was discarded (`acc`: those
offered before). -/
def offeredSince {β : Type} {d : Nat} (c : Config β d) (t : Tag) (acc : List (Offer β d)) : List (Op β d) → List (Offer β d)
  | [] => acc
  | .add b :: ops => offeredSince c t (acc ++ (offersOf c b).filterMap fun o => if o.1 = t then some o.2 else none) ops
  | .discard t' :: ops => offeredSince c t (if t' = t then [] else acc) ops

/-- The triples offered with tag `t` since its bucket was created, starting from an empty tracker. -/
def offered {β : Type} {d : Nat} (c : Config β d) (ops : List (Op β d)) (t : Tag) : List (Offer β d) := offeredSince c t [] ops

/-- The contents of a bucket: `l` lists the triples at index 0, 1, ..., so braids, images and weights are aligned. -/
def Holds {τ β : Type} {d : Nat} (b : Bucket τ β d) (l : List (Offer β d)) : Prop :=
  b.braids = l.map Offer.braid ∧ b.images.take l.length = l.map Offer.image ∧ b.weights.take l.length = l.map Offer.weight

/-- A batch that can be offered: the statistics can be computed and no image is zero. -/
def Valid {β : Type} {d : Nat} (c : Config β d) (b : Batch β d) : Prop :=
  (∃ t, c.tags b = .ok t) ∧ (∃ w, c.weights b = .ok w) ∧ ∀ i, ∃ S ∈ b.images, ∃ r s, S i r s ≠ 0

end Bucketing
end Peyl
