import Verif.Model.Braid
import Verif.Model.TL
import Mathlib.Data.List.Sort
/-!
# Model of `peyl/noncrossing.py` and of the dual Garside structure in `peyl/braid.py`

Iterables of components are lists.  `set.pop` is modelled by an arbitrary oracle `ω`.  The `__post__init__` of `NPar` is never
called by Python (the method name is misspelt), so constructing an `NPar` performs no check.
-/
namespace Peyl

/-- peyl/noncrossing.py:91-103: the fields of `NPar`. -/
structure NPar where
  n : Nat
  inv : List Nat
deriving DecidableEq, Repr

namespace NPar

/-- peyl/noncrossing.py:21-28 `catalan`. -/
def catalanNum (n : Nat) : Nat := Nat.choose (2 * n) n / (n + 1)

/-- peyl/noncrossing.py:32-40, the double loop of `are_pairwise_disjoint` over the elements in order. -/
def disjointLoop (seen : List Int) : List Int → Bool
  | [] => true
  | x :: l => if seen.contains x then false else disjointLoop (x :: seen) l

/-- peyl/noncrossing.py:30-40 `are_pairwise_disjoint`. -/
def arePairwiseDisjoint (components : List (List Int)) : Bool := disjointLoop [] components.flatten

/-- peyl/noncrossing.py:42-63 `bkl_gen_to_artin_word`; strands are natural numbers. -/
def bklGenToArtinWord (s t : Nat) : List (Nat × Int) :=
  if s = t then []
  else
    let (s, t) := if s > t then (t, s) else (s, t)
    ((List.range' (s + 1) (t - 1 - s)).reverse.map fun i => (i, (1 : Int))) ++ [(s, 1)] ++
      (List.range' (s + 1) (t - (s + 1))).map fun i => (i, (-1 : Int))

/-- peyl/noncrossing.py:65-88 `npar_component_to_artin_word`. -/
def componentToArtinWord (component : List Nat) : Except Err (List (Nat × Int)) := do
  let comp := component.insertionSort (· ≤ ·)
  pyAssert (decide comp.Nodup)
  .ok ((List.range (comp.length - 1)).reverse.flatMap fun i => bklGenToArtinWord (comp.getD i 0) (comp.getD (i + 1) 0))

/-- peyl/noncrossing.py:108-116 `finest`. -/
def finest (n : Nat) : NPar := ⟨n, (List.range (2 * n)).map fun i => if i % 2 = 0 then i + 1 else i - 1⟩

/-- peyl/noncrossing.py:118-121 `coarsest`; Python's `(i-1) % (2n)` is non-negative. -/
def coarsest (n : Nat) : NPar :=
  ⟨n, (List.range (2 * n)).map fun i => if i % 2 = 1 then (i + 1) % (2 * n) else (i + 2 * n - 1) % (2 * n)⟩

/-- peyl/noncrossing.py:123-127 `all_of_size` (the generator's elements, in order). -/
def allOfSize (n : Nat) : Except Err (List NPar) := do
  let seqs ← TL.generateSequences ((2 * n : Nat) : Int)
  .ok (seqs.map fun s => ⟨n, s⟩)

/-- peyl/noncrossing.py:147-151, the inner loop of `from_components` for one sorted component. -/
def linkComponent (inv : List Nat) (comp : List Nat) : List Nat :=
  (List.range comp.length).foldl (init := inv) fun inv i =>
    let a := comp.getD i 0
    let b := comp.getD ((i + 1) % comp.length) 0
    (inv.set (2 * a + 1) (2 * b)).set (2 * b) (2 * a + 1)

/-- peyl/noncrossing.py:129-156 `from_components`. -/
def fromComponents (n : Nat) (components : List (List Int)) : Except Err NPar :=
  if ¬ arePairwiseDisjoint components then .error .value
  else if ¬ (components.all fun comp => comp.all fun x => 0 ≤ x ∧ x < n) then .error .value
  else do
    let sorted := components.map fun comp => (comp.map Int.toNat).insertionSort (· ≤ ·)
    let inv := sorted.foldl linkComponent (finest n).inv
    if ← TL.isCM inv then .ok ⟨n, inv⟩ else .error .value

/-- peyl/noncrossing.py:158-169 `from_permutation`. -/
def fromPermutation (perm : List Nat) : Except Err NPar := do
  if ← Perms.isParallelDescendingCycles perm then
    let cs ← Perms.disjointCycles perm
    fromComponents perm.length (cs.map fun c => c.map Int.ofNat)
  else .error .value

/-- peyl/noncrossing.py:172-184 `to_permutation`. -/
def toPermutation (p : NPar) : Except Err (List Nat) :=
  (List.range p.n).mapM fun i => do
    let v ← lookup p.inv (2 * i)
    .ok (v / 2)

/-- peyl/noncrossing.py:199-206, the `while True` loop of `components`; the bound on the number of rounds is a model artefact. -/
def groupLoop (inv : List Nat) (i : Nat) : Nat → Nat → List Nat → List Bool → Except Err (List Nat × List Bool)
  | 0, _, _, _ => .error .fuel
  | fuel + 1, j, group, seen => do
    let _ ← lookup seen j
    let v ← lookup inv (2 * j + 1)
    if i = v / 2 then .ok (group ++ [j], seen.set j true) else groupLoop inv i fuel (v / 2) (group ++ [j]) (seen.set j true)

/-- peyl/noncrossing.py:186-210 `components`. -/
def components (p : NPar) : Except Err (List (List Nat)) := do
  let r ← (List.range p.n).foldlM (init := (([] : List (List Nat)), List.replicate p.n false)) fun st i => do
    if st.2.getD i false then .ok st
    else do
      let c ← groupLoop p.inv i p.n i [] st.2
      .ok (st.1 ++ [c.1], c.2)
  .ok r.1

/-- `itertools.combinations(l, 2)`. -/
def pairs2 : List Nat → List (Nat × Nat)
  | [] => []
  | x :: l => l.map (fun y => (x, y)) ++ pairs2 l

/-- peyl/noncrossing.py:212-219 `edges`. -/
def edges (p : NPar) : Except Err (List (Nat × Nat)) := do
  let cs ← p.components
  .ok (cs.flatMap pairs2)

/-- peyl/noncrossing.py:221-231 `left_complement`. -/
def leftComplement (p : NPar) : Except Err NPar := do
  let inv ← (List.range (2 * p.n)).mapM fun i => do
    let v ← lookup p.inv ((i + 1) % (2 * p.n))
    .ok ((v + 2 * p.n - 1) % (2 * p.n))
  .ok ⟨p.n, inv⟩

/-- peyl/noncrossing.py:233-241 `right_complement`. -/
def rightComplement (p : NPar) : Except Err NPar := do
  let inv ← (List.range (2 * p.n)).mapM fun i => do
    let v ← lookup p.inv ((i + 2 * p.n - 1) % (2 * p.n))
    .ok ((v + 1) % (2 * p.n))
  .ok ⟨p.n, inv⟩

/-- peyl/noncrossing.py:246-255 `artin_word`. -/
def artinWord (p : NPar) : Except Err (List (Nat × Int)) := do
  let cs ← p.components
  let ws ← cs.mapM componentToArtinWord
  .ok ws.flatten

end NPar

/-- peyl/braid.py:270-274, the dataclass `NParTable`: an `NFTable` with the dictionary `bkl_gens`. -/
structure NParTable extends NFTable NPar where
  bklGens : List ((Nat × Nat) × Nat)

namespace NParTable
open NPar

/-- peyl/braid.py:318-323, the renormalisation loop; `ω k` is the choice made by the `k`-th `compatible_edges.pop()`. -/
def renormLoop (n : Nat) (ω : Nat → Nat) : Nat → Nat → NPar → NPar → Except Err (NPar × NPar)
  | 0, _, _, _ => .error .fuel
  | fuel + 1, k, w, z => do
    let rc ← w.rightComplement
    let ew ← rc.edges
    let ez ← z.edges
    let common := ew.filter fun e => ez.contains e
    if common.isEmpty then .ok (w, z)
    else do
      let edge ← lookup common (ω k % common.length)
      let wp ← w.toPermutation
      let e ← NPar.fromComponents n [[(edge.1 : Int), (edge.2 : Int)]]
      let ep ← e.toPermutation
      let zp ← z.toPermutation
      let wp ← Perms.compose wp ep
      let zp ← Perms.compose ep zp
      let w ← NPar.fromPermutation wp
      let z ← NPar.fromPermutation zp
      renormLoop n ω fuel (k + 1) w z

/-- peyl/braid.py:315-331, the entry for one pair: `(renorm, is_normalised)`. -/
def renormEntry (n : Nat) (npars : List NPar) (ω : Nat → Nat) (x y : NPar) : Except Err ((Nat × Nat) × Bool) := do
  let wz ← renormLoop n ω (n + 1) 0 x y
  let i ← dictIndex npars wz.1
  let j ← dictIndex npars wz.2
  .ok ((i, j), wz.1 == x && wz.2 == y)

/-- peyl/braid.py:311-313: `tau[i] = [tau[1][tau[i-1][x]] for x in range(order)]`. -/
def tauRows (one : List Nat) (order : Nat) : Nat → List Nat → Except Err (List (List Nat))
  | 0, _ => .ok []
  | k + 1, prev => do
    let row ← (List.range order).mapM fun x => do
      let y ← lookup prev x
      lookup one y
    let rest ← tauRows one order k row
    .ok (row :: rest)

/-- peyl/braid.py:276-334 `NParTable.create` after the size guard.  `table.tau_left[0] = ..` raises IndexError for `n = 0`, and
`table.tau_left[1] = ..` for `n = 1`. -/
def build (ω : NPar → NPar → Nat → Nat) (n : Nat) : Except Err NParTable := do
  let npars ← allOfSize n
  let order := catalanNum n
  let artinGens ← (List.range (n - 1)).mapM fun (i : Nat) => do
    let p ← fromComponents n [[(i : Int), (i : Int) + 1]]
    dictIndex npars p
  let bklGens ← (pairs2 (List.range n)).mapM fun ij => do
    let p ← fromComponents n [[(ij.1 : Int), (ij.2 : Int)]]
    let k ← dictIndex npars p
    .ok (ij, k)
  let id ← dictIndex npars (finest n)
  let D ← dictIndex npars (coarsest n)
  let leftComp ← npars.mapM fun p => do
    let q ← p.leftComplement
    dictIndex npars q
  let rightComp ← npars.mapM fun p => do
    let q ← p.rightComplement
    dictIndex npars q
  let artinWord ← npars.mapM NPar.artinWord
  if n < 2 then .error .index
  else do
    let tauL ← npars.mapM fun p => do
      let q ← p.leftComplement
      let q ← q.leftComplement
      dictIndex npars q
    let tauR ← npars.mapM fun p => do
      let q ← p.rightComplement
      let q ← q.rightComplement
      dictIndex npars q
    let restL ← tauRows tauL order (n - 2) tauL
    let restR ← tauRows tauR order (n - 2) tauR
    let entries ← npars.mapM fun x => npars.mapM fun y => renormEntry n npars (ω x y) x y
    .ok {
      n := n
      order := order
      divs := npars
      id := id
      D := D
      artinGens := artinGens
      leftComp := leftComp
      rightComp := rightComp
      tauOrder := n
      tauLeft := List.range order :: tauL :: restL
      tauRight := List.range order :: tauR :: restR
      renorm := entries.map fun row => row.map (·.1)
      isNormalised := entries.map fun row => row.map (·.2)
      follows := entries.map fun row =>
        (row.zipIdx.filter fun e => e.1.2 && e.2 != id && e.2 != D).map (·.2)
      artinWord := artinWord
      bklGens := bklGens }

/-- peyl/braid.py:276-334 `NParTable.create`.  In the code `lim = 5000`; the theorems hold for every value of the guard. -/
def create (lim : Nat) (ω : NPar → NPar → Nat → Nat) (n : Nat) : Except Err NParTable :=
  if catalanNum n ≥ lim then .error .value else build ω n

end NParTable

namespace DGNF
variable (lim : Nat) (ω : NPar → NPar → Nat → Nat)

/-- peyl/braid.py:624-626 `DGNF._nf_table`. -/
def tbl (n : Nat) : Except Err (NFTable NPar) := do
  let t ← NParTable.create lim ω n
  .ok t.toNFTable

/-- peyl/braid.py:654-659 `from_npar_seq`. -/
def fromNparSeq (n : Nat) (npars : List NPar) : Except Err NF := do
  pyAssert (npars.all fun p => p.n == n)
  let t ← tbl lim ω n
  let idx ← npars.mapM (dictIndex t.divs)
  NF.fromIndices (tbl lim ω) n t idx

/-- peyl/braid.py:636-638 `from_npar`. -/
def fromNpar (p : NPar) : Except Err NF := fromNparSeq lim ω p.n [p]

/-- `d[k]` on a dictionary given by its items. -/
def dictGet (d : List ((Nat × Nat) × Nat)) (k : Nat × Nat) : Except Err Nat :=
  match d.lookup k with
  | some v => .ok v
  | none => .error .key

/-- peyl/braid.py:640-652 `DGNF.bkl_gens`, as the list of its items. -/
def bklGens (n : Nat) : Except Err (List ((Nat × Nat) × NF)) := do
  let id ← NF.identity (tbl lim ω) n
  let t ← NParTable.create lim ω n
  ((List.range n).flatMap fun i => (List.range n).map fun j => (i, j)).mapM fun ij =>
    if ij.1 = ij.2 then .ok (ij, id)
    else do
      let k ← dictGet t.bklGens (min ij.1 ij.2, max ij.1 ij.2)
      let x ← NF.make (tbl lim ω) n 0 [k]
      .ok (ij, x)

end DGNF

/-! ### Conversions -/

section
variable (limG : Nat) (ωG : List Nat → List Nat → Nat → Nat) (limD : Nat) (ωD : NPar → NPar → Nat → Nat)

/-- `functools.reduce(operator.mul, [table[f] for f in factors], identity)`. -/
def reduceMul {T : Type} (tbl : Nat → Except Err (NFTable T)) (images : List NF) (factors : List Nat) (e : NF) : Except Err NF := do
  let xs ← factors.mapM (lookup images)
  xs.foldlM (NF.mul tbl) e

/-- peyl/braid.py:695-699 `DGNF._factors_to_GNF`. -/
def DGNF.factorsToGNF (n : Nat) : Except Err (List NF) := do
  let t ← DGNF.tbl limD ωD n
  t.divs.mapM fun p => do
    let x ← DGNF.fromNpar limD ωD p
    let w ← NF.artinWord (DGNF.tbl limD ωD) x
    NF.fromArtinWord (GNF.tbl limG ωG) n w

/-- peyl/braid.py:701-708 `to_GNF`. -/
def DGNF.toGNF (x : NF) : Except Err NF := do
  let t ← DGNF.tbl limD ωD x.n
  let gnfs ← DGNF.factorsToGNF limG ωG limD ωD x.n
  let e ← NF.identity (GNF.tbl limG ωG) x.n
  let r ← reduceMul (GNF.tbl limG ωG) gnfs x.factors e
  if x.power ≠ 0 then do
    let d ← lookup gnfs t.D
    let dp ← NF.pow (GNF.tbl limG ωG) d x.power
    NF.mul (GNF.tbl limG ωG) dp r
  else .ok r

/-- peyl/braid.py:585-589 `GNF._factors_to_DGNF`. -/
def GNF.factorsToDGNF (n : Nat) : Except Err (List NF) := do
  let t ← GNF.tbl limG ωG n
  t.divs.mapM fun p => do
    let x ← GNF.fromPerm limG ωG p
    let w ← NF.artinWord (GNF.tbl limG ωG) x
    NF.fromArtinWord (DGNF.tbl limD ωD) n w

/-- peyl/braid.py:591-598 `to_DGNF`. -/
def GNF.toDGNF (x : NF) : Except Err NF := do
  let t ← GNF.tbl limG ωG x.n
  let dgnfs ← GNF.factorsToDGNF limG ωG limD ωD x.n
  let e ← NF.identity (DGNF.tbl limD ωD) x.n
  let r ← reduceMul (DGNF.tbl limD ωD) dgnfs x.factors e
  if x.power ≠ 0 then do
    let d ← lookup dgnfs t.D
    let dp ← NF.pow (DGNF.tbl limD ωD) d x.power
    NF.mul (DGNF.tbl limD ωD) dp r
  else .ok r

end

namespace BraidGroup
variable (lim : Nat) (ω : NPar → NPar → Nat → Nat)

/-- `{**d, **e}`: later items win. -/
def dictUpdate (d e : List ((Nat × Nat) × NF)) : List ((Nat × Nat) × NF) :=
  e.foldl (fun d kv => if d.any (·.1 == kv.1) then d.map (fun x => if x.1 == kv.1 then kv else x) else d ++ [kv]) d

/-- peyl/braid.py:732-743 `BraidGroup.bkl_gens` (with the constructor's assertion), as the list of its items. -/
def bklGens (n : Nat) : Except Err (List ((Nat × Nat) × NF)) := do
  pyAssert (1 ≤ n)
  let t ← NParTable.create lim ω n
  let d1 ← t.bklGens.mapM fun gi => do
    let x ← NF.make (DGNF.tbl lim ω) n 0 [gi.2]
    .ok (gi.1, x)
  let d2 ← t.bklGens.mapM fun gi => do
    let x ← NF.make (DGNF.tbl lim ω) n 0 [gi.2]
    .ok ((gi.1.2, gi.1.1), x)
  let d3 ← (List.range n).mapM fun i => do
    let x ← NF.identity (DGNF.tbl lim ω) n
    .ok ((i, i), x)
  .ok (dictUpdate (dictUpdate (dictUpdate [] d1) d2) d3)

/-- peyl/braid.py:763-775 `from_npar`. -/
def fromNpar (n : Nat) (p : NPar) : Except Err NF := do
  pyAssert (1 ≤ n)
  if p.n ≠ n then .error .value
  else do
    let t ← NParTable.create lim ω n
    let i ← dictIndex t.divs p
    if i = t.id then NF.make (DGNF.tbl lim ω) n 0 []
    else if i = t.D then NF.make (DGNF.tbl lim ω) n 1 []
    else NF.make (DGNF.tbl lim ω) n 0 [i]

end BraidGroup
end Peyl
