import Verif.Model.Permutations
import Mathlib.Data.List.DropRight
import Mathlib.Data.Nat.Factorial.Basic
/-!
# Model of `peyl/braid.py`: tables and normal forms

Python lists of ints are `List Nat`; indexing past the end raises IndexError (`lookup`).  Indices stored in normal forms
are natural numbers: Python's negative indices are not modelled.  `set.pop` and `random.choice` are modelled by an
arbitrary oracle `ω` which is consulted at every call, so a theorem for all `ω` covers every possible choice.
The memoisation of `create` (`functools.cache`) is not modelled: the table is a function of its arguments.
-/
namespace Peyl

/-- `l[i][j]`. -/
def lookup2 {α : Type} (l : List (List α)) (i j : Nat) : Except Err α := do
  let r ← lookup l i
  lookup r j

/-- `index[x]` for the dict `{x: i for i, x in enumerate(l)}`: KeyError when missing.  (The keys enumerated by the code are
distinct, which is proved, so first and last position coincide.) -/
def dictIndex {α : Type} [BEq α] (l : List α) (x : α) : Except Err Nat :=
  match l.idxOf? x with
  | some i => .ok i
  | none => .error .key

/-- peyl/braid.py:42-79, the dataclass `NFTable`.  The field `index` is `dictIndex divs`. -/
structure NFTable (T : Type) where
  n : Nat
  order : Nat
  divs : List T
  id : Nat
  D : Nat
  artinGens : List Nat
  leftComp : List Nat
  rightComp : List Nat
  tauOrder : Nat
  tauLeft : List (List Nat)
  tauRight : List (List Nat)
  renorm : List (List (Nat × Nat))
  isNormalised : List (List Bool)
  follows : List (List Nat)
  artinWord : List (List (Nat × Int))

namespace NFTable
variable {T : Type} (t : NFTable T)

/-- peyl/braid.py:87-89, the pair loop of `is_factors_normalised`. -/
def pairsNormalised : List Nat → Except Err Bool
  | x :: y :: l => do
    if ← lookup2 t.isNormalised x y then pairsNormalised (y :: l) else .ok false
  | _ => .ok true

/-- peyl/braid.py:81-90 `is_factors_normalised`. -/
def isFactorsNormalised (factors : List Nat) : Except Err Bool := do
  if ← t.pairsNormalised factors then
    .ok (factors.length == 0 || (factors.head? != some t.D && factors.getLast? != some t.id))
  else .ok false

/-- peyl/braid.py:99, 101, 103: `factors[i], factors[i+1] = self.renorm[factors[i]][factors[i+1]]`. -/
def renormAt (fs : List Nat) (i : Nat) : Except Err (List Nat) := do
  let x ← lookup fs i
  let y ← lookup fs (i + 1)
  let r ← lookup2 t.renorm x y
  .ok ((fs.set i r.1).set (i + 1) r.2)

/-- peyl/braid.py:105-112 (and 144-152): cut the leading `D`s and the trailing identities. -/
def cut (fs : List Nat) : Nat × List Nat :=
  let r := fs.dropWhile (· == t.D)
  (fs.length - r.length, r.rdropWhile (· == t.id))

/-- peyl/braid.py:92-112 `normalise_factors`. -/
def normaliseFactors (seq : List Nat) : Except Err (Nat × List Nat) := do
  let fs ← (List.range (seq.length - 1)).foldlM (init := seq) fun fs i => do
    let fs ← t.renormAt fs i
    let fs ← (List.range i).reverse.foldlM (init := fs) t.renormAt
    (List.range' (i + 1) (fs.length - 1 - (i + 1))).foldlM (init := fs) t.renormAt
  .ok (t.cut fs)

/-- peyl/braid.py:137-142, the inner loop of `product_normalised_factors` combing backwards from `j - 1` to `0`. -/
def combBack : Nat → List Nat → Except Err (List Nat)
  | 0, fs => .ok fs
  | j + 1, fs => do
    let a ← lookup fs j
    let b ← lookup fs (j + 1)
    let r ← lookup2 t.renorm a b
    if r.1 == a then .ok fs else combBack j ((fs.set j r.1).set (j + 1) r.2)

/-- peyl/braid.py:126-142, the outer loop of `product_normalised_factors`: `cnt` iterations remain, `i` is the index. -/
def productLoop : Nat → Nat → List Nat → Except Err (List Nat)
  | 0, _, fs => .ok fs
  | cnt + 1, i, fs => do
    let a ← lookup fs i
    let b ← lookup fs (i + 1)
    let r ← lookup2 t.renorm a b
    if r.1 == a then .ok fs
    else do
      let fs ← t.combBack i ((fs.set i r.1).set (i + 1) r.2)
      productLoop cnt (i + 1) fs

/-- peyl/braid.py:118-119 and 415-421: the condition of the fast paths. -/
def canConcatenate (left right : List Nat) : Except Err Bool :=
  match left.getLast?, right.head? with
  | some x, some y => lookup2 t.isNormalised x y
  | _, _ => .ok true

/-- peyl/braid.py:114-152 `product_normalised_factors`. -/
def productNormalisedFactors (left right : List Nat) : Except Err (Nat × List Nat) := do
  if ← t.canConcatenate left right then .ok (0, left ++ right)
  else
    let fs ← t.productLoop ((left.length + right.length - 1) - (left.length - 1)) (left.length - 1) (left ++ right)
    .ok (t.cut fs)

/-- peyl/braid.py:162-168, the generator `helper` of `normal_forms`, as the list of what it yields. -/
def normalFormsFrom : Nat → Nat → Except Err (List (List Nat))
  | 0, _ => .ok [[]]
  | k + 1, following => do
    let xs ← lookup t.follows following
    let rs ← xs.mapM fun x => do
      let r ← normalFormsFrom k x
      .ok (r.map (x :: ·))
    .ok rs.flatten

/-- peyl/braid.py:154-170 `normal_forms`. -/
def normalForms (length : Nat) (following : Option Nat) : Except Err (List (List Nat)) :=
  t.normalFormsFrom length (following.getD t.D)

/-- `d[y] += c` on a defaultdict(int), as an association list in insertion order. -/
def dictAdd (d : List (Nat × Nat)) (y c : Nat) : List (Nat × Nat) :=
  match d with
  | [] => [(y, c)]
  | (z, k) :: d => if z = y then (z, k + c) :: d else (z, k) :: dictAdd d y c

/-- peyl/braid.py:183-188, one round of `count_normal_forms`. -/
def countStep (counts : List (Nat × Nat)) : Except Err (List (Nat × Nat)) :=
  counts.foldlM (init := []) fun acc xc => do
    let ys ← lookup t.follows xc.1
    .ok (ys.foldl (fun acc y => dictAdd acc y xc.2) acc)

/-- peyl/braid.py:172-190 `count_normal_forms`.  `{x: 1 for x in self.follows[last]}` keeps one entry per key. -/
def countNormalForms (length : Nat) (following : Option Nat) : Except Err Nat :=
  if length = 0 then .ok 1
  else do
    let xs ← lookup t.follows (following.getD t.D)
    let counts ← (List.range (length - 1)).foldlM (init := xs.dedup.map fun x => (x, 1)) fun counts _ => t.countStep counts
    .ok (counts.map (·.2)).sum

/-- peyl/braid.py:192-199 `sample`; the `i`-th call of `rand.choice` picks position `ω i` (reduced into range);
`choice` of an empty list raises IndexError. -/
def sampleLoop (ω : Nat → Nat) : Nat → Nat → Nat → Except Err (List Nat)
  | 0, _, _ => .ok []
  | k + 1, i, last => do
    let xs ← lookup t.follows last
    let x ← lookup xs (ω i % xs.length)
    let r ← sampleLoop ω k (i + 1) x
    .ok (x :: r)

def sample (ω : Nat → Nat) (length : Nat) : Except Err (List Nat) := t.sampleLoop ω length 0 t.D

end NFTable

/-! ### The permutation table -/

namespace PermTable
open Perms

/-- peyl/braid.py:252-255, the renormalisation loop; `ω k` is the choice made by the `k`-th `diff.pop()`. -/
def renormLoop (gens : List (List Nat)) (ω : Nat → Nat) : Nat → Nat → List Nat → List Nat → Except Err (List Nat × List Nat)
  | 0, _, _, _ => .error .fuel
  | fuel + 1, k, w, z =>
    let diff := (leftDescentSet z).filter fun s => !((rightDescentSet w).contains s)
    if diff.isEmpty then .ok (w, z)
    else do
      let s ← lookup diff (ω k % diff.length)
      let g ← lookup gens s
      let w ← compose w g
      let z ← compose g z
      renormLoop gens ω fuel (k + 1) w z

/-- peyl/braid.py:247-261, the entry for one pair: `(renorm, is_normalised)`. -/
def renormEntry (perms gens : List (List Nat)) (ω : Nat → Nat) (x y : List Nat) : Except Err ((Nat × Nat) × Bool) := do
  let wz ← renormLoop gens ω (length y + 1) 0 x y
  let i ← dictIndex perms wz.1
  let j ← dictIndex perms wz.2
  .ok ((i, j), x == wz.1 && y == wz.2)

/-- peyl/braid.py:212-267 `PermTable.create` after the size guard.  The preallocated lists that the code fills in loops
over `perms` in order are built by `mapM` in the same order.  `ω x y` is the oracle for the pair `(x, y)`. -/
def build (ω : List Nat → List Nat → Nat → Nat) (n : Nat) : Except Err (NFTable (List Nat)) := do
  let perms := elements n
  let id ← dictIndex perms (identity n)
  let D ← dictIndex perms (longestElement n)
  let gens ← coxGens n
  let artinGens ← gens.mapM (dictIndex perms)
  let w0 := longestElement n
  let leftComp ← perms.mapM fun p => do
    let q ← compose w0 (inverse p)
    dictIndex perms q
  let rightComp ← perms.mapM fun p => do
    let q ← compose (inverse p) w0
    dictIndex perms q
  let tau ← perms.mapM fun p => do
    let q ← compose w0 p
    let q ← compose q w0
    dictIndex perms q
  let entries ← perms.mapM fun x => perms.mapM fun y => renormEntry perms gens (ω x y) x y
  let artinWord ← perms.mapM fun p => do
    let w ← shortlex p
    .ok (w.map fun s => (s, (1 : Int)))
  .ok {
    n := n
    order := n.factorial
    divs := perms
    id := id
    D := D
    artinGens := artinGens
    leftComp := leftComp
    rightComp := rightComp
    tauOrder := 2
    tauLeft := [List.range n.factorial, tau]
    tauRight := [List.range n.factorial, tau]
    renorm := entries.map fun row => row.map (·.1)
    isNormalised := entries.map fun row => row.map (·.2)
    follows := entries.map fun row =>
      (row.zipIdx.filter fun e => e.1.2 && e.2 != id && e.2 != D).map (·.2)
    artinWord := artinWord }

/-- peyl/braid.py:205-267 `PermTable.create`.  In the code `lim = 7`; the theorems hold for every value of the guard. -/
def create (lim : Nat) (ω : List Nat → List Nat → Nat → Nat) (n : Nat) : Except Err (NFTable (List Nat)) :=
  if n ≥ lim then .error .value else build ω n

end PermTable

/-! ### Normal form objects -/

/-- peyl/braid.py:521-534 and 606-621: the fields of `GNF` and `DGNF`. -/
structure NF where
  n : Nat
  power : Int
  factors : List Nat
deriving DecidableEq, Repr

namespace NF
variable {T : Type} (tbl : Nat → Except Err (NFTable T))

/-- peyl/braid.py:357-359: construction runs `__post_init__`. -/
def make (n : Nat) (power : Int) (factors : List Nat) : Except Err NF := do
  let t ← tbl n
  pyAssert (← t.isFactorsNormalised factors)
  .ok ⟨n, power, factors⟩

/-- peyl/braid.py:361-364 `identity`. -/
def identity (n : Nat) : Except Err NF := make tbl n 0 []

/-- peyl/braid.py:366-370 `artin_gens`. -/
def artinGens (n : Nat) : Except Err (List NF) := do
  let t ← tbl n
  t.artinGens.mapM fun f => make tbl n 0 [f]

/-- peyl/braid.py:372-378 `canonical_factors`. -/
def canonicalFactors (x : NF) : Except Err (List T) := do
  let t ← tbl x.n
  x.factors.mapM (lookup t.divs)

/-- peyl/braid.py:392-394 `canonical_length`. -/
def canonicalLength (x : NF) : Nat := x.factors.length

/-- peyl/braid.py:396-398 `inf`. -/
def inf (x : NF) : Int := x.power

/-- peyl/braid.py:400-402 `sup`. -/
def sup (x : NF) : Int := x.power + x.factors.length

/-- The index `p % table.tau_order` (Python's non-negative remainder; ZeroDivisionError is reported as ValueError). -/
def tauIndex (p : Int) (order : Nat) : Except Err Nat := if order = 0 then .error .value else .ok (p % (order : Int)).toNat

/-- peyl/braid.py:404-427 `__mul__` for an `other` of the same class. -/
def mul (x y : NF) : Except Err NF :=
  if x.n ≠ y.n then .error .value
  else do
    let t ← tbl x.n
    let fast ← if y.power = 0 then t.canConcatenate x.factors y.factors else .ok false
    if fast then make tbl x.n x.power (x.factors ++ y.factors)
    else do
      let k ← tauIndex y.power t.tauOrder
      let conj ← x.factors.mapM (lookup2 t.tauRight k)
      let r ← t.productNormalisedFactors conj y.factors
      make tbl x.n (x.power + y.power + r.1) r.2

/-- peyl/braid.py:434-436 (also 574-577 and 684-687), the backwards loop carrying a power of `D` to the front.
`items` are the pairs `(factors[i], delta_pows[i])` in order; returns the conjugated factors and the final `delta_pow`. -/
def sweep (t : NFTable T) (start : Int) : List (Nat × Int) → Except Err (List Nat × Int)
  | [] => .ok ([], start)
  | (f, e) :: l => do
    let (fs, d) ← sweep t start l
    let k ← tauIndex d t.tauOrder
    let f' ← lookup2 t.tauRight k f
    .ok (f' :: fs, d + e)

/-- peyl/braid.py:429-439 `inv`. -/
def invert (x : NF) : Except Err NF := do
  let t ← tbl x.n
  let comps ← x.factors.reverse.mapM (lookup t.leftComp)
  let (fs, d) ← sweep t (-x.power) (comps.map fun f => (f, -1))
  let r ← t.normaliseFactors fs
  make tbl x.n (d + r.1) r.2

/-- peyl/braid.py:448-453, the loop of `__pow__`; the fuel is at least the number of binary digits. -/
def powLoop : Nat → NF → NF → Nat → Except Err NF
  | 0, _, _, _ => .error .fuel
  | fuel + 1, acc, pow2, e =>
    if e = 0 then .ok acc
    else do
      let acc ← if e % 2 = 1 then mul tbl acc pow2 else .ok acc
      let pow2 ← mul tbl pow2 pow2
      powLoop fuel acc pow2 (e / 2)

/-- peyl/braid.py:441-455 `__pow__`. -/
def pow (x : NF) (e : Int) : Except Err NF := do
  let acc ← identity tbl x.n
  if e = 0 then .ok acc
  else do
    let pow2 ← if e > 0 then .ok x else invert tbl x
    powLoop tbl (e.natAbs + 1) acc pow2 e.natAbs

/-- peyl/braid.py:457-464 `artin_word`. -/
def artinWord (x : NF) : Except Err (List (Nat × Int)) := do
  let t ← tbl x.n
  let delta ← lookup t.artinWord t.D
  let delta := if x.power < 0 then delta.reverse.map fun se => (se.1, -se.2) else delta
  let ws ← x.factors.mapM (lookup t.artinWord)
  .ok ((List.replicate x.power.natAbs delta).flatten ++ ws.flatten)

/-- peyl/braid.py:466-475 `magma_artin_word`. -/
def magmaArtinWord (x : NF) : Except Err (List Int) := do
  let w ← artinWord tbl x
  pyAssert (w.all fun se => se.2.natAbs == 1)
  .ok (w.map fun se => ((se.1 : Int) + 1) * se.2)

/-- peyl/braid.py:477-480 `substring`. -/
def substring (x : NF) (i j : Nat) : Except Err NF := do
  pyAssert (i ≤ j && j ≤ x.factors.length)
  make tbl x.n x.power ((x.factors.take j).drop i)

/-- peyl/braid.py:482-489 `nf_descendants` (the generator's elements, in order). -/
def nfDescendants (x : NF) : Except Err (List NF) := do
  let t ← tbl x.n
  let ws ← t.normalForms 1 x.factors.getLast?
  ws.mapM fun w => make tbl x.n x.power (x.factors ++ w)

/-- peyl/braid.py:491-497 `nf_suffixes` (note that the suffixes keep `self.power`). -/
def nfSuffixes (x : NF) (length : Nat) : Except Err (List NF) := do
  let t ← tbl x.n
  let ws ← t.normalForms length x.factors.getLast?
  ws.mapM fun w => make tbl x.n x.power w

/-- peyl/braid.py:499-502 `count_all_of_length`. -/
def countAllOfLength (n length : Nat) : Except Err Nat := do
  let t ← tbl n
  t.countNormalForms length none

/-- peyl/braid.py:504-510 `all_of_length`. -/
def allOfLength (n length : Nat) (power : Int) : Except Err (List NF) := do
  let t ← tbl n
  let ws ← t.normalForms length none
  ws.mapM fun w => make tbl n power w

/-- peyl/braid.py:512-517 `sample`. -/
def sample (ω : Nat → Nat) (n length : Nat) : Except Err NF := do
  let t ← tbl n
  let w ← t.sample ω length
  make tbl n 0 w

/-- peyl/braid.py:554-559 `GNF.from_perm_seq` and 654-659 `DGNF.from_npar_seq` once the indices are looked up. -/
def fromIndices (n : Nat) (t : NFTable T) (idx : List Nat) : Except Err NF := do
  let r ← t.normaliseFactors idx
  make tbl n r.1 r.2

/-- peyl/braid.py:561-580 `GNF.from_artin_word` and peyl/braid.py:661-690 `DGNF.from_artin_word` (identical bodies).  Letters are
non-negative indices. -/
def fromArtinWord (n : Nat) (word : List (Nat × Int)) : Except Err NF := do
  let t ← tbl n
  let items ← word.mapM fun ie =>
    if ie.2 ≥ 0 then do
      let f ← lookup t.artinGens ie.1
      .ok (List.replicate ie.2.natAbs (f, (0 : Int)))
    else do
      let f ← lookup t.artinGens ie.1
      let f ← lookup t.leftComp f
      .ok (List.replicate ie.2.natAbs (f, (-1 : Int)))
  let (fs, d) ← sweep t 0 items.flatten
  let r ← t.normaliseFactors fs
  make tbl n (d + r.1) r.2

end NF

/-! ### `GNF` and `BraidGroup` -/

namespace GNF
variable (lim : Nat) (ω : List Nat → List Nat → Nat → Nat)

/-- peyl/braid.py:537-539 `GNF._nf_table`. -/
abbrev tbl : Nat → Except Err (NFTable (List Nat)) := PermTable.create lim ω

/-- peyl/braid.py:554-559 `from_perm_seq`. -/
def fromPermSeq (n : Nat) (perms : List (List Nat)) : Except Err NF := do
  pyAssert (perms.all fun p => p.length == n)
  let t ← tbl lim ω n
  let idx ← perms.mapM (dictIndex t.divs)
  NF.fromIndices (tbl lim ω) n t idx

/-- peyl/braid.py:549-552 `from_perm`. -/
def fromPerm (perm : List Nat) : Except Err NF := fromPermSeq lim ω perm.length [perm]

end GNF

namespace BraidGroup
variable (lim : Nat) (ω : List Nat → List Nat → Nat → Nat)

/-- peyl/braid.py:722-724 `id` (with the assertion `n >= 1` of the constructor, peyl/braid.py:719-720). -/
def id (n : Nat) : Except Err NF := do
  pyAssert (1 ≤ n)
  NF.make (GNF.tbl lim ω) n 0 []

/-- peyl/braid.py:726-730 `gens`. -/
def gens (n : Nat) : Except Err (List NF) := do
  pyAssert (1 ≤ n)
  let t ← GNF.tbl lim ω n
  (List.range (n - 1)).mapM fun i => do
    let f ← lookup t.artinGens i
    NF.make (GNF.tbl lim ω) n 0 [f]

/-- peyl/braid.py:745-748 `invs`. -/
def invs (n : Nat) : Except Err (List NF) := do
  let gs ← gens lim ω n
  gs.mapM (NF.invert (GNF.tbl lim ω))

/-- peyl/braid.py:750-761 `positive_lift`. -/
def positiveLift (n : Nat) (perm : List Nat) : Except Err NF :=
  if perm.length ≠ n then .error .value
  else if Perms.isIdentity perm then NF.make (GNF.tbl lim ω) n 0 []
  else if Perms.isLongestElement perm then NF.make (GNF.tbl lim ω) n 1 []
  else do
    let t ← GNF.tbl lim ω n
    let i ← dictIndex t.divs perm
    NF.make (GNF.tbl lim ω) n 0 [i]

/-- peyl/braid.py:777-780 `from_gnf_pair`. -/
def fromGnfPair (n : Nat) (inf : Int) (words : List (List Nat)) : Except Err NF := do
  let d ← NF.make (GNF.tbl lim ω) n inf []
  let e ← id lim ω n
  let r ← words.foldlM (init := e) fun acc w => do
    let x ← positiveLift lim ω n w
    NF.mul (GNF.tbl lim ω) acc x
  NF.mul (GNF.tbl lim ω) d r

end BraidGroup
end Peyl
