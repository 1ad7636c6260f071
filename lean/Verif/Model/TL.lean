import Verif.Model.Matrix
import Verif.Model.Permutations
import Mathlib.Data.Nat.Choose.Basic
/-!
# Model of `peyl/tl.py`

Sequences inside diagrams are lists of natural numbers: the constructor of a diagram rejects anything with a negative entry.
Numbers of dots are natural numbers for the same reason.  Drawing is modelled in Model/TLDraw.lean.
-/
namespace Peyl
namespace TL

/-- peyl/tl.py:36-41, the loop over the points with its stack; `stack.pop()` of an empty list raises IndexError. -/
def stackLoop (seq : List Int) : List Nat → List Int → Except Err Bool
  | [], _ => .ok true
  | i :: is, stack => do
    let s ← lookup seq i
    if (i : Int) < s then stackLoop seq is (s :: stack)
    else
      match stack with
      | [] => .error .index
      | x :: stack => if x ≠ i then .ok false else stackLoop seq is stack

/-- peyl/tl.py:27-31, the test of one point.  (`and` is lazy, so `seq[seq[i]]` is evaluated for a valid index only.) -/
def pointOk (seq : List Int) (i : Nat) : Except Err Bool := do
  let s ← lookup seq i
  if ¬ (0 ≤ s ∧ s < seq.length ∧ s ≠ i) then .ok false
  else do
    let t ← lookup seq s.toNat
    .ok (t == i)

/-- `all(f(x) for x in l)`, which stops at the first `False`. -/
def allM {α : Type} (f : α → Except Err Bool) : List α → Except Err Bool
  | [] => .ok true
  | x :: xs => do if ← f x then allM f xs else .ok false

/-- peyl/tl.py:24-43 `is_crossingless_matching`. -/
def isCrossinglessMatching (seq : List Int) : Except Err Bool := do
  if ← allM (pointOk seq) (List.range seq.length) then stackLoop seq (List.range seq.length) [] else .ok false

/-- `is_crossingless_matching` of a sequence of natural numbers. -/
def isCM (seq : List Nat) : Except Err Bool := isCrossinglessMatching (seq.map Int.ofNat)

/-- peyl/tl.py:56-69 `place_trees`: a generator that writes into the shared list `seq`.  The consumer of the generator (the
body of the `for _ in place_trees(..)` loop) is the continuation `body`, run at every `yield`; the state is the shared list
together with what has been yielded to the outside so far. -/
def placeTrees (i size : Nat) (body : List Nat × List (List Nat) → List Nat × List (List Nat))
    (st : List Nat × List (List Nat)) : List Nat × List (List Nat) :=
  let st := if size = 0 then body st else st
  (List.finRange size).foldl (fun st leftSize =>
    let l := i
    let r := i + 1 + 2 * leftSize.1
    let st := ((st.1.set l r).set r l, st.2)
    placeTrees (l + 1) leftSize.1 (fun st => placeTrees (r + 1) (size - leftSize.1 - 1) body st) st) st
termination_by size

/-- peyl/tl.py:45-72 `generate_sequences`.  The initial `-1`s of `seq` are written as `0`: they are overwritten. -/
def generateSequences (n : Int) : Except Err (List (List Nat)) :=
  if n < 0 ∨ n.fmod 2 = 1 then .error .value
  else .ok (placeTrees 0 (n / 2).toNat (fun st => (st.1, st.2 ++ [st.1])) (List.replicate n.toNat 0, [])).2

/-- peyl/tl.py:104-126, the `while True:` loop that follows a strand from the vertex `v` (`side` is `true` in the upper
diagram).  The bound on the number of rounds is a model artefact. -/
def follow (upper lower : List Nat) (mid : Nat) : Nat → Nat → Bool → List Bool → Except Err (Nat × List Bool)
  | 0, _, _, _ => .error .fuel
  | fuel + 1, v, false, visited => do
    let v ← lookup lower v
    if v < lower.length - mid then .ok (v, visited)
    else
      let v := lower.length - v - 1
      follow upper lower mid fuel v true (visited.set v true)
  | fuel + 1, v, true, visited => do
    let v ← lookup upper v
    if v ≥ mid then .ok (v - mid + (lower.length - mid), visited)
    else follow upper lower mid fuel (lower.length - v - 1) false (visited.set v true)

/-- peyl/tl.py:101-126, one round of the outer loop: the strand that starts at the vertex `i` of the result. -/
def strand (upper lower : List Nat) (mid : Nat) (st : List Nat × List Bool) (i : Nat) : Except Err (List Nat × List Bool) := do
  let bot := lower.length - mid
  let tv ← if i < bot then follow upper lower mid (2 * mid + 1) i false st.2
    else follow upper lower mid (2 * mid + 1) (i - bot + mid) true st.2
  .ok (st.1 ++ [tv.1], tv.2)

/-- peyl/tl.py:136-142, the `while True:` loop that runs round a bubble. -/
def bubbleLoop (upper lower : List Nat) : Nat → Nat → List Bool → Except Err (List Bool)
  | 0, _, _ => .error .fuel
  | fuel + 1, v, visited => do
    let u ← lookup upper v
    let visited := (visited.set v true).set u true
    let w ← lookup lower (lower.length - u - 1)
    let v := lower.length - w - 1
    if ← lookup visited v then .ok visited else bubbleLoop upper lower fuel v visited

/-- peyl/tl.py:131-144, one round of the loop that counts bubbles. -/
def bubble (upper lower : List Nat) (mid : Nat) (st : List Bool × Nat) (i : Nat) : Except Err (List Bool × Nat) := do
  if ← lookup st.1 i then .ok st
  else do
    let visited ← bubbleLoop upper lower (mid + 1) i st.1
    .ok (visited, st.2 + 1)

/-- peyl/tl.py:74-146 `compose`.  The indices computed by the code are never negative on crossingless diagrams. -/
def compose (upper lower : List Nat) (mid : Nat) : Except Err (List Nat × Nat) := do
  pyAssert (mid ≤ lower.length ∧ mid ≤ upper.length)
  let top := upper.length - mid
  let bot := lower.length - mid
  let rv ← (List.range (bot + top)).foldlM (strand upper lower mid) ([], List.replicate mid false)
  pyAssert (← isCM rv.1)
  let vb ← (List.range mid).foldlM (bubble upper lower mid) (rv.2, 0)
  .ok (rv.1, vb.2)

/-- peyl/tl.py:148-155 `trace_count`. -/
def traceCount (seq : List Nat) : Except Err Nat := do
  let rb ← compose seq (List.range seq.length).reverse seq.length
  pyAssert (rb.1 == [])
  .ok rb.2

/-- peyl/tl.py:157-164 `insert`. -/
def insert (outer inner : List Nat) (i : Nat) : Except Err (List Nat) := do
  pyAssert (i ≤ outer.length)
  let f := fun x => if x < i then x else x + inner.length
  .ok ((outer.take i).map f ++ inner.map (· + i) ++ (outer.drop i).map f)

end TL

/-- peyl/tl.py:167-171 `class TLDiag` (a dataclass with generated `==`, hash and order). -/
structure TLDiag where
  top : Nat
  bot : Nat
  seq : List Nat
  deriving DecidableEq, Repr

namespace TLDiag

/-- peyl/tl.py:173-181 `__init__`. -/
def make (top bot : Nat) (seq : List Nat) : Except Err TLDiag := do
  pyAssert (top + bot == seq.length)
  pyAssert (← TL.isCM seq)
  .ok ⟨top, bot, seq⟩

/-- peyl/tl.py:183-185 `id`. -/
def id (n : Nat) : Except Err TLDiag := make n n ((List.range (2 * n)).map fun i => 2 * n - i - 1)

/-- peyl/tl.py:187-194 `__mul__`. -/
def mul (upper lower : TLDiag) : Except Err (TLDiag × Nat) := do
  if upper.bot ≠ lower.top then .error .value
  else do
    let sb ← TL.compose upper.seq lower.seq upper.bot
    .ok (← make upper.top lower.bot sb.1, sb.2)

/-- peyl/tl.py:196-202 `__matmul__`. -/
def hcomp (a b : TLDiag) : Except Err TLDiag := do
  make (a.top + b.top) (a.bot + b.bot) (← TL.insert a.seq b.seq a.bot)

/-- peyl/tl.py:204-210 `flip`. -/
def flip (d : TLDiag) : Except Err TLDiag := make d.bot d.top (d.seq.reverse.map fun i => d.top + d.bot - 1 - i)

/-- The order generated by `dataclasses.dataclass(order=True)` compares the tuples `(top, bot, seq)`, i.e. the concatenated
lists lexicographically. -/
def le (a b : TLDiag) : Bool := decide ((a.top :: a.bot :: a.seq) ≤ (b.top :: b.bot :: b.seq))

end TLDiag

namespace TL

/-- peyl/tl.py:215-217 `through_strands`. -/
def throughStrands (d : TLDiag) : Nat := ((List.range d.bot).filter fun i => d.seq.getD i 0 ≥ d.bot).length

/-- peyl/tl.py:219-222 `tl_basis`. -/
def tlBasis (top bot : Nat) : Except Err (List TLDiag) := do
  pyAssert ((top + bot) % 2 == 0)
  (← generateSequences (top + bot)).mapM fun seq => TLDiag.make top bot seq

/-- peyl/tl.py:224-226 `tl_tableaux_basis`. -/
def tlTableauxBasis (top strands : Nat) : Except Err (List TLDiag) := do
  pyAssert (strands ≤ top ∧ top % 2 = strands % 2)
  .ok ((← tlBasis top strands).filter fun d => throughStrands d == strands)

/-- peyl/tl.py:228-231 `cell_dimension`. -/
def cellDimension (n r : Nat) : Except Err Int := do
  pyAssert (2 * r ≤ n)
  .ok ((n.choose r : Int) - (if r = 0 then 0 else (n.choose (r - 1) : Int)))

/-- peyl/tl.py:233-255 `cell_basis`.  (The cache is not modelled: nothing changes the returned list.) -/
def cellBasis : Nat → Nat → Except Err (List TLDiag)
  | 0, r => if 0 < 2 * r then .ok [] else do .ok [← TLDiag.id 0]
  | n + 1, 0 => do .ok [← TLDiag.id (n + 1)]
  | n + 1, r + 1 => do
    if n + 1 < 2 * (r + 1) then .ok []
    else do
      let bar ← TLDiag.id 1
      let xs ← (← cellBasis n (r + 1)).mapM fun d => TLDiag.hcomp d bar
      let ys ← (← cellBasis n r).mapM fun d => TLDiag.make (n + 1) (n + 1 - 2 * (r + 1)) d.seq
      .ok ((xs ++ ys).mergeSort TLDiag.le)

end TL

/-- peyl/tl.py:258-267 `class TLExtDiag`. -/
structure TLExtDiag where
  top : Nat
  bot : Nat
  seq : List Nat
  bubbles : Int
  deriving DecidableEq, Repr

namespace TLExtDiag

/-- peyl/tl.py:269-278 `__init__`. -/
def make (top bot : Nat) (seq : List Nat) (bubbles : Int) : Except Err TLExtDiag := do
  pyAssert (top + bot == seq.length)
  pyAssert (← TL.isCM seq)
  .ok ⟨top, bot, seq, bubbles⟩

/-- peyl/tl.py:280-282 `id`. -/
def id (n : Nat) : Except Err TLExtDiag := make n n ((List.range (2 * n)).map fun i => 2 * n - i - 1) 0

end TLExtDiag

/-- The list built by peyl/tl.py:290-292 and 360-362. -/
def TL.eSeq (i n : Nat) : List Nat :=
  let seq := (List.range (2 * n)).map fun i => 2 * n - i - 1
  let seq := (seq.set i (i + 1)).set (i + 1) i
  (seq.set (2 * n - i - 1) (2 * n - i - 2)).set (2 * n - i - 2) (2 * n - i - 1)

namespace TLExtDiag

/-- peyl/tl.py:284-293 `e`. -/
def e (i n : Nat) : Except Err TLExtDiag := do
  pyAssert (i + 1 < n)
  make n n (TL.eSeq i n) 0

/-- peyl/tl.py:295-297 `add_bubbles`. -/
def addBubbles (d : TLExtDiag) (k : Int) : Except Err TLExtDiag := make d.top d.bot d.seq (d.bubbles + k)

/-- peyl/tl.py:299-301 `split_bubbles`. -/
def splitBubbles (d : TLExtDiag) : Except Err (TLExtDiag × Int) := do .ok (← make d.top d.bot d.seq 0, d.bubbles)

/-- peyl/tl.py:303-312 `__mul__`: `compose` is called with the right factor as the upper diagram. -/
def mul (a b : TLExtDiag) : Except Err TLExtDiag := do
  if a.bot ≠ b.top then .error .value
  else do
    let sb ← TL.compose b.seq a.seq a.bot
    make a.top b.bot sb.1 (a.bubbles + b.bubbles + sb.2)

/-- peyl/tl.py:314-324 `__matmul__`. -/
def hcomp (a b : TLExtDiag) : Except Err TLExtDiag := do
  make (a.top + b.top) (a.bot + b.bot) (← TL.insert a.seq b.seq a.bot) (a.bubbles + b.bubbles)

end TLExtDiag

/-- peyl/tl.py:330-337 `class TLMor`.  The dict is kept as the list of its items; the constructor sorts it. -/
structure TLMor where
  top : Nat
  bot : Nat
  terms : List (TLDiag × LPoly)
  deriving DecidableEq, Repr

namespace TLMor

/-- peyl/tl.py:339-346 `__init__`.  Items are sorted by diagram (the keys of a dict differ, so coefficients are never
compared) and zero coefficients are dropped. -/
def make (top bot : Nat) (terms : List (TLDiag × LPoly)) : Except Err TLMor :=
  if terms.all fun t => t.1.top == top && t.1.bot == bot then
    .ok ⟨top, bot, (terms.mergeSort fun a b => TLDiag.le a.1 b.1).filter fun t => !t.2.isZero⟩
  else .error .value

/-- `LPoly(0, (1,))`. -/
def one : LPoly := LPoly.make 0 [1]

/-- peyl/tl.py:348-351 `id`. -/
def id (n : Nat) : Except Err TLMor := do make n n [(← TLDiag.id n, one)]

/-- peyl/tl.py:353-363 `e`. -/
def e (i n : Nat) : Except Err TLMor := do
  pyAssert (i + 1 < n)
  make n n [(← TLDiag.make n n (TL.eSeq i n), one)]

/-- peyl/tl.py:369-371 `from_tldiag`. -/
def fromDiag (d : TLDiag) : Except Err TLMor := make d.top d.bot [(d, one)]

/-- `dict.get(diag)`. -/
def get? (terms : List (TLDiag × LPoly)) (d : TLDiag) : Option LPoly := (terms.find? fun t => t.1 == d).map (·.2)

/-- peyl/tl.py:380-384 `coefficient`. -/
def coefficient (m : TLMor) (d : TLDiag) : Except Err LPoly :=
  if m.top ≠ d.top ∨ m.bot ≠ d.bot then .error .value
  else .ok ((get? m.terms d).getD (LPoly.make 0 []))

/-- peyl/tl.py:386-387 `is_zero`. -/
def isZero (m : TLMor) : Bool := m.terms.length == 0

/-- peyl/tl.py:389-391 `quotient`. -/
def quotient (m : TLMor) (strands : Nat) : Except Err TLMor :=
  make m.top m.bot (m.terms.filter fun t => TL.throughStrands t.1 ≥ strands)

/-- peyl/tl.py:393-398 `trace`. -/
def trace (m : TLMor) : Except Err LPoly :=
  m.terms.foldlM (fun acc t => do
    .ok (LPoly.add acc (LPoly.mul t.2 (LPoly.powNat LPoly.Q2 (← TL.traceCount t.1.seq))))) (LPoly.make 0 [])

/-- `result[d] += c` for a dict that has (or is first given) the key `d`. -/
def addTerm (terms : List (TLDiag × LPoly)) (d : TLDiag) (c : LPoly) : List (TLDiag × LPoly) :=
  match terms with
  | [] => [(d, LPoly.add (LPoly.make 0 []) c)]
  | t :: ts => if t.1 = d then (d, LPoly.add t.2 c) :: ts else t :: addTerm ts d c

/-- peyl/tl.py:401-402 `__mul__`/`__rmul__` by an `LPoly`. -/
def smul (m : TLMor) (c : LPoly) : Except Err TLMor := make m.top m.bot (m.terms.map fun t => (t.1, LPoly.mul t.2 c))

/-- peyl/tl.py:413-421, the body of the double loop. -/
def mulTerm (upper lower : TLMor) (acc : List (TLDiag × LPoly)) (tu tl : TLDiag × LPoly) :
    Except Err (List (TLDiag × LPoly)) := do
  let sb ← TL.compose tu.1.seq tl.1.seq upper.bot
  let d ← TLDiag.make upper.top lower.bot sb.1
  .ok (addTerm acc d (LPoly.mul (LPoly.mul (LPoly.powNat LPoly.Q2 sb.2) tu.2) tl.2))

/-- peyl/tl.py:400-423 `__mul__` of two morphisms. -/
def mul (upper lower : TLMor) : Except Err TLMor := do
  if upper.bot ≠ lower.top then .error .value
  else do
    let result ← upper.terms.foldlM (fun acc tu => lower.terms.foldlM (fun acc tl => mulTerm upper lower acc tu tl) acc) []
    make upper.top lower.bot result

/-- peyl/tl.py:404-405 `__mul__` by a diagram. -/
def mulDiag (upper : TLMor) (d : TLDiag) : Except Err TLMor := do mul upper (← make d.top d.bot [(d, one)])

/-- peyl/tl.py:438-443, one round: `terms[diag] = coeff` or `terms[diag] += coeff`. -/
def insertTerm (terms : List (TLDiag × LPoly)) (d : TLDiag) (c : LPoly) : List (TLDiag × LPoly) :=
  match terms with
  | [] => [(d, c)]
  | t :: ts => if t.1 = d then (d, LPoly.add t.2 c) :: ts else t :: insertTerm ts d c

/-- peyl/tl.py:434-445 `__add__` of two morphisms. -/
def add (a b : TLMor) : Except Err TLMor :=
  if a.top ≠ b.top ∨ a.bot ≠ b.bot then .error .value
  else make a.top a.bot (b.terms.foldl (fun acc t => insertTerm acc t.1 t.2) a.terms)

/-- peyl/tl.py:425-432 `__add__` of a scalar. -/
def addScalar (a : TLMor) (c : LPoly) : Except Err TLMor := do
  if a.bot = a.top then add a (← smul (← id a.bot) c) else .error .value

/-- peyl/tl.py:449-454 `flip`.  The flag `twist_v` is not used by the code. -/
def flip (m : TLMor) (_twistV : Bool) : Except Err TLMor := do
  let vinv := LPoly.make (-1) [1]
  let terms ← m.terms.mapM fun t => do .ok (← t.1.flip, ← t.2.evaluate vinv)
  make m.bot m.top terms

/-- peyl/tl.py:456-457 `__neg__`. -/
def neg (m : TLMor) : Except Err TLMor := make m.top m.bot (m.terms.map fun t => (t.1, LPoly.neg t.2))

/-- peyl/tl.py:459-460 `__sub__` of two morphisms. -/
def sub (a b : TLMor) : Except Err TLMor := do add a (← neg b)

/-- peyl/tl.py:459-460 `__sub__` of a scalar. -/
def subScalar (a : TLMor) (c : LPoly) : Except Err TLMor := addScalar a (LPoly.neg c)

/-- peyl/tl.py:476-482, the loop of `__pow__`. -/
def powLoop (acc pow2 : TLMor) (exp : Nat) : Except Err TLMor :=
  if exp = 0 then .ok acc
  else do
    let acc ← if exp % 2 = 1 then mul acc pow2 else .ok acc
    let pow2 ← mul pow2 pow2
    powLoop acc pow2 (exp / 2)
termination_by exp

/-- peyl/tl.py:468-484 `__pow__`. -/
def pow (m : TLMor) (exp : Int) : Except Err TLMor := do
  if m.top ≠ m.bot then .error .value
  else if exp < 0 then .error .value
  else do powLoop (← id m.top) m exp.toNat

end TLMor
end Peyl
