import Verif.Model.Search
import Verif.Model.SearchMisc
import Verif.Model.JonesObject
/-!
# Model of what `search.py` prints

Text is a list of lines.  Left out are the tables printed by pandas and the lines that contain only a measured time.
-/
namespace Peyl
namespace SearchText
open BraidSearch Search Adapter

/-- Python `repr` of a list, given the `repr` of its items. -/
def reprList (l : List (List Char)) : List Char := ['['] ++ joinItems l ++ [']']

/-- search.py:101 `({inf}, {[perm.word for perm in perms]})`; `perm.word` is a tuple of ints. -/
def pairText (y : Int × List (List Nat)) : List Char :=
  ['('] ++ reprInt y.1 ++ [',', ' '] ++ reprList (y.2.map fun w => reprTuple (w.map fun k : Nat => reprInt k)) ++ [')']

/-- search.py:101 the part of the line before the Garside form. -/
def lineHead (n r p len : Nat) : List Char :=
  "(n=".toList ++ (reprInt n ++ (", r=".toList ++ (reprInt r ++ (", p=".toList ++ (reprInt p ++
    (") near-kernel element: Garside length ".toList ++ (reprInt len ++ ", Garside form ".toList)))))))

/-- search.py:101 the line printed for a near-kernel braid. -/
def line (n r p : Nat) (y : Int × List (List Nat)) : List Char := lineHead n r p y.2.length ++ pairText y

/-- Three decimal digits. -/
def pad3 (k : Nat) : List Char := [digitChar (k / 100 % 10), digitChar (k / 10 % 10), digitChar (k % 10)]

/-- `f"{k:,}"` for a non-negative `k`. -/
def commaNat (k : Nat) : List Char := if k < 1000 then reprNat k else commaNat (k / 1000) ++ ',' :: pad3 (k % 1000)
termination_by k

/-- search.py:73 -/
def repLine (n r p : Nat) : List Char := "Representation: ".toList ++ (Jones.Obj.mk n r p).repr

/-- search.py:74 -/
def trackerLine (size : Nat) (seed : Int) : List Char :=
  "Tracker initialised with bucket size ".toList ++ (reprInt size ++ (", random seed ".toList ++ (reprInt seed ++ ".".toList)))

/-- search.py:75 -/
def bootLine (length count : Nat) : List Char :=
  "Bootstrapping up to Garside length ".toList ++ (reprInt length ++ (" (".toList ++ (commaNat count ++ " braids)...".toList)))

/-- search.py:90 after the line break. -/
def lengthLine (L : Int) : List Char := "------- Length ".toList ++ reprInt L

/-- search.py:112 -/
def selectedLine (k : Nat) (L : Int) : List Char :=
  "Selected ".toList ++ (reprInt k ++ (" braids of length ".toList ++ (reprInt L ++ ":".toList)))

/-- search.py:121 -/
def savingLine (k : Nat) (L : Int) : List Char :=
  "Saving ".toList ++ (reprInt k ++ (" braids of length ".toList ++ (reprInt L ++ " to the database...".toList)))

/-- search.py:139 -/
def movingLine (step : Nat) : List Char :=
  "Moving braids forward by ".toList ++ (reprInt step ++ " GNF letters...".toList)

/-- search.py:90-139 what one round prints: `stats` is the table of the buckets at its start, `found` the near-kernel braids. -/
def roundText (a : Args) (n r p : Nat) (stats : List Row) (L : Int) (found : List (Int × List (List Nat))) : List (List Char) :=
  let near := stats.filter fun r => decide (r.1.2 = 1)
  let selLen := selectionLength stats L
  let sel := within selLen a.useBest
  let save := within selLen a.saveBest
  [[], lengthLine L] ++
  (if 1 ≤ near.length then "Found kernel elements:".toList :: found.map (line n r p) else []) ++
  [selectedLine (sel.map Prod.snd).sum L, []] ++
  (if a.database then ["Save selection:".toList, savingLine (save.map Prod.snd).sum L] else []) ++
  [movingLine a.stepSize]

variable {S : Type} {d : Nat} (tbl : Nat → Except Err (NFTable (List Nat)))

/-- search.py:89-150 the loop, with the lines printed in each round. -/
def loopText (a : Args) (rep : Summand d) (r : Nat) (c : Config S NF d) (ord : Int → List Row → List Row) : List Int → State S NF d →
    Except Err (List (List (List Char)))
  | [], _ => .ok []
  | L :: Ls, st => do
    let x ← round tbl a rep c (ord L) L st
    let t := roundText a rep.n r rep.p (BraidSearch.stats (ord L) st) L x.1.found
    if x.1.halt then .ok [t]
    else do .ok (t :: (← loopText a rep r c ord Ls x.2))

/-- search.py:59-150 `main`: the lines printed before the rounds, and those of each round.  `seedArg` is `--seed`. -/
def mainText (a : Args) (rep : Summand d) (r : Nat) (size : Nat) (rank : (Fin d → Fin d → ℤ) → Nat) (g : Rng S) (seedArg : Int) (seed : S)
    (ord : Int → List Row → List Row) : Except Err (List (List Char) × List (List (List Char))) := do
  let c : Config S NF d :=
    { size := size, length := NF.canonicalLength, criterion := fun _ rows i => decide (1 ≤ (rows i).length), rank := rank, rand := some g }
  let k ← NF.countAllOfGarsideLength tbl rep.n a.bootstrapLength
  let st ← bootstrapExhaustive tbl rep c ⟨[], [], seed⟩ a.bootstrapLength
  .ok ([repLine rep.n r rep.p, trackerLine size seedArg, bootLine a.bootstrapLength k, "Initial buckets:".toList, [],
    "Proceeding on to search in 1 seconds...".toList], ← loopText tbl a rep r c ord (lengths a) st)

/-! ## Reading the printed text back -/

/-- The values of the literals read: integers, tuples and lists. -/
inductive Lit where
  | int (z : Int)
  | tuple (l : List Lit)
  | list (l : List Lit)

mutual
/-- A Python expression made of decimal integers, tuples, lists and parentheses (`parseNum` and `skipWs` as in `Adapter`). -/
def parse : Nat → List Char → Option (Lit × List Char)
  | 0, _ => none
  | fuel + 1, cs =>
    match skipWs cs with
    | '[' :: r => do
      let (vs, r') ← parseItems fuel ']' r
      some (.list vs, r')
    | '(' :: r =>
      match skipWs r with
      | ')' :: r' => some (.tuple [], r')
      | r' => do
        let (v, r2) ← parse fuel r'
        match skipWs r2 with
        | ')' :: r3 => some (v, r3)
        | ',' :: r3 => do
          let (vs, r4) ← parseItems fuel ')' r3
          some (.tuple (v :: vs), r4)
        | _ => none
    | '-' :: r => do
      let (z, r') ← parseNum (skipWs r)
      some (.int (-z), r')
    | '+' :: r => do
      let (z, r') ← parseNum (skipWs r)
      some (.int z, r')
    | r => do
      let (z, r') ← parseNum r
      some (.int z, r')
/-- The items up to a closing bracket. -/
def parseItems : Nat → Char → List Char → Option (List Lit × List Char)
  | 0, _, _ => none
  | fuel + 1, close, cs =>
    match skipWs cs with
    | [] => none
    | c :: r =>
      if c = close then some ([], r)
      else do
        let (v, r2) ← parse fuel (c :: r)
        match skipWs r2 with
        | [] => none
        | c2 :: r3 =>
          if c2 = close then some ([v], r3)
          else if c2 = ',' then do
            let (vs, r4) ← parseItems fuel close r3
            some (v :: vs, r4)
          else none
end

/-- Python's reading of a whole text as one expression. -/
def evalText (cs : List Char) : Option Lit :=
  match parse (cs.length + 1) cs with
  | some (v, rest) => if (skipWs rest).isEmpty then some v else none
  | none => none

/-- The pair `(k, [words])` of a power and a list of tuples of naturals, as a Python value: the argument of `from_gnf_pair`. -/
def pairLit (y : Int × List (List Nat)) : Lit := .tuple [.int y.1, .list (y.2.map fun w => .tuple (w.map fun k : Nat => .int k))]

end SearchText
end Peyl
