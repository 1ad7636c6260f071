import Verif.Model.NPar
import Mathlib.Data.Nat.Digits.Defs

/-!
# Model of the SQLite adapter and converter, peyl/braid.py:796-819

Text is a list of characters.  Everything `adapt_braid` writes is ASCII, so the UTF-8 encoding and decoding done by SQLite and by
`.decode('utf-8')` is the identity on it and is not modelled.
-/

namespace Peyl

/-- The two kinds of normal form, i.e. the classes `GNF` and `DGNF` (peyl/braid.py:522, 607). -/
inductive NFKind where
  | gnf
  | dgnf
  deriving DecidableEq, Repr

namespace Adapter

/-- The values `ast.literal_eval` can return on the texts considered: integers and tuples. -/
inductive PyVal where
  | int (z : Int)
  | tuple (l : List PyVal)

/-- The decimal digit `d` as a character. -/
def digitChar (d : Nat) : Char := Char.ofNat (48 + d)

/-- Python `repr` of a non-negative `int`. -/
def reprNat (k : Nat) : List Char := if k = 0 then ['0'] else ((Nat.digits 10 k).map digitChar).reverse

/-- Python `repr` of an `int`. -/
def reprInt : Int → List Char
  | .ofNat k => reprNat k
  | .negSucc k => '-' :: reprNat (k + 1)

/-- The items of a tuple separated by `", "`. -/
def joinItems : List (List Char) → List Char
  | [] => []
  | [a] => a
  | a :: b :: l => a ++ [',', ' '] ++ joinItems (b :: l)

/-- Python `repr` of a tuple, given the `repr` of its items: `()`, `(a,)`, `(a, b)`, … -/
def reprTuple : List (List Char) → List Char
  | [a] => ['('] ++ a ++ [',', ')']
  | l => ['('] ++ joinItems l ++ [')']

/-- `braid.__class__.__name__`. -/
def className : NFKind → List Char
  | .gnf => ['G', 'N', 'F']
  | .dgnf => ['D', 'G', 'N', 'F']

/-- peyl/braid.py:796-800 `adapt_braid`: the class name followed by the `repr` of `dataclasses.astuple(braid)`, which is
`(n, power, factors)` with `factors` a tuple of integers. -/
def adaptBraid (k : NFKind) (x : NF) : List Char :=
  className k ++ reprTuple [reprInt x.n, reprInt x.power, reprTuple (x.factors.map fun (f : Nat) => reprInt f)]

/-- White space between tokens. -/
def skipWs (cs : List Char) : List Char := cs.dropWhile fun c => c == ' ' || c == '\t'

/-- Is the character a decimal digit? -/
def isDig (c : Char) : Bool := 48 ≤ c.toNat && c.toNat ≤ 57

/-- A decimal integer token.  Python rejects a leading zero unless all digits are zero. -/
def parseNum (cs : List Char) : Option (Int × List Char) :=
  let ds := cs.takeWhile isDig
  let v : Nat := ds.foldl (fun a c => 10 * a + (c.toNat - 48)) 0
  if ds.isEmpty then none
  else if ds.head? == some '0' && v != 0 then none
  else some (v, cs.dropWhile isDig)

mutual
/-- The part of the grammar read by `ast.literal_eval` that is modelled: decimal integers with an optional sign, parenthesised
expressions and tuples. -/
def parseExpr : Nat → List Char → Option (PyVal × List Char)
  | 0, _ => none
  | fuel + 1, cs =>
    match skipWs cs with
    | '(' :: r =>
      match skipWs r with
      | ')' :: r' => some (.tuple [], r')
      | r' => do
        let (v, r2) ← parseExpr fuel r'
        match skipWs r2 with
        | ')' :: r3 => some (v, r3)
        | ',' :: r3 => do
          let (vs, r4) ← parseTail fuel r3
          some (.tuple (v :: vs), r4)
        | _ => none
    | '-' :: r => do
      let (z, r') ← parseNum (skipWs r)
      some (.int (-z), r')
    | '+' :: r => do
      let (z, r') ← parseNum (skipWs r)
      some (.int z, r')
    | r => do
      let (z, r') ← parseNum r
      some (.int z, r')
/-- The items of a tuple after a comma. -/
def parseTail : Nat → List Char → Option (List PyVal × List Char)
  | 0, _ => none
  | fuel + 1, cs =>
    match skipWs cs with
    | ')' :: r => some ([], r)
    | r => do
      let (v, r2) ← parseExpr fuel r
      match skipWs r2 with
      | ')' :: r3 => some ([v], r3)
      | ',' :: r3 => do
        let (vs, r4) ← parseTail fuel r3
        some (v :: vs, r4)
      | _ => none
end

/-- `ast.literal_eval(text)` on the modelled grammar.  Texts outside it (other literals, unparenthesised tuples, comments) are
rejected here; CPython accepts some of them.  Malformed text raises SyntaxError or ValueError in Python; both are `.value` here. -/
def literalEval (cs : List Char) : Option PyVal :=
  match parseExpr (cs.length + 1) cs with
  | some (v, rest) => if (skipWs rest).isEmpty then some v else none
  | none => none

/-- The integers of a tuple of non-negative integers. -/
def natList : List PyVal → Option (List Nat)
  | [] => some []
  | .int (.ofNat k) :: l => (natList l).map (k :: ·)
  | _ => none

/-- `cls(*value)`: three arguments `n`, `power`, `factors` (TypeError otherwise); a negative `n` fails `assert n >= 0` in the table
constructors (peyl/braid.py:208, 279).  Factor tuples with a negative or non-integer entry are not modelled (`.notImpl`). -/
def construct {T : Type} (tbl : Nat → Except Err (NFTable T)) : PyVal → Except Err NF
  | .tuple [.int n, .int d, .tuple fs] =>
    match n, natList fs with
    | .ofNat n, some fs => NF.make tbl n d fs
    | .negSucc _, _ => .error .assertion
    | _, none => .error .notImpl
  | _ => .error .type

/-- peyl/braid.py:803-811 `convert_braid`. -/
def convertBraid (limG : Nat) (ωG : List Nat → List Nat → Nat → Nat) (limD : Nat) (ωD : NPar → NPar → Nat → Nat)
    (data : List Char) : Except Err (NFKind × NF) :=
  if ['G', 'N', 'F'].isPrefixOf data then
    match literalEval (data.drop 3) with
    | none => .error .value
    | some v => do .ok (.gnf, ← construct (GNF.tbl limG ωG) v)
  else if ['D', 'G', 'N', 'F'].isPrefixOf data then
    match literalEval (data.drop 4) with
    | none => .error .value
    | some v => do .ok (.dgnf, ← construct (DGNF.tbl limD ωD) v)
  else .error .value

end Adapter
end Peyl
