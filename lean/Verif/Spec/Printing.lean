import Verif.Model.Adapter
import Verif.Model.NPar
/-!
# Reading printed text

How a reader takes a printed form apart: at separators, and into the numbers in it.  Nothing here knows how the text was made.
-/
namespace Peyl
namespace Text

/-- The pieces of a text between the occurrences of a character. -/
def cut (c : Char) : List Char → List (List Char)
  | [] => [[]]
  | x :: xs =>
    if x = c then [] :: cut c xs
    else match cut c xs with
      | [] => [[x]]
      | p :: ps => (x :: p) :: ps

/-- The numbers in a text (its longest runs of digits), read from left to right; `acc` is the number being read. -/
def scan : List Char → Option Nat → List Nat
  | [], acc => acc.toList
  | c :: cs, acc => if Adapter.isDig c then scan cs (some (10 * acc.getD 0 + (c.toNat - 48))) else acc.toList ++ scan cs none

/-- The numbers in a text. -/
def numbers (s : List Char) : List Nat := scan s none

/-- The first number in a text, negative if there is a minus sign. -/
def signed (s : List Char) : Int := if '-' ∈ s then -((numbers s).headD 0 : Int) else ((numbers s).headD 0 : Int)

/-- Lists of numbers separated by a character. -/
def lists (c : Char) (s : List Char) : List (List Nat) := (cut c s).map numbers

/-- The same, as integers. -/
def comps (c : Char) (s : List Char) : List (List Int) := (lists c s).map fun l => l.map Int.ofNat

/-- Reading a noncrossing partition: the number of points is before the opening square bracket, the blocks after it end in braces. -/
def readNPar (s : List Char) : Except Err NPar :=
  match cut '[' s with
  | [a, b] => NPar.fromComponents ((numbers a).headD 0) (comps '}' b)
  | _ => .error .value

/-- The pieces of a text between the occurrences of a separator; `skip` characters of a separator are still to be passed over. -/
def cutGo (sep : List Char) : List Char → Nat → List (List Char)
  | [], _ => [[]]
  | _ :: xs, skip + 1 => cutGo sep xs skip
  | x :: xs, 0 =>
    if sep.isPrefixOf (x :: xs) then [] :: cutGo sep xs (sep.length - 1)
    else match cutGo sep xs 0 with
      | [] => [[x]]
      | p :: ps => (x :: p) :: ps

/-- The pieces of a text between the occurrences of a separator. -/
def cutText (sep s : List Char) : List (List Char) := cutGo sep s 0

/-- The rows of a printed matrix: from each opening bracket, the outermost one excepted, to the next closing bracket; its entries are separated by
a comma and a space. -/
def rows (s : List Char) : List (List (List Char)) := ((cut '[' s).drop 2).map fun r => cutText [',', ' '] ((cut ']' r).headD [])

/-- The rows of a matrix in LaTeX: what is between `\\begin{pmatrix}` (15 characters) and `\\end{pmatrix}` (13 characters), separated by double
backslashes, and the entries of a row by ampersands. -/
def latexRows (s : List Char) : List (List (List Char)) :=
  (cutText [' ', '\\', '\\', ' '] ((s.drop 15).take (s.length - 28))).map (cutText [' ', '&', ' '])

end Text
end Peyl
