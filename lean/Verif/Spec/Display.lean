import Mathlib.Algebra.Polynomial.Laurent
/-!
# Reading a printed polynomial

An independent reader of texts such as `-2v^3 + v - 1 + 5v^-2`, as a Laurent polynomial with integer coefficients.  The name of
the variable does not matter.  LaTeX braces are ignored.
-/
namespace Peyl.Display
open LaurentPolynomial

/-- The text cut at its spaces. -/
def words : List Char → List (List Char)
  | [] => [[]]
  | c :: s =>
    if c = ' ' then [] :: words s
    else match words s with
      | w :: ws => (c :: w) :: ws
      | [] => [[c]]

/-- The value of a string of decimal digits. -/
def digitsVal (s : List Char) : Nat := s.foldl (fun a c => 10 * a + (c.toNat - '0'.toNat)) 0

/-- The value of an optional minus sign and decimal digits. -/
def intVal : List Char → ℤ
  | '-' :: s => -(digitsVal s : ℤ)
  | s => digitsVal s

/-- The exponent: nothing stands for 0, the variable for 1, the variable and a caret are followed by the exponent. -/
def expVal : List Char → ℤ
  | [] => 0
  | [_] => 1
  | _ :: _ :: k => intVal k

/-- The value of a term: digits for the coefficient (1 if there are none), then nothing, or the variable, or the variable, a
caret and the exponent. -/
noncomputable def termVal (s : List Char) : ℤ[T;T⁻¹] :=
  let ds := s.takeWhile Char.isDigit
  let c : ℤ := if ds = [] then 1 else digitsVal ds
  C c * T (expVal (s.dropWhile Char.isDigit))

/-- The words after the first one: signs and terms alternate. -/
noncomputable def tailVal : List (List Char) → ℤ[T;T⁻¹]
  | s :: t :: l => (if s = ['-'] then - termVal t else termVal t) + tailVal l
  | _ => 0

/-- The first word: a term, possibly with a minus sign in front. -/
noncomputable def headVal : List Char → ℤ[T;T⁻¹]
  | '-' :: s => - termVal s
  | s => termVal s

/-- The Laurent polynomial that a text stands for. -/
noncomputable def read (text : List Char) : ℤ[T;T⁻¹] :=
  match words (text.filter fun c => c != '{' && c != '}') with
  | w :: ws => headVal w + tailVal ws
  | [] => 0

end Peyl.Display
