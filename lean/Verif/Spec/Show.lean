import Verif.Spec.Printing
/-!
# Reading HTML

How a table is taken apart into rows and cells, and a row of boxes into boxes.  Nothing here knows how the text was made.
-/
namespace Peyl
namespace Text

/-- The text before the first place where `pat` occurs in a text, and the text after it. -/
def find (pat : List Char) : List Char → Option (List Char × List Char)
  | [] => none
  | c :: s => if pat.isPrefixOf (c :: s) then some ([], (c :: s).drop pat.length) else (find pat s).map fun x => (c :: x.1, x.2)

/-- Reading a table: the cells of the row that is being read, and the rows that follow.  A row begins at `<tr>`; a cell is the text from the end
of a tag `<td ...>` to the next `</td>`. The number bounds the places to be looked at. -/
def cells : Nat → List Char → List (List Char) × List (List (List Char))
  | 0, _ => ([], [])
  | _ + 1, [] => ([], [])
  | n + 1, c :: s =>
    if ['<', 't', 'r', '>'].isPrefixOf (c :: s) then ([], (cells n s).1 :: (cells n s).2)
    else if ['<', 't', 'd'].isPrefixOf (c :: s) then
      match find ['>'] s with
      | none => ([], [])
      | some (_, s) =>
        match find ['<', '/', 't', 'd', '>'] s with
        | none => ([], [])
        | some (t, s) => (t :: (cells n s).1, (cells n s).2)
    else cells n s

/-- The cells of the rows of a table. -/
def table (s : List Char) : List (List (List Char)) := (cells s.length s).2

/-- Reading boxes: the texts from the end of a tag `<div ...>` to the next `</div>`. The number bounds the places to be looked at. -/
def boxes : Nat → List Char → List (List Char)
  | 0, _ => []
  | _ + 1, [] => []
  | n + 1, c :: s =>
    if ['<', 'd', 'i', 'v'].isPrefixOf (c :: s) then
      match find ['>'] s with
      | none => []
      | some (_, s) =>
        match find ['<', '/', 'd', 'i', 'v', '>'] s with
        | none => []
        | some (t, s) => t :: boxes n s
    else boxes n s

/-- The boxes inside an outer box: what follows its opening tag. -/
def boxesInside (s : List Char) : List (List Char) :=
  match find ['>'] s with
  | none => []
  | some (_, s) => boxes s.length s

/-- The texts between signs: a sign goes from `<span` to the next `</span>`. The number bounds the signs to be looked for. -/
def betweenSigns : Nat → List Char → List (List Char)
  | 0, _ => []
  | n + 1, s =>
    match find ['<', 's', 'p', 'a', 'n'] s with
    | none => [s]
    | some (t, s) =>
      match find ['<', '/', 's', 'p', 'a', 'n', '>'] s with
      | none => [t]
      | some (_, s) => t :: betweenSigns n s

/-- The summands in a paragraph. -/
def summands (s : List Char) : List (List Char) :=
  match find ['>'] s with
  | none => []
  | some (_, s) =>
    match find ['<', '/', 'p', '>'] s with
    | none => []
    | some ([], _) => []
    | some (s, _) => betweenSigns s.length s

end Text
end Peyl
