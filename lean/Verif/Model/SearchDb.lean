import Verif.Model.Search
import Verif.Model.Adapter
/-!
# Model of what `search.py` does to its SQLite database

`Search.main` models the result of a run that is left alone.  Here a run is the sequence of statements it sends to the database,
so that it can be cut off anywhere.  SQLite itself is modelled by its documented behaviour, not by its code: what a transaction
writes becomes visible to others when `COMMIT` has finished, and at no other time; a connection that is closed, or whose process
dies, with a transaction open leaves nothing of that transaction.
-/
namespace Peyl
namespace SearchDb
open BraidSearch Search Adapter

/-- search.py:19-28 a row of the table `good_braids`; the columns `n`, `r`, `p`, `length`, `projlen`, `gnf`. -/
structure Record where
  n : Nat
  r : Nat
  p : Nat
  length : Int
  projlen : Int
  gnf : List Char
  deriving DecidableEq

/-- search.py:130 `str(dataclasses.astuple(braid))`. -/
def astupleText (x : NF) : List Char :=
  reprTuple [reprInt x.n, reprInt x.power, reprTuple (x.factors.map fun (f : Nat) => reprInt f)]

/-- search.py:130 the parameters of one `INSERT`. -/
def record {d : Nat} (rep : Summand d) (r : Nat) (y : DbRow) : Record := ⟨rep.n, r, rep.p, y.1, y.2.1, astupleText y.2.2⟩

/-- The statements a run sends: search.py:123 `BEGIN TRANSACTION`, each `INSERT` of the `executemany` of lines 127-133, and the
`COMMIT` of line 134. -/
inductive Stmt where
  | begin
  | insert (x : Record)
  | commit

/-- search.py:124-133 the loop over the buckets; the list of parameters of a bucket is built before its first row is inserted. -/
def saveBuckets {S : Type} {d : Nat} (rep : Summand d) (r : Nat) (st : State S NF d) : List Row → List Stmt × Except Err Unit
  | [] => ([], .ok ())
  | row :: rows =>
    match Dict.get st.buckets row.1 with
    | .error e => ([], .error e)
    | .ok b =>
      let t := saveBuckets rep r st rows
      (b.braids.map (fun x => .insert (record rep r (row.1.1, row.1.2, x))) ++ t.1, t.2)

/-- search.py:123-134 one transaction; an exception leaves it without the commit. -/
def save {S : Type} {d : Nat} (rep : Summand d) (r : Nat) (st : State S NF d) (rows : List Row) : List Stmt × Except Err Unit :=
  match saveBuckets rep r st rows with
  | (t, .ok u) => (.begin :: t ++ [.commit], .ok u)
  | (t, .error e) => (.begin :: t, .error e)

variable {S : Type} {d : Nat} (tbl : Nat → Except Err (NFTable (List Nat)))

/-- search.py:90-147 the body of the loop, with the statements sent: those of `save`, which comes after the near-kernel braids
have been printed and before the braids are moved forward, if there is a database (line 117). -/
def roundT (a : Args) (rep : Summand d) (r : Nat) (c : Config S NF d) (ord : List Row → List Row) (L : Int) (st : State S NF d) :
    List Stmt × Except Err (Bool × State S NF d) :=
  let stats := BraidSearch.stats ord st
  match nearKernel tbl st stats with
  | .error e => ([], .error e)
  | .ok _ =>
    let shouldHalt := a.stopAtProjlen1 && decide (1 ≤ (stats.filter fun r => decide (r.1.2 = 1)).length)
    let selLen := selectionLength stats L
    let sel := within selLen a.useBest
    let t := if a.database then save rep r st (within selLen a.saveBest) else ([], .ok ())
    match t.2 with
    | .error e => (t.1, .error e)
    | .ok _ =>
      (t.1, do
        let st1 ← (sel.map Prod.fst).foldlM (init := st) fun st t => nfDescendants tbl rep c st t a.stepSize
        .ok (shouldHalt, ((stats.filter fun r => decide (r.1.1 ≤ L)).map Prod.fst).foldl discardBucket st1))

/-- search.py:89-150 the loop. -/
def loopT (a : Args) (rep : Summand d) (r : Nat) (c : Config S NF d) (ord : Int → List Row → List Row) : List Int → State S NF d →
    List Stmt × Except Err (State S NF d)
  | [], st => ([], .ok st)
  | L :: Ls, st =>
    match roundT tbl a rep r c (ord L) L st with
    | (t, .error e) => (t, .error e)
    | (t, .ok (true, st')) => (t, .ok st')
    | (t, .ok (false, st')) =>
      let rest := loopT a rep r c ord Ls st'
      (t ++ rest.1, rest.2)

/-- search.py:59-162 a whole run: the statements sent after the table has been created. -/
def mainT (a : Args) (rep : Summand d) (r : Nat) (size : Nat) (rank : (Fin d → Fin d → ℤ) → Nat) (g : Rng S) (seed : S)
    (ord : Int → List Row → List Row) : List Stmt × Except Err (State S NF d) :=
  let c : Config S NF d :=
    { size := size, length := NF.canonicalLength, criterion := fun _ rows i => decide (1 ≤ (rows i).length), rank := rank, rand := some g }
  match bootstrapExhaustive tbl rep c ⟨[], [], seed⟩ a.bootstrapLength with
  | .error e => ([], .error e)
  | .ok st => loopT tbl a rep r c ord (lengths a) st

/-! ## SQLite -/

/-- The processes `ι` connected to one database file: the committed transactions, oldest first, each with the process that
committed it; for each process the rows of its open transaction, if one is open, and the statements it has still to send; and the
process holding the write lock. -/
structure Sys (ι : Type) where
  log : List (ι × List Record)
  open_ : ι → Option (List Record)
  todo : ι → List Stmt
  writer : Option ι

/-- What can happen: process `i` sends its next statement; it is killed (or raises, or is interrupted); or the machine loses power
and comes back with the first `keep` of the committed transactions: with search.py:14-17 `journal_mode = WAL` and
`synchronous = NORMAL` the latest commits may be lost, but only from the end. -/
inductive Ev (ι : Type) where
  | step (i : ι)
  | kill (i : ι)
  | power (keep : Nat)

variable {ι : Type} [DecidableEq ι]

/-- The process is gone: its transaction is rolled back and its lock released (search.py:157-160 `finally: conn.close()`, or the
end of the process). -/
def Sys.kill (s : Sys ι) (i : ι) : Sys ι :=
  { s with open_ := Function.update s.open_ i none, todo := Function.update s.todo i [],
           writer := if s.writer = some i then none else s.writer }

/-- One statement.  `BEGIN` takes no lock; the first `INSERT` takes the write lock and raises `database is locked` if another
process holds it (after a time-out in which, in other schedules, the other process goes on); a `BEGIN` inside a transaction
raises; an `INSERT` outside one opens one (the default of Python's `sqlite3`). -/
def Sys.exec (s : Sys ι) (i : ι) : Sys ι :=
  match s.todo i with
  | [] => s
  | .begin :: t =>
    match s.open_ i with
    | none => { s with open_ := Function.update s.open_ i (some []), todo := Function.update s.todo i t }
    | some _ => s.kill i
  | .insert x :: t =>
    if s.writer = none ∨ s.writer = some i then
      { s with open_ := Function.update s.open_ i (some ((s.open_ i).getD [] ++ [x])), todo := Function.update s.todo i t, writer := some i }
    else s.kill i
  | .commit :: t =>
    { log := match s.open_ i with
        | none => s.log
        | some rows => s.log ++ [(i, rows)]
      open_ := Function.update s.open_ i none, todo := Function.update s.todo i t
      writer := if s.writer = some i then none else s.writer }

/-- One event. -/
def Sys.ev (s : Sys ι) : Ev ι → Sys ι
  | .step i => s.exec i
  | .kill i => s.kill i
  | .power keep => ⟨s.log.take keep, fun _ => none, fun _ => [], none⟩

/-- A schedule. -/
def Sys.run (s : Sys ι) (es : List (Ev ι)) : Sys ι := es.foldl Sys.ev s

/-- All processes connected, none of them has done anything. -/
def Sys.init (progs : ι → List Stmt) : Sys ι := ⟨[], fun _ => none, progs, none⟩

/-- The rows which a new connection finds in the table, when `old` were there before. -/
def Sys.table (s : Sys ι) (old : List Record) : List Record := old ++ s.log.flatMap Prod.snd

end SearchDb
end Peyl
