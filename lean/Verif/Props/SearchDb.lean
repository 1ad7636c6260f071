import Verif.Lemmas.SearchDb
import Verif.Props.Search
import Verif.Props.Jones
import Verif.Props.Adapter
/-!
# C108: the database of `search.py` after crashes and with several searches at once

A run of the program is the list of statements it sends (`SearchDb.mainT`); a schedule interleaves any number of runs on one
file and may kill a run, or the machine, anywhere (`SearchDb.Sys.run`).
-/
namespace Peyl
open BraidSearch Search SearchDb Adapter

/-- The specification of a row: its text is the tuple `(n, power, factors)` of a GNF which the constructor accepts, with Δ-power
zero and of the length in the row, and the projectivised matrix of that braid in the Jones representation named by the row, the
one of `JonesCellRep(n, r, p)`, has the projlen in the row. -/
def TrueRecord (lim : Nat) (ω : List Nat → List Nat → Nat → Nat) (x : Record) : Prop :=
  ∃ y : NF, literalEval x.gnf = some (.tuple [.int x.n, .int 0, .tuple (y.factors.map fun (f : Nat) => PyVal.int f)]) ∧
    NF.make (GNF.tbl lim ω) x.n 0 y.factors = .ok y ∧ IsGNF lim ω x.n y ∧ (y.factors.length : ℤ) = x.length ∧
    ∃ (G I : List Matrix) (ρ : Braid x.n →* LMat x.p (Jones.dimension x.n x.r)),
      Jones.cellRep x.n x.r x.p = .ok ⟨x.n, x.p, G, I⟩ ∧ Realises (⟨x.n, x.p, G, I⟩ : RepBase (Jones.dimension x.n x.r)) ρ ∧
      ∃ A : Img (Jones.dimension x.n x.r), IsProjImage x.p A (fun _ => ρ (gnfBraid x.n y)) ∧ (A.length : ℤ) = x.projlen

/-- `prog` are the statements of a run of `search.py n r p ... --database ...` whose rounds, left alone, save the lists of rows
`ts`. -/
def SearchRun (lim : Nat) (ω : List Nat → List Nat → Nat → Nat) (prog : List Stmt) (ts : List (List Record)) : Prop :=
  ∃ (n r p : Nat) (gs : List (Img (Jones.dimension n r))) (S : Type) (a : Args) (size : Nat) (rank : _) (g : Rng S) (seed : S)
    (ord : ℤ → List Row → List Row) (outs : List (ℤ × Out)) (st : State S NF (Jones.dimension n r)),
    2 ≤ n ∧ n < lim ∧ 2 * r ≤ n ∧ p ≠ 1 ∧ Jones.summand n r p = .ok ⟨n, p, gs⟩ ∧ 1 ≤ size ∧ a.database = true ∧ (∀ L l, (ord L l).Perm l) ∧
    Search.main (GNF.tbl lim ω) a ⟨n, p, gs⟩ size rank g seed ord = .ok (outs, st) ∧
    ts = outs.map (fun o => o.2.saved.map (record (⟨n, p, gs⟩ : Summand (Jones.dimension n r)) r)) ∧
    prog = (mainT (GNF.tbl lim ω) a ⟨n, p, gs⟩ r size rank g seed ord).1

variable {lim : Nat} {ω : List Nat → List Nat → Nat → Nat}

/-- C108: whatever the arguments, the run with the tables traced does what the run of C72 does, and the statements it sends are,
round by round, `BEGIN`, one `INSERT` per row saved in the round, `COMMIT`; without `--database` there are none. -/
theorem C108_statements {S : Type} {d : Nat} (tbl : Nat → Except Err (NFTable (List Nat))) (a : Args) (rep : Summand d) (r size : Nat)
    (rank : (Fin d → Fin d → ℤ) → Nat) (g : Rng S) (seed : S) (ord : ℤ → List Row → List Row) (outs : List (ℤ × Out)) (st : State S NF d)
    (h : Search.main tbl a rep size rank g seed ord = .ok (outs, st)) :
    mainT tbl a rep r size rank g seed ord =
      (if a.database then outs.flatMap fun o => Stmt.begin :: (o.2.saved.map (fun y => Stmt.insert (record rep r y)) ++ [Stmt.commit]) else [], .ok st) := by
  rw [mainT_of_main tbl a rep r size rank g seed ord outs st h]
  congr 1
  split
  · simp only [blocks, List.flatMap_map, block, List.map_map, Function.comp_def]
  · rfl

theorem SearchRun.blocks {prog : List Stmt} {ts : List (List Record)} (h : SearchRun lim ω prog ts) : prog = SearchDb.blocks ts := by
  obtain ⟨n, r, p, gs, S, a, size, rank, g, seed, ord, outs, st, -, -, -, -, -, -, hdb, -, hm, rfl, rfl⟩ := h
  rw [mainT_of_main _ a _ r size rank g seed ord outs st hm, hdb, if_pos rfl]

theorem SearchRun.true {prog : List Stmt} {ts : List (List Record)} (h : SearchRun lim ω prog ts) : ∀ t ∈ ts, ∀ x ∈ t, TrueRecord lim ω x := by
  obtain ⟨n, r, p, gs, S, a, size, rank, g, seed, ord, outs, st, hn, hl, hr, hp, hs, hsz, hdb, ho, hm, rfl, rfl⟩ := h
  obtain ⟨ρ, G, I, gs', g1, g2, g3, g4, hF, hd⟩ := C54_hypotheses n r p hn hr
  have e : gs' = gs := by
    rw [g3] at hs
    have := Except.ok.inj hs
    injection this
  subst e
  obtain ⟨outs', st', k1, -, -, -, -, -, -, -, k2⟩ := C72_main (S := S) (lim := lim) (ω := ω) (sm := ⟨n, p, gs'⟩) (τ := ρ) hn hl g4 hF hd hp a size hsz rank g seed ord ho
  rw [hm] at k1
  have k1 := Except.ok.inj k1
  rw [Prod.mk.injEq] at k1
  obtain ⟨rfl, rfl⟩ := k1
  intro t ht x hx
  obtain ⟨o, ho, rfl⟩ := List.mem_map.1 ht
  obtain ⟨y, hy, rfl⟩ := List.mem_map.1 hx
  obtain ⟨y1, y2, y3, y4, A, y5, y6⟩ := k2 o ho y hy
  have hmk := y1.2
  have hnn : y.2.2.n = n := by
    have := hmk
    rw [NF.make] at this
    obtain ⟨_, -, this⟩ := bind_eq_ok.1 this
    obtain ⟨_, -, this⟩ := bind_eq_ok.1 this
    obtain ⟨_, -, this⟩ := bind_eq_ok.1 this
    rw [← Except.ok.inj this]
  refine ⟨y.2.2, ?_, ?_, y1, ?_, G, I, ρ, g1, g2, A, y5, y6⟩
  · have := literalEval_of_parses (parses_astuple y.2.2)
    show literalEval (astupleText y.2.2) = some (.tuple [.int n, .int 0, .tuple _])
    rw [astupleText, this, tupleVal, hnn, y2]
  · rw [y2] at hmk; exact hmk
  · show ((NF.canonicalLength y.2.2 : Nat) : ℤ) = y.1
    rw [y4, y3]

/-- C108: one search, stopped after any number `k` of statements (killed, interrupted or finished): the table then holds the rows
that were there before, followed by all the rows of the first `j` rounds in order, where `j` is the number of rounds whose `COMMIT`
is among the `k` statements, and nothing else. -/
theorem C108_crash {prog : List Stmt} {ts : List (List Record)} (h : SearchRun lim ω prog ts) (old : List Record) (k : Nat) :
    ∃ j ≤ ts.length, ((Sys.init fun _ : Unit => prog).run (List.replicate k (.step ()) ++ [.kill ()])).table old = old ++ (ts.take j).flatten ∧
      ((ts.take j).map fun t => t.length + 2).sum ≤ k ∧ (j = ts.length ∨ k < ((ts.take (j + 1)).map fun t => t.length + 2).sum) := by
  obtain ⟨j, j1, j2, j3, j4⟩ := solo_run ts [] k
  refine ⟨j, j1, ?_, j3, j4⟩
  rw [Sys.run, List.foldl_append, h.blocks]
  have j2' : (List.foldl Sys.ev (Sys.init fun _ : Unit => SearchDb.blocks ts) (List.replicate k (.step ()))).log = (ts.take j).map (fun t => ((), t)) := by
    rw [List.nil_append] at j2; exact j2
  show old ++ List.flatMap Prod.snd (Sys.kill _ ()).log = _
  rw [Sys.kill]
  dsimp only
  rw [j2', List.flatMap_map, List.flatMap_def, List.map_id']

/-- C108: the number of rounds finished after `k` statements is determined by `k`. -/
theorem C108_crash_unique {ts : List (List Record)} {k j j' : Nat} (hj : j ≤ ts.length) (hj' : j' ≤ ts.length)
    (h1 : ((ts.take j).map fun t => t.length + 2).sum ≤ k) (h2 : j = ts.length ∨ k < ((ts.take (j + 1)).map fun t => t.length + 2).sum)
    (h1' : ((ts.take j').map fun t => t.length + 2).sum ≤ k) (h2' : j' = ts.length ∨ k < ((ts.take (j' + 1)).map fun t => t.length + 2).sum) : j = j' := by
  have mono : ∀ a b, a ≤ b → ((ts.take a).map fun t => t.length + 2).sum ≤ ((ts.take b).map fun t => t.length + 2).sum := by
    intro a b hab
    obtain ⟨c, hc⟩ := (List.take_prefix_take_left (l := ts) hab)
    rw [← hc, List.map_append, List.sum_append]; omega
  rcases lt_trichotomy j j' with hlt | heq | hlt
  · rcases h2 with h2 | h2
    · omega
    · have := mono (j + 1) j' hlt; omega
  · exact heq
  · rcases h2' with h2' | h2'
    · omega
    · have := mono (j' + 1) j hlt; omega

/-- C108: any number of searches on one file, with any arguments, in any interleaving, with any of them killed and the machine
losing power anywhere: what each search has in the database is the rows of its first rounds, whole rounds only and in order, and every
row in the table that was not there before is true. -/
theorem C108_schedule {ι : Type} [DecidableEq ι] (progs : ι → List Stmt) (ts : ι → List (List Record)) (h : ∀ i, SearchRun lim ω (progs i) (ts i))
    (es : List (Ev ι)) (old : List Record) :
    (∀ i, ∃ j ≤ (ts i).length, ((((Sys.init progs).run es).log.filter fun e => decide (e.1 = i)).map Prod.snd) = (ts i).take j) ∧
    ((Sys.init progs).run es).table old = old ++ (((Sys.init progs).run es).log.map Prod.snd).flatten ∧
    ∀ x ∈ ((Sys.init progs).run es).table old, x ∈ old ∨ TrueRecord lim ω x := by
  have key : ∀ i, own ((Sys.init progs).run es).log i <+: ts i := fun i => ((At.init (h i).blocks).run es).prefix
  refine ⟨fun i => ⟨_, (key i).length_le, List.prefix_iff_eq_take.1 (key i)⟩, by rw [Sys.table, List.flatMap_def], ?_⟩
  intro x hx
  rcases List.mem_append.1 hx with hx | hx
  · exact .inl hx
  · right
    obtain ⟨e, he, hxe⟩ := List.mem_flatMap.1 hx
    exact (h e.1).true e.2 ((key e.1).subset (mem_own he)) x hxe

/-- C108: as long as the machine does not lose power, rows that are once in the table stay there, at their place. -/
theorem C108_durable {ι : Type} [DecidableEq ι] (s : Sys ι) (es : List (Ev ι)) (he : ∀ k, Ev.power k ∉ es) (old : List Record) :
    s.table old <+: (s.run es).table old := by
  obtain ⟨l, hl⟩ := log_prefix_run s es he
  refine ⟨l.flatMap Prod.snd, ?_⟩
  rw [Sys.table, Sys.table, ← hl, List.flatMap_append, List.append_assoc]

/-- C108: a search starts from the beginning when it is started again: if it was stopped after `k` statements and the same command
is then run to its end, the rows of the rounds finished the first time are in the table twice. -/
theorem C108_restart {prog : List Stmt} {ts : List (List Record)} (h : SearchRun lim ω prog ts) (old : List Record) (k : Nat) :
    ∃ j ≤ ts.length, (k < ((ts.take (j + 1)).map fun t => t.length + 2).sum ∨ j = ts.length) ∧
      ((Sys.init fun _ : Unit => prog).run (List.replicate prog.length (.step ()) ++ [.kill ()])).table
        (((Sys.init fun _ : Unit => prog).run (List.replicate k (.step ()) ++ [.kill ()])).table old) = old ++ (ts.take j).flatten ++ ts.flatten := by
  obtain ⟨j, j1, j2, j3, j4⟩ := C108_crash h old k
  obtain ⟨j', i1, i2, i3, i4⟩ := C108_crash h (old ++ (ts.take j).flatten) prog.length
  refine ⟨j, j1, j4.symm, ?_⟩
  rw [j2, i2]
  have e : j' = ts.length := by
    rcases i4 with i4 | i4
    · exact i4
    · exfalso
      have hlen : prog.length = (ts.map fun t => t.length + 2).sum := by
        rw [h.blocks, SearchDb.blocks, List.length_flatMap]
        simp [block]; omega
      have hle : ((ts.take (j' + 1)).map fun t => t.length + 2).sum ≤ (ts.map fun t => t.length + 2).sum := by
        conv_rhs => rw [← List.take_append_drop (j' + 1) ts, List.map_append, List.sum_append]
        omega
      omega
  rw [e, List.take_length]

/-- C108: every run, with any tables and any representation, also one that ends with an exception: the statements it sends are whole transactions, followed by
at most one that is not committed; there is none of these if the run ends normally, and nothing at all without `--database`. -/
theorem C108_any_run {S : Type} {d : Nat} (tbl : Nat → Except Err (NFTable (List Nat))) (a : Args) (rep : Summand d) (r size : Nat)
    (rank : (Fin d → Fin d → ℤ) → Nat) (g : Rng S) (seed : S) (ord : ℤ → List Row → List Row) :
    ∃ (ts : List (List Record)) (tail : List Stmt),
      (mainT tbl a rep r size rank g seed ord).1 = (ts.flatMap fun rows => Stmt.begin :: (rows.map Stmt.insert ++ [Stmt.commit])) ++ tail ∧
      (tail = [] ∨ ∃ rows : List Record, tail = Stmt.begin :: rows.map Stmt.insert) ∧
      ((∃ st, (mainT tbl a rep r size rank g seed ord).2 = .ok st) → tail = []) ∧ (a.database = false → ts = [] ∧ tail = []) := by
  rw [mainT]
  split
  · exact ⟨[], [], rfl, .inl rfl, fun _ => rfl, fun _ => ⟨rfl, rfl⟩⟩
  · exact loopT_shape tbl a rep r _ ord _ _

/-- C108: what a round has saved is committed before the braids are moved forward: if the rounds for `Ls` went through, and the round for `L` got as far as printing and
selecting, then its rows are sent and committed after those of the earlier rounds, whatever becomes of the rest of the round (`nf_descendants` may raise) and of later rounds. -/
theorem C108_saved_before_failure {S : Type} {d : Nat} (tbl : Nat → Except Err (NFTable (List Nat))) (a : Args) (hd : a.database = true) (rep : Summand d) (r : Nat)
    (c : Config S NF d) (ord : ℤ → List Row → List Row) (Ls : List ℤ) (L : ℤ) (Ls' : List ℤ) (st : State S NF d) (outs : List (ℤ × Out)) (st1 : State S NF d)
    (h : Search.loop tbl a rep c ord Ls st = .ok (outs, st1)) (hh : ∀ o ∈ outs, o.2.halt = false)
    (found) (hn : nearKernel tbl st1 (BraidSearch.stats (ord L) st1) = .ok found) (saved : List DbRow)
    (hs : dbRows st1 (within (selectionLength (BraidSearch.stats (ord L) st1) L) a.saveBest) = .ok saved) :
    ((outs.map fun o => o.2.saved) ++ [saved]).flatMap (fun rows => Stmt.begin :: (rows.map (fun y => Stmt.insert (record rep r y)) ++ [Stmt.commit])) <+:
      (loopT tbl a rep r c ord (Ls ++ L :: Ls') st).1 := by
  rw [loopT_append tbl a rep r c ord Ls (L :: Ls') st outs st1 h hh, hd, if_pos rfl]
  have := loopT_round_prefix tbl a rep r c ord L Ls' st1
  rw [roundT_saved tbl a rep r c (ord L) L st1 hd found hn saved hs] at this
  have e : ((outs.map fun o => o.2.saved) ++ [saved]).flatMap (fun rows => Stmt.begin :: (rows.map (fun y => Stmt.insert (record rep r y)) ++ [Stmt.commit])) =
      SearchDb.blocks (outs.map fun o => o.2.saved.map (record rep r)) ++ block (saved.map (record rep r)) := by
    simp [SearchDb.blocks, block, List.flatMap_map, Function.comp_def]
  rw [e]
  exact (List.prefix_append_right_inj _).2 this

/-- C108: a search that is still running is not held up by searches that were killed: after any schedule, kill all the others; a search that has statements left then sends them
one after the other, and all its rounds are in the table. -/
theorem C108_no_stale_lock {ι : Type} [DecidableEq ι] (progs : ι → List Stmt) (ts : ι → List (List Record)) (h : ∀ i, SearchRun lim ω (progs i) (ts i))
    (es : List (Ev ι)) (i : ι) (ks : List ι) (hks : ∀ j, j ∈ ks ↔ j ≠ i) (hi : ((Sys.init progs).run es).todo i ≠ []) :
    ((((Sys.init progs).run (es ++ ks.map Ev.kill ++ List.replicate (((Sys.init progs).run es).todo i).length (.step i))).log.filter
      fun e => decide (e.1 = i)).map Prod.snd) = ts i := by
  have e : (Sys.init progs).run (es ++ ks.map Ev.kill ++ List.replicate (((Sys.init progs).run es).todo i).length (.step i)) =
      (((Sys.init progs).run es).run (ks.map Ev.kill)).run (List.replicate (((Sys.init progs).run es).todo i).length (.step i)) := by
    simp only [Sys.run, List.foldl_append]
  rw [e]
  obtain ⟨k1, k2, k3⟩ := kills_open ((Sys.init progs).run es) ks
  have hnot : i ∉ ks := fun hm => (hks i).1 hm rfl
  have ht : (((Sys.init progs).run es).run (ks.map Ev.kill)).todo i = ((Sys.init progs).run es).todo i := by rw [k1]; simp [hnot]
  refine Alive.finish (((At.init (h i).blocks).run es).run (ks.map Ev.kill) |>.alive (by rw [ht]; exact hi)) ?_ ?_ _ (by rw [ht])
  · refine LockInv.run (LockInv.run ?_ es) _
    intro j hj; cases hj
  · intro j hj
    rw [k2]; simp [(hks j).2 hj]

/-- C108: the text in the column `gnf` determines the braid, but it is not what `convert_braid` reads: that raises `ValueError` on
every such text, because the class name is missing. -/
theorem C108_text (limD : Nat) (ωD : NPar → NPar → Nat → Nat) (x y : NF) : (astupleText x = astupleText y → x = y) ∧
    adaptBraid .gnf x = ['G', 'N', 'F'] ++ astupleText x ∧ convertBraid lim ω limD ωD (astupleText x) = .error .value := by
  refine ⟨fun h => ?_, rfl, ?_⟩
  · refine (C24_injective .gnf .gnf x y ?_).2
    show ['G', 'N', 'F'] ++ astupleText x = ['G', 'N', 'F'] ++ astupleText y
    rw [h]
  · refine C24_bad_prefix _ ?_ ?_ <;>
      (rintro ⟨l, hl⟩; simp [astupleText, Adapter.reprTuple] at hl)

/-- A run that meets the hypotheses: `search.py 3 1 2` with a bucket size of 3. -/
example (S : Type) (g : Rng S) (seed : S) : ∃ prog ts, SearchRun 7 (fun _ _ _ => 0) prog ts := by
  obtain ⟨ρ, G, I, gs, -, -, g3, g4, hF, hd⟩ := C54_hypotheses 3 1 2 (by norm_num) (by norm_num)
  obtain ⟨outs, st, h, -⟩ := C72_main (S := S) (lim := 7) (ω := fun _ _ _ => 0) (sm := ⟨3, 2, gs⟩) (τ := ρ) (by norm_num) (by norm_num) g4 hF hd
    (by norm_num) ⟨2, 50, 20, 1, false, true⟩ 3 (by norm_num) (fun _ => 0) g seed (fun _ l => l) (fun _ l => List.Perm.refl l)
  exact ⟨_, _, 3, 1, 2, gs, S, _, 3, _, g, seed, _, outs, st, by norm_num, by norm_num, by norm_num, by norm_num, g3, by norm_num, rfl,
    fun _ l => List.Perm.refl l, h, rfl, rfl⟩

section example_
private def ra : Record := ⟨3, 1, 2, 1, 3, ['a']⟩
private def rb : Record := ⟨3, 1, 2, 2, 3, ['b']⟩
/-- Two searches on one file: the one that inserts while the other holds the lock dies; the other goes on. -/
example : ((Sys.init fun b : Bool => if b then blocks [[ra], [rb]] else blocks [[rb, ra]]).run
    [.step true, .step false, .step true, .step false, .step true, .step true, .step true, .step true]).log = [(true, [ra]), (true, [rb])] := by decide +kernel
/-- Killed before the commit of the second round; restarting a search on another file position; power loss. -/
example : ((Sys.init fun _ : Unit => blocks [[ra], [rb, rb]]).run (List.replicate 6 (.step ()) ++ [.kill ()])).table [rb] = [rb, ra] := by decide +kernel
example : ((Sys.init fun _ : Unit => blocks [[ra], [rb, rb]]).run (List.replicate 7 (.step ()) ++ [.kill ()])).table [rb] = [rb, ra, rb, rb] := by decide +kernel
example : ((Sys.init fun _ : Unit => blocks [[ra], [rb, rb]]).run (List.replicate 7 (.step ()) ++ [.power 1, .step ()])).table [] = [ra] := by decide +kernel
/-- A search that inserts is killed and leaves no lock; without the kill the other one is refused. -/
example : ((Sys.init fun b : Bool => if b then blocks [[ra], [rb]] else blocks [[rb, ra]]).run
    ([.step false, .step false, .kill false] ++ List.replicate 6 (.step true))).log = [(true, [ra]), (true, [rb])] := by decide +kernel
example : ((Sys.init fun b : Bool => if b then blocks [[ra], [rb]] else blocks [[rb, ra]]).run
    ([.step false, .step false] ++ List.replicate 6 (.step true))).log = [] := by decide +kernel
/-- A round in which `nf_descendants` raises (there is no table): its row is sent and committed all the same. -/
example : let st : State Unit NF 1 := ⟨[((1, 3), ⟨3, [⟨3, 0, [1]⟩], [⟨3, 0, [1]⟩], [[fun _ _ _ => 1]]⟩)], [], ()⟩
    let c : Config Unit NF 1 := ⟨3, NF.canonicalLength, fun _ _ _ => true, fun _ => 0, none⟩
    let a : Args := ⟨2, 50, 20, 1, false, true⟩
    let tbl : Nat → Except Err (NFTable (List Nat)) := fun _ => .error .value
    nearKernel tbl st (BraidSearch.stats id st) = .ok [] ∧ dbRows st (within (selectionLength (BraidSearch.stats id st) 1) a.saveBest) = .ok [(1, 3, ⟨3, 0, [1]⟩)] ∧
    (loopT tbl a ⟨3, 2, []⟩ 1 c (fun _ => id) [1, 2] st).2 = .error .value ∧
    (loopT tbl a ⟨3, 2, []⟩ 1 c (fun _ => id) [1, 2] st).1.length = 3 := by
  refine ⟨by rfl, by rfl, by rfl, by rfl⟩
end example_

end Peyl
