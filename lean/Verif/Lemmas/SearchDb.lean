import Verif.Model.SearchDb
import Verif.Lemmas.Search
import Verif.Lemmas.Adapter
import Verif.Lemmas.PosWords
/-! # The statements of a run of `search.py` -/
namespace Peyl
namespace SearchDb
open BraidSearch Search Adapter

/-- One transaction as statements. -/
def block (rows : List Record) : List Stmt := Stmt.begin :: (rows.map Stmt.insert ++ [Stmt.commit])

/-- Transactions one after the other. -/
def blocks (ts : List (List Record)) : List Stmt := ts.flatMap block

theorem blocks_cons (t : List Record) (ts : List (List Record)) : blocks (t :: ts) = block t ++ blocks ts := rfl

section trace
variable {S : Type} {d : Nat}

theorem saveBuckets_of_dbRows (rep : Summand d) (r : Nat) (st : State S NF d) (rows : List Row) (saved : List DbRow)
    (h : dbRows st rows = .ok saved) : saveBuckets rep r st rows = (saved.map fun y => Stmt.insert (record rep r y), .ok ()) := by
  induction rows generalizing saved with
  | nil =>
    have : ([] : List DbRow) = saved := by
      have h' : (Except.ok [] : Except Err (List DbRow)) = .ok saved := h
      exact Except.ok.inj h'
    subst this; rfl
  | cons row rows ih =>
    unfold dbRows at h
    rw [List.mapM_cons] at h
    cases hb : Dict.get st.buckets row.1 with
    | error e => rw [hb] at h; cases h
    | ok b =>
      rw [hb] at h
      simp only [bind_ok, pure, Except.pure] at h
      cases hm : (rows.mapM fun r => do
          let b ← Dict.get st.buckets r.1
          Except.ok (b.braids.map fun x => ((r.1.1, r.1.2, x) : DbRow))) with
      | error e => rw [hm] at h; cases h
      | ok ls =>
        rw [hm] at h
        have e : saved = (b.braids.map fun x => (row.1.1, row.1.2, x)) ++ ls.flatten := by
          have := Except.ok.inj h
          rw [← this, List.flatten_cons]
        have h2 : dbRows st rows = .ok ls.flatten := by
          unfold dbRows; rw [hm]; rfl
        rw [saveBuckets, hb]
        simp only [ih _ h2]
        rw [e, List.map_append, List.map_map]; rfl

theorem save_of_dbRows (rep : Summand d) (r : Nat) (st : State S NF d) (rows : List Row) (saved : List DbRow)
    (h : dbRows st rows = .ok saved) : save rep r st rows = (block (saved.map (record rep r)), .ok ()) := by
  rw [save, saveBuckets_of_dbRows rep r st rows saved h, block, List.map_map]; rfl

variable (tbl : Nat → Except Err (NFTable (List Nat)))

theorem roundT_of_round (a : Args) (rep : Summand d) (r : Nat) (c : Config S NF d) (ord : List Row → List Row) (L : Int)
    (st : State S NF d) (out : Out) (st' : State S NF d) (h : Search.round tbl a rep c ord L st = .ok (out, st')) :
    roundT tbl a rep r c ord L st = (if a.database then block (out.saved.map (record rep r)) else [], .ok (out.halt, st')) := by
  rw [Search.round] at h
  obtain ⟨found, h1, h⟩ := bind_eq_ok.1 h
  rw [roundT, h1]
  dsimp only at h ⊢
  cases hd : a.database with
  | false =>
    rw [hd, if_neg (by simp), bind_ok] at h
    obtain ⟨st1, h3, h⟩ := bind_eq_ok.1 h
    have h := Except.ok.inj h
    rw [Prod.mk.injEq] at h
    simp only [Bool.false_eq_true, if_false]
    rw [h3, bind_ok, ← h.2, ← h.1]
  | true =>
    rw [hd, if_pos rfl] at h
    obtain ⟨saved, h2, h⟩ := bind_eq_ok.1 h
    obtain ⟨st1, h3, h⟩ := bind_eq_ok.1 h
    have h := Except.ok.inj h
    rw [Prod.mk.injEq] at h
    simp only [if_true]
    rw [save_of_dbRows rep r st _ _ h2]
    dsimp only
    rw [h3, bind_ok, ← h.2, ← h.1]

theorem loopT_of_loop (a : Args) (rep : Summand d) (r : Nat) (c : Config S NF d) (ord : Int → List Row → List Row) (Ls : List Int)
    (st : State S NF d) (outs : List (Int × Out)) (st' : State S NF d) (h : Search.loop tbl a rep c ord Ls st = .ok (outs, st')) :
    loopT tbl a rep r c ord Ls st =
      (if a.database then blocks (outs.map fun o => o.2.saved.map (record rep r)) else [], .ok st') := by
  induction Ls generalizing st outs with
  | nil =>
    rw [Search.loop] at h
    have h := Except.ok.inj h
    rw [Prod.mk.injEq] at h
    rw [loopT, ← h.1, h.2]
    simp [blocks]
  | cons L Ls ih =>
    rw [Search.loop] at h
    obtain ⟨⟨out, st1⟩, h1, h⟩ := bind_eq_ok.1 h
    have hr := roundT_of_round tbl a rep r c (ord L) L st out st1 h1
    rw [loopT, hr]
    dsimp only at h
    cases hh : out.halt with
    | true =>
      rw [hh, if_pos rfl] at h
      have h := Except.ok.inj h
      rw [Prod.mk.injEq] at h
      rw [← h.1, h.2]
      simp [blocks]
    | false =>
      rw [hh, if_neg (by simp)] at h
      obtain ⟨⟨os, st2⟩, h2, h⟩ := bind_eq_ok.1 h
      have h := Except.ok.inj h
      rw [Prod.mk.injEq] at h
      dsimp only at h
      rw [← h.1, ← h.2]
      dsimp only
      rw [ih st1 os (by rw [h2, ← h.2])]
      rw [← h.2]
      split <;> simp [blocks]

theorem mainT_of_main (a : Args) (rep : Summand d) (r : Nat) (size : Nat) (rank : (Fin d → Fin d → ℤ) → Nat) (g : Rng S) (seed : S)
    (ord : Int → List Row → List Row) (outs : List (Int × Out)) (st' : State S NF d)
    (h : Search.main tbl a rep size rank g seed ord = .ok (outs, st')) :
    mainT tbl a rep r size rank g seed ord =
      (if a.database then blocks (outs.map fun o => o.2.saved.map (record rep r)) else [], .ok st') := by
  rw [Search.main] at h
  obtain ⟨st, h1, h⟩ := bind_eq_ok.1 h
  rw [mainT, h1]
  exact loopT_of_loop tbl a rep r _ ord _ st outs st' h

/-! ### Runs that fail -/

/-- A transaction that has been opened and not finished. -/
def OpenTail (t : List Stmt) : Prop := t = [] ∨ ∃ rows : List Record, t = Stmt.begin :: rows.map Stmt.insert

theorem saveBuckets_inserts (rep : Summand d) (r : Nat) (st : State S NF d) (rows : List Row) :
    ∃ xs : List Record, (saveBuckets rep r st rows).1 = xs.map Stmt.insert := by
  induction rows with
  | nil => exact ⟨[], rfl⟩
  | cons row rows ih =>
    obtain ⟨xs, h⟩ := ih
    rw [saveBuckets]
    split
    · exact ⟨[], rfl⟩
    · rename_i b _
      exact ⟨(b.braids.map fun x => record rep r (row.1.1, row.1.2, x)) ++ xs, by simp [h]⟩

theorem save_shape (rep : Summand d) (r : Nat) (st : State S NF d) (rows : List Row) :
    (∃ e, ∃ xs : List Record, save rep r st rows = (Stmt.begin :: xs.map Stmt.insert, .error e)) ∨ ∃ xs, save rep r st rows = (block xs, .ok ()) := by
  obtain ⟨xs, h⟩ := saveBuckets_inserts rep r st rows
  rw [save]
  cases hs : saveBuckets rep r st rows with
  | mk t x =>
    rw [hs] at h
    cases x with
    | error e => exact .inl ⟨e, xs, by rw [← h]⟩
    | ok u => exact .inr ⟨xs, by rw [block, ← h]; simp⟩

theorem roundT_shape (a : Args) (rep : Summand d) (r : Nat) (c : Config S NF d) (ord : List Row → List Row) (L : Int) (st : State S NF d) :
    ∃ ts tail, (roundT tbl a rep r c ord L st).1 = blocks ts ++ tail ∧ OpenTail tail ∧ ((∃ x, (roundT tbl a rep r c ord L st).2 = .ok x) → tail = []) ∧
      (a.database = false → ts = [] ∧ tail = []) := by
  rw [roundT]
  dsimp only
  split
  · exact ⟨[], [], rfl, .inl rfl, fun _ => rfl, fun _ => ⟨rfl, rfl⟩⟩
  · cases hd : a.database with
    | false => exact ⟨[], [], rfl, .inl rfl, fun _ => rfl, fun _ => ⟨rfl, rfl⟩⟩
    | true =>
      rw [if_pos rfl]
      rcases save_shape rep r st (within (selectionLength (BraidSearch.stats ord st) L) a.saveBest) with ⟨e, xs, h⟩ | ⟨xs, h⟩
      · rw [h]
        exact ⟨[], _, rfl, .inr ⟨xs, rfl⟩, (fun ⟨x, hx⟩ => by cases hx), fun h => by cases h⟩
      · rw [h]
        exact ⟨[xs], [], by simp [blocks], .inl rfl, fun _ => rfl, fun h => by cases h⟩

theorem loopT_shape (a : Args) (rep : Summand d) (r : Nat) (c : Config S NF d) (ord : Int → List Row → List Row) (Ls : List Int) (st : State S NF d) :
    ∃ ts tail, (loopT tbl a rep r c ord Ls st).1 = blocks ts ++ tail ∧ OpenTail tail ∧ ((∃ x, (loopT tbl a rep r c ord Ls st).2 = .ok x) → tail = []) ∧
      (a.database = false → ts = [] ∧ tail = []) := by
  induction Ls generalizing st with
  | nil => exact ⟨[], [], rfl, .inl rfl, fun _ => rfl, fun _ => ⟨rfl, rfl⟩⟩
  | cons L Ls ih =>
    obtain ⟨ts, tail, h1, h2, h3, h4⟩ := roundT_shape tbl a rep r c (ord L) L st
    rw [loopT]
    cases hr : roundT tbl a rep r c (ord L) L st with
    | mk t x =>
      rw [hr] at h1 h3
      rcases x with e | ⟨_ | _, st'⟩
      · exact ⟨ts, tail, h1, h2, (fun ⟨x, hx⟩ => by cases hx), h4⟩
      · obtain ⟨ts', tail', i1, i2, i3, i4⟩ := ih st'
        have e := h3 ⟨_, rfl⟩
        subst e
        refine ⟨ts ++ ts', tail', ?_, i2, i3, fun hd => ⟨by rw [(h4 hd).1, (i4 hd).1]; rfl, (i4 hd).2⟩⟩
        dsimp only at h1 ⊢
        rw [h1, i1]; simp [blocks]
      · exact ⟨ts, tail, h1, h2, fun _ => h3 ⟨_, rfl⟩, h4⟩

theorem loopT_append (a : Args) (rep : Summand d) (r : Nat) (c : Config S NF d) (ord : Int → List Row → List Row) (Ls Ls' : List Int)
    (st : State S NF d) (outs : List (Int × Out)) (st' : State S NF d) (h : Search.loop tbl a rep c ord Ls st = .ok (outs, st'))
    (hh : ∀ o ∈ outs, o.2.halt = false) :
    loopT tbl a rep r c ord (Ls ++ Ls') st =
      ((if a.database then blocks (outs.map fun o => o.2.saved.map (record rep r)) else []) ++ (loopT tbl a rep r c ord Ls' st').1, (loopT tbl a rep r c ord Ls' st').2) := by
  induction Ls generalizing st outs with
  | nil =>
    rw [Search.loop] at h
    have h := Except.ok.inj h
    rw [Prod.mk.injEq] at h
    rw [List.nil_append, ← h.1, h.2]
    simp [blocks]
  | cons L Ls ih =>
    rw [Search.loop] at h
    obtain ⟨⟨out, st1⟩, h1, h⟩ := bind_eq_ok.1 h
    have hr := roundT_of_round tbl a rep r c (ord L) L st out st1 h1
    rw [List.cons_append, loopT, hr]
    dsimp only at h
    cases hhalt : out.halt with
    | true =>
      rw [hhalt, if_pos rfl] at h
      have h := Except.ok.inj h
      rw [Prod.mk.injEq] at h
      have := hh (L, out) (by rw [← h.1]; simp)
      rw [hhalt] at this; cases this
    | false =>
      rw [hhalt, if_neg (by simp)] at h
      obtain ⟨⟨os, st2⟩, h2, h⟩ := bind_eq_ok.1 h
      have h := Except.ok.inj h
      rw [Prod.mk.injEq] at h
      dsimp only at h
      dsimp only
      rw [ih st1 os (by rw [h2, ← h.2]) (fun o ho => hh o (by rw [← h.1]; exact List.mem_cons_of_mem _ ho)), ← h.1]
      split <;> simp [blocks]

theorem loopT_round_prefix (a : Args) (rep : Summand d) (r : Nat) (c : Config S NF d) (ord : Int → List Row → List Row) (L : Int) (Ls : List Int) (st : State S NF d) :
    (roundT tbl a rep r c (ord L) L st).1 <+: (loopT tbl a rep r c ord (L :: Ls) st).1 := by
  rw [loopT]
  cases hr : roundT tbl a rep r c (ord L) L st with
  | mk t x =>
    rcases x with e | ⟨_ | _, st'⟩
    · exact List.prefix_rfl
    · exact List.prefix_append _ _
    · exact List.prefix_rfl

theorem roundT_saved (a : Args) (rep : Summand d) (r : Nat) (c : Config S NF d) (ord : List Row → List Row) (L : Int) (st : State S NF d)
    (hd : a.database = true) (found) (hn : nearKernel tbl st (BraidSearch.stats ord st) = .ok found) (saved : List DbRow)
    (hs : dbRows st (within (selectionLength (BraidSearch.stats ord st) L) a.saveBest) = .ok saved) :
    (roundT tbl a rep r c ord L st).1 = block (saved.map (record rep r)) := by
  rw [roundT, hn]
  dsimp only
  rw [hd, if_pos rfl, save_of_dbRows rep r st _ _ hs]

end trace

/-! ## Schedules -/
section sys
variable {ι : Type} [DecidableEq ι]

/-- The transactions of process `i` in the log. -/
def own (log : List (ι × List Record)) (i : ι) : List (List Record) := (log.filter fun e => decide (e.1 = i)).map Prod.snd

theorem own_append (l l' : List (ι × List Record)) (i : ι) : own (l ++ l') i = own l i ++ own l' i := by
  simp [own]

/-- Process `i` with the transactions `ts` is somewhere in its program, or gone. -/
def At (ts : List (List Record)) (s : Sys ι) (i : ι) : Prop :=
  (s.open_ i = none ∧ s.todo i = [] ∧ own s.log i <+: ts) ∨
  (∃ rest, ts = own s.log i ++ rest ∧ s.open_ i = none ∧ s.todo i = blocks rest) ∨
  (∃ p q rest, ts = own s.log i ++ (p ++ q) :: rest ∧ s.open_ i = some p ∧ s.todo i = q.map Stmt.insert ++ [Stmt.commit] ++ blocks rest)

theorem At.prefix {ts : List (List Record)} {s : Sys ι} {i : ι} (h : At ts s i) : own s.log i <+: ts := by
  rcases h with ⟨-, -, h⟩ | ⟨rest, h, -⟩ | ⟨p, q, rest, h, -⟩
  · exact h
  · exact ⟨rest, h.symm⟩
  · exact ⟨_, h.symm⟩

theorem At.congr {ts : List (List Record)} {s s' : Sys ι} {i : ι} (h : At ts s i) (h1 : s'.open_ i = s.open_ i) (h2 : s'.todo i = s.todo i)
    (h3 : own s'.log i = own s.log i) : At ts s' i := by
  unfold At at *
  rw [h1, h2, h3]; exact h

theorem At.kill_self {ts : List (List Record)} {s : Sys ι} {i : ι} (h : At ts s i) : At ts (s.kill i) i :=
  .inl ⟨by simp [Sys.kill], by simp [Sys.kill], h.prefix⟩

theorem At.kill {ts : List (List Record)} {s : Sys ι} {i : ι} (h : At ts s i) (j : ι) : At ts (s.kill j) i := by
  by_cases e : i = j
  · subst e; exact h.kill_self
  · exact h.congr (by simp [Sys.kill, e]) (by simp [Sys.kill, e]) rfl

theorem exec_other (s : Sys ι) {i j : ι} (h : i ≠ j) :
    (s.exec j).open_ i = s.open_ i ∧ (s.exec j).todo i = s.todo i ∧ own (s.exec j).log i = own s.log i := by
  unfold Sys.exec
  split
  · simp
  · split
    · simp [h]
    · simp [Sys.kill, h]
  · split
    · simp [h]
    · simp [Sys.kill, h]
  · split
    · simp [h]
    · simp [h, own, Ne.symm h]

theorem At.exec {ts : List (List Record)} {s : Sys ι} {i : ι} (h : At ts s i) (j : ι) : At ts (s.exec j) i := by
  by_cases e : i = j
  swap
  · obtain ⟨h1, h2, h3⟩ := exec_other s e
    exact h.congr h1 h2 h3
  subst e
  rcases h with ⟨h1, h2, h3⟩ | ⟨rest, h1, h2, h3⟩ | ⟨p, q, rest, h1, h2, h3⟩
  · have : s.exec i = s := by unfold Sys.exec; rw [h2]
    rw [this]; exact .inl ⟨h1, h2, h3⟩
  · cases rest with
    | nil =>
      have : s.exec i = s := by unfold Sys.exec; rw [h3]; rfl
      rw [this]; exact .inr (.inl ⟨[], h1, h2, h3⟩)
    | cons t rest =>
      rw [blocks_cons, block, List.cons_append] at h3
      refine .inr (.inr ⟨[], t, rest, ?_, ?_, ?_⟩) <;> (unfold Sys.exec; rw [h3]; dsimp only; rw [h2]) <;> simp [h1]
  · cases q with
    | nil =>
      refine .inr (.inl ⟨rest, ?_, ?_, ?_⟩) <;> (unfold Sys.exec; rw [h3]; simp only [List.map_nil, List.nil_append, List.cons_append]) <;>
        simp [own_append, h1, h2]
      simp [own]
    | cons x q =>
      by_cases hw : s.writer = none ∨ s.writer = some i
      · refine .inr (.inr ⟨p ++ [x], q, rest, ?_, ?_, ?_⟩) <;>
          (unfold Sys.exec; rw [h3]; simp only [List.map_cons, List.cons_append]; rw [if_pos hw]) <;> simp [h1, h2]
      · have : s.exec i = s.kill i := by
          unfold Sys.exec; rw [h3]; simp only [List.map_cons, List.cons_append]; rw [if_neg hw]
        rw [this]
        exact At.kill_self (.inr (.inr ⟨p, x :: q, rest, h1, h2, h3⟩))

theorem At.ev {ts : List (List Record)} {s : Sys ι} {i : ι} (h : At ts s i) (e : Ev ι) : At ts (s.ev e) i := by
  cases e with
  | step j => exact h.exec j
  | kill j => exact h.kill j
  | power k =>
    refine .inl ⟨rfl, rfl, ?_⟩
    refine List.IsPrefix.trans ?_ h.prefix
    show own (s.log.take k) i <+: own s.log i
    conv_rhs => rw [← List.take_append_drop k s.log, own_append]
    exact List.prefix_append _ _

theorem At.run {ts : List (List Record)} {s : Sys ι} {i : ι} (h : At ts s i) (es : List (Ev ι)) : At ts (s.run es) i := by
  induction es generalizing s with
  | nil => exact h
  | cons e es ih => exact ih (h.ev e)

theorem At.init {ts : List (List Record)} {progs : ι → List Stmt} {i : ι} (h : progs i = blocks ts) : At ts (Sys.init progs) i :=
  .inr (.inl ⟨ts, rfl, rfl, h⟩)

theorem log_prefix_ev (s : Sys ι) (e : Ev ι) (he : ∀ k, e ≠ .power k) : s.log <+: (s.ev e).log := by
  cases e with
  | power k => exact absurd rfl (he k)
  | kill j => exact List.prefix_rfl
  | step j =>
    show s.log <+: (s.exec j).log
    unfold Sys.exec
    split
    · exact List.prefix_rfl
    · split <;> exact List.prefix_rfl
    · split <;> exact List.prefix_rfl
    · split
      · simp
      · simp

theorem log_prefix_run (s : Sys ι) (es : List (Ev ι)) (he : ∀ k, Ev.power k ∉ es) : s.log <+: (s.run es).log := by
  induction es generalizing s with
  | nil => exact List.prefix_rfl
  | cons e es ih =>
    refine (log_prefix_ev s e fun k hk => he k (by simp [hk])).trans (ih (s.ev e) fun k hk => he k (by simp [hk]))

/-- Every entry of the log belongs to a process with that transaction. -/
theorem mem_own {log : List (ι × List Record)} {e : ι × List Record} (h : e ∈ log) : e.2 ∈ own log e.1 := by
  unfold own
  exact List.mem_map.2 ⟨e, List.mem_filter.2 ⟨h, by simp⟩, rfl⟩

/-! ### The write lock -/

/-- The lock is held inside a transaction only. -/
def LockInv (s : Sys ι) : Prop := ∀ j, s.writer = some j → s.open_ j ≠ none

theorem LockInv.kill {s : Sys ι} (h : LockInv s) (i : ι) : LockInv (s.kill i) := by
  intro j hj
  simp only [Sys.kill] at hj ⊢
  split at hj
  · cases hj
  · rename_i hne
    have : j ≠ i := fun e => hne (by rw [hj, e])
    rw [Function.update_of_ne this]
    exact h j hj

theorem LockInv.exec {s : Sys ι} (h : LockInv s) (i : ι) : LockInv (s.exec i) := by
  unfold Sys.exec
  split
  · exact h
  · split
    · intro j hj
      dsimp only at hj ⊢
      by_cases e : j = i
      · subst e; simp
      · rw [Function.update_of_ne e]; exact h j hj
    · exact h.kill i
  · split
    · intro j hj
      dsimp only at hj ⊢
      have e : i = j := Option.some.inj hj
      subst e; simp
    · exact h.kill i
  · intro j hj
    dsimp only at hj ⊢
    split at hj
    · cases hj
    · rename_i hne
      have : j ≠ i := fun e => hne (by rw [hj, e])
      rw [Function.update_of_ne this]
      exact h j hj

theorem LockInv.run {s : Sys ι} (h : LockInv s) (es : List (Ev ι)) : LockInv (s.run es) := by
  induction es generalizing s with
  | nil => exact h
  | cons e es ih =>
    refine ih (s := s.ev e) ?_
    cases e with
    | step i => exact h.exec i
    | kill i => exact h.kill i
    | power k => intro j hj; cases hj

/-- Process `i` with the transactions `ts` is alive. -/
def Alive (ts : List (List Record)) (s : Sys ι) (i : ι) : Prop :=
  (∃ rest, ts = own s.log i ++ rest ∧ s.open_ i = none ∧ s.todo i = blocks rest) ∨
  (∃ p q rest, ts = own s.log i ++ (p ++ q) :: rest ∧ s.open_ i = some p ∧ s.todo i = q.map Stmt.insert ++ [Stmt.commit] ++ blocks rest)

theorem At.alive {ts : List (List Record)} {s : Sys ι} {i : ι} (h : At ts s i) (hne : s.todo i ≠ []) : Alive ts s i := by
  rcases h with ⟨-, h, -⟩ | h | h
  · exact absurd h hne
  · exact .inl h
  · exact .inr h

theorem Alive.exec {ts : List (List Record)} {s : Sys ι} {i : ι} (h : Alive ts s i) (hw : s.writer = none ∨ s.writer = some i) :
    Alive ts (s.exec i) i ∧ ((s.exec i).todo i).length = (s.todo i).length - 1 := by
  rcases h with ⟨rest, h1, h2, h3⟩ | ⟨p, q, rest, h1, h2, h3⟩
  · cases rest with
    | nil =>
      have : s.exec i = s := by unfold Sys.exec; rw [h3]; rfl
      rw [this]; exact ⟨.inl ⟨[], h1, h2, h3⟩, by rw [h3]; rfl⟩
    | cons t rest =>
      rw [blocks_cons, block, List.cons_append] at h3
      refine ⟨.inr ⟨[], t, rest, ?_, ?_, ?_⟩, ?_⟩ <;> (unfold Sys.exec; rw [h3]; dsimp only; rw [h2]) <;> simp [h1]
  · cases q with
    | nil =>
      refine ⟨.inl ⟨rest, ?_, ?_, ?_⟩, ?_⟩ <;> (unfold Sys.exec; rw [h3]; simp only [List.map_nil, List.nil_append, List.cons_append]) <;>
        simp [own_append, h1, h2]
      simp [own]
    | cons x q =>
      refine ⟨.inr ⟨p ++ [x], q, rest, ?_, ?_, ?_⟩, ?_⟩ <;>
        (unfold Sys.exec; rw [h3]; simp only [List.map_cons, List.cons_append]; rw [if_pos hw]) <;> simp [h1, h2]

theorem Alive.finish {ts : List (List Record)} {s : Sys ι} {i : ι} (h : Alive ts s i) (hl : LockInv s) (ho : ∀ j, j ≠ i → s.open_ j = none) (k : Nat)
    (hk : (s.todo i).length = k) : own (s.run (List.replicate k (.step i))).log i = ts := by
  induction k generalizing s with
  | zero =>
    have h0 : s.todo i = [] := List.eq_nil_of_length_eq_zero hk
    rcases h with ⟨rest, h1, -, h3⟩ | ⟨p, q, rest, -, -, h3⟩
    · cases rest with
      | nil => simpa [Sys.run] using h1.symm
      | cons t rest => rw [h0] at h3; simp [blocks, block] at h3
    · rw [h0] at h3; simp at h3
  | succ k ih =>
    have hw : s.writer = none ∨ s.writer = some i := by
      cases hw : s.writer with
      | none => exact .inl rfl
      | some j =>
        by_cases e : j = i
        · right; rw [e]
        · exact absurd (ho j e) (hl j hw)
    obtain ⟨h1, h2⟩ := h.exec hw
    rw [List.replicate_succ, Sys.run, List.foldl_cons]
    exact ih (s := s.exec i) h1 (hl.exec i) (fun j hj => by rw [(exec_other s hj).1]; exact ho j hj) (by rw [h2, hk]; rfl)

/-- Killing closes the transaction, and leaves the others alone. -/
theorem kills_open (s : Sys ι) (ks : List ι) : ((s.run (ks.map Ev.kill)).todo = fun j => if j ∈ ks then [] else s.todo j) ∧
    ((s.run (ks.map Ev.kill)).open_ = fun j => if j ∈ ks then none else s.open_ j) ∧ (s.run (ks.map Ev.kill)).log = s.log := by
  induction ks generalizing s with
  | nil => simp [Sys.run]
  | cons k ks ih =>
    obtain ⟨h1, h2, h3⟩ := ih (s.kill k)
    have e : s.run ((k :: ks).map Ev.kill) = (s.kill k).run (ks.map Ev.kill) := rfl
    rw [e, h1, h2, h3]
    refine ⟨funext fun j => ?_, funext fun j => ?_, rfl⟩ <;>
    · by_cases hj : j ∈ ks
      · simp [hj]
      · by_cases hjk : j = k
        · subst hjk; simp [Sys.kill]
        · simp [Sys.kill, hj, hjk]

end sys

/-! ## One process -/

theorem run_add {ι : Type} [DecidableEq ι] (s : Sys ι) (i : ι) (j k : Nat) :
    s.run (List.replicate (j + k) (.step i)) = (s.run (List.replicate j (.step i))).run (List.replicate k (.step i)) := by
  rw [List.replicate_add, Sys.run, Sys.run, Sys.run, List.foldl_append]

/-- The state of the only process. -/
def solo (log : List (Unit × List Record)) (o : Option (List Record)) (todo : List Stmt) (w : Option Unit) : Sys Unit :=
  ⟨log, fun _ => o, fun _ => todo, w⟩

theorem update_unit {α : Type} (f : Unit → α) (i : Unit) (v : α) : Function.update f i v = fun _ => v := by
  funext x; simp

theorem solo_inserts (log : List (Unit × List Record)) (xs : List Record) (p : List Record) (rest : List Stmt) (w : Option Unit) (k : Nat)
    (hk : k ≤ xs.length) :
    ∃ w', (solo log (some p) (xs.map Stmt.insert ++ rest) w).run (List.replicate k (.step ())) =
      solo log (some (p ++ xs.take k)) ((xs.drop k).map Stmt.insert ++ rest) w' := by
  induction k generalizing xs p w with
  | zero => exact ⟨w, by simp [Sys.run]⟩
  | succ k ih =>
    cases xs with
    | nil => simp at hk
    | cons x xs =>
      obtain ⟨w', h⟩ := ih xs (p ++ [x]) (some ()) (by simpa using hk)
      refine ⟨w', ?_⟩
      rw [List.replicate_succ, Sys.run, List.foldl_cons]
      have : Sys.ev (solo log (some p) ((x :: xs).map Stmt.insert ++ rest) w) (.step ()) = solo log (some (p ++ [x])) (xs.map Stmt.insert ++ rest) (some ()) := by
        have hw : w = none ∨ w = some () := by cases w <;> simp
        rw [Sys.ev]
        simp [Sys.exec, solo, hw, update_unit]
      rw [this]
      have h' := h
      rw [Sys.run] at h'
      rw [h']
      simp

theorem solo_block_lt (log : List (Unit × List Record)) (t : List Record) (rest : List Stmt) (k : Nat) (hk : k < t.length + 2) :
    ((solo log none (block t ++ rest) none).run (List.replicate k (.step ()))).log = log := by
  cases k with
  | zero => rfl
  | succ k =>
    obtain ⟨w', h⟩ := solo_inserts log t [] (Stmt.commit :: rest) none k (by omega)
    rw [List.replicate_succ, Sys.run, List.foldl_cons]
    have : Sys.ev (solo log none (block t ++ rest) none) (.step ()) = solo log (some []) (t.map Stmt.insert ++ Stmt.commit :: rest) none := by
      rw [Sys.ev]
      simp [Sys.exec, solo, update_unit, block]
    rw [this]
    rw [Sys.run] at h
    rw [h]; rfl

theorem solo_block (log : List (Unit × List Record)) (t : List Record) (rest : List Stmt) :
    (solo log none (block t ++ rest) none).run (List.replicate (t.length + 2) (.step ())) = solo (log ++ [((), t)]) none rest none := by
  obtain ⟨w', h⟩ := solo_inserts log t [] (Stmt.commit :: rest) none t.length le_rfl
  have e : t.length + 2 = 1 + t.length + 1 := by omega
  rw [e, run_add, run_add]
  have : (solo log none (block t ++ rest) none).run (List.replicate 1 (.step ())) = solo log (some []) (t.map Stmt.insert ++ Stmt.commit :: rest) none := by
    simp [Sys.run, Sys.ev, Sys.exec, solo, update_unit, block]
  rw [this, h]
  have hw : w' = none ∨ w' = some () := by cases w' <;> simp
  rcases hw with rfl | rfl <;> simp [Sys.run, Sys.ev, Sys.exec, solo, update_unit]

/-- The number of statements of transactions. -/
def cost (ts : List (List Record)) : Nat := (ts.map fun t => t.length + 2).sum

theorem solo_run (ts : List (List Record)) (log : List (Unit × List Record)) (k : Nat) :
    ∃ j ≤ ts.length, ((solo log none (blocks ts) none).run (List.replicate k (.step ()))).log = log ++ (ts.take j).map (fun t => ((), t)) ∧
      cost (ts.take j) ≤ k ∧ (j = ts.length ∨ k < cost (ts.take (j + 1))) := by
  induction ts generalizing log k with
  | nil =>
    refine ⟨0, le_rfl, ?_, by simp [cost], .inl rfl⟩
    have : ∀ k, (solo log none (blocks []) none).run (List.replicate k (.step ())) = solo log none (blocks []) none := by
      intro k
      induction k with
      | zero => rfl
      | succ k ih => rw [List.replicate_succ, Sys.run, List.foldl_cons]; exact ih
    rw [this]; simp [solo]
  | cons t ts ih =>
    by_cases hk : k < t.length + 2
    · refine ⟨0, by simp, ?_, by simp [cost], .inr ?_⟩
      · rw [blocks_cons, solo_block_lt _ _ _ _ hk]; simp
      · simpa [cost] using hk
    · obtain ⟨j, j1, j2, j3, j4⟩ := ih (log ++ [((), t)]) (k - (t.length + 2))
      refine ⟨j + 1, by simpa using j1, ?_, ?_, ?_⟩
      · have e : k = (t.length + 2) + (k - (t.length + 2)) := by omega
        rw [e, run_add, blocks_cons, solo_block, j2]
        simp
      · simp only [cost, List.take_succ_cons, List.map_cons, List.sum_cons] at j3 ⊢; omega
      · rcases j4 with j4 | j4
        · left; simp [j4]
        · right; simp only [cost, List.take_succ_cons, List.map_cons, List.sum_cons] at j4 ⊢; omega

end SearchDb
end Peyl
