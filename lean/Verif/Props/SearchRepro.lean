import Verif.Props.SearchProgram
import Verif.Props.SearchText
import Verif.Props.SearchDb
/-!
# C141: a search is reproducible

Python's sets are traversed in an order which depends on hashes and on the history of the set.  `search.py` uses such orders in
two places: for the set of buckets (`ord` below) and in `set.pop` while the tables of the normal form are built (`ω`).
-/
namespace Peyl
open BraidSearch Search SearchText LaurentPolynomial
variable {S : Type} {d : Nat}

theorem tbl_pop_independent (lim : Nat) (ω ω' : List Nat → List Nat → Nat → Nat) : GNF.tbl lim ω = GNF.tbl lim ω' := by
  funext n
  show PermTable.create lim ω n = PermTable.create lim ω' n
  rw [PermTable.create, PermTable.create, C09_pop_independent n ω ω']

theorem discard_fold (l : List Tag) (st : State S NF d) :
    l.foldl discardBucket st = { st with buckets := st.buckets.filter fun tb => !decide (tb.1 ∈ l) } := by
  induction l generalizing st with
  | nil => simp
  | cons t l ih =>
    rw [List.foldl_cons, ih]
    have e : discardBucket st t = { st with buckets := Dict.del st.buckets t } := by
      rw [discardBucket]
      split
      · rfl
      · next h =>
        have : Dict.del st.buckets t = st.buckets := by
          rw [Dict.del, List.filter_eq_self]
          intro kv hkv
          simp only [Dict.has, List.any_eq_true, decide_eq_true_eq, not_exists, not_and] at h
          simpa using h kv hkv
        rw [this]
    rw [e]
    simp only [Dict.del, List.filter_filter]
    congr 1
    apply List.filter_congr
    intro tb _
    simp only [List.mem_cons]
    by_cases h1 : tb.1 = t <;> by_cases h2 : tb.1 ∈ l <;> simp [h1, h2]

/-- The two rounds have the same results, except that the near-kernel braids may be listed in another order. -/
def SameOut (o o' : Int × Out) : Prop :=
  o.1 = o'.1 ∧ o.2.selected = o'.2.selected ∧ o.2.saved = o'.2.saved ∧ o.2.halt = o'.2.halt ∧ o.2.found.Perm o'.2.found

variable {lim : Nat} {ω ω' : List Nat → List Nat → Nat → Nat} {sm : Summand d} {τ : Braid sm.n →* LMat sm.p d} {c : Config S NF d}

theorem round_same (hn : 2 ≤ sm.n) (hl : sm.n < lim) (H : SummandRealises sm τ) (hF : FullTwistScalar τ) (hd : 0 < d) (hp : sm.p ≠ 1)
    (hsz : 1 ≤ c.size) (hc : c.length = NF.canonicalLength) (a : Args) (ord ord' : List Row → List Row) (ho : ∀ l, (ord l).Perm l)
    (ho' : ∀ l, (ord' l).Perm l) (L : ℤ) (st : State S NF d) (hr : Reach lim ω sm τ c (fun x => x.power = 0) st) :
    ∃ out out' st', Search.round (GNF.tbl lim ω) a sm c ord L st = .ok (out, st') ∧ Search.round (GNF.tbl lim ω) a sm c ord' L st = .ok (out', st') ∧
      Reach lim ω sm τ c (fun x => x.power = 0) st' ∧ SameOut (L, out) (L, out') := by
  obtain ⟨out, st1, e1, e2, -, -, e5, e6, e7, -⟩ := C72_round hn hl H hF hd hp hsz hc a ord ho L st hr
  obtain ⟨out', st1', f1, -, -, -, f5, f6, f7, -⟩ := C72_round hn hl H hF hd hp hsz hc a ord' ho' L st hr
  obtain ⟨s, ops, -, hrun⟩ := hr
  have hsel := fun B => C71_order_irrelevant s ops st hrun ord ord' ho ho' L B
  have hst : (BraidSearch.stats ord st).Perm (BraidSearch.stats ord' st) := (stats_perm ho st).trans (stats_perm ho' st).symm
  have hhalt : out.halt = out'.halt := by
    rw [Bool.eq_iff_iff, e5, f5]
  have e1' := e1
  have f1' := f1
  rw [Search.round] at e1' f1'
  obtain ⟨fd, -, e1'⟩ := bind_eq_ok.1 e1'
  obtain ⟨fd', -, f1'⟩ := bind_eq_ok.1 f1'
  have hfin : ∀ s1 : State S NF d, ((((BraidSearch.stats ord st).filter fun r => decide (r.1.1 ≤ L)).map Prod.fst).foldl discardBucket s1) =
      ((((BraidSearch.stats ord' st).filter fun r => decide (r.1.1 ≤ L)).map Prod.fst).foldl discardBucket s1) := by
    intro s1
    rw [discard_fold, discard_fold]
    congr 1
    apply List.filter_congr
    intro tb _
    congr 1
    rw [Bool.eq_iff_iff, decide_eq_true_iff, decide_eq_true_iff]
    exact ((hst.filter _).map _).mem_iff
  have key : st1 = st1' ∧ out.saved = out'.saved ∧ out.selected = out'.selected := by
    dsimp only at e1' f1'
    rw [← hsel, ← hsel] at f1'
    cases hdb : a.database
    · simp only [hdb, Bool.false_eq_true, if_false, bind_ok] at e1' f1'
      obtain ⟨s1, g2, e1'⟩ := bind_eq_ok.1 e1'
      obtain ⟨s1', g2', f1'⟩ := bind_eq_ok.1 f1'
      rw [g2] at g2'
      cases g2'; cases e1'; cases f1'
      exact ⟨hfin _, rfl, rfl⟩
    · simp only [hdb, if_true] at e1' f1'
      obtain ⟨sv, g1, e1'⟩ := bind_eq_ok.1 e1'
      obtain ⟨sv', g1', f1'⟩ := bind_eq_ok.1 f1'
      rw [g1] at g1'
      cases g1'
      obtain ⟨s1, g2, e1'⟩ := bind_eq_ok.1 e1'
      obtain ⟨s1', g2', f1'⟩ := bind_eq_ok.1 f1'
      rw [g2] at g2'
      cases g2'; cases e1'; cases f1'
      exact ⟨hfin _, rfl, rfl⟩
  obtain ⟨rfl, k2, k3⟩ := key
  exact ⟨out, out', st1, e1, f1, e2, rfl, k3, k2, hhalt, e6.trans f6.symm⟩

theorem loop_same (hn : 2 ≤ sm.n) (hl : sm.n < lim) (H : SummandRealises sm τ) (hF : FullTwistScalar τ) (hd : 0 < d) (hp : sm.p ≠ 1)
    (hsz : 1 ≤ c.size) (hc : c.length = NF.canonicalLength) (a : Args) (ord ord' : ℤ → List Row → List Row) (ho : ∀ L l, (ord L l).Perm l)
    (ho' : ∀ L l, (ord' L l).Perm l) (Ls : List ℤ) (st : State S NF d) (hr : Reach lim ω sm τ c (fun x => x.power = 0) st) :
    ∃ outs outs' st', Search.loop (GNF.tbl lim ω) a sm c ord Ls st = .ok (outs, st') ∧ Search.loop (GNF.tbl lim ω) a sm c ord' Ls st = .ok (outs', st') ∧
      List.Forall₂ SameOut outs outs' := by
  induction Ls generalizing st with
  | nil => exact ⟨[], [], st, rfl, rfl, .nil⟩
  | cons L Ls ih =>
    obtain ⟨out, out', st1, e1, e2, e3, e4⟩ := round_same hn hl H hF hd hp hsz hc a (ord L) (ord' L) (ho L) (ho' L) L st hr
    rw [loop, loop, e1, e2, bind_ok, bind_ok]
    have hh : out.halt = out'.halt := e4.2.2.2.1
    by_cases h : out.halt = true
    · rw [if_pos h, if_pos (hh ▸ h)]
      exact ⟨_, _, st1, rfl, rfl, .cons e4 .nil⟩
    · rw [if_neg h, if_neg (hh ▸ h)]
      obtain ⟨outs, outs', st', i1, i2, i3⟩ := ih st1 e3
      rw [i1, i2]
      exact ⟨_, _, st', rfl, rfl, .cons e4 i3⟩

/-- C141: with the same arguments, the same random generator and the same seed, two runs do the same thing, in whatever orders
Python traverses its sets: they run through the same rounds, select the same buckets in the same order, insert the same rows into the
database in the same order, stop at the same place, end with the same tracker, and find the same near-kernel braids in every round. -/
theorem C141_main (hn : 2 ≤ sm.n) (hl : sm.n < lim) (H : SummandRealises sm τ) (hF : FullTwistScalar τ) (hd : 0 < d) (hp : sm.p ≠ 1)
    (a : Args) (size : Nat) (hsz : 1 ≤ size) (rank : (Fin d → Fin d → ℤ) → Nat) (g : Rng S) (seed : S) (ord ord' : ℤ → List Row → List Row)
    (ho : ∀ L l, (ord L l).Perm l) (ho' : ∀ L l, (ord' L l).Perm l) :
    ∃ outs outs' st', Search.main (GNF.tbl lim ω) a sm size rank g seed ord = .ok (outs, st') ∧
      Search.main (GNF.tbl lim ω') a sm size rank g seed ord' = .ok (outs', st') ∧
      List.Forall₂ (fun o o' => o.1 = o'.1 ∧ o.2.selected = o'.2.selected ∧ o.2.saved = o'.2.saved ∧ o.2.halt = o'.2.halt ∧
        o.2.found.Perm o'.2.found) outs outs' := by
  rw [tbl_pop_independent lim ω' ω]
  set c : Config S NF d :=
    { size := size, length := NF.canonicalLength, criterion := fun _ rows i => decide (1 ≤ (rows i).length), rank := rank, rand := some g } with hcdef
  have h0 : Reach lim ω sm τ c (fun x => x.power = 0) (State.init seed) := ⟨seed, [], by simp, rfl⟩
  obtain ⟨st, bats, b1, b2, b3, -⟩ := bootstrap_spec (c := c) hn hl H hd hp hF hsz a.bootstrapLength h0
  have h1 := h0.append (bats.map Op.add) (fun b'' hb'' => by
    obtain ⟨x, hx, e⟩ := List.mem_map.1 hb''
    cases e; exact b3 _ hx) b2
  obtain ⟨outs, outs', st', l1, l2, l3⟩ := loop_same hn hl H hF hd hp hsz rfl a ord ord' ho ho' (Search.lengths a) st h1
  have b1' : bootstrapExhaustive (GNF.tbl lim ω) sm c ⟨[], [], seed⟩ a.bootstrapLength = .ok st := b1
  refine ⟨outs, outs', st', ?_, ?_, l3⟩
  · rw [Search.main]
    show (bootstrapExhaustive (GNF.tbl lim ω) sm c ⟨[], [], seed⟩ a.bootstrapLength >>= _) = _
    rw [b1', bind_ok]; exact l1
  · rw [Search.main]
    show (bootstrapExhaustive (GNF.tbl lim ω) sm c ⟨[], [], seed⟩ a.bootstrapLength >>= _) = _
    rw [b1', bind_ok]; exact l2

example (g : Rng Unit) := C141_main (lim := 7) (ω := pop0) (ω' := fun x _ k => x.length + k) (by decide) (by decide) sreal315 twist315 (by decide) (by decide)
  ⟨4, 30, 10, 2, true, true⟩ 50 (by decide) (fun _ => 0) g () (fun _ => id) (fun _ => List.reverse) (fun _ _ => .refl _) fun _ l => l.reverse_perm

/-- C141: the two reports are the same, line by line, except that lines about near-kernel braids of the same round may change places. -/
theorem C141_report (hn : 2 ≤ sm.n) (hl : sm.n < lim) (H : SummandRealises sm τ) (hF : FullTwistScalar τ) (hd : 0 < d) (hp : sm.p ≠ 1)
    (a : Args) (r size : Nat) (hsz : 1 ≤ size) (rank : (Fin d → Fin d → ℤ) → Nat) (g : Rng S) (seedArg : ℤ) (seed : S)
    (ord ord' : ℤ → List Row → List Row) (ho : ∀ L l, (ord L l).Perm l) (ho' : ∀ L l, (ord' L l).Perm l) :
    ∃ head body body', mainText (GNF.tbl lim ω) a sm r size rank g seedArg seed ord = .ok (head, body) ∧
      mainText (GNF.tbl lim ω') a sm r size rank g seedArg seed ord' = .ok (head, body') ∧
      List.Forall₂ (fun B B' => B = B' ∨ ∃ pre found found' post, B = pre ++ found ++ post ∧ B' = pre ++ found' ++ post ∧ found.Perm found' ∧
        ∀ l ∈ found, ∃ x, IsGNF lim ω sm.n x ∧ NearKernel τ (gnfBraid sm.n x) ∧ l = line sm.n r sm.p (printed sm.n x)) body body' := by
  rw [tbl_pop_independent lim ω' ω]
  obtain ⟨outs, st', k, xs, m1, m2, m3, n1, n2, m5, -⟩ := C139_run (ω := ω) hn hl H hF hd hp a r size hsz rank g seedArg seed ord ho
  obtain ⟨outs', st'', k', xs', m1', m2', m3', n1', n2', -⟩ := C139_run (ω := ω) hn hl H hF hd hp a r size hsz rank g seedArg seed ord' ho'
  obtain ⟨o, o', st3, h1, h2, h3⟩ := C141_main (ω := ω) (ω' := ω) hn hl H hF hd hp a size hsz rank g seed ord ord' ho ho'
  rw [m1] at h1; cases h1
  rw [m1'] at h2; cases h2
  have hk : k = k' := by
    rw [m3, m3']
    exact ((List.perm_ext_iff_of_nodup n1 n1').2 fun x => by rw [n2, n2']).length_eq
  subst hk
  refine ⟨_, _, _, m2, m2', ?_⟩
  rw [List.forall₂_map_left_iff, List.forall₂_map_right_iff]
  clear m1 m2 m1' m2'
  induction h3 with
  | nil => exact .nil
  | cons h t ih =>
    refine .cons ?_ (ih fun o ho => m5 o (List.mem_cons_of_mem _ ho))
    obtain ⟨e1, e2, e3, -, e5⟩ := h
    simp only [roundLines]
    rw [← e1, ← e2, ← e3]
    rename_i A B _ _
    by_cases hf : A.2.found = []
    · left
      have : B.2.found = [] := by rw [hf] at e5; exact e5.nil_eq.symm
      rw [if_pos hf, if_pos this]
    · right
      have : B.2.found ≠ [] := fun e => hf (by rw [e] at e5; exact e5.eq_nil)
      rw [if_neg hf, if_neg this]
      refine ⟨[[], lengthLine A.1] ++ ["Found kernel elements:".toList], A.2.found.map (line sm.n r sm.p), B.2.found.map (line sm.n r sm.p),
        [selectedLine (A.2.selected.map Prod.snd).sum A.1, []] ++
        (if a.database then ["Save selection:".toList, savingLine A.2.saved.length A.1] else []) ++ [movingLine a.stepSize], ?_, ?_,
        e5.map (line sm.n r sm.p), ?_⟩
      · simp only [List.append_assoc, List.cons_append, List.nil_append]
      · simp only [List.append_assoc, List.cons_append, List.nil_append]
      · intro l hl'
        obtain ⟨y, hy, rfl⟩ := List.mem_map.1 hl'
        obtain ⟨x, x1, rfl, x3⟩ := m5 A (List.mem_cons_self ..) y hy
        exact ⟨x, x1, x3, rfl⟩

/-- C141: the same for the whole program, for the arguments with which it runs. -/
theorem C141_program (n r p : Nat) (hn : 3 ≤ n) (hn' : n ≤ 6) (hr : 1 ≤ r) (hr' : 2 * r ≤ n) (hp : 2 ≤ p) (a : Args) (size : Nat) (hsz : 1 ≤ size)
    (rank : ∀ d, (Fin d → Fin d → ℤ) → Nat) (g : Rng S) (seed : S) (ord ord' : ℤ → List Row → List Row) (ho : ∀ L l, (ord L l).Perm l)
    (ho' : ∀ L l, (ord' L l).Perm l) :
    ∃ outs outs', program (GNF.tbl 7 ω) n r p a size rank g seed ord = .ok outs ∧ program (GNF.tbl 7 ω') n r p a size rank g seed ord' = .ok outs' ∧
      List.Forall₂ (fun o o' => o.1 = o'.1 ∧ o.2.selected = o'.2.selected ∧ o.2.saved = o'.2.saved ∧ o.2.halt = o'.2.halt ∧
        o.2.found.Perm o'.2.found) outs outs' := by
  obtain ⟨-, -, -, outs, -, -, o1, -⟩ := C140_runs_partial (ω := ω) n r p hn hn' hr hr' hp a size hsz rank g seed ord ho
  obtain ⟨-, -, -, outs', -, -, o2, -⟩ := C140_runs_partial (ω := ω') n r p hn hn' hr hr' hp a size hsz rank g seed ord' ho'
  refine ⟨outs, outs', o1, o2, ?_⟩
  obtain ⟨ρ, -, -, gs, -, -, h3, h4, h5, h6⟩ := C54_hypotheses n r p (by omega) hr'
  obtain ⟨q, q', st', m1, m2, m3⟩ := C141_main (lim := 7) (ω := ω) (ω' := ω') (sm := ⟨n, p, gs⟩) (by show 2 ≤ n; omega) (by show n < 7; omega) h4 h5 h6
    (by show p ≠ 1; omega) a size hsz (rank _) g seed ord ord' ho ho'
  rw [program_accepted n r p ⟨by omega, by omega, by omega, by omega, by omega⟩] at o1 o2
  simp only [Int.toNat_natCast] at o1 o2
  obtain ⟨_, -, o1⟩ := bind_eq_ok.1 o1
  obtain ⟨_, -, o2⟩ := bind_eq_ok.1 o2
  rw [h3, bind_ok] at o1 o2
  have fin : ∀ {outs : List (ℤ × Out)} {T : Nat → Except Err (NFTable (List Nat))} {o : ℤ → List Row → List Row} {q : List (ℤ × Out)} {x},
      (if 1 ≤ a.bootstrapLength then do
        let _ ← (⟨n, r, p⟩ : Jones.Obj).summandDimension
        let res ← main T a ⟨n, p, gs⟩ size (rank (Jones.dimension n r)) g seed o
        .ok res.1
      else do
        let _ ← (.ok 0 : Except Err ℤ)
        let res ← main T a ⟨n, p, gs⟩ size (rank (Jones.dimension n r)) g seed o
        .ok res.1) = .ok outs → main T a ⟨n, p, gs⟩ size (rank (Jones.dimension n r)) g seed o = .ok (q, x) → q = outs := by
    intro outs T o q x h hm
    split at h
    · obtain ⟨_, -, h⟩ := bind_eq_ok.1 h
      rw [hm] at h; exact Except.ok.inj h
    · rw [hm] at h; exact Except.ok.inj h
  rw [← fin o1 m1, ← fin o2 m2]
  exact m3

example (g : Rng Unit) := C141_program (ω := pop0) (ω' := fun x _ k => x.length + k) 4 1 5 (by decide) (by decide) (by decide) (by decide) (by decide)
  ⟨4, 30, 10, 2, true, true⟩ 50 (by decide) (fun _ _ => 0) g () (fun _ => id) (fun _ => List.reverse) (fun _ _ => .refl _) fun _ l => l.reverse_perm

/-- C141: with `--database` the two runs send the same statements to the database, one by one in the same order, `BEGIN` and `COMMIT`
included; so wherever both are stopped after the same number of statements, the same rows are in the file. -/
theorem C141_database (hn : 2 ≤ sm.n) (hl : sm.n < lim) (H : SummandRealises sm τ) (hF : FullTwistScalar τ) (hd : 0 < d) (hp : sm.p ≠ 1)
    (a : Args) (r size : Nat) (hsz : 1 ≤ size) (rank : (Fin d → Fin d → ℤ) → Nat) (g : Rng S) (seed : S) (ord ord' : ℤ → List Row → List Row)
    (ho : ∀ L l, (ord L l).Perm l) (ho' : ∀ L l, (ord' L l).Perm l) :
    ∃ (sent : List SearchDb.Stmt) (st' : State S NF d), SearchDb.mainT (GNF.tbl lim ω) a sm r size rank g seed ord = (sent, .ok st') ∧
      SearchDb.mainT (GNF.tbl lim ω') a sm r size rank g seed ord' = (sent, .ok st') := by
  obtain ⟨outs, outs', st', h1, h2, h3⟩ := C141_main (ω := ω) (ω' := ω') hn hl H hF hd hp a size hsz rank g seed ord ord' ho ho'
  refine ⟨_, st', SearchDb.mainT_of_main _ a sm r size rank g seed ord outs st' h1, ?_⟩
  rw [SearchDb.mainT_of_main _ a sm r size rank g seed ord' outs' st' h2]
  have : (outs.map fun o => o.2.saved.map (SearchDb.record sm r)) = outs'.map fun o => o.2.saved.map (SearchDb.record sm r) := by
    clear h1 h2
    induction h3 with
    | nil => rfl
    | cons h _ ih => rw [List.map_cons, List.map_cons, h.2.2.1, ih]
  rw [this]

example (g : Rng Unit) := C141_database (lim := 7) (ω := pop0) (ω' := fun x _ k => x.length + k) (by decide) (by decide) sreal315 twist315 (by decide) (by decide)
  ⟨4, 30, 10, 2, true, true⟩ 1 50 (by decide) (fun _ => 0) g () (fun _ => id) (fun _ => List.reverse) (fun _ _ => .refl _) fun _ l => l.reverse_perm

end Peyl
