import Verif.Lemmas.Search
import Verif.Props.Descend
/-!
# Properties of `search.py` (C71, C72)

`within rows B` are the rows that `selection_length[selection_length['count'].cumsum() <= B]` keeps, `selectionLength` the rows of
one length in the order of `sort_values('projlen')`; `ord` is the unknown order in which Python traverses the set of buckets.
-/
namespace Peyl
open BraidSearch Search LaurentPolynomial
variable {S : Type} {d : Nat} {c : Config S NF d}

/-- C71: in every reachable state, for every budget `B` (`--use-best` or `--save-best`) and every length `L`, the selected rows
are buckets of length `L` with their sizes, in increasing order of projlen, of total size at most `B` (if any); an unselected
bucket of length `L` has larger projlen than all selected ones, and the best of them would exceed the budget. -/
theorem C71_selection (s : S) (ops : List (Op NF d)) (st : State S NF d) (hr : run c (State.init s) ops = .ok st)
    (ord : List Row → List Row) (ho : ∀ l, (ord l).Perm l) (L B : ℤ) (sel : List Row) (hsel : sel = within (selectionLength (BraidSearch.stats ord st) L) B) :
    (∀ r ∈ sel, r.1.1 = L ∧ ∃ b, (r.1, b) ∈ st.buckets ∧ r.2 = b.braids.length) ∧
    sel.Pairwise (fun r r' => r.1.2 < r'.1.2) ∧
    (sel = [] ∨ ((sel.map Prod.snd).sum : ℤ) ≤ B) ∧
    ∀ t b, (t, b) ∈ st.buckets → t.1 = L → t ∉ sel.map Prod.fst →
      (∀ r ∈ sel, r.1.2 < t.2) ∧
      ((∀ t' b', (t', b') ∈ st.buckets → t'.1 = L → t' ∉ sel.map Prod.fst → t.2 ≤ t'.2) → B < (sel.map Prod.snd).sum + b.braids.length) := by
  have hi := run_inv c ops (inv_init c s) hr
  obtain ⟨suf, h1, h2, h3⟩ := within_prefix (selectionLength (BraidSearch.stats ord st) L) B
  rw [← hsel] at h1 h2 h3
  have hs := selLen_sorted ho st hi.nodup L
  rw [h1, List.pairwise_append] at hs
  have hmem : ∀ r, r ∈ sel ++ suf ↔ r.1.1 = L ∧ ∃ b, (r.1, b) ∈ st.buckets ∧ r.2 = b.braids.length := fun r => by rw [← h1]; exact selLen_mem ho st L r
  refine ⟨fun r hrm => (hmem r).1 (List.mem_append_left _ hrm), hs.1, h2, fun t b hb ht hnt => ?_⟩
  have hin : (t, b.braids.length) ∈ suf := by
    have := (hmem (t, b.braids.length)).2 ⟨ht, b, hb, rfl⟩
    rcases List.mem_append.1 this with h | h
    · exact absurd (List.mem_map.2 ⟨_, h, rfl⟩) hnt
    · exact h
  refine ⟨fun r hrm => hs.2.2 r hrm _ hin, fun hmin => ?_⟩
  cases hsuf : suf with
  | nil => rw [hsuf] at hin; cases hin
  | cons x suf' =>
    have h4 := h3 x suf' hsuf
    have hx : x.1 = t := by
      obtain ⟨hxL, bx, hbx, -⟩ := (hmem x).1 (by rw [hsuf]; simp)
      have hxn : x.1 ∉ sel.map Prod.fst := by
        intro hm
        obtain ⟨r, hrm, e⟩ := List.mem_map.1 hm
        have := hs.2.2 r hrm x (by rw [hsuf]; simp)
        rw [e] at this; omega
      have h5 := hmin x.1 bx hbx hxL hxn
      have h6 : x.1.2 ≤ t.2 := by
        rw [hsuf] at hin
        rcases List.mem_cons.1 hin with h | h
        · rw [← h]
        · have := hs.2.1
          rw [hsuf, List.pairwise_cons] at this
          exact (this.1 _ h).le
      exact Prod.ext (by rw [hxL, ht]) (by omega)
    obtain ⟨-, bx, hbx, hxc⟩ := (hmem x).1 (by rw [hsuf]; simp)
    rw [hx] at hbx
    have e1 := Dict.get?_of_mem hi.nodup hbx
    have e2 := Dict.get?_of_mem hi.nodup hb
    rw [e1] at e2; cases e2
    rw [← hxc]; exact h4

/-- C71: the selection does not depend on the order in which the set of buckets is traversed. -/
theorem C71_order_irrelevant (s : S) (ops : List (Op NF d)) (st : State S NF d) (hr : run c (State.init s) ops = .ok st)
    (ord ord' : List Row → List Row) (ho : ∀ l, (ord l).Perm l) (ho' : ∀ l, (ord' l).Perm l) (L B : ℤ) :
    within (selectionLength (BraidSearch.stats ord st) L) B = within (selectionLength (BraidSearch.stats ord' st) L) B := by
  have hi := run_inv c ops (inv_init c s) hr
  congr 1
  have hp : (selectionLength (BraidSearch.stats ord st) L).Perm (selectionLength (BraidSearch.stats ord' st) L) :=
    ((List.perm_insertionSort _ _).trans (((stats_perm ho st).trans (stats_perm ho' st).symm).filter _)).trans (List.perm_insertionSort _ _).symm
  refine hp.eq_of_pairwise (fun a b _ _ h h' => absurd h' (by omega)) (selLen_sorted ho st hi.nodup L) (selLen_sorted ho' st hi.nodup L)

/-- A selection of four buckets with a budget of 10: the first two (3 + 5) fit, the third (4) does not, the fourth (1) would but is not taken. -/
example : within (selectionLength [((2, 7), 1), ((2, 3), 5), ((1, 1), 9), ((2, 1), 3), ((2, 4), 4)] 2) 10 = [((2, 1), 3), ((2, 3), 5)] := by decide +kernel
example : within (selectionLength [((2, 7), 1), ((2, 3), 50)] 2) 10 = [] := by decide +kernel

variable {sm : Summand d} {τ : Braid sm.n →* LMat sm.p d} {lim : Nat} {ω : List Nat → List Nat → Nat → Nat}

/-- C72: one round for length `L` on a reachable state does not raise; afterwards every remaining bucket is longer than `L` (in
particular every bucket of length `≤ L` present at the start is gone) and no longer bucket is lost; reported are exactly the
braids in buckets of projlen 1 at the start of the round, once per copy; the halt flag is set iff `--stop-at-projlen-1` is given
and there was such a bucket; the rows saved are the braids of the buckets selected with budget `--save-best`. -/
theorem C72_round (hn : 2 ≤ sm.n) (hl : sm.n < lim) (H : SummandRealises sm τ) (hF : FullTwistScalar τ) (hd : 0 < d) (hp : sm.p ≠ 1)
    (hsz : 1 ≤ c.size) (hc : c.length = NF.canonicalLength) (a : Args) (ord : List Row → List Row) (ho : ∀ l, (ord l).Perm l) (L : ℤ)
    (st : State S NF d) (hr : Reach lim ω sm τ c (fun x => x.power = 0) st) :
    ∃ out st', Search.round (GNF.tbl lim ω) a sm c ord L st = .ok (out, st') ∧ Reach lim ω sm τ c (fun x => x.power = 0) st' ∧
      (∀ t b, (t, b) ∈ st'.buckets → L < t.1) ∧
      (∀ t b, (t, b) ∈ st.buckets → L < t.1 → ∃ b', (t, b') ∈ st'.buckets) ∧
      (out.halt = true ↔ a.stopAtProjlen1 = true ∧ ∃ t b, (t, b) ∈ st.buckets ∧ t.2 = 1) ∧
      out.found.Perm ((st.buckets.filter fun tb => decide (tb.1.2 = 1)).flatMap fun tb => tb.2.braids.map fun x =>
        (x.power, x.factors.map fun f => wordOf (permAt sm.n f))) ∧
      out.selected = within (selectionLength (BraidSearch.stats ord st) L) a.useBest ∧
      (a.database = false → out.saved = []) ∧
      (a.database = true → out.saved.length = ((within (selectionLength (BraidSearch.stats ord st) L) a.saveBest).map Prod.snd).sum ∧
        ∀ y, y ∈ out.saved ↔ ∃ r ∈ within (selectionLength (BraidSearch.stats ord st) L) a.saveBest, ∃ b, (r.1, b) ∈ st.buckets ∧
          y.2.2 ∈ b.braids ∧ y.1 = r.1.1 ∧ y.2.1 = r.1.2) :=
  round_spec hn hl H hd hp hF hsz hc a ho L hr

example := C72_round (c := conf315) (by decide) (by decide) sreal315 twist315 (by decide) (by decide) (by decide) rfl ⟨4, 30, 10, 2, true, true⟩ id (fun _ => .refl _) 2 _ ⟨(), _, ops315_true, run315⟩

/-- C72: a braid is stored in a bucket of projlen 1 only if it is a near-kernel element. -/
theorem C72_projlen_one (hd : 0 < d) (hp : sm.p ≠ 1) (hc : c.length = NF.canonicalLength) (Q : NF → Prop) (st : State S NF d)
    (hr : Reach lim ω sm τ c Q st) (t : BraidSearch.Tag) (b : Bucket NF d) (hb : (t, b) ∈ st.buckets) (h1 : t.2 = 1) (x : NF) (hx : x ∈ b.braids) :
    IsGNF lim ω sm.n x ∧ NearKernel τ (gnfBraid sm.n x) := by
  obtain ⟨l, l1, -, l3⟩ := hr.sound hd hp hc t b hb
  rw [l1.1] at hx
  obtain ⟨o, ho, rfl⟩ := List.mem_map.1 hx
  obtain ⟨⟨g1, g2⟩, -, g4⟩ := l3 o ho
  refine ⟨g1, ?_⟩
  obtain ⟨k, hk⟩ := g2.shift ()
  refine ⟨-k, _root_.Matrix.of fun i j => ((Polymat.slice o.image 0 () i j : ℤ) : ZMod sm.p), ?_⟩
  rw [eq_comm, T_smul_eq_iff, neg_neg, ← hk]
  have hlen : o.image.length = 1 := by omega
  funext i j
  apply LaurentPolynomial.ext
  intro m
  rw [coeff_denMod]
  show (C ((Polymat.slice o.image 0 () i j : ℤ) : ZMod sm.p)).coeff m = _
  rw [← LaurentPolynomial.single_eq_C, AddMonoidAlgebra.coeff_single, Finsupp.single_apply]
  by_cases hm : (0 : ℤ) = m
  · subst hm; simp
  · rw [if_neg hm]
    split
    · rw [Polymat.slice_ge _ (by omega)]; simp
    · rfl

/-- C72: the loop.  Rounds are executed for the scheduled lengths in order, and only a round in which the halt flag is set ends
the loop early, as its last one. -/
theorem C72_loop (hn : 2 ≤ sm.n) (hl : sm.n < lim) (H : SummandRealises sm τ) (hF : FullTwistScalar τ) (hd : 0 < d) (hp : sm.p ≠ 1)
    (hsz : 1 ≤ c.size) (hc : c.length = NF.canonicalLength) (a : Args) (ord : ℤ → List Row → List Row) (ho : ∀ L l, (ord L l).Perm l) (Ls : List ℤ)
    (st : State S NF d) (hr : Reach lim ω sm τ c (fun x => x.power = 0) st) :
    ∃ outs st', Search.loop (GNF.tbl lim ω) a sm c ord Ls st = .ok (outs, st') ∧ Reach lim ω sm τ c (fun x => x.power = 0) st' ∧
      outs.map Prod.fst <+: Ls ∧ (∀ o ∈ outs.dropLast, o.2.halt = false) ∧
      (outs.map Prod.fst = Ls ∨ ∃ o, outs.getLast? = some o ∧ o.2.halt = true) ∧
      (∀ o ∈ outs, (o.2.halt = true ↔ a.stopAtProjlen1 = true ∧ o.2.found ≠ [])) ∧
      (∀ o ∈ outs, ∀ y ∈ o.2.found, ∃ x, IsGNF lim ω sm.n x ∧ y = (x.power, x.factors.map fun f => wordOf (permAt sm.n f)) ∧
        NearKernel τ (gnfBraid sm.n x)) ∧
      (∀ o ∈ outs, o.2.saved = [] ∨ (o.2.saved.length : ℤ) ≤ a.saveBest) ∧
      (∀ o ∈ outs, ∀ y ∈ o.2.saved, IsGNF lim ω sm.n y.2.2 ∧ y.2.2.power = 0 ∧ y.1 = o.1 ∧ (NF.canonicalLength y.2.2 : ℤ) = o.1 ∧
        ∃ A : Img d, IsProjImage sm.p A (fun _ => τ (gnfBraid sm.n y.2.2)) ∧ (A.length : ℤ) = y.2.1) := by
  induction Ls generalizing st with
  | nil => exact ⟨[], st, rfl, hr, by simp, by simp, .inl rfl, by simp, by simp, by simp, by simp⟩
  | cons L Ls ih =>
    obtain ⟨out, st1, e1, e2, e3, -, e5, e6, e7, e8, e9⟩ := C72_round hn hl H hF hd hp hsz hc a (ord L) (ho L) L st hr
    obtain ⟨log, hi⟩ := hr.inv
    have hfound : (out.halt = true ↔ a.stopAtProjlen1 = true ∧ out.found ≠ []) := by
      rw [e5]
      refine and_congr Iff.rfl ⟨?_, fun h => ?_⟩
      · rintro ⟨t, b, hb, h1⟩ h
        rw [h] at e6
        have := e6.symm.eq_nil
        rw [List.flatMap_eq_nil_iff] at this
        have := this (t, b) (List.mem_filter.2 ⟨hb, by simpa using h1⟩)
        obtain ⟨l, l1, l2, -⟩ := hr.sound hd hp hc t b hb
        rw [List.map_eq_nil_iff, l1.1, List.map_eq_nil_iff] at this
        exact l2 this
      · obtain ⟨y, hy⟩ := List.exists_mem_of_ne_nil _ h
        rw [e6.mem_iff] at hy
        obtain ⟨tb, htb, -⟩ := List.mem_flatMap.1 hy
        rw [List.mem_filter] at htb
        exact ⟨tb.1, tb.2, htb.1, by simpa using htb.2⟩
    have hnk : ∀ y ∈ out.found, ∃ x, IsGNF lim ω sm.n x ∧ y = (x.power, x.factors.map fun f => wordOf (permAt sm.n f)) ∧ NearKernel τ (gnfBraid sm.n x) := by
      intro y hy
      rw [e6.mem_iff] at hy
      obtain ⟨tb, htb, hy⟩ := List.mem_flatMap.1 hy
      obtain ⟨x, hx, rfl⟩ := List.mem_map.1 hy
      rw [List.mem_filter] at htb
      obtain ⟨k1, k2⟩ := C72_projlen_one hd hp hc _ st hr tb.1 tb.2 htb.1 (by simpa using htb.2) x hx
      exact ⟨x, k1, rfl, k2⟩
    have hlen : out.saved = [] ∨ (out.saved.length : ℤ) ≤ a.saveBest := by
      cases hdb : a.database with
      | false => exact .inl (e8 hdb)
      | true =>
        obtain ⟨suf, -, h2, -⟩ := within_prefix (selectionLength (BraidSearch.stats (ord L) st) L) a.saveBest
        have h3 := (e9 hdb).1
        rcases h2 with h2 | h2
        · rw [h2] at h3; exact .inl (List.length_eq_zero_iff.1 h3)
        · right; rw [h3]; exact_mod_cast h2
    have hsaved : ∀ y ∈ out.saved, IsGNF lim ω sm.n y.2.2 ∧ y.2.2.power = 0 ∧ y.1 = L ∧ (NF.canonicalLength y.2.2 : ℤ) = L ∧
        ∃ A : Img d, IsProjImage sm.p A (fun _ => τ (gnfBraid sm.n y.2.2)) ∧ (A.length : ℤ) = y.2.1 := by
      intro y hy
      cases hdb : a.database with
      | false => rw [e8 hdb] at hy; cases hy
      | true =>
        obtain ⟨r, hrm, b, hb, y1, y2, y3⟩ := ((e9 hdb).2 y).1 hy
        obtain ⟨suf, h1, -⟩ := within_prefix (selectionLength (BraidSearch.stats (ord L) st) L) a.saveBest
        have hL := ((selLen_mem (ho L) st L r).1 (by rw [h1]; exact List.mem_append_left _ hrm)).1
        obtain ⟨l, l1, -, l3⟩ := hr.bucket hd hp hc (Dict.get?_of_mem hi.nodup hb)
        rw [l1.1] at y1
        obtain ⟨o, ho, e⟩ := List.mem_map.1 y1
        obtain ⟨g1, g2, g3, g4⟩ := l3 o ho
        rw [← e]
        exact ⟨g1.1, g4, by rw [y2, hL], by rw [g2, hL], o.image, g1.2, by rw [g3, y3]⟩
    rw [Search.loop]
    rw [e1, bind_ok]
    by_cases hh : out.halt = true
    · refine ⟨[(L, out)], st1, by rw [if_pos hh], e2, by simp, by simp, .inr ⟨(L, out), rfl, hh⟩, ?_, ?_, ?_, ?_⟩
      · simpa using hfound
      · simpa using hnk
      · simpa using hlen
      · simpa using hsaved
    · obtain ⟨outs, st', i1, i2, i3, i4, i5, i6, i7, i8, i9⟩ := ih st1 e2
      refine ⟨(L, out) :: outs, st', by rw [if_neg hh, i1, bind_ok], i2, by simpa using i3, ?_, ?_, ?_, ?_, ?_, ?_⟩
      · cases outs with
        | nil => simp
        | cons o outs =>
          rw [List.dropLast_cons₂]
          intro o' ho'
          rcases List.mem_cons.1 ho' with rfl | ho'
          · simpa using hh
          · exact i4 o' ho'
      · rcases i5 with i5 | ⟨o, o1, o2⟩
        · left; rw [List.map_cons, i5]
        · right
          refine ⟨o, ?_, o2⟩
          rw [List.getLast?_cons, o1]; rfl
      all_goals
        intro o ho
        rcases List.mem_cons.1 ho with rfl | ho
        all_goals first | assumption | skip
      · exact i6 o ho
      · exact i7 o ho
      · exact i8 o ho
      · exact i9 o ho

example := C72_loop (c := conf315) (by decide) (by decide) sreal315 twist315 (by decide) (by decide) (by decide) rfl ⟨4, 30, 10, 2, true, true⟩ (fun _ => id) (fun _ _ => .refl _) [2, 3, 4] _ ⟨(), _, ops315_true, run315⟩

/-- C72: the whole program (`search.py n r p ...` after argument parsing) never raises for a bucket size of at least one, stores
nothing but true images, and behaves as in `C72_loop` for the lengths `bootstrap_length - step_size + 1, ..., 499`. -/
theorem C72_main (hn : 2 ≤ sm.n) (hl : sm.n < lim) (H : SummandRealises sm τ) (hF : FullTwistScalar τ) (hd : 0 < d) (hp : sm.p ≠ 1)
    (a : Args) (size : Nat) (hsz : 1 ≤ size) (rank : (Fin d → Fin d → ℤ) → Nat) (g : Rng S) (seed : S) (ord : ℤ → List Row → List Row)
    (ho : ∀ L l, (ord L l).Perm l) :
    ∃ outs st', Search.main (GNF.tbl lim ω) a sm size rank g seed ord = .ok (outs, st') ∧ Sound lim ω sm τ st' ∧
      outs.map Prod.fst <+: Search.lengths a ∧ (∀ o ∈ outs.dropLast, o.2.halt = false) ∧
      (outs.map Prod.fst = Search.lengths a ∨ ∃ o, outs.getLast? = some o ∧ o.2.halt = true) ∧
      (∀ o ∈ outs, (o.2.halt = true ↔ a.stopAtProjlen1 = true ∧ o.2.found ≠ [])) ∧
      (∀ o ∈ outs, ∀ y ∈ o.2.found, ∃ x, IsGNF lim ω sm.n x ∧ y = (x.power, x.factors.map fun f => wordOf (permAt sm.n f)) ∧
        NearKernel τ (gnfBraid sm.n x)) ∧
      (∀ o ∈ outs, o.2.saved = [] ∨ (o.2.saved.length : ℤ) ≤ a.saveBest) ∧
      (∀ o ∈ outs, ∀ y ∈ o.2.saved, IsGNF lim ω sm.n y.2.2 ∧ y.2.2.power = 0 ∧ y.1 = o.1 ∧ (NF.canonicalLength y.2.2 : ℤ) = o.1 ∧
        ∃ A : Img d, IsProjImage sm.p A (fun _ => τ (gnfBraid sm.n y.2.2)) ∧ (A.length : ℤ) = y.2.1) := by
  set c : Config S NF d :=
    { size := size, length := NF.canonicalLength, criterion := fun _ rows i => decide (1 ≤ (rows i).length), rank := rank, rand := some g } with hcdef
  have h0 : Reach lim ω sm τ c (fun x => x.power = 0) (State.init seed) := ⟨seed, [], by simp, rfl⟩
  obtain ⟨st, bats, b1, b2, b3, -⟩ := bootstrap_spec (c := c) hn hl H hd hp hF hsz a.bootstrapLength h0
  have h1 := h0.append (bats.map Op.add) (fun b'' hb'' => by
    obtain ⟨x, hx, e⟩ := List.mem_map.1 hb''
    cases e; exact b3 _ hx) b2
  obtain ⟨outs, st', l1, l2, l3⟩ := C72_loop hn hl H hF hd hp hsz rfl a ord ho (Search.lengths a) st h1
  refine ⟨outs, st', ?_, l2.sound hd hp rfl, l3⟩
  rw [Search.main]
  have b1' : bootstrapExhaustive (GNF.tbl lim ω) sm c ⟨[], [], seed⟩ a.bootstrapLength = .ok st := b1
  show (bootstrapExhaustive (GNF.tbl lim ω) sm c ⟨[], [], seed⟩ a.bootstrapLength >>= _) = _
  rw [b1', bind_ok]; exact l1

example (g : Rng Unit) := C72_main (lim := 7) (ω := pop0) (by decide) (by decide) sreal315 twist315 (by decide) (by decide) ⟨4, 30, 10, 2, true, true⟩ 50 (by decide) (fun _ => 0) g () (fun _ => id) (fun _ _ => .refl _)

/-- C72: the rounds are those for the lengths from `bootstrap_length - step_size + 1` to `499`, in increasing order. -/
theorem C72_lengths (a : Args) : (Search.lengths a).Pairwise (· < ·) ∧
    ∀ L, L ∈ Search.lengths a ↔ (a.bootstrapLength : ℤ) - a.stepSize + 1 ≤ L ∧ L ≤ 499 := by
  constructor
  · rw [Search.lengths, List.pairwise_map]
    exact List.pairwise_lt_range.imp fun h => by omega
  · intro L
    rw [Search.lengths]
    simp only [List.mem_map, List.mem_range]
    constructor
    · rintro ⟨i, hi, rfl⟩; omega
    · intro h; exact ⟨(L - (a.bootstrapLength - a.stepSize + 1)).toNat, by omega, by omega⟩

end Peyl
