import Verif.Lemmas.SearchText
import Verif.Props.Search
import Verif.Props.SearchComplete
import Verif.Props.GnfPair
import Verif.Props.BucketStats
/-!
# C139: what `search.py` prints

The line printed for a near-kernel braid can be pasted into `from_gnf_pair`; the numbers of braids announced are those of the
braids selected and saved; the number announced for the bootstrapping is not the number of braids it goes through.
-/
namespace Peyl
open BraidSearch Search SearchText LaurentPolynomial
variable {lim : Nat} {ω : List Nat → List Nat → Nat → Nat}

/-- C139: the line printed for a normal form: it ends with `, Garside form ` and a text which Python reads as a pair, and
`from_gnf_pair` of that pair is the same normal form again; the number in it is the canonical length. -/
theorem C139_paste {n : Nat} (hn : 2 ≤ n) (hl : n < lim) (r p : Nat) (x : NF) (hx : IsGNF lim ω n x) :
    ∃ (inf : ℤ) (words : List (List Nat)),
      NF.inf x = inf ∧ NF.canonicalFactors (GNF.tbl lim ω) x = .ok words ∧
      line n r p (inf, words) = lineHead n r p (NF.canonicalLength x) ++ pairText (inf, words) ∧
      evalText (pairText (inf, words)) = some (.tuple [.int inf, .list (words.map fun w => .tuple (w.map fun k : Nat => .int k))]) ∧
      BraidGroup.fromGnfPair lim ω n inf words = .ok x := by
  obtain ⟨ws, w1, -, w3⟩ := C19_roundtrip hn hl x hx
  refine ⟨NF.inf x, ws, rfl, w1, ?_, evalText_of_reads (reads_pair _), w3⟩
  rw [canonicalFactors_spec hn hl hx] at w1
  cases w1
  rw [line, List.length_map]; rfl

example := C139_paste (by decide) (by decide) 1 5 _ gnfA

/-- The README's line. -/
example : line 4 1 2 (0, [[1, 3, 0, 2], [2, 0, 3, 1], [1, 3, 0, 2]]) =
    "(n=4, r=1, p=2) near-kernel element: Garside length 3, Garside form (0, [(1, 3, 0, 2), (2, 0, 3, 1), (1, 3, 0, 2)])".toList := by decide +kernel

/-- C139: the line determines the representation and the braid. -/
theorem C139_line_unique {n n' : Nat} (hn : 2 ≤ n) (hl : n < lim) (r r' p p' : Nat) (x x' : NF) (hx : IsGNF lim ω n x) (hx' : IsGNF lim ω n' x')
    (h : line n r p (printed n x) = line n' r' p' (printed n' x')) : n = n' ∧ r = r' ∧ p = p' ∧ x = x' := by
  obtain ⟨rfl, h2, h3, h4⟩ := line_inj h
  exact ⟨rfl, h2, h3, printed_inj hn hl hx hx' h4⟩

example := C139_line_unique (by decide) (by decide) 1 1 5 5 _ _ gnfA gnfA rfl

/-- The lines of one round, in terms of what the round does: found near-kernel braids, selected buckets and saved rows. -/
def roundLines (a : Args) (n r p : Nat) (L : ℤ) (o : Out) : List (List Char) :=
  [[], lengthLine L] ++
  (if o.found = [] then [] else "Found kernel elements:".toList :: o.found.map (line n r p)) ++
  [selectedLine (o.selected.map Prod.snd).sum L, []] ++
  (if a.database then ["Save selection:".toList, savingLine o.saved.length L] else []) ++
  [movingLine a.stepSize]

variable {S : Type} {d : Nat} {c : Config S NF d} {sm : Summand d} {τ : Braid sm.n →* LMat sm.p d}

theorem loopText_spec (hn : 2 ≤ sm.n) (hl : sm.n < lim) (H : SummandRealises sm τ) (hF : FullTwistScalar τ) (hd : 0 < d) (hp : sm.p ≠ 1)
    (hsz : 1 ≤ c.size) (hc : c.length = NF.canonicalLength) (a : Args) (r : Nat) (ord : ℤ → List Row → List Row) (ho : ∀ L l, (ord L l).Perm l) (Ls : List ℤ)
    (st : State S NF d) (hr : Reach lim ω sm τ c (fun x => x.power = 0) st) :
    ∃ outs st', Search.loop (GNF.tbl lim ω) a sm c ord Ls st = .ok (outs, st') ∧
      loopText (GNF.tbl lim ω) a sm r c ord Ls st = .ok (outs.map fun o => roundLines a sm.n r sm.p o.1 o.2) := by
  induction Ls generalizing st with
  | nil => exact ⟨[], st, rfl, rfl⟩
  | cons L Ls ih =>
    obtain ⟨out, st1, e1, e2, -, -, -, e6, e7, -, e9⟩ := C72_round hn hl H hF hd hp hsz hc a (ord L) (ho L) L st hr
    have hnear : (1 ≤ ((BraidSearch.stats (ord L) st).filter fun r => decide (r.1.2 = 1)).length) ↔ out.found ≠ [] := by
      have h1 : (1 ≤ ((BraidSearch.stats (ord L) st).filter fun r => decide (r.1.2 = 1)).length) ↔ ∃ t b, (t, b) ∈ st.buckets ∧ t.2 = 1 := by
        rw [Nat.one_le_iff_ne_zero, ← Nat.pos_iff_ne_zero, List.length_pos_iff_exists_mem]
        constructor
        · rintro ⟨x, hx⟩
          rw [List.mem_filter, BraidSearch.stats, (ho L _).mem_iff, List.mem_map] at hx
          obtain ⟨⟨⟨t, b⟩, hb, rfl⟩, h⟩ := hx
          exact ⟨t, b, hb, by simpa using h⟩
        · rintro ⟨t, b, hb, h⟩
          refine ⟨(t, b.braids.length), ?_⟩
          rw [List.mem_filter, BraidSearch.stats, (ho L _).mem_iff, List.mem_map]
          exact ⟨⟨_, hb, rfl⟩, by simpa using h⟩
      rw [h1]
      constructor
      · rintro ⟨t, b, hb, h1⟩ h
        rw [h] at e6
        have := e6.symm.eq_nil
        rw [List.flatMap_eq_nil_iff] at this
        have := this (t, b) (List.mem_filter.2 ⟨hb, by simpa using h1⟩)
        obtain ⟨l, l1, l2, -⟩ := hr.sound hd hp hc t b hb
        rw [List.map_eq_nil_iff, l1.1, List.map_eq_nil_iff] at this
        exact l2 this
      · intro h
        obtain ⟨y, hy⟩ := List.exists_mem_of_ne_nil _ h
        rw [e6.mem_iff] at hy
        obtain ⟨tb, htb, -⟩ := List.mem_flatMap.1 hy
        rw [List.mem_filter] at htb
        exact ⟨tb.1, tb.2, htb.1, by simpa using htb.2⟩
    have ht : roundText a sm.n r sm.p (BraidSearch.stats (ord L) st) L out.found = roundLines a sm.n r sm.p L out := by
      unfold roundText roundLines
      dsimp only
      rw [← e7]
      congr 1
      congr 1
      · congr 1
        congr 1
        by_cases h : out.found = []
        · rw [if_neg (by rw [hnear]; exact fun h' => h' h), if_pos h]
        · rw [if_pos (hnear.2 h), if_neg h]
      · cases hdb : a.database with
        | false => rfl
        | true => rw [(e9 hdb).1]
    rw [Search.loop, loopText, e1, bind_ok, bind_ok]
    by_cases hh : out.halt = true
    · refine ⟨[(L, out)], st1, by rw [if_pos hh], ?_⟩
      simp only [if_pos hh, ht, List.map_cons, List.map_nil]
    · obtain ⟨outs, st', i1, i2⟩ := ih st1 e2
      refine ⟨(L, out) :: outs, st', by rw [if_neg hh, i1, bind_ok], ?_⟩
      simp only [if_neg hh, ht, i2, bind_ok, List.map_cons]

/-- C139: everything a run prints, except tables and times.  Before the rounds: the representation, bucket size and seed, and the
number of braids of Garside length exactly `bootstrap_length`; in each round the found near-kernel braids, the number of braids in
the selected buckets (at most `--use-best`), and the number of rows really inserted into the database (at most `--save-best`).
Every line about a near-kernel braid is that of a normal form whose matrix is a power of `v` times a constant matrix. -/
theorem C139_run (hn : 2 ≤ sm.n) (hl : sm.n < lim) (H : SummandRealises sm τ) (hF : FullTwistScalar τ) (hd : 0 < d) (hp : sm.p ≠ 1)
    (a : Args) (r size : Nat) (hsz : 1 ≤ size) (rank : (Fin d → Fin d → ℤ) → Nat) (g : Rng S) (seedArg : ℤ) (seed : S) (ord : ℤ → List Row → List Row)
    (ho : ∀ L l, (ord L l).Perm l) :
    ∃ outs st' k, ∃ xs : List NF, Search.main (GNF.tbl lim ω) a sm size rank g seed ord = .ok (outs, st') ∧
      mainText (GNF.tbl lim ω) a sm r size rank g seedArg seed ord =
        .ok ([repLine sm.n r sm.p, trackerLine size seedArg, bootLine a.bootstrapLength k, "Initial buckets:".toList, [],
          "Proceeding on to search in 1 seconds...".toList], outs.map fun o => roundLines a sm.n r sm.p o.1 o.2) ∧
      k = xs.length ∧ xs.Nodup ∧ (∀ x, x ∈ xs ↔ IsGNF lim ω sm.n x ∧ x.power = 0 ∧ NF.canonicalLength x = a.bootstrapLength) ∧
      (∀ o ∈ outs, ∀ y ∈ o.2.found, ∃ x, IsGNF lim ω sm.n x ∧ y = printed sm.n x ∧ NearKernel τ (gnfBraid sm.n x)) ∧
      (∀ o ∈ outs, o.2.saved = [] ∨ (o.2.saved.length : ℤ) ≤ a.saveBest) := by
  set c : Config S NF d :=
    { size := size, length := NF.canonicalLength, criterion := fun _ rows i => decide (1 ≤ (rows i).length), rank := rank, rand := some g } with hcdef
  have h0 : Reach lim ω sm τ c (fun x => x.power = 0) (State.init seed) := ⟨seed, [], by simp, rfl⟩
  obtain ⟨st, bats, b1, b2, b3, -⟩ := bootstrap_spec (c := c) hn hl H hd hp hF hsz a.bootstrapLength h0
  have h1 := h0.append (bats.map Op.add) (fun b'' hb'' => by
    obtain ⟨x, hx, e⟩ := List.mem_map.1 hb''
    cases e; exact b3 _ hx) b2
  obtain ⟨outs, st', l1, l2⟩ := loopText_spec hn hl H hF hd hp hsz rfl a r ord ho (Search.lengths a) st h1
  obtain ⟨outs', st'', m1, -, -, -, -, -, m7, m8, -⟩ := C72_main (lim := lim) (ω := ω) hn hl H hF hd hp a size hsz rank g seed ord ho
  obtain ⟨xs, x1, x2, x3, x4⟩ := C16_all_of_length (ω := ω) hn hl a.bootstrapLength 0
  have b1' : bootstrapExhaustive (GNF.tbl lim ω) sm c ⟨[], [], seed⟩ a.bootstrapLength = .ok st := b1
  have hm : Search.main (GNF.tbl lim ω) a sm size rank g seed ord = .ok (outs, st') := by
    rw [Search.main]
    show (bootstrapExhaustive (GNF.tbl lim ω) sm c ⟨[], [], seed⟩ a.bootstrapLength >>= _) = _
    rw [b1', bind_ok]; exact l1
  rw [hm] at m1
  cases m1
  refine ⟨outs, st', xs.length, xs, hm, ?_, rfl, x2, ?_, m7, m8⟩
  · rw [mainText]
    show (NF.countAllOfGarsideLength (GNF.tbl lim ω) sm.n a.bootstrapLength >>= fun k =>
      bootstrapExhaustive (GNF.tbl lim ω) sm c ⟨[], [], seed⟩ a.bootstrapLength >>= _) = _
    have : NF.countAllOfGarsideLength (GNF.tbl lim ω) sm.n a.bootstrapLength = .ok xs.length := x4
    rw [this, bind_ok, b1', bind_ok, l2, bind_ok]
  · intro x
    rw [x3]; rfl

example (g : Rng Unit) := C139_run (lim := 7) (ω := pop0) (by decide) (by decide) sreal315 twist315 (by decide) (by decide) ⟨4, 30, 10, 2, true, true⟩ 1 50
  (by decide) (fun _ => 0) g 1 () (fun _ => id) (fun _ _ => .refl _)

/-- C139: the thousands separators of the line about the bootstrapping can be left out. -/
theorem C139_separators (k : Nat) : (commaNat k).filter (· != ',') = Adapter.reprNat k := commaNat_digits k

example : commaNat 1004567 = ['1', ',', '0', '0', '4', ',', '5', '6', '7'] := by
  have h1 : commaNat 1 = ['1'] := by rw [commaNat, if_pos (by omega)]; decide +kernel
  have h2 : commaNat 1004 = commaNat 1 ++ ',' :: pad3 4 := by rw [commaNat, if_neg (by omega)]
  have h3 : commaNat 1004567 = commaNat 1004 ++ ',' :: pad3 567 := by rw [commaNat, if_neg (by omega)]
  rw [h3, h2, h1]
  decide +kernel

/-- Lines that are printed. -/
example : trackerLine 10 1 = "Tracker initialised with bucket size 10, random seed 1.".toList ∧
    selectedLine 52 3 = "Selected 52 braids of length 3:".toList ∧
    savingLine 0 3 = "Saving 0 braids of length 3 to the database...".toList := by decide +kernel

/-- C139, refuted: the line says "Bootstrapping up to Garside length L (k braids)", but for `L ≥ 2` there are more than `k` braids of
Garside length `1, ..., L`, through all of which `bootstrap_exhaustive` goes (C82): `k` counts those of length exactly `L`. -/
theorem C139_boot_refuted {n : Nat} (hn : 3 ≤ n) (hl : n < lim) (L : Nat) (hL : 2 ≤ L) :
    ∃ k, ∃ xs : List NF, NF.countAllOfGarsideLength (GNF.tbl lim ω) n L = .ok k ∧ xs.Nodup ∧
      (∀ x, x ∈ xs ↔ IsGNF lim ω n x ∧ x.power = 0 ∧ 1 ≤ NF.canonicalLength x ∧ NF.canonicalLength x ≤ L) ∧ k < xs.length := by
  have H := fun l => C16_all_of_length (ω := ω) (by omega : 2 ≤ n) hl l 0
  choose f f1 f2 f3 f4 using H
  obtain ⟨y, -, y1, y2, y3⟩ := (C17_sample (ω := ω) hn hl 1).1 fun _ => 0
  have hmem : ∀ x, x ∈ (List.range' 1 L).flatMap f ↔ IsGNF lim ω n x ∧ x.power = 0 ∧ 1 ≤ NF.canonicalLength x ∧ NF.canonicalLength x ≤ L := by
    intro x
    rw [List.mem_flatMap]
    constructor
    · rintro ⟨l, hl, hx⟩
      rw [f3] at hx
      rw [List.mem_range'_1] at hl
      refine ⟨hx.1, hx.2.1, ?_⟩
      show 1 ≤ x.factors.length ∧ x.factors.length ≤ L
      omega
    · rintro ⟨h1, h2, h3, h4⟩
      exact ⟨NF.canonicalLength x, List.mem_range'_1.2 (by omega), (f3 _ _).2 ⟨h1, h2, rfl⟩⟩
  refine ⟨(f L).length, (List.range' 1 L).flatMap f, f4 L, ?_, hmem, ?_⟩
  · rw [List.nodup_flatMap]
    refine ⟨fun l _ => f2 l, ?_⟩
    refine (List.nodup_range' (step := 1) : (List.range' 1 L).Nodup).imp fun {a b} hab => ?_
    intro x hx hx'
    rw [f3] at hx hx'
    exact hab (hx.2.2.symm.trans hx'.2.2)
  · have hnd : (y :: f L).Nodup := List.nodup_cons.2 ⟨fun h => by
      have := ((f3 _ _).1 h).2.2
      omega, f2 L⟩
    have hsub : (y :: f L) ⊆ (List.range' 1 L).flatMap f := by
      intro x hx
      rw [hmem]
      rcases List.mem_cons.1 hx with rfl | hx
      · refine ⟨y1, y2, ?_⟩
        show 1 ≤ x.factors.length ∧ x.factors.length ≤ L
        omega
      · rw [f3] at hx
        refine ⟨hx.1, hx.2.1, ?_⟩
        show 1 ≤ x.factors.length ∧ x.factors.length ≤ L
        omega
    have := (hnd.subperm hsub).length_le
    simp only [List.length_cons] at this
    omega

example := C139_boot_refuted (n := 4) (lim := 7) (ω := pop0) (by decide) (by decide) 6 (by decide)

end Peyl
