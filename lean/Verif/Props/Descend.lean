import Verif.Lemmas.Descend
import Verif.Lemmas.BraidSearch
import Verif.Props.Rep
/-!
# Properties of the search steps of `braidsearch.Tracker` (C69, C70)

`SummandRealises sm τ`: the generator tensors of the representation are, up to powers of `v`, the images of the Artin generators
under a representation `τ` of the braid group; `FullTwistScalar τ`: `Δ²` acts by a power of `v`.  Both hold for the Jones
representations (Props/Jones.lean).
-/
namespace Peyl
open BraidSearch
variable {S : Type} {d : Nat} {sm : Summand d} {τ : Braid sm.n →* LMat sm.p d} {lim : Nat} {ω : List Nat → List Nat → Nat → Nat} {c : Config S NF d}

/-! A history used beside the theorems to show that their hypotheses are met: a tracker of `JonesSummand(3, 1, 5)` without a criterion,
with room for two braids in a bucket, to which two braids of length two are offered with their images. -/

theorem gnfPair0 : ∀ x ∈ ([⟨3, 0, [4, 2]⟩, ⟨3, 0, [2, 2]⟩] : List NF), IsGNF 7 pop0 3 x ∧ NF.canonicalLength x = 2 := by decide +kernel

/-- The tracker. -/
abbrev conf315 : Config Unit NF (Jones.dimension 3 1) := ⟨2, NF.canonicalLength, fun _ _ _ => true, fun _ => 0, none⟩

/-- The images of the two braids. -/
noncomputable def imgs315 := (C55_search_same_length (by decide) (by decide) sreal315 twist315 (by decide) (by decide) _ (by decide) 2 gnfPair0).choose

/-- The batch. -/
noncomputable abbrev batch315 : Bucketing.Batch NF (Jones.dimension 3 1) := ⟨2, fun i => ([⟨3, 0, [4, 2]⟩, ⟨3, 0, [2, 2]⟩] : List NF)[i], imgs315⟩

theorem batch315_image : IsProjImage 5 imgs315 fun i => rho315 (gnfBraid 3 ([⟨3, 0, [4, 2]⟩, ⟨3, 0, [2, 2]⟩] : List NF)[i]) :=
  (C55_search_same_length (by decide) (by decide) sreal315 twist315 (by decide) (by decide) _ (by decide) 2 gnfPair0).choose_spec.2

theorem batch315_true : TrueBatch 7 pop0 sm315 rho315 batch315 :=
  .of_image (by decide) (fun i => (gnfPair0 _ (List.getElem_mem _)).1) batch315_image

theorem ops315_true : ∀ b, Op.add b ∈ [Op.add batch315] → TrueBatch 7 pop0 sm315 rho315 b ∧ ∀ i, (b.braids i).power = 0 := by
  intro b hb
  cases List.mem_singleton.1 hb
  exact ⟨batch315_true, by decide⟩

/-- The history succeeds and the tracker then has a bucket. -/
theorem history315 : ∃ (st : State Unit NF (Jones.dimension 3 1)) (t : BraidSearch.Tag) (b : Bucket NF (Jones.dimension 3 1)),
    run conf315 (State.init ()) [Op.add batch315] = .ok st ∧ (t, b) ∈ st.buckets := by
  obtain ⟨st, hst⟩ := run_ok conf315 (by decide) [Op.add batch315] (inv_init conf315 ()) (by
    intro b hb
    exact (ops315_true b hb).1.valid)
  obtain ⟨s, pl, e1, e2⟩ := stats_ok conf315 batch315 batch315_true.valid
  have hi := run_inv conf315 [Op.add batch315] (inv_init conf315 ()) hst
  have hk : ∃ o ol, keptOf conf315 batch315 = o :: ol := by
    rw [keptOf, e1, e2]; exact ⟨_, _, rfl⟩
  obtain ⟨o, ol, hk⟩ := hk
  cases hb : Dict.get? st.buckets o.1 with
  | some b => exact ⟨st, o.1, b, hst, Dict.mem_of_get? hb⟩
  | none =>
    exfalso
    have := hi.none o.1 hb
    simp [offeredSince, hk] at this

noncomputable abbrev st315 := history315.choose
noncomputable abbrev tag315 := history315.choose_spec.choose
theorem run315 : run conf315 (State.init ()) [Op.add batch315] = .ok st315 := history315.choose_spec.choose_spec.choose_spec.1
theorem add315 : addBraidsImages conf315 (State.init ()) batch315 = .ok st315 := by
  have := run315
  rw [run] at this
  cases h : addBraidsImages conf315 (State.init ()) batch315 with
  | error e => rw [h] at this; cases this
  | ok x => rw [h, bind_ok] at this; exact this
theorem mem315 : (tag315, history315.choose_spec.choose_spec.choose) ∈ st315.buckets := history315.choose_spec.choose_spec.choose_spec.2

/-- C69: `nf_descendants(t, k)` on a bucket of a tracker with true images and Δ-powers zero succeeds and does nothing but offer
batches of true (braid, image) pairs; the braids offered are, for every braid `x` stored in the bucket, every way `w` of
extending the factors of `x` by `k` further ones to a normal form and every `1 ≤ i ≤ k`, the braid with factors `x` followed by the
first `i` of `w`: with exactly this multiplicity.  The bucket itself is left as it was. -/
theorem C69_descendants (hn : 2 ≤ sm.n) (hl : sm.n < lim) (H : SummandRealises sm τ) (hF : FullTwistScalar τ) (hd : 0 < d) (hp : sm.p ≠ 1)
    (hsz : 1 ≤ c.size) (hc : c.length = NF.canonicalLength) (s : S) (ops : List (Op NF d))
    (hops : ∀ b, Op.add b ∈ ops → TrueBatch lim ω sm τ b ∧ ∀ i, (b.braids i).power = 0) (st : State S NF d)
    (hr : run c (State.init s) ops = .ok st) (t : BraidSearch.Tag) (b : Bucket NF d) (hb : (t, b) ∈ st.buckets) (k : Nat) :
    ∃ st' bats, nfDescendants (GNF.tbl lim ω) sm c st t k = .ok st' ∧ run c st (bats.map Op.add) = .ok st' ∧
      (∀ b' ∈ bats, TrueBatch lim ω sm τ b' ∧ ∀ i, (b'.braids i).power = 0) ∧ (t, b) ∈ st'.buckets ∧
      ∃ W : NF → List (List Nat), (∀ x ∈ b.braids, (W x).Nodup ∧ ∀ w, w ∈ W x ↔ w.length = k ∧ IsGNF lim ω sm.n ⟨sm.n, 0, x.factors ++ w⟩) ∧
        (braidsOf bats).Perm ((List.range k).flatMap fun i => b.braids.flatMap fun x => (W x).map fun w => ⟨sm.n, 0, x.factors ++ w.take (i + 1)⟩) := by
  have hR : Reach lim ω sm τ c (fun x => x.power = 0) st := ⟨s, ops, hops, hr⟩
  obtain ⟨log, hi⟩ := hR.inv
  obtain ⟨st', bats, h1, h2, h3, h4, h5⟩ := nfDescendants_spec hn hl H hd hp hF hsz hc k hR (Dict.get?_of_mem hi.nodup hb)
  exact ⟨st', bats, h1, h2, h3, Dict.mem_of_get? h4, h5⟩

example (k : Nat) := C69_descendants (by decide) (by decide) sreal315 twist315 (by decide) (by decide) (by decide) rfl () _ ops315_true _ run315 _ _ mem315 k

/-- C69 for one step of one factor from a bucket without repetitions: every braid that extends a stored braid by one factor is
offered exactly once, and nothing else. -/
theorem C69_one_factor (hn : 2 ≤ sm.n) (hl : sm.n < lim) (H : SummandRealises sm τ) (hF : FullTwistScalar τ) (hd : 0 < d) (hp : sm.p ≠ 1)
    (hsz : 1 ≤ c.size) (hc : c.length = NF.canonicalLength) (s : S) (ops : List (Op NF d))
    (hops : ∀ b, Op.add b ∈ ops → TrueBatch lim ω sm τ b ∧ ∀ i, (b.braids i).power = 0) (st : State S NF d)
    (hr : run c (State.init s) ops = .ok st) (t : BraidSearch.Tag) (b : Bucket NF d) (hb : (t, b) ∈ st.buckets) :
    ∃ st' bats, nfDescendants (GNF.tbl lim ω) sm c st t 1 = .ok st' ∧ run c st (bats.map Op.add) = .ok st' ∧
      (∀ b' ∈ bats, TrueBatch lim ω sm τ b') ∧ (b.braids.Nodup → (braidsOf bats).Nodup) ∧
      ∀ y, y ∈ braidsOf bats ↔ IsGNF lim ω sm.n y ∧ y.power = 0 ∧ ∃ x ∈ b.braids, ∃ f, y.factors = x.factors ++ [f] := by
  obtain ⟨st', bats, h1, h2, h3, -, W, w1, w2⟩ := C69_descendants hn hl H hF hd hp hsz hc s ops hops st hr t b hb 1
  refine ⟨st', bats, h1, h2, fun b' hb' => (h3 b' hb').1, fun hnd => ?_, fun y => ?_⟩
  · have hR : Reach lim ω sm τ c (fun x => x.power = 0) st := ⟨s, ops, hops, hr⟩
    obtain ⟨log, hi⟩ := hR.inv
    obtain ⟨l, l1, -, l3⟩ := hR.bucket hd hp hc (Dict.get?_of_mem hi.nodup hb)
    have hlen : ∀ x ∈ b.braids, (x.factors.length : ℤ) = t.1 ∧ x = ⟨sm.n, 0, x.factors⟩ := by
      intro x hx
      rw [l1.1] at hx
      obtain ⟨o, ho, rfl⟩ := List.mem_map.1 hx
      obtain ⟨g1, g2, -, g4⟩ := l3 o ho
      refine ⟨g2, ?_⟩
      obtain ⟨tab, R⟩ := exists_greal lim ω hn hl
      have := (R.isGNF_iff.1 g1.1).n_eq
      cases hob : o.braid; simp_all
    rw [w2.nodup_iff]
    simp only [List.range_one, List.flatMap_cons, List.flatMap_nil, List.append_nil]
    rw [List.nodup_flatMap]
    refine ⟨fun x hx => ?_, ?_⟩
    · rw [List.nodup_map_iff_inj_on (w1 x hx).1]
      intro w hw w' hw' e
      simp only [NF.mk.injEq, true_and, List.append_cancel_left_eq] at e
      have e1 := ((w1 x hx).2 w).1 hw
      have e2 := ((w1 x hx).2 w').1 hw'
      rwa [List.take_of_length_le (by omega), List.take_of_length_le (by omega)] at e
    · refine (List.Nodup.pairwise_of_forall_ne hnd) fun x hx y hy hxy => ?_
      intro z hz hz'
      obtain ⟨w, hw, rfl⟩ := List.mem_map.1 hz
      obtain ⟨w', hw', e⟩ := List.mem_map.1 hz'
      simp only [NF.mk.injEq, true_and] at e
      have e1 := (hlen x hx).1
      have e2 := (hlen y hy).1
      apply hxy
      rw [(hlen x hx).2, (hlen y hy).2, (List.append_inj' e (by
        have := ((w1 x hx).2 w).1 hw
        have := ((w1 y hy).2 w').1 hw'
        simp; omega)).1]
  · rw [w2.mem_iff]
    simp only [List.range_one, List.flatMap_cons, List.flatMap_nil, List.append_nil, List.mem_flatMap, List.mem_map]
    constructor
    · rintro ⟨x, hx, w, hw, rfl⟩
      obtain ⟨e1, e2⟩ := ((w1 x hx).2 w).1 hw
      obtain ⟨f, rfl⟩ := List.length_eq_one_iff.1 e1
      exact ⟨by simpa using e2, rfl, x, hx, f, by simp⟩
    · rintro ⟨h1, h2, x, hx, f, hf⟩
      have hy : y = ⟨sm.n, 0, x.factors ++ [f]⟩ := by
        obtain ⟨tab, R⟩ := exists_greal lim ω hn hl
        have := (R.isGNF_iff.1 h1).n_eq
        cases y; simp_all
      refine ⟨x, hx, [f], ((w1 x hx).2 [f]).2 ⟨rfl, by rw [← hy]; exact h1⟩, by simp [hy]⟩

example := C69_one_factor (by decide) (by decide) sreal315 twist315 (by decide) (by decide) (by decide) rfl () _ ops315_true _ run315 _ _ mem315

/-- C70: after any history of offers of true images and discards, every stored image is the projectivised image of its braid, and
is filed under the length and the projlen of that braid. -/
theorem C70_stored_images (hd : 0 < d) (hp : sm.p ≠ 1) (hc : c.length = NF.canonicalLength) (s : S) (ops : List (Op NF d))
    (hops : ∀ b, Op.add b ∈ ops → TrueBatch lim ω sm τ b) (st : State S NF d) (hr : run c (State.init s) ops = .ok st) : Sound lim ω sm τ st :=
  Reach.sound (Q := fun _ => True) hd hp hc ⟨s, ops, fun b hb => ⟨hops b hb, fun _ => trivial⟩, hr⟩

example := C70_stored_images (c := conf315) (by decide) (by decide) rfl () _ (fun b hb => (ops315_true b hb).1) _ run315

/-- C70: `bootstrap_exhaustive(upto)` offers every braid with Δ-power zero and length `1..upto` exactly once, with its true image. -/
theorem C70_bootstrap (hn : 2 ≤ sm.n) (hl : sm.n < lim) (H : SummandRealises sm τ) (hF : FullTwistScalar τ) (hd : 0 < d) (hp : sm.p ≠ 1)
    (hsz : 1 ≤ c.size) (s : S) (ops : List (Op NF d)) (hops : ∀ b, Op.add b ∈ ops → TrueBatch lim ω sm τ b ∧ ∀ i, (b.braids i).power = 0)
    (st : State S NF d) (hr : run c (State.init s) ops = .ok st) (upto : Nat) :
    ∃ st' bats, bootstrapExhaustive (GNF.tbl lim ω) sm c st upto = .ok st' ∧ run c st (bats.map Op.add) = .ok st' ∧
      (∀ b' ∈ bats, TrueBatch lim ω sm τ b' ∧ ∀ i, (b'.braids i).power = 0) ∧
      (braidsOf bats).Nodup ∧ ∀ x, x ∈ braidsOf bats ↔ IsGNF lim ω sm.n x ∧ x.power = 0 ∧ 1 ≤ x.factors.length ∧ x.factors.length ≤ upto :=
  bootstrap_spec hn hl H hd hp hF hsz upto ⟨s, ops, hops, hr⟩

example := C70_bootstrap (by decide) (by decide) sreal315 twist315 (by decide) (by decide) (by decide) () _ ops315_true _ run315 3

/-- C70: whatever sequence of `bootstrap_exhaustive`, `nf_descendants`, `discard_bucket` (and additions of true images of braids with
Δ-power zero) is executed on an empty tracker, the stored images are true. -/
theorem C70_search_history (hn : 2 ≤ sm.n) (hl : sm.n < lim) (H : SummandRealises sm τ) (hF : FullTwistScalar τ) (hd : 0 < d) (hp : sm.p ≠ 1)
    (hsz : 1 ≤ c.size) (hc : c.length = NF.canonicalLength) (s : S) (ops : List (SearchOp d))
    (hops : ∀ b, SearchOp.add b ∈ ops → TrueBatch lim ω sm τ b ∧ ∀ i, (b.braids i).power = 0) (st : State S NF d)
    (hr : ops.foldlM (SearchOp.exec (GNF.tbl lim ω) sm c) (State.init s) = .ok st) : Sound lim ω sm τ st := by
  have key : ∀ (ops : List (SearchOp d)) (st0 : State S NF d), Reach lim ω sm τ c (fun x => x.power = 0) st0 →
      (∀ b, SearchOp.add b ∈ ops → TrueBatch lim ω sm τ b ∧ ∀ i, (b.braids i).power = 0) → ∀ st,
      ops.foldlM (SearchOp.exec (GNF.tbl lim ω) sm c) st0 = .ok st → Reach lim ω sm τ c (fun x => x.power = 0) st := by
    intro ops
    induction ops with
    | nil => intro st0 h0 _ st hst; cases hst; exact h0
    | cons op ops ih =>
      intro st0 h0 ho st hst
      rw [List.foldlM_cons] at hst
      have addmem : ∀ {bats : List (Bucketing.Batch NF d)}, (∀ b' ∈ bats, TrueBatch lim ω sm τ b' ∧ ∀ i, (b'.braids i).power = 0) →
          ∀ b'', Op.add b'' ∈ bats.map Op.add → TrueBatch lim ω sm τ b'' ∧ ∀ i, (b''.braids i).power = 0 := by
        intro bats hb b'' hb''
        obtain ⟨x, hx, e⟩ := List.mem_map.1 hb''
        cases e; exact hb _ hx
      have hstep : ∀ st1, SearchOp.exec (GNF.tbl lim ω) sm c st0 op = .ok st1 → Reach lim ω sm τ c (fun x => x.power = 0) st1 := by
        intro st1 h1
        cases op with
        | bootstrap upto =>
          obtain ⟨st', bats, e1, e2, e3, -⟩ := bootstrap_spec hn hl H hd hp hF hsz upto h0
          rw [SearchOp.exec, e1] at h1; cases h1
          exact h0.append _ (addmem e3) e2
        | descend t k =>
          cases hg : Dict.get? st0.buckets t with
          | none => rw [SearchOp.exec, nfDescendants, Dict.get, hg] at h1; cases h1
          | some b =>
            obtain ⟨st', bats, e1, e2, e3, -⟩ := nfDescendants_spec hn hl H hd hp hF hsz hc k h0 hg
            rw [SearchOp.exec, e1] at h1; cases h1
            exact h0.append _ (addmem e3) e2
        | discard t => cases h1; exact h0.append [.discard t] (by simp) rfl
        | add b =>
          refine h0.append [.add b] (fun b'' hb'' => ?_) (by rw [run]; exact (by rw [show addBraidsImages c st0 b = .ok st1 from h1]; rfl))
          cases (List.mem_singleton.1 hb''); exact ho b (by simp)
      cases h1 : SearchOp.exec (GNF.tbl lim ω) sm c st0 op with
      | error e => rw [h1] at hst; cases hst
      | ok st1 =>
        rw [h1, bind_ok] at hst
        exact ih st1 (hstep st1 h1) (fun b hb => ho b (by simp [hb])) st hst
  exact (key ops _ ⟨s, [], by simp, rfl⟩ hops st hr).sound hd hp hc

/-- A search: offer the batch, then extend the braids of a bucket by two factors. -/
example : ∃ st, [SearchOp.add batch315, .descend tag315 2].foldlM (SearchOp.exec (GNF.tbl 7 pop0) sm315 conf315) (State.init ()) = .ok st ∧
    Sound 7 pop0 sm315 rho315 st := by
  obtain ⟨st, -, h, -⟩ := C69_descendants (by decide) (by decide) sreal315 twist315 (by decide) (by decide) (by decide) rfl () _ ops315_true _ run315 _ _ mem315 2
  have h2 : [SearchOp.add batch315, .descend tag315 2].foldlM (SearchOp.exec (GNF.tbl 7 pop0) sm315 conf315) (State.init ()) = .ok st := by
    rw [List.foldlM_cons, SearchOp.exec, add315, bind_ok, List.foldlM_cons, SearchOp.exec, h]; rfl
  exact ⟨st, h2, C70_search_history (by decide) (by decide) sreal315 twist315 (by decide) (by decide) (by decide) rfl () _
    (fun b hb => ops315_true b (by simpa using hb)) st h2⟩

end Peyl
