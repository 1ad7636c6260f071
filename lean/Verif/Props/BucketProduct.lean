import Verif.Lemmas.BucketProduct
import Verif.Spec.TrackerHistory
import Verif.Lemmas.SearchComplete
import Verif.Props.Jones
/-!
# `bucket_product` (C95), `substrings` (C96) and arbitrary histories of a `braidsearch.Tracker` (C97)
-/
namespace Peyl
open BraidSearch
variable {S : Type} {d : Nat} {sm : Summand d} {τ : Braid sm.n →* LMat sm.p d} {lim : Nat} {ω : List Nat → List Nat → Nat → Nat} {c : Config S NF d}

namespace BraidSearch

theorem addmem {bats : List (Bucketing.Batch NF d)} (h : ∀ b' ∈ bats, TrueBatch lim ω sm τ b') :
    ∀ b'', Op.add b'' ∈ bats.map Op.add → TrueBatch lim ω sm τ b'' ∧ ∀ _ : Fin b''.len, True := by
  intro b'' hb''
  obtain ⟨x, hx, e⟩ := List.mem_map.1 hb''
  cases e; exact ⟨h _ hx, fun _ => trivial⟩

theorem TrackerState.reach (hn : 2 ≤ sm.n) (hl : sm.n < lim) (H : SummandRealises sm τ) (hF : FullTwistScalar τ) (hd : 0 < d) (hp : sm.p ≠ 1)
    (hsz : 1 ≤ c.size) (hc : c.length = NF.canonicalLength) {st : State S NF d} (h : TrackerState lim ω sm τ c st) :
    Reach lim ω sm τ c (fun _ => True) st := by
  induction h with
  | new s => exact ⟨s, [], by simp, rfl⟩
  | @step st st1 h op ha he ih =>
    cases op with
    | add b =>
      refine ih.append [.add b] (fun b'' hb'' => ?_) (by rw [run]; exact (by rw [show addBraidsImages c st b = .ok st1 from he]; rfl))
      cases (List.mem_singleton.1 hb''); exact ⟨ha, fun _ => trivial⟩
    | bootstrap upto =>
      obtain ⟨st', bats, e1, e2, e3, -⟩ := bootstrap_spec_gen hn hl H hd hp hF hsz upto (fun _ _ => trivial) ih
      rw [TrackerOp.exec, e1] at he; cases he
      exact ih.append _ (addmem fun b' hb' => (e3 b' hb').1) e2
    | descend t k =>
      cases hg : Dict.get? st.buckets t with
      | none => rw [TrackerOp.exec, nfDescendants, Dict.get, hg] at he; cases he
      | some b =>
        obtain ⟨st', bats, e1, e2, e3, -⟩ := nfDescendants_spec_gen hn hl H hd hp hF hsz hc k (fun _ _ => trivial) ih hg (ha b (Dict.mem_of_get? hg))
        rw [TrackerOp.exec, e1] at he; cases he
        exact ih.append _ (addmem fun b' hb' => (e3 b' hb').1) e2
    | product t u =>
      cases hg : Dict.get? st.buckets t with
      | none => simp [TrackerOp.exec, bucketProduct, bucketBraidsImages, hg, bind, Except.bind] at he
      | some b =>
        cases hg' : Dict.get? st.buckets u with
        | none => simp [TrackerOp.exec, bucketProduct, bucketBraidsImages, hg, hg', bind, Except.bind] at he
        | some b' =>
          obtain ⟨st', bat, e1, e2, e3, -⟩ := bucketProduct_spec hn hl hd hp hsz hc ih hg hg'
          rw [TrackerOp.exec, e1] at he; cases he
          refine ih.append [.add bat] (fun b'' hb'' => ?_) (by rw [run, e2]; rfl)
          cases (List.mem_singleton.1 hb''); exact ⟨e3, fun _ => trivial⟩
    | substrings t =>
      cases hg : Dict.get? st.buckets t with
      | none => simp [TrackerOp.exec, BraidSearch.substrings, hg, bind, Except.bind] at he
      | some b =>
        obtain ⟨st', bats, e1, e2, e3, -⟩ := substrings_spec hn hl H hd hp hF hsz hc ih hg
        rw [TrackerOp.exec, e1] at he; cases he
        exact ih.append _ (addmem e3) e2
    | discard t => cases he; exact ih.append [.discard t] (by simp) rfl

end BraidSearch

/-- C95: `bucket_product(t, u)` on two buckets of any state a tracker can be in succeeds and does nothing but add one batch of
true (braid, image) pairs; the braids of the batch are the products `x * y` of every stored `x` of the first with every stored `y`
of the second bucket, row by row, each exactly once per pair of stored braids. -/
theorem C95_bucket_product (hn : 2 ≤ sm.n) (hl : sm.n < lim) (H : SummandRealises sm τ) (hF : FullTwistScalar τ) (hd : 0 < d) (hp : sm.p ≠ 1)
    (hsz : 1 ≤ c.size) (hc : c.length = NF.canonicalLength) (st : State S NF d) (hst : TrackerState lim ω sm τ c st)
    (t u : BraidSearch.Tag) (b b' : Bucket NF d) (hb : (t, b) ∈ st.buckets) (hb' : (u, b') ∈ st.buckets) :
    ∃ st' bat, bucketProduct (GNF.tbl lim ω) sm c st t u = .ok st' ∧ addBraidsImages c st bat = .ok st' ∧ TrueBatch lim ω sm τ bat ∧
      ∃ f : NF → NF → NF, (∀ x ∈ b.braids, ∀ y ∈ b'.braids, NF.mul (GNF.tbl lim ω) x y = .ok (f x y) ∧
          gnfBraid sm.n (f x y) = gnfBraid sm.n x * gnfBraid sm.n y) ∧
        List.ofFn bat.braids = b.braids.flatMap fun x => b'.braids.map fun y => f x y := by
  have hR := hst.reach hn hl H hF hd hp hsz hc
  obtain ⟨log, hi⟩ := hR.inv
  exact bucketProduct_spec hn hl hd hp hsz hc hR (Dict.get?_of_mem hi.nodup hb) (Dict.get?_of_mem hi.nodup hb')

/-- C95: with a bucket that does not exist `bucket_product` raises AssertionError. -/
theorem C95_missing (rep : Summand d) (st : State S NF d) (t u : BraidSearch.Tag) (h : (∀ b, (t, b) ∉ st.buckets) ∨ (∀ b, (u, b) ∉ st.buckets)) :
    bucketProduct (GNF.tbl lim ω) rep c st t u = .error .assertion := by
  have none_of : ∀ t : BraidSearch.Tag, (∀ b, (t, b) ∉ st.buckets) → Dict.get? st.buckets t = none := by
    intro t h
    cases hg : Dict.get? st.buckets t with
    | none => rfl
    | some b => exact absurd (Dict.mem_of_get? hg) (h b)
  rw [bucketProduct]
  rcases h with h | h
  · rw [bucketBraidsImages, none_of t h]; rfl
  · cases hx : bucketBraidsImages st t with
    | error e =>
      rw [bucketBraidsImages] at hx
      split at hx
      · cases hx; rfl
      · cases hx
    | ok x => rw [bind_ok, bucketBraidsImages, none_of u h]; rfl

/-- C96: `substrings(t)` on a bucket of braids of length `ℓ = t.1` of any state a tracker can be in succeeds, leaves the bucket as it
is and does nothing but add batches of true (braid, image) pairs; the braids offered are, for `1 ≤ i` and `i + 2 ≤ j ≤ ℓ - 2` in
lexicographic order, for every stored `x` in order, the braid with the Δ-power of `x` and its factors `i, ..., j - 1`. -/
theorem C96_substrings (hn : 2 ≤ sm.n) (hl : sm.n < lim) (H : SummandRealises sm τ) (hF : FullTwistScalar τ) (hd : 0 < d) (hp : sm.p ≠ 1)
    (hsz : 1 ≤ c.size) (hc : c.length = NF.canonicalLength) (st : State S NF d) (hst : TrackerState lim ω sm τ c st)
    (t : BraidSearch.Tag) (b : Bucket NF d) (hb : (t, b) ∈ st.buckets) :
    ∃ st' bats, BraidSearch.substrings (GNF.tbl lim ω) sm c st t = .ok st' ∧ run c st (bats.map Op.add) = .ok st' ∧
      (∀ b' ∈ bats, TrueBatch lim ω sm τ b') ∧ (t, b) ∈ st'.buckets ∧
      ∃ is : List (Nat × Nat), is.Pairwise (fun p q => p.1 < q.1 ∨ p.1 = q.1 ∧ p.2 < q.2) ∧
        (∀ i j : Nat, (i, j) ∈ is ↔ 1 ≤ i ∧ i + 2 ≤ j ∧ (j : ℤ) + 2 ≤ t.1) ∧
        braidsOf bats = is.flatMap fun p => b.braids.map fun x => ⟨sm.n, x.power, (x.factors.take p.2).drop p.1⟩ := by
  have hR := hst.reach hn hl H hF hd hp hsz hc
  obtain ⟨log, hi⟩ := hR.inv
  obtain ⟨st', bats, h1, h2, h3, h4, h5⟩ := substrings_spec hn hl H hd hp hF hsz hc hR (Dict.get?_of_mem hi.nodup hb)
  refine ⟨st', bats, h1, h2, h3, Dict.mem_of_get? h4, ((List.range (t.1.toNat - 1)).drop 1).flatMap fun i =>
    ((List.range (t.1.toNat - 1)).drop (i + 2)).map fun j => (i, j), ?_, fun i j => ?_, ?_⟩
  · rw [List.pairwise_flatMap]
    have hs : ∀ k, ((List.range (t.1.toNat - 1)).drop k).Pairwise (· < ·) := fun k => List.pairwise_lt_range.sublist (List.drop_sublist _ _)
    refine ⟨fun i _ => ?_, (hs 1).imp fun {i i'} h x hx y hy => ?_⟩
    · rw [List.pairwise_map]
      exact (hs (i + 2)).imp fun h => .inr ⟨rfl, h⟩
    · obtain ⟨j, -, rfl⟩ := List.mem_map.1 hx
      obtain ⟨j', -, rfl⟩ := List.mem_map.1 hy
      exact .inl h
  · have hm : ∀ k x, x ∈ (List.range (t.1.toNat - 1)).drop k ↔ k ≤ x ∧ x < t.1.toNat - 1 := by
      intro k x
      refine ⟨mem_range_drop, fun h => List.mem_iff_getElem.2 ⟨x - k, by simp; omega, by simp; omega⟩⟩
    simp only [List.mem_flatMap, List.mem_map, Prod.mk.injEq, hm]
    constructor
    · rintro ⟨i', h1, j', h2, rfl, rfl⟩; omega
    · intro h; exact ⟨i, by omega, j, by omega, rfl, rfl⟩
  · rw [h5, List.flatMap_assoc]
    congr 1
    funext i
    rw [List.flatMap_map]; rfl

/-- C97: in every state that a `braidsearch.Tracker` can reach by any sequence of `add_braids_images` (of true images),
`bootstrap_exhaustive`, `nf_descendants` (of buckets with Δ-powers zero), `bucket_product`, `substrings` and `discard_bucket`, every stored
image is the projectivised image of its braid and is filed under the length and projlen of that braid. -/
theorem C97_sound (hn : 2 ≤ sm.n) (hl : sm.n < lim) (H : SummandRealises sm τ) (hF : FullTwistScalar τ) (hd : 0 < d) (hp : sm.p ≠ 1)
    (hsz : 1 ≤ c.size) (hc : c.length = NF.canonicalLength) (st : State S NF d) (hst : TrackerState lim ω sm τ c st) : Sound lim ω sm τ st :=
  (hst.reach hn hl H hF hd hp hsz hc).sound hd hp hc

/-- C97: in such a state none of the operations raises, as long as the buckets it names exist. -/
theorem C97_no_error (hn : 2 ≤ sm.n) (hl : sm.n < lim) (H : SummandRealises sm τ) (hF : FullTwistScalar τ) (hd : 0 < d) (hp : sm.p ≠ 1)
    (hsz : 1 ≤ c.size) (hc : c.length = NF.canonicalLength) (st : State S NF d) (hst : TrackerState lim ω sm τ c st) (op : TrackerOp d)
    (ha : op.Allowed lim ω sm τ st)
    (hex : match op with
      | .descend t _ => ∃ b, (t, b) ∈ st.buckets
      | .substrings t => ∃ b, (t, b) ∈ st.buckets
      | .product t u => (∃ b, (t, b) ∈ st.buckets) ∧ ∃ b, (u, b) ∈ st.buckets
      | _ => True) : ∃ st', op.exec (GNF.tbl lim ω) sm c st = .ok st' := by
  have hR := hst.reach hn hl H hF hd hp hsz hc
  obtain ⟨log, hi⟩ := hR.inv
  cases op with
  | add b => exact add_ok c hsz hi b (TrueBatch.valid ha)
  | bootstrap upto =>
    obtain ⟨st', _, e1, -⟩ := bootstrap_spec_gen hn hl H hd hp hF hsz upto (fun _ _ => trivial) hR
    exact ⟨st', e1⟩
  | descend t k =>
    obtain ⟨b, hb⟩ := hex
    obtain ⟨st', _, e1, -⟩ := nfDescendants_spec_gen hn hl H hd hp hF hsz hc k (fun _ _ => trivial) hR (Dict.get?_of_mem hi.nodup hb) (ha b hb)
    exact ⟨st', e1⟩
  | product t u =>
    obtain ⟨⟨b, hb⟩, b', hb'⟩ := hex
    obtain ⟨st', _, e1, -⟩ := bucketProduct_spec hn hl hd hp hsz hc hR (Dict.get?_of_mem hi.nodup hb) (Dict.get?_of_mem hi.nodup hb')
    exact ⟨st', e1⟩
  | substrings t =>
    obtain ⟨b, hb⟩ := hex
    obtain ⟨st', _, e1, -⟩ := substrings_spec hn hl H hd hp hF hsz hc hR (Dict.get?_of_mem hi.nodup hb)
    exact ⟨st', e1⟩
  | discard t => exact ⟨_, rfl⟩

/-- Non-vacuity: a tracker for the Burau representation of `B_3` over `F_2` after `bootstrap_exhaustive(6)` has a bucket of braids of
length 6, to which `bucket_product` and `substrings` (with pairs `(1,3), (1,4), (2,4)`) apply. -/
example : ∃ (gs : List (Img (Jones.dimension 3 1))) (τ : Braid 3 →* LMat 2 (Jones.dimension 3 1)) (st : State Unit NF (Jones.dimension 3 1))
    (t : BraidSearch.Tag) (b : Bucket NF (Jones.dimension 3 1)), Jones.summand 3 1 2 = .ok ⟨3, 2, gs⟩ ∧
    SummandRealises (⟨3, 2, gs⟩ : Summand (Jones.dimension 3 1)) τ ∧ FullTwistScalar τ ∧
    TrackerState 7 (fun _ _ _ => 0) ⟨3, 2, gs⟩ τ ⟨200, NF.canonicalLength, fun _ _ _ => true, fun _ => 0, none⟩ st ∧ (t, b) ∈ st.buckets ∧
    t.1 = 6 ∧ (⟨3, 0, [1, 1, 1, 1, 1, 1]⟩ : NF) ∈ b.braids := by
  obtain ⟨ρ, G, I, gs, -, -, g3, g4, hF, hd⟩ := C54_hypotheses 3 1 2 (by norm_num) (by norm_num)
  let c : Config Unit NF (Jones.dimension 3 1) := ⟨200, NF.canonicalLength, fun _ _ _ => true, fun _ => 0, none⟩
  have hR0 : Reach 7 (fun _ _ _ => 0) (⟨3, 2, gs⟩ : Summand (Jones.dimension 3 1)) ρ c (fun x => x.power = 0) (State.init ()) := ⟨(), [], by simp, rfl⟩
  obtain ⟨st, bats, e1, e2, e3, -, e5⟩ := bootstrap_spec (c := c) (by norm_num) (by norm_num) g4 hd (by norm_num) hF (by norm_num [c]) 6 hR0
  have hx : IsGNF 7 (fun _ _ _ => 0) 3 ⟨3, 0, [1, 1, 1, 1, 1, 1]⟩ := by decide +kernel
  have hmem := (e5 ⟨3, 0, [1, 1, 1, 1, 1, 1]⟩).2 ⟨hx, rfl, by norm_num, by norm_num⟩
  rw [braidsOf, List.mem_flatMap] at hmem
  obtain ⟨b0, hb0, hm⟩ := hmem
  obtain ⟨i, hi⟩ := (List.mem_ofFn' _ _).1 hm
  have hst : Search.Stored st ⟨3, 0, [1, 1, 1, 1, 1, 1]⟩ := by
    refine Search.stored_run (k := 128) (m := 6) hd (by norm_num) rfl (fun _ _ _ _ => rfl) hR0 (bats.map Op.add) (fun b hb => ?_) e2
      (Search.atMost_of_count (by norm_num) (by norm_num) (show NF.countAllOfLength (GNF.tbl 7 fun _ _ _ => 0) 3 6 = .ok 128 by decide +kernel)) (by norm_num [c]) (by norm_num) (fun t ht => ?_) rfl (.inr ⟨b0, i, List.mem_map.2 ⟨b0, hb0, rfl⟩, hi⟩)
    · obtain ⟨y, hy, e⟩ := List.mem_map.1 hb
      cases e; exact e3 _ hy
    · obtain ⟨y, hy, e⟩ := List.mem_map.1 ht
      cases e
  obtain ⟨t, b, hb, hxb⟩ := hst
  have hT : TrackerState 7 (fun _ _ _ => 0) (⟨3, 2, gs⟩ : Summand (Jones.dimension 3 1)) ρ c st := .step (.new ()) (.bootstrap 6) trivial e1
  refine ⟨gs, ρ, st, t, b, g3, g4, hF, hT, hb, ?_, hxb⟩
  obtain ⟨l, l1, -, l3⟩ := C97_sound (by norm_num) (by norm_num) g4 hF hd (by norm_num) (by norm_num [c]) rfl st hT t b hb
  rw [l1.1] at hxb
  obtain ⟨o, ho, e⟩ := List.mem_map.1 hxb
  have := (l3 o ho).2.1
  rw [e] at this
  exact this.symm

end Peyl
