import Verif.Lemmas.BucketStats
import Verif.Props.BucketSearch
import Verif.Props.Bucketing
import Verif.Props.SearchMisc
/-!
# Statistics of the buckets of a `bucketing.Tracker` (C100), wrappers of `BraidGroup` (C103)
-/
namespace Peyl
open Bucketing Polymat
variable {S : Type} {d : Nat}

/-! ## C100 -/

theorem mapM_ok_map {α γ : Type} (f : α → γ) (g : α → Except Err γ) : ∀ (l : List α), (∀ x ∈ l, g x = .ok (f x)) → l.mapM g = .ok (l.map f)
  | [], _ => rfl
  | x :: l, h => by
    rw [List.mapM_cons, h x (by simp), bind_ok, mapM_ok_map f g l fun y hy => h y (by simp [hy]), bind_ok]; rfl

/-- C100: `stats()` of a tracker with room for at least one braid per bucket succeeds after any history; it has one row per bucket; a row shows the
number of stored braids, how many braids were offered to the bucket since it was created, the average weight of the stored ones and the average
weight of the offered ones. -/
theorem C100_tracker_stats {β : Type} (g : Rng S) (c : Config β d) (hc : 1 ≤ c.capacity) (s : S) (ops : List (Op β d)) (r : Buckets β d × S)
    (h : run g c ([], s) ops = .ok r) :
    ∃ rows, Bucketing.stats r.1 = .ok rows ∧ rows.map BucketRow.bucket = r.1.map Prod.fst ∧ (rows.map BucketRow.bucket).Nodup ∧
      ∀ i (hi : i < rows.length) (hi' : i < r.1.length), ∃ l, Holds r.1[i].2 l ∧ l.Subperm (offered c ops r.1[i].1) ∧ l ≠ [] ∧
        rows[i].count = l.length ∧ rows[i].reservoirCount = (offered c ops r.1[i].1).length ∧
        rows[i].weightAvg = (l.map Offer.weight).sum / l.length ∧
        rows[i].weightAvgSeen = ((offered c ops r.1[i].1).map Offer.weight).sum / (offered c ops r.1[i].1).length := by
  obtain ⟨hnd, hcont⟩ := C64_contents g c s ops r h
  have hwz := run_all g c WZ (fun tag w i hi _ => by simp [Bucket.create]) (fun s b x im w r => offer_wz g c.method s b x im w r) ops ([], s) r (by simp) h
  have key : ∀ tb ∈ r.1, ∃ l, Holds tb.2 l ∧ l.Subperm (offered c ops tb.1) ∧ l ≠ [] ∧ tb.2.tag = tb.1 ∧ tb.2.size = l.length ∧
      tb.2.reservoirCount = (offered c ops tb.1).length ∧ tb.2.reservoirWeight = ((offered c ops tb.1).map Offer.weight).sum ∧
      tb.2.weights.sum = (l.map Offer.weight).sum ∧ offered c ops tb.1 ≠ [] := by
    rintro ⟨t, b⟩ hb
    obtain ⟨e, l, hl, hsub⟩ := hcont t b hb
    obtain ⟨c1, c2, c3⟩ := C65_counters g c s ops r h t b hb
    have hne := (C64_buckets g c s ops r h t).1 ⟨b, hb⟩
    have hsz : b.size = l.length := by rw [Bucket.size, hl.1, List.length_map]
    have hlne : l ≠ [] := by
      intro e0
      have : 0 < (offered c ops t).length := List.length_pos_iff.2 hne
      rw [e0, List.length_nil] at hsz
      omega
    refine ⟨l, hl, hsub, hlne, e, hsz, c1, c2, ?_, hne⟩
    have hz : ∀ x ∈ b.weights.drop l.length, x = 0 := by
      intro x hx
      obtain ⟨i, hi, rfl⟩ := List.getElem_of_mem hx
      rw [List.getElem_drop]
      exact hwz _ hb _ _ (by rw [hsz]; omega)
    show b.weights.sum = _
    rw [← List.take_append_drop l.length b.weights, List.sum_append, hl.2.2, List.sum_eq_zero hz, add_zero]
  let row : Tag × Bucket Tag β d → BucketRow := fun tb =>
    ⟨tb.2.tag, tb.2.size, tb.2.reservoirCount, tb.2.weights.sum / tb.2.size, tb.2.reservoirWeight / tb.2.reservoirCount⟩
  have hrow : Bucketing.stats r.1 = .ok (r.1.map row) := by
    refine mapM_ok_map row _ _ fun tb htb => ?_
    obtain ⟨l, h1, h2, h3, h4, h5, h6, h7, h8, h9⟩ := key tb htb
    have n1 : ((tb.2.size : ℕ) : ℚ) ≠ 0 := by rw [h5]; exact_mod_cast (List.length_pos_iff.2 h3).ne'
    have n2 : ((tb.2.reservoirCount : ℕ) : ℚ) ≠ 0 := by rw [h6]; exact_mod_cast (List.length_pos_iff.2 h9).ne'
    rw [fdiv, if_neg n1, bind_ok, fdiv, if_neg n2, bind_ok]
  have hb : (r.1.map row).map BucketRow.bucket = r.1.map Prod.fst := by
    rw [List.map_map]
    refine List.map_congr_left fun tb htb => ?_
    obtain ⟨l, h1, h2, h3, h4, -⟩ := key tb htb
    exact h4
  refine ⟨_, hrow, hb, hb ▸ hnd, fun i hi hi' => ?_⟩
  obtain ⟨l, h1, h2, h3, h4, h5, h6, h7, h8, h9⟩ := key r.1[i] (List.getElem_mem hi')
  refine ⟨l, h1, h2, h3, ?_⟩
  rw [List.getElem_map]
  exact ⟨h5, h6, by simp only [row, h8, h5], by simp only [row, h7, h6]⟩

/-- C100: `bucket_stats(t)` for a bucket that does not exist raises ValueError. -/
theorem C100_tracker_bucket_stats_missing (bs : Buckets NF d) (t : Bucketing.Tag) (h : ∀ b, (t, b) ∉ bs) : Bucketing.bucketStats bs t = .error .value := by
  have : Dict.has bs t = false := by
    rw [Bool.eq_false_iff, Dict.has, Ne, List.any_eq_true]
    rintro ⟨⟨t', b⟩, hb, e⟩
    have e : t' = t := by simpa using e
    exact h b (e ▸ hb)
  rw [Bucketing.bucketStats, this]; rfl

theorem bucketStats_sound {p : Nat} {legal : NF → Prop} {M : NF → LMat p d} {bs : Buckets NF d} (hnd : (bs.map Prod.fst).Nodup) (hs : Sound p legal M bs)
    (hw : ∀ t b, (t, b) ∈ bs → (b.width : ℤ) = t.2.1) (t : Bucketing.Tag) (b : Bucketing.Bucket Bucketing.Tag NF d) (hb : (t, b) ∈ bs) :
    ∃ rows, Bucketing.bucketStats bs t = .ok rows ∧ rows.map BraidRow.braid = b.braids ∧
      ∀ r ∈ rows, (r.length : ℤ) = t.1 ∧ r.projlen = t.2.1 ∧ r.nzTerms = termCount (M r.braid) := by
  obtain ⟨l, hl, hne, hall⟩ := hs t b hb
  have hlen : b.braids.length = l.length := by rw [hl.1, List.length_map]
  have e2 : b.images.take b.size = l.map Offer.image := by rw [Bucketing.Bucket.size, hlen, hl.2.1]
  have hL : 0 < b.braids.length := by rw [hlen]; exact List.length_pos_iff.2 hne
  have hwid := hw t b hb
  have himg : IsProjImage p ((List.range b.width).map fun k (i : Fin b.braids.length) => slice ((b.images.take b.size).getD i []) k () : PArr (Fin b.braids.length) d d)
      fun i => M b.braids[i] := by
    refine stack_image hL (fun i => (b.images.take b.size).getD i []) _ (fun i => ?_) fun i => ?_
    · have hi : i.1 < l.length := hlen ▸ i.2
      have := (hall _ (List.getElem_mem hi)).2.2.2
      simp [e2, List.getD_eq_getElem?_getD, hi]
      omega
    · have hi : i.1 < l.length := hlen ▸ i.2
      have := (hall _ (List.getElem_mem hi)).2.1
      simpa [e2, List.getD_eq_getElem?_getD, hi, hl.1] using this
  haveI : Nonempty (Fin b.braids.length) := ⟨⟨0, hL⟩⟩
  obtain ⟨v, dm, pl, rg, s1, s2, s3, s4, s5⟩ := stats_first himg.first
  have hhas : Dict.has bs t = true := by rw [Dict.has, List.any_eq_true]; exact ⟨_, hb, by simp⟩
  have hg : Dict.get bs t = .ok b := by rw [Dict.get, Dict.get?_of_mem hnd hb]
  refine ⟨List.ofFn fun i : Fin b.braids.length => ⟨b.braids[i], NF.canonicalLength b.braids[i], pl i,
    nzTerms ((List.range b.width).map fun k (i : Fin b.braids.length) => slice ((b.images.take b.size).getD i []) k () : PArr (Fin b.braids.length) d d) i⟩, ?_, ?_, ?_⟩
  · rw [Bucketing.bucketStats, hhas, if_neg (by simp), hg, bind_ok]
    dsimp only [Bucketing.Bucket.braidsImages]
    rw [Bucketing.braidImageStats, s3, bind_ok]; rfl
  · rw [List.map_ofFn]
    exact List.ofFn_getElem
  · intro r hr
    obtain ⟨i, rfl⟩ := List.mem_ofFn.1 hr
    have hi : i.1 < l.length := hlen ▸ i.2
    obtain ⟨o1, o2, o3, o4⟩ := hall _ (List.getElem_mem hi)
    obtain ⟨q1, q2, q3, n, q4, q5, q6⟩ := s5 i
    have hbr : b.braids[i] = l[i.1].braid := by simp [hl.1]
    refine ⟨by simpa only [hbr] using o3, ?_, ?_⟩
    · have hsl : ∀ e, slice ((List.range b.width).map fun k (i : Fin b.braids.length) => slice ((b.images.take b.size).getD i []) k () : PArr (Fin b.braids.length) d d) e i =
          slice l[i.1].image e () := by
        intro e
        rw [slice_map_range]
        split
        · simp [e2, List.getD_eq_getElem?_getD, hi]
        · rw [slice_ge _ (by omega)]; rfl
      obtain ⟨u, hu⟩ := o2.last
      rw [hsl] at q5
      have w1 := lt_of_nz q5
      have w2 := q6 (l[i.1].image.length - 1) (by rw [hsl]; exact hu)
      show pl i = _
      omega
    · obtain ⟨k, hk⟩ := himg.shift i
      exact nzTerms_eq himg.reduced hk

section history
variable {rep : RepBase d} {ρ : Braid rep.n →* LMat rep.p d} {c : Bucketing.Config NF d} {rng : Rng S} {lim : Nat} {argsort : List Nat → List Nat}

/-- C100: in every state that a history of `bootstrap_exhaustive`, `nf_descendants`, `discard_bucket` and additions of true batches of `GNF` objects can
lead to, `bucket_stats(t)` of a bucket has one row per stored braid, in order; every row has the length and the projlen of the tag, and `nz_terms` is
the number of monomials of the matrix of the braid. -/
theorem C100_tracker_bucket_stats {ω : List Nat → List Nat → Nat → Nat} (hn : 2 ≤ rep.n) (hl : rep.n < lim) (U : SetUp rep ρ c)
    (hsort : ∀ l, (argsort l).Perm (List.range l.length)) (s : S)
    (ops : List (TrackerOp d)) (hops : ∀ b, TrackerOp.add b ∈ ops → TrueBatch rep.p (GLegal lim ω rep.n) (GMat ρ) b) (tr : Tracker S (List Nat) d)
    (hr : history (GNF.tbl lim ω) (rep.toRep (GNF.tbl lim ω)) rng c argsort s ops = .ok tr) (t : Bucketing.Tag) (b : Bucketing.Bucket Bucketing.Tag NF d)
    (hb : (t, b) ∈ tr.buckets) :
    ∃ rows, Bucketing.bucketStats tr.buckets t = .ok rows ∧ rows.map BraidRow.braid = b.braids ∧
      ∀ r ∈ rows, (r.length : ℤ) = t.1 ∧ r.projlen = t.2.1 ∧ r.nzTerms = termCount (ρ (gnfBraid rep.n r.braid)) := by
  obtain ⟨tb, K, hL, hM⟩ := gnf_ctx lim ω hn hl U
  rw [← hL, ← hM] at hops
  have hok := K.history_ok (rng := rng) hsort ops _ (TOk.init s) hops tr hr
  have hs := hok.1.sound K.ne K.total K.length K.cap
  obtain ⟨s', bats, -, hrun⟩ := hok.1
  rw [hL, hM] at hs
  exact bucketStats_sound (C64_contents rng c s' _ _ hrun).1 hs (fun t b hb => (C64_widths rng c s' _ _ hrun t b hb).1) t b hb

/-- C100: the same for `DGNF` objects. -/
theorem C100_tracker_bucket_stats_dual {ω : NPar → NPar → Nat → Nat} (hn : 2 ≤ rep.n) (hl : NPar.catalanNum rep.n < lim) (U : SetUp rep ρ c)
    (hsort : ∀ l, (argsort l).Perm (List.range l.length)) (s : S)
    (ops : List (TrackerOp d)) (hops : ∀ b, TrackerOp.add b ∈ ops → TrueBatch rep.p (DLegal lim ω rep.n) (DMat ρ) b) (tr : Tracker S NPar d)
    (hr : history (DGNF.tbl lim ω) (rep.toRep (DGNF.tbl lim ω)) rng c argsort s ops = .ok tr) (t : Bucketing.Tag) (b : Bucketing.Bucket Bucketing.Tag NF d)
    (hb : (t, b) ∈ tr.buckets) :
    ∃ rows, Bucketing.bucketStats tr.buckets t = .ok rows ∧ rows.map BraidRow.braid = b.braids ∧
      ∀ r ∈ rows, (r.length : ℤ) = t.1 ∧ r.projlen = t.2.1 ∧ r.nzTerms = termCount (ρ (dgnfBraid rep.n r.braid)) := by
  obtain ⟨tb, K, hL, hM⟩ := dgnf_ctx lim ω hn hl U
  rw [← hL, ← hM] at hops
  have hok := K.history_ok (rng := rng) hsort ops _ (TOk.init s) hops tr hr
  have hs := hok.1.sound K.ne K.total K.length K.cap
  obtain ⟨s', bats, -, hrun⟩ := hok.1
  rw [hL, hM] at hs
  exact bucketStats_sound (C64_contents rng c s' _ _ hrun).1 hs (fun t b hb => (C64_widths rng c s' _ _ hrun t b hb).1) t b hb

end history

/-- Two batches of a tracker of capacity two: three offers with weights 12, 15, 17 (GreedyFirst keeps the first two). -/
example : ((Bucketing.run zeroRng (exampleConfig .greedyFirst 2) ([], ()) [.add ⟨3, fun i => [12, 15, 17][i], [fun _ _ _ => 1]⟩]).bind
    (fun r => (Bucketing.stats r.1).map fun rows => rows.map fun x => ([x.count, x.reservoirCount], [x.weightAvg, x.weightAvgSeen]))).toOption =
    some [([2, 3], [27/2, 44/3])] := by decide +kernel

/-! ## C103 -/
section wrappers
variable {n lim : Nat} {ω : List Nat → List Nat → Nat → Nat}

/-- C103: `BraidGroup(n).all_of_garside_length(length, power)` lists, each once, exactly the `GNF` objects on `n` strands with that many factors and
Δ-power zero. -/
theorem C103_all_partial (hn : 2 ≤ n) (hl : n < lim) (length : Nat) (power : ℤ) :
    ∃ xs, NF.allOfGarsideLength (GNF.tbl lim ω) n length power = .ok xs ∧ xs.Nodup ∧
      ∀ x, x ∈ xs ↔ IsGNF lim ω n x ∧ NF.garsideLength x = length ∧ x.power = 0 := by
  obtain ⟨t, R⟩ := exists_greal lim ω hn hl
  obtain ⟨xs, h1, h2, h3, -⟩ := R.1.allOfLength_spec length 0
  refine ⟨xs, h1, h2, fun x => ?_⟩
  rw [h3, ← R.isGNF_iff]
  exact ⟨fun h => ⟨h.1, h.2.2, h.2.1⟩, fun h => ⟨h.1, h.2.2, h.2.1⟩⟩

example := C103_all_partial (n := 4) (lim := 7) (ω := pop0) (by decide) (by decide) 3 2

/-- C103: `count_all_of_garside_length(length)` is the number of braids listed. -/
theorem C103_count (hn : 2 ≤ n) (hl : n < lim) (length : Nat) (power : ℤ) :
    ∃ xs, NF.allOfGarsideLength (GNF.tbl lim ω) n length power = .ok xs ∧ NF.countAllOfGarsideLength (GNF.tbl lim ω) n length = .ok xs.length := by
  obtain ⟨t, R⟩ := exists_greal lim ω hn hl
  obtain ⟨xs, h1, h2, h3, h4⟩ := R.1.allOfLength_spec length 0
  exact ⟨xs, h1, h4⟩

example := C103_count (n := 4) (lim := 7) (ω := pop0) (by decide) (by decide) 3 2

/-- C103, refuted: the `power` argument is ignored, so asking for braids with another Δ-power returns none of them, only others. -/
theorem C103_power_refuted (hn : 2 ≤ n) (hl : n < lim) (length : Nat) (power : ℤ) (hp : power ≠ 0) :
    ∃ xs, NF.allOfGarsideLength (GNF.tbl lim ω) n length power = .ok xs ∧ ∀ x ∈ xs, x.power ≠ power := by
  obtain ⟨xs, h1, -, h3⟩ := C103_all_partial (ω := ω) hn hl length power
  exact ⟨xs, h1, fun x hx => by rw [((h3 x).1 hx).2.2]; exact hp.symm⟩

example := C103_power_refuted (n := 4) (lim := 7) (ω := pop0) (by decide) (by decide) 3 2 (by decide)

end wrappers

end Peyl
