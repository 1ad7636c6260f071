import Verif.Lemmas.SearchScan
import Verif.Props.BucketProduct
import Verif.Props.BraidSearch
import Verif.Props.Descend
/-!
# Sampling with images (C98), scanning a length (C99), statistics of buckets (C100), `valiate_buckets` (C101), data frames (C102)
-/
namespace Peyl
open BraidSearch Polymat
variable {S : Type} {d : Nat} {sm : Summand d} {τ : Braid sm.n →* LMat sm.p d} {lim : Nat} {ω : List Nat → List Nat → Nat → Nat} {c : Config S NF d}

/-! ## C98 -/

/-- C98: `sample_braids_images(rep, length, count)` (at least three strands, count ≥ 1) returns `count` braids with Δ-power zero and Garside length
exactly `length`, and a tensor whose `i`-th matrix is the projectivised image of the `i`-th braid, whatever the random choices are. -/
theorem C98_sample_images (hn : 3 ≤ sm.n) (hl : sm.n < lim) (H : SummandRealises sm τ) (hF : FullTwistScalar τ) (hd : 0 < d) (hp : sm.p ≠ 1)
    (rands : Nat → Nat → Nat) (length count : Nat) (hc : 1 ≤ count) :
    ∃ out, sampleBraidsImages (GNF.tbl lim ω) rands sm length count = .ok out ∧ out.len = count ∧
      (∀ i, IsGNF lim ω sm.n (out.braids i) ∧ (out.braids i).power = 0 ∧ NF.garsideLength (out.braids i) = length) ∧
      IsProjImage sm.p out.images fun i => τ (gnfBraid sm.n (out.braids i)) := by
  obtain ⟨out, h1, h2, h3, h4, h5, -⟩ := sampleBraidsImages_spec (lim := lim) (ω := ω) hn hl H hF hd hp rands length count hc
  exact ⟨out, h1, h2, fun i => ⟨h3.gnf i, h5 i⟩, h4⟩

/-- C98: every braid with Δ-power zero of the length can be sampled at every position. -/
theorem C98_sample_reaches (hn : 3 ≤ sm.n) (hl : sm.n < lim) (H : SummandRealises sm τ) (hF : FullTwistScalar τ) (hd : 0 < d) (hp : sm.p ≠ 1)
    (length count : Nat) (xs : Fin count → NF) (hc : 1 ≤ count)
    (hx : ∀ i, IsGNF lim ω sm.n (xs i) ∧ (xs i).power = 0 ∧ NF.garsideLength (xs i) = length) :
    ∃ rands out, sampleBraidsImages (GNF.tbl lim ω) rands sm length count = .ok out ∧ List.ofFn out.braids = List.ofFn xs := by
  have hr : ∀ i : Nat, ∃ r : Nat → Nat, ∀ h : i < count, NF.sample (GNF.tbl lim ω) r sm.n length = .ok (xs ⟨i, h⟩) := by
    intro i
    by_cases h : i < count
    · obtain ⟨r, hr⟩ := (C17_sample hn hl length).2 (xs ⟨i, h⟩) (hx ⟨i, h⟩).1 (hx ⟨i, h⟩).2.1 (hx ⟨i, h⟩).2.2
      exact ⟨r, fun _ => hr⟩
    · exact ⟨fun _ => 0, fun h' => absurd h' h⟩
  choose rands hr using hr
  obtain ⟨out, h1, h2, -, -, -, h6⟩ := sampleBraidsImages_spec (lim := lim) (ω := ω) hn hl H hF hd hp rands length count hc
  refine ⟨rands, out, h1, List.ext_getElem (by simp [h2]) fun i a1 a2 => ?_⟩
  rw [List.getElem_ofFn, List.getElem_ofFn]
  have e1 := h6 ⟨i, by simpa using a1⟩
  have e2 := hr i (by simpa using a2)
  rw [NF.sampleBraidPerm, e2] at e1
  exact (Except.ok.inj e1).symm

/-- C98: asking for no braids raises IndexError. -/
theorem C98_sample_none (rep : Summand d) (rands : Nat → Nat → Nat) (length : Nat) :
    sampleBraidsImages (GNF.tbl lim ω) rands rep length 0 = .error .index := rfl

/-- C98: `sample_braids_images_upto_length(rep, a, b, count)` returns `count` braids of each of the lengths `a, a+1, ..., b` in this order, all with
Δ-power zero, and one tensor whose `i`-th matrix is the projectivised image of the `i`-th braid. -/
theorem C98_sample_upto (hn : 3 ≤ sm.n) (hl : sm.n < lim) (H : SummandRealises sm τ) (hF : FullTwistScalar τ) (hd : 0 < d) (hp : sm.p ≠ 1)
    (rands : Nat → Nat → Nat → Nat) (a b count : Nat) (hc : 1 ≤ count) (hab : a ≤ b) :
    ∃ out, sampleBraidsImagesUpto (GNF.tbl lim ω) rands sm a b count = .ok out ∧
      (∀ i, IsGNF lim ω sm.n (out.braids i) ∧ (out.braids i).power = 0) ∧
      (List.ofFn out.braids).map NF.garsideLength = (List.range' a (b + 1 - a)).flatMap (fun l => List.replicate count l) ∧
      IsProjImage sm.p out.images fun i => τ (gnfBraid sm.n (out.braids i)) := by
  obtain ⟨out, h1, h2, h3, h4, h5⟩ := sampleUpto_spec (lim := lim) (ω := ω) hn hl H hF hd hp rands a b count hc hab
  exact ⟨out, h1, fun i => ⟨h2.gnf i, h4 i⟩, h5, h3⟩

/-- C98: an empty range of lengths gives no braids and an empty tensor. -/
theorem C98_sample_upto_empty (rep : Summand d) (rands : Nat → Nat → Nat → Nat) (a b count : Nat) (hab : b < a) :
    ∃ out, sampleBraidsImagesUpto (GNF.tbl lim ω) rands rep a b count = .ok out ∧ out.len = 0 := by
  rw [sampleBraidsImagesUpto, show b + 1 - a = 0 by omega]
  exact ⟨_, rfl, rfl⟩

/-! ## C99 -/

/-- C99: `all_of_length_below_1(rep, length)` returns, each once and in the order of the enumeration, exactly the braids with Δ-power zero and Garside
length `length ≥ 1` the exponents of whose matrix fit into `2 · length` consecutive integers (`rhogap/length < 1`), with one tensor whose `i`-th matrix is
the projectivised image of the `i`-th braid. -/
theorem C99_below_1 (hn : 2 ≤ sm.n) (hl : sm.n < lim) (H : SummandRealises sm τ) (hF : FullTwistScalar τ) (hd : 0 < d) (hp : sm.p ≠ 1) (length : Nat) (h1 : 1 ≤ length) :
    ∃ all out, NF.allOfLength (GNF.tbl lim ω) sm.n length 0 = .ok all ∧ allOfLengthBelow1 (GNF.tbl lim ω) sm length = .ok out ∧
      (List.ofFn out.braids).Sublist all ∧ (List.ofFn out.braids).Nodup ∧
      (∀ x, (∃ i, out.braids i = x) ↔ IsGNF lim ω sm.n x ∧ x.power = 0 ∧ x.factors.length = length ∧ FitsIn (τ (gnfBraid sm.n x)) (2 * (length : ℤ))) ∧
      (0 < out.len → IsProjImage sm.p out.images fun i => τ (gnfBraid sm.n (out.braids i))) := by
  classical
  obtain ⟨all, out, a1, a2, a3, a4⟩ := allOfLengthBelow1_spec (lim := lim) (ω := ω) hn hl H hF hd hp length
  obtain ⟨t, R⟩ := exists_greal lim ω hn hl
  obtain ⟨all', x1, x2, x3, -⟩ := R.1.allOfLength_spec length 0
  rw [x1] at a1; cases a1
  refine ⟨all, out, x1, a2, ?_, ?_, fun x => ?_, fun h => (a4 h).2⟩
  · rw [a3]; exact List.filter_sublist
  · rw [a3]; exact x2.filter _
  · have : (∃ i, out.braids i = x) ↔ x ∈ List.ofFn out.braids := by rw [List.mem_ofFn]
    rw [this, a3, List.mem_filter, x3, ← R.isGNF_iff]
    simp only [decide_eq_true_eq]
    constructor
    · rintro ⟨⟨p1, p2, p3⟩, -, p4⟩; exact ⟨p1, p2, p3, p4⟩
    · rintro ⟨p1, p2, p3, p4⟩; exact ⟨⟨p1, p2, p3⟩, by omega, p4⟩

/-- C99: for length zero nothing is returned (the quotient is not a number). -/
theorem C99_zero (hn : 2 ≤ sm.n) (hl : sm.n < lim) (H : SummandRealises sm τ) (hF : FullTwistScalar τ) (hd : 0 < d) (hp : sm.p ≠ 1) :
    ∃ out, allOfLengthBelow1 (GNF.tbl lim ω) sm 0 = .ok out ∧ out.len = 0 := by
  classical
  obtain ⟨all, out, a1, a2, a3, a4⟩ := allOfLengthBelow1_spec (lim := lim) (ω := ω) hn hl H hF hd hp 0
  refine ⟨out, a2, ?_⟩
  have := congrArg List.length a3
  rw [List.length_ofFn] at this
  rw [this]; simp

/-- Non-vacuity of C98, C99, C102: the Burau representation of `B_3` over `F_2` satisfies the hypotheses. -/
example : ∃ (gs : List (Img (Jones.dimension 3 1))) (τ : Braid 3 →* LMat 2 (Jones.dimension 3 1)), Jones.summand 3 1 2 = .ok ⟨3, 2, gs⟩ ∧
    SummandRealises (⟨3, 2, gs⟩ : Summand (Jones.dimension 3 1)) τ ∧ FullTwistScalar τ ∧ 0 < Jones.dimension 3 1 := by
  obtain ⟨ρ, G, I, gs, -, -, g3, g4, hF, hd⟩ := C54_hypotheses 3 1 2 (by norm_num) (by norm_num)
  exact ⟨gs, ρ, g3, g4, hF, hd⟩

/-- C99: in particular every braid of the length with Δ-power zero whose matrix is a power of `v` times a constant matrix is returned. -/
theorem C99_near_kernel (hn : 2 ≤ sm.n) (hl : sm.n < lim) (H : SummandRealises sm τ) (hF : FullTwistScalar τ) (hd : 0 < d) (hp : sm.p ≠ 1) (length : Nat) (h1 : 1 ≤ length)
    (x : NF) (hx : IsGNF lim ω sm.n x) (h0 : x.power = 0) (hlen : x.factors.length = length) (hk : NearKernel τ (gnfBraid sm.n x)) :
    ∃ out, allOfLengthBelow1 (GNF.tbl lim ω) sm length = .ok out ∧ ∃ i, out.braids i = x := by
  obtain ⟨all, out, -, a2, -, -, a5, -⟩ := C99_below_1 (lim := lim) (ω := ω) hn hl H hF hd hp length h1
  refine ⟨out, a2, (a5 x).2 ⟨hx, h0, hlen, ?_⟩⟩
  obtain ⟨k, M, hM⟩ := hk
  refine ⟨k, fun i j m hm => ?_⟩
  rw [hM, _root_.Matrix.smul_apply, smul_eq_mul, LaurentPolynomial.T, AddMonoidAlgebra.coeff_single_mul_apply, one_mul, _root_.Matrix.map_apply,
    ← LaurentPolynomial.single_eq_C, AddMonoidAlgebra.coeff_single, Finsupp.single_apply] at hm
  split at hm
  · omega
  · exact absurd rfl hm

/-- Two lengths, two samples each. -/
example : ((burauGenerator 3 0).bind fun a => (burauGenerator 3 1).bind fun b =>
    (sampleBraidsImagesUpto (d := 2) (GNF.tbl 7 fun _ _ _ => 0) (fun l i k => l + i + k) ⟨3, 2, [a, b]⟩ 1 2 2).map fun out =>
    ((List.ofFn out.braids).map NF.factors, out.images.length)) = .ok ([[2], [3], [3, 4], [4, 2]], 5) := by decide +kernel

/-! ## C100 -/

/-- The state of Props/Descend.lean is one a tracker can be in. -/
theorem tracker315 : TrackerState 7 pop0 sm315 rho315 conf315 st315 := .step (.new ()) (.add batch315) batch315_true add315

/-- C100: `bucket_stats(t)` on a bucket of any state a tracker can be in has one row per stored braid, in order; every row has the length and the projlen
of the tag, `valmin` zero, `degmax` (twice the rhogap) one less than the projlen, and `nz_terms` is the number of monomials of the matrix of the braid, and `projrank`
is the rank of the lowest coefficient matrix of the projectivised matrix of the braid plus, if there is one, that of the next. -/
theorem C100_bucket_stats (hn : 2 ≤ sm.n) (hl : sm.n < lim) (H : SummandRealises sm τ) (hF : FullTwistScalar τ) (hd : 0 < d) (hp : sm.p ≠ 1)
    (hsz : 1 ≤ c.size) (hc : c.length = NF.canonicalLength) (st : State S NF d) (hst : TrackerState lim ω sm τ c st)
    (t : BraidSearch.Tag) (b : Bucket NF d) (hb : (t, b) ∈ st.buckets) :
    ∃ rows, bucketStats c st t = .ok rows ∧ ∃ hlen : rows.length = b.braids.length, ∀ i (hi : i < rows.length),
      (rows[i].length : ℤ) = t.1 ∧ rows[i].projlen = t.2 ∧ rows[i].valmin = 0 ∧ rows[i].degmax = t.2 - 1 ∧ rows[i].rhogap2 = t.2 - 1 ∧
      rows[i].nzTerms = termCount (τ (gnfBraid sm.n (b.braids[i]'(hlen ▸ hi)))) ∧
      ∃ im : Img d, IsProjImage sm.p im (fun _ => τ (gnfBraid sm.n (b.braids[i]'(hlen ▸ hi)))) ∧
        rows[i].rank2 = c.rank (slice im 0 ()) + if 2 ≤ t.2 then c.rank (slice im 1 ()) else 0 := by
  have hR := hst.reach hn hl H hF hd hp hsz hc
  obtain ⟨log, hi⟩ := hR.inv
  have hg := Dict.get?_of_mem hi.nodup hb
  obtain ⟨l, a1, a2, a3, a4⟩ := hR.contents hd hp hc hg
  have hW : ((l.map Offer.image).map List.length).foldl max 0 = t.2.toNat := by
    rw [List.map_map]
    exact foldl_max_const _ _ l (fun o ho => by have := (a4 o ho).2.2.1; simp only [Function.comp]; omega) a3 0 (by omega)
  have hL : 0 < (l.map Offer.image).length := by rw [List.length_map]; exact List.length_pos_iff.2 a3
  have himg : IsProjImage sm.p (stackImgs (((l.map Offer.image).map List.length).foldl max 0) (l.map Offer.image))
      fun i => τ (gnfBraid sm.n (l[i.1]'(by simpa using i.2)).braid) := by
    rw [hW, stackImgs]
    refine Bucketing.stack_image hL (fun i => (l.map Offer.image)[i]) _ (fun i => ?_) fun i => ?_
    · have hi : i.1 < l.length := by simpa using i.2
      have := (a4 l[i.1] (List.getElem_mem hi)).2.2.1
      simp only [Fin.getElem_fin, List.getElem_map]; omega
    · have hi : i.1 < l.length := by simpa using i.2
      have := (a4 l[i.1] (List.getElem_mem hi)).1.2
      simpa using this
  haveI : Nonempty (Fin (l.map Offer.image).length) := ⟨⟨0, hL⟩⟩
  obtain ⟨v, dm, pl, rg, s1, s2, s3, s4, s5⟩ := stats_first himg.first
  have hhas : Dict.has st.buckets t = true := by
    rw [Dict.has, List.any_eq_true]; exact ⟨_, hb, by simp⟩
  have hn0 : stackImgs (((l.map Offer.image).map List.length).foldl max 0) (l.map Offer.image) ≠ [] := by
    intro e
    have := himg.first ⟨0, hL⟩
    rw [e] at this
    exact this (by rw [slice_ge _ (by simp)]; rfl)
  have hrk : ∃ rk, projrank2 c.rank (stackImgs (((l.map Offer.image).map List.length).foldl max 0) (l.map Offer.image)) = .ok rk ∧
      ∀ i, rk i = c.rank (slice (stackImgs (((l.map Offer.image).map List.length).foldl max 0) (l.map Offer.image)) 0 i) +
        if 2 ≤ t.2 then c.rank (slice (stackImgs (((l.map Offer.image).map List.length).foldl max 0) (l.map Offer.image)) 1 i) else 0 := by
    rw [projrank2, pyAssert, if_pos (decide_eq_true (Nat.one_le_iff_ne_zero.2 (List.length_pos_iff.2 hn0).ne')), bind_ok, s1, bind_ok, pyAssert, if_pos (by simpa using fun i => (s5 i).1), bind_ok]
    refine ⟨_, rfl, fun i => ?_⟩
    have hLW : (stackImgs (((l.map Offer.image).map List.length).foldl max 0) (l.map Offer.image)).length = t.2.toNat := by
      rw [hW, stackImgs]; simp
    have h0 : 0 < (stackImgs (((l.map Offer.image).map List.length).foldl max 0) (l.map Offer.image)).length := List.length_pos_iff.2 hn0
    have hr2 : List.range 2 = [0, 1] := rfl
    rw [hr2, List.filter_cons, if_pos (by simpa using h0), List.filter_cons]
    by_cases h2 : 2 ≤ t.2
    · rw [if_pos (by rw [decide_eq_true_iff, hLW]; omega), if_pos h2]; simp
    · rw [if_neg (by rw [decide_eq_true_iff, hLW]; omega), if_neg h2]; simp
  obtain ⟨rk, hrk, hrk2⟩ := hrk
  have hlen2 : (l.map Offer.braid).length = (l.map Offer.image).length := by simp
  let row : Fin (l.map Offer.image).length → StatRow := fun i =>
    ⟨c.length ((l.map Offer.braid)[i.1]'(by have := i.2; omega)), nzTerms (stackImgs (((l.map Offer.image).map List.length).foldl max 0) (l.map Offer.image)) i,
      dm i, v i, rg i, pl i, rk i⟩
  refine ⟨List.ofFn row, ?_, by rw [List.length_ofFn, a2]; simp, fun i hi => ?_⟩
  · rw [bucketStats, if_pos hhas, a1, bind_ok]
    dsimp only
    rw [dif_pos hlen2, braidImageStats, s2, bind_ok, s1, bind_ok, s4, bind_ok, s3, bind_ok, hrk, bind_ok, bind_ok]
  · have hil : i < l.length := by simpa using hi
    have hil' : i < (l.map Offer.image).length := by simpa using hil
    obtain ⟨b1, b2, b3, b4⟩ := a4 l[i] (List.getElem_mem hil)
    obtain ⟨q1, q2, q3, n, q4, q5, q6⟩ := s5 ⟨i, hil'⟩
    have hsl : ∀ e, slice (stackImgs (((l.map Offer.image).map List.length).foldl max 0) (l.map Offer.image)) e ⟨i, hil'⟩ = slice l[i].image e () := by
      intro e
      rw [hW, stackImgs, slice_map_range]
      split
      · simp
      · rw [slice_ge _ (by omega)]; rfl
    have hnW : (n : ℤ) = t.2 - 1 := by
      obtain ⟨u, hu⟩ := b1.2.last
      rw [hsl] at q5
      have w1 := lt_of_nz q5
      have w2 := q6 (l[i].image.length - 1) (by rw [hsl]; exact hu)
      omega
    simp only [List.getElem_ofFn, row, List.getElem_map]
    refine ⟨by simp only [hc]; exact b2, by omega, q1, by omega, by omega, ?_, l[i].image, ?_, ?_⟩
    · obtain ⟨k, hk⟩ := himg.shift ⟨i, hil'⟩
      rw [nzTerms_eq himg.reduced hk]
      simp [a2]
    · have := b1.2
      simpa [a2] using this
    · rw [hrk2, hsl, hsl]

example := C100_bucket_stats (c := conf315) (by decide) (by decide) sreal315 twist315 (by decide) (by decide) (by decide) rfl _ tracker315 _ _ mem315

/-- C100: for a bucket that does not exist `bucket_stats` raises ValueError. -/
theorem C100_bucket_stats_missing (st : State S NF d) (t : BraidSearch.Tag) (h : ∀ b, (t, b) ∉ st.buckets) : bucketStats c st t = .error .value := by
  have : Dict.has st.buckets t ≠ true := by
    rw [Dict.has, Ne, List.any_eq_true]
    rintro ⟨⟨t', b⟩, hb, e⟩
    have e : t' = t := by simpa using e
    exact h b (e ▸ hb)
  rw [bucketStats, if_neg this]

/-- C100: `stats()` after any history lists every bucket exactly once with the number of braids it holds (at least one, at most `bucket_size`), and for a
tracker with a random generator the number of braids offered to it. -/
theorem C100_stats {β : Type} [DecidableEq β] (c : Config S β d) (s : S) (ops : List (Op β d)) (st : State S β d)
    (h : run c (State.init s) ops = .ok st) (ord : List StatsRow → List StatsRow) (ho : ∀ l, (ord l).Perm l) :
    ((statsRows ord c st).map StatsRow.bucket).Nodup ∧
    ∀ r, r ∈ statsRows ord c st ↔ ∃ b, (r.bucket, b) ∈ st.buckets ∧ r.count = b.braids.length ∧ 1 ≤ r.count ∧ r.count ≤ c.size ∧
      r.reservoirCount = if c.rand.isSome then some (some (offered c ops r.bucket).length) else none := by
  have hi := run_inv c ops (inv_init c s) h
  constructor
  · refine (((ho _).map StatsRow.bucket).nodup_iff).2 ?_
    rw [List.map_map]
    exact hi.nodup
  · intro r
    rw [statsRows, (ho _).mem_iff, List.mem_map]
    constructor
    · rintro ⟨⟨t, b⟩, hb, rfl⟩
      have h1 := C63_search_capacity c s ops st h t b hb
      have h2 := C65_search_counters c s ops st h t b hb
      obtain ⟨k, l, -, hl⟩ := hi.some t b (Dict.get?_of_mem hi.nodup hb)
      refine ⟨b, hb, rfl, ?_, h1.1, by simp only [h2]⟩
      have : b.braids.length = l.length := by rw [hl.hb, List.length_map]
      have := List.length_pos_iff.2 hl.ne
      show 1 ≤ b.braids.length
      omega
    · rintro ⟨b, hb, e1, -, -, e2⟩
      refine ⟨(r.bucket, b), hb, ?_⟩
      have h2 := C65_search_counters c s ops st h r.bucket b hb
      cases r with
      | mk t n k =>
        simp only at e1 e2 h2 ⊢
        rw [e1, e2, h2]

example := C100_stats conf315 () _ _ run315 id (fun _ => .refl _)

/-- C100: `stats_reservoir()` contains every bucket with the number of braids offered to it. -/
theorem C100_stats_reservoir {β : Type} [DecidableEq β] (c : Config S β d) (s : S) (ops : List (Op β d)) (st : State S β d)
    (h : run c (State.init s) ops = .ok st) (t : BraidSearch.Tag) (b : Bucket β d) (hb : (t, b) ∈ st.buckets) :
    (t, (offered c ops t).length) ∈ statsReservoir st := Dict.mem_of_get? (C65_search_counters c s ops st h t b hb)

example := C100_stats_reservoir conf315 () _ _ run315 _ _ mem315

/-! ## C101 -/

/-- C101 (partial: the claim "checks every stored pair" is false of the code, see `C101_refuted`): on an empty tracker `valiate_buckets` says that all entries
are sound. -/
theorem C101_empty_partial (ord : List BraidSearch.Tag → List BraidSearch.Tag) (ho : ∀ l, (ord l).Perm l) (s : S) :
    valiateBuckets ord (State.init s : State S NF d) = .ok none := by
  have : ord (((State.init s : State S NF d).buckets).map Prod.fst) = [] := (ho _).eq_nil
  rw [valiateBuckets, this]

/-- C101, refuted: on every tracker with a bucket `valiate_buckets` raises AttributeError, although all stored pairs are right. -/
theorem C101_refuted (hn : 2 ≤ sm.n) (hl : sm.n < lim) (H : SummandRealises sm τ) (hF : FullTwistScalar τ) (hd : 0 < d) (hp : sm.p ≠ 1)
    (hsz : 1 ≤ c.size) (hc : c.length = NF.canonicalLength) (st : State S NF d) (hst : TrackerState lim ω sm τ c st) (hne : st.buckets ≠ [])
    (ord : List BraidSearch.Tag → List BraidSearch.Tag) (ho : ∀ l, (ord l).Perm l) : valiateBuckets ord st = .error .attribute := by
  have hR := hst.reach hn hl H hF hd hp hsz hc
  obtain ⟨log, hi⟩ := hR.inv
  rw [valiateBuckets]
  cases e : ord (st.buckets.map Prod.fst) with
  | nil =>
    have := (ho (st.buckets.map Prod.fst)).length_eq
    rw [e] at this
    simp at this
    exact absurd (this.symm) (by simpa using hne)
  | cons t ts =>
    have hm : t ∈ st.buckets.map Prod.fst := (ho _).mem_iff.1 (by rw [e]; simp)
    obtain ⟨⟨t', b⟩, hb, rfl⟩ := List.mem_map.1 hm
    obtain ⟨l, a1, a2, a3, -⟩ := hR.contents hd hp hc (Dict.get?_of_mem hi.nodup hb)
    dsimp only
    rw [a1, bind_ok, lookup_lt (by simpa using List.length_pos_iff.2 a3), bind_ok]

example := C101_refuted (c := conf315) (by decide) (by decide) sreal315 twist315 (by decide) (by decide) (by decide) rfl _ tracker315 (List.ne_nil_of_mem mem315) id (fun _ => .refl _)

/-! ## C102 -/

theorem frameRow_spec {p : Nat} (x : NF) {A : Img d} {M : LMat p d} (h0 : slice A 0 () ≠ 0) (hr : ReducedMod p A) (hs : UpToShift p A fun _ => M) :
    ∃ r, frameRow x A = .ok r ∧ r.Describes x A M := by
  obtain ⟨v, dm, pl, rg, s1, s2, s3, s4, s5⟩ := stats_first (A := A) fun _ => h0
  obtain ⟨q1, q2, q3, n, q4, q5, q6⟩ := s5 ()
  obtain ⟨k, hk⟩ := hs ()
  refine ⟨⟨x, A, NF.garsideLength x, nzTerms A (), dm (), v (), rg ()⟩, by rw [frameRow, s2, bind_ok, s1, bind_ok, s4, bind_ok], rfl, rfl, rfl, nzTerms_eq hr hk, q1, q2, fun m => ?_⟩
  rw [show ({ braid := x, image := A, length := NF.garsideLength x, nzTerms := nzTerms A (), degmax := dm (), valmin := v (), rhogap2 := rg () } : FrameRow d).degmax = dm () from rfl, q4]
  exact fitsIn_iff hr hk h0 q5 q6 m

theorem rows_spec {p : Nat} (xs : List NF) (images : List (Img d)) (M : NF → LMat p d) (hl : images.length = xs.length)
    (h : ∀ i (hi : i < xs.length), slice (images[i]'(hl ▸ hi)) 0 () ≠ 0 ∧ ReducedMod p (images[i]'(hl ▸ hi)) ∧ UpToShift p (images[i]'(hl ▸ hi)) fun _ => M xs[i]) :
    ∃ rows, ((xs.zip images).mapM fun xA => frameRow xA.1 xA.2) = .ok rows ∧ ∃ hlen : rows.length = xs.length, ∀ i (hi : i < xs.length),
      (rows[i]'(hlen ▸ hi)).Describes xs[i] (images[i]'(hl ▸ hi)) (M xs[i]) := by
  obtain ⟨rows, r1, r2, r3⟩ := mapM_spec (fun xA : NF × Img d => frameRow xA.1 xA.2) (fun xA r => r.Describes xA.1 xA.2 (M xA.1)) (xs.zip images) (by
    intro xA hm
    obtain ⟨i, hi, rfl⟩ := List.getElem_of_mem hm
    have hi' : i < xs.length := by simp at hi; omega
    rw [List.getElem_zip]
    exact frameRow_spec _ (h i hi').1 (h i hi').2.1 (h i hi').2.2)
  have hlen : rows.length = xs.length := by rw [r2]; simp [hl]
  refine ⟨rows, r1, hlen, fun i hi => ?_⟩
  have := r3 i (by simp [hl]; exact hi)
  rw [List.getElem_zip] at this
  exact this

/-- C102: `braids_images_to_dataframe` of a list of braids with the list of their images (as `evaluate_braids` returns it) has one row per braid, in the
same order; the columns are the braid, its image, its Garside length, the number of monomials of its matrix, `valmin` zero, and `degmax` (twice the rhogap)
is the largest difference of exponents of its matrix. -/
theorem C102_list (xs : List NF) (images : List (Img d)) (hl : images.length = xs.length)
    (h : ∀ i (hi : i < xs.length), IsProjImage sm.p (images[i]'(hl ▸ hi)) fun _ => τ (gnfBraid sm.n xs[i])) :
    ∃ rows, listToDataframe xs images = .ok rows ∧ ∃ hlen : rows.length = xs.length, ∀ i (hi : i < xs.length),
      (rows[i]'(hlen ▸ hi)).Describes xs[i] (images[i]'(hl ▸ hi)) (τ (gnfBraid sm.n xs[i])) := by
  rw [listToDataframe, if_neg (by simpa using hl)]
  exact rows_spec xs images (fun x => τ (gnfBraid sm.n x)) hl fun i hi => ⟨(h i hi).first (), (h i hi).reduced, (h i hi).shift⟩

/-- C102: the same for a tensor of images (as `evaluate_braids_of_same_length` and the samplers return it): row `i` describes braid `i` and matrix `i` of
the tensor. -/
theorem C102_tensor (xs : List NF) (images : PArr (Fin xs.length) d d) (h : IsProjImage sm.p images fun i => τ (gnfBraid sm.n xs[i])) :
    ∃ rows, tensorToDataframe xs images = .ok rows ∧ ∃ hlen : rows.length = xs.length, ∀ i (hi : i < xs.length),
      (rows[i]'(hlen ▸ hi)).Describes xs[i] (imgAt images ⟨i, hi⟩) (τ (gnfBraid sm.n xs[i])) := by
  rw [tensorToDataframe, pyAssert, if_pos (by simp), bind_ok]
  have hsl : ∀ e i, slice (imgAt images i) e () = slice images e i := by
    intro e i
    by_cases he : e < images.length
    · rw [slice_lt _ (by simpa [imgAt] using he), slice_lt _ he]; unfold imgAt; rw [List.getElem_map]
    · rw [slice_ge _ (by simpa [imgAt] using he), slice_ge _ (by omega)]; rfl
  obtain ⟨rows, r1, r2, r3⟩ := rows_spec xs ((List.finRange xs.length).map (imgAt images)) (fun x => τ (gnfBraid sm.n x)) (by simp) (by
    intro i hi
    simp only [List.getElem_map, List.getElem_finRange, Fin.cast_mk]
    refine ⟨by rw [hsl]; exact h.first _, fun hp0 T hT u r s => ?_, fun u => ?_⟩
    · obtain ⟨T', hT', rfl⟩ := List.mem_map.1 hT
      exact h.reduced hp0 T' hT' _ r s
    · obtain ⟨k, hk⟩ := h.shift ⟨i, hi⟩
      exact ⟨k, (denMod_of_den (den_eq_iff.2 fun e => hsl e _)).trans hk⟩)
  refine ⟨rows, r1, r2, fun i hi => ?_⟩
  have := r3 i hi
  simpa only [List.getElem_map, List.getElem_finRange, Fin.cast_mk] using this

example := C102_tensor (sm := sm315) _ imgs315 batch315_image

/-- C102: with a tensor of another number of images the call raises AssertionError, with a list of another length ValueError. -/
theorem C102_mismatch (xs : List NF) :
    (∀ {L : Nat} (images : PArr (Fin L) d d), L ≠ xs.length → tensorToDataframe xs images = .error .assertion) ∧
    ∀ images : List (Img d), images.length ≠ xs.length → listToDataframe xs images = .error .value := by
  refine ⟨fun {L} images h => ?_, fun images h => ?_⟩
  · rw [tensorToDataframe, pyAssert, if_neg (by simpa using h)]; rfl
  · rw [listToDataframe, if_pos h]

end Peyl
