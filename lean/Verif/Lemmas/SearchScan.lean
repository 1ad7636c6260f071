import Verif.Lemmas.SearchMisc
import Verif.Props.Braid
/-!
# Sampling with images, scanning all braids of a length
-/
namespace Peyl
open LaurentPolynomial Polymat
namespace BraidSearch
variable {d : Nat} {rep : Summand d} {ρ : Braid rep.n →* LMat rep.p d} {lim : Nat} {ω : List Nat → List Nat → Nat → Nat}

theorem sampleBraidsImages_spec (hn : 3 ≤ rep.n) (hl : rep.n < lim) (H : SummandRealises rep ρ) (hF : FullTwistScalar ρ) (hd : 0 < d) (hp : rep.p ≠ 1)
    (rands : Nat → Nat → Nat) (length count : Nat) (hc : 1 ≤ count) :
    ∃ out, sampleBraidsImages (GNF.tbl lim ω) rands rep length count = .ok out ∧ out.len = count ∧ TrueBatch lim ω rep ρ out ∧
      (IsProjImage rep.p out.images fun i => ρ (gnfBraid rep.n (out.braids i))) ∧
      (∀ i, (out.braids i).power = 0 ∧ NF.canonicalLength (out.braids i) = length) ∧
      ∀ i : Fin out.len, NF.sampleBraidPerm (GNF.tbl lim ω) (rands i) rep.n length = .ok (out.braids i) := by
  obtain ⟨xs, x1, x2, x3⟩ := mapM_spec (fun i => NF.sampleBraidPerm (GNF.tbl lim ω) (rands i) rep.n length)
    (fun i x => NF.sampleBraidPerm (GNF.tbl lim ω) (rands i) rep.n length = .ok x ∧ IsGNF lim ω rep.n x ∧ x.power = 0 ∧ x.factors.length = length)
    (List.range count) (by
      intro i _
      obtain ⟨x, h1, h2⟩ := (C17_sample hn hl length).1 (rands i)
      exact ⟨x, h1, h1, h2⟩)
  have hlen : xs.length = count := by simpa using x2
  have hx : ∀ i (h : i < xs.length), NF.sampleBraidPerm (GNF.tbl lim ω) (rands i) rep.n length = .ok xs[i] ∧ IsGNF lim ω rep.n xs[i] ∧ xs[i].power = 0 ∧
      xs[i].factors.length = length := by
    intro i h
    have := x3 i (by simpa [hlen] using h)
    simpa using this
  have hne : xs ≠ [] := by rintro rfl; simp at hlen; omega
  obtain ⟨A, a1, a2⟩ := evalSame_spec (by omega : 2 ≤ rep.n) hl H hd hp hF xs hne length (fun x hm => by
    obtain ⟨i, h, rfl⟩ := List.getElem_of_mem hm
    exact ⟨(hx i h).2.1, (hx i h).2.2.2⟩)
  refine ⟨_, by rw [sampleBraidsImages, x1, bind_ok, a1, bind_ok], hlen, ⟨?_, fun i => (hx i i.2).2.1, a2.first, a2.reduced, a2.shift⟩, a2,
    fun i => (hx i i.2).2.2, fun i => (hx i i.2).1⟩
  show 0 < xs.length
  omega

theorem sampleUpto_spec (hn : 3 ≤ rep.n) (hl : rep.n < lim) (H : SummandRealises rep ρ) (hF : FullTwistScalar ρ) (hd : 0 < d) (hp : rep.p ≠ 1)
    (rands : Nat → Nat → Nat → Nat) (a b count : Nat) (hc : 1 ≤ count) (hab : a ≤ b) :
    ∃ out, sampleBraidsImagesUpto (GNF.tbl lim ω) rands rep a b count = .ok out ∧ TrueBatch lim ω rep ρ out ∧
      (IsProjImage rep.p out.images fun i => ρ (gnfBraid rep.n (out.braids i))) ∧
      (∀ i, (out.braids i).power = 0) ∧
      (List.ofFn out.braids).map NF.canonicalLength = (List.range' a (b + 1 - a)).flatMap (fun l => List.replicate count l) := by
  obtain ⟨ps, p1, p2, p3⟩ := mapM_spec (fun l => sampleBraidsImages (GNF.tbl lim ω) (rands l) rep l count)
    (fun l out => out.len = count ∧ TrueBatch lim ω rep ρ out ∧ ∀ i, (out.braids i).power = 0 ∧ NF.canonicalLength (out.braids i) = l)
    (List.range' a (b + 1 - a)) (by
      intro l _
      obtain ⟨out, h1, h2, h3, -, h4, -⟩ := sampleBraidsImages_spec (lim := lim) (ω := ω) hn hl H hF hd hp (rands l) l count hc
      exact ⟨out, h1, h2, h3, h4⟩)
  have hq : ∀ i (h : i < ps.length), ps[i].len = count ∧ TrueBatch lim ω rep ρ ps[i] ∧
      ∀ j : Fin ps[i].len, (ps[i].braids j).power = 0 ∧ NF.canonicalLength (ps[i].braids j) = a + i := by
    intro i h
    have := p3 i (by rw [p2] at h; exact h)
    simpa using this
  have hmem : ∀ q ∈ ps, TrueBatch lim ω rep ρ q ∧ ∀ j, (q.braids j).power = 0 := by
    intro q hm
    obtain ⟨i, h, rfl⟩ := List.getElem_of_mem hm
    exact ⟨(hq i h).2.1, fun j => ((hq i h).2.2 j).1⟩
  obtain ⟨out, o1, o2, o3⟩ := joinBatches_spec ps fun q hm => (hmem q hm).1
  have hne : ps ≠ [] := by
    rintro rfl
    simp at p2; omega
  refine ⟨out, by rw [sampleBraidsImagesUpto, p1, bind_ok, o1], (o3 hne).1, (o3 hne).2, fun i => ?_, ?_⟩
  · have : out.braids i ∈ List.ofFn out.braids := by simp
    rw [o2] at this
    obtain ⟨q, hm, hx⟩ := List.mem_flatMap.1 this
    obtain ⟨j, hj⟩ := List.mem_ofFn.1 hx
    rw [← hj]; exact (hmem q hm).2 j
  · rw [o2, List.map_flatMap, List.flatMap_def, List.flatMap_def]
    congr 1
    refine List.ext_getElem (by simp [p2]) fun i h1 h2 => ?_
    have h := hq i (by simpa using h1)
    simp only [List.getElem_map, List.getElem_range', one_mul]
    refine List.eq_replicate_iff.2 ⟨by simp [h.1], fun x hx => ?_⟩
    obtain ⟨y, hy, rfl⟩ := List.mem_map.1 hx
    obtain ⟨j, hj⟩ := List.mem_ofFn.1 hy
    rw [← hj]; exact (h.2.2 j).2

open Classical in
theorem belowChunk_spec (hn : 2 ≤ rep.n) (hl : rep.n < lim) (H : SummandRealises rep ρ) (hF : FullTwistScalar ρ) (hd : 0 < d) (hp : rep.p ≠ 1)
    (xs : List NF) (hne : xs ≠ []) (len : Nat) (hx : ∀ x ∈ xs, IsGNF lim ω rep.n x ∧ x.factors.length = len) :
    ∃ out, belowChunk (GNF.tbl lim ω) rep len xs = .ok out ∧
      List.ofFn out.braids = xs.filter (fun x => decide (0 < len ∧ FitsIn (ρ (gnfBraid rep.n x)) (2 * (len : ℤ)))) ∧
      (0 < out.len → TrueBatch lim ω rep ρ out) := by
  obtain ⟨A, a1, a2⟩ := evalSame_spec hn hl H hd hp hF xs hne len hx
  haveI : Nonempty (Fin xs.length) := ⟨⟨0, List.length_pos_iff.2 hne⟩⟩
  obtain ⟨v, dm, pl, rg, s1, s2, s3, s4, s5⟩ := stats_first a2.first
  have hfit : ∀ i, FitsIn (ρ (gnfBraid rep.n xs[i])) (2 * (len : ℤ)) ↔ rg i < 2 * (len : ℤ) := by
    intro i
    obtain ⟨-, q2, -, n, q4, q5, q6⟩ := s5 i
    obtain ⟨k, hk⟩ := a2.shift i
    rw [q2, q4]
    exact fitsIn_iff a2.reduced hk (a2.first i) q5 q6 _
  refine ⟨_, by rw [belowChunk, a1, bind_ok, s4, bind_ok], ?_, fun h0 => ?_⟩
  · have e1 : ∀ I : List (Fin xs.length), List.ofFn (fun j : Fin I.length => xs[I[j]]) = I.map fun i => xs[i] := by
      intro I
      refine List.ext_getElem (by simp) fun j h1 h2 => ?_
      simp
    refine (e1 _).trans ?_
    conv_rhs => rw [show xs = (List.finRange xs.length).map (fun i => xs[i]) from by simp]
    rw [List.filter_map]
    congr 1
    refine List.filter_congr fun i _ => ?_
    simp only [Function.comp]
    rw [decide_eq_decide, hfit i]
  · have hsl : ∀ (I : List (Fin xs.length)) e (j : Fin I.length), slice (A.map fun S (j : Fin I.length) => S I[j]) e j = slice A e I[j] := by
      intro I e j
      by_cases he : e < A.length
      · rw [slice_lt _ (by simpa using he), slice_lt _ he]; simp
      · rw [slice_ge _ (by simpa using he), slice_ge _ (by omega)]; rfl
    refine ⟨h0, fun j => (hx _ (List.getElem_mem _)).1, fun j => ?_, ?_, fun j => ?_⟩
    · exact (hsl _ 0 j).trans_ne (a2.first _)
    · intro hp0 S hS j r s
      obtain ⟨S', hS', rfl⟩ := List.mem_map.1 hS
      exact a2.reduced hp0 S' hS' _ r s
    · obtain ⟨k, hk⟩ := a2.shift ((List.filter (fun i => decide (0 < len ∧ rg i < 2 * (len : ℤ))) (List.finRange xs.length))[j])
      refine ⟨k, Eq.trans ?_ hk⟩
      exact denMod_of_den (den_eq_iff.2 fun e => hsl _ e j)

open Classical in
theorem allOfLengthBelow1_spec (hn : 2 ≤ rep.n) (hl : rep.n < lim) (H : SummandRealises rep ρ) (hF : FullTwistScalar ρ) (hd : 0 < d) (hp : rep.p ≠ 1) (len : Nat) :
    ∃ all out, NF.allOfLength (GNF.tbl lim ω) rep.n len 0 = .ok all ∧ allOfLengthBelow1 (GNF.tbl lim ω) rep len = .ok out ∧
      List.ofFn out.braids = all.filter (fun x => decide (0 < len ∧ FitsIn (ρ (gnfBraid rep.n x)) (2 * (len : ℤ)))) ∧
      (0 < out.len → TrueBatch lim ω rep ρ out ∧ IsProjImage rep.p out.images fun i => ρ (gnfBraid rep.n (out.braids i))) := by
  obtain ⟨t, R⟩ := exists_greal lim ω hn hl
  obtain ⟨all, x1, x2, x3, -⟩ := R.1.allOfLength_spec len 0
  obtain ⟨h1, h2, -⟩ := batchedLoop_spec (k := 1000) (by norm_num) all [] (by simp)
  have hbat : batched all 1000 = .ok (batchedLoop 1000 [] all) := by rw [batched, if_pos (by norm_num)]; rfl
  obtain ⟨gs, g1, g2, g3⟩ := mapM_spec (belowChunk (GNF.tbl lim ω) rep len)
    (fun xs out => List.ofFn out.braids = xs.filter (fun x => decide (0 < len ∧ FitsIn (ρ (gnfBraid rep.n x)) (2 * (len : ℤ)))) ∧
      (0 < out.len → TrueBatch lim ω rep ρ out)) (batchedLoop 1000 [] all) (by
    intro xs hxs
    refine belowChunk_spec hn hl H hF hd hp xs (fun e => ?_) len fun x hx => ?_
    · have := (h2 xs hxs).1; rw [e] at this; simp at this
    · have : x ∈ (batchedLoop 1000 [] all).flatten := List.mem_flatten.2 ⟨xs, hxs, hx⟩
      rw [h1, List.nil_append, x3, ← R.isGNF_iff] at this
      exact ⟨this.1, this.2.2⟩)
  obtain ⟨out, o1, o2, o3⟩ := joinBatches_spec (lim := lim) (ω := ω) (rep := rep) (ρ := ρ) (gs.filter fun b => decide (0 < b.len)) (by
    intro b hb
    obtain ⟨hb, hpos⟩ := List.mem_filter.1 hb
    obtain ⟨i, hi, rfl⟩ := List.getElem_of_mem hb
    exact (g3 i (g2 ▸ hi)).2 (by simpa using hpos))
  have hfl : gs.flatMap (fun b => List.ofFn b.braids) = all.filter (fun x => decide (0 < len ∧ FitsIn (ρ (gnfBraid rep.n x)) (2 * (len : ℤ)))) := by
    rw [← List.nil_append all, ← h1, List.filter_flatten, List.flatMap_def]
    congr 1
    refine List.ext_getElem (by simp [g2]) fun i k1 k2 => ?_
    rw [List.getElem_map, List.getElem_map]
    exact (g3 i (by simpa using k2)).1
  have hdrop : ∀ l : List (Bucketing.Batch NF d), (l.filter fun b => decide (0 < b.len)).flatMap (fun b => List.ofFn b.braids) = l.flatMap fun b => List.ofFn b.braids := by
    intro l
    induction l with
    | nil => rfl
    | cons b l ih =>
      rw [List.filter_cons]
      split
      · rw [List.flatMap_cons, List.flatMap_cons, ih]
      · next h =>
        have : b.len = 0 := by simpa using h
        have e : List.ofFn b.braids = [] := List.length_eq_zero_iff.1 (by rw [List.length_ofFn, this])
        rw [List.flatMap_cons, e, List.nil_append, ih]
  refine ⟨all, out, x1, by rw [allOfLengthBelow1, NF.allOfGarsideLength, x1, bind_ok, hbat, bind_ok, g1, bind_ok, o1], by rw [o2, hdrop, hfl], fun h0 => ?_⟩
  refine o3 fun e => ?_
  rw [e] at o2
  have : (List.ofFn out.braids).length = 0 := by rw [o2]; rfl
  rw [List.length_ofFn] at this
  omega

end BraidSearch
end Peyl
