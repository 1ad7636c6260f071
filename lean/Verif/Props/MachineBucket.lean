import Verif.Lemmas.MachineBucket
import Verif.Props.BucketSearch
/-!
# `bucketing.Tracker` with 64-bit integers (C137)

`peyl/bucketing.py` keeps the images it gets from `polymat_evaluate_braids_of_same_length` as 64-bit integers and multiplies them without
checking for overflow.  Here: when a whole history of a tracker for `JonesCellRep(n, r, p)` is guaranteed to be what exact integers would
give.  Over the integers (`p = 0`) the bound is on the length of the braids, modulo `p` on the number of factors added at once.
-/
namespace Peyl
open Polymat LaurentPolynomial Jones Bucketing
variable {lim : Nat} {ω : List Nat → List Nat → Nat → Nat} {S : Type} {n r p : Nat} {G I : List Matrix}
variable {argsort : List Nat → List Nat}

theorem sum_inv_le (fs : List Nat) : (fs.map fun f => inv (permAt n f)).sum ≤ fs.length * (n * (n - 1) / 2) := by
  refine (List.sum_le_card_nsmul _ (n * (n - 1) / 2) ?_).trans ?_
  · intro y hy
    obtain ⟨f, -, rfl⟩ := List.mem_map.1 hy
    obtain ⟨u, -, u2, -, u4⟩ := lift_word (permAt n f)
    omega
  · simp

/-- A braid of power zero with `k` factors is a word in at most `k n (n - 1) / 2` positive generators. -/
theorem gnf_word {x : NF} (h0 : x.power = 0) : ∃ u : List Nat, (∀ s ∈ u, s + 1 < n) ∧ u.length ≤ x.factors.length * (n * (n - 1) / 2) ∧ gnfBraid n x = posWord n u := by
  obtain ⟨v, v1, v2, v3⟩ := prod_word (n := n) [] (by simp) (x.factors.map fun f => permAt n f)
  refine ⟨v, v1, ?_, ?_⟩
  · rw [v2, List.length_nil, zero_add, List.map_map]
    refine (List.sum_le_card_nsmul _ (n * (n - 1) / 2) ?_).trans ?_
    · intro y hy
      obtain ⟨f, -, rfl⟩ := List.mem_map.1 hy
      obtain ⟨u, -, u2, -, u4⟩ := lift_word (permAt n f)
      simp only [Function.comp]
      omega
    · simp
  · rw [gnfBraid, h0, zpow_zero, one_mul, ← v3, List.map_map]
    simp [posWord, Function.comp_def]

/-- The longest intermediate result of an operation is a product of `longest op` generators times `n (n - 1) / 2`. -/
def longest {d : Nat} : TrackerOp d → Nat
  | .bootstrap upto => upto
  | .descend tag k => tag.1.toNat + k
  | _ => 0

/-- The number of factors an operation multiplies the stored images by at once. -/
def factorsAtOnce {d : Nat} : TrackerOp d → Nat
  | .descend _ k => k
  | _ => 1

variable {ρ : Braid n →* LMat p (dimension n r)} {c : Config NF (dimension n r)} {rng : Rng S}

/-- C137, modulo `p`: if `dim * (k n (n - 1) + 1) * (p - 1)^2 < 2^63` for the number `k` of factors every `nf_descendants` of the history adds,
and for `k = 1`, the history with 64-bit integers gives the same tracker, or fails with the same exception, as with exact integers, however
long the history and however long the braids. -/
theorem C137_mod_p (hn : 2 ≤ n) (hl : n < lim) (h : 2 * r ≤ n) (hp : 2 ≤ p) (hrep : cellRep n r p = .ok ⟨n, p, G, I⟩)
    (U : SetUp (⟨n, p, G, I⟩ : RepBase (dimension n r)) ρ c) (hsort : ∀ l, (argsort l).Perm (List.range l.length)) (s : S)
    (ops : List (TrackerOp (dimension n r))) (hops : ∀ b, TrackerOp.add b ∈ ops → TrueBatch p (GLegal lim ω n) (GMat ρ) b)
    (h1 : dimension n r * (n * (n - 1) + 1) * (p - 1) ^ 2 < 2 ^ 63)
    (hb : ∀ op ∈ ops, dimension n r * (factorsAtOnce op * (n * (n - 1)) + 1) * (p - 1) ^ 2 < 2 ^ 63) :
    historyW 64 (GNF.tbl lim ω) ⟨n, p, G, I⟩ rng c argsort s ops =
      history (GNF.tbl lim ω) ((⟨n, p, G, I⟩ : RepBase (dimension n r)).toRep (GNF.tbl lim ω)) rng c argsort s ops := by
  obtain ⟨t, K, hL, hM⟩ := gnf_ctx lim ω hn hl U
  obtain ⟨a1, -⟩ := cell_mod (lim := lim) (ω := ω) (w := 64) hn hl h hp hrep U.real U.dim (by norm_num) h1
  have hE : ∀ k, EvalOk 64 (⟨n, p, G, I⟩ : RepBase (dimension n r)) (GNF.tbl lim ω) t k := fun k xs hx =>
    a1 xs fun x hxm => by have := (hx x hxm).1; rw [hL] at this; exact this.1
  refine K.historyW hsort s ops (by rw [hL, hM]; exact hops) fun op hop => ?_
  have hb := hb op hop
  cases op with
  | bootstrap upto => exact fun k _ _ => hE k
  | discard t => trivial
  | add b => trivial
  | descend tag k =>
    refine ⟨hE k, fun braids sufs left rights hbr hsu hb1 hs1 hi1 hi2 => ?_⟩
    rw [hM] at hi1 hi2
    have hev : 2 ∣ n * (n - 1) := by
      have := Nat.even_mul_pred_self n
      exact this.two_dvd
    have hw : rights.length ≤ k * (n * (n - 1)) + 1 := by
      have hN : ∀ i : Fin sufs.length, ∃ N : _root_.Matrix (Fin (dimension n r)) (Fin (dimension n r)) (Polynomial ℤ), Small (k * (n * (n - 1) / 2)) N ∧
          GMat ρ sufs[i] = N.map fun f => LPoly.red p f.toLaurent := by
        intro i
        have hm := hs1 sufs[i] (List.getElem_mem _)
        rw [hL] at hm
        obtain ⟨u, u1, u2, u3⟩ := gnf_word (n := n) hm.1.2
        obtain ⟨N, n1, n2⟩ := jones_small (by omega) h hrep U.real u u1
        refine ⟨N, small_mono n1 (by rw [hm.2] at u2; exact u2), ?_⟩
        rw [GMat, u3]; exact n2
      choose N n1 n2 using hN
      have e : (fun i : Fin sufs.length => GMat ρ sufs[i]) = fun i => (N i).map fun f => LPoly.red p f.toLaurent := funext n2
      have hi3 : IsProjImage p rights fun i => GMat ρ sufs[i] := hi2
      rw [e] at hi3
      have := width_le_batch n1 hi3
      have e2 : 2 * (k * (n * (n - 1) / 2)) = k * (n * (n - 1)) := by
        rw [Nat.mul_left_comm, Nat.mul_div_cancel' hev]
      omega
    haveI : Nonempty (Fin sufs.length × Fin braids.length) := ⟨⟨⟨0, List.length_pos_iff.2 hsu⟩, ⟨0, List.length_pos_iff.2 hbr⟩⟩⟩
    refine (polymatMulW_mod (by norm_num) (by show p ≠ 0; omega) (bd_of_reduced (p := p) (by omega) hi1.reduced) (bd_of_reduced (p := p) (by omega) hi2.reduced) hw ?_).1
    rw [mul_assoc, ← pow_two]
    exact hb

/-- C137, over the integers: as long as `L n (n - 1) / 2 ≤ 62` for the length `L` of the longest braid every operation of the history handles,
the history with 64-bit integers gives the same tracker, or fails with the same exception, as with exact integers. -/
theorem C137_integers {ρ : Braid n →* LMat 0 (dimension n r)} (hn : 2 ≤ n) (hl : n < lim) (h : 2 * r ≤ n) (hrep : cellRep n r 0 = .ok ⟨n, 0, G, I⟩)
    (U : SetUp (⟨n, 0, G, I⟩ : RepBase (dimension n r)) ρ c) (hsort : ∀ l, (argsort l).Perm (List.range l.length)) (s : S)
    (ops : List (TrackerOp (dimension n r))) (hops : ∀ b, TrackerOp.add b ∈ ops → TrueBatch 0 (GLegal lim ω n) (GMat ρ) b)
    (hb : ∀ op ∈ ops, longest op * (n * (n - 1) / 2) ≤ 62) :
    historyW 64 (GNF.tbl lim ω) ⟨n, 0, G, I⟩ rng c argsort s ops =
      history (GNF.tbl lim ω) ((⟨n, 0, G, I⟩ : RepBase (dimension n r)).toRep (GNF.tbl lim ω)) rng c argsort s ops := by
  obtain ⟨t, K, hL, hM⟩ := gnf_ctx lim ω hn hl U
  have hE : ∀ k, k * (n * (n - 1) / 2) ≤ 62 → EvalOk 64 (⟨n, 0, G, I⟩ : RepBase (dimension n r)) (GNF.tbl lim ω) t k := fun k hk xs hx =>
    cell_int_same (m := 62) hn hl h hrep U.real U.dim (by norm_num) (by norm_num) xs fun x hxm => by
      have hm := hx x hxm
      rw [hL] at hm
      refine ⟨hm.1.1, ?_⟩
      rw [hm.1.2]
      simp only [Int.zero_emod, Int.toNat_zero, zero_mul, zero_add]
      refine (List.sum_le_card_nsmul _ (n * (n - 1) / 2) ?_).trans ?_
      · intro y hy
        obtain ⟨f, -, rfl⟩ := List.mem_map.1 hy
        obtain ⟨u, -, u2, -, u4⟩ := lift_word (permAt n f)
        omega
      · rw [List.length_map, hm.2, smul_eq_mul]; exact hk
  refine K.historyW hsort s ops (by rw [hL, hM]; exact hops) fun op hop => ?_
  have hb := hb op hop
  cases op with
  | bootstrap upto => exact fun k _ hk => hE k ((Nat.mul_le_mul_right _ hk).trans hb)
  | discard t => trivial
  | add b => trivial
  | descend tag k =>
    refine ⟨hE k ((Nat.mul_le_mul_right _ (by simp [longest])).trans hb), fun braids sufs left rights hbr hsu hb1 hs1 hi1 hi2 => ?_⟩
    rw [hM] at hi1 hi2
    have hne : rights ≠ [] := BraidSearch.ne_of_image hi2 ⟨0, List.length_pos_iff.2 hsu⟩
    obtain ⟨C, c1, c2⟩ := Polymat.mul_spec (fun g : Fin sufs.length × Fin braids.length => g.2) (fun g => g.1) left rights (.inr hne)
    refine mulW_of_bd (by norm_num) (b := 2 ^ 62) (by norm_num) _ c1 ?_
    refine bd_words (b := fun g : Fin sufs.length × Fin braids.length => gnfBraid n braids[g.2] * gnfBraid n sufs[g.1]) hn h hrep U.real ?_ ?_
    · intro i
      obtain ⟨k1, hk1⟩ := hi1.shift i.2
      obtain ⟨k2, hk2⟩ := hi2.shift i.1
      refine ⟨k1 + k2, ?_⟩
      rw [denMod_mul (c2 i), hk1, hk2]; dsimp only [GMat]; rw [map_mul, T_add, smul_mul_assoc, mul_smul_comm, smul_smul]
    · intro i
      have m1 := hb1 braids[i.2] (List.getElem_mem _)
      have m2 := hs1 sufs[i.1] (List.getElem_mem _)
      rw [hL] at m1 m2
      obtain ⟨u, u1, u2, u3⟩ := gnf_word (n := n) m1.1.2
      obtain ⟨v, v1, v2, v3⟩ := gnf_word (n := n) m2.1.2
      refine ⟨u ++ v, fun s hs => (List.mem_append.1 hs).elim (u1 s) (v1 s), ?_, ?_⟩
      · rw [m1.2] at u2
        rw [m2.2] at v2
        rw [List.length_append]
        refine (Nat.add_le_add u2 v2).trans ?_
        rw [← Nat.add_mul]
        exact hb
      · rw [u3, v3, posWord_append]

theorem validateBuckets_congr {d : Nat} {R R' : Rep d} : ∀ bs : Buckets NF d, (∀ tb ∈ bs, R.evalSame tb.2.braids = R'.evalSame tb.2.braids) → validateBuckets R bs = validateBuckets R' bs
  | [], _ => rfl
  | tb :: bs, h => by
    have e : validateBucket R tb.2 = validateBucket R' tb.2 := by
      rw [validateBucket, validateBucket]
      exact congrArg (fun z => z >>= _) (h tb (by simp))
    rw [validateBuckets, validateBuckets, e, validateBuckets_congr bs fun tb' h' => h tb' (by simp [h'])]

/-- C137, modulo `p`: hence, with 64-bit integers, every bucket of the tracker is sound, and `valiate_buckets` run with 64-bit integers says so. -/
theorem C137_sound_mod_p (hn : 2 ≤ n) (hl : n < lim) (h : 2 * r ≤ n) (hp : 2 ≤ p) (hrep : cellRep n r p = .ok ⟨n, p, G, I⟩)
    (U : SetUp (⟨n, p, G, I⟩ : RepBase (dimension n r)) ρ c) (hsort : ∀ l, (argsort l).Perm (List.range l.length)) (s : S)
    (ops : List (TrackerOp (dimension n r))) (hops : ∀ b, TrackerOp.add b ∈ ops → TrueBatch p (GLegal lim ω n) (GMat ρ) b)
    (h1 : dimension n r * (n * (n - 1) + 1) * (p - 1) ^ 2 < 2 ^ 63)
    (hb : ∀ op ∈ ops, dimension n r * (factorsAtOnce op * (n * (n - 1)) + 1) * (p - 1) ^ 2 < 2 ^ 63) (tr : Tracker S (List Nat) (dimension n r))
    (hr : historyW 64 (GNF.tbl lim ω) ⟨n, p, G, I⟩ rng c argsort s ops = .ok tr) :
    Sound p (GLegal lim ω n) (GMat ρ) tr.buckets ∧
      validateBuckets ((⟨n, p, G, I⟩ : RepBase (dimension n r)).toRepW 64 (GNF.tbl lim ω)) tr.buckets = .ok none := by
  rw [C137_mod_p hn hl h hp hrep U hsort s ops hops h1 hb] at hr
  obtain ⟨a1, a2⟩ := C70_tracker_history (rep := (⟨n, p, G, I⟩ : RepBase (dimension n r))) hn hl U hsort s ops hops tr hr
  refine ⟨a1, ?_⟩
  rw [← a2]
  refine validateBuckets_congr _ fun tb htb => ?_
  obtain ⟨e1, -⟩ := cell_mod (lim := lim) (ω := ω) (w := 64) hn hl h hp hrep U.real U.dim (by norm_num) h1
  refine e1 _ fun x hx => ?_
  obtain ⟨l, hh, -, hl⟩ := a1 tb.1 tb.2 htb
  rw [hh.1] at hx
  obtain ⟨o, ho, rfl⟩ := List.mem_map.1 hx
  exact (hl o ho).1.1

/-- C137, over the integers: every bucket of the tracker is sound, and if the added braids are short too, `valiate_buckets` run with 64-bit
integers says so. -/
theorem C137_sound_integers {ρ : Braid n →* LMat 0 (dimension n r)} (hn : 2 ≤ n) (hl : n < lim) (h : 2 * r ≤ n) (hrep : cellRep n r 0 = .ok ⟨n, 0, G, I⟩)
    (U : SetUp (⟨n, 0, G, I⟩ : RepBase (dimension n r)) ρ c) (hsort : ∀ l, (argsort l).Perm (List.range l.length)) (s : S)
    (ops : List (TrackerOp (dimension n r))) (hops : ∀ b, TrackerOp.add b ∈ ops → TrueBatch 0 (GLegal lim ω n) (GMat ρ) b)
    (hb : ∀ op ∈ ops, longest op * (n * (n - 1) / 2) ≤ 62) (tr : Tracker S (List Nat) (dimension n r))
    (hr : historyW 64 (GNF.tbl lim ω) ⟨n, 0, G, I⟩ rng c argsort s ops = .ok tr) :
    Sound 0 (GLegal lim ω n) (GMat ρ) tr.buckets ∧
      ((∀ tb ∈ tr.buckets, ∀ x ∈ tb.2.braids, x.factors.length * (n * (n - 1) / 2) ≤ 62) →
        validateBuckets ((⟨n, 0, G, I⟩ : RepBase (dimension n r)).toRepW 64 (GNF.tbl lim ω)) tr.buckets = .ok none) := by
  rw [C137_integers hn hl h hrep U hsort s ops hops hb] at hr
  obtain ⟨a1, a2⟩ := C70_tracker_history (rep := (⟨n, 0, G, I⟩ : RepBase (dimension n r))) hn hl U hsort s ops hops tr hr
  refine ⟨a1, fun hlen => ?_⟩
  rw [← a2]
  refine validateBuckets_congr _ fun tb htb => ?_
  refine cell_int_same (m := 62) hn hl h hrep U.real U.dim (by norm_num) (by norm_num) _ fun x hx => ?_
  have hlx := hlen tb htb x hx
  obtain ⟨l, hh, -, hl⟩ := a1 tb.1 tb.2 htb
  rw [hh.1] at hx
  obtain ⟨o, ho, rfl⟩ := List.mem_map.1 hx
  refine ⟨(hl o ho).1.1, ?_⟩
  rw [(hl o ho).1.2]
  simp only [Int.zero_emod, Int.toNat_zero, zero_mul, zero_add]
  exact (sum_inv_le _).trans hlx

/-- The bounds are met, modulo 65537 on four strands with 40 factors at once, and over the integers on four strands up to length 10. -/
example : ∀ op ∈ ([.bootstrap 3, .descend (3, 7, []) 40, .discard (3, 7, [])] : List (TrackerOp 3)), dimension 4 1 * (factorsAtOnce op * (4 * 3) + 1) * (65537 - 1) ^ 2 < 2 ^ 63 := by
  intro op hop
  fin_cases hop <;> decide +kernel

example : ∀ op ∈ ([.bootstrap 3, .descend (3, 7, []) 2, .descend (5, 7, []) 5, .discard (3, 7, [])] : List (TrackerOp 3)), longest op * (4 * (4 - 1) / 2) ≤ 62 := by
  intro op hop
  fin_cases hop <;> decide +kernel

/-- A history that succeeds: bootstrap to length two over the integers, with `JonesCellRep(4, 1, 0)`. -/
example (rng : Rng S) (s : S) : ∃ (G I : List Matrix) (tr : Tracker S (List Nat) (Jones.dimension 4 1)), Jones.cellRep 4 1 0 = .ok ⟨4, 0, G, I⟩ ∧
    historyW 64 (GNF.tbl 7 (fun _ _ _ => 0)) (⟨4, 0, G, I⟩ : RepBase (Jones.dimension 4 1)) rng ⟨2, .uniform, NF.canonicalLength, [], none⟩
      (fun l => List.range l.length) s [.bootstrap 2] = .ok tr := by
  obtain ⟨ρ, G, I, h1, U⟩ := C70_jones_setup 4 1 0 (by norm_num) (by norm_num) (by norm_num) 2 (by norm_num) .uniform
  obtain ⟨tr', -, h2, -⟩ := C70_tracker_bootstrap (lim := 7) (ω := fun _ _ _ => 0) (rng := rng) (argsort := fun l => List.range l.length) (by norm_num) (by norm_num) U
    (fun l => List.Perm.refl _) s [] (by simp) ⟨[], [], s⟩ rfl 2
  refine ⟨G, I, tr', h1, ?_⟩
  rw [C137_integers (ρ := ρ) (by norm_num) (by norm_num) (by norm_num) h1 U (fun l => List.Perm.refl _) s [.bootstrap 2] (by simp) (by simp [longest]),
    history, List.foldlM_cons, TrackerOp.exec, h2]; rfl

end Peyl
