import Verif.Lemmas.MachineReal
import Verif.Props.BucketSearch
import Verif.Props.DualEval
import Verif.Props.MachineBucket
/-!
# Machine integers and the dual normal form (C135, C137)

The bulk evaluator of `RepBase` and `bucketing.Tracker` also accept `DGNF` objects.  A factor of a `DGNF` is a product of at most `n - 1` band
generators, each a word of at most `2 n - 3` generators and inverses of generators, so the bounds have `(n - 1) (2 n - 3)` instead of `n (n - 1) / 2`.
-/
namespace Peyl
open Polymat LaurentPolynomial Jones Bucketing
variable {lim : Nat} {ω : NPar → NPar → Nat → Nat} {S : Type} {n r p : Nat} {G I : List Matrix}
variable {argsort : List Nat → List Nat}

/-- A bound on the number of letters of a factor of a `DGNF`. -/
def dualLetters (n : Nat) : Nat := (n - 1) * (2 * n - 3)

variable {ρ : Braid n →* LMat p (dimension n r)} {c : Config NF (dimension n r)} {rng : Rng S}

theorem dual_small {l : List NPar} {t : NParTable} (R : DReal lim ω n l t) (hn : 2 ≤ n) (h : 2 * r ≤ n) (hrep : cellRep n r p = .ok ⟨n, p, G, I⟩)
    (H : Realises (⟨n, p, G, I⟩ : RepBase (dimension n r)) ρ) : ∀ f, f < t.toNFTable.order → SmallB ρ (dualLetters n) (dlift (nparAt n f)) :=
  fun f hf => smallB_dlift (by omega) h hrep H (R.real.spec.simple f hf)

theorem dual_small_delta {l : List NPar} {t : NParTable} (R : DReal lim ω n l t) (hn : 2 ≤ n) (h : 2 * r ≤ n) (hrep : cellRep n r p = .ok ⟨n, p, G, I⟩)
    (H : Realises (⟨n, p, G, I⟩ : RepBase (dimension n r)) ρ) : SmallB ρ (dualLetters n) (dlift (nparGerm n).D) := by
  have := dual_small R hn h hrep H _ R.real.spec.D_lt
  rwa [R.real.spec.v_D] at this

theorem dual_mod (hn : 2 ≤ n) (hl : NPar.catalanNum n < lim) (h : 2 * r ≤ n) (hp : 2 ≤ p) (hrep : cellRep n r p = .ok ⟨n, p, G, I⟩)
    (H : Realises (⟨n, p, G, I⟩ : RepBase (dimension n r)) ρ) (hd : 0 < dimension n r)
    (hb : dimension n r * (2 * dualLetters n + 1) * (p - 1) ^ 2 < 2 ^ 63) (xs : List NF) (hx : ∀ x ∈ xs, IsDGNF lim ω n x ∧ x.power % (n : ℤ) ≤ 1) :
    (⟨n, p, G, I⟩ : RepBase (dimension n r)).evalSameW 64 (DGNF.tbl lim ω) xs = (⟨n, p, G, I⟩ : RepBase (dimension n r)).evalSame (DGNF.tbl lim ω) xs := by
  obtain ⟨l, t, R⟩ := dgnf_real lim ω hn hl
  refine real_mod (rep := (⟨n, p, G, I⟩ : RepBase (dimension n r))) (w := 64) R.real H hd hp (by norm_num) (dual_small R hn h hrep H) hb xs fun x hxm => ⟨R.isDGNF_iff.1 (hx x hxm).1, ?_⟩
  rw [R.data.tauOrder]; exact (hx x hxm).2

theorem dual_int {ρ : Braid n →* LMat 0 (dimension n r)} (hn : 2 ≤ n) (hl : NPar.catalanNum n < lim) (h : 2 * r ≤ n) (hrep : cellRep n r 0 = .ok ⟨n, 0, G, I⟩)
    (H : Realises (⟨n, 0, G, I⟩ : RepBase (dimension n r)) ρ) (hd : 0 < dimension n r) (xs : List NF)
    (hx : ∀ x ∈ xs, IsDGNF lim ω n x ∧ ((x.power % (n : ℤ)).toNat + x.factors.length) * dualLetters n ≤ 62) :
    (⟨n, 0, G, I⟩ : RepBase (dimension n r)).evalSameW 64 (DGNF.tbl lim ω) xs = (⟨n, 0, G, I⟩ : RepBase (dimension n r)).evalSame (DGNF.tbl lim ω) xs := by
  obtain ⟨l, t, R⟩ := dgnf_real lim ω hn hl
  refine real_int (w := 64) (m := 62) R.real H hd (by norm_num) (by norm_num) (dual_small R hn h hrep H) (dual_small_delta R hn h hrep H) xs fun x hxm => ⟨R.isDGNF_iff.1 (hx x hxm).1, ?_⟩
  rw [R.data.tauOrder, ← Nat.add_mul]; exact (hx x hxm).2

/-- C135 for the dual normal form, modulo `p`: as long as `dim * (2 (n - 1) (2 n - 3) + 1) * (p - 1)^2 < 2^63`, the evaluator does not overflow on
`DGNF`s of any length whose power is 0 or 1 modulo `n`. -/
theorem C135_mod_p_dual (n r p : Nat) (hn : 2 ≤ n) (hl : NPar.catalanNum n < lim) (h : 2 * r ≤ n) (hp : 2 ≤ p)
    (hb : dimension n r * (2 * ((n - 1) * (2 * n - 3)) + 1) * (p - 1) ^ 2 < 2 ^ 63) :
    ∃ (rep : RepBase (dimension n r)) (ρ : Braid n →* LMat p (dimension n r)), cellRep n r p = .ok rep ∧
      (∀ (xs : List NF) (len : Nat), xs ≠ [] → (∀ x ∈ xs, IsDGNF lim ω n x ∧ NF.canonicalLength x = len ∧ x.power % (n : ℤ) ≤ 1) →
        ∃ A, rep.evalSameW 64 (DGNF.tbl lim ω) xs = .ok A ∧ rep.evalSame (DGNF.tbl lim ω) xs = .ok A ∧ UpToShift p A (fun i => ρ (dgnfBraid n xs[i])) ∧
          ((0 < len ∨ ∀ x ∈ xs, x.power = 0) → IsProjImage p A (fun i => ρ (dgnfBraid n xs[i])))) ∧
      (∀ x : NF, IsDGNF lim ω n x → x.power % (n : ℤ) ≤ 1 → rep.evalOneW 64 (DGNF.tbl lim ω) x = rep.evalOne (DGNF.tbl lim ω) x) := by
  obtain ⟨ρ, G, I, gs, g1, g2, -, -, hF, hd⟩ := C54_hypotheses n r p hn h
  have c1 := dual_mod (ω := ω) hn hl h hp g1 g2 hd hb
  refine ⟨_, ρ, g1, fun xs len hne hx => ?_, fun x hx h1 => RepBase.evalOneW_eq (c1 [x] (by simpa using ⟨hx, h1⟩))⟩
  obtain ⟨A, a1, -, a3, a4⟩ := C90_same_length_partial hn hl g2 hF hd (show p ≠ 1 by omega) xs hne len fun x hm => ⟨(hx x hm).1, (hx x hm).2.1⟩
  exact ⟨A, by rw [c1 xs fun x hm => ⟨(hx x hm).1, (hx x hm).2.2⟩]; exact a1, a1, a3, a4⟩

/-- C135 for the dual normal form, over the integers: the evaluator does not overflow on `DGNF`s with `(power mod n + length) (n - 1) (2 n - 3) ≤ 62`. -/
theorem C135_integers_dual (n r : Nat) (hn : 2 ≤ n) (hl : NPar.catalanNum n < lim) (h : 2 * r ≤ n) :
    ∃ (rep : RepBase (dimension n r)) (ρ : Braid n →* LMat 0 (dimension n r)), cellRep n r 0 = .ok rep ∧
      ∀ (xs : List NF) (len : Nat), xs ≠ [] → (∀ x ∈ xs, IsDGNF lim ω n x ∧ NF.canonicalLength x = len ∧
          ((x.power % (n : ℤ)).toNat + len) * ((n - 1) * (2 * n - 3)) ≤ 62) →
        ∃ A, rep.evalSameW 64 (DGNF.tbl lim ω) xs = .ok A ∧ rep.evalSame (DGNF.tbl lim ω) xs = .ok A ∧ UpToShift 0 A (fun i => ρ (dgnfBraid n xs[i])) := by
  obtain ⟨ρ, G, I, gs, g1, g2, -, -, hF, hd⟩ := C54_hypotheses n r 0 hn h
  refine ⟨_, ρ, g1, fun xs len hne hx => ?_⟩
  obtain ⟨A, a1, -, a3, -⟩ := C90_same_length_partial hn hl g2 hF hd (by show (0 : Nat) ≠ 1; decide) xs hne len fun x hm => ⟨(hx x hm).1, (hx x hm).2.1⟩
  have e := dual_int (ω := ω) hn hl h g1 g2 hd xs fun x hm => ⟨(hx x hm).1, by
    have := hx x hm
    rw [← this.2.1] at this
    exact this.2.2⟩
  exact ⟨A, e.trans a1, a1, a3⟩

/-! ## The tracker -/

theorem dgnf_smallB {l : List NPar} {t : NParTable} (R : DReal lim ω n l t) (hn : 2 ≤ n) (h : 2 * r ≤ n) (hrep : cellRep n r p = .ok ⟨n, p, G, I⟩)
    (H : Realises (⟨n, p, G, I⟩ : RepBase (dimension n r)) ρ) {x : NF} (hx : DLegal lim ω n x) : SmallB ρ (x.factors.length * dualLetters n) (dgnfBraid n x) := by
  have hv := R.isDGNF_iff.1 hx.1
  have := prod_smallB (ρ := ρ) (v := nparAt n) (β := dlift) (fs := x.factors) fun f hf => dual_small R hn h hrep H f (hv.inR f hf)
  rw [← R.den_eq, NFReal.den, hx.2, Germ.val, zpow_zero, one_mul]
  exact this

/-- C137 for the dual normal form, modulo `p`. -/
theorem C137_mod_p_dual (hn : 2 ≤ n) (hl : NPar.catalanNum n < lim) (h : 2 * r ≤ n) (hp : 2 ≤ p) (hrep : cellRep n r p = .ok ⟨n, p, G, I⟩)
    (U : SetUp (⟨n, p, G, I⟩ : RepBase (dimension n r)) ρ c) (hsort : ∀ l, (argsort l).Perm (List.range l.length)) (s : S)
    (ops : List (TrackerOp (dimension n r))) (hops : ∀ b, TrackerOp.add b ∈ ops → TrueBatch p (DLegal lim ω n) (DMat ρ) b)
    (h1 : dimension n r * (2 * ((n - 1) * (2 * n - 3)) + 1) * (p - 1) ^ 2 < 2 ^ 63)
    (hb : ∀ op ∈ ops, dimension n r * (2 * (factorsAtOnce op * ((n - 1) * (2 * n - 3))) + 1) * (p - 1) ^ 2 < 2 ^ 63) :
    historyW 64 (DGNF.tbl lim ω) ⟨n, p, G, I⟩ rng c argsort s ops =
      history (DGNF.tbl lim ω) ((⟨n, p, G, I⟩ : RepBase (dimension n r)).toRep (DGNF.tbl lim ω)) rng c argsort s ops := by
  obtain ⟨t, K, hL, hM⟩ := dgnf_ctx lim ω hn hl U
  obtain ⟨l, t', R⟩ := dgnf_real lim ω hn hl
  have a1 := dual_mod (lim := lim) (ω := ω) hn hl h hp hrep U.real U.dim h1
  have hE : ∀ k, EvalOk 64 (⟨n, p, G, I⟩ : RepBase (dimension n r)) (DGNF.tbl lim ω) t k := fun k xs hx =>
    a1 xs fun x hxm => by
      have := (hx x hxm).1
      rw [hL] at this
      exact ⟨this.1, by rw [this.2]; simp⟩
  refine K.historyW hsort s ops (by rw [hL, hM]; exact hops) fun op hop => ?_
  have hb := hb op hop
  cases op with
  | bootstrap upto => exact fun k _ _ => hE k
  | discard t => trivial
  | add b => trivial
  | descend tag k =>
    refine ⟨hE k, fun braids sufs left rights hbr hsu hb1 hs1 hi1 hi2 => ?_⟩
    rw [hM] at hi1 hi2
    have hw : rights.length ≤ 2 * (k * dualLetters n) + 1 := by
      refine width_le_smallB (ρ := ρ) (b := fun i : Fin sufs.length => dgnfBraid n sufs[i]) (fun i => ?_) hi2
      have hm := hs1 sufs[i] (List.getElem_mem _)
      rw [hL] at hm
      have := dgnf_smallB R hn h hrep U.real hm.1
      rwa [hm.2] at this
    haveI : Nonempty (Fin sufs.length × Fin braids.length) := ⟨⟨⟨0, List.length_pos_iff.2 hsu⟩, ⟨0, List.length_pos_iff.2 hbr⟩⟩⟩
    refine (polymatMulW_mod (by norm_num) (by show p ≠ 0; omega) (bd_of_reduced (p := p) (by omega) hi1.reduced) (bd_of_reduced (p := p) (by omega) hi2.reduced) hw ?_).1
    rw [mul_assoc, ← pow_two]
    exact hb

/-- C137 for the dual normal form, over the integers. -/
theorem C137_integers_dual {ρ : Braid n →* LMat 0 (dimension n r)} (hn : 2 ≤ n) (hl : NPar.catalanNum n < lim) (h : 2 * r ≤ n) (hrep : cellRep n r 0 = .ok ⟨n, 0, G, I⟩)
    (U : SetUp (⟨n, 0, G, I⟩ : RepBase (dimension n r)) ρ c) (hsort : ∀ l, (argsort l).Perm (List.range l.length)) (s : S)
    (ops : List (TrackerOp (dimension n r))) (hops : ∀ b, TrackerOp.add b ∈ ops → TrueBatch 0 (DLegal lim ω n) (DMat ρ) b)
    (hb : ∀ op ∈ ops, longest op * ((n - 1) * (2 * n - 3)) ≤ 62) :
    historyW 64 (DGNF.tbl lim ω) ⟨n, 0, G, I⟩ rng c argsort s ops =
      history (DGNF.tbl lim ω) ((⟨n, 0, G, I⟩ : RepBase (dimension n r)).toRep (DGNF.tbl lim ω)) rng c argsort s ops := by
  obtain ⟨t, K, hL, hM⟩ := dgnf_ctx lim ω hn hl U
  obtain ⟨l, t', R⟩ := dgnf_real lim ω hn hl
  have hE : ∀ k, k * dualLetters n ≤ 62 → EvalOk 64 (⟨n, 0, G, I⟩ : RepBase (dimension n r)) (DGNF.tbl lim ω) t k := fun k hk xs hx =>
    dual_int hn hl h hrep U.real U.dim xs fun x hxm => by
      have hm := hx x hxm
      rw [hL] at hm
      refine ⟨hm.1.1, ?_⟩
      rw [hm.1.2, hm.2]
      simpa using hk
  refine K.historyW hsort s ops (by rw [hL, hM]; exact hops) fun op hop => ?_
  have hb := hb op hop
  cases op with
  | bootstrap upto => exact fun k _ hk => hE k ((Nat.mul_le_mul_right _ hk).trans hb)
  | discard t => trivial
  | add b => trivial
  | descend tag k =>
    refine ⟨hE k ((Nat.mul_le_mul_right _ (by simp [longest])).trans hb), fun braids sufs left rights hbr hsu hb1 hs1 hi1 hi2 => ?_⟩
    rw [hM] at hi1 hi2
    have hne : rights ≠ [] := BraidSearch.ne_of_image hi2 ⟨0, List.length_pos_iff.2 hsu⟩
    obtain ⟨C, c1, c2⟩ := Polymat.mul_spec (fun g : Fin sufs.length × Fin braids.length => g.2) (fun g => g.1) left rights (.inr hne)
    refine mulW_of_bd (by norm_num) (b := 2 ^ 62) (by norm_num) _ c1 ?_
    refine bd_smallB (ρ := ρ) (b := fun g : Fin sufs.length × Fin braids.length => dgnfBraid n braids[g.2] * dgnfBraid n sufs[g.1]) ?_ ?_
    · intro i
      obtain ⟨k1, hk1⟩ := hi1.shift i.2
      obtain ⟨k2, hk2⟩ := hi2.shift i.1
      refine ⟨k1 + k2, ?_⟩
      rw [denMod_mul (c2 i), hk1, hk2]; dsimp only [DMat]; rw [map_mul, T_add, smul_mul_assoc, mul_smul_comm, smul_smul]
    · intro i
      have m1 := hb1 braids[i.2] (List.getElem_mem _)
      have m2 := hs1 sufs[i.1] (List.getElem_mem _)
      rw [hL] at m1 m2
      refine ((dgnf_smallB R hn h hrep U.real m1.1).mul (dgnf_smallB R hn h hrep U.real m2.1)).mono ?_
      rw [m1.2, m2.2, ← Nat.add_mul]
      exact hb

/-- C137 for the dual normal form, modulo `p`: every bucket is sound and `valiate_buckets` with 64-bit integers says so. -/
theorem C137_sound_mod_p_dual (hn : 2 ≤ n) (hl : NPar.catalanNum n < lim) (h : 2 * r ≤ n) (hp : 2 ≤ p) (hrep : cellRep n r p = .ok ⟨n, p, G, I⟩)
    (U : SetUp (⟨n, p, G, I⟩ : RepBase (dimension n r)) ρ c) (hsort : ∀ l, (argsort l).Perm (List.range l.length)) (s : S)
    (ops : List (TrackerOp (dimension n r))) (hops : ∀ b, TrackerOp.add b ∈ ops → TrueBatch p (DLegal lim ω n) (DMat ρ) b)
    (h1 : dimension n r * (2 * ((n - 1) * (2 * n - 3)) + 1) * (p - 1) ^ 2 < 2 ^ 63)
    (hb : ∀ op ∈ ops, dimension n r * (2 * (factorsAtOnce op * ((n - 1) * (2 * n - 3))) + 1) * (p - 1) ^ 2 < 2 ^ 63) (tr : Tracker S NPar (dimension n r))
    (hr : historyW 64 (DGNF.tbl lim ω) ⟨n, p, G, I⟩ rng c argsort s ops = .ok tr) :
    Sound p (DLegal lim ω n) (DMat ρ) tr.buckets ∧
      validateBuckets ((⟨n, p, G, I⟩ : RepBase (dimension n r)).toRepW 64 (DGNF.tbl lim ω)) tr.buckets = .ok none := by
  rw [C137_mod_p_dual hn hl h hp hrep U hsort s ops hops h1 hb] at hr
  obtain ⟨a1, a2⟩ := C70_tracker_history_dual (rep := (⟨n, p, G, I⟩ : RepBase (dimension n r))) hn hl U hsort s ops hops tr hr
  refine ⟨a1, ?_⟩
  rw [← a2]
  refine validateBuckets_congr _ fun tb htb => ?_
  refine dual_mod (lim := lim) (ω := ω) hn hl h hp hrep U.real U.dim h1 _ fun x hx => ?_
  obtain ⟨l, hh, -, hl⟩ := a1 tb.1 tb.2 htb
  rw [hh.1] at hx
  obtain ⟨o, ho, rfl⟩ := List.mem_map.1 hx
  exact ⟨(hl o ho).1.1, by rw [(hl o ho).1.2]; simp⟩

/-- C137 for the dual normal form, over the integers. -/
theorem C137_sound_integers_dual {ρ : Braid n →* LMat 0 (dimension n r)} (hn : 2 ≤ n) (hl : NPar.catalanNum n < lim) (h : 2 * r ≤ n) (hrep : cellRep n r 0 = .ok ⟨n, 0, G, I⟩)
    (U : SetUp (⟨n, 0, G, I⟩ : RepBase (dimension n r)) ρ c) (hsort : ∀ l, (argsort l).Perm (List.range l.length)) (s : S)
    (ops : List (TrackerOp (dimension n r))) (hops : ∀ b, TrackerOp.add b ∈ ops → TrueBatch 0 (DLegal lim ω n) (DMat ρ) b)
    (hb : ∀ op ∈ ops, longest op * ((n - 1) * (2 * n - 3)) ≤ 62) (tr : Tracker S NPar (dimension n r))
    (hr : historyW 64 (DGNF.tbl lim ω) ⟨n, 0, G, I⟩ rng c argsort s ops = .ok tr) :
    Sound 0 (DLegal lim ω n) (DMat ρ) tr.buckets ∧
      ((∀ tb ∈ tr.buckets, ∀ x ∈ tb.2.braids, x.factors.length * ((n - 1) * (2 * n - 3)) ≤ 62) →
        validateBuckets ((⟨n, 0, G, I⟩ : RepBase (dimension n r)).toRepW 64 (DGNF.tbl lim ω)) tr.buckets = .ok none) := by
  rw [C137_integers_dual hn hl h hrep U hsort s ops hops hb] at hr
  obtain ⟨a1, a2⟩ := C70_tracker_history_dual (rep := (⟨n, 0, G, I⟩ : RepBase (dimension n r))) hn hl U hsort s ops hops tr hr
  refine ⟨a1, fun hlen => ?_⟩
  rw [← a2]
  refine validateBuckets_congr _ fun tb htb => ?_
  refine dual_int hn hl h hrep U.real U.dim _ fun x hx => ?_
  have hlx := hlen tb htb x hx
  obtain ⟨l, hh, -, hl⟩ := a1 tb.1 tb.2 htb
  rw [hh.1] at hx
  obtain ⟨o, ho, rfl⟩ := List.mem_map.1 hx
  refine ⟨(hl o ho).1.1, ?_⟩
  rw [(hl o ho).1.2]
  simpa [dualLetters] using hlx

/-- The bounds are met: modulo 65537 on four strands, and over the integers on four strands up to length 4. -/
example : dimension 4 1 * (2 * ((4 - 1) * (2 * 4 - 3)) + 1) * (65537 - 1) ^ 2 < 2 ^ 63 ∧ (0 + 4) * ((4 - 1) * (2 * 4 - 3)) ≤ 62 := by decide +kernel
example := C135_mod_p_dual (lim := 20) (ω := fun _ _ _ => 0) 4 1 65537 (by decide) (by decide +kernel) (by decide) (by decide) (by decide +kernel)
example := C135_integers_dual (lim := 20) (ω := fun _ _ _ => 0) 4 1 (by decide) (by decide +kernel) (by decide)

/-- A history that succeeds: bootstrap to length two over the integers, with `JonesCellRep(4, 1, 0)` and `DGNF`. -/
example (rng : Rng S) (s : S) : ∃ (G I : List Matrix) (tr : Tracker S NPar (Jones.dimension 4 1)), Jones.cellRep 4 1 0 = .ok ⟨4, 0, G, I⟩ ∧
    historyW 64 (DGNF.tbl 20 (fun _ _ _ => 0)) (⟨4, 0, G, I⟩ : RepBase (Jones.dimension 4 1)) rng ⟨2, .uniform, NF.canonicalLength, [], none⟩
      (fun l => List.range l.length) s [.bootstrap 2] = .ok tr := by
  obtain ⟨ρ, G, I, h1, U⟩ := C70_jones_setup 4 1 0 (by norm_num) (by norm_num) (by norm_num) 2 (by norm_num) .uniform
  obtain ⟨tr', -, h2, -⟩ := C70_tracker_bootstrap_dual (lim := 20) (ω := fun _ _ _ => 0) (rng := rng) (argsort := fun l => List.range l.length) (by norm_num) (show NPar.catalanNum 4 < 20 by decide +kernel) U
    (fun l => List.Perm.refl _) s [] (by simp) ⟨[], [], s⟩ rfl 2
  refine ⟨G, I, tr', h1, ?_⟩
  rw [C137_integers_dual (ρ := ρ) (by norm_num) (by decide +kernel) (by norm_num) h1 U (fun l => List.Perm.refl _) s [.bootstrap 2] (by simp) (by simp [longest]),
    history, List.foldlM_cons, TrackerOp.exec, h2]; rfl

end Peyl
