import Verif.Props.MachineLKB
import Verif.Props.MachineBucket
/-!
# `bucketing.Tracker` with `LKBRep` and GNF, with exact and with 64-bit integers (C138)

`LKBRep` hands the generators over as their own inverses (C56), so that it does not realise a representation and C70 does not speak about it.
The tracker never reads the inverses: everything it stores is right.
-/
namespace Peyl
open Polymat LaurentPolynomial Bucketing

section generic
variable {lim : Nat} {ω : List Nat → List Nat → Nat → Nat} {S : Type} {n p d : Nat} {G I : List Matrix} {argsort : List Nat → List Nat}
variable {c : Config NF d} {rng : Rng S}

/-- Modulo `p`, for any representation by matrices of bounded degrees. -/
theorem gnf_history_mod {ρ : Braid n →* LMat p d} {D C : Nat} (hn : 2 ≤ n) (hl : n < lim) (hp : 2 ≤ p) (U : SetUp (⟨n, p, G, I⟩ : RepBase d) ρ c)
    (hS : ∀ s, s + 1 < n → SizeB ρ D C (sigma n s)) (hsort : ∀ l, (argsort l).Perm (List.range l.length)) (s : S)
    (ops : List (TrackerOp d)) (hops : ∀ b, TrackerOp.add b ∈ ops → TrueBatch p (GLegal lim ω n) (GMat ρ) b)
    (h1 : d * (n * (n - 1) / 2 * D + 1) * (p - 1) ^ 2 < 2 ^ 63)
    (hb : ∀ op ∈ ops, d * (factorsAtOnce op * (n * (n - 1) / 2 * D) + 1) * (p - 1) ^ 2 < 2 ^ 63) :
    historyW 64 (GNF.tbl lim ω) ⟨n, p, G, I⟩ rng c argsort s ops =
      history (GNF.tbl lim ω) ((⟨n, p, G, I⟩ : RepBase d).toRep (GNF.tbl lim ω)) rng c argsort s ops := by
  obtain ⟨t, K, hL, hM⟩ := gnf_ctx lim ω hn hl U
  obtain ⟨a1, -⟩ := gnf_mod (lim := lim) (ω := ω) (w := 64) hn hl hp U.real U.dim (by norm_num) hS h1
  have hE : ∀ k, EvalOk 64 (⟨n, p, G, I⟩ : RepBase d) (GNF.tbl lim ω) t k := fun k xs hx =>
    a1 xs fun x hxm => by have := (hx x hxm).1; rw [hL] at this; exact this.1
  refine K.historyW hsort s ops (by rw [hL, hM]; exact hops) fun op hop => ?_
  have hb := hb op hop
  cases op with
  | bootstrap upto => exact fun k _ _ => hE k
  | discard t => trivial
  | add b => trivial
  | descend tag k =>
    refine ⟨hE k, fun braids sufs left rights hbr hsu hb1 hs1 hi1 hi2 => ?_⟩
    rw [hM] at hi1 hi2
    have hw : rights.length ≤ k * (n * (n - 1) / 2 * D) + 1 := by
      choose u u1 u2 u3 using fun i : Fin sufs.length => gnf_word (n := n) (x := sufs[i]) (by
        have hm := hs1 sufs[i] (List.getElem_mem _)
        rw [hL] at hm
        exact hm.1.2)
      refine width_le_size (ρ := ρ) (C := C ^ (k * (n * (n - 1) / 2)) + 1) (b := fun i : Fin sufs.length => gnfBraid n sufs[i]) (fun i => ?_) hi2
      have hm := hs1 sufs[i] (List.getElem_mem _)
      rw [hL] at hm
      have hlen := u2 i
      rw [hm.2] at hlen
      rw [u3 i]
      refine (SizeB.word hS (u i) (u1 i)).mono (by rw [← mul_assoc]; exact Nat.mul_le_mul_right _ hlen) ?_
      rcases Nat.eq_zero_or_pos C with h0 | h0
      · rw [h0]
        rcases Nat.eq_zero_or_pos (u i).length with h' | h'
        · rw [h']; simp
        · rw [Nat.zero_pow h']; exact Nat.zero_le _
      · exact (Nat.pow_le_pow_right h0 hlen).trans (by omega)
    haveI : Nonempty (Fin sufs.length × Fin braids.length) := ⟨⟨⟨0, List.length_pos_iff.2 hsu⟩, ⟨0, List.length_pos_iff.2 hbr⟩⟩⟩
    refine (polymatMulW_mod (by norm_num) (by show p ≠ 0; omega) (bd_of_reduced (p := p) (by omega) hi1.reduced) (bd_of_reduced (p := p) (by omega) hi2.reduced) hw ?_).1
    rw [mul_assoc, ← pow_two]
    exact hb

/-- Over the integers, for any representation whose images of short words are small. -/
theorem gnf_history_int {ρ : Braid n →* LMat 0 d} {m M : Nat} (hn : 2 ≤ n) (hl : n < lim) (U : SetUp (⟨n, 0, G, I⟩ : RepBase d) ρ c)
    (hW : WordsBd ρ m M) (hM' : M < 2 ^ 63) (hsort : ∀ l, (argsort l).Perm (List.range l.length)) (s : S)
    (ops : List (TrackerOp d)) (hops : ∀ b, TrackerOp.add b ∈ ops → TrueBatch 0 (GLegal lim ω n) (GMat ρ) b)
    (hb : ∀ op ∈ ops, longest op * (n * (n - 1) / 2) ≤ m) :
    historyW 64 (GNF.tbl lim ω) ⟨n, 0, G, I⟩ rng c argsort s ops =
      history (GNF.tbl lim ω) ((⟨n, 0, G, I⟩ : RepBase d).toRep (GNF.tbl lim ω)) rng c argsort s ops := by
  obtain ⟨t, K, hL, hM⟩ := gnf_ctx lim ω hn hl U
  have hE : ∀ k, k * (n * (n - 1) / 2) ≤ m → EvalOk 64 (⟨n, 0, G, I⟩ : RepBase d) (GNF.tbl lim ω) t k := fun k hk xs hx =>
    gnf_int_same (w := 64) hn hl hW hM' U.real U.dim (by norm_num) xs fun x hxm => by
      have hm := hx x hxm
      rw [hL] at hm
      refine ⟨hm.1.1, ?_⟩
      rw [hm.1.2]
      simp only [Int.zero_emod, Int.toNat_zero, zero_mul, zero_add]
      refine (sum_inv_le _).trans ?_
      rw [hm.2]; exact hk
  refine K.historyW hsort s ops (by rw [hL, hM]; exact hops) fun op hop => ?_
  have hb := hb op hop
  cases op with
  | bootstrap upto => exact fun k _ hk => hE k ((Nat.mul_le_mul_right _ hk).trans hb)
  | discard t => trivial
  | add b => trivial
  | descend tag k =>
    refine ⟨hE k ((Nat.mul_le_mul_right _ (by simp [longest])).trans hb), fun braids sufs left rights hbr hsu hb1 hs1 hi1 hi2 => ?_⟩
    rw [hM] at hi1 hi2
    have hne : rights ≠ [] := BraidSearch.ne_of_image hi2 ⟨0, List.length_pos_iff.2 hsu⟩
    obtain ⟨C, c1, c2⟩ := Polymat.mul_spec (fun g : Fin sufs.length × Fin braids.length => g.2) (fun g => g.1) left rights (.inr hne)
    refine mulW_of_bd (by norm_num) (b := M) hM' _ c1 ?_
    refine hW (b := fun g : Fin sufs.length × Fin braids.length => gnfBraid n braids[g.2] * gnfBraid n sufs[g.1]) ?_ ?_
    · intro i
      obtain ⟨k1, hk1⟩ := hi1.shift i.2
      obtain ⟨k2, hk2⟩ := hi2.shift i.1
      refine ⟨k1 + k2, ?_⟩
      rw [denMod_mul (c2 i), hk1, hk2]; dsimp only [GMat]; rw [map_mul, T_add, smul_mul_assoc, mul_smul_comm, smul_smul]
    · intro i
      have m1 := hb1 braids[i.2] (List.getElem_mem _)
      have m2 := hs1 sufs[i.1] (List.getElem_mem _)
      rw [hL] at m1 m2
      obtain ⟨u, u1, u2, u3⟩ := gnf_word (n := n) m1.1.2
      obtain ⟨v, v1, v2, v3⟩ := gnf_word (n := n) m2.1.2
      refine ⟨u ++ v, fun s hs => (List.mem_append.1 hs).elim (u1 s) (v1 s), ?_, ?_⟩
      · rw [m1.2] at u2
        rw [m2.2] at v2
        rw [List.length_append]
        refine (Nat.add_le_add u2 v2).trans ?_
        rw [← Nat.add_mul]
        exact hb
      · rw [u3, v3, posWord_append]
end generic

variable {lim : Nat} {ω : List Nat → List Nat → Nat → Nat} {S : Type} {n p : Nat} {q t : LPoly} {argsort : List Nat → List Nat}
variable {rep : RepBase (LKB.dimension n)} {ρ : Braid n →* LMat p (LKB.dimension n)} {c : Config NF (LKB.dimension n)} {rng : Rng S}

/-- `bucketing.Tracker(LKBRep(n, p, q, t), ...)` for units `q`, `t`: the statistics are total and contain the canonical length, a bucket has room for
one braid. -/
structure LKBSetUp (n p : Nat) (q t : LPoly) (rep : RepBase (LKB.dimension n)) (ρ : Braid n →* LMat p (LKB.dimension n)) (c : Config NF (LKB.dimension n)) : Prop where
  q_ok : q.Trimmed
  t_ok : t.Trimmed
  q_unit : q.isUnit = true
  t_unit : t.isUnit = true
  strands : 2 ≤ n
  ring : p ≠ 1
  lkb : IsLKB n p q t rep ρ
  total : c.Total
  length : c.length = NF.canonicalLength
  capacity : 1 ≤ c.capacity

theorem LKBSetUp.main (U : LKBSetUp n p q t rep ρ c) : ∃ G I, rep = ⟨n, p, G, G⟩ ∧ SetUp (⟨n, p, G, I⟩ : RepBase (LKB.dimension n)) ρ c := by
  obtain ⟨G, I, h1, h2, -, h4, -⟩ := U.lkb.main U.q_ok U.t_ok U.q_unit U.t_unit U.strands
  exact ⟨G, I, h1, h2, h4, dimension_pos U.strands, U.ring, U.total, U.length, U.capacity⟩

theorem toRep_pos {lim : Nat} {ω : List Nat → List Nat → Nat → Nat} {n p d : Nat} {G I : List Matrix} (hn : 2 ≤ n) (hl : n < lim) :
    (⟨n, p, G, G⟩ : RepBase d).toRep (GNF.tbl lim ω) = (⟨n, p, G, I⟩ : RepBase d).toRep (GNF.tbl lim ω) ∧
    ∀ w, (⟨n, p, G, G⟩ : RepBase d).toRepW w (GNF.tbl lim ω) = (⟨n, p, G, I⟩ : RepBase d).toRepW w (GNF.tbl lim ω) := by
  obtain ⟨tb, R⟩ := exists_greal lim ω hn hl
  have hpos : ∀ w ∈ tb.artinWord, ∀ ie ∈ w, 0 ≤ ie.2 := fun w hw ie hie => by rw [gnf_words R.1.ok w hw ie hie]; omega
  constructor
  · rw [RepBase.toRep, RepBase.toRep, RepBase.evalSame_pos (I := I) R.1.ok hpos]
  · intro w
    rw [RepBase.toRepW, RepBase.toRepW, RepBase.evalSameW_pos (I := I) R.1.ok hpos]

/-- C138: after any history of `bootstrap_exhaustive`, `nf_descendants`, `discard_bucket` and additions of true batches every bucket holds legal braids
of its length with their projectivised images in the Lawrence–Krammer–Bigelow representation, and `valiate_buckets` finds nothing wrong. -/
theorem C138_history (hl : n < lim) (U : LKBSetUp n p q t rep ρ c) (hsort : ∀ l, (argsort l).Perm (List.range l.length)) (s : S)
    (ops : List (TrackerOp (LKB.dimension n))) (hops : ∀ b, TrackerOp.add b ∈ ops → TrueBatch p (GLegal lim ω n) (GMat ρ) b) (tr : Tracker S (List Nat) (LKB.dimension n))
    (hr : history (GNF.tbl lim ω) (rep.toRep (GNF.tbl lim ω)) rng c argsort s ops = .ok tr) :
    Sound p (GLegal lim ω n) (GMat ρ) tr.buckets ∧ validateBuckets (rep.toRep (GNF.tbl lim ω)) tr.buckets = .ok none := by
  obtain ⟨G, I, rfl, V⟩ := U.main
  rw [(toRep_pos (I := I) U.strands hl).1] at hr ⊢
  exact C70_tracker_history (rep := (⟨n, p, G, I⟩ : RepBase (LKB.dimension n))) U.strands hl V hsort s ops hops tr hr

/-- C138: after any history `bootstrap_exhaustive(upto)` succeeds and offers every braid of power zero with 1 to `upto` factors once, with its image. -/
theorem C138_bootstrap (hl : n < lim) (U : LKBSetUp n p q t rep ρ c) (hsort : ∀ l, (argsort l).Perm (List.range l.length)) (s : S)
    (ops : List (TrackerOp (LKB.dimension n))) (hops : ∀ b, TrackerOp.add b ∈ ops → TrueBatch p (GLegal lim ω n) (GMat ρ) b) (tr : Tracker S (List Nat) (LKB.dimension n))
    (hr : history (GNF.tbl lim ω) (rep.toRep (GNF.tbl lim ω)) rng c argsort s ops = .ok tr) (upto : Nat) :
    ∃ tr' bats, bootstrapExhaustive (GNF.tbl lim ω) (rep.toRep (GNF.tbl lim ω)) rng c upto tr = .ok tr' ∧
      run rng c (tr.buckets, tr.rng) (bats.map Op.add) = .ok (tr'.buckets, tr'.rng) ∧
      (∀ b' ∈ bats, TrueBatch p (GLegal lim ω n) (GMat ρ) b') ∧
      (braidsOf bats).Nodup ∧ ∀ x, x ∈ braidsOf bats ↔ IsGNF lim ω n x ∧ x.power = 0 ∧ 1 ≤ x.factors.length ∧ x.factors.length ≤ upto := by
  obtain ⟨G, I, rfl, V⟩ := U.main
  rw [(toRep_pos (I := I) U.strands hl).1] at hr ⊢
  exact C70_tracker_bootstrap (rep := (⟨n, p, G, I⟩ : RepBase (LKB.dimension n))) U.strands hl V hsort s ops hops tr hr upto

theorem historyW_pos {lim : Nat} {ω : List Nat → List Nat → Nat → Nat} {n p d : Nat} {G I : List Matrix} {c : Config NF d} (hn : 2 ≤ n) (hl : n < lim) (s : S) (ops : List (TrackerOp d)) (w : Nat) :
    historyW w (GNF.tbl lim ω) (⟨n, p, G, G⟩ : RepBase d) rng c argsort s ops = historyW w (GNF.tbl lim ω) (⟨n, p, G, I⟩ : RepBase d) rng c argsort s ops := by
  have e : TrackerOp.execW w (GNF.tbl lim ω) (⟨n, p, G, G⟩ : RepBase d) rng c argsort = TrackerOp.execW w (GNF.tbl lim ω) (⟨n, p, G, I⟩ : RepBase d) rng c argsort := by
    funext tr op
    cases op <;> simp only [TrackerOp.execW, (toRep_pos (I := I) hn hl).2 w]
  rw [historyW, historyW, e]

/-- C138, 64-bit integers modulo `p`: with `dim = n (n - 1) / 2`, if `dim * (k * dim * (|deg t| + n |deg q|) + 1) * (p - 1)^2 < 2^63` for the number `k` of
factors every `nf_descendants` of the history adds, and for `k = 1`, the history gives the same tracker, or fails with the same exception, as with
exact integers, however long the history and however long the braids; so every bucket is sound, and `valiate_buckets` with 64-bit integers says so. -/
theorem C138_machine_mod_p (hl : n < lim) (hp : 2 ≤ p) (U : LKBSetUp n p q t rep ρ c) (hsort : ∀ l, (argsort l).Perm (List.range l.length)) (s : S)
    (ops : List (TrackerOp (LKB.dimension n))) (hops : ∀ b, TrackerOp.add b ∈ ops → TrueBatch p (GLegal lim ω n) (GMat ρ) b)
    (h1 : n * (n - 1) / 2 * (n * (n - 1) / 2 * (t.val.natAbs + n * q.val.natAbs) + 1) * (p - 1) ^ 2 < 2 ^ 63)
    (hb : ∀ op ∈ ops, n * (n - 1) / 2 * (factorsAtOnce op * (n * (n - 1) / 2 * (t.val.natAbs + n * q.val.natAbs)) + 1) * (p - 1) ^ 2 < 2 ^ 63) :
    historyW 64 (GNF.tbl lim ω) rep rng c argsort s ops = history (GNF.tbl lim ω) (rep.toRep (GNF.tbl lim ω)) rng c argsort s ops ∧
    ∀ tr, historyW 64 (GNF.tbl lim ω) rep rng c argsort s ops = .ok tr →
      Sound p (GLegal lim ω n) (GMat ρ) tr.buckets ∧ validateBuckets (rep.toRepW 64 (GNF.tbl lim ω)) tr.buckets = .ok none := by
  have key : historyW 64 (GNF.tbl lim ω) rep rng c argsort s ops = history (GNF.tbl lim ω) (rep.toRep (GNF.tbl lim ω)) rng c argsort s ops := by
    have hS := U.lkb
    obtain ⟨G, I, rfl, V⟩ := U.main
    have hdim : n * (n - 1) / 2 = LKB.dimension n := (Nat.choose_two_right n).symm
    rw [historyW_pos (I := I) U.strands hl, (toRep_pos (I := I) U.strands hl).1]
    refine gnf_history_mod U.strands hl hp V (hS.size U.q_ok U.t_ok U.q_unit U.t_unit) hsort s ops hops ?_ ?_
    · rw [← hdim]; exact h1
    · intro op hop; have := hb op hop; rwa [hdim] at this ⊢
  refine ⟨key, fun tr hr => ?_⟩
  rw [key] at hr
  obtain ⟨a1, a2⟩ := C138_history hl U hsort s ops hops tr hr
  refine ⟨a1, ?_⟩
  rw [← a2]
  have e : ∀ xs : List NF, (∀ x ∈ xs, IsGNF lim ω n x) → rep.evalSameW 64 (GNF.tbl lim ω) xs = rep.evalSame (GNF.tbl lim ω) xs :=
    (C135_lkb_mod_p U.q_ok U.t_ok U.q_unit U.t_unit U.strands hl hp U.lkb h1).2.1
  refine validateBuckets_congr _ fun tb htb => e _ fun x hx => ?_
  obtain ⟨l, hh, -, hl⟩ := a1 tb.1 tb.2 htb
  rw [hh.1] at hx
  obtain ⟨o, ho, rfl⟩ := List.mem_map.1 hx
  exact (hl o ho).1.1

/-- C138, 64-bit integers over the integers: as long as `L n (n - 1) / 2 ≤ 27` for the length `L` of the longest braid every operation handles. -/
theorem C138_machine_integers {ρ : Braid n →* LMat 0 (LKB.dimension n)} (hl : n < lim) (U : LKBSetUp n 0 q t rep ρ c) (hsort : ∀ l, (argsort l).Perm (List.range l.length)) (s : S)
    (ops : List (TrackerOp (LKB.dimension n))) (hops : ∀ b, TrackerOp.add b ∈ ops → TrueBatch 0 (GLegal lim ω n) (GMat ρ) b)
    (hb : ∀ op ∈ ops, longest op * (n * (n - 1) / 2) ≤ 27) :
    historyW 64 (GNF.tbl lim ω) rep rng c argsort s ops = history (GNF.tbl lim ω) (rep.toRep (GNF.tbl lim ω)) rng c argsort s ops ∧
    ∀ tr, historyW 64 (GNF.tbl lim ω) rep rng c argsort s ops = .ok tr → Sound 0 (GLegal lim ω n) (GMat ρ) tr.buckets := by
  have key : historyW 64 (GNF.tbl lim ω) rep rng c argsort s ops = history (GNF.tbl lim ω) (rep.toRep (GNF.tbl lim ω)) rng c argsort s ops := by
    have hS := U.lkb
    obtain ⟨G, I, rfl, V⟩ := U.main
    rw [historyW_pos (I := I) U.strands hl, (toRep_pos (I := I) U.strands hl).1]
    exact gnf_history_int U.strands hl V (lkb_wordsBd U.q_ok U.t_ok U.q_unit U.t_unit hS) (by norm_num) hsort s ops hops hb
  refine ⟨key, fun tr hr => ?_⟩
  rw [key] at hr
  exact (C138_history hl U hsort s ops hops tr hr).1

/-- Such a tracker, and a history of it that succeeds. -/
theorem C138_setup (n p : Nat) (hn : 2 ≤ n) (hp : p ≠ 1) (q t : LPoly) (hq : q.Trimmed) (ht : t.Trimmed) (hqu : q.isUnit = true) (htu : t.isUnit = true) (cap : Nat) (hc : 1 ≤ cap) (m : Method) :
    ∃ rep ρ, LKBSetUp n p q t rep ρ ⟨cap, m, NF.canonicalLength, [], none⟩ := by
  obtain ⟨rep, ρ, H⟩ := C105_exists hq ht hqu htu hn p
  exact ⟨rep, ρ, hq, ht, hqu, htu, hn, hp, H, ⟨by simp, by simp⟩, rfl, hc⟩

/-- A history meeting the hypotheses, with `LKBRep(4, 0, v^7, v^5)`: bootstrap to length two. -/
example (rng : Rng S) (s : S) : ∃ (rep : RepBase (LKB.dimension 4)) (tr : Tracker S (List Nat) (LKB.dimension 4)), LKB.rep 4 0 ⟨7, [1]⟩ ⟨5, [1]⟩ = .ok rep ∧
    historyW 64 (GNF.tbl 7 (fun _ _ _ => 0)) rep rng ⟨2, .uniform, NF.canonicalLength, [], none⟩ (fun l => List.range l.length) s [.bootstrap 2] = .ok tr := by
  obtain ⟨rep, ρ, U⟩ := C138_setup 4 0 (by norm_num) (by norm_num) ⟨7, [1]⟩ ⟨5, [1]⟩ (by decide) (by decide) (by decide) (by decide) 2 (by norm_num) .uniform
  obtain ⟨tr', -, h2, -⟩ := C138_bootstrap (lim := 7) (ω := fun _ _ _ => 0) (rng := rng) (argsort := fun l => List.range l.length) (by norm_num) U
    (fun l => List.Perm.refl _) s [] (by simp) ⟨[], [], s⟩ rfl 2
  refine ⟨rep, tr', U.lkb.ok, ?_⟩
  rw [(C138_machine_integers (lim := 7) (ω := fun _ _ _ => 0) (rng := rng) (by norm_num) U (fun l => List.Perm.refl _) s [.bootstrap 2] (by simp) (by simp [longest])).1,
    history, List.foldlM_cons, TrackerOp.exec, h2]; rfl

/-- The bound modulo 101 with 40 factors at once, for the degrees of the project's test. -/
example : ∀ op ∈ ([.bootstrap 3, .descend (3, 7, []) 40, .discard (3, 7, [])] : List (TrackerOp 6)),
    4 * (4 - 1) / 2 * (factorsAtOnce op * (4 * (4 - 1) / 2 * ((5 : ℤ).natAbs + 4 * (7 : ℤ).natAbs)) + 1) * (101 - 1) ^ 2 < 2 ^ 63 := by
  intro op hop
  fin_cases hop <;> decide +kernel

end Peyl
