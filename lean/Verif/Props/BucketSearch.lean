import Verif.Lemmas.BucketCtx
import Verif.Props.Jones
/-!
# Properties of the search steps of `bucketing.Tracker` (C69, C70), for `GNF` and for `DGNF`

`SetUp rep ρ c` (Spec/BucketDescend.lean): the matrices of `rep` are those of a representation `ρ` of the braid group in which `Δ²` acts by
a power of `v`, and the statistics of the tracker can be computed.  `TrueBatch`: a batch of braids of power zero with their images.
`argsort` is any function returning a permutation of the indices (numpy's is not stable), `rng` any random generator.
-/
namespace Peyl
open Bucketing
variable {S : Type} {d : Nat} {rep : RepBase d} {ρ : Braid rep.n →* LMat rep.p d} {c : Config NF d} {rng : Rng S} {lim : Nat}
variable {argsort : List Nat → List Nat}

section gnf
variable {ω : List Nat → List Nat → Nat → Nat}

/-- C69: after any history, `nf_descendants(tag, k)` on a bucket of braids of positive length succeeds; it does nothing but offer batches of
true (braid, image) pairs; the braids offered are, for every braid `x` of the bucket and every way `w` of extending its factors by `k` more to
a normal form, the braid with factors `x ++ w`, each exactly once for each occurrence of `x`. -/
theorem C69_tracker_descendants (hn : 2 ≤ rep.n) (hl : rep.n < lim) (U : SetUp rep ρ c) (hsort : ∀ l, (argsort l).Perm (List.range l.length)) (s : S)
    (ops : List (TrackerOp d)) (hops : ∀ b, TrackerOp.add b ∈ ops → TrueBatch rep.p (GLegal lim ω rep.n) (GMat ρ) b) (tr : Tracker S (List Nat) d)
    (hr : history (GNF.tbl lim ω) (rep.toRep (GNF.tbl lim ω)) rng c argsort s ops = .ok tr) (tag : Tag) (b : Bucket Tag NF d)
    (hb : Dict.get? tr.buckets tag = some b) (htag : 1 ≤ tag.1) (k : Nat) :
    ∃ tr' bats, nfDescendants (GNF.tbl lim ω) (rep.toRep (GNF.tbl lim ω)) rng c argsort tr tag k = .ok tr' ∧
      run rng c (tr.buckets, tr.rng) (bats.map Op.add) = .ok (tr'.buckets, tr'.rng) ∧
      (∀ b' ∈ bats, TrueBatch rep.p (GLegal lim ω rep.n) (GMat ρ) b') ∧
      ∃ Z : NF → List (List Nat), (∀ x ∈ b.braids, (Z x).Nodup ∧ ∀ w, w ∈ Z x ↔ w.length = k ∧ IsGNF lim ω rep.n ⟨rep.n, 0, x.factors ++ w⟩) ∧
        (braidsOf bats).Perm (b.braids.flatMap fun x => (Z x).map fun w => ⟨rep.n, 0, x.factors ++ w⟩) := by
  obtain ⟨t, K, hL, hM⟩ := gnf_ctx lim ω hn hl U
  rw [← hL, ← hM] at hops
  have hok := K.history_ok (rng := rng) hsort ops _ (TOk.init s) hops tr hr
  obtain ⟨tr', bats, h1, -, h2, h3, Z, z1, z2⟩ := K.descend hsort hok hb htag k
  rw [hL, hM] at h3
  refine ⟨tr', bats, h1, h2, h3, Z, fun x hx => ⟨(z1 x hx).1, fun w => ?_⟩, z2⟩
  rw [(z1 x hx).2 w]
  have := congrFun hL ⟨rep.n, 0, x.factors ++ w⟩
  simp only [Lg, GLegal, and_true, eq_iff_iff] at this
  rw [this]

/-- C70: whatever sequence of `bootstrap_exhaustive`, `nf_descendants`, `discard_bucket` and additions of true batches of braids with power
zero is executed on a new tracker: every stored image is the projectivised image of its braid, every braid is filed under its own length and
projlen, no bucket is empty, and `valiate_buckets` reports that all entries are sound. -/
theorem C70_tracker_history (hn : 2 ≤ rep.n) (hl : rep.n < lim) (U : SetUp rep ρ c) (hsort : ∀ l, (argsort l).Perm (List.range l.length)) (s : S)
    (ops : List (TrackerOp d)) (hops : ∀ b, TrackerOp.add b ∈ ops → TrueBatch rep.p (GLegal lim ω rep.n) (GMat ρ) b) (tr : Tracker S (List Nat) d)
    (hr : history (GNF.tbl lim ω) (rep.toRep (GNF.tbl lim ω)) rng c argsort s ops = .ok tr) :
    Sound rep.p (GLegal lim ω rep.n) (GMat ρ) tr.buckets ∧ validateBuckets (rep.toRep (GNF.tbl lim ω)) tr.buckets = .ok none := by
  obtain ⟨t, K, hL, hM⟩ := gnf_ctx lim ω hn hl U
  rw [← hL, ← hM] at hops ⊢
  have hok := K.history_ok (rng := rng) hsort ops _ (TOk.init s) hops tr hr
  exact ⟨hok.1.sound K.ne K.total K.length K.cap, K.validate hok.1⟩

/-- C70: `braids_images()` of a bucket hands out as many images as braids, the images belonging to the braids. -/
theorem C70_braids_images (hn : 2 ≤ rep.n) (hl : rep.n < lim) (U : SetUp rep ρ c) (hsort : ∀ l, (argsort l).Perm (List.range l.length)) (s : S)
    (ops : List (TrackerOp d)) (hops : ∀ b, TrackerOp.add b ∈ ops → TrueBatch rep.p (GLegal lim ω rep.n) (GMat ρ) b) (tr : Tracker S (List Nat) d)
    (hr : history (GNF.tbl lim ω) (rep.toRep (GNF.tbl lim ω)) rng c argsort s ops = .ok tr) (tag : Tag) (b : Bucket Tag NF d)
    (hb : (tag, b) ∈ tr.buckets) : b.braidsImages.1.length = b.size ∧ b.braidsImages.2.length = b.size ∧ 1 ≤ b.size ∧
      ∀ i (h1 : i < b.braidsImages.1.length) (h2 : i < b.braidsImages.2.length), IsProjImage rep.p b.braidsImages.2[i] fun _ => GMat ρ b.braidsImages.1[i] := by
  obtain ⟨l, hh, hne, hl⟩ := (C70_tracker_history hn hl U hsort s ops hops tr hr).1 tag b hb
  have hlen : b.braids.length = l.length := by rw [hh.1, List.length_map]
  have e1 : b.braidsImages.1 = l.map Offer.braid := hh.1
  have e2 : b.braidsImages.2 = l.map Offer.image := by rw [Bucket.braidsImages, Bucket.size, hlen, hh.2.1]
  refine ⟨rfl, by rw [e2, List.length_map, Bucket.size, hlen], by rw [Bucket.size, hlen]; exact List.length_pos_iff.2 hne, fun i h1 h2 => ?_⟩
  have hi : i < l.length := by rw [e1, List.length_map] at h1; exact h1
  have := (hl _ (List.getElem_mem hi)).2.1
  simp only [e1, e2, List.getElem_map]
  exact this

/-- C70: `bootstrap_exhaustive(upto)` offers every braid with power zero and length `1..upto` exactly once, with its true image, and succeeds
in every reachable state. -/
theorem C70_tracker_bootstrap (hn : 2 ≤ rep.n) (hl : rep.n < lim) (U : SetUp rep ρ c) (hsort : ∀ l, (argsort l).Perm (List.range l.length)) (s : S)
    (ops : List (TrackerOp d)) (hops : ∀ b, TrackerOp.add b ∈ ops → TrueBatch rep.p (GLegal lim ω rep.n) (GMat ρ) b) (tr : Tracker S (List Nat) d)
    (hr : history (GNF.tbl lim ω) (rep.toRep (GNF.tbl lim ω)) rng c argsort s ops = .ok tr) (upto : Nat) :
    ∃ tr' bats, bootstrapExhaustive (GNF.tbl lim ω) (rep.toRep (GNF.tbl lim ω)) rng c upto tr = .ok tr' ∧
      run rng c (tr.buckets, tr.rng) (bats.map Op.add) = .ok (tr'.buckets, tr'.rng) ∧
      (∀ b' ∈ bats, TrueBatch rep.p (GLegal lim ω rep.n) (GMat ρ) b') ∧
      (braidsOf bats).Nodup ∧ ∀ x, x ∈ braidsOf bats ↔ IsGNF lim ω rep.n x ∧ x.power = 0 ∧ 1 ≤ x.factors.length ∧ x.factors.length ≤ upto := by
  obtain ⟨t, K, hL, hM⟩ := gnf_ctx lim ω hn hl U
  rw [← hL, ← hM] at hops ⊢
  have hok := K.history_ok (rng := rng) hsort ops _ (TOk.init s) hops tr hr
  obtain ⟨tr', bats, h1, -, h2, h3, h4, h5⟩ := K.bootstrap upto hok
  refine ⟨tr', bats, h1, h2, h3, h4, fun x => ?_⟩
  rw [h5 x, hL, GLegal, and_assoc]

/-- C70: the operations that cannot be refused are never refused: a history of bootstraps, discards and true additions succeeds, and so does
`nf_descendants` on an existing bucket of braids of positive length (C69). -/
theorem C70_tracker_total (hn : 2 ≤ rep.n) (hl : rep.n < lim) (U : SetUp rep ρ c) (hsort : ∀ l, (argsort l).Perm (List.range l.length)) (s : S)
    (ops : List (TrackerOp d)) (hops : ∀ b, TrackerOp.add b ∈ ops → TrueBatch rep.p (GLegal lim ω rep.n) (GMat ρ) b) (tr : Tracker S (List Nat) d)
    (hr : history (GNF.tbl lim ω) (rep.toRep (GNF.tbl lim ω)) rng c argsort s ops = .ok tr) (b : Batch NF d)
    (hb : TrueBatch rep.p (GLegal lim ω rep.n) (GMat ρ) b) : ∃ st, addBraidsImages rng c (tr.buckets, tr.rng) b = .ok st := by
  obtain ⟨t, K, hL, hM⟩ := gnf_ctx lim ω hn hl U
  rw [← hL, ← hM] at hops hb
  have hok := K.history_ok (rng := rng) hsort ops _ (TOk.init s) hops tr hr
  obtain ⟨st, h1, -⟩ := hok.1.add_ok K.ne K.total K.length K.cap hb
  exact ⟨st, h1⟩

end gnf

section dgnf
variable {ω : NPar → NPar → Nat → Nat}

/-- C69 for the dual normal form. -/
theorem C69_tracker_descendants_dual (hn : 2 ≤ rep.n) (hl : NPar.catalanNum rep.n < lim) (U : SetUp rep ρ c) (hsort : ∀ l, (argsort l).Perm (List.range l.length)) (s : S)
    (ops : List (TrackerOp d)) (hops : ∀ b, TrackerOp.add b ∈ ops → TrueBatch rep.p (DLegal lim ω rep.n) (DMat ρ) b) (tr : Tracker S NPar d)
    (hr : history (DGNF.tbl lim ω) (rep.toRep (DGNF.tbl lim ω)) rng c argsort s ops = .ok tr) (tag : Tag) (b : Bucket Tag NF d)
    (hb : Dict.get? tr.buckets tag = some b) (htag : 1 ≤ tag.1) (k : Nat) :
    ∃ tr' bats, nfDescendants (DGNF.tbl lim ω) (rep.toRep (DGNF.tbl lim ω)) rng c argsort tr tag k = .ok tr' ∧
      run rng c (tr.buckets, tr.rng) (bats.map Op.add) = .ok (tr'.buckets, tr'.rng) ∧
      (∀ b' ∈ bats, TrueBatch rep.p (DLegal lim ω rep.n) (DMat ρ) b') ∧
      ∃ Z : NF → List (List Nat), (∀ x ∈ b.braids, (Z x).Nodup ∧ ∀ w, w ∈ Z x ↔ w.length = k ∧ IsDGNF lim ω rep.n ⟨rep.n, 0, x.factors ++ w⟩) ∧
        (braidsOf bats).Perm (b.braids.flatMap fun x => (Z x).map fun w => ⟨rep.n, 0, x.factors ++ w⟩) := by
  obtain ⟨t, K, hL, hM⟩ := dgnf_ctx lim ω hn hl U
  rw [← hL, ← hM] at hops
  have hok := K.history_ok (rng := rng) hsort ops _ (TOk.init s) hops tr hr
  obtain ⟨tr', bats, h1, -, h2, h3, Z, z1, z2⟩ := K.descend hsort hok hb htag k
  rw [hL, hM] at h3
  refine ⟨tr', bats, h1, h2, h3, Z, fun x hx => ⟨(z1 x hx).1, fun w => ?_⟩, z2⟩
  rw [(z1 x hx).2 w]
  have := congrFun hL ⟨rep.n, 0, x.factors ++ w⟩
  simp only [Lg, DLegal, and_true, eq_iff_iff] at this
  rw [this]

/-- C70 for the dual normal form. -/
theorem C70_tracker_history_dual (hn : 2 ≤ rep.n) (hl : NPar.catalanNum rep.n < lim) (U : SetUp rep ρ c) (hsort : ∀ l, (argsort l).Perm (List.range l.length)) (s : S)
    (ops : List (TrackerOp d)) (hops : ∀ b, TrackerOp.add b ∈ ops → TrueBatch rep.p (DLegal lim ω rep.n) (DMat ρ) b) (tr : Tracker S NPar d)
    (hr : history (DGNF.tbl lim ω) (rep.toRep (DGNF.tbl lim ω)) rng c argsort s ops = .ok tr) :
    Sound rep.p (DLegal lim ω rep.n) (DMat ρ) tr.buckets ∧ validateBuckets (rep.toRep (DGNF.tbl lim ω)) tr.buckets = .ok none := by
  obtain ⟨t, K, hL, hM⟩ := dgnf_ctx lim ω hn hl U
  rw [← hL, ← hM] at hops ⊢
  have hok := K.history_ok (rng := rng) hsort ops _ (TOk.init s) hops tr hr
  exact ⟨hok.1.sound K.ne K.total K.length K.cap, K.validate hok.1⟩

/-- C70 for the dual normal form: `bootstrap_exhaustive`. -/
theorem C70_tracker_bootstrap_dual (hn : 2 ≤ rep.n) (hl : NPar.catalanNum rep.n < lim) (U : SetUp rep ρ c) (hsort : ∀ l, (argsort l).Perm (List.range l.length)) (s : S)
    (ops : List (TrackerOp d)) (hops : ∀ b, TrackerOp.add b ∈ ops → TrueBatch rep.p (DLegal lim ω rep.n) (DMat ρ) b) (tr : Tracker S NPar d)
    (hr : history (DGNF.tbl lim ω) (rep.toRep (DGNF.tbl lim ω)) rng c argsort s ops = .ok tr) (upto : Nat) :
    ∃ tr' bats, bootstrapExhaustive (DGNF.tbl lim ω) (rep.toRep (DGNF.tbl lim ω)) rng c upto tr = .ok tr' ∧
      run rng c (tr.buckets, tr.rng) (bats.map Op.add) = .ok (tr'.buckets, tr'.rng) ∧
      (∀ b' ∈ bats, TrueBatch rep.p (DLegal lim ω rep.n) (DMat ρ) b') ∧
      (braidsOf bats).Nodup ∧ ∀ x, x ∈ braidsOf bats ↔ IsDGNF lim ω rep.n x ∧ x.power = 0 ∧ 1 ≤ x.factors.length ∧ x.factors.length ≤ upto := by
  obtain ⟨t, K, hL, hM⟩ := dgnf_ctx lim ω hn hl U
  rw [← hL, ← hM] at hops ⊢
  have hok := K.history_ok (rng := rng) hsort ops _ (TOk.init s) hops tr hr
  obtain ⟨tr', bats, h1, -, h2, h3, h4, h5⟩ := K.bootstrap upto hok
  refine ⟨tr', bats, h1, h2, h3, h4, fun x => ?_⟩
  rw [h5 x, hL, DLegal, and_assoc]

end dgnf

/-! ### `valiate_buckets` on arbitrary contents -/

/-- C70: what `valiate_buckets` says about arbitrary (for example tampered with) buckets whose slots have the width of the true images: it
answers "sound" exactly if every bucket hands out the images that the representation computes for its braids ... -/
theorem C70_validate_none {r : Rep d} (bs : Buckets NF d)
    (h : ∀ tb ∈ bs, ∃ A, r.evalSame tb.2.braidsImages.1 = .ok A ∧ A.length = tb.2.width) :
    validateBuckets r bs = .ok none ↔ ∀ tb ∈ bs, ∃ A, r.evalSame tb.2.braidsImages.1 = .ok A ∧
      ∀ (i : Fin tb.2.braidsImages.1.length) (k : Nat), k < tb.2.width → Polymat.slice (tb.2.braidsImages.2.getD i []) k () = Polymat.slice A k i := by
  have key : ∀ tb ∈ bs, ∀ A, r.evalSame tb.2.braidsImages.1 = .ok A → A.length = tb.2.width →
      (stored tb.2 = A ↔ ∀ (i : Fin tb.2.braidsImages.1.length) (k : Nat), k < tb.2.width → Polymat.slice (tb.2.braidsImages.2.getD i []) k () = Polymat.slice A k i) := by
    intro tb _ A _ hl
    have hs : ∀ k, k < tb.2.width → ∀ i, Polymat.slice (stored tb.2) k i = Polymat.slice (tb.2.braidsImages.2.getD i []) k () := by
      intro k hk i
      rw [Polymat.slice_lt _ (by rw [stored_length]; exact hk)]
      simp only [stored]
      erw [List.getElem_map]
      simp
    constructor
    · intro e i k hk
      rw [← e]; exact (hs k hk i).symm
    · intro h'
      refine slice_ext (by rw [stored_length, hl]) fun k => funext fun i => ?_
      rcases Nat.lt_or_ge k tb.2.width with hk | hk
      · rw [hs k hk i]; exact h' i k hk
      · rw [Polymat.slice_ge _ (by rw [stored_length]; exact hk), Polymat.slice_ge A (by omega)]
  constructor
  · intro hv tb htb
    obtain ⟨A, a1, a2⟩ := h tb htb
    obtain ⟨o, o1, o2, -⟩ := validateBucket_spec a1 a2
    have := of_validateBuckets_none bs hv tb htb
    rw [this] at o1; cases o1
    exact ⟨A, a1, (key tb htb A a1 a2).1 (o2.1 rfl)⟩
  · intro h'
    refine validateBuckets_none _ fun tb htb => ?_
    obtain ⟨A, a1, a2⟩ := h tb htb
    obtain ⟨A', b1, b2⟩ := h' tb htb
    rw [a1] at b1; cases b1
    obtain ⟨o, o1, o2, -⟩ := validateBucket_spec a1 a2
    rw [o1, o2.2 ((key tb htb A a1 a2).2 b2)]

/-- C70: if the slots of a bucket and the evaluated images have different widths, neither of them one, `valiate_buckets` raises ValueError when it gets
to that bucket. -/
theorem C70_validate_widths {r : Rep d} (t : Tag) (b : Bucket Tag NF d) (bs : Buckets NF d) (A) (h : r.evalSame b.braidsImages.1 = .ok A)
    (h0 : A.length ≠ b.width) (h1 : A.length ≠ 1) (h2 : b.width ≠ 1) : validateBuckets r ((t, b) :: bs) = .error .value := by
  have : validateBucket r b = .error .value := by
    rw [validateBucket]
    dsimp only
    rw [h, bind_ok, allEq, if_neg (by rw [List.length_map, List.length_range]; exact fun e => h0 e.symm), if_neg (by rw [List.length_map, List.length_range]; exact h2), if_neg h1]
    rfl
  rw [validateBuckets, this]; rfl

/-- Equality of tensors after broadcasting a last axis of length one. -/
private theorem allEq_bc {α : Type} [Fintype α] [DecidableEq α] {A B : PArr α d d} (hw : A.length = B.length ∨ A.length = 1 ∨ B.length = 1) :
    ∃ e, allEq A B = .ok e ∧ (e = true ↔ ∀ k, k < (if A.length = 1 then B.length else A.length) → ∀ a,
      Polymat.slice A (if A.length = 1 then 0 else k) a = Polymat.slice B (if B.length = 1 then 0 else k) a) := by
  rw [allEq]
  by_cases h : A.length = B.length
  · refine ⟨_, if_pos h, ?_⟩
    rw [decide_eq_true_iff]
    constructor
    · rintro rfl k - a; rfl
    · intro H
      refine slice_ext h fun k => ?_
      by_cases hk : k < A.length
      · have := H k (by split_ifs <;> omega)
        rw [h] at this
        by_cases h1 : B.length = 1
        · rw [if_pos h1] at this
          obtain rfl : k = 0 := by omega
          exact funext this
        · rw [if_neg h1] at this
          exact funext this
      · rw [Polymat.slice_ge _ (by omega), Polymat.slice_ge _ (by omega)]
  · rw [if_neg h]
    by_cases h1 : A.length = 1
    · have hB : B.length ≠ 1 := by omega
      refine ⟨_, if_pos h1, ?_⟩
      simp only [List.all_eq_true, decide_eq_true_iff, if_pos h1, if_neg hB]
      constructor
      · intro H k hk a
        rw [Polymat.slice_lt _ hk, H _ (List.getElem_mem hk)]
      · intro H S hS
        obtain ⟨k, hk, rfl⟩ := List.getElem_of_mem hS
        funext a
        rw [H k hk a, Polymat.slice_lt _ hk]
    · have hB : B.length = 1 := by omega
      refine ⟨_, by rw [if_neg h1, if_pos hB], ?_⟩
      simp only [List.all_eq_true, decide_eq_true_iff, if_neg h1, if_pos hB]
      constructor
      · intro H k hk a
        rw [Polymat.slice_lt _ hk, H _ (List.getElem_mem hk)]
      · intro H S hS
        obtain ⟨k, hk, rfl⟩ := List.getElem_of_mem hS
        funext a
        rw [← H k hk a, Polymat.slice_lt _ hk]

/-- C70: widths that are equal or of which one is one are compared as numpy broadcasts them: the bucket passes exactly if the stored tensor and the true one
agree at every degree, a tensor with a single slice being read as having that slice at every degree. -/
theorem C70_validate_broadcast {r : Rep d} (b : Bucket Tag NF d) (A) (h : r.evalSame b.braidsImages.1 = .ok A)
    (hw : b.width = A.length ∨ b.width = 1 ∨ A.length = 1) :
    validateBucket r b = .ok none ↔ ∀ k, k < (if b.width = 1 then A.length else b.width) → ∀ i : Fin b.braidsImages.1.length,
      Polymat.slice (b.braidsImages.2.getD i []) (if b.width = 1 then 0 else k) () = Polymat.slice A (if A.length = 1 then 0 else k) i := by
  have hs : ∀ k, k < b.width → ∀ i, Polymat.slice (stored b) k i = Polymat.slice (b.braidsImages.2.getD i []) k () := by
    intro k hk i
    rw [Polymat.slice_lt _ (by rw [stored_length]; exact hk)]
    simp only [stored]
    erw [List.getElem_map]
    simp
  have hb := stored_length b
  obtain ⟨e, e1, e2⟩ := allEq_bc (A := stored b) (B := A) (by rw [hb]; exact hw)
  have hi : ∀ i, ∃ e, allEq (imgAt (stored b) i) (imgAt A i) = .ok e ∧ (e = true ↔ ∀ k, k < (if b.width = 1 then A.length else b.width) →
      Polymat.slice (stored b) (if b.width = 1 then 0 else k) i = Polymat.slice A (if A.length = 1 then 0 else k) i) := by
    intro i
    have l1 : (imgAt (stored b) i).length = b.width := by rw [imgAt, List.length_map, hb]
    have l2 : (imgAt A i).length = A.length := by rw [imgAt, List.length_map]
    obtain ⟨e, e1, e2⟩ := allEq_bc (A := imgAt (stored b) i) (B := imgAt A i) (by rw [l1, l2]; exact hw)
    refine ⟨e, e1, e2.trans ?_⟩
    rw [l1, l2]
    refine forall_congr' fun k => imp_congr_right fun _ => ?_
    constructor
    · intro H; have := H (); rwa [slice_imgAt, slice_imgAt] at this
    · rintro H ⟨⟩; rw [slice_imgAt, slice_imgAt]; exact H
  rw [hb] at e2
  have e2' : e = true ↔ ∀ k, k < (if b.width = 1 then A.length else b.width) → ∀ i : Fin b.braidsImages.1.length,
      Polymat.slice (b.braidsImages.2.getD i []) (if b.width = 1 then 0 else k) () = Polymat.slice A (if A.length = 1 then 0 else k) i := by
    rw [e2]
    refine forall_congr' fun k => imp_congr_right fun hk => forall_congr' fun i => ?_
    rw [hs _ (by split_ifs at hk ⊢ <;> omega)]
  rw [← e2', validateBucket]
  dsimp only
  rw [h, bind_ok]
  change ((allEq (stored b) A >>= _) = _) ↔ _
  rw [e1, bind_ok]
  cases e with
  | true => simp
  | false =>
    simp only [Bool.not_false, if_true, Bool.false_eq_true, iff_false]
    change ¬ ((firstWrong (stored b) A _ >>= _) = _)
    have hf : ∀ is : List (Fin b.braidsImages.1.length), (∃ i ∈ is, ¬ ∀ k, k < (if b.width = 1 then A.length else b.width) →
        Polymat.slice (stored b) (if b.width = 1 then 0 else k) i = Polymat.slice A (if A.length = 1 then 0 else k) i) →
        ∃ i, firstWrong (stored b) A is = .ok (some i) := by
      intro is
      induction is with
      | nil => rintro ⟨i, hi, -⟩; cases hi
      | cons i is ih =>
        rintro ⟨j, hj, hne⟩
        obtain ⟨e, e1, e2⟩ := hi i
        rw [firstWrong, e1, bind_ok]
        cases e with
        | false => exact ⟨i, rfl⟩
        | true =>
          rcases List.mem_cons.1 hj with rfl | hj
          · exact absurd (e2.1 rfl) hne
          · exact ih ⟨j, hj, hne⟩
    have hne : ∃ i ∈ List.finRange b.braidsImages.1.length, ¬ ∀ k, k < (if b.width = 1 then A.length else b.width) →
        Polymat.slice (stored b) (if b.width = 1 then 0 else k) i = Polymat.slice A (if A.length = 1 then 0 else k) i := by
      by_contra H
      push Not at H
      exact Bool.false_ne_true (e2.2 fun k hk i => H i (List.mem_finRange i) k hk)
    obtain ⟨i, hi⟩ := hf _ hne
    rw [hi, bind_ok]
    simp

/-- ... and otherwise returns a stored braid, the image the representation computes for it and the different one that is stored. -/
theorem C70_validate_some {r : Rep d} (bs : Buckets NF d) (h : ∀ tb ∈ bs, ∃ A, r.evalSame tb.2.braidsImages.1 = .ok A ∧ A.length = tb.2.width)
    (x : NF) (act st : Img d) (hv : validateBuckets r bs = .ok (some (x, act, st))) :
    ∃ tb ∈ bs, ∃ A, r.evalSame tb.2.braidsImages.1 = .ok A ∧ ∃ i, x = tb.2.braidsImages.1[i] ∧ act = imgAt A i ∧ act ≠ st ∧
      st.length = tb.2.width ∧ ∀ k, k < tb.2.width → Polymat.slice st k () = Polymat.slice (tb.2.braidsImages.2.getD i []) k () := by
  obtain ⟨tb, htb, hb⟩ := of_validateBuckets_some bs hv
  obtain ⟨A, a1, a2⟩ := h tb htb
  obtain ⟨o, o1, -, o3⟩ := validateBucket_spec a1 a2
  rw [hb] at o1; cases o1
  obtain ⟨i, i1, i2, i3, i4⟩ := o3 x act st rfl
  refine ⟨tb, htb, A, a1, i, i1, i2, i4, by rw [i3, imgAt, List.length_map, stored_length], fun k hk => ?_⟩
  rw [i3, slice_imgAt, Polymat.slice_lt _ (by rw [stored_length]; exact hk)]
  simp only [stored]
  erw [List.getElem_map]
  simp

/-! ### The Jones representations -/

/-- The hypotheses of C69 and C70 are met by every `JonesCellRep(n, r, p)` and every tracker without extra statistics and weight. -/
theorem C70_jones_setup (n r p : Nat) (hn : 2 ≤ n) (h : 2 * r ≤ n) (hp : p ≠ 1) (capacity : Nat) (hc : 1 ≤ capacity) (method : Method) :
    ∃ (ρ : Braid n →* LMat p (Jones.dimension n r)) (G I : List Matrix), Jones.cellRep n r p = .ok ⟨n, p, G, I⟩ ∧
      SetUp (⟨n, p, G, I⟩ : RepBase (Jones.dimension n r)) ρ ⟨capacity, method, NF.canonicalLength, [], none⟩ := by
  obtain ⟨ρ, G, I, gs, g1, g2, -, -, hF, hd⟩ := C54_hypotheses n r p hn h
  exact ⟨ρ, G, I, g1, g2, hF, hd, hp, ⟨by simp, by simp⟩, rfl, hc⟩

/-- A history meeting the hypotheses: bootstrap to length two, with `JonesCellRep(4, 1, 5)`. -/
example (rng : Rng S) (s : S) : ∃ (G I : List Matrix) (tr : Tracker S (List Nat) (Jones.dimension 4 1)), Jones.cellRep 4 1 5 = .ok ⟨4, 5, G, I⟩ ∧
    history (GNF.tbl 7 (fun _ _ _ => 0)) ((⟨4, 5, G, I⟩ : RepBase (Jones.dimension 4 1)).toRep (GNF.tbl 7 (fun _ _ _ => 0))) rng ⟨2, .uniform, NF.canonicalLength, [], none⟩
      (fun l => List.range l.length) s [.bootstrap 2] = .ok tr := by
  obtain ⟨ρ, G, I, h1, U⟩ := C70_jones_setup 4 1 5 (by norm_num) (by norm_num) (by norm_num) 2 (by norm_num) .uniform
  obtain ⟨tr', -, h2, -⟩ := C70_tracker_bootstrap (lim := 7) (ω := fun _ _ _ => 0) (rng := rng) (argsort := fun l => List.range l.length) (by norm_num) (by norm_num) U
    (fun l => List.Perm.refl _) s [] (by simp) ⟨[], [], s⟩ rfl 2
  exact ⟨G, I, tr', h1, by rw [history, List.foldlM_cons, TrackerOp.exec, h2]; rfl⟩

/-- The same for `DGNF`. -/
example (rng : Rng S) (s : S) : ∃ (G I : List Matrix) (tr : Tracker S NPar (Jones.dimension 4 1)), Jones.cellRep 4 1 5 = .ok ⟨4, 5, G, I⟩ ∧
    history (DGNF.tbl 100 (fun _ _ _ => 0)) ((⟨4, 5, G, I⟩ : RepBase (Jones.dimension 4 1)).toRep (DGNF.tbl 100 (fun _ _ _ => 0))) rng ⟨2, .uniform, NF.canonicalLength, [], none⟩
      (fun l => List.range l.length) s [.bootstrap 2] = .ok tr := by
  obtain ⟨ρ, G, I, h1, U⟩ := C70_jones_setup 4 1 5 (by norm_num) (by norm_num) (by norm_num) 2 (by norm_num) .uniform
  obtain ⟨tr', -, h2, -⟩ := C70_tracker_bootstrap_dual (lim := 100) (ω := fun _ _ _ => 0) (rng := rng) (argsort := fun l => List.range l.length) (by norm_num) (show NPar.catalanNum 4 < 100 by decide +kernel) U
    (fun l => List.Perm.refl _) s [] (by simp) ⟨[], [], s⟩ rfl 2
  exact ⟨G, I, tr', h1, by rw [history, List.foldlM_cons, TrackerOp.exec, h2]; rfl⟩

end Peyl
