import Verif.Lemmas.BucketDescend3
/-!
# `valiate_buckets` of `bucketing.Tracker`
-/
namespace Peyl
open LaurentPolynomial Polymat
namespace Bucketing
variable {S τ W : Type} [DecidableEq τ] [Group W] {d : Nat} {rep : RepBase d} {ρ : Braid rep.n →* LMat rep.p d}
variable {tbl : Nat → Except Err (NFTable τ)} {t : NFTable τ} {g : Germ W} {v : Nat → W} {β : W → Braid rep.n}
variable {c : Config NF d} (K : Ctx rep ρ tbl t g v β c) {rng : Rng S}

theorem allEq_iff {α : Type} [Fintype α] [DecidableEq α] {A B : PArr α d d} (h : A.length = B.length) : allEq A B = .ok (decide (A = B)) := by
  rw [allEq, if_pos h]

/-- The tensor of images a bucket hands out. -/
def stored (b : Bucket Tag NF d) : PArr (Fin b.braidsImages.1.length) d d :=
  (List.range b.width).map fun k l => Polymat.slice (b.braidsImages.2.getD l []) k ()

theorem stored_length (b : Bucket Tag NF d) : (stored b).length = b.width := by simp [stored]

theorem slice_ext {α : Type} {A B : PArr α d d} (hl : A.length = B.length) (h : ∀ k, slice A k = slice B k) : A = B := by
  refine List.ext_getElem hl fun k h1 h2 => ?_
  have := h k
  rwa [slice_lt A h1, slice_lt B h2] at this

theorem firstWrong_spec {L : Nat} {A B : PArr (Fin L) d d} (hl : A.length = B.length) : ∀ is : List (Fin L),
    ∃ r, firstWrong A B is = .ok r ∧ (r = none ↔ ∀ i ∈ is, imgAt A i = imgAt B i) ∧ ∀ i, r = some i → i ∈ is ∧ imgAt A i ≠ imgAt B i
  | [] => ⟨none, rfl, by simp, by simp⟩
  | i :: is => by
    obtain ⟨r, r1, r2, r3⟩ := firstWrong_spec hl is
    have he : allEq (imgAt A i) (imgAt B i) = .ok (decide (imgAt A i = imgAt B i)) := allEq_iff (by simpa [imgAt] using hl)
    by_cases h : imgAt A i = imgAt B i
    · refine ⟨r, ?_, ?_, ?_⟩
      · rw [firstWrong, he, bind_ok]; simpa [h] using r1
      · rw [r2]; simp [h]
      · intro j hj; exact ⟨by simp [(r3 j hj).1], (r3 j hj).2⟩
    · refine ⟨some i, ?_, ?_, ?_⟩
      · rw [firstWrong, he, bind_ok]; simp [h]
      · simp [h]
      · rintro j ⟨⟩; exact ⟨by simp, h⟩

theorem imgAt_ext {L : Nat} {A B : PArr (Fin L) d d} (hl : A.length = B.length) (h : ∀ i, imgAt A i = imgAt B i) : A = B := by
  refine slice_ext hl fun k => funext fun i => ?_
  have h1 := slice_imgAt A i k
  have h2 := slice_imgAt B i k
  rw [h i] at h1
  exact h1.symm.trans h2

/-- One bucket, when the true tensor has the width of the slots. -/
theorem validateBucket_spec {r : Rep d} {b : Bucket Tag NF d} {A : PArr (Fin b.braidsImages.1.length) d d} (hA : r.evalSame b.braidsImages.1 = .ok A) (hw : A.length = b.width) :
    ∃ o, validateBucket r b = .ok o ∧ (o = none ↔ stored b = A) ∧
      ∀ x act st, o = some (x, act, st) → ∃ i : Fin b.braidsImages.1.length, x = b.braidsImages.1[i] ∧ act = imgAt A i ∧ st = imgAt (stored b) i ∧ act ≠ st := by
  have hl : (stored b).length = A.length := by rw [hw]; simp [stored]
  rw [validateBucket]
  dsimp only
  rw [hA, bind_ok]
  have he : allEq (stored b) A = .ok (decide (stored b = A)) := allEq_iff hl
  obtain ⟨q, q1, q2, q3⟩ := firstWrong_spec hl (List.finRange b.braidsImages.1.length)
  by_cases h : stored b = A
  · refine ⟨none, ?_, by simp [h], by simp⟩
    change (allEq (stored b) A >>= _) = _
    rw [he, bind_ok]; simp [h]
  · refine ⟨q.map fun i => (b.braidsImages.1[i], imgAt A i, imgAt (stored b) i), ?_, ?_, ?_⟩
    · change (allEq (stored b) A >>= _) = _
      rw [he, bind_ok]
      simp only [h, decide_false, Bool.not_false, if_true]
      change (firstWrong (stored b) A _ >>= _) = _
      rw [q1, bind_ok]
      rfl
    · rw [Option.map_eq_none_iff, q2]
      constructor
      · intro h'; exact imgAt_ext hl fun i => h' i (List.mem_finRange i)
      · intro h'; exact absurd h' h
    · intro x act st e
      cases q with
      | none => cases e
      | some i =>
        cases e
        exact ⟨i, rfl, rfl, rfl, fun e => (q3 i rfl).2 e.symm⟩

theorem validateBuckets_none {r : Rep d} : ∀ bs : Buckets NF d, (∀ tb ∈ bs, validateBucket r tb.2 = .ok none) → validateBuckets r bs = .ok none
  | [], _ => rfl
  | tb :: bs, h => by
    rw [validateBuckets, h tb (by simp), bind_ok]
    exact validateBuckets_none bs fun x hx => h x (by simp [hx])

theorem of_validateBuckets_none {r : Rep d} : ∀ bs : Buckets NF d, validateBuckets r bs = .ok none → ∀ tb ∈ bs, validateBucket r tb.2 = .ok none
  | [], _ => by simp
  | tb :: bs, h => by
    rw [validateBuckets] at h
    cases hv : validateBucket r tb.2 with
    | error e => rw [hv] at h; cases h
    | ok o =>
      rw [hv, bind_ok] at h
      cases o with
      | some x => cases h
      | none =>
        intro x hx
        rcases List.mem_cons.1 hx with rfl | hx
        · exact hv
        · exact of_validateBuckets_none bs h x hx

theorem of_validateBuckets_some {r : Rep d} {x : NF × Img d × Img d} : ∀ bs : Buckets NF d, validateBuckets r bs = .ok (some x) → ∃ tb ∈ bs, validateBucket r tb.2 = .ok (some x)
  | [], h => by cases h
  | tb :: bs, h => by
    rw [validateBuckets] at h
    cases hv : validateBucket r tb.2 with
    | error e => rw [hv] at h; cases h
    | ok o =>
      rw [hv, bind_ok] at h
      cases o with
      | some y => cases h; exact ⟨tb, by simp, hv⟩
      | none =>
        obtain ⟨tb', h1, h2⟩ := of_validateBuckets_some bs h
        exact ⟨tb', by simp [h1], h2⟩

include K

/-- The tensor of a sound bucket is the one the representation computes. -/
theorem Ctx.stored_eq {st : Buckets NF d × S} (h : Reach rng c rep.p (Lg t rep.n) (Mt ρ g v β) st) {tag : Tag} {b : Bucket Tag NF d}
    (hb : Dict.get? st.1 tag = some b) : ∃ A, (rep.toRep tbl).evalSame b.braidsImages.1 = .ok A ∧ A.length = b.width ∧ stored b = A := by
  obtain ⟨l, hh, hne, hw, htrue⟩ := h.bucket K.ne K.total K.length K.cap hb
  have hlen : b.braids.length = l.length := by rw [hh.1, List.length_map]
  have hbne : b.braids ≠ [] := by rw [hh.1]; simpa using hne
  have hbr : ∀ y ∈ b.braids, Lg t rep.n y ∧ y.factors.length = tag.1.toNat := by
    intro y hy
    rw [hh.1] at hy
    obtain ⟨o, ho, rfl⟩ := List.mem_map.1 hy
    have := (htrue o ho).2.2.1
    rw [NF.canonicalLength] at this
    exact ⟨(htrue o ho).1, by omega⟩
  obtain ⟨A, a1, a2⟩ := K.eval b.braids hbne tag.1.toNat hbr
  have e2 : b.braidsImages.2 = l.map Offer.image := by rw [Bucket.braidsImages, Bucket.size, hlen, hh.2.1]
  have hget : ∀ i : Fin b.braids.length, ∃ o ∈ l, b.braidsImages.2.getD i [] = o.image ∧ b.braids[i] = o.braid := by
    intro i
    have hi : i.1 < l.length := by rw [← hlen]; exact i.2
    refine ⟨l[i.1], List.getElem_mem hi, ?_, ?_⟩
    · rw [e2, List.getD_eq_getElem?_getD, List.getElem?_eq_getElem (by simpa using hi), Option.getD_some, List.getElem_map]
    · have : ∀ (xs : List NF) (h : i.1 < xs.length), xs = l.map Offer.braid → xs[i.1] = l[i.1].braid := by
        rintro xs h rfl; exact List.getElem_map _
      exact this b.braids i.2 hh.1
  have hs : IsProjImage rep.p (stored b) (fun i : Fin b.braids.length => Mt ρ g v β b.braids[i]) :=
    stack_image (List.length_pos_iff.2 hbne) (fun i : Fin b.braids.length => b.braidsImages.2.getD i []) _ (fun i => by
      obtain ⟨o, ho, e1, -⟩ := hget i
      rw [e1]; exact (htrue o ho).2.2.2) (fun i => by
      obtain ⟨o, ho, e1, e2⟩ := hget i
      rw [e1, e2]; exact (htrue o ho).2.1)
  have e : stored b = A := hs.unique a2
  exact ⟨A, a1, e ▸ stored_length b, e⟩

theorem Ctx.validate {st : Buckets NF d × S} (h : Reach rng c rep.p (Lg t rep.n) (Mt ρ g v β) st) : validateBuckets (rep.toRep tbl) st.1 = .ok none := by
  obtain ⟨s, ops, -, h2⟩ := id h
  have hi := run_inv rng c ops (inv_empty c) h2
  refine validateBuckets_none _ fun tb htb => ?_
  obtain ⟨A, a1, a2, a3⟩ := K.stored_eq h (Dict.get?_of_mem hi.nodup (show (tb.1, tb.2) ∈ st.1 from htb))
  obtain ⟨o, o1, o2, -⟩ := validateBucket_spec a1 a2
  rw [o1, o2.2 a3]

/-- Histories. -/
theorem Ctx.history_ok {argsort : List Nat → List Nat} (hsort : ∀ l, (argsort l).Perm (List.range l.length)) : ∀ (ops : List (TrackerOp d)) (tr : Tracker S τ d),
    TOk rep ρ tbl t g v β rng c tr → (∀ b, TrackerOp.add b ∈ ops → TrueBatch rep.p (Lg t rep.n) (Mt ρ g v β) b) → ∀ tr',
    ops.foldlM (TrackerOp.exec tbl (rep.toRep tbl) rng c argsort) tr = .ok tr' → TOk rep ρ tbl t g v β rng c tr'
  | [], tr, h, _, tr', e => by cases e; exact h
  | op :: ops, tr, h, ho, tr', e => by
    rw [List.foldlM_cons] at e
    cases hx : TrackerOp.exec tbl (rep.toRep tbl) rng c argsort tr op with
    | error e' => rw [hx] at e; cases e
    | ok tr1 =>
      rw [hx, bind_ok] at e
      refine Ctx.history_ok hsort ops tr1 ?_ (fun b hb => ho b (by simp [hb])) tr' e
      cases op with
      | bootstrap upto =>
        obtain ⟨tr2, bats, b1, b2, -⟩ := K.bootstrap (rng := rng) upto h
        rw [TrackerOp.exec, b1] at hx; cases hx; exact b2
      | descend tag k =>
        rw [TrackerOp.exec] at hx
        cases hg : Dict.get? tr.buckets tag with
        | none => rw [nfDescendants, Dict.get, hg] at hx; cases hx
        | some b =>
          by_cases htag : 1 ≤ tag.1
          · obtain ⟨tr2, bats, b1, b2, -⟩ := K.descend hsort h hg htag k
            rw [b1] at hx; cases hx; exact b2
          · exfalso
            obtain ⟨l, hh, hne, -, htrue⟩ := h.1.bucket K.ne K.total K.length K.cap hg
            obtain ⟨o, l', rfl⟩ := List.exists_cons_of_ne_nil hne
            have h0 := (htrue o (by simp)).2.2.1
            rw [NF.canonicalLength] at h0
            have h1 : o.braid.factors = [] := List.length_eq_zero_iff.1 (by omega)
            have h2 : b.braidsImages.1 = o.braid :: l'.map Offer.braid := hh.1
            rw [nfDescendants, Dict.get, hg, bind_ok] at hx
            dsimp only at hx
            rw [h2, List.mapM_cons, lastFactor, h1] at hx
            cases hx
      | discard tag =>
        cases hx
        exact ⟨h.1.append [.discard tag] (by simp) rfl, h.2⟩
      | add b =>
        obtain ⟨st', a1, -, a3⟩ := h.1.add_ok K.ne K.total K.length K.cap (ho b (by simp))
        rw [TrackerOp.exec, a1, bind_ok] at hx
        cases hx
        exact ⟨a3, h.2⟩

omit K in
theorem TOk.init (s : S) : TOk rep ρ tbl t g v β rng c ⟨[], [], s⟩ := ⟨⟨s, [], by simp, rfl⟩, fun k δ r hr => by cases hr⟩

end Bucketing
end Peyl
