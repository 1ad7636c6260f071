import Verif.Lemmas.TLStack
import Mathlib.Data.Set.Finite.Lattice
/-!
# Correctness of `compose`
-/
namespace Peyl
namespace TL

/-- Joined in the folded picture of two lists. -/
abbrev JnL (upper lower : List Nat) (mid : Nat) : Nat → Nat → Prop :=
  Jn (fold upper lower) lower.length mid (lower.length + upper.length)

/-- Position of a point of the stacked picture. -/
def ppos (lower : List Nat) (x : Pt) : Nat := if x.1 then lower.length + x.2 else x.2

/-- The point at a position. -/
def unpos (lower : List Nat) (x : Nat) : Pt := if x < lower.length then (false, x) else (true, x - lower.length)

theorem jn_of_joined {upper lower : List Nat} {mid : Nat} (h1 : mid ≤ lower.length) (h2 : mid ≤ upper.length) {x y : Pt}
    (h : Joined upper lower mid x y) : JnL upper lower mid (ppos lower x) (ppos lower y) := by
  induction h with
  | rel x y h =>
    cases h with
    | lower v hv =>
      have : at_ lower v = fold upper lower v := by simp [fold, hv]
      simp only [ppos, Bool.false_eq_true, if_false]
      rw [this]; exact Jn.arc (by omega)
    | upper v hv =>
      have : lower.length + at_ upper v = fold upper lower (lower.length + v) := by simp [fold]
      simp only [ppos, if_true]
      rw [this]; exact Jn.arc (by omega)
    | glue v hv =>
      simp only [ppos, if_true, Bool.false_eq_true, if_false]
      have : lower.length - 1 - v = 2 * lower.length - 1 - (lower.length + v) := by omega
      rw [this]; exact Jn.cap (by omega)
  | refl => exact Jn.refl _
  | symm _ _ _ ih => exact ih.symm
  | trans _ _ _ _ _ ih1 ih2 => exact ih1.trans ih2

theorem joined_of_jn {upper lower : List Nat} {mid : Nat} (hl : Crossingless lower) (h1 : mid ≤ lower.length) (h2 : mid ≤ upper.length) {x y : Nat}
    (h : JnL upper lower mid x y) : Joined upper lower mid (unpos lower x) (unpos lower y) := by
  induction h with
  | rel x y h =>
    rcases h with ⟨hx, rfl⟩ | ⟨hx, rfl⟩
    · by_cases hxl : x < lower.length
      · have := hl.lt x hxl
        simp only [unpos, fold, hxl, if_true, this]
        exact .rel _ _ (.lower x hxl)
      · simp only [unpos, fold, hxl, if_false]
        rw [if_neg (by omega), Nat.add_sub_cancel_left]
        exact .rel _ _ (.upper _ (by omega))
    · by_cases hxl : x < lower.length
      · simp only [unpos, hxl, if_true]
        rw [if_neg (by omega)]
        refine .symm _ _ (.rel _ _ ?_)
        have := Link.glue (upper := upper) (lower := lower) (mid := mid) (2 * lower.length - 1 - x - lower.length) (by omega)
        rwa [show lower.length - 1 - (2 * lower.length - 1 - x - lower.length) = x by omega] at this
      · simp only [unpos, hxl, if_false]
        rw [if_pos (by omega)]
        have := Link.glue (upper := upper) (lower := lower) (mid := mid) (x - lower.length) (by omega)
        rw [show lower.length - 1 - (x - lower.length) = 2 * lower.length - 1 - x by omega] at this
        exact .rel _ _ this
  | refl => exact .refl _
  | symm _ _ _ ih => exact .symm _ _ ih
  | trans _ _ _ _ _ ih1 ih2 => exact .trans _ _ _ ih1 ih2

/-- Position of the outer point number `i`. -/
def opos (lower : List Nat) (mid i : Nat) : Nat := if i < lower.length - mid then i else i + 2 * mid

theorem ppos_outer {lower : List Nat} {mid i : Nat} (h1 : mid ≤ lower.length) : ppos lower (outer lower mid i) = opos lower mid i := by
  unfold outer opos ppos
  by_cases h : i < lower.length - mid
  · simp [h]
  · simp only [h, if_false, if_true]; omega

theorem unpos_opos {lower : List Nat} {mid i : Nat} (h1 : mid ≤ lower.length) : unpos lower (opos lower mid i) = outer lower mid i := by
  unfold outer opos unpos
  by_cases h : i < lower.length - mid
  · simp only [h, if_true]; rw [if_pos (by omega)]
  · simp only [h, if_false]; rw [if_neg (by omega)]; congr 1; omega

theorem joined_outer_iff {upper lower : List Nat} {mid : Nat} (hl : Crossingless lower) (h1 : mid ≤ lower.length)
    (h2 : mid ≤ upper.length) (i k : Nat) : Joined upper lower mid (outer lower mid i) (outer lower mid k) ↔
      JnL upper lower mid (opos lower mid i) (opos lower mid k) := by
  constructor
  · intro h; have := jn_of_joined h1 h2 h; rwa [ppos_outer h1, ppos_outer h1] at this
  · intro h; have := joined_of_jn hl h1 h2 h; rwa [unpos_opos h1, unpos_opos h1] at this

theorem joined_mid_iff {upper lower : List Nat} {mid : Nat} (hl : Crossingless lower) (h1 : mid ≤ lower.length)
    (h2 : mid ≤ upper.length) (v w : Nat) : Joined upper lower mid (true, v) (true, w) ↔
      JnL upper lower mid (lower.length + v) (lower.length + w) := by
  constructor
  · intro h; simpa [ppos] using jn_of_joined h1 h2 h
  · intro h; simpa [unpos] using joined_of_jn hl h1 h2 h

theorem joined_mid_outer_iff {upper lower : List Nat} {mid : Nat} (hl : Crossingless lower) (h1 : mid ≤ lower.length)
    (h2 : mid ≤ upper.length) (v i : Nat) : Joined upper lower mid (true, v) (outer lower mid i) ↔
      JnL upper lower mid (lower.length + v) (opos lower mid i) := by
  constructor
  · intro h; have := jn_of_joined h1 h2 h; rw [ppos_outer h1] at this; simpa [ppos] using this
  · intro h; have := joined_of_jn hl h1 h2 h; rw [unpos_opos h1] at this; simpa [unpos] using this

section
variable {upper lower : List Nat} {mid : Nat} (hu : Crossingless upper) (hl : Crossingless lower)
  (h1 : mid ≤ lower.length) (h2 : mid ≤ upper.length)
include hu hl h1 h2

theorem strands_spec {R : Nat → Nat} (hR : Reduced (fold upper lower) lower.length mid (lower.length + upper.length) R) :
    ∃ vis, (List.range ((lower.length - mid) + (upper.length - mid))).foldlM (strand upper lower mid) ([], List.replicate mid false) =
        .ok ((List.range ((lower.length - mid) + (upper.length - mid))).map (fun i => resIdx lower.length mid (R (opos lower mid i))), vis) ∧
      vis.length = mid ∧ ∀ v, v < mid → (vis.getD v false = true ↔ ∃ i, i < (lower.length - mid) + (upper.length - mid) ∧
        JnL upper lower mid (opos lower mid i) (lower.length + v)) := by
  have hM := fold_nc hu hl
  have hfold := foldlM_range (strand upper lower mid) (fun k s => s.1 = (List.range k).map (fun i => resIdx lower.length mid (R (opos lower mid i))) ∧
      s.2.length = mid ∧ ∀ v, v < mid → (s.2.getD v false = true ↔ ∃ i, i < k ∧ JnL upper lower mid (opos lower mid i) (lower.length + v)))
    ((lower.length - mid) + (upper.length - mid)) ([], List.replicate mid false) ?_ ?_
  · obtain ⟨s, hs, hP⟩ := hfold
    refine ⟨s.2, ?_, hP.2⟩
    rw [hs, ← hP.1]
  · refine ⟨rfl, by simp, fun v hv => ?_⟩
    simp [List.getD_eq_getElem?_getD, hv]
  · intro k hk s ⟨p1, p2, p3⟩
    have hx : opos lower mid k < lower.length + upper.length := by unfold opos; split <;> omega
    have hxo : ¬ (lower.length - mid ≤ opos lower mid k ∧ opos lower mid k < lower.length + mid) := by unfold opos; split <;> omega
    obtain ⟨ms, hp⟩ := hR.path _ hx hxo
    have hf := follow_spec hu hl h1 h2 hp hx (2 * mid + 1) (by have := hp.length_le; omega) s.2
    refine ⟨(s.1 ++ [resIdx lower.length mid (R (opos lower mid k))], markAll lower.length s.2 ms), ?_, ?_⟩
    · unfold strand
      dsimp only
      have : (if k < lower.length - mid then follow upper lower mid (2 * mid + 1) k false s.2
          else follow upper lower mid (2 * mid + 1) (k - (lower.length - mid) + mid) true s.2) =
          .ok (resIdx lower.length mid (R (opos lower mid k)), markAll lower.length s.2 ms) := by
        rw [← hf]
        unfold opos
        by_cases hb : k < lower.length - mid
        · simp only [hb, if_true]; rw [if_pos (by omega)]
        · simp only [hb, if_false]; rw [if_neg (by omega)]; congr 1; omega
      split
      · next hb => rw [if_pos hb] at this; rw [this, bind_ok]
      · next hb => rw [if_neg hb] at this; rw [this, bind_ok]
    · refine ⟨?_, ?_, fun v hv => ?_⟩
      · rw [p1, List.range_succ, List.map_append]; rfl
      · rw [markAll_length, p2]
      · rw [markAll_iff _ _ _ _ (by omega), p3 v hv]
        have hj := hp.joined (N := lower.length + upper.length) (by omega) h1 hx
        constructor
        · rintro (⟨i, hi, h⟩ | ⟨q, hq, h⟩)
          · exact ⟨i, by omega, h⟩
          · refine ⟨k, by omega, ?_⟩
            have hqs := hp.mem q hq
            have := hj.2 q hq
            unfold midIdx at h
            split at h
            · refine this.trans ?_
              have hc := Jn.cap (M := fold upper lower) (N := lower.length + upper.length) hqs
              rwa [show 2 * lower.length - 1 - q = lower.length + v by omega] at hc
            · rwa [show q = lower.length + v by omega] at this
        · rintro ⟨i, hi, h⟩
          rcases Nat.lt_succ_iff_lt_or_eq.1 hi with hi | rfl
          · exact Or.inl ⟨i, hi, h⟩
          · right
            have hyo := hp.end_out
            rcases hp.reach hM h1 (by omega) hx hxo h with h | h | h | ⟨q, hq, h⟩
            · omega
            · omega
            · exact ⟨_, h, by simp [midIdx]⟩
            · refine ⟨q, hq, ?_⟩
              have := hp.mem q hq
              rw [midIdx, if_pos (by omega)]; omega

theorem resIdx_opos (i : Nat) : resIdx lower.length mid (opos lower mid i) = i := by
  unfold resIdx opos; split
  · rfl
  · rw [if_neg (by omega)]; omega

omit hu hl in
theorem opos_resIdx (x : Nat) (hx : ¬ (lower.length - mid ≤ x ∧ x < lower.length + mid)) :
    opos lower mid (resIdx lower.length mid x) = x := by
  unfold resIdx opos
  by_cases h : x < lower.length - mid
  · rw [if_pos h, if_pos h]
  · rw [if_neg h, if_neg (by omega)]; omega

theorem result_spec {R : Nat → Nat} (hR : Reduced (fold upper lower) lower.length mid (lower.length + upper.length) R) :
    let T := (lower.length - mid) + (upper.length - mid)
    let res := (List.range T).map (fun i => resIdx lower.length mid (R (opos lower mid i)))
    res.length = T ∧ Crossingless res ∧ (∀ i k, i < T → k < T → (at_ res i = k ↔ i ≠ k ∧
      Joined upper lower mid (outer lower mid i) (outer lower mid k))) := by
  intro T res
  have hM := fold_nc hu hl
  have hlen : res.length = T := by simp [res]
  have hat : ∀ i, i < T → at_ res i = resIdx lower.length mid (R (opos lower mid i)) := by
    intro i hi
    rw [at_lt _ _ (by omega)]; simp [res]
  have hx : ∀ i, i < T → opos lower mid i < lower.length + upper.length := by intro i hi; unfold opos; split <;> omega
  have hxo : ∀ i, i < T → ¬ (lower.length - mid ≤ opos lower mid i ∧ opos lower mid i < lower.length + mid) := by
    intro i hi; unfold opos; split <;> omega
  have hpos : ∀ i, i < T → opos lower mid (at_ res i) = R (opos lower mid i) := by
    intro i hi
    rw [hat i hi, opos_resIdx h1 h2 _ (hR.out _ (hx i hi) (hxo i hi))]
  have hrt : ∀ i, i < T → at_ res i < T := by
    intro i hi
    have h3 := hR.lt _ (hx i hi) (hxo i hi)
    have h4 := hR.out _ (hx i hi) (hxo i hi)
    rw [hat i hi]; unfold resIdx; split <;> omega
  have inj : ∀ i k, opos lower mid i = opos lower mid k → i = k := by
    intro i k e; rw [← resIdx_opos hu hl h1 h2 i, e, resIdx_opos hu hl h1 h2 k]
  have mono : ∀ i k, i < k ↔ opos lower mid i < opos lower mid k := by
    intro i k; unfold opos; split <;> split <;> omega
  refine ⟨hlen, ⟨?_, ?_, ?_, ?_⟩, ?_⟩
  · rw [hlen]; exact hrt
  · rw [hlen]; intro i hi e
    exact hR.nofix _ (hx i hi) (hxo i hi) (by rw [← hpos i hi, e])
  · rw [hlen]; intro i hi
    apply inj
    rw [hpos _ (hrt i hi), hpos i hi, hR.invol _ (hx i hi) (hxo i hi)]
  · rw [hlen]; intro a b ha hb q1 q2 q3
    rw [mono] at q1 q2 q3
    rw [hpos a ha] at q2 q3
    rw [hpos b hb] at q3
    exact hR.noncross _ _ (hx a ha) (hx b hb) (hxo a ha) (hxo b hb) q1 q2 q3
  · intro i k hi hk
    rw [joined_outer_iff hl h1 h2]
    obtain ⟨ms, hp⟩ := hR.path _ (hx i hi) (hxo i hi)
    constructor
    · intro e
      have hj := (hp.joined (N := lower.length + upper.length) (by omega) h1 (hx i hi)).1
      rw [← hpos i hi, e] at hj
      refine ⟨fun e' => ?_, hj⟩
      apply hR.nofix _ (hx i hi) (hxo i hi)
      rw [← hpos i hi, e, e']
    · rintro ⟨hne, hj⟩
      rcases hp.unique hM h1 (by omega) (hx i hi) (hxo i hi) (hxo k hk) hj with h | h
      · exact absurd (inj _ _ h).symm hne
      · rw [← hpos i hi] at h
        exact (inj _ _ h).symm

theorem bubbles_spec (vis0 : List Bool) (hlen : vis0.length = mid)
    (hvis : ∀ v, v < mid → (vis0.getD v false = true ↔ ∃ i, i < (lower.length - mid) + (upper.length - mid) ∧
        JnL upper lower mid (opos lower mid i) (lower.length + v))) :
    ∃ s, (List.range mid).foldlM (bubble upper lower mid) (vis0, 0) = .ok s ∧ s.2 = (closedLoops upper lower mid).ncard := by
  have hM := fold_nc hu hl
  have hfold := foldlM_range (bubble upper lower mid) (fun k s => s.1.length = mid ∧
      (∀ w, w < mid → (s.1.getD w false = true ↔ vis0.getD w false = true ∨ ∃ v, v < k ∧ vis0.getD v false = false ∧
        JnL upper lower mid (lower.length + v) (lower.length + w))) ∧
      s.2 = {C | ∃ v, v < k ∧ vis0.getD v false = false ∧ C = {x | Joined upper lower mid (true, v) x}}.ncard)
    mid (vis0, 0) ?_ ?_
  · obtain ⟨s, hs, hP⟩ := hfold
    refine ⟨s, hs, ?_⟩
    rw [hP.2.2]
    congr 1
    ext C
    simp only [closedLoops, Set.mem_setOf_eq]
    constructor
    · rintro ⟨v, hv, h0, rfl⟩
      refine ⟨v, hv, rfl, fun i hi hj => ?_⟩
      rw [Set.mem_setOf_eq, joined_mid_outer_iff hl h1 h2] at hj
      have := (hvis v hv).2 ⟨i, hi, hj.symm⟩
      rw [h0] at this; cases this
    · rintro ⟨v, hv, rfl, hno⟩
      refine ⟨v, hv, ?_, rfl⟩
      rw [← Bool.not_eq_true]
      intro h
      obtain ⟨i, hi, hj⟩ := (hvis v hv).1 h
      exact hno i hi (by rw [Set.mem_setOf_eq, joined_mid_outer_iff hl h1 h2]; exact hj.symm)
  · refine ⟨hlen, fun w hw => by simp, ?_⟩
    simp
  · intro k hk s ⟨p1, p2, p3⟩
    have hfin : {C | ∃ v, v < k ∧ vis0.getD v false = false ∧ C = {x | Joined upper lower mid (true, v) x}}.Finite := by
      refine Set.Finite.subset ((Set.finite_lt_nat k).image fun v => {x | Joined upper lower mid (true, v) x}) ?_
      rintro C ⟨v, hv, _, rfl⟩
      exact ⟨v, hv, rfl⟩
    have hlk : lookup s.1 k = .ok (s.1.getD k false) := by
      rw [lookup_lt _ _ (by omega), List.getD_eq_getElem?_getD, List.getElem?_eq_getElem (by omega), Option.getD_some]
    unfold bubble
    rw [hlk, bind_ok]
    by_cases hv : s.1.getD k false = true
    · rw [if_pos hv]
      refine ⟨s, rfl, p1, fun w hw => ?_, ?_⟩
      · rw [p2 w hw]
        constructor
        · rintro (h | ⟨v, hvk, h⟩)
          · exact Or.inl h
          · exact Or.inr ⟨v, by omega, h⟩
        · rintro (h | ⟨v, hvk, h0, h⟩)
          · exact Or.inl h
          · rcases Nat.lt_succ_iff_lt_or_eq.1 hvk with hvk | rfl
            · exact Or.inr ⟨v, hvk, h0, h⟩
            · rcases (p2 v hk).1 hv with h' | ⟨v', hv', h0', h'⟩
              · rw [h0] at h'; cases h'
              · exact Or.inr ⟨v', hv', h0', h'.trans h⟩
      · rw [p3]
        congr 1
        ext C
        simp only [Set.mem_setOf_eq]
        constructor
        · rintro ⟨v, hvk, h⟩; exact ⟨v, by omega, h⟩
        · rintro ⟨v, hvk, h0, rfl⟩
          rcases Nat.lt_succ_iff_lt_or_eq.1 hvk with hvk | rfl
          · exact ⟨v, hvk, h0, rfl⟩
          · rcases (p2 v hk).1 hv with h' | ⟨v', hv', h0', h'⟩
            · rw [h0] at h'; cases h'
            · refine ⟨v', hv', h0', ?_⟩
              have hj := (joined_mid_iff hl h1 h2 v' v).2 h'
              ext x
              exact ⟨fun hx => .trans _ _ _ hj hx, fun hx => .trans _ _ _ (.symm _ _ hj) hx⟩
    · rw [if_neg hv]
      have hv0 : vis0.getD k false = false := by
        rw [← Bool.not_eq_true]; exact fun h => hv ((p2 k hk).2 (Or.inl h))
      have hnew : ∀ v, v < k → vis0.getD v false = false → ¬ JnL upper lower mid (lower.length + v) (lower.length + k) :=
        fun v hvk h0 h => hv ((p2 k hk).2 (Or.inr ⟨v, hvk, h0, h⟩))
      -- the component of `k` does not reach the outside
      have hno : ∀ x, JnL upper lower mid (lower.length + k) x → x < lower.length + upper.length →
          lower.length - mid ≤ x ∧ x < lower.length + mid := by
        intro x hx hxN
        by_contra hc
        have hq := (hvis k hk).2 ⟨resIdx lower.length mid x, by unfold resIdx; split <;> omega, by rw [opos_resIdx h1 h2 x hc]; exact hx.symm⟩
        rw [hv0] at hq; cases hq
      let Z : Nat → Prop := fun w => w < mid ∧ JnL upper lower mid (lower.length + k) (lower.length + w)
      have foldu : ∀ w, fold upper lower (lower.length + w) = lower.length + at_ upper w := fun w => by simp [fold]
      have foldl' : ∀ w, w < lower.length → fold upper lower w = at_ lower w := fun w hw => by simp [fold, hw]
      have capj : ∀ w, w < mid → JnL upper lower mid (lower.length + w) (lower.length - w - 1) := by
        intro w hw
        have := Jn.cap (M := fold upper lower) (L := lower.length) (j := mid) (N := lower.length + upper.length) (x := lower.length + w) (by omega)
        rwa [show 2 * lower.length - 1 - (lower.length + w) = lower.length - w - 1 by omega] at this
      have hZu : ∀ w, Z w → Z (at_ upper w) ∧ at_ upper (at_ upper w) = w ∧ at_ upper w ≠ w := by
        rintro w ⟨hw, hj⟩
        have ha := Jn.arc (M := fold upper lower) (L := lower.length) (j := mid) (N := lower.length + upper.length) (x := lower.length + w) (by omega)
        rw [foldu] at ha
        have hlt := hu.lt w (by omega)
        have := hno _ (hj.trans ha) (by omega)
        exact ⟨⟨by omega, hj.trans ha⟩, hu.invol w (by omega), hu.nofix w (by omega)⟩
      have hZl : ∀ w, Z w → lower.length - mid ≤ at_ lower (lower.length - w - 1) ∧ at_ lower (lower.length - w - 1) < lower.length ∧
          Z (lower.length - at_ lower (lower.length - w - 1) - 1) := by
        rintro w ⟨hw, hj⟩
        have ha := Jn.arc (M := fold upper lower) (L := lower.length) (j := mid) (N := lower.length + upper.length) (x := lower.length - w - 1) (by omega)
        rw [foldl' _ (by omega)] at ha
        have hlt := hl.lt (lower.length - w - 1) (by omega)
        have hj2 := (hj.trans (capj w hw)).trans ha
        have := hno _ hj2 (by omega)
        refine ⟨this.1, hlt, by omega, hj2.trans ?_⟩
        have hc := (capj (lower.length - at_ lower (lower.length - w - 1) - 1) (by omega)).symm
        rwa [show lower.length - (lower.length - at_ lower (lower.length - w - 1) - 1) - 1 = at_ lower (lower.length - w - 1) by omega] at hc
      have hZψ : ∀ w, Z w → Z (lower.length - at_ lower (lower.length - w - 1) - 1) ∧
          lower.length - at_ lower (lower.length - (lower.length - at_ lower (lower.length - w - 1) - 1) - 1) - 1 = w ∧
          lower.length - at_ lower (lower.length - w - 1) - 1 ≠ w := by
        intro w hw
        obtain ⟨a, b, c⟩ := hZl w hw
        have hwm := hw.1
        refine ⟨c, ?_, ?_⟩
        · rw [show lower.length - (lower.length - at_ lower (lower.length - w - 1) - 1) - 1 = at_ lower (lower.length - w - 1) by omega,
            hl.invol _ (by omega)]; omega
        · intro e
          exact hl.nofix (lower.length - w - 1) (by omega) (by omega)
      have hZk : Z k := ⟨hk, Jn.refl _⟩
      have hZs : ∀ w, Z w → s.1.getD w false = false := by
        rintro w ⟨hw, hj⟩
        rw [← Bool.not_eq_true]
        intro h
        rcases (p2 w hw).1 h with h | ⟨v, hvk, h0, h⟩
        · obtain ⟨i, hi, hji⟩ := (hvis w hw).1 h
          have := (hvis k hk).2 ⟨i, hi, hji.trans hj.symm⟩
          rw [hv0] at this; cases this
        · exact hnew v hvk h0 (h.trans hj.symm)
      obtain ⟨vis', K, q1, q2, q3, q4, q5, q6⟩ := bubbleLoop_spec (upper := upper) (lower := lower) (mid := mid) (i := k) (Z := Z)
        (u := at_ upper) (ψ := fun w => lower.length - at_ lower (lower.length - w - 1) - 1) (fun w h => h.1) hZu hZψ
        (fun w h => lookup_at upper w (by have := h.1; omega))
        (fun w h => ⟨_, lookup_at lower _ (by have := h.1; omega), rfl⟩) s.1 p1 hZs (mid + 1) [] k s.1 (by simp) p1 (by simp) (by simp) hZk
        (by simp) (Or.inl ⟨rfl, rfl⟩) (by simpa using hv) (by simp)
      rw [q1, bind_ok]
      -- marked = component of `k`
      have hcomp : ∀ w, w < mid → (vis'.getD w false = true ↔ s.1.getD w false = true ∨ JnL upper lower mid (lower.length + k) (lower.length + w)) := by
        intro w hw
        rw [q5 w hw]
        refine or_congr Iff.rfl ⟨?_, fun hj => ?_⟩
        · rintro (h | ⟨k', hk', rfl⟩)
          · exact (q4 w h).2
          · exact (hZu k' (q4 k' hk')).1.2
        · have hKm : ∀ w, (w ∈ K ∨ ∃ k' ∈ K, w = at_ upper k') → Z w := by
            rintro w (h | ⟨k', hk', rfl⟩)
            · exact q4 w h
            · exact (hZu k' (q4 k' hk')).1
          have hKu : ∀ w, (w ∈ K ∨ ∃ k' ∈ K, w = at_ upper k') → (at_ upper w ∈ K ∨ ∃ k' ∈ K, at_ upper w = at_ upper k') := by
            rintro w (h | ⟨k', hk', rfl⟩)
            · exact Or.inr ⟨w, h, rfl⟩
            · rw [(hZu k' (q4 k' hk')).2.1]; exact Or.inl hk'
          have key := Jn.closed hM h1 (fun x => ∃ w, (w ∈ K ∨ ∃ k' ∈ K, w = at_ upper k') ∧ (x = lower.length + w ∨ x = lower.length - w - 1))
            ?_ ?_ hj
          · obtain ⟨w', hw', e⟩ := key.1 ⟨k, Or.inl q3, Or.inl rfl⟩
            rcases e with e | e
            · rwa [show w = w' by omega]
            · have := (hKm w' hw').1; omega
          · rintro x hx ⟨w', hw', rfl | rfl⟩
            · exact ⟨_, hKu w' hw', Or.inl (foldu w')⟩
            · have hz := hKm w' hw'
              refine ⟨_, q6 w' hw', Or.inr ?_⟩
              have hwm := hz.1
              have := (hZl w' hz).2.1
              rw [foldl' _ (by omega)]; omega
          · rintro x hx ⟨w', hw', rfl | rfl⟩
            · exact ⟨w', hw', Or.inr (by omega)⟩
            · have := (hKm w' hw').1
              exact ⟨w', hw', Or.inl (by omega)⟩
      refine ⟨(vis', s.2 + 1), rfl, q2, fun w hw => ?_, ?_⟩
      · rw [hcomp w hw, p2 w hw]
        constructor
        · rintro ((h | ⟨v, hvk, h⟩) | h)
          · exact Or.inl h
          · exact Or.inr ⟨v, by omega, h⟩
          · exact Or.inr ⟨k, by omega, hv0, h⟩
        · rintro (h | ⟨v, hvk, h0, h⟩)
          · exact Or.inl (Or.inl h)
          · rcases Nat.lt_succ_iff_lt_or_eq.1 hvk with hvk | rfl
            · exact Or.inl (Or.inr ⟨v, hvk, h0, h⟩)
            · exact Or.inr h
      · dsimp only
        rw [p3]
        have : {C | ∃ v, v < k + 1 ∧ vis0.getD v false = false ∧ C = {x | Joined upper lower mid (true, v) x}} =
            Insert.insert {x | Joined upper lower mid (true, k) x} {C | ∃ v, v < k ∧ vis0.getD v false = false ∧ C = {x | Joined upper lower mid (true, v) x}} := by
          ext C
          simp only [Set.mem_setOf_eq, Set.mem_insert_iff]
          constructor
          · rintro ⟨v, hvk, h0, rfl⟩
            rcases Nat.lt_succ_iff_lt_or_eq.1 hvk with hvk | rfl
            · exact Or.inr ⟨v, hvk, h0, rfl⟩
            · exact Or.inl rfl
          · rintro (rfl | ⟨v, hvk, h⟩)
            · exact ⟨k, by omega, hv0, rfl⟩
            · exact ⟨v, by omega, h⟩
        rw [this, Set.ncard_insert_of_notMem _ hfin]
        rintro ⟨v, hvk, h0, e⟩
        apply hnew v hvk h0
        rw [← joined_mid_iff hl h1 h2]
        have : ((true, k) : Pt) ∈ {x | Joined upper lower mid (true, v) x} := by rw [← e]; exact .refl _
        exact this

/-- What `compose` returns for crossingless matchings. -/
theorem compose_spec : ∃ res, compose upper lower mid = .ok (res, (closedLoops upper lower mid).ncard) ∧
    res.length = (lower.length - mid) + (upper.length - mid) ∧ Crossingless res ∧
    ∀ i k, i < (lower.length - mid) + (upper.length - mid) → k < (lower.length - mid) + (upper.length - mid) →
      (at_ res i = k ↔ i ≠ k ∧ Joined upper lower mid (outer lower mid i) (outer lower mid k)) := by
  obtain ⟨R, hR⟩ := exists_reduced (fold_nc hu hl) h1 (by omega : lower.length + mid ≤ lower.length + upper.length)
  obtain ⟨vis, v1, v2, v3⟩ := strands_spec hu hl h1 h2 hR
  obtain ⟨r1, r2, r3⟩ := result_spec hu hl h1 h2 hR
  obtain ⟨s, s1, s2⟩ := bubbles_spec hu hl h1 h2 vis v2 v3
  refine ⟨_, ?_, r1, r2, r3⟩
  unfold compose
  rw [pyAssert, if_pos (by simpa using ⟨h1, h2⟩), bind_ok]
  dsimp only
  rw [v1, bind_ok, isCM_true r2, bind_ok]
  change ((List.range mid).foldlM (bubble upper lower mid) (vis, 0) >>= _) = _
  rw [s1, bind_ok, s2]

end
end TL
end Peyl
