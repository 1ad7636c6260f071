import Verif.Spec.ReservoirChance
import Verif.Lemmas.Bucketing
import Mathlib.Algebra.BigOperators.Fin
import Mathlib.Algebra.Order.Floor.Ring
import Mathlib.Tactic.FieldSimp
import Mathlib.Tactic.Linarith
/-!
# Chances in the reservoirs of `bucketing.Tracker`
-/
namespace Peyl
namespace Bucketing

/-! ### Averages over tapes -/

noncomputable def avg (M K : Nat) : Nat → (List (Nat × Nat) → ℚ) → ℚ
  | 0, F => F []
  | T + 1, F => (∑ k : Fin M, ∑ r : Fin K, avg M K T fun w => F ((k.val, r.val) :: w)) / ((M * K : Nat) : ℚ)

theorem sum_tapes (M K : Nat) : ∀ (T : Nat) (F : List (Nat × Nat) → ℚ),
    (∑ w : Fin T → Fin M × Fin K, F (List.ofFn fun j => ((w j).1.val, (w j).2.val))) / ((M * K : Nat) : ℚ) ^ T = avg M K T F
  | 0, F => by simp [avg]
  | T + 1, F => by
    rw [avg, ← (Fin.consEquiv fun _ => Fin M × Fin K).sum_comp, Fintype.sum_prod_type, Fintype.sum_prod_type]
    simp only [← sum_tapes M K T, List.ofFn_succ]
    rw [pow_succ, ← div_div, Finset.sum_div]
    simp only [Finset.sum_div]
    simp [Fin.consEquiv]

theorem coinChance_eq (M K T : Nat) (E : List (Nat × Nat) → Prop) [DecidablePred E] :
    coinChance M K T E = avg M K T fun w => if E w then 1 else 0 := by
  rw [← sum_tapes, coinChance, Finset.card_filter]
  push_cast
  congr 2

theorem avg_const {M K : Nat} (hM : 1 ≤ M) (hK : 1 ≤ K) (T : Nat) (a : ℚ) : avg M K T (fun _ => a) = a := by
  have h : ((M * K : Nat) : ℚ) ≠ 0 := by positivity
  induction T with
  | zero => rfl
  | succ T ih =>
    rw [avg]; simp only [ih, Finset.sum_const, Finset.card_univ, Fintype.card_fin, nsmul_eq_mul]
    push_cast at h ⊢
    field_simp

theorem avg_congr {M K T : Nat} {F G : List (Nat × Nat) → ℚ} (h : ∀ w, w.length = T → F w = G w) : avg M K T F = avg M K T G := by
  induction T generalizing F G with
  | zero => exact h [] rfl
  | succ T ih =>
    rw [avg, avg]
    congr 1
    exact Finset.sum_congr rfl fun k _ => Finset.sum_congr rfl fun r _ => ih fun w hw => h _ (by simp [hw])

/-! ### One offer -/
variable {β : Type} {d : Nat} [DecidableEq β]

/-- The acceptance threshold of the code for an item shown to a full bucket. -/
noncomputable def threshold (c : Config β d) (log : List (Offer β d)) (o : Offer β d) : ℚ :=
  if c.method = .aChao then o.weight / ((log.map Offer.weight).sum + o.weight) else c.capacity / (log.length + 1 : Nat)

/-- The number of values of `random()` that are at most `q`. -/
noncomputable def below (M : Nat) (q : ℚ) : Nat := (Finset.univ.filter fun k : Fin M => (k.val : ℚ) / M ≤ q).card

theorem BInv.room {S : Type} (g : Rng S) {c : Config β d} {log l : List (Offer β d)} {b : Bucket Tag β d} (h : BInv c log l b) (o : Offer β d)
    (hm : c.method = .uniform ∨ c.method = .aChao) (hl : l.length < c.capacity) (ho : o.image.length = b.width) :
    ∃ b', (∀ s, offer g c.method s b o.braid o.image o.weight = .ok (b', s)) ∧ BInv c (log ++ [o]) (l ++ [o]) b' := by
  have hnf := (not_full (w := o.weight) h).2 hl
  obtain ⟨b', h1, h2, h3, h4, h5, h6, h7, h8⟩ := appendBraid_ok (h.show_has o.weight) o (by simpa [Bucket.showReservoir, h.cap] using hl) (by simpa [Bucket.showReservoir] using ho)
  refine ⟨b', ?_, h.append o hl ho h2 h3 h4 (by rw [h5]; rfl) (by rw [h6]; rfl) fun e => ?_⟩
  · intro s; rcases hm with hm | hm <;> rw [hm] <;> simp only [offer, hnf, if_true, h1, bind_ok]
  · rcases hm with hm | hm <;> rw [hm] at e <;> cases e

theorem BInv.coin {c : Config β d} {log l : List (Offer β d)} {b : Bucket Tag β d} (h : BInv c log l b) (M k r : Nat) (o : Offer β d)
    (hm : c.method = .uniform ∨ c.method = .aChao) (hc : 1 ≤ c.capacity) (hl : ¬ l.length < c.capacity) (ho : o.image.length = b.width)
    (hw : c.method = .aChao → b.reservoirWeight + o.weight ≠ 0) :
    ∃ b', (∀ r0 w, offer (coinRng M) c.method (r0, (k, r) :: w) b o.braid o.image o.weight = .ok (b', (r, w))) ∧
      BInv c (log ++ [o]) (if (k : ℚ) / M ≤ threshold c log o then l.set (r % c.capacity) o else l) b' := by
  have hnf : (!(b.showReservoir o.weight).isFull) = false := by
    rw [Bool.eq_false_iff, Ne, not_full (w := o.weight) h]; exact hl
  have hlen : l.length = c.capacity := by have := h.has.le; rw [h.cap] at this; omega
  have hcap : (b.showReservoir o.weight).capacity = c.capacity := h.cap
  have hr : r % c.capacity < l.length := by rw [hlen]; exact Nat.mod_lt _ hc
  have hq : (if c.method = .aChao then fdiv o.weight (b.showReservoir o.weight).reservoirWeight else
      fdiv (b.showReservoir o.weight).capacity (b.showReservoir o.weight).reservoirCount) = .ok (threshold c log o) := by
    rw [threshold]
    split
    · next e =>
      rw [fdiv, if_neg (by simpa [Bucket.showReservoir] using hw e)]
      simp [Bucket.showReservoir, h.wt]
    · rw [fdiv, if_neg (by simp [Bucket.showReservoir]; positivity)]
      simp [Bucket.showReservoir, h.cnt, h.cap]
  have hev : ∀ {P : Prop}, c.method = .evictMin → P := fun e => by rcases hm with hm | hm <;> rw [hm] at e <;> cases e
  have hgr : c.method ≠ .greedyFirst := fun e => by rcases hm with hm | hm <;> rw [hm] at e <;> cases e
  have hof : ∀ r0 w, offer (coinRng M) c.method (r0, (k, r) :: w) b o.braid o.image o.weight = (do
      if (k : ℚ) / M ≤ threshold c log o then do
        let b' ← (b.showReservoir o.weight).replaceBraid (r % c.capacity : Nat) o.braid o.image o.weight
        .ok (b', (r, w))
      else .ok (b.showReservoir o.weight, (r, w))) := by
    intro r0 w
    rcases hm with hm | hm
    · rw [hm] at hq
      rw [hm]
      simp only [reduceCtorEq, if_false, hcap] at hq
      simp only [offer, hnf, Bool.false_eq_true, if_false, hq, bind_ok, coinRng, Rng.draw, hcap, show ¬ c.capacity = 0 by omega]
    · rw [hm] at hq
      rw [hm]
      simp only [if_true] at hq
      simp only [offer, hnf, Bool.false_eq_true, if_false, hq, bind_ok, coinRng, Rng.draw, hcap, show ¬ c.capacity = 0 by omega]
  simp only [hof]
  split
  · obtain ⟨b', h1, h2, h3, h4, h5, h6, h7, h8⟩ := replaceBraid_ok (h.show_has o.weight) o (r % c.capacity) hr (by simpa [Bucket.showReservoir] using ho)
    refine ⟨b', fun r0 w => by rw [h1]; rfl, ?_⟩
    exact h.replace o _ hr hl ho h2 h3 h4 (by rw [h5]; rfl) (by rw [h6]; rfl) hgr (fun e => hev e)
  · exact ⟨_, fun _ _ => rfl, h.skip o hl ho (fun e => hev e)⟩

/-! ### One step of the tracker -/

/-- The braids in a bucket. -/
def content (bs : Buckets β d) (t : Tag) : List β := match Dict.get? bs t with | some b => b.braids | none => []

theorem content_step {c : Config β d} {bs : Buckets β d} {tag : Tag} {n : Nat} {b : Bucket Tag β d}
    (h : Dict.get (if !Dict.has bs tag then Dict.set bs tag (Bucket.create tag c.capacity n) else bs) tag = .ok b) : b.braids = content bs tag := by
  rw [content]
  cases hg : Dict.get? bs tag with
  | none =>
    rw [Dict.not_has.2 hg] at h
    simp only [Bool.not_false, if_true, Dict.get, Dict.get?_set] at h
    cases h; rfl
  | some b0 =>
    rw [Dict.has_iff.2 ⟨b0, hg⟩] at h
    simp only [Bool.not_true, Bool.false_eq_true, if_false, Dict.get, hg] at h
    cases h; rfl

theorem content_of_get {bs : Buckets β d} {t : Tag} {b : Bucket Tag β d} (h : Dict.get? bs t = some b) : content bs t = b.braids := by rw [content, h]

theorem content_congr {bs bs' : Buckets β d} {t : Tag} (h : Dict.get? bs' t = Dict.get? bs t) : content bs' t = content bs t := by rw [content, content, h]

theorem Inv.content {c : Config β d} {log : Tag → List (Offer β d)} {bs : Buckets β d} (h : Inv c log bs) (t : Tag) :
    ∃ l : List (Offer β d), content bs t = l.map Offer.braid ∧ l.Subperm (log t) ∧ l.length = min (log t).length c.capacity := by
  cases hg : Dict.get? bs t with
  | none => exact ⟨[], by rw [Bucketing.content, hg]; rfl, by rw [h.none t hg], by rw [h.none t hg]; simp⟩
  | some b =>
    obtain ⟨-, -, -, l, hl⟩ := h.some t b hg
    exact ⟨l, by rw [content_of_get hg, hl.has.hb], hl.sub, hl.len⟩

theorem step_room {S : Type} [Inhabited S] (g : Rng S) {c : Config β d} (hm : c.method = .uniform ∨ c.method = .aChao) {log : Tag → List (Offer β d)} {bs : Buckets β d}
    (h : Inv c log bs) (tag : Tag) (o : Offer β d) (hw : (o.image.length : Int) = tag.2.1) (hl : (log tag).length < c.capacity) :
    ∃ bs', (∀ s, step g c (bs, s) tag o.braid o.image o.weight = .ok (bs', s)) ∧ Inv c (logAdd log tag o) bs' ∧ (∀ t, tag ≠ t → content bs' t = content bs t) ∧
      content bs' tag = content bs tag ++ [o.braid] := by
  obtain ⟨b, l, h1, h2, h3, h4, h5⟩ := step_bucket c h tag o hw
  let s0 : S := default
  obtain ⟨b', k1, k2⟩ := h4.room g o hm (by have := h4.len; omega) (by rw [h3, ← hw]; rfl)
  have hst : ∀ s, step g c (bs, s) tag o.braid o.image o.weight =
      .ok (Dict.set (if !Dict.has bs tag then Dict.set bs tag (Bucket.create tag c.capacity o.image.length) else bs) tag b', s) := by
    intro s
    rw [step]; simp only [h1, bind_ok, k1]
  refine ⟨_, hst, step_inv g c h s0 tag o hw (hst s0), fun t ht => content_congr (by rw [(h5 b').2, if_neg ht]), ?_⟩
  rw [content_of_get (((h5 b').2 tag).trans (if_pos rfl)), k2.has.hb, ← content_step h1, h4.has.hb]
  simp

theorem step_coin {c : Config β d} (hm : c.method = .uniform ∨ c.method = .aChao) (hc : 1 ≤ c.capacity) {log : Tag → List (Offer β d)} {bs : Buckets β d}
    (h : Inv c log bs) (tag : Tag) (o : Offer β d) (hw : (o.image.length : Int) = tag.2.1) (hl : ¬ (log tag).length < c.capacity)
    (hpos : c.method = .aChao → 0 < o.weight ∧ ∀ x ∈ log tag, 0 < x.weight) (M k r : Nat) :
    ∃ bs', (∀ r0 w, step (coinRng M) c (bs, (r0, (k, r) :: w)) tag o.braid o.image o.weight = .ok (bs', (r, w))) ∧ Inv c (logAdd log tag o) bs' ∧
      (∀ t, tag ≠ t → content bs' t = content bs t) ∧
      content bs' tag = if (k : ℚ) / M ≤ threshold c (log tag) o then (content bs tag).set (r % c.capacity) o.braid else content bs tag := by
  obtain ⟨b, l, h1, h2, h3, h4, h5⟩ := step_bucket c h tag o hw
  obtain ⟨b', k1, k2⟩ := h4.coin M k r o hm hc (by have := h4.len; omega) (by rw [h3, ← hw]; rfl) fun e => by
    obtain ⟨p1, p2⟩ := hpos e
    rw [h4.wt]
    have : 0 ≤ ((log tag).map Offer.weight).sum := List.sum_nonneg fun y hy => by
      obtain ⟨x, hx, rfl⟩ := List.mem_map.1 hy; exact (p2 x hx).le
    positivity
  have hst : ∀ r0 w, step (coinRng M) c (bs, (r0, (k, r) :: w)) tag o.braid o.image o.weight =
      .ok (Dict.set (if !Dict.has bs tag then Dict.set bs tag (Bucket.create tag c.capacity o.image.length) else bs) tag b', (r, w)) := by
    intro r0 w
    rw [step]; simp only [h1, bind_ok, k1]
  refine ⟨_, hst, step_inv _ c h _ tag o hw (hst 0 []), fun t ht => content_congr (by rw [(h5 b').2, if_neg ht]), ?_⟩
  rw [content_of_get (((h5 b').2 tag).trans (if_pos rfl)), k2.has.hb, ← content_step h1, h4.has.hb]
  split <;> simp [List.map_set]

/-! ### Events -/

/-- An offer, or a discarded bucket. -/
inductive Ev (β : Type) (d : Nat) where
  | offer (t : Tag) (o : Offer β d)
  | discard (t : Tag)

def events (c : Config β d) (ops : List (Op β d)) : List (Ev β d) :=
  ops.flatMap fun op => match op with | .add b => (offersOf c b).map fun o => Ev.offer o.1 o.2 | .discard t => [.discard t]

def runEv {S : Type} (g : Rng S) (c : Config β d) (st : Buckets β d × S) : List (Ev β d) → Except Err (Buckets β d × S)
  | [] => .ok st
  | .offer t o :: es => do runEv g c (← step g c st t o.braid o.image o.weight) es
  | .discard t :: es => runEv g c (discardBucket st.1 t, st.2) es

theorem runEv_feed {S : Type} (g : Rng S) (c : Config β d) (es : List (Ev β d)) : ∀ (os : List (Tag × Offer β d)) (st : Buckets β d × S),
    runEv g c st (os.map (fun o => Ev.offer o.1 o.2) ++ es) = (feed g c st os).bind fun st' => runEv g c st' es
  | [], st => rfl
  | o :: os, st => by
    rw [List.map_cons, List.cons_append, runEv, feed, List.foldlM_cons]
    cases step g c st o.1 o.2.braid o.2.image o.2.weight with
    | error e => rfl
    | ok st' => rw [bind_ok, bind_ok, runEv_feed g c es os st']; rfl

theorem run_events {S : Type} (g : Rng S) (c : Config β d) : ∀ (ops : List (Op β d)) (st : Buckets β d × S), (∀ b, Op.add b ∈ ops → Valid c b) →
    run g c st ops = runEv g c st (events c ops)
  | [], st, _ => rfl
  | .add b :: ops, st, h => by
    rw [run, events, List.flatMap_cons, ← events, runEv_feed, (add_eq_feed g c st b (h b (by simp))).1]
    cases feed g c st (offersOf c b) with
    | error e => rfl
    | ok st' => rw [bind_ok, run_events g c ops st' fun b' hb' => h b' (by simp [hb'])]; rfl
  | .discard t :: ops, st, h => by
    rw [run, events, List.flatMap_cons, ← events, run_events g c ops _ fun b' hb' => h b' (by simp [hb'])]; rfl

/-- The offers with tag `t` since it was last discarded. -/
def since (t : Tag) (acc : List (Offer β d)) : List (Ev β d) → List (Offer β d)
  | [] => acc
  | .offer t' o :: es => since t (if t' = t then acc ++ [o] else acc) es
  | .discard t' :: es => since t (if t' = t then [] else acc) es

theorem since_feed (t : Tag) (es : List (Ev β d)) : ∀ (os : List (Tag × Offer β d)) (acc : List (Offer β d)),
    since t acc (os.map (fun o => Ev.offer o.1 o.2) ++ es) = since t (acc ++ os.filterMap fun o => if o.1 = t then some o.2 else none) es
  | [], acc => by simp
  | o :: os, acc => by
    rw [List.map_cons, List.cons_append, since, since_feed t es os, List.filterMap_cons]
    by_cases h : o.1 = t <;> simp [h]

theorem since_events (c : Config β d) (t : Tag) : ∀ (ops : List (Op β d)) (acc : List (Offer β d)), offeredSince c t acc ops = since t acc (events c ops)
  | [], acc => rfl
  | .add b :: ops, acc => by rw [offeredSince, events, List.flatMap_cons, ← events, since_feed, since_events c t ops]
  | .discard t' :: ops, acc => by rw [offeredSince, events, List.flatMap_cons, ← events, since_events c t ops]; rfl

def evOffers : List (Ev β d) → Nat
  | [] => 0
  | .offer _ _ :: es => evOffers es + 1
  | .discard _ :: es => evOffers es

theorem evOffers_events (c : Config β d) : ∀ ops : List (Op β d), evOffers (events c ops) = offerCount c ops
  | [] => rfl
  | .add b :: ops => by
    have : ∀ (os : List (Tag × Offer β d)) (es : List (Ev β d)), evOffers (os.map (fun o => Ev.offer o.1 o.2) ++ es) = os.length + evOffers es := by
      intro os
      induction os with
      | nil => intro es; simp
      | cons o os ih => intro es; rw [List.map_cons, List.cons_append, evOffers, ih]; simp; omega
    rw [events, List.flatMap_cons, ← events, this, evOffers_events c ops]; rfl
  | .discard t :: ops => by
    rw [events, List.flatMap_cons, ← events]
    show evOffers (events c ops) = _
    rw [evOffers_events c ops, offerCount, offerCount]; simp

end Bucketing
end Peyl
