import Verif.Spec.SearchChance
import Verif.Lemmas.BraidSearch
import Verif.Lemmas.ReservoirJoint
/-!
# Chances in the reservoirs of `braidsearch.Tracker`
-/
namespace Peyl
namespace BraidSearch
open Bucketing (ex idealAcc Occurs ex_snoc ex_const ex_congr ex_ideal ex_sum)
variable {β : Type} [DecidableEq β] {d : Nat}

noncomputable def avgL (L : Nat) : Nat → (List Nat → ℚ) → ℚ
  | 0, F => F []
  | T + 1, F => (∑ j : Fin L, avgL L T fun w => F (j.val :: w)) / L

theorem sum_tapesL (L : Nat) : ∀ (T : Nat) (F : List Nat → ℚ), (∑ w : Fin T → Fin L, F (List.ofFn fun j => (w j).val)) / (L : ℚ) ^ T = avgL L T F
  | 0, F => by simp [avgL]
  | T + 1, F => by
    rw [avgL, ← (Fin.consEquiv fun _ => Fin L).sum_comp, Fintype.sum_prod_type]
    simp only [← sum_tapesL L T, List.ofFn_succ]
    rw [pow_succ, ← div_div, Finset.sum_div]
    simp [Fin.consEquiv]

theorem tapeChance_eq (L T : Nat) (E : List Nat → Prop) [DecidablePred E] : tapeChance L T E = avgL L T fun w => if E w then 1 else 0 := by
  rw [← sum_tapesL, tapeChance, Finset.card_filter]
  push_cast
  congr 2

theorem avgL_const {L : Nat} (hL : 1 ≤ L) (T : Nat) (a : ℚ) : avgL L T (fun _ => a) = a := by
  have h : (L : ℚ) ≠ 0 := by positivity
  induction T with
  | zero => rfl
  | succ T ih =>
    rw [avgL]; simp only [ih, Finset.sum_const, Finset.card_univ, Fintype.card_fin, nsmul_eq_mul]
    field_simp

theorem avgL_congr {L T : Nat} {F G : List Nat → ℚ} (h : ∀ w, w.length = T → F w = G w) : avgL L T F = avgL L T G := by
  induction T generalizing F G with
  | zero => exact h [] rfl
  | succ T ih =>
    rw [avgL, avgL]
    congr 1
    exact Finset.sum_congr rfl fun k _ => ih fun w hw => h _ (by simp [hw])

/-- Reducing a uniform number modulo a divisor gives a uniform number. -/
theorem sum_mod {L k : Nat} (hk : 1 ≤ k) (h : k ∣ L) (f : Nat → ℚ) : (∑ j : Fin L, f (j.val % k)) = (L / k : Nat) * ∑ i : Fin k, f i.val := by
  obtain ⟨q, rfl⟩ := h
  rw [Nat.mul_div_cancel_left q hk, Fin.sum_univ_eq_sum_range (fun j => f (j % k)), Fin.sum_univ_eq_sum_range f]
  induction q with
  | zero => simp
  | succ q ih =>
    rw [Nat.mul_succ, Finset.sum_range_add, ih]
    push_cast
    rw [add_mul, one_mul]
    congr 1
    refine Finset.sum_congr rfl fun i hi => ?_
    rw [Nat.mul_add_mod, Nat.mod_eq_of_lt (Finset.mem_range.1 hi)]

theorem sum_low {K n : Nat} (h : K ≤ n) (f : Nat → ℚ) (v : ℚ) : (∑ i : Fin n, if i.val + 1 ≤ K then f i.val else v) = (∑ r : Fin K, f r.val) + (n - K : Nat) * v := by
  obtain ⟨m, rfl⟩ := Nat.exists_eq_add_of_le h
  rw [Fin.sum_univ_eq_sum_range (fun i => if i + 1 ≤ K then f i else v), Fin.sum_univ_eq_sum_range f, Finset.sum_range_add, Nat.add_sub_cancel_left]
  congr 1
  · exact Finset.sum_congr rfl fun i hi => if_pos (Finset.mem_range.1 hi)
  · rw [Finset.sum_congr rfl (g := fun _ => v) fun i _ => if_neg (by omega)]
    simp

/-! ### Steps -/

/-- The braids in a bucket. -/
def content {S : Type} (st : State S β d) (t : Tag) : List β := match Dict.get? st.buckets t with | some b => b.braids | none => []

theorem Inv.rng {S : Type} {c : Config S β d} {log : Tag → List (Offer β d)} {st : State S β d} (h : Inv c log st) (w : S) : Inv c log { st with rng := w } :=
  ⟨h.nodup, h.none, h.some⟩

theorem content_of_get {S : Type} {st : State S β d} {t : Tag} {b : Bucket β d} (h : Dict.get? st.buckets t = some b) : content st t = b.braids := by rw [content, h]

theorem content_set {S : Type} {st st' : State S β d} {tag : Tag} {b : Bucket β d} (h : st'.buckets = Dict.set st.buckets tag b) (t : Tag) :
    content st' t = if tag = t then b.braids else content st t := by
  rw [content, content, h, Dict.get?_set]
  by_cases ht : tag = t
  · rw [if_pos ht, if_pos ht]
  · rw [if_neg ht, if_neg ht]

theorem Inv.content_le {S : Type} {c : Config S β d} {log : Tag → List (Offer β d)} {st : State S β d} (h : Inv c log st) (t : Tag) :
    (content st t).length ≤ c.size ∧ (content st t).length ≤ (log t).length := by
  cases hg : Dict.get? st.buckets t with
  | none => rw [content, hg]; simp
  | some b =>
    obtain ⟨k, l, -, hl⟩ := h.some t b hg
    rw [content_of_get hg, hl.hb, List.length_map]
    exact ⟨by rw [hl.len]; omega, hl.sub.length_le⟩

theorem step_room (c : Config (List Nat) β d) (hs : 1 ≤ c.size) {log : Tag → List (Offer β d)} {st : State (List Nat) β d} (h : Inv c log st)
    (tag : Tag) (x : β) (A P : Img d) (hp : Polymat.projectivise A = .ok P) (hw : (P.length : Int) = tag.2) (hl : (content st tag).length < c.size) :
    ∃ st', (∀ w, step c { st with rng := w } tag x A = .ok { st' with rng := w }) ∧ Inv c (logAdd log tag ⟨x, projOf A⟩) st' ∧
      ∀ t, content st' t = if tag = t then (if x ∈ content st tag then content st tag else content st tag ++ [x]) else content st t := by
  have hinv : ∀ st', (∀ w, step c { st with rng := w } tag x A = .ok { st' with rng := w }) → Inv c (logAdd log tag ⟨x, projOf A⟩) st' := fun st' h' =>
    (step_inv c (h.rng []) tag x A (fun P' hP' => by rw [hp] at hP'; cases hP'; exact hw) (h' [])).rng st'.rng
  cases hg : Dict.get? st.buckets tag with
  | none =>
    have hst : ∀ w, step c { st with rng := w } tag x A = .ok { ({ st with
      buckets := Dict.set st.buckets tag ⟨P.length, [x], [x], P :: List.replicate (c.size - 1) (List.replicate P.length 0)⟩
      counts := Dict.set st.counts tag 1 } : State (List Nat) β d) with rng := w } := fun w => by
      rw [step]; simp only [hg, hp, bind_ok]; rw [if_neg (by omega)]
    refine ⟨_, hst, hinv _ hst, fun t => ?_⟩
    rw [content_set (st := st) (b := ⟨P.length, [x], [x], P :: List.replicate (c.size - 1) (List.replicate P.length 0)⟩) rfl]
    have : content st tag = [] := by rw [content, hg]
    rw [this]; simp
  | some b =>
    obtain ⟨k, l, hk, hi⟩ := h.some tag b hg
    have hPw : P.length = b.width := by have := hi.wd; omega
    rw [content_of_get hg] at hl ⊢
    have hset : ∀ y, y ∈ b.braidSet ↔ y ∈ b.braids := fun y => by
      rw [hi.hb]; exact (hi.set (by rw [hi.hb, List.length_map] at hl; exact hl)).1 y
    by_cases hm : x ∈ b.braids
    · have hst : ∀ w, step c { st with rng := w } tag x A = .ok { ({ st with counts := Dict.set st.counts tag (k + 1) } : State (List Nat) β d) with rng := w } := fun w => by
        rw [step]; simp only [hg, Dict.get, hk, bind_ok]
        rw [if_neg (by omega), if_pos (by simpa using (hset x).2 hm)]
      refine ⟨_, hst, hinv _ hst, fun t => ?_⟩
      rw [if_pos hm]
      split
      · next e => subst e; exact content_of_get (st := { st with counts := Dict.set st.counts tag (k + 1) }) hg
      · rfl
    · have hst : ∀ w, step c { st with rng := w } tag x A = .ok { ({ st with
          buckets := Dict.set st.buckets tag { b with braids := b.braids ++ [x], braidSet := x :: b.braidSet, images := b.images.set b.braids.length P }
          counts := Dict.set st.counts tag (k + 1) } : State (List Nat) β d) with rng := w } := fun w => by
        rw [step]; simp only [hg, Dict.get, hk, bind_ok]
        rw [if_neg (by omega), if_neg (by simpa using fun h => hm ((hset x).1 h)), hp, bind_ok, assignImg, if_pos hPw, bind_ok]
      refine ⟨_, hst, hinv _ hst, fun t => ?_⟩
      rw [content_set (st := st) (b := { b with braids := b.braids ++ [x], braidSet := x :: b.braidSet, images := b.images.set b.braids.length P }) rfl, if_neg hm]

theorem step_full (c : Config (List Nat) β d) (hs : 1 ≤ c.size) (hr : c.rand = some tapeRng) {log : Tag → List (Offer β d)} {st : State (List Nat) β d} (h : Inv c log st)
    (tag : Tag) (x : β) (A P : Img d) (hp : Polymat.projectivise A = .ok P) (hw : (P.length : Int) = tag.2) (hl : ¬ (content st tag).length < c.size) (j : Nat) :
    ∃ st', (∀ w, step c { st with rng := j :: w } tag x A = .ok { st' with rng := w }) ∧ Inv c (logAdd log tag ⟨x, projOf A⟩) st' ∧
      ∀ t, content st' t = if tag = t then (if j % ((log tag).length + 1) + 1 ≤ c.size then (content st tag).set (j % ((log tag).length + 1)) x else content st tag)
        else content st t := by
  have hinv : ∀ st', (∀ w, step c { st with rng := j :: w } tag x A = .ok { st' with rng := w }) → Inv c (logAdd log tag ⟨x, projOf A⟩) st' := fun st' h' =>
    (step_inv c (h.rng [j]) tag x A (fun P' hP' => by rw [hp] at hP'; cases hP'; exact hw) (h' [])).rng st'.rng
  have hle := (h.content_le tag).1
  cases hg : Dict.get? st.buckets tag with
  | none => rw [content, hg] at hl; simp at hl; omega
  | some b =>
    obtain ⟨k, l, hk, hi⟩ := h.some tag b hg
    have hPw : P.length = b.width := by have := hi.wd; omega
    rw [content_of_get hg] at hl hle ⊢
    have hcnt : k = (log tag).length := hi.cnt
    have hdraw : ∀ w, tapeRng.draw (j :: w) (k + 1) = .ok (j % (k + 1), w) := fun w => by
      rw [Rng.draw, if_neg (by omega)]; rfl
    rw [← hcnt]
    by_cases hj : j % (k + 1) + 1 ≤ c.size
    · have hst : ∀ w, step c { st with rng := j :: w } tag x A = .ok { ({ st with
          buckets := Dict.set st.buckets tag { b with braids := b.braids.set (j % (k + 1)) x, images := b.images.set (j % (k + 1)) P }
          counts := Dict.set st.counts tag (k + 1) } : State (List Nat) β d) with rng := w } := fun w => by
        rw [step]; simp only [hg, Dict.get, hk, bind_ok]
        rw [if_pos (by omega)]
        simp only [hr, hdraw, bind_ok]
        rw [if_pos hj, hp, bind_ok, assignImg, if_pos hPw, bind_ok]
      refine ⟨_, hst, hinv _ hst, fun t => ?_⟩
      rw [content_set (st := st) (b := { b with braids := b.braids.set (j % (k + 1)) x, images := b.images.set (j % (k + 1)) P }) rfl, if_pos hj]
    · have hst : ∀ w, step c { st with rng := j :: w } tag x A = .ok { ({ st with counts := Dict.set st.counts tag (k + 1) } : State (List Nat) β d) with rng := w } := fun w => by
        rw [step]; simp only [hg, Dict.get, hk, bind_ok]
        rw [if_pos (by omega)]
        simp only [hr, hdraw, bind_ok]
        rw [if_neg hj]
      refine ⟨_, hst, hinv _ hst, fun t => ?_⟩
      rw [if_neg hj]
      split
      · next e => subst e; exact content_of_get (st := { st with counts := Dict.set st.counts tag (k + 1) }) hg
      · rfl

/-! ### Events -/

inductive Ev (β : Type) (d : Nat) where
  | offer (r : Raw β d)
  | discard (t : Tag)

def events {S : Type} (c : Config S β d) (ops : List (Op β d)) : List (Ev β d) :=
  ops.flatMap fun op => match op with | .add b => (rawOf c b).map Ev.offer | .discard t => [.discard t]

def runEv {S : Type} (c : Config S β d) (st : State S β d) : List (Ev β d) → Except Err (State S β d)
  | [] => .ok st
  | .offer r :: es => do runEv c (← step c st r.1 r.2.1 r.2.2) es
  | .discard t :: es => runEv c (discardBucket st t) es

theorem add_feed {S : Type} (c : Config S β d) (st : State S β d) (b : Bucketing.Batch β d) (hv : Valid b) : addBraidsImages c st b = feed c st (rawOf c b) := by
  obtain ⟨s, pl, h1, h2⟩ := stats_ok c b hv
  rw [addBraidsImages, h1, bind_ok, h2, bind_ok, rawOf, h1, h2, feed, List.foldlM_map]

theorem runEv_feed {S : Type} (c : Config S β d) (es : List (Ev β d)) : ∀ (os : List (Raw β d)) (st : State S β d),
    runEv c st (os.map Ev.offer ++ es) = (feed c st os).bind fun st' => runEv c st' es
  | [], st => rfl
  | o :: os, st => by
    rw [List.map_cons, List.cons_append, runEv, feed, List.foldlM_cons]
    cases step c st o.1 o.2.1 o.2.2 with
    | error e => rfl
    | ok st' => rw [bind_ok, bind_ok, runEv_feed c es os st']; rfl

theorem run_events {S : Type} (c : Config S β d) : ∀ (ops : List (Op β d)) (st : State S β d), (∀ b, Op.add b ∈ ops → Valid b) → run c st ops = runEv c st (events c ops)
  | [], st, _ => rfl
  | .add b :: ops, st, h => by
    rw [run, events, List.flatMap_cons, ← events, runEv_feed, add_feed c st b (h b (by simp))]
    cases feed c st (rawOf c b) with
    | error e => rfl
    | ok st' => rw [bind_ok, run_events c ops st' fun b' hb' => h b' (by simp [hb'])]; rfl
  | .discard t :: ops, st, h => by
    rw [run, events, List.flatMap_cons, ← events, run_events c ops _ fun b' hb' => h b' (by simp [hb'])]; rfl

/-- A pair as an offer of the other tracker (with weight 1). -/
def conv (r : Raw β d) : Bucketing.Offer β d := ⟨r.2.1, projOf r.2.2, 1⟩

def since (t : Tag) (acc : List (Bucketing.Offer β d)) : List (Ev β d) → List (Bucketing.Offer β d)
  | [] => acc
  | .offer r :: es => since t (if r.1 = t then acc ++ [conv r] else acc) es
  | .discard t' :: es => since t (if t' = t then [] else acc) es

theorem since_feed (t : Tag) (es : List (Ev β d)) : ∀ (os : List (Raw β d)) (acc : List (Offer β d)),
    since t (acc.map fun o => (⟨o.braid, o.image, 1⟩ : Bucketing.Offer β d)) (os.map Ev.offer ++ es) =
      since t ((acc ++ (os.map Raw.offer).filterMap fun o => if o.1 = t then some o.2 else none).map fun o => (⟨o.braid, o.image, 1⟩ : Bucketing.Offer β d)) es
  | [], acc => by simp
  | o :: os, acc => by
    rw [List.map_cons, List.cons_append, since, List.map_cons, List.filterMap_cons]
    by_cases h : o.1 = t
    · have := since_feed t es os (acc ++ [(Raw.offer o).2])
      simp only [List.map_append, List.map_cons, List.map_nil, List.append_assoc] at this
      simp only [Raw.offer, h, if_true, List.map_append, List.map_cons]
      exact this
    · have := since_feed t es os acc
      simp only [Raw.offer, h, if_false]
      exact this

theorem since_events {S : Type} (c : Config S β d) (t : Tag) : ∀ (ops : List (Op β d)) (acc : List (Offer β d)),
    (offeredSince c t acc ops).map (fun o => (⟨o.braid, o.image, 1⟩ : Bucketing.Offer β d)) = since t (acc.map fun o => ⟨o.braid, o.image, 1⟩) (events c ops)
  | [], acc => rfl
  | .add b :: ops, acc => by rw [offeredSince, events, List.flatMap_cons, ← events, since_feed, since_events c t ops, keptOf_eq]
  | .discard t' :: ops, acc => by
    rw [offeredSince, events, List.flatMap_cons, ← events, since_events c t ops]
    show _ = since t (if t' = t then [] else _) (events c ops)
    split <;> rfl

def evOffers : List (Ev β d) → Nat
  | [] => 0
  | .offer _ :: es => evOffers es + 1
  | .discard _ :: es => evOffers es

theorem evOffers_events (c : Config (List Nat) β d) : ∀ ops : List (Op β d), evOffers (events c ops) = keptCount c ops
  | [] => rfl
  | .add b :: ops => by
    have : ∀ (os : List (Raw β d)) (es : List (Ev β d)), evOffers (os.map Ev.offer ++ es) = os.length + evOffers es := by
      intro os
      induction os with
      | nil => intro es; simp
      | cons o os ih => intro es; rw [List.map_cons, List.cons_append, evOffers, ih]; simp; omega
    rw [events, List.flatMap_cons, ← events, this, evOffers_events c ops]
    simp [keptCount, keptOf_eq]
  | .discard t :: ops => by
    rw [events, List.flatMap_cons, ← events]
    show evOffers (events c ops) = _
    rw [evOffers_events c ops, keptCount, keptCount]; simp

/-! ### The recursion -/

noncomputable def exB (K : Nat) (t : Tag) (F : List β → ℚ) : Nat → List β → List (Ev β d) → ℚ
  | _, l, [] => F l
  | n, l, .offer r :: es =>
    if r.1 = t then
      if l.length < K then exB K t F (n + 1) (if r.2.1 ∈ l then l else l ++ [r.2.1]) es
      else (1 - K / (n + 1 : Nat)) * exB K t F (n + 1) l es + K / (n + 1 : Nat) / K * ∑ i : Fin K, exB K t F (n + 1) (l.set i.val r.2.1) es
    else exB K t F n l es
  | n, l, .discard t' :: es => if t' = t then exB K t F 0 [] es else exB K t F n l es

def hitF {S : Type} (t : Tag) (F : List β → ℚ) (r : Except Err (State S β d)) : ℚ := match r with | .ok st => F (content st t) | .error _ => 0

theorem coreB {c : Config (List Nat) β d} (hs : 1 ≤ c.size) (hr : c.rand = some tapeRng) {L B : Nat} (hL : 1 ≤ L) (hB : ∀ k, 1 ≤ k → k ≤ B → k ∣ L) (t : Tag) (F : List β → ℚ) :
    ∀ (es : List (Ev β d)) (T : Nat) (st : State (List Nat) β d) (log : Tag → List (Offer β d)), Inv c log st → evOffers es ≤ T →
      (∀ t', (log t').length + evOffers es ≤ B) → (∀ r, Ev.offer r ∈ es → ∃ P, Polymat.projectivise r.2.2 = .ok P ∧ (P.length : Int) = r.1.2) →
      (avgL L T fun w => hitF t F (runEv c { st with rng := w } es)) = exB c.size t F (log t).length (content st t) es
  | [], T, st, log, hi, hT, hn, hw => by
    simp only [runEv, hitF, exB]; exact avgL_const hL T (F (content st t))
  | .discard t' :: es, T, st, log, hi, hT, hn, hw => by
    have hi' := discard_inv c hi t'
    have ih := coreB hs hr hL hB t F es T _ _ hi' hT (fun t'' => by
      have := hn t''
      rw [evOffers] at this
      split
      · simp; omega
      · exact this) (fun r h => hw r (List.mem_cons_of_mem _ h))
    have e : ∀ w : List Nat, discardBucket { st with rng := w } t' = { discardBucket st t' with rng := w } := fun w => by
      cases hh : Dict.has st.buckets t' with
      | true =>
        have e1 : discardBucket st t' = { st with buckets := Dict.del st.buckets t' } := by rw [discardBucket, if_pos hh]
        rw [e1, discardBucket, if_pos hh]
      | false =>
        have e1 : discardBucket st t' = st := by rw [discardBucket, hh]; rfl
        rw [e1, discardBucket, if_neg (by rw [hh]; decide)]
    refine Eq.trans (avgL_congr fun w _ => by rw [runEv, e w]) (ih.trans ?_)
    rw [exB]
    have hc : content (discardBucket st t') t = if t' = t then [] else content st t := by
      rw [content, content, discard_get]
      by_cases ht : t' = t
      · rw [if_pos ht, if_pos ht]
      · rw [if_neg ht, if_neg ht]
    rw [hc]
    by_cases ht : t' = t
    · simp only [if_pos ht, List.length_nil]
    · simp only [if_neg ht]
  | .offer r :: es, T, st, log, hi, hT, hn, hw => by
    obtain ⟨P, hP, hPw⟩ := hw r List.mem_cons_self
    have hw' : ∀ r, Ev.offer r ∈ es → ∃ P, Polymat.projectivise r.2.2 = .ok P ∧ (P.length : Int) = r.1.2 := fun r h => hw r (List.mem_cons_of_mem _ h)
    have hlog : (logAdd log r.1 ⟨r.2.1, projOf r.2.2⟩ t).length = if r.1 = t then (log t).length + 1 else (log t).length := by
      rw [logAdd]; split <;> simp
    have hn' : ∀ t', (logAdd log r.1 ⟨r.2.1, projOf r.2.2⟩ t').length + evOffers es ≤ B := fun t' => by
      have := hn t'
      rw [evOffers] at this
      rw [logAdd]; split <;> simp <;> omega
    rw [evOffers] at hT
    by_cases hl : (content st r.1).length < c.size
    · obtain ⟨st', h1, h2, h3⟩ := step_room c hs hi r.1 r.2.1 r.2.2 P hP hPw hl
      have ih := coreB hs hr hL hB t F es T st' _ h2 (by omega) hn' hw'
      simp only [runEv, h1, bind_ok]
      rw [ih, exB, hlog, h3]
      by_cases ht : r.1 = t
      · subst ht
        rw [if_pos rfl, if_pos rfl, if_pos rfl, if_pos hl]
      · rw [if_neg ht, if_neg ht, if_neg ht]
    · obtain ⟨T, rfl⟩ : ∃ T', T = T' + 1 := ⟨T - 1, by omega⟩
      have hL0 : (L : ℚ) ≠ 0 := by positivity
      have hK0 : (c.size : ℚ) ≠ 0 := by positivity
      have hcl := hi.content_le r.1
      have hnB : (log r.1).length + 1 ≤ B := by have := hn r.1; rw [evOffers] at this; omega
      rw [avgL]
      have key : ∀ j : Fin L, (avgL L T fun w => hitF t F (runEv c { st with rng := j.val :: w } (.offer r :: es))) =
          if r.1 = t then (if j.val % ((log r.1).length + 1) + 1 ≤ c.size then exB c.size t F ((log t).length + 1) ((content st t).set (j.val % ((log r.1).length + 1)) r.2.1) es
            else exB c.size t F ((log t).length + 1) (content st t) es) else exB c.size t F (log t).length (content st t) es := by
        intro j
        obtain ⟨st', h1, h2, h3⟩ := step_full c hs hr hi r.1 r.2.1 r.2.2 P hP hPw hl j.val
        have ih := coreB hs hr hL hB t F es T st' _ h2 (by omega) hn' hw'
        simp only [runEv, h1, bind_ok]
        rw [ih, hlog, h3]
        by_cases ht : r.1 = t
        · subst ht
          rw [if_pos rfl, if_pos rfl, if_pos rfl]
          split <;> rfl
        · rw [if_neg ht, if_neg ht, if_neg ht]
      simp only [key]
      rw [exB]
      by_cases ht : r.1 = t
      · subst ht
        simp only [if_true]
        rw [if_neg hl]
        have hd := hB ((log r.1).length + 1) (by omega) hnB
        rw [sum_mod (by omega) hd (fun i => if i + 1 ≤ c.size then exB c.size r.1 F ((log r.1).length + 1) ((content st r.1).set i r.2.1) es
          else exB c.size r.1 F ((log r.1).length + 1) (content st r.1) es),
          sum_low (by omega) (fun i => exB c.size r.1 F ((log r.1).length + 1) ((content st r.1).set i r.2.1) es)]
        have e1 : ((L / ((log r.1).length + 1) : Nat) : ℚ) = L / ((log r.1).length + 1 : Nat) := Nat.cast_div hd (by positivity)
        have e2 : (((log r.1).length + 1 - c.size : Nat) : ℚ) = ((log r.1).length + 1 : Nat) - c.size := Nat.cast_sub (by omega)
        rw [e1, e2]
        have h0 : (((log r.1).length + 1 : Nat) : ℚ) ≠ 0 := by positivity
        field_simp
        ring
      · simp only [if_neg ht, Finset.sum_const, Finset.card_univ, Fintype.card_fin, nsmul_eq_mul]
        field_simp

theorem exB_discard (K : Nat) (t : Tag) (F : List β → ℚ) (hK : 1 ≤ K) : ∀ (es : List (Ev β d)) (n n' : Nat) (l l' : List β), Ev.discard t ∈ es →
    exB K t F n l es = exB K t F n' l' es
  | .offer r :: es, n, n', l, l', h => by
    have h' : Ev.discard t ∈ es := by simpa using h
    have hc : ∀ m k, exB K t F m k es = exB K t F 0 [] es := fun m k => exB_discard K t F hK es _ _ _ _ h'
    have hK0 : (K : ℚ) ≠ 0 := by positivity
    have key : ∀ n l, exB K t F n l (.offer r :: es) = exB K t F 0 [] es := fun n l => by
      rw [exB]
      simp only [hc, Finset.sum_const, Finset.card_univ, Fintype.card_fin, nsmul_eq_mul]
      split
      · split
        · rfl
        · have : ((n + 1 : Nat) : ℚ) ≠ 0 := by positivity
          field_simp; ring
      · rfl
    rw [key, key]
  | .discard t' :: es, n, n', l, l', h => by
    rw [exB, exB]
    by_cases ht : t' = t
    · rw [if_pos ht, if_pos ht]
    · rw [if_neg ht, if_neg ht]
      refine exB_discard K t F hK es _ _ _ _ ?_
      rcases List.mem_cons.1 h with h | h
      · cases h; exact absurd rfl ht
      · exact h

theorem since_prefix (t : Tag) : ∀ (es : List (Ev β d)) (log : List (Bucketing.Offer β d)), Ev.discard t ∉ es → log <+: since t log es
  | [], log, _ => List.prefix_rfl
  | .offer r :: es, log, h => by
    have := since_prefix t es (if r.1 = t then log ++ [conv r] else log) fun hh => h (List.mem_cons_of_mem _ hh)
    rw [since]
    refine List.IsPrefix.trans ?_ this
    split
    · exact List.prefix_append _ _
    · exact List.prefix_rfl
  | .discard t' :: es, log, h => by
    have ht : t' ≠ t := fun e => h (by simp [e])
    rw [since, if_neg ht]
    exact since_prefix t es log fun hh => h (List.mem_cons_of_mem _ hh)

theorem exB_eq_ex {K : Nat} (hK : 1 ≤ K) (t : Tag) (F : List β → ℚ) : ∀ (es : List (Ev β d)) (log : List (Bucketing.Offer β d)),
    ((since t log es).map Bucketing.Offer.braid).Nodup →
    ex K (idealAcc K) (fun l => exB K t F log.length l es) [] [] log = ex K (idealAcc K) F [] [] (since t log es)
  | [], log, _ => rfl
  | .offer r :: es, log, hn => by
    rw [since] at hn ⊢
    by_cases ht : r.1 = t
    · simp only [if_pos ht, exB] at hn ⊢
      have ih := exB_eq_ex hK t F es (log ++ [conv r]) hn
      rw [← ih, ex_snoc]
      by_cases hd : Ev.discard t ∈ es
      · have hc : ∀ m k, exB K t F m k es = exB K t F 0 [] es := fun m k => exB_discard K t F hK es _ _ _ _ hd
        have hK0 : (K : ℚ) ≠ 0 := by positivity
        simp only [hc, Finset.sum_const, Finset.card_univ, Fintype.card_fin, nsmul_eq_mul]
        have e1 : (fun l : List β => if l.length < K then exB K t F 0 [] es else
            (1 - (K : ℚ) / (log.length + 1 : Nat)) * exB K t F 0 [] es + (K : ℚ) / (log.length + 1 : Nat) / K * (K * exB K t F 0 [] es)) = fun _ => exB K t F 0 [] es := by
          funext l
          split
          · rfl
          · have : ((log.length + 1 : Nat) : ℚ) ≠ 0 := by positivity
            field_simp; ring
        have e2 : (fun _ : List β => if ([] ++ log).length < K then exB K t F 0 [] es else
            (1 - idealAcc K ([] ++ log) (conv r)) * exB K t F 0 [] es + idealAcc K ([] ++ log) (conv r) / K * (K * exB K t F 0 [] es)) = fun _ => exB K t F 0 [] es := by
          funext l
          split
          · rfl
          · field_simp; ring
        rw [e1, e2]
      · have hnd : ((log ++ [conv r]).map Bucketing.Offer.braid).Nodup := hn.sublist ((since_prefix t es _ hd).sublist.map _)
        have hn0 : (log.map Bucketing.Offer.braid).Nodup := by rw [List.map_append, List.nodup_append] at hnd; exact hnd.1
        have ho : (conv r).braid ∉ log.map Bucketing.Offer.braid := by
          rw [List.map_append, List.nodup_append] at hnd
          exact fun h => hnd.2.2 _ h _ (by simp) rfl
        refine ex_congr (idealAcc K) log [] [] ⟨by simp, by simp, by simp⟩ (by simpa using hn0) fun l' hl' => ?_
        simp only [List.nil_append] at hl' ⊢
        have hiff : l'.length < K ↔ log.length < K := by rw [hl'.len]; omega
        have hm : r.2.1 ∉ l' := fun h => ho (hl'.sub _ h)
        simp only [hiff, if_neg hm, List.length_append, List.length_singleton, idealAcc]
        rfl
    · simp only [if_neg ht, exB] at hn ⊢
      exact exB_eq_ex hK t F es log hn
  | .discard t' :: es, log, hn => by
    rw [since] at hn ⊢
    by_cases ht : t' = t
    · simp only [if_pos ht, exB] at hn ⊢
      rw [← exB_eq_ex hK t F es [] hn, ex_const hK]
      rfl
    · simp only [if_neg ht, exB] at hn ⊢
      exact exB_eq_ex hK t F es log hn

/-- After a history, an event about the contents of a bucket. -/
theorem tapeChance_run {c : Config (List Nat) β d} (hs : 1 ≤ c.size) (hr : c.rand = some tapeRng) {L : Nat} (hL : 1 ≤ L) (ops : List (Op β d))
    (hB : ∀ k, 1 ≤ k → k ≤ keptCount c ops → k ∣ L) (hv : ∀ b, Op.add b ∈ ops → Valid b) (t : Tag) (T : Nat) (hT : keptCount c ops ≤ T)
    (ho : offered c ops t ≠ []) (hn : ((offered c ops t).map Offer.braid).Nodup) (P : List β → Prop) [DecidablePred P] :
    tapeChance L T (fun w => ∃ st b, run c (State.init w) ops = .ok st ∧ Dict.get? st.buckets t = some b ∧ P b.braids) =
      ex c.size (idealAcc c.size) (fun l => if P l then 1 else 0) [] [] ((offered c ops t).map fun o => (⟨o.braid, o.image, 1⟩ : Bucketing.Offer β d)) := by
  classical
  have hmem : ∀ r, Ev.offer r ∈ events c ops → ∃ P, Polymat.projectivise r.2.2 = .ok P ∧ (P.length : Int) = r.1.2 := by
    intro r h
    rw [events, List.mem_flatMap] at h
    obtain ⟨op, h1, h2⟩ := h
    cases op with
    | add b =>
      obtain ⟨p, hp1, hp2⟩ := List.mem_map.1 h2
      have e0 : p = r := by injection hp2
      rw [e0] at hp1
      have hok := rawOf_ok c b r hp1
      obtain ⟨s, pl, e1, e2⟩ := stats_ok c b (hv b h1)
      rw [rawOf, e1, e2] at hp1
      obtain ⟨i, -, rfl⟩ := List.mem_map.1 hp1
      obtain ⟨P, hP, -⟩ := Polymat.projectivise_spec (imgAt b.images i) fun a => by
        rw [show a = () from rfl, Bucketing.den_imgAt, Ne, Polymat.den_eq_zero]
        intro e
        obtain ⟨r, s, hne⟩ := (hv b h1).2 i
        rw [e 0] at hne; exact hne rfl
      exact ⟨P, hP, hok P hP⟩
    | discard t => simp at h2
  have hsi : since t [] (events c ops) = (offered c ops t).map fun o => (⟨o.braid, o.image, 1⟩ : Bucketing.Offer β d) := (since_events c t ops []).symm
  have hco := coreB hs hr hL hB t (fun l => if P l then 1 else 0) (events c ops) T (State.init []) (fun _ => []) (inv_init c []) (by rw [evOffers_events]; exact hT)
    (fun t' => by rw [evOffers_events]; simp) hmem
  rw [tapeChance_eq, ← hsi, ← exB_eq_ex hs t _ (events c ops) [] (by rw [hsi, List.map_map]; exact hn)]
  refine Eq.trans (avgL_congr fun w _ => ?_) hco
  rw [← run_events c ops _ hv]
  show _ = hitF t _ (run c (State.init w) ops)
  cases hrun : run c (State.init w) ops with
  | error e =>
    rw [hitF, if_neg]
    rintro ⟨r, b, h1, -⟩
    cases h1
  | ok r =>
    have hinv := run_inv c ops (inv_init c w) hrun
    show _ = if P (content r t) then (1 : ℚ) else 0
    refine if_congr ?_ rfl rfl
    constructor
    · rintro ⟨r', b, h1, h2, h3⟩
      cases h1
      rw [content_of_get h2]; exact h3
    · intro h
      cases hg : Dict.get? r.buckets t with
      | none => exact absurd (hinv.none t hg) ho
      | some b => rw [content_of_get hg] at h; exact ⟨r, b, rfl, hg, h⟩

end BraidSearch
end Peyl
