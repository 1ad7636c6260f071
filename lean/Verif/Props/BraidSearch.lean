import Verif.Lemmas.Reservoir
/-!
# Properties of `braidsearch.Tracker` (C63-C65, C67, C68 for the exported tracker)

`run c (State.init s) ops` executes a history on an empty tracker; `offered c ops t` are the (braid, projectivised image) pairs
that pass the criterion with tag `t = (length, projlen)` since the last discard of `t` (Verif/Spec/BraidSearch.lean).
-/
namespace Peyl
open BraidSearch
variable {S β : Type} [DecidableEq β] {d : Nat}

/-- C63 (exported tracker): a bucket never holds more than `bucket_size` braids, and exactly the smaller of that and the number of
distinct braids offered to it. -/
theorem C63_search_capacity (c : Config S β d) (s : S) (ops : List (Op β d)) (st : State S β d)
    (h : run c (State.init s) ops = .ok st) (t : Tag) (b : Bucket β d) (hb : (t, b) ∈ st.buckets) :
    b.braids.length ≤ c.size ∧ b.braids.length = min c.size (firstDistinct (offered c ops t)).length := by
  have hi := run_inv c ops (inv_init c s) h
  obtain ⟨k, l, -, hl⟩ := hi.some t b (Dict.get?_of_mem hi.nodup hb)
  have : b.braids.length = l.length := by rw [hl.hb, List.length_map]
  have h2 := hl.len
  exact ⟨by omega, by rw [this]; exact h2⟩

/-- C63 (exported tracker): with a bucket size of at least one, histories whose images are non-zero with a constant term run
without an exception. -/
theorem C63_search_no_error (c : Config S β d) (hc : 1 ≤ c.size) (s : S) (ops : List (Op β d)) (hv : ∀ b, Op.add b ∈ ops → Valid b) :
    ∃ st, run c (State.init s) ops = .ok st := run_ok c hc ops (inv_init c s) hv

/-- C64 (exported tracker): buckets hold offered pairs only, index by index, images projectivised and as wide as the tag says;
a bucket exists exactly for tags with offers. -/
theorem C64_search_contents (c : Config S β d) (s : S) (ops : List (Op β d)) (st : State S β d)
    (h : run c (State.init s) ops = .ok st) :
    (st.buckets.map Prod.fst).Nodup ∧
    (∀ t, (∃ b, (t, b) ∈ st.buckets) ↔ offered c ops t ≠ []) ∧
    ∀ t b, (t, b) ∈ st.buckets → ∃ l, Holds b l ∧ l.Subperm (offered c ops t) ∧
      ∀ o ∈ l, Polymat.projectivise o.image = .ok o.image ∧ (o.image.length : ℤ) = t.2 := by
  have hi := run_inv c ops (inv_init c s) h
  refine ⟨hi.nodup, fun t => ⟨?_, fun hne => ?_⟩, fun t b hb => ?_⟩
  · rintro ⟨b, hb⟩ e
    obtain ⟨k, l, -, hl⟩ := hi.some t b (Dict.get?_of_mem hi.nodup hb)
    have h1 := hl.sub.length_le
    have h2 : offeredSince c t [] ops = [] := e
    rw [h2] at h1
    exact hl.ne (by simpa using h1)
  · cases hg : Dict.get? st.buckets t with
    | none => exact absurd (hi.none t hg) hne
    | some b => exact ⟨b, Dict.mem_of_get? hg⟩
  · obtain ⟨k, l, -, hl⟩ := hi.some t b (Dict.get?_of_mem hi.nodup hb)
    exact ⟨l, ⟨hl.hb, hl.hi⟩, hl.sub, fun o ho => ⟨hl.nz o ho, by rw [hl.iw o ho]; exact hl.wd⟩⟩

/-- C65 (exported tracker): the reservoir count of a bucket is the number of braids offered to it (repetitions included). -/
theorem C65_search_counters (c : Config S β d) (s : S) (ops : List (Op β d)) (st : State S β d)
    (h : run c (State.init s) ops = .ok st) (t : Tag) (b : Bucket β d) (hb : (t, b) ∈ st.buckets) :
    Dict.get? st.counts t = some (offered c ops t).length := by
  have hi := run_inv c ops (inv_init c s) h
  obtain ⟨k, l, hk, hl⟩ := hi.some t b (Dict.get?_of_mem hi.nodup hb)
  rw [hk, hl.cnt]; rfl

/-- C67 (exported tracker): without a random generator, and always while a bucket is not full, it holds exactly the first distinct
braids offered, in order, up to `bucket_size`. -/
theorem C67_search_first (c : Config S β d) (s : S) (ops : List (Op β d)) (st : State S β d)
    (h : run c (State.init s) ops = .ok st) (t : Tag) (b : Bucket β d) (hb : (t, b) ∈ st.buckets)
    (hr : c.rand = none ∨ b.braids.length < c.size) : Holds b ((firstDistinct (offered c ops t)).take c.size) := by
  have hi := run_inv c ops (inv_init c s) h
  obtain ⟨k, l, -, hl⟩ := hi.some t b (Dict.get?_of_mem hi.nodup hb)
  have : b.braids.length = l.length := by rw [hl.hb, List.length_map]
  have e : l = (firstDistinct (offered c ops t)).take c.size := by
    rcases hr with hr | hr
    · exact hl.norand hr
    · rw [this] at hr
      have h1 := (hl.set hr).2
      have h2 := hl.len
      have h3 : l = firstDistinct (offered c ops t) := h1
      rw [List.take_of_length_le (by rw [← h3]; exact hr.le)]; exact h3
  rw [← e]; exact ⟨hl.hb, hl.hi⟩

/-! ## C68 -/

/-- All operations are additions of batches that go to bucket `t`. -/
def OnlyTag (c : Config S β d) (t : Tag) (ops : List (Op β d)) : Prop :=
  ∀ op ∈ ops, ∃ b, op = .add b ∧ Valid b ∧ ∀ o ∈ keptOf c b, o.1 = t

theorem run_eq_feed (c : Config S β d) (hs : 1 ≤ c.size) (t : Tag) : ∀ (ops : List (Op β d)) {log : Tag → List (Offer β d)} (st : State S β d),
    Inv c log st → OnlyTag c t ops → ∃ rs : List (Raw β d), (∀ r ∈ rs, r.1 = t ∧ RawOK r ∧ ∃ P, Polymat.projectivise r.2.2 = .ok P) ∧
      (∀ acc, offeredSince c t acc ops = acc ++ rs.map fun r => ⟨r.2.1, projOf r.2.2⟩) ∧
      ∀ (st : State S β d) {log : Tag → List (Offer β d)}, Inv c log st → run c st ops = feed c st rs
  | [], log, st, _, _ => ⟨[], by simp, by simp [offeredSince], fun st log _ => rfl⟩
  | op :: ops, log, st, hi, ho => by
    obtain ⟨b, rfl, hv, hk⟩ := ho op List.mem_cons_self
    obtain ⟨rs, h1, h2, h3⟩ := run_eq_feed c hs t ops st hi fun op' h' => ho op' (List.mem_cons_of_mem _ h')
    refine ⟨rawOf c b ++ rs, fun r hr => ?_, fun acc => ?_, fun st log hi => ?_⟩
    · rcases List.mem_append.1 hr with hr | hr
      · refine ⟨?_, rawOf_ok c b r hr, ?_⟩
        · have := hk (Raw.offer r) (by rw [keptOf_eq]; exact List.mem_map_of_mem hr)
          exact this
        · obtain ⟨s, pl, e1, e2⟩ := stats_ok c b hv
          rw [rawOf, e1, e2] at hr
          obtain ⟨i, -, rfl⟩ := List.mem_map.1 hr
          obtain ⟨P, hP, -⟩ := Polymat.projectivise_spec (imgAt b.images i) fun a => by
            rw [show a = () from rfl, Bucketing.den_imgAt, Ne, Polymat.den_eq_zero]
            intro e
            obtain ⟨r, s, hne⟩ := hv.2 i
            rw [e 0] at hne; exact hne rfl
          exact ⟨P, hP⟩
      · exact h1 r hr
    · rw [offeredSince, h2, List.map_append, List.append_assoc]
      congr 2
      rw [keptOf_eq, List.filterMap_map]
      have : ∀ l : List (Raw β d), (∀ r ∈ l, r.1 = t) → l.filterMap ((fun o => if o.1 = t then some o.2 else none) ∘ Raw.offer) =
          l.map fun r => (⟨r.2.1, projOf r.2.2⟩ : Offer β d) := by
        intro l
        induction l with
        | nil => intro _; rfl
        | cons r l ih =>
          intro hl
          rw [List.filterMap_cons]
          simp only [Function.comp, Raw.offer, hl r List.mem_cons_self, if_true, List.map_cons]
          exact congrArg _ (ih fun r' hr' => hl r' (List.mem_cons_of_mem _ hr'))
      rw [this]
      intro r hr
      have := hk (Raw.offer r) (by rw [keptOf_eq]; exact List.mem_map_of_mem hr)
      exact this
    · rw [run]
      obtain ⟨st', hst'⟩ := add_ok c hs hi b hv
      rw [hst', bind_ok, h3 st' (add_inv c hi b hst'), feed, feed, List.foldlM_append]
      have := add_eq_feed c st st' b hst'
      rw [feed] at this
      rw [this, bind_ok]

/-- With a tape of draws the bucket evolves as the reservoir algorithm says. -/
theorem feed_contents (c : Config (List Nat) β d) (hs : 1 ≤ c.size) (hr : c.rand = some tapeRng) (t : Tag) (w : List Nat)
    (hw : ∀ i (h : i < w.length), w[i] < i + c.size + 1) (rs : List (Raw β d))
    (h : ∀ r ∈ rs, r.1 = t ∧ RawOK r ∧ ∃ P, Polymat.projectivise r.2.2 = .ok P) (hd : (rs.map fun r => r.2.1).Nodup)
    (xs : Nat → β) (hxs : ∀ i (h : i < rs.length), xs i = rs[i].2.1) : ∀ N, N ≤ rs.length → N - c.size ≤ w.length →
    ∃ st, feed c (State.init w) (rs.take N) = .ok st ∧ Inv c (logAll (fun _ => []) ((rs.take N).map Raw.offer)) st ∧
      st.rng = w.drop (N - c.size) ∧
      (1 ≤ N → ∃ b, Dict.get? st.buckets t = some b ∧ b.braids = contents c.size xs w N)
  | 0, _, _ => by
    refine ⟨State.init w, rfl, ?_, by simp [State.init], by omega⟩
    rw [List.take_zero, List.map_nil, logAll_nil]; exact inv_init c w
  | N + 1, hN, hNw => by
    obtain ⟨st, e1, e2, e3, e4⟩ := feed_contents c hs hr t w hw rs h hd xs hxs N (by omega) (by omega)
    have hlt : N < rs.length := by omega
    obtain ⟨ht, hok, P, hP⟩ := h rs[N] (List.getElem_mem hlt)
    obtain ⟨st', hst'⟩ := step_ok c hs e2 rs[N].1 rs[N].2.1 rs[N].2.2 P hP (hok P hP)
    have hfeed : feed c (State.init w) (rs.take (N + 1)) = .ok st' := by
      rw [List.take_succ_eq_append_getElem hlt, feed, List.foldlM_append]
      rw [feed] at e1
      rw [e1, bind_ok, List.foldlM_cons, hst', bind_ok]; rfl
    have hinv : Inv c (logAll (fun _ => []) ((rs.take (N + 1)).map Raw.offer)) st' := by
      refine feed_inv c _ (inv_init c w) (fun r hr => (h r (List.mem_of_mem_take hr)).2.1) hfeed
    have hlog : ∀ k ≤ rs.length, logAll (fun _ => []) ((rs.take k).map Raw.offer) t = (rs.take k).map fun r => (Raw.offer r).2 := by
      intro k hk
      rw [logAll, List.nil_append, List.filterMap_map]
      have : ∀ l : List (Raw β d), (∀ r ∈ l, r.1 = t) → l.filterMap ((fun o => if o.1 = t then some o.2 else none) ∘ Raw.offer) =
          l.map fun r => (Raw.offer r).2 := by
        intro l
        induction l with
        | nil => intro _; rfl
        | cons r l ih =>
          intro hl
          rw [List.filterMap_cons]
          have h0 : (Raw.offer r).1 = t := hl r List.mem_cons_self
          simp only [Function.comp, h0, if_true, List.map_cons]
          exact congrArg _ (ih fun r' hr' => hl r' (List.mem_cons_of_mem _ hr'))
      exact this _ fun r hr => (h r (List.mem_of_mem_take hr)).1
    rw [ht] at hst'
    refine ⟨st', hfeed, hinv, ?_⟩
    rw [step] at hst'
    by_cases hN0 : N = 0
    · subst hN0
      have hg : Dict.get? st.buckets t = none := by
        rw [List.take_zero, feed, List.foldlM_nil] at e1; cases e1; rfl
      rw [hg] at hst'
      simp only [hP, bind_ok] at hst'
      rw [if_neg (by omega)] at hst'
      cases hst'
      refine ⟨by show st.rng = _; rw [e3]; congr 1; omega, fun _ => ⟨_, by rw [Dict.get?_set, if_pos rfl], ?_⟩⟩
      rw [contents, if_pos (by omega), hxs 0 hlt]; rfl
    · obtain ⟨b, hb, hbc⟩ := e4 (by omega)
      obtain ⟨k, l, hk, hl⟩ := e2.some t b hb
      have hkN : k = N := by
        rw [hl.cnt, hlog N (by omega)]; simp; omega
      have hbl : b.braids.length = min N c.size := by rw [hbc, contents_length]
      have hPw : P.length = b.width := by have := hok P hP; have := hl.wd; rw [ht] at *; omega
      simp only [hb, Dict.get, hk, bind_ok] at hst'
      by_cases hfull : c.size ≤ N
      · rw [if_pos (by omega)] at hst'
        simp only [hr] at hst'
        have hwl : N - c.size < w.length := by omega
        have hrng : st.rng = w[N - c.size] :: w.drop (N + 1 - c.size) := by
          rw [e3, List.drop_eq_getElem_cons hwl]; congr 2; omega
        have hdraw : tapeRng.draw st.rng (k + 1) = .ok (w[N - c.size], w.drop (N + 1 - c.size)) := by
          rw [Rng.draw, if_neg (by omega), hrng]
          show Except.ok (w[N - c.size] % (k + 1), _) = _
          rw [Nat.mod_eq_of_lt (by have := hw (N - c.size) hwl; omega)]
        rw [hdraw, bind_ok] at hst'
        have hgd : w.getD (N - c.size) 0 = w[N - c.size] := by rw [List.getD_eq_getElem?_getD, List.getElem?_eq_getElem hwl]; rfl
        split at hst'
        · next hj =>
          simp only at hj
          rw [hP, bind_ok, assignImg, if_pos hPw, bind_ok] at hst'
          cases hst'
          refine ⟨rfl, fun _ => ⟨_, by rw [Dict.get?_set, if_pos rfl], ?_⟩⟩
          rw [contents, if_neg (by omega), hgd, if_pos (by omega), hxs N hlt, ← hbc]
        · next hj =>
          simp only at hj
          cases hst'
          refine ⟨rfl, fun _ => ⟨b, hb, ?_⟩⟩
          rw [contents, if_neg (by omega), hgd, if_neg (by omega), ← hbc]
      · rw [if_neg (by omega), if_neg, hP, bind_ok, assignImg, if_pos hPw, bind_ok] at hst'
        · cases hst'
          refine ⟨by show st.rng = _; rw [e3]; congr 1; omega, fun _ => ⟨_, by rw [Dict.get?_set, if_pos rfl], ?_⟩⟩
          rw [contents, if_pos (by omega), hxs N hlt, ← hbc]
        · intro hm
          have hm' : rs[N].2.1 ∈ b.braidSet := by simpa using hm
          have hll : l.length < c.size := by
            have : b.braids.length = l.length := by rw [hl.hb, List.length_map]
            omega
          have := ((hl.set hll).1 _).1 hm'
          obtain ⟨o, ho, eo⟩ := List.mem_map.1 this
          have ho' := hl.sub.subset ho
          rw [hlog N (by omega)] at ho'
          obtain ⟨r, hr', rfl⟩ := List.mem_map.1 ho'
          obtain ⟨i, hi, rfl⟩ := List.getElem_of_mem hr'
          simp only [List.length_take] at hi
          rw [List.getElem_take] at eo
          have eo' : rs[i].2.1 = rs[N].2.1 := eo
          have : (rs.map fun r => r.2.1)[i]'(by simp; omega) = (rs.map fun r => r.2.1)[N]'(by simpa using hlt) := by simpa using eo'
          have := (List.Nodup.getElem_inj_iff hd).1 this
          omega

open Classical in
/-- C68: if `N ≥ bucket_size` distinct braids are offered to a bucket then each of them is in the bucket at the end for exactly the
fraction `bucket_size / N` of all outcomes of the draws `randint(1, bucket_size + 1), ..., randint(1, N)`. -/
theorem C68_uniform (c : Config (List Nat) β d) (hs : 1 ≤ c.size) (hr : c.rand = some tapeRng) (t : Tag) (ops : List (Op β d))
    (ho : OnlyTag c t ops) (hd : ((offered c ops t).map Offer.braid).Nodup) (hN : c.size ≤ (offered c ops t).length)
    (x : β) (hx : x ∈ (offered c ops t).map Offer.braid) :
    (tapes c.size (offered c ops t).length).countP (fun w => decide (∃ st b, run c (State.init w) ops = .ok st ∧
        Dict.get? st.buckets t = some b ∧ x ∈ b.braids)) * (offered c ops t).length =
      c.size * (tapes c.size (offered c ops t).length).length := by
  obtain ⟨rs, h1, h2, h3⟩ := run_eq_feed c hs t ops (State.init []) (inv_init c []) ho
  have hoff : offered c ops t = rs.map fun r => ⟨r.2.1, projOf r.2.2⟩ := by
    have := h2 []
    rw [List.nil_append] at this; exact this
  have hlen : (offered c ops t).length = rs.length := by rw [hoff, List.length_map]
  have hbr : (offered c ops t).map Offer.braid = rs.map fun r => r.2.1 := by rw [hoff, List.map_map]; rfl
  rw [hbr] at hd hx
  rw [hlen] at hN ⊢
  obtain ⟨m, hm, hxm⟩ := List.getElem_of_mem hx
  simp only [List.length_map, List.getElem_map] at hm hxm
  let xs : Nat → β := fun i => if h : i < rs.length then rs[i].2.1 else x
  have hxs : ∀ i (h : i < rs.length), xs i = rs[i].2.1 := fun i h => by simp only [xs, dif_pos h]
  have hinj : ∀ i < rs.length, ∀ j < rs.length, xs i = xs j → i = j := by
    intro i hi j hj e
    rw [hxs i hi, hxs j hj] at e
    have : (rs.map fun r => r.2.1)[i]'(by simpa using hi) = (rs.map fun r => r.2.1)[j]'(by simpa using hj) := by simpa using e
    exact (List.Nodup.getElem_inj_iff hd).1 this
  rw [← reservoir_uniform (K := c.size) xs m rs.length hN hm hinj]
  congr 1
  refine List.countP_congr fun w hw => ?_
  simp only [decide_eq_true_eq]
  have hwl := tapes_length rs.length w hw
  obtain ⟨st, e1, e2, e3, e4⟩ := feed_contents c hs hr t w (tapes_lt rs.length w hw) rs h1 hd xs hxs rs.length le_rfl (by omega)
  obtain ⟨b, hb, hbc⟩ := e4 (by omega)
  rw [List.take_length] at e1
  rw [h3 (State.init w) (inv_init c w), e1]
  constructor
  · rintro ⟨st', b', q1, q2, q3⟩
    cases q1
    rw [hb] at q2; cases q2
    rw [← hbc, hxs m hm, hxm]; exact q3
  · intro hmem
    exact ⟨st, b, rfl, hb, by rw [hbc, ← hxm, ← hxs m hm]; exact hmem⟩

/-- C68: there are `N! / K!` outcomes (so the fraction above is well defined), and they are the sequences of draws in range. -/
theorem C68_outcomes (K N : Nat) (h : K ≤ N) : (tapes K N).length * K.factorial = N.factorial ∧
    ∀ w ∈ tapes K N, w.length = N - K ∧ ∀ i (hi : i < w.length), w[i] < i + K + 1 :=
  ⟨tapes_count N h, fun w hw => ⟨tapes_length N w hw, tapes_lt N w hw⟩⟩

/-! ### examples -/

def exConfig (rand : Option (Rng (List Nat))) (k : Nat) : Config (List Nat) Nat 1 := ⟨k, fun b => b / 10, fun _ _ _ => true, fun _ => 0, rand⟩
def exBatch : Bucketing.Batch Nat 1 := ⟨4, ![13, 11, 13, 12], [fun i _ _ => if i = 3 then 5 else 2, 0]⟩

example : ((run (exConfig (some tapeRng) 2) (State.init [2, 3]) [.add exBatch]).map fun st => (st.buckets.map fun tb => (tb.1, tb.2.braids), st.counts)) =
    .ok ([((1, 1), [13, 11])], [((1, 1), 4)]) := by decide +kernel
/-- A full bucket does not recognise a braid it already holds. -/
example : ((run (exConfig (some tapeRng) 2) (State.init [1, 3]) [.add exBatch]).map fun st => st.buckets.map fun tb => tb.2.braids) =
    .ok [[13, 13]] := by decide +kernel
example : ((run (exConfig none 3) (State.init []) [.add exBatch, .discard (2, 1)]).map fun st => (st.buckets.map fun tb => (tb.1, tb.2.braids), st.counts)) =
    .ok ([((1, 1), [13, 11, 12])], [((1, 1), 4)]) := by decide +kernel
/-- A case meeting the hypotheses of `C68_uniform`. -/
example : OnlyTag (exConfig (some tapeRng) 1) (1, 1) [.add ⟨2, ![13, 11], [fun _ _ _ => 1]⟩] ∧
    (offered (exConfig (some tapeRng) 1) [.add ⟨2, ![13, 11], [fun _ _ _ => 1]⟩] (1, 1)).map Offer.braid = [13, 11] := by
  constructor
  · intro op hop
    simp at hop; subst hop
    refine ⟨_, rfl, ⟨by simp, fun i => ⟨0, 0, by simp [Polymat.slice]⟩⟩, by decide +kernel⟩
  · decide +kernel

end Peyl
