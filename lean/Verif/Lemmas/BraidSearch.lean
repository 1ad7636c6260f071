import Verif.Spec.BraidSearch
import Verif.Lemmas.Bucketing
/-! # `braidsearch.Tracker`: invariants -/
namespace Peyl
namespace BraidSearch
open Polymat
variable {S β : Type} [DecidableEq β] {d : Nat}

/-- The invariant of one bucket with tag `t` after the kept offers `log`; `l` are its contents and `k` its reservoir count. -/
structure BInv (c : Config S β d) (t : Tag) (log l : List (Offer β d)) (b : Bucket β d) (k : Nat) : Prop where
  hb : b.braids = l.map Offer.braid
  hi : b.images.take l.length = l.map Offer.image
  li : b.images.length = c.size
  wd : (b.width : Int) = t.2
  iw : ∀ o ∈ l, o.image.length = b.width
  nz : ∀ o ∈ l, projectivise o.image = .ok o.image
  ne : l ≠ []
  sub : l.Subperm log
  cnt : k = log.length
  len : l.length = min c.size (firstDistinct log).length
  set : l.length < c.size → (∀ x, x ∈ b.braidSet ↔ x ∈ l.map Offer.braid) ∧ l = firstDistinct log
  norand : c.rand = none → l = (firstDistinct log).take c.size

theorem firstDistinct_snoc (log : List (Offer β d)) (o : Offer β d) :
    firstDistinct (log ++ [o]) = if o.braid ∈ (firstDistinct log).map Offer.braid then firstDistinct log else firstDistinct log ++ [o] := by
  rw [firstDistinct, List.foldl_append]; rfl

theorem firstDistinct_le (log : List (Offer β d)) (o : Offer β d) : (firstDistinct log).length ≤ (firstDistinct (log ++ [o])).length := by
  rw [firstDistinct_snoc]; split <;> simp

theorem firstDistinct_sublist (log : List (Offer β d)) : (firstDistinct log).Sublist log := by
  induction log using List.reverseRecOn with
  | nil => exact List.Sublist.refl _
  | append_singleton log o ih =>
    rw [firstDistinct_snoc]
    split
    · exact ih.trans (List.sublist_append_left _ _)
    · exact ih.append (List.Sublist.refl _)

theorem firstDistinct_nodup (log : List (Offer β d)) : ((firstDistinct log).map Offer.braid).Nodup := by
  induction log using List.reverseRecOn with
  | nil => simp [firstDistinct]
  | append_singleton log o ih =>
    rw [firstDistinct_snoc]
    split
    · exact ih
    · next h =>
      rw [List.map_append, List.nodup_append]
      refine ⟨ih, by simp, ?_⟩
      intro a ha b hb
      simp at hb; subst hb
      rintro rfl; exact h ha

theorem firstDistinct_of_nodup (log : List (Offer β d)) (h : (log.map Offer.braid).Nodup) : firstDistinct log = log := by
  induction log using List.reverseRecOn with
  | nil => rfl
  | append_singleton log o ih =>
    rw [List.map_append, List.nodup_append] at h
    rw [firstDistinct_snoc, ih h.1, if_neg]
    intro hm
    exact h.2.2 _ hm _ (by simp) rfl

theorem mem_firstDistinct (log : List (Offer β d)) (o : Offer β d) (ho : o ∈ log) : o.braid ∈ (firstDistinct log).map Offer.braid := by
  induction log using List.reverseRecOn with
  | nil => cases ho
  | append_singleton log x ih =>
    rw [firstDistinct_snoc]
    rcases List.mem_append.1 ho with ho | ho
    · split
      · exact ih ho
      · rw [List.map_append]; exact List.mem_append_left _ (ih ho)
    · simp at ho; subst ho
      split
      · next h => exact h
      · simp

/-- Invariant of the whole state. -/
structure Inv (c : Config S β d) (log : Tag → List (Offer β d)) (st : State S β d) : Prop where
  nodup : (st.buckets.map Prod.fst).Nodup
  none : ∀ t, Dict.get? st.buckets t = none → log t = []
  some : ∀ t b, Dict.get? st.buckets t = some b → ∃ k l, Dict.get? st.counts t = some k ∧ BInv c t (log t) l b k

theorem inv_init (c : Config S β d) (s : S) : Inv c (fun _ => []) (State.init s : State S β d) :=
  ⟨by simp [State.init], fun _ _ => rfl, fun t b h => by simp [State.init, Dict.get?] at h⟩

def logAdd (log : Tag → List (Offer β d)) (t : Tag) (o : Offer β d) : Tag → List (Offer β d) :=
  fun t' => if t = t' then log t' ++ [o] else log t'

theorem finish {c : Config S β d} {log : Tag → List (Offer β d)} {st st' : State S β d} (h : Inv c log st) {tag : Tag} {o : Offer β d}
    {b' : Bucket β d} {l' : List (Offer β d)} {k : Nat} (hb' : st'.buckets = Dict.set st.buckets tag b')
    (hc' : st'.counts = Dict.set st.counts tag k) (hi : BInv c tag (log tag ++ [o]) l' b' k) : Inv c (logAdd log tag o) st' := by
  refine ⟨by rw [hb']; exact Dict.nodup_set _ _ h.nodup, fun t e => ?_, fun t b e => ?_⟩
  · rw [hb', Dict.get?_set] at e
    split at e
    · cases e
    · next hne => rw [logAdd, if_neg hne]; exact h.none t e
  · rw [hb', Dict.get?_set] at e
    split at e
    · next heq =>
      subst heq; cases e
      rw [logAdd, if_pos rfl]
      exact ⟨k, l', by rw [hc', Dict.get?_set, if_pos rfl], hi⟩
    · next hne =>
      rw [logAdd, if_neg hne, hc', Dict.get?_set, if_neg hne]
      exact h.some t b e

theorem set_self (bs : List (Tag × Bucket β d)) (t : Tag) (b : Bucket β d) (hn : (bs.map Prod.fst).Nodup) (h : Dict.get? bs t = some b) :
    Dict.set bs t b = bs := by
  rw [Dict.set, if_pos (Dict.has_iff.2 ⟨b, h⟩)]
  conv_rhs => rw [← List.map_id bs]
  refine List.map_congr_left fun kv hkv => ?_
  split
  · next e =>
    have := Dict.get?_of_mem hn (show (kv.1, kv.2) ∈ bs from hkv)
    rw [e, h] at this; cases this
    rw [id, ← e]
  · rfl

/-- Offering without storing. -/
theorem BInv.skip {c : Config S β d} {t : Tag} {log l : List (Offer β d)} {b : Bucket β d} {k : Nat} (h : BInv c t log l b k) (o : Offer β d)
    (hl : l.length = c.size ∨ (l.length < c.size ∧ o.braid ∈ b.braidSet)) : BInv c t (log ++ [o]) l b (k + 1) := by
  have hlen := h.len
  have h2 := firstDistinct_le log o
  refine ⟨h.hb, h.hi, h.li, h.wd, h.iw, h.nz, h.ne, Bucketing.subperm_snoc h.sub o, by rw [h.cnt]; simp, ?_, ?_, ?_⟩
  · rcases hl with hl | ⟨hl, hm⟩
    · omega
    · obtain ⟨h3, h4⟩ := h.set hl
      rw [firstDistinct_snoc, if_pos (by rw [← h4]; exact (h3 _).1 hm)]; exact hlen
  · intro hl'
    rcases hl with hl | ⟨hl, hm⟩
    · omega
    · obtain ⟨h3, h4⟩ := h.set hl
      refine ⟨h3, ?_⟩
      rw [firstDistinct_snoc, if_pos (by rw [← h4]; exact (h3 _).1 hm)]; exact h4
  · intro hr
    rw [firstDistinct_snoc]
    split
    · exact h.norand hr
    · next hne =>
      rcases hl with hl | ⟨hl, hm⟩
      · rw [List.take_append_of_le_length (by omega)]; exact h.norand hr
      · obtain ⟨h3, h4⟩ := h.set hl
        exact absurd (by rw [← h4]; exact (h3 _).1 hm) hne

/-- The random replacement. -/
theorem BInv.replace {c : Config S β d} {t : Tag} {log l : List (Offer β d)} {b : Bucket β d} {k : Nat} (h : BInv c t log l b k) (o : Offer β d)
    (hl : l.length = c.size) (j : Nat) (hj : j < l.length) (hw : o.image.length = b.width) (hp : projectivise o.image = .ok o.image)
    (hr : c.rand ≠ none) :
    BInv c t (log ++ [o]) (l.set j o) { b with braids := b.braids.set j o.braid, images := b.images.set j o.image } (k + 1) := by
  have hlen := h.len
  have h2 := firstDistinct_le log o
  have hmem : ∀ x ∈ l.set j o, x ∈ l ∨ x = o := fun x hx => List.mem_or_eq_of_mem_set hx
  refine ⟨by simp [h.hb, List.map_set], ?_, by simp [h.li], h.wd, ?_, ?_, ?_, Bucketing.subperm_set h.sub o j hj, by rw [h.cnt]; simp, ?_, ?_, ?_⟩
  · simp only [List.length_set]; rw [List.take_set, h.hi, List.map_set]
  · intro x hx
    rcases hmem x hx with hx | rfl
    · exact h.iw x hx
    · exact hw
  · intro x hx
    rcases hmem x hx with hx | rfl
    · exact h.nz x hx
    · exact hp
  · intro e
    have := congrArg List.length e
    simp at this; exact h.ne (by simpa using this)
  · simp only [List.length_set]; omega
  · simp only [List.length_set]; omega
  · exact fun e => absurd e hr

/-- Appending a new braid. -/
theorem BInv.append {c : Config S β d} {t : Tag} {log l : List (Offer β d)} {b : Bucket β d} {k : Nat} (h : BInv c t log l b k) (o : Offer β d)
    (hl : l.length < c.size) (hm : o.braid ∉ b.braidSet) (hw : o.image.length = b.width) (hp : projectivise o.image = .ok o.image) :
    BInv c t (log ++ [o]) (l ++ [o]) { b with braids := b.braids ++ [o.braid], braidSet := o.braid :: b.braidSet, images := b.images.set l.length o.image } (k + 1) := by
  have hlen := h.len
  obtain ⟨h3, h4⟩ := h.set hl
  have hf : firstDistinct (log ++ [o]) = l ++ [o] := by
    rw [firstDistinct_snoc, if_neg (by rw [← h4]; exact fun e => hm ((h3 _).2 e)), ← h4]
  have hmem : ∀ x ∈ l ++ [o], x ∈ l ∨ x = o := fun x hx => by simpa using hx
  refine ⟨by simp [h.hb], ?_, by simp [h.li], h.wd, ?_, ?_, by simp, (List.subperm_append_right [o]).2 h.sub, by rw [h.cnt]; simp, ?_, ?_, ?_⟩
  · simp only [List.length_append, List.length_singleton]
    rw [Bucketing.take_set_snoc _ _ _ (by rw [h.li]; exact hl), h.hi]; simp
  · intro x hx
    rcases hmem x hx with hx | rfl
    · exact h.iw x hx
    · exact hw
  · intro x hx
    rcases hmem x hx with hx | rfl
    · exact h.nz x hx
    · exact hp
  · rw [hf]; simp; omega
  · intro _
    refine ⟨fun x => ?_, hf.symm⟩
    simp only [List.mem_cons, h3, List.map_append, List.map_cons, List.map_nil, List.mem_append, List.not_mem_nil, or_false]
    exact or_comm
  · intro _
    rw [hf, List.take_of_length_le (by simp; omega)]

theorem projectivise_idem {A P : Img d} (h : projectivise A = .ok P) : projectivise P = .ok P :=
  projectivise_canon (projectivise_iff.1 h).1

theorem projOf_ok {A P : Img d} (h : projectivise A = .ok P) : projOf A = P := by rw [projOf, h]

theorem step_inv (c : Config S β d) {log : Tag → List (Offer β d)} {st st' : State S β d} (h : Inv c log st) (tag : Tag) (x : β) (A : Img d)
    (hw : ∀ P, projectivise A = .ok P → (P.length : Int) = tag.2) (hok : step c st tag x A = .ok st') :
    Inv c (logAdd log tag ⟨x, projOf A⟩) st' := by
  rw [step] at hok
  cases hg : Dict.get? st.buckets tag with
  | none =>
    simp only [hg] at hok
    cases hp : projectivise A with
    | error e => rw [hp] at hok; cases hok
    | ok P =>
      rw [hp, bind_ok] at hok
      split at hok
      · cases hok
      · next hs =>
        cases hok
        refine finish h (b' := ⟨P.length, [x], [x], P :: List.replicate (c.size - 1) (List.replicate P.length 0)⟩) (l' := [⟨x, projOf A⟩])
          (k := 1) rfl rfl ?_
        have hfd : firstDistinct ([] ++ [(⟨x, projOf A⟩ : Offer β d)]) = [⟨x, projOf A⟩] := by rw [firstDistinct_snoc]; simp [firstDistinct]
        rw [h.none tag hg, projOf_ok hp] at *
        refine ⟨rfl, by simp, by simp; omega, hw P hp, by simp, by simpa using projectivise_idem hp, by simp, List.Subperm.refl _, rfl, ?_, ?_, ?_⟩
        · rw [hfd]; simp; omega
        · exact fun _ => ⟨by simp, hfd.symm⟩
        · rw [hfd]; intro _; rw [List.take_of_length_le (by simp; omega)]
  | some b =>
    obtain ⟨k, l, hk, hi⟩ := h.some tag b hg
    simp only [hg, Dict.get, hk, bind_ok] at hok
    have hbl : b.braids.length = l.length := by rw [hi.hb, List.length_map]
    have hself := set_self st.buckets tag b h.nodup hg
    split at hok
    · next hfull =>
      have hfull' : l.length = c.size := hbl ▸ hfull
      split at hok
      · cases hok
        exact finish h (b' := b) (l' := l) (k := k + 1) hself.symm rfl (hi.skip _ (Or.inl hfull'))
      · next g hg' =>
        rw [Rng.draw, if_neg (by omega), bind_ok] at hok
        split at hok
        · next hj =>
          cases hp : projectivise A with
          | error e => rw [hp] at hok; cases hok
          | ok P =>
            have hPw : P.length = b.width := by have := hw P hp; have := hi.wd; omega
            rw [hp, bind_ok, assignImg, if_pos hPw, bind_ok] at hok
            cases hok
            refine finish h (l' := l.set (g.randrange st.rng (k + 1)).1 ⟨x, projOf A⟩) (k := k + 1) rfl rfl ?_
            have := hi.replace ⟨x, P⟩ hfull' (g.randrange st.rng (k + 1)).1 (by omega) hPw (projectivise_idem hp) (by rw [hg']; simp)
            rw [projOf_ok hp]; exact this
        · cases hok
          exact finish h (b' := b) (l' := l) (k := k + 1) hself.symm rfl (hi.skip _ (Or.inl hfull'))
    · next hnf =>
      have hlt : l.length < c.size := by have := hi.len; rw [hbl] at hnf; omega
      split at hok
      · next hm =>
        cases hok
        exact finish h (b' := b) (l' := l) (k := k + 1) hself.symm rfl (hi.skip _ (Or.inr ⟨hlt, by simpa using hm⟩))
      · next hm =>
        cases hp : projectivise A with
        | error e => rw [hp] at hok; cases hok
        | ok P =>
          have hPw : P.length = b.width := by have := hw P hp; have := hi.wd; omega
          rw [hp, bind_ok, assignImg, if_pos hPw, bind_ok] at hok
          cases hok
          refine finish h (l' := l ++ [⟨x, projOf A⟩]) (k := k + 1) rfl rfl ?_
          have := hi.append ⟨x, P⟩ hlt (by simpa using hm) hPw (projectivise_idem hp)
          rw [projOf_ok hp, hbl]; exact this

theorem step_ok (c : Config S β d) (hs : 1 ≤ c.size) {log : Tag → List (Offer β d)} {st : State S β d} (h : Inv c log st) (tag : Tag) (x : β)
    (A P : Img d) (hp : projectivise A = .ok P) (hw : (P.length : Int) = tag.2) : ∃ st', step c st tag x A = .ok st' := by
  rw [step]
  cases hg : Dict.get? st.buckets tag with
  | none =>
    simp only [hp, bind_ok]
    rw [if_neg (by omega)]; exact ⟨_, rfl⟩
  | some b =>
    obtain ⟨k, l, hk, hi⟩ := h.some tag b hg
    have hPw : P.length = b.width := by have := hi.wd; omega
    simp only [Dict.get, hk, bind_ok]
    split
    · split
      · exact ⟨_, rfl⟩
      · rw [Rng.draw, if_neg (by omega), bind_ok]
        split
        · rw [hp, bind_ok, assignImg, if_pos hPw, bind_ok]; exact ⟨_, rfl⟩
        · exact ⟨_, rfl⟩
    · split
      · exact ⟨_, rfl⟩
      · rw [hp, bind_ok, assignImg, if_pos hPw, bind_ok]; exact ⟨_, rfl⟩

/-- A pair with its tag, the image not yet projectivised. -/
abbrev Raw (β : Type) (d : Nat) := Tag × β × Img d

def Raw.offer (r : Raw β d) : Tag × Offer β d := (r.1, ⟨r.2.1, projOf r.2.2⟩)

def feed (c : Config S β d) (st : State S β d) (rs : List (Raw β d)) : Except Err (State S β d) :=
  rs.foldlM (init := st) fun st r => step c st r.1 r.2.1 r.2.2

def logAll (log : Tag → List (Offer β d)) (os : List (Tag × Offer β d)) : Tag → List (Offer β d) :=
  fun t => log t ++ os.filterMap fun o => if o.1 = t then some o.2 else none

theorem logAll_cons (log : Tag → List (Offer β d)) (o : Tag × Offer β d) (os : List (Tag × Offer β d)) :
    logAll log (o :: os) = logAll (logAdd log o.1 o.2) os := by
  funext t
  rw [logAll, logAll, logAdd, List.filterMap_cons]
  by_cases h : o.1 = t <;> simp [h]

theorem logAll_nil (log : Tag → List (Offer β d)) : logAll log [] = log := by funext t; simp [logAll]

/-- The width of the projectivised image is the projlen of the tag. -/
def RawOK (r : Raw β d) : Prop := ∀ P, projectivise r.2.2 = .ok P → (P.length : Int) = r.1.2

theorem feed_inv (c : Config S β d) : ∀ (rs : List (Raw β d)) {log : Tag → List (Offer β d)} {st st' : State S β d},
    Inv c log st → (∀ r ∈ rs, RawOK r) → feed c st rs = .ok st' → Inv c (logAll log (rs.map Raw.offer)) st'
  | [], log, st, st', h, _, hok => by cases hok; rw [List.map_nil, logAll_nil]; exact h
  | r :: rs, log, st, st', h, hw, hok => by
    rw [feed, List.foldlM_cons] at hok
    cases hst : step c st r.1 r.2.1 r.2.2 with
    | error e => rw [hst] at hok; cases hok
    | ok st1 =>
      rw [hst, bind_ok] at hok
      rw [List.map_cons, logAll_cons]
      exact feed_inv c rs (step_inv c h r.1 r.2.1 r.2.2 (hw r List.mem_cons_self) hst) (fun o' ho' => hw o' (List.mem_cons_of_mem _ ho')) hok

theorem feed_ok (c : Config S β d) (hs : 1 ≤ c.size) : ∀ (rs : List (Raw β d)) {log : Tag → List (Offer β d)} {st : State S β d},
    Inv c log st → (∀ r ∈ rs, RawOK r ∧ ∃ P, projectivise r.2.2 = .ok P) → ∃ st', feed c st rs = .ok st'
  | [], log, st, h, _ => ⟨st, rfl⟩
  | r :: rs, log, st, h, hw => by
    obtain ⟨h1, P, hP⟩ := hw r List.mem_cons_self
    obtain ⟨st1, hst⟩ := step_ok c hs h r.1 r.2.1 r.2.2 P hP (h1 P hP)
    obtain ⟨st', hst'⟩ := feed_ok c hs rs (step_inv c h r.1 r.2.1 r.2.2 h1 hst) fun o' ho' => hw o' (List.mem_cons_of_mem _ ho')
    exact ⟨st', by rw [feed, List.foldlM_cons, hst, bind_ok]; exact hst'⟩

/-- `projlen` of a batch is the width of the projectivised images. -/
theorem projlen_width {L : Nat} {A : PArr (Fin L) d d} {pl : Fin L → Int} (hp : projlen A = .ok pl) (i : Fin L) {P : Img d}
    (h : projectivise (imgAt A i) = .ok P) : (P.length : Int) = pl i := by
  have hA : A.length ≠ 0 := by
    intro e
    rw [List.length_eq_zero_iff] at e; subst e
    cases hp
  obtain ⟨s, e, h1, h2⟩ := startsEnds_spec A hA
  rw [projlen, h1, bind_ok] at hp
  cases hp
  obtain ⟨hc, hk⟩ := projectivise_iff.1 h
  obtain ⟨k, hk⟩ := hk ()
  have hX := X_pow_mul_den.1 hk
  have hne : den A i ≠ 0 := by
    rw [← Bucketing.den_imgAt]
    intro e
    have := hX.2 0
    rw [den_eq_zero.1 e] at this
    exact hc.1 () this.symm
  obtain ⟨k1, k2, k3, k4⟩ := (h2 i).1 hne
  have hnz : ∀ t, t ∈ degSet (den A i) ↔ k ≤ t ∧ slice P (t - k) () ≠ 0 := by
    intro t
    rw [← nz_degSet, ← Bucketing.slice_imgAt]
    by_cases ht : k ≤ t
    · rw [← hX.2 (t - k), Nat.sub_add_cancel ht]; simp [ht]
    · rw [hX.1 t (by omega)]; simp [ht]
  have e1 : s i = k := by
    refine k1.unique ⟨(hnz k).2 ⟨le_rfl, by rw [Nat.sub_self]; exact hc.1 ()⟩, fun t ht => ((hnz t).1 ht).1⟩
  obtain ⟨u, hu⟩ := hc.2
  have hPl := lt_of_nz hu
  have e2 : e i - 1 = k + (P.length - 1) := by
    refine k2.unique ⟨(hnz _).2 ⟨by omega, by rw [Nat.add_sub_cancel_left]; exact hu⟩, fun t ht => ?_⟩
    have := lt_of_nz ((hnz t).1 ht).2
    omega
  simp only
  omega

/-- The kept pairs of a batch. -/
def rawOf (c : Config S β d) (b : Bucketing.Batch β d) : List (Raw β d) :=
  match braidImageStats c b, projlen b.images with
  | .ok st, .ok pl => ((List.finRange b.len).filter (c.criterion b.len st)).map fun i =>
      ((c.length (b.braids i), pl i), b.braids i, imgAt b.images i)
  | _, _ => []

theorem keptOf_eq (c : Config S β d) (b : Bucketing.Batch β d) : keptOf c b = (rawOf c b).map Raw.offer := by
  rw [keptOf, rawOf]
  cases braidImageStats c b with
  | error e => rfl
  | ok st =>
    cases projlen b.images with
    | error e => rfl
    | ok pl => simp only [List.map_map]; rfl

theorem rawOf_ok (c : Config S β d) (b : Bucketing.Batch β d) : ∀ r ∈ rawOf c b, RawOK r := by
  intro r hr P hP
  rw [rawOf] at hr
  cases hs : braidImageStats c b with
  | error e => rw [hs] at hr; cases hr
  | ok st =>
    cases hpl : projlen b.images with
    | error e => rw [hs, hpl] at hr; cases hr
    | ok pl =>
      simp only [hs, hpl] at hr
      obtain ⟨i, -, rfl⟩ := List.mem_map.1 hr
      exact projlen_width hpl i hP

theorem add_eq_feed (c : Config S β d) (st st' : State S β d) (b : Bucketing.Batch β d) (h : addBraidsImages c st b = .ok st') :
    feed c st (rawOf c b) = .ok st' := by
  rw [addBraidsImages] at h
  rw [rawOf]
  cases hs : braidImageStats c b with
  | error e => rw [hs] at h; cases h
  | ok s =>
    cases hpl : projlen b.images with
    | error e => rw [hs, hpl] at h; cases h
    | ok pl =>
      rw [hs, hpl, bind_ok, bind_ok] at h
      simp only
      rw [feed, List.foldlM_map]; exact h

theorem stats_ok (c : Config S β d) (b : Bucketing.Batch β d) (hv : Valid b) :
    ∃ s pl, braidImageStats c b = .ok s ∧ projlen b.images = .ok pl := by
  have hl : b.images.length ≠ 0 := by simpa using hv.1
  have hne : ∀ i, slice b.images 0 i ≠ 0 := fun i e => by
    obtain ⟨r, s, h⟩ := hv.2 i
    rw [e] at h; exact h rfl
  obtain ⟨k1, h1, h1'⟩ : ∃ k, argmaxEach b.images.length (fun (a : Fin b.len) t => nzAt (slice b.images t) a) = .ok k ∧ ∀ a, k a = 0 := by
    obtain ⟨k, hk, hk'⟩ := argmaxEach_spec b.images.length hl (fun (a : Fin b.len) t => nzAt (slice b.images t) a)
    refine ⟨k, hk, fun a => ?_⟩
    by_contra hc
    have h0 : nzAt (slice b.images 0) a = true := nzAt_iff.2 (hne a)
    have h := (hk' a).1 ⟨0, by omega, h0⟩
    exact absurd h0 (by simpa using h.2.2 0 (by omega))
  obtain ⟨k2, h2, -⟩ := argmaxEach_spec b.images.length hl (fun (a : Fin b.len) t => nzAt (slice b.images (b.images.length - 1 - t)) a)
  have g1 : 1 ≤ b.images.length := Nat.one_le_iff_ne_zero.2 hl
  have e1 : ∃ s, braidImageStats c b = .ok s := by
    simp only [braidImageStats, projrank2, degmax, valmin, rhogap2, projlen, startsEnds, h1, h2, bind_ok, pyAssert, g1, h1', decide_true, if_true,
      implies_true]
    exact ⟨_, rfl⟩
  have e2 : ∃ pl, projlen b.images = .ok pl := by
    simp only [projlen, startsEnds, h1, h2, bind_ok]
    exact ⟨_, rfl⟩
  obtain ⟨s, e1⟩ := e1
  obtain ⟨pl, e2⟩ := e2
  exact ⟨s, pl, e1, e2⟩

theorem add_ok (c : Config S β d) (hs : 1 ≤ c.size) {log : Tag → List (Offer β d)} {st : State S β d} (h : Inv c log st) (b : Bucketing.Batch β d)
    (hv : Valid b) : ∃ st', addBraidsImages c st b = .ok st' := by
  obtain ⟨s, pl, h1, h2⟩ := stats_ok c b hv
  obtain ⟨st', hst'⟩ := feed_ok c hs (rawOf c b) h fun r hr => ⟨rawOf_ok c b r hr, by
    rw [rawOf, h1, h2] at hr
    obtain ⟨i, -, rfl⟩ := List.mem_map.1 hr
    obtain ⟨P, hP, -⟩ := projectivise_spec (imgAt b.images i) fun a => by
      rw [show a = () from rfl, Bucketing.den_imgAt, Ne, den_eq_zero]
      intro e
      obtain ⟨r, s, hne⟩ := hv.2 i
      rw [e 0] at hne; exact hne rfl
    exact ⟨P, hP⟩⟩
  refine ⟨st', ?_⟩
  rw [addBraidsImages, h1, bind_ok, h2, bind_ok]
  rw [rawOf, h1, h2, feed, List.foldlM_map] at hst'
  exact hst'

theorem discard_get (st : State S β d) (t t' : Tag) :
    Dict.get? (discardBucket st t).buckets t' = if t = t' then none else Dict.get? st.buckets t' := by
  rw [discardBucket]
  cases hh : Dict.has st.buckets t with
  | true => rw [if_pos rfl, Dict.get?_del]
  | false =>
    rw [if_neg (by simp)]
    split
    · next e => subst e; exact Dict.not_has.1 hh
    · rfl

theorem discard_inv (c : Config S β d) {log : Tag → List (Offer β d)} {st : State S β d} (h : Inv c log st) (t : Tag) :
    Inv c (fun t' => if t = t' then [] else log t') (discardBucket st t) := by
  have hc : (discardBucket st t).counts = st.counts := by rw [discardBucket]; split <;> rfl
  refine ⟨?_, fun t' e => ?_, fun t' b e => ?_⟩
  · rw [discardBucket]; split
    · exact Dict.nodup_del _ h.nodup
    · exact h.nodup
  · rw [discard_get] at e
    split
    · rfl
    · next hne => rw [if_neg hne] at e; exact h.none t' e
  · rw [discard_get] at e
    split at e
    · cases e
    · next hne => rw [if_neg hne, hc]; exact h.some t' b e

theorem add_inv (c : Config S β d) {log : Tag → List (Offer β d)} {st st' : State S β d} (h : Inv c log st) (b : Bucketing.Batch β d)
    (hok : addBraidsImages c st b = .ok st') : Inv c (logAll log (keptOf c b)) st' := by
  rw [keptOf_eq]
  exact feed_inv c _ h (rawOf_ok c b) (add_eq_feed c st st' b hok)

theorem run_inv (c : Config S β d) : ∀ (ops : List (Op β d)) {log : Tag → List (Offer β d)} {st st' : State S β d},
    Inv c log st → run c st ops = .ok st' → Inv c (fun t => offeredSince c t (log t) ops) st'
  | [], log, st, st', h, hok => by cases hok; exact h
  | .add b :: ops, log, st, st', h, hok => by
    rw [run] at hok
    cases ha : addBraidsImages c st b with
    | error e => rw [ha] at hok; cases hok
    | ok st1 =>
      rw [ha, bind_ok] at hok
      exact run_inv c ops (add_inv c h b ha) hok
  | .discard t :: ops, log, st, st', h, hok => by
    rw [run] at hok
    exact run_inv c ops (discard_inv c h t) hok

theorem run_ok (c : Config S β d) (hs : 1 ≤ c.size) : ∀ (ops : List (Op β d)) {log : Tag → List (Offer β d)} {st : State S β d},
    Inv c log st → (∀ b, Op.add b ∈ ops → Valid b) → ∃ st', run c st ops = .ok st'
  | [], log, st, h, _ => ⟨_, rfl⟩
  | .add b :: ops, log, st, h, hv => by
    obtain ⟨st1, h1⟩ := add_ok c hs h b (hv b List.mem_cons_self)
    obtain ⟨st', h2⟩ := run_ok c hs ops (add_inv c h b h1) fun b' hb' => hv b' (List.mem_cons_of_mem _ hb')
    exact ⟨st', by rw [run, h1, bind_ok]; exact h2⟩
  | .discard t :: ops, log, st, h, hv => by
    obtain ⟨st', h2⟩ := run_ok c hs ops (discard_inv c h t) fun b' hb' => hv b' (List.mem_cons_of_mem _ hb')
    exact ⟨st', by rw [run]; exact h2⟩

end BraidSearch
end Peyl
