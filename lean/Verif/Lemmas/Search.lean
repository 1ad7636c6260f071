import Verif.Model.Search
import Verif.Lemmas.Descend
/-!
# The loop of `search.py`
-/
namespace Peyl
open LaurentPolynomial Polymat Perms
namespace Search
open BraidSearch
variable {S : Type} {d : Nat}

theorem within_spec (B : ℤ) : ∀ (rows : List Row) (acc : Nat), ∃ pre suf, rows = pre ++ suf ∧
    ((rows.zip (cumsum (rows.map Prod.snd) acc)).filter fun rc => decide ((rc.2 : Int) ≤ B)).map Prod.fst = pre ∧
    (pre = [] ∨ (acc : ℤ) + (pre.map Prod.snd).sum ≤ B) ∧ (∀ x suf', suf = x :: suf' → B < acc + (pre.map Prod.snd).sum + x.2)
  | [], acc => ⟨[], [], rfl, rfl, .inl rfl, by simp⟩
  | x :: rows, acc => by
    by_cases h : ((acc + x.2 : ℕ) : ℤ) ≤ B
    · obtain ⟨pre, suf, h1, h2, h3, h4⟩ := within_spec B rows (acc + x.2)
      refine ⟨x :: pre, suf, by rw [h1]; rfl, ?_, ?_, ?_⟩
      · rw [List.map_cons, cumsum, List.zip_cons_cons, List.filter_cons, if_pos (by simpa using h), List.map_cons, h2]
      · right
        rcases h3 with rfl | h3
        · simp only [List.map_cons, List.map_nil, List.sum_cons, List.sum_nil]; push_cast at h ⊢; omega
        · simp only [List.map_cons, List.sum_cons]; push_cast at h3 ⊢; omega
      · intro y suf' e
        have := h4 y suf' e
        simp only [List.map_cons, List.sum_cons]; push_cast at this ⊢; omega
    · refine ⟨[], x :: rows, rfl, ?_, .inl rfl, ?_⟩
      · have key : ∀ (rows : List Row) (a : Nat), B < a → ((rows.zip (cumsum (rows.map Prod.snd) a)).filter fun rc => decide ((rc.2 : Int) ≤ B)).map Prod.fst = [] := by
          intro rows
          induction rows with
          | nil => intro a _; rfl
          | cons y rows ih =>
            intro a ha
            rw [List.map_cons, cumsum, List.zip_cons_cons, List.filter_cons, if_neg (by simp; omega)]
            exact ih _ (by push_cast; omega)
        rw [List.map_cons, cumsum, List.zip_cons_cons, List.filter_cons, if_neg (by simpa using h)]
        exact key _ _ (by omega)
      · intro y suf' e
        cases e
        simp only [List.map_nil, List.sum_nil]; push_cast at h ⊢; omega

theorem within_prefix (rows : List Row) (B : ℤ) : ∃ suf, rows = within rows B ++ suf ∧
    (within rows B = [] ∨ (((within rows B).map Prod.snd).sum : ℤ) ≤ B) ∧
    ∀ x suf', suf = x :: suf' → B < ((within rows B).map Prod.snd).sum + x.2 := by
  obtain ⟨pre, suf, h1, h2, h3, h4⟩ := within_spec B rows 0
  have h2' : within rows B = pre := h2
  refine ⟨suf, by rw [h2']; exact h1, ?_, fun x suf' e => ?_⟩
  · rw [h2']; simpa using h3
  · rw [h2']; simpa using h4 x suf' e

theorem stats_perm {ord : List Row → List Row} (ho : ∀ l, (ord l).Perm l) (st : State S NF d) :
    (BraidSearch.stats ord st).Perm (st.buckets.map fun tb => (tb.1, tb.2.braids.length)) := ho _

theorem mem_stats {ord : List Row → List Row} (ho : ∀ l, (ord l).Perm l) (st : State S NF d) (r : Row) :
    r ∈ BraidSearch.stats ord st ↔ ∃ b, (r.1, b) ∈ st.buckets ∧ r.2 = b.braids.length := by
  rw [(stats_perm ho st).mem_iff, List.mem_map]
  constructor
  · rintro ⟨tb, h1, rfl⟩; exact ⟨tb.2, h1, rfl⟩
  · rintro ⟨b, h1, h2⟩; exact ⟨(r.1, b), h1, by rw [← h2]⟩

theorem selLen_mem {ord : List Row → List Row} (ho : ∀ l, (ord l).Perm l) (st : State S NF d) (L : ℤ) (r : Row) :
    r ∈ selectionLength (BraidSearch.stats ord st) L ↔ r.1.1 = L ∧ ∃ b, (r.1, b) ∈ st.buckets ∧ r.2 = b.braids.length := by
  rw [selectionLength, sortByProjlen, (List.perm_insertionSort _ _).mem_iff, List.mem_filter, mem_stats ho]
  simp [and_comm]

theorem selLen_sorted {ord : List Row → List Row} (ho : ∀ l, (ord l).Perm l) (st : State S NF d) (hn : (st.buckets.map Prod.fst).Nodup) (L : ℤ) :
    (selectionLength (BraidSearch.stats ord st) L).Pairwise fun a b => a.1.2 < b.1.2 := by
  have h1 : (selectionLength (BraidSearch.stats ord st) L).Pairwise fun a b => a.1.2 ≤ b.1.2 := by
    have : Std.Total fun a b : Row => a.1.2 ≤ b.1.2 := ⟨fun a b => le_total _ _⟩
    have : IsTrans Row fun a b : Row => a.1.2 ≤ b.1.2 := ⟨fun a b c h h' => le_trans h h'⟩
    exact List.pairwise_insertionSort _ _
  have h2 : ((selectionLength (BraidSearch.stats ord st) L).map Prod.fst).Nodup := by
    rw [selectionLength, sortByProjlen]
    have e := ((List.perm_insertionSort (fun a b : Row => a.1.2 ≤ b.1.2) ((BraidSearch.stats ord st).filter fun r => decide (r.1.1 = L))).map Prod.fst).nodup_iff
    refine e.2 (List.Nodup.sublist (List.filter_sublist.map _) ?_)
    rw [((stats_perm ho st).map Prod.fst).nodup_iff, List.map_map]
    exact hn
  rw [List.Nodup, List.pairwise_map] at h2
  refine (h1.and h2).imp_of_mem ?_
  rintro a b ha hb ⟨h3, h4⟩
  rcases lt_or_eq_of_le h3 with h | h
  · exact h
  · refine absurd (Prod.ext ?_ h) h4
    rw [((selLen_mem ho st L a).1 ha).1, ((selLen_mem ho st L b).1 hb).1]

variable {rep : Summand d} {ρ : Braid rep.n →* LMat rep.p d} {lim : Nat} {ω : List Nat → List Nat → Nat → Nat} {c : Config S NF d}

/-- Additions of braids of other lengths leave a bucket alone. -/
theorem run_other (t : BraidSearch.Tag) : ∀ (bats : List (Bucketing.Batch NF d)) {st st' : State S NF d}, run c st (bats.map Op.add) = .ok st' →
    (∀ b ∈ bats, ∀ i, (c.length (b.braids i) : ℤ) ≠ t.1) → Dict.get? st'.buckets t = Dict.get? st.buckets t
  | [], st, st', h, _ => by cases h; rfl
  | b :: bats, st, st', h, hb => by
    rw [List.map_cons, run] at h
    cases ha : addBraidsImages c st b with
    | error e => rw [ha] at h; cases h
    | ok st1 =>
      rw [ha, bind_ok] at h
      rw [run_other t bats h fun b' hb' => hb b' (List.mem_cons_of_mem _ hb'), add_other ha (hb b List.mem_cons_self)]

theorem discards_get : ∀ (ts : List BraidSearch.Tag) (st : State S NF d) (t : BraidSearch.Tag),
    Dict.get? (ts.foldl discardBucket st).buckets t = if t ∈ ts then none else Dict.get? st.buckets t
  | [], st, t => by simp
  | u :: ts, st, t => by
    rw [List.foldl_cons, discards_get ts, discard_get]
    by_cases h : t ∈ ts
    · simp [h]
    · by_cases h' : u = t
      · simp [h']
      · simp [h, h', Ne.symm h']

theorem run_discards (c : Config S NF d) : ∀ (ts : List BraidSearch.Tag) (st : State S NF d), run c st (ts.map Op.discard) = .ok (ts.foldl discardBucket st)
  | [], st => rfl
  | t :: ts, st => by rw [List.map_cons, run, List.foldl_cons]; exact run_discards c ts _

theorem moves_spec (hn : 2 ≤ rep.n) (hl : rep.n < lim) (H : SummandRealises rep ρ) (hd : 0 < d) (hp : rep.p ≠ 1) (hF : FullTwistScalar ρ)
    (hsz : 1 ≤ c.size) (hc : c.length = NF.canonicalLength) (k : Nat) (L : ℤ) (ts : List BraidSearch.Tag) (hts : ∀ t ∈ ts, t.1 = L)
    {st : State S NF d} (hr : Reach lim ω rep ρ c (fun x => x.power = 0) st) (hex : ∀ t ∈ ts, ∃ b, Dict.get? st.buckets t = some b) :
    ∃ st', ts.foldlM (fun st t => nfDescendants (GNF.tbl lim ω) rep c st t k) st = .ok st' ∧
      Reach lim ω rep ρ c (fun x => x.power = 0) st' ∧ (∀ t, t.1 ≤ L → Dict.get? st'.buckets t = Dict.get? st.buckets t) ∧
      ∃ bats : List (Bucketing.Batch NF d), run c st (bats.map Op.add) = .ok st' := by
  refine foldlM_list _ (fun us st' => Reach lim ω rep ρ c (fun x => x.power = 0) st' ∧ (∀ t, t.1 ≤ L → Dict.get? st'.buckets t = Dict.get? st.buckets t) ∧
      ∃ bats : List (Bucketing.Batch NF d), run c st (bats.map Op.add) = .ok st')
    ts st ⟨hr, fun _ _ => rfl, [], rfl⟩ ?_
  rintro us t vs e st1 ⟨h1, h2, bats0, h3⟩
  have ht : t ∈ ts := by rw [e]; simp
  obtain ⟨b, hb⟩ := hex t ht
  have hb1 : Dict.get? st1.buckets t = some b := by rw [h2 t (hts t ht).le]; exact hb
  obtain ⟨l, l1, -, l3⟩ := h1.bucket hd hp hc hb1
  obtain ⟨st2, bats, e1, e2, e3, -, W, w1, w2⟩ := nfDescendants_spec hn hl H hd hp hF hsz hc k h1 hb1
  refine ⟨st2, e1, h1.append _ ?_ e2, fun u hu => ?_, bats0 ++ bats, by rw [List.map_append, run_append, h3, bind_ok, e2]⟩
  · intro b'' hb''
    obtain ⟨x, hx, e⟩ := List.mem_map.1 hb''
    cases e; exact e3 _ hx
  · rw [run_other u bats e2 ?_, h2 u hu]
    intro b' hb' i
    have hm : b'.braids i ∈ braidsOf bats := List.mem_flatMap.2 ⟨b', hb', List.mem_ofFn.2 ⟨i, rfl⟩⟩
    rw [w2.mem_iff] at hm
    obtain ⟨j, hj, hm⟩ := List.mem_flatMap.1 hm
    obtain ⟨x, hx, hm⟩ := List.mem_flatMap.1 hm
    obtain ⟨w, hw, hm⟩ := List.mem_map.1 hm
    have hwl := ((w1 x hx).2 w).1 hw
    rw [l1.1] at hx
    obtain ⟨o, ho, rfl⟩ := List.mem_map.1 hx
    have hol := (l3 o ho).2.1
    rw [List.mem_range] at hj
    rw [hc, ← hm]
    simp only [NF.canonicalLength, List.length_append, List.length_take] at hol ⊢
    have := hts t ht
    omega

/-- Additions never remove a bucket. -/
theorem run_keeps {st st' : State S NF d} {log : BraidSearch.Tag → List (Offer NF d)} (hi : Inv c log st) {bats : List (Bucketing.Batch NF d)}
    (h : run c st (bats.map Op.add) = .ok st') {t : BraidSearch.Tag} {b : Bucket NF d} (hb : Dict.get? st.buckets t = some b) :
    ∃ b', Dict.get? st'.buckets t = some b' := by
  have hi' := run_inv c _ hi h
  cases hg : Dict.get? st'.buckets t with
  | some b' => exact ⟨b', rfl⟩
  | none =>
    exfalso
    obtain ⟨k, l, -, hl⟩ := hi.some t b hb
    have hne : log t ≠ [] := by
      intro e
      have := hl.sub.length_le
      rw [e] at this
      exact hl.ne (by simpa using this)
    have key : ∀ (bats : List (Bucketing.Batch NF d)) (acc : List (Offer NF d)), acc ≠ [] → offeredSince c t acc (bats.map Op.add) ≠ [] := by
      intro bats
      induction bats with
      | nil => intro acc h; exact h
      | cons b bats ih => intro acc h; rw [List.map_cons, offeredSince]; exact ih _ (by simp [h])
    exact key bats _ hne (hi'.none t hg)

theorem nearKernel_spec (hn : 2 ≤ rep.n) (hl : rep.n < lim) (hd : 0 < d) (hp : rep.p ≠ 1) (hc : c.length = NF.canonicalLength)
    {Q : NF → Prop} {st : State S NF d} (hr : Reach lim ω rep ρ c Q st) {ord : List Row → List Row} (ho : ∀ l, (ord l).Perm l) :
    ∃ found, nearKernel (GNF.tbl lim ω) st (BraidSearch.stats ord st) = .ok found ∧
      found.Perm ((st.buckets.filter fun tb => decide (tb.1.2 = 1)).flatMap fun tb => tb.2.braids.map fun x =>
        (x.power, x.factors.map fun f => wordOf (permAt rep.n f))) := by
  obtain ⟨log, hi⟩ := hr.inv
  set g : Row → List (Int × List (List Nat)) := fun r => match Dict.get? st.buckets r.1 with
    | none => []
    | some b => b.braids.map fun x => (x.power, x.factors.map fun f => wordOf (permAt rep.n f)) with hg
  obtain ⟨ls, l1, l2, l3⟩ := mapM_spec (fun r : Row => do
      let b ← Dict.get st.buckets r.1
      b.braids.mapM fun x => do .ok (x.power, ← NF.canonicalFactors (GNF.tbl lim ω) x))
    (fun r l => l = g r) ((BraidSearch.stats ord st).filter fun r => decide (r.1.2 = 1)) (by
      intro r hrm
      obtain ⟨b, hb, -⟩ := (mem_stats ho st r).1 (List.mem_filter.1 hrm).1
      have hb' := Dict.get?_of_mem hi.nodup hb
      obtain ⟨l, k1, -, k3⟩ := hr.bucket hd hp hc hb'
      obtain ⟨ys, y1, y2, y3⟩ := mapM_spec (fun x : NF => do .ok (x.power, ← NF.canonicalFactors (GNF.tbl lim ω) x))
        (fun x y => y = (x.power, x.factors.map fun f => wordOf (permAt rep.n f))) b.braids (by
          intro x hx
          rw [k1.1] at hx
          obtain ⟨o, ho, rfl⟩ := List.mem_map.1 hx
          exact ⟨_, by rw [canonicalFactors_spec hn hl (k3 o ho).1.1, bind_ok], rfl⟩)
      refine ⟨ys, by rw [Dict.get, hb', bind_ok, y1], ?_⟩
      simp only [hg, hb']
      exact List.ext_getElem (by simp [y2]) fun j h1 h2 => by rw [y3 j (by simpa using h2), List.getElem_map])
  refine ⟨ls.flatten, by rw [nearKernel, l1, bind_ok], ?_⟩
  have hls : ls = ((BraidSearch.stats ord st).filter fun r => decide (r.1.2 = 1)).map g :=
    List.ext_getElem (by simp [l2]) fun j h1 h2 => by rw [l3 j (by simpa using h2), List.getElem_map]
  rw [hls, ← List.flatMap_def]
  refine (((stats_perm ho st).filter fun r : Row => decide (r.1.2 = 1)).flatMap_right g).trans (List.Perm.of_eq ?_)
  rw [List.filter_map, List.flatMap_map]
  rw [List.flatMap_def, List.flatMap_def]
  congr 1
  apply List.map_congr_left
  intro tb htb
  have := Dict.get?_of_mem hi.nodup (List.mem_filter.1 htb).1
  simp only [hg, this]

theorem dbRows_spec {st : State S NF d} (hi : (st.buckets.map Prod.fst).Nodup) (rows : List Row)
    (hrow : ∀ r ∈ rows, ∃ b, (r.1, b) ∈ st.buckets ∧ r.2 = b.braids.length) :
    ∃ out, dbRows st rows = .ok out ∧ out.length = (rows.map Prod.snd).sum ∧
      ∀ y, y ∈ out ↔ ∃ r ∈ rows, ∃ b, (r.1, b) ∈ st.buckets ∧ y.2.2 ∈ b.braids ∧ y.1 = r.1.1 ∧ y.2.1 = r.1.2 := by
  set g : Row → List DbRow := fun r => match Dict.get? st.buckets r.1 with
    | none => []
    | some b => b.braids.map fun x => (r.1.1, r.1.2, x) with hg
  obtain ⟨ls, l1, l2, l3⟩ := mapM_spec (fun r : Row => do
      let b ← Dict.get st.buckets r.1
      .ok (b.braids.map fun x => (r.1.1, r.1.2, x))) (fun r l => l = g r) rows (by
    intro r hr
    obtain ⟨b, hb, -⟩ := hrow r hr
    have hb' := Dict.get?_of_mem hi hb
    exact ⟨_, by rw [Dict.get, hb', bind_ok], by simp only [hg, hb']⟩)
  have hls : ls = rows.map g :=
    List.ext_getElem (by simp [l2]) fun j h1 h2 => by rw [l3 j (by simpa using h2), List.getElem_map]
  refine ⟨ls.flatten, by rw [dbRows, l1, bind_ok], ?_, fun y => ?_⟩
  · rw [hls, List.length_flatten, List.map_map]
    congr 1
    apply List.map_congr_left
    intro r hr
    obtain ⟨b, hb, hb2⟩ := hrow r hr
    simp only [Function.comp, hg, Dict.get?_of_mem hi hb, List.length_map, hb2]
  · rw [hls, ← List.flatMap_def, List.mem_flatMap]
    constructor
    · rintro ⟨r, hr, hy⟩
      obtain ⟨b, hb, -⟩ := hrow r hr
      simp only [hg, Dict.get?_of_mem hi hb] at hy
      obtain ⟨x, hx, rfl⟩ := List.mem_map.1 hy
      exact ⟨r, hr, b, hb, hx, rfl, rfl⟩
    · rintro ⟨r, hr, b, hb, h1, h2, h3⟩
      refine ⟨r, hr, ?_⟩
      simp only [hg, Dict.get?_of_mem hi hb]
      exact List.mem_map.2 ⟨y.2.2, h1, by rw [← h2, ← h3]⟩

theorem round_spec (hn : 2 ≤ rep.n) (hl : rep.n < lim) (H : SummandRealises rep ρ) (hd : 0 < d) (hp : rep.p ≠ 1) (hF : FullTwistScalar ρ)
    (hsz : 1 ≤ c.size) (hc : c.length = NF.canonicalLength) (a : Args) {ord : List Row → List Row} (ho : ∀ l, (ord l).Perm l) (L : ℤ)
    {st : State S NF d} (hr : Reach lim ω rep ρ c (fun x => x.power = 0) st) :
    ∃ out st', round (GNF.tbl lim ω) a rep c ord L st = .ok (out, st') ∧ Reach lim ω rep ρ c (fun x => x.power = 0) st' ∧
      (∀ t b, (t, b) ∈ st'.buckets → L < t.1) ∧
      (∀ t b, (t, b) ∈ st.buckets → L < t.1 → ∃ b', (t, b') ∈ st'.buckets) ∧
      (out.halt = true ↔ a.stopAtProjlen1 = true ∧ ∃ t b, (t, b) ∈ st.buckets ∧ t.2 = 1) ∧
      out.found.Perm ((st.buckets.filter fun tb => decide (tb.1.2 = 1)).flatMap fun tb => tb.2.braids.map fun x =>
        (x.power, x.factors.map fun f => wordOf (permAt rep.n f))) ∧
      out.selected = within (selectionLength (BraidSearch.stats ord st) L) a.useBest ∧
      (a.database = false → out.saved = []) ∧
      (a.database = true → out.saved.length = ((within (selectionLength (BraidSearch.stats ord st) L) a.saveBest).map Prod.snd).sum ∧
        ∀ y, y ∈ out.saved ↔ ∃ r ∈ within (selectionLength (BraidSearch.stats ord st) L) a.saveBest, ∃ b, (r.1, b) ∈ st.buckets ∧
          y.2.2 ∈ b.braids ∧ y.1 = r.1.1 ∧ y.2.1 = r.1.2) := by
  obtain ⟨log, hi⟩ := hr.inv
  obtain ⟨found, f1, f2⟩ := nearKernel_spec hn hl hd hp hc hr ho
  have hwithin : ∀ B, ∀ r ∈ within (selectionLength (BraidSearch.stats ord st) L) B, r.1.1 = L ∧ ∃ b, (r.1, b) ∈ st.buckets ∧ r.2 = b.braids.length := by
    intro B r hrm
    obtain ⟨suf, h1, -⟩ := within_prefix (selectionLength (BraidSearch.stats ord st) L) B
    exact (selLen_mem ho st L r).1 (by rw [h1]; exact List.mem_append_left _ hrm)
  obtain ⟨st1, m1, m2, m3, bats, m4⟩ := moves_spec hn hl H hd hp hF hsz hc a.stepSize L ((within (selectionLength (BraidSearch.stats ord st) L) a.useBest).map Prod.fst) (by
    intro t ht
    obtain ⟨r, hrm, rfl⟩ := List.mem_map.1 ht
    exact (hwithin _ r hrm).1) hr (by
    intro t ht
    obtain ⟨r, hrm, rfl⟩ := List.mem_map.1 ht
    obtain ⟨-, b, hb, -⟩ := hwithin _ r hrm
    exact ⟨b, Dict.get?_of_mem hi.nodup hb⟩)
  obtain ⟨saved, s1, s2, s3⟩ := dbRows_spec hi.nodup (within (selectionLength (BraidSearch.stats ord st) L) a.saveBest) fun r hrm => (hwithin _ r hrm).2
  set ts := ((BraidSearch.stats ord st).filter fun r => decide (r.1.1 ≤ L)).map Prod.fst with hts
  have htm : ∀ t, t ∈ ts ↔ t.1 ≤ L ∧ ∃ b, (t, b) ∈ st.buckets := by
    intro t
    rw [hts, List.mem_map]
    constructor
    · rintro ⟨r, hrm, rfl⟩
      obtain ⟨b, hb, -⟩ := (mem_stats ho st r).1 (List.mem_filter.1 hrm).1
      exact ⟨by simpa using (List.mem_filter.1 hrm).2, b, hb⟩
    · rintro ⟨h1, b, hb⟩
      exact ⟨(t, b.braids.length), List.mem_filter.2 ⟨(mem_stats ho st _).2 ⟨b, hb, rfl⟩, by simpa using h1⟩, rfl⟩
  have hreach : Reach lim ω rep ρ c (fun x => x.power = 0) (ts.foldl discardBucket st1) :=
    m2.append (ts.map Op.discard) (by simp) (run_discards c ts st1)
  obtain ⟨log', hi'⟩ := hreach.inv
  refine ⟨⟨found, within (selectionLength (BraidSearch.stats ord st) L) a.useBest, if a.database then saved else [],
    a.stopAtProjlen1 && decide (1 ≤ ((BraidSearch.stats ord st).filter fun r => decide (r.1.2 = 1)).length)⟩, ts.foldl discardBucket st1,
    ?_, hreach, ?_, ?_, ?_, f2, rfl, ?_, ?_⟩
  · unfold round
    dsimp only
    rw [f1, bind_ok]
    split
    · rw [s1, bind_ok, m1, bind_ok]
    · rw [bind_ok, m1, bind_ok]
  · intro t b hb
    by_contra hc'
    have h := Dict.get?_of_mem hi'.nodup hb
    rw [discards_get] at h
    split at h
    · cases h
    · next hnt =>
      rw [m3 t (by omega)] at h
      exact hnt ((htm t).2 ⟨by omega, b, Dict.mem_of_get? h⟩)
  · intro t b hb hL
    obtain ⟨b', hb'⟩ := run_keeps hi m4 (Dict.get?_of_mem hi.nodup hb)
    refine ⟨b', Dict.mem_of_get? ?_⟩
    rw [discards_get, if_neg (by rw [htm]; omega)]; exact hb'
  · rw [Bool.and_eq_true, decide_eq_true_iff, Nat.one_le_iff_ne_zero, Ne, List.length_eq_zero_iff]
    refine and_congr Iff.rfl ⟨fun h => ?_, ?_⟩
    · obtain ⟨r, hrm⟩ := List.exists_mem_of_ne_nil _ h
      obtain ⟨b, hb, -⟩ := (mem_stats ho st r).1 (List.mem_filter.1 hrm).1
      exact ⟨r.1, b, hb, by simpa using (List.mem_filter.1 hrm).2⟩
    · rintro ⟨t, b, hb, h1⟩
      exact List.ne_nil_of_mem (List.mem_filter.2 ⟨(mem_stats ho st (t, b.braids.length)).2 ⟨b, hb, rfl⟩, by simpa using h1⟩)
  · intro hdb; simp [hdb]
  · intro hdb
    simp only [hdb, if_true]
    exact ⟨s2, s3⟩

end Search
end Peyl
