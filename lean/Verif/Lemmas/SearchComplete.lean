import Verif.Lemmas.Search
/-!
# The search misses nothing while buckets and budget are large enough
-/
namespace Peyl
open LaurentPolynomial Polymat Perms
namespace Search
open BraidSearch
variable {S : Type} {d : Nat}
variable {rep : Summand d} {ρ : Braid rep.n →* LMat rep.p d} {lim : Nat} {ω : List Nat → List Nat → Nat → Nat} {c : Config S NF d}

/-- A normal form with a factor can be continued to any length. -/
theorem extend_gnf {n : Nat} (hn : 2 ≤ n) (hl : n < lim) {l : List Nat} (hne : l ≠ []) (h : IsGNF lim ω n ⟨n, 0, l⟩) (k : Nat) :
    ∃ w, w.length = k ∧ IsGNF lim ω n ⟨n, 0, l ++ w⟩ := by
  obtain ⟨t, R⟩ := exists_greal lim ω hn hl
  rw [R.isGNF_iff] at h
  have hv := R.1.valid_iff.1 h
  simp only at hv
  obtain ⟨l', f, rfl⟩ : ∃ l' f, l = l' ++ [f] := ⟨l.dropLast, l.getLast hne, (List.dropLast_append_getLast hne).symm⟩
  have hf : f < t.order := hv.2.1 f (by simp)
  have hf1 := hv.2.2.2 f (by simp)
  have hn3 : 3 ≤ n := by
    by_contra hc
    have h2 : n = 2 := by omega
    subst h2
    have h3 := R.1.spec.D_lt
    have h4 := R.1.spec.id_lt
    have ho : t.order = 2 := R.2.1
    have h5 : t.D ≠ t.id := by rw [Ne, R.1.spec.id_eq R.1.spec.D_lt, R.1.spec.v_D]; exact R.1.spec.D_ne
    omega
  have hD : ∀ s, (permGerm n).atom s → s ≠ (permGerm n).D := by
    rintro s ⟨i, hi, rfl⟩ e
    exact sg_ne_w0 hn3 hi e
  obtain ⟨w, -, w2, w3, w4, w5⟩ := R.1.sampleLoop_spec hD ⟨sg n 0, permGerm_atom (by omega), permGerm_P _⟩ (fun _ => 0) k 0 hf hf1.1
  refine ⟨w, w2, ?_⟩
  rw [R.isGNF_iff, R.1.valid_iff]
  refine ⟨rfl, ?_, ?_, ?_⟩
  · intro x hx
    rcases List.mem_append.1 hx with hx | hx
    · exact hv.2.1 x hx
    · exact w3 x hx
  · simp only [List.map_append]
    rw [NFReal.nrm_append_last]
    refine ⟨by simpa using hv.2.2.1, by simpa using w4⟩
  · intro x hx
    rcases List.mem_append.1 hx with hx | hx
    · exact hv.2.2.2 x hx
    · exact w5 x hx

/-- There are at most `k` normal forms with Δ-power zero and length `m`. -/
def AtMost (lim : Nat) (ω : List Nat → List Nat → Nat → Nat) (n k m : Nat) : Prop :=
  ∀ l : List NF, l.Nodup → (∀ x ∈ l, IsGNF lim ω n x ∧ x.power = 0 ∧ x.factors.length = m) → l.length ≤ k

theorem atMost_of_count {n : Nat} (hn : 2 ≤ n) (hl : n < lim) {k m : Nat} (h : NF.countAllOfLength (GNF.tbl lim ω) n m = .ok k) :
    AtMost lim ω n k m := by
  obtain ⟨t, R⟩ := exists_greal lim ω hn hl
  obtain ⟨xs, -, -, x3, x4⟩ := R.1.allOfLength_spec m 0
  rw [x4] at h; cases h
  intro l hnd hall
  refine (hnd.subperm fun x hx => ?_).length_le
  rw [x3, ← R.isGNF_iff]
  exact hall x hx

/-- The braid is in some bucket. -/
def Stored (st : State S NF d) (x : NF) : Prop := ∃ t b, (t, b) ∈ st.buckets ∧ x ∈ b.braids

theorem offeredSince_append (c : Config S NF d) (t : BraidSearch.Tag) : ∀ (ops ops' : List (Op NF d)) (acc : List (Offer NF d)),
    offeredSince c t acc (ops ++ ops') = offeredSince c t (offeredSince c t acc ops) ops'
  | [], ops', acc => rfl
  | .add b :: ops, ops', acc => by rw [List.cons_append, offeredSince, offeredSince]; exact offeredSince_append c t ops ops' _
  | .discard u :: ops, ops', acc => by rw [List.cons_append, offeredSince, offeredSince]; exact offeredSince_append c t ops ops' _

theorem offeredSince_mono (c : Config S NF d) (t : BraidSearch.Tag) : ∀ (ops : List (Op NF d)) (acc : List (Offer NF d)), Op.discard t ∉ ops →
    (∀ o ∈ acc, o ∈ offeredSince c t acc ops) ∧ ∀ b, Op.add b ∈ ops → ∀ o, (t, o) ∈ keptOf c b → o ∈ offeredSince c t acc ops
  | [], acc, _ => ⟨fun o ho => ho, by simp⟩
  | .add b :: ops, acc, hd => by
    obtain ⟨h1, h2⟩ := offeredSince_mono c t ops (acc ++ (keptOf c b).filterMap fun o => if o.1 = t then some o.2 else none) (by simpa using hd)
    refine ⟨fun o ho => h1 o (List.mem_append_left _ ho), fun b' hb' o ho => ?_⟩
    rw [offeredSince]
    rcases List.mem_cons.1 hb' with e | hb'
    · cases e
      exact h1 o (List.mem_append_right _ (List.mem_filterMap.2 ⟨(t, o), ho, by simp⟩))
    · exact h2 b' hb' o ho
  | .discard u :: ops, acc, hd => by
    simp only [List.mem_cons, Op.discard.injEq, not_or] at hd
    rw [offeredSince, if_neg (Ne.symm hd.1)]
    obtain ⟨h1, h2⟩ := offeredSince_mono c t ops acc hd.2
    exact ⟨h1, fun b' hb' o ho => h2 b' (by simpa using hb') o ho⟩

theorem kept_mem (hcrit : ∀ L rows i, 1 ≤ (rows i).length → c.criterion L rows i = true) {b : Bucketing.Batch NF d} (hv : Valid b) (i : Fin b.len)
    (h1 : 1 ≤ c.length (b.braids i)) : ∃ t o, (t, o) ∈ keptOf c b ∧ o.braid = b.braids i ∧ t.1 = (c.length (b.braids i) : ℤ) := by
  obtain ⟨s, pl, e1, e2⟩ := stats_ok c b hv
  rw [keptOf, e1, e2]
  refine ⟨_, _, List.mem_map.2 ⟨i, List.mem_filter.2 ⟨List.mem_finRange i, hcrit _ _ _ ?_⟩, rfl⟩, rfl, rfl⟩
  have : (s i).length = c.length (b.braids i) := by
    rw [braidImageStats] at e1
    cases a1 : degmax b.images with
    | error e => rw [a1] at e1; cases e1
    | ok x1 => cases a2 : valmin b.images with
      | error e => rw [a1, a2] at e1; cases e1
      | ok x2 => cases a3 : rhogap2 b.images with
        | error e => rw [a1, a2, a3] at e1; cases e1
        | ok x3 => cases a4 : projlen b.images with
          | error e => rw [a1, a2, a3, a4] at e1; cases e1
          | ok x4 => cases a5 : projrank2 c.rank b.images with
            | error e => rw [a1, a2, a3, a4, a5] at e1; cases e1
            | ok x5 => rw [a1, a2, a3, a4, a5] at e1; cases e1; rfl
  omega

/-- A bucket of a length with fewer braids than the bucket size stores every braid offered. -/
theorem stored_of_offered (hd : 0 < d) (hp : rep.p ≠ 1) (hc : c.length = NF.canonicalLength) {s : S} {ops : List (Op NF d)} {st : State S NF d}
    (ho : ∀ b, Op.add b ∈ ops → TrueBatch lim ω rep ρ b ∧ ∀ i, (b.braids i).power = 0) (hr : run c (State.init s) ops = .ok st)
    {k m : Nat} (hk : AtMost lim ω rep.n k m) (hks : k < c.size) {t : BraidSearch.Tag} (ht : t.1 = m) {o : Offer NF d} (hm : o ∈ offered c ops t) :
    Stored st o.braid := by
  have hi := run_inv c ops (inv_init c s) hr
  cases hg : Dict.get? st.buckets t with
  | none => rw [show offered c ops t = [] from hi.none t hg] at hm; cases hm
  | some b =>
    obtain ⟨k', l, -, hl⟩ := hi.some t b hg
    have hall := offeredSince_all c t (fun o => IsGNF lim ω rep.n o.braid ∧ o.braid.power = 0 ∧ o.braid.factors.length = m) ops [] (by
      intro b hb o ho' e
      obtain ⟨k1, k2, i, k3⟩ := keptOf_true hd hp c (ho b hb).1 o ho'
      refine ⟨k1.1, by rw [k3]; exact (ho b hb).2 i, ?_⟩
      rw [hc, e, ht] at k2
      exact_mod_cast k2.symm) (by simp)
    have hfd : (firstDistinct (offered c ops t)).length ≤ k := by
      have := hk _ (firstDistinct_nodup (offered c ops t)) (by
        intro x hx
        obtain ⟨o, ho, rfl⟩ := List.mem_map.1 hx
        exact hall o ((firstDistinct_sublist _).subset ho))
      simpa using this
    have hlen := hl.len
    change l.length = min c.size (firstDistinct (offered c ops t)).length at hlen
    have hset := (hl.set (by omega)).2
    refine ⟨t, b, Dict.mem_of_get? hg, ?_⟩
    rw [hl.hb, hset]
    exact mem_firstDistinct _ o hm

/-- What is stored stays, and what is offered is stored, as long as its length is not discarded. -/
theorem stored_run (hd : 0 < d) (hp : rep.p ≠ 1) (hc : c.length = NF.canonicalLength)
    (hcrit : ∀ L rows i, 1 ≤ (rows i).length → c.criterion L rows i = true) {st st' : State S NF d}
    (hr : Reach lim ω rep ρ c (fun x => x.power = 0) st) (ops : List (Op NF d))
    (ho : ∀ b, Op.add b ∈ ops → TrueBatch lim ω rep ρ b ∧ ∀ i, (b.braids i).power = 0) (hrun : run c st ops = .ok st')
    {k m : Nat} (hk : AtMost lim ω rep.n k m) (hks : k < c.size) (hm : 1 ≤ m) (hdis : ∀ t, Op.discard t ∈ ops → t.1 ≠ m) {x : NF}
    (hx : x.factors.length = m) (h : Stored st x ∨ ∃ b i, Op.add b ∈ ops ∧ b.braids i = x) : Stored st' x := by
  obtain ⟨s, ops0, h1, h2⟩ := hr
  have hR : Reach lim ω rep ρ c (fun x => x.power = 0) st := ⟨s, ops0, h1, h2⟩
  have hall : ∀ b, Op.add b ∈ ops0 ++ ops → TrueBatch lim ω rep ρ b ∧ ∀ i, (b.braids i).power = 0 := by
    intro b hb
    rcases List.mem_append.1 hb with hb | hb
    · exact h1 b hb
    · exact ho b hb
  have hrun' : run c (State.init s) (ops0 ++ ops) = .ok st' := by rw [run_append, h2]; exact hrun
  rcases h with ⟨t, b, hb, hxb⟩ | ⟨b, i, hb, rfl⟩
  · have hi := run_inv c ops0 (inv_init c s) h2
    obtain ⟨k', l, -, hl⟩ := hi.some t b (Dict.get?_of_mem hi.nodup hb)
    have hxb' := hxb
    rw [hl.hb] at hxb
    obtain ⟨o, hol, rfl⟩ := List.mem_map.1 hxb
    have htm : t.1 = m := by
      obtain ⟨l', l1, -, l3⟩ := hR.bucket hd hp hc (Dict.get?_of_mem hi.nodup hb)
      rw [l1.1] at hxb'
      obtain ⟨o', ho', e⟩ := List.mem_map.1 hxb'
      have := (l3 o' ho').2.1
      rw [e] at this
      rw [← this, NF.canonicalLength, hx]
    refine stored_of_offered hd hp hc hall hrun' hk hks htm ?_
    rw [offered, offeredSince_append]
    exact (offeredSince_mono c t ops _ fun hdm => hdis t hdm htm).1 o (hl.sub.subset hol)
  · obtain ⟨t, o, k1, k2, k3⟩ := kept_mem hcrit (ho b hb).1.valid i (by rw [hc, NF.canonicalLength]; omega)
    have htm : t.1 = m := by rw [k3, hc, NF.canonicalLength, hx]
    rw [← k2]
    refine stored_of_offered hd hp hc hall hrun' hk hks htm ?_
    rw [offered, offeredSince_append]
    exact (offeredSince_mono c t ops _ fun hdm => hdis t hdm htm).2 b hb o k1

/-- A bucket of a length with fewer braids than the bucket size has no repetitions. -/
theorem bucket_nodup (hd : 0 < d) (hp : rep.p ≠ 1) (hc : c.length = NF.canonicalLength) {st : State S NF d}
    (hr : Reach lim ω rep ρ c (fun x => x.power = 0) st) {k m : Nat} (hk : AtMost lim ω rep.n k m) (hks : k < c.size)
    {t : BraidSearch.Tag} {b : Bucket NF d} (hb : Dict.get? st.buckets t = some b) (ht : t.1 = m) : b.braids.Nodup := by
  obtain ⟨s, ops, ho, h2⟩ := hr
  have hi := run_inv c ops (inv_init c s) h2
  obtain ⟨k', l, -, hl⟩ := hi.some t b hb
  have hall := offeredSince_all c t (fun o => IsGNF lim ω rep.n o.braid ∧ o.braid.power = 0 ∧ o.braid.factors.length = m) ops [] (by
    intro b hb o ho' e
    obtain ⟨k1, k2, i, k3⟩ := keptOf_true hd hp c (ho b hb).1 o ho'
    refine ⟨k1.1, by rw [k3]; exact (ho b hb).2 i, ?_⟩
    rw [hc, e, ht] at k2
    exact_mod_cast k2.symm) (by simp)
  have hfd : (firstDistinct (offered c ops t)).length ≤ k := by
    have := hk _ (firstDistinct_nodup (offered c ops t)) (by
      intro x hx
      obtain ⟨o, ho, rfl⟩ := List.mem_map.1 hx
      exact hall o ((firstDistinct_sublist _).subset ho))
    simpa using this
  have hlen := hl.len
  change l.length = min c.size (firstDistinct (offered c ops t)).length at hlen
  rw [hl.hb, (hl.set (by omega)).2]
  exact firstDistinct_nodup _

/-- All buckets of a length are selected when the budget is at least the number of braids of this length. -/
theorem within_all (hd : 0 < d) (hp : rep.p ≠ 1) (hc : c.length = NF.canonicalLength) {st : State S NF d}
    (hr : Reach lim ω rep ρ c (fun x => x.power = 0) st) {k m : Nat} (hk : AtMost lim ω rep.n k m) (hks : k < c.size) {B : ℤ} (hB : (k : ℤ) ≤ B)
    {ord : List Row → List Row} (ho : ∀ l, (ord l).Perm l) :
    within (selectionLength (BraidSearch.stats ord st) m) B = selectionLength (BraidSearch.stats ord st) m := by
  obtain ⟨log, hi⟩ := hr.inv
  set rows := selectionLength (BraidSearch.stats ord st) m with hrows
  have hmem := selLen_mem ho st (m : ℤ)
  rw [← hrows] at hmem
  set g : Row → List NF := fun r => match Dict.get? st.buckets r.1 with | none => [] | some b => b.braids with hg
  have hgr : ∀ r ∈ rows, ∃ b, Dict.get? st.buckets r.1 = some b ∧ g r = b.braids ∧ r.2 = b.braids.length ∧ r.1.1 = m := by
    intro r hrm
    obtain ⟨h1, b, hb, h2⟩ := (hmem r).1 hrm
    have := Dict.get?_of_mem hi.nodup hb
    exact ⟨b, this, by simp only [hg, this], h2, h1⟩
  have hnd : (rows.flatMap g).Nodup := by
    rw [List.nodup_flatMap]
    refine ⟨fun r hrm => ?_, ?_⟩
    · obtain ⟨b, hb, e, -, h1⟩ := hgr r hrm
      rw [e]; exact bucket_nodup hd hp hc hr hk hks hb h1
    · refine (selLen_sorted ho st hi.nodup m).imp_of_mem ?_
      intro r r' hrm hrm' hlt x hx hx'
      obtain ⟨b, hb, e, -, -⟩ := hgr r hrm
      obtain ⟨b', hb', e', -, -⟩ := hgr r' hrm'
      rw [e] at hx; rw [e'] at hx'
      obtain ⟨l, l1, -, l3⟩ := hr.bucket hd hp hc hb
      obtain ⟨l', l1', -, l3'⟩ := hr.bucket hd hp hc hb'
      rw [l1.1] at hx; rw [l1'.1] at hx'
      obtain ⟨o, ho, rfl⟩ := List.mem_map.1 hx
      obtain ⟨o', ho', e2⟩ := List.mem_map.1 hx'
      have i1 := (l3 o ho).1.2
      have i2 := (l3' o' ho').1.2
      rw [e2] at i2
      have h3 := (l3 o ho).2.2.1
      have h4 := (l3' o' ho').2.2.1
      rw [i1.unique i2] at h3
      omega
  have htot : (rows.flatMap g).length ≤ k := by
    refine hk _ hnd fun x hx => ?_
    obtain ⟨r, hrm, hx⟩ := List.mem_flatMap.1 hx
    obtain ⟨b, hb, e, -, h1⟩ := hgr r hrm
    rw [e] at hx
    obtain ⟨l, l1, -, l3⟩ := hr.bucket hd hp hc hb
    rw [l1.1] at hx
    obtain ⟨o, ho, rfl⟩ := List.mem_map.1 hx
    obtain ⟨g1, g2, g3, g4⟩ := l3 o ho
    rw [h1] at g2
    exact ⟨g1.1, g4, by exact_mod_cast g2⟩
  have hsum : (rows.flatMap g).length = (rows.map Prod.snd).sum := by
    rw [List.length_flatMap]
    congr 1
    apply List.map_congr_left
    intro r hrm
    obtain ⟨b, hb, e, h2, -⟩ := hgr r hrm
    rw [e, h2]
  obtain ⟨suf, h1, -, h3⟩ := within_prefix rows B
  cases hs : suf with
  | nil => rw [hs, List.append_nil] at h1; exact h1.symm
  | cons x suf' =>
    exfalso
    have h4 := h3 x suf' hs
    have h5 := congrArg (fun l => (l.map Prod.snd).sum) h1
    simp only [hs, List.map_append, List.sum_append, List.map_cons, List.sum_cons] at h5
    omega

/-- The extensions by one factor of everything in the selected buckets are offered. -/
theorem moves_ext (hn : 2 ≤ rep.n) (hl : rep.n < lim) (H : SummandRealises rep ρ) (hd : 0 < d) (hp : rep.p ≠ 1) (hF : FullTwistScalar ρ)
    (hsz : 1 ≤ c.size) (hc : c.length = NF.canonicalLength) {k : Nat} (hk : 1 ≤ k) {L : ℤ} (ts : List BraidSearch.Tag) (hts : ∀ t ∈ ts, t.1 = L)
    {st : State S NF d} (hr : Reach lim ω rep ρ c (fun x => x.power = 0) st) (hex : ∀ t ∈ ts, ∃ b, Dict.get? st.buckets t = some b) :
    ∃ st' bats, ts.foldlM (fun st t => nfDescendants (GNF.tbl lim ω) rep c st t k) st = .ok st' ∧ run c st (bats.map Op.add) = .ok st' ∧
      (∀ b ∈ bats, TrueBatch lim ω rep ρ b ∧ ∀ i, (b.braids i).power = 0) ∧
      (∀ t, t.1 ≤ L → Dict.get? st'.buckets t = Dict.get? st.buckets t) ∧
      ∀ t ∈ ts, ∀ b, Dict.get? st.buckets t = some b → ∀ x ∈ b.braids, ∀ f, IsGNF lim ω rep.n ⟨rep.n, 0, x.factors ++ [f]⟩ →
        (⟨rep.n, 0, x.factors ++ [f]⟩ : NF) ∈ braidsOf bats := by
  obtain ⟨st', h1, bats, h2⟩ := foldlM_list (fun st t => nfDescendants (GNF.tbl lim ω) rep c st t k) (fun us st' => ∃ bats : List (Bucketing.Batch NF d),
      run c st (bats.map Op.add) = .ok st' ∧ (∀ b ∈ bats, TrueBatch lim ω rep ρ b ∧ ∀ i, (b.braids i).power = 0) ∧
      (∀ t, t.1 ≤ L → Dict.get? st'.buckets t = Dict.get? st.buckets t) ∧
      ∀ t ∈ us, ∀ b, Dict.get? st.buckets t = some b → ∀ x ∈ b.braids, ∀ f, IsGNF lim ω rep.n ⟨rep.n, 0, x.factors ++ [f]⟩ →
        (⟨rep.n, 0, x.factors ++ [f]⟩ : NF) ∈ braidsOf bats) ts st ⟨[], rfl, by simp, fun _ _ => rfl, by simp⟩ (by
    rintro us t vs e st1 ⟨bats, b1, b2, b3, b4⟩
    have ht : t ∈ ts := by rw [e]; simp
    obtain ⟨b, hb⟩ := hex t ht
    have hb1 : Dict.get? st1.buckets t = some b := by rw [b3 t (hts t ht).le]; exact hb
    have hr1 : Reach lim ω rep ρ c (fun x => x.power = 0) st1 := hr.append _ (fun b'' hb'' => by
      obtain ⟨x, hx, e⟩ := List.mem_map.1 hb''
      cases e; exact b2 _ hx) b1
    obtain ⟨l, l1, -, l3⟩ := hr1.bucket hd hp hc hb1
    obtain ⟨st2, bats2, e1, e2, e3, -, W, w1, w2⟩ := nfDescendants_spec hn hl H hd hp hF hsz hc k hr1 hb1
    refine ⟨st2, e1, bats ++ bats2, by rw [List.map_append, run_append, b1, bind_ok, e2], ?_, fun u hu => ?_, ?_⟩
    · intro b' hb'
      rcases List.mem_append.1 hb' with hb' | hb'
      · exact b2 _ hb'
      · exact e3 _ hb'
    · rw [run_other u bats2 e2 ?_, b3 u hu]
      intro b' hb' i
      have hm : b'.braids i ∈ braidsOf bats2 := List.mem_flatMap.2 ⟨b', hb', List.mem_ofFn.2 ⟨i, rfl⟩⟩
      rw [w2.mem_iff] at hm
      obtain ⟨j, hj, hm⟩ := List.mem_flatMap.1 hm
      obtain ⟨x, hx, hm⟩ := List.mem_flatMap.1 hm
      obtain ⟨w, hw, hm⟩ := List.mem_map.1 hm
      have hwl := ((w1 x hx).2 w).1 hw
      rw [l1.1] at hx
      obtain ⟨o, ho, rfl⟩ := List.mem_map.1 hx
      have hol := (l3 o ho).2.1
      rw [List.mem_range] at hj
      rw [hc, ← hm]
      simp only [NF.canonicalLength, List.length_append, List.length_take] at hol ⊢
      have := hts t ht
      omega
    · intro u hu b' hb' x hx f hf
      rw [braidsOf, List.flatMap_append, List.mem_append]
      rcases List.mem_append.1 hu with hu | hu
      · exact .inl (b4 u hu b' hb' x hx f hf)
      · right
        obtain rfl := List.mem_singleton.1 hu
        rw [hb] at hb'; cases hb'
        obtain ⟨w, hw1, hw2⟩ := extend_gnf hn hl (by simp) hf (k - 1)
        rw [← braidsOf, w2.mem_iff]
        refine List.mem_flatMap.2 ⟨0, List.mem_range.2 hk, List.mem_flatMap.2 ⟨x, hx, List.mem_map.2 ⟨f :: w, ?_, by simp⟩⟩⟩
        rw [(w1 x hx).2]
        exact ⟨by simp [hw1]; omega, by simpa using hw2⟩)
  exact ⟨st', bats, h1, h2⟩

/-- Every braid with Δ-power zero and length `m` is stored. -/
def Full (lim : Nat) (ω : List Nat → List Nat → Nat → Nat) (n : Nat) (st : State S NF d) (m : Nat) : Prop :=
  ∀ x, IsGNF lim ω n x → x.power = 0 → x.factors.length = m → Stored st x

theorem round_full (hn : 2 ≤ rep.n) (hl : rep.n < lim) (H : SummandRealises rep ρ) (hd : 0 < d) (hp : rep.p ≠ 1) (hF : FullTwistScalar ρ)
    (hsz : 1 ≤ c.size) (hc : c.length = NF.canonicalLength) (hcrit : ∀ L rows i, 1 ≤ (rows i).length → c.criterion L rows i = true)
    (a : Args) (hstep : 1 ≤ a.stepSize) {ord : List Row → List Row} (ho : ∀ l, (ord l).Perm l) {L : ℤ}
    {st st' : State S NF d} (hr : Reach lim ω rep ρ c (fun x => x.power = 0) st) {out : Out}
    (hround : round (GNF.tbl lim ω) a rep c ord L st = .ok (out, st')) {m k : Nat} (hm : 1 ≤ m) (hLm : L < m) (hk : AtMost lim ω rep.n k m) (hks : k < c.size)
    (h : Full lim ω rep.n st m ∨ ∃ (l j : Nat), 1 ≤ l ∧ (l : ℤ) = L ∧ l + 1 = m ∧ Full lim ω rep.n st l ∧ AtMost lim ω rep.n j l ∧ j < c.size ∧ (j : ℤ) ≤ a.useBest) :
    Full lim ω rep.n st' m := by
  obtain ⟨log, hi⟩ := hr.inv
  have hwithin : ∀ B, ∀ r ∈ within (selectionLength (BraidSearch.stats ord st) L) B, r.1.1 = L ∧ ∃ b, (r.1, b) ∈ st.buckets ∧ r.2 = b.braids.length := by
    intro B r hrm
    obtain ⟨suf, h1, -⟩ := within_prefix (selectionLength (BraidSearch.stats ord st) L) B
    exact (selLen_mem ho st L r).1 (by rw [h1]; exact List.mem_append_left _ hrm)
  have hts : ∀ t ∈ (within (selectionLength (BraidSearch.stats ord st) L) a.useBest).map Prod.fst, t.1 = L := by
    intro t ht
    obtain ⟨r, hrm, rfl⟩ := List.mem_map.1 ht
    exact (hwithin _ r hrm).1
  have hex : ∀ t ∈ (within (selectionLength (BraidSearch.stats ord st) L) a.useBest).map Prod.fst, ∃ b, Dict.get? st.buckets t = some b := by
    intro t ht
    obtain ⟨r, hrm, rfl⟩ := List.mem_map.1 ht
    obtain ⟨-, b, hb, -⟩ := hwithin _ r hrm
    exact ⟨b, Dict.get?_of_mem hi.nodup hb⟩
  -- the state after the round
  have hstate : ∀ st1, ((within (selectionLength (BraidSearch.stats ord st) L) a.useBest).map Prod.fst).foldlM
      (fun st t => nfDescendants (GNF.tbl lim ω) rep c st t a.stepSize) st = .ok st1 →
      st' = (((BraidSearch.stats ord st).filter fun r => decide (r.1.1 ≤ L)).map Prod.fst).foldl discardBucket st1 := by
    intro st1 h1
    rw [Search.round] at hround
    dsimp only at hround
    cases hf : nearKernel (GNF.tbl lim ω) st (BraidSearch.stats ord st) with
    | error e => rw [hf] at hround; cases hround
    | ok found =>
      rw [hf, bind_ok] at hround
      split at hround
      · cases hs : dbRows st (within (selectionLength (BraidSearch.stats ord st) L) a.saveBest) with
        | error e => rw [hs] at hround; cases hround
        | ok saved =>
          rw [hs, bind_ok, h1, bind_ok] at hround
          cases hround; rfl
      · rw [bind_ok, h1, bind_ok] at hround
        cases hround; rfl
  set ts := ((BraidSearch.stats ord st).filter fun r => decide (r.1.1 ≤ L)).map Prod.fst with htsdef
  have htm : ∀ t ∈ ts, t.1 ≤ L := by
    intro t ht
    obtain ⟨r, hrm, rfl⟩ := List.mem_map.1 ht
    simpa using (List.mem_filter.1 hrm).2
  -- the whole round as a run
  have key : ∀ (bats : List (Bucketing.Batch NF d)) (st1 : State S NF d), run c st (bats.map Op.add) = .ok st1 →
      (∀ b ∈ bats, TrueBatch lim ω rep ρ b ∧ ∀ i, (b.braids i).power = 0) → st' = ts.foldl discardBucket st1 →
      ∀ x : NF, x.factors.length = m → (Stored st x ∨ x ∈ braidsOf bats) → Stored st' x := by
    intro bats st1 h1 h2 h3 x hx h4
    have hrun : run c st (bats.map Op.add ++ ts.map Op.discard) = .ok st' := by
      rw [run_append, h1, bind_ok, run_discards, h3]
    refine stored_run hd hp hc hcrit hr _ ?_ hrun hk hks hm ?_ hx ?_
    · intro b hb
      rcases List.mem_append.1 hb with hb | hb
      · obtain ⟨y, hy, e⟩ := List.mem_map.1 hb
        cases e; exact h2 _ hy
      · simp at hb
    · intro t ht
      rcases List.mem_append.1 ht with ht | ht
      · simp at ht
      · obtain ⟨u, hu, e⟩ := List.mem_map.1 ht
        cases e
        have := htm _ hu
        omega
    · rcases h4 with h4 | h4
      · exact .inl h4
      · obtain ⟨b, hb, hx'⟩ := List.mem_flatMap.1 h4
        obtain ⟨i, hi⟩ := List.mem_ofFn.1 hx'
        exact .inr ⟨b, i, by simp [hb], hi⟩
  obtain ⟨st1, bats, m1, m2, m3, m4, m5⟩ := moves_ext hn hl H hd hp hF hsz hc hstep _ hts hr hex
  rcases h with h | ⟨l, j, hl1, hlL, hlm, hfull, hj, hjs, hjB⟩
  · exact fun x x1 x2 x3 => key bats st1 m2 m3 (hstate st1 m1) x x3 (.inl (h x x1 x2 x3))
  · intro x x1 x2 x3
    refine key bats st1 m2 m3 (hstate st1 m1) x x3 (.inr ?_)
    have hne : x.factors ≠ [] := by intro e; rw [e] at x3; simp at x3; omega
    obtain ⟨l', f, e⟩ : ∃ l' f, x.factors = l' ++ [f] := ⟨x.factors.dropLast, x.factors.getLast hne, (List.dropLast_append_getLast hne).symm⟩
    have hxe : x = ⟨rep.n, 0, l' ++ [f]⟩ := by
      obtain ⟨t, R⟩ := exists_greal lim ω hn hl
      have := (R.isGNF_iff.1 x1).n_eq
      cases x; simp_all
    rw [hxe] at x1 ⊢
    obtain ⟨t, b, hb, hy⟩ := hfull ⟨rep.n, 0, l'⟩ (prefix_gnf hn hl x1) rfl (by rw [e] at x3; simp at x3; simp; omega)
    have htl : t.1 = l := by
      obtain ⟨q, q1, -, q3⟩ := hr.bucket hd hp hc (Dict.get?_of_mem hi.nodup hb)
      rw [q1.1] at hy
      obtain ⟨o', ho', e'⟩ := List.mem_map.1 hy
      have := (q3 o' ho').2.1
      rw [e'] at this
      rw [← this, NF.canonicalLength]
      rw [e] at x3; simp at x3; simp; omega
    refine m5 t ?_ b (Dict.get?_of_mem hi.nodup hb) _ hy f x1
    rw [← hlL, within_all hd hp hc hr hj hjs hjB ho]
    exact List.mem_map.2 ⟨(t, b.braids.length), (selLen_mem ho st _ _).2 ⟨htl, b, hb, rfl⟩, rfl⟩

theorem reduced_ne {p : Nat} {A : Img d} (h : ReducedMod p A) {e : Nat} (hne : slice A e () ≠ 0) : ∃ i j, ((slice A e () i j : ℤ) : ZMod p) ≠ 0 := by
  by_contra hc
  push Not at hc
  apply hne
  funext i j
  have he := lt_of_nz hne
  have := hc i j
  by_cases hp : p = 0
  · subst hp; exact this
  · rw [ZMod.intCast_zmod_eq_zero_iff_dvd _ p] at this
    rw [slice_lt A he] at this ⊢
    have h1 := h hp _ (List.getElem_mem he) () i j
    exact Int.eq_zero_of_dvd_of_nonneg_of_lt h1.1 h1.2 this

/-- The projectivised image of a near-kernel braid has one coefficient. -/
theorem width_one {p n : Nat} {τ : Braid n →* LMat p d} {β : Braid n} (h : NearKernel τ β) {A : Img d} (hA : IsProjImage p A fun _ => τ β) : A.length = 1 := by
  obtain ⟨k, M, hM⟩ := h
  obtain ⟨l, hl⟩ := hA.shift ()
  rw [hM, T_smul_smul] at hl
  have hc : ∀ (m : ℤ) i j, (if 0 ≤ m then ((slice A m.toNat () i j : ℤ) : ZMod p) else 0) = if m = l + k then M i j else 0 := by
    intro m i j
    rw [← coeff_denMod, hl, _root_.Matrix.smul_apply, smul_eq_mul, T, AddMonoidAlgebra.coeff_single_mul_apply, one_mul]
    show (C (M i j)).coeff _ = _
    rw [← LaurentPolynomial.single_eq_C, AddMonoidAlgebra.coeff_single, Finsupp.single_apply]
    by_cases hm : m = l + k
    · rw [if_pos (by omega), if_pos hm]
    · rw [if_neg (by omega), if_neg hm]
  have key : ∀ e, slice A e () ≠ 0 → (e : ℤ) = l + k := by
    intro e he
    obtain ⟨i, j, hij⟩ := reduced_ne hA.reduced he
    have := hc e i j
    rw [if_pos (by omega)] at this
    by_contra hne
    rw [if_neg hne] at this
    exact hij (by simpa using this)
  have h0 := key 0 (hA.first ())
  obtain ⟨a, ha⟩ := hA.last
  have h1 := key (A.length - 1) ha
  have := lt_of_nz (hA.first ())
  omega

/-- Stored near-kernel braids are reported. -/
theorem round_found (hn : 2 ≤ rep.n) (hl : rep.n < lim) (H : SummandRealises rep ρ) (hd : 0 < d) (hp : rep.p ≠ 1) (hF : FullTwistScalar ρ)
    (hsz : 1 ≤ c.size) (hc : c.length = NF.canonicalLength) (a : Args) {ord : List Row → List Row} (ho : ∀ l, (ord l).Perm l) {L : ℤ}
    {st st' : State S NF d} (hr : Reach lim ω rep ρ c (fun x => x.power = 0) st) {out : Out}
    (hround : round (GNF.tbl lim ω) a rep c ord L st = .ok (out, st')) {x : NF} (hx : Stored st x) (hk : NearKernel ρ (gnfBraid rep.n x)) :
    (x.power, x.factors.map fun f => wordOf (permAt rep.n f)) ∈ out.found := by
  obtain ⟨out', st1, e1, -, -, -, -, e6, -⟩ := round_spec hn hl H hd hp hF hsz hc a ho L hr
  rw [hround] at e1; cases e1
  obtain ⟨log, hi⟩ := hr.inv
  obtain ⟨t, b, hb, hxb⟩ := hx
  rw [e6.mem_iff]
  refine List.mem_flatMap.2 ⟨(t, b), List.mem_filter.2 ⟨hb, ?_⟩, List.mem_map.2 ⟨x, hxb, rfl⟩⟩
  obtain ⟨l, l1, -, l3⟩ := hr.bucket hd hp hc (Dict.get?_of_mem hi.nodup hb)
  rw [l1.1] at hxb
  obtain ⟨o, ho, rfl⟩ := List.mem_map.1 hxb
  obtain ⟨g1, -, g3, -⟩ := l3 o ho
  rw [width_one hk g1.2] at g3
  simpa using g3.symm

theorem loop_complete (hn : 2 ≤ rep.n) (hl : rep.n < lim) (H : SummandRealises rep ρ) (hd : 0 < d) (hp : rep.p ≠ 1) (hF : FullTwistScalar ρ)
    (hsz : 1 ≤ c.size) (hc : c.length = NF.canonicalLength) (hcrit : ∀ L rows i, 1 ≤ (rows i).length → c.criterion L rows i = true)
    (a : Args) (hstep : 1 ≤ a.stepSize) {ord : ℤ → List Row → List Row} (ho : ∀ L l, (ord L l).Perm l) {M B : Nat} (hB : 1 ≤ B)
    (hM : ∀ m, 1 ≤ m → m ≤ M → ∃ k, AtMost lim ω rep.n k m ∧ k < c.size ∧ (k : ℤ) ≤ a.useBest) :
    ∀ (N : Nat) (s : ℤ) {st st' : State S NF d} {outs : List (ℤ × Out)}, Reach lim ω rep ρ c (fun x => x.power = 0) st →
      (∀ m : Nat, 1 ≤ m → m ≤ M → s ≤ m → (m ≤ B ∨ (m : ℤ) ≤ s) → Full lim ω rep.n st m) →
      loop (GNF.tbl lim ω) a rep c ord ((List.range N).map fun i : Nat => s + i) st = .ok (outs, st') →
      ∀ o ∈ outs, ∀ x, IsGNF lim ω rep.n x → x.power = 0 → 1 ≤ x.factors.length → x.factors.length ≤ M → (x.factors.length : ℤ) = o.1 →
        NearKernel ρ (gnfBraid rep.n x) → (x.power, x.factors.map fun f => wordOf (permAt rep.n f)) ∈ o.2.found
  | 0, s, st, st', outs, _, _, h => by cases h; simp
  | N + 1, s, st, st', outs, hr, hfull, h => by
    rw [List.range_succ_eq_map, List.map_cons, List.map_map, Search.loop] at h
    obtain ⟨out, st1, e1, e2, -⟩ := round_spec hn hl H hd hp hF hsz hc a (ho (s + (0 : Nat))) (s + (0 : Nat)) hr
    rw [e1, bind_ok] at h
    simp only [Nat.cast_zero, add_zero] at h e1
    have hhead : ∀ x, IsGNF lim ω rep.n x → x.power = 0 → 1 ≤ x.factors.length → x.factors.length ≤ M → (x.factors.length : ℤ) = s →
        NearKernel ρ (gnfBraid rep.n x) → (x.power, x.factors.map fun f => wordOf (permAt rep.n f)) ∈ out.found := by
      intro x x1 x2 x3 x4 x5 x6
      exact round_found hn hl H hd hp hF hsz hc a (ho s) hr e1 (hfull _ x3 x4 (by omega) (.inr (by omega)) x x1 x2 rfl) x6
    split at h
    · cases h
      intro o ho'
      obtain rfl := List.mem_singleton.1 ho'
      exact hhead
    · cases hrest : loop (GNF.tbl lim ω) a rep c ord ((List.range N).map ((fun i : Nat => s + (i : ℤ)) ∘ Nat.succ)) st1 with
      | error e => rw [hrest] at h; cases h
      | ok rest =>
        rw [hrest, bind_ok] at h
        cases h
        intro o ho'
        rcases List.mem_cons.1 ho' with rfl | ho'
        · exact hhead
        · have hrest' : loop (GNF.tbl lim ω) a rep c ord ((List.range N).map fun i : Nat => (s + 1) + (i : ℤ)) st1 = .ok (rest.1, rest.2) := by
            rw [← hrest]; congr 1
            apply List.map_congr_left
            intro i _
            simp only [Function.comp]; push_cast; ring
          refine loop_complete hn hl H hd hp hF hsz hc hcrit a hstep ho hB hM N (s + 1) e2 ?_ hrest' o ho'
          intro m m1 m2 m3 m4
          obtain ⟨k, k1, k2, -⟩ := hM m m1 m2
          refine round_full hn hl H hd hp hF hsz hc hcrit a hstep (ho s) hr e1 m1 (by omega) k1 k2 ?_
          by_cases hmB : m ≤ B
          · exact .inl (hfull m m1 m2 (by omega) (.inl hmB))
          · right
            have hs : s = ((m - 1 : Nat) : ℤ) := by omega
            obtain ⟨j, j1, j2, j3⟩ := hM (m - 1) (by omega) (by omega)
            exact ⟨m - 1, j, by omega, hs.symm, by omega, hfull (m - 1) (by omega) (by omega) (by omega) (.inr (by omega)), j1, j2, j3⟩

/-- After the bootstrap everything up to its length is stored. -/
theorem bootstrap_full (hn : 2 ≤ rep.n) (hl : rep.n < lim) (H : SummandRealises rep ρ) (hd : 0 < d) (hp : rep.p ≠ 1) (hF : FullTwistScalar ρ)
    (hsz : 1 ≤ c.size) (hc : c.length = NF.canonicalLength) (hcrit : ∀ L rows i, 1 ≤ (rows i).length → c.criterion L rows i = true) (B : Nat) (s : S)
    {st : State S NF d} (hb : bootstrapExhaustive (GNF.tbl lim ω) rep c (State.init s) B = .ok st) :
    Reach lim ω rep ρ c (fun x => x.power = 0) st ∧
    ∀ m k, 1 ≤ m → m ≤ B → AtMost lim ω rep.n k m → k < c.size → Full lim ω rep.n st m := by
  have h0 : Reach lim ω rep ρ c (fun x => x.power = 0) (State.init s) := ⟨s, [], by simp, rfl⟩
  obtain ⟨st2, bats, b1, b2, b3, -, b5⟩ := bootstrap_spec (c := c) hn hl H hd hp hF hsz B h0
  rw [hb] at b1; cases b1
  have hadd : ∀ b, Op.add b ∈ bats.map Op.add → TrueBatch lim ω rep ρ b ∧ ∀ i, (b.braids i).power = 0 := by
    intro b hb''
    obtain ⟨x, hx, e⟩ := List.mem_map.1 hb''
    cases e; exact b3 _ hx
  refine ⟨h0.append _ hadd b2, fun m k m1 m2 hk hks x x1 x2 x3 => ?_⟩
  refine stored_run hd hp hc hcrit h0 _ hadd b2 hk hks m1 (by simp) x3 (.inr ?_)
  have := (b5 x).2 ⟨x1, x2, by omega, by omega⟩
  obtain ⟨b, hb, hx'⟩ := List.mem_flatMap.1 this
  obtain ⟨i, hi⟩ := List.mem_ofFn.1 hx'
  exact ⟨b, i, by simp [hb], hi⟩

end Search
end Peyl
