import Verif.Spec.Descend
import Verif.Lemmas.SummandEval
/-!
# Histories of a search offer true images
-/
namespace Peyl
open LaurentPolynomial Polymat Perms
namespace BraidSearch
variable {S : Type} {d : Nat} {rep : Summand d} {ρ : Braid rep.n →* LMat rep.p d} {lim : Nat} {ω : List Nat → List Nat → Nat → Nat}

theorem TrueBatch.valid {b : Bucketing.Batch NF d} (h : TrueBatch lim ω rep ρ b) : Valid b := by
  constructor
  · intro e
    apply h.first ⟨0, h.pos⟩
    rw [e]; rfl
  · intro i
    by_contra hc
    push Not at hc
    exact h.first i (by funext r s; exact hc r s)

theorem TrueBatch.of_image {b : Bucketing.Batch NF d} (hp : 0 < b.len) (hg : ∀ i, IsGNF lim ω rep.n (b.braids i))
    (hi : IsProjImage rep.p b.images fun i => ρ (gnfBraid rep.n (b.braids i))) : TrueBatch lim ω rep ρ b :=
  ⟨hp, hg, hi.first, hi.reduced, hi.shift⟩

theorem imgAt_image {p L n : Nat} {ρ : Braid n →* LMat p d} (hd : 0 < d) (hp : p ≠ 1) {A : PArr (Fin L) d d} {M : Fin L → Braid n}
    (hr : ReducedMod p A) (hs : UpToShift p A fun i => ρ (M i)) (i : Fin L) :
    ∃ P, projectivise (imgAt A i) = .ok P ∧ IsProjImage p P fun _ => ρ (M i) := by
  refine project_spec (M := fun _ => ρ (M i)) (fun u => ?_) ?_ fun _ => RepBase.rho_ne ρ hd hp _
  · obtain ⟨k, hk⟩ := hs i
    exact ⟨k, by rw [← hk]; exact denMod_of_den (Bucketing.den_imgAt A i)⟩
  · intro hp S hS a r s
    obtain ⟨S', hS', rfl⟩ := List.mem_map.1 hS
    exact hr hp S' hS' i r s

theorem keptOf_true (hd : 0 < d) (hp : rep.p ≠ 1) (c : Config S NF d) {b : Bucketing.Batch NF d} (h : TrueBatch lim ω rep ρ b) :
    ∀ o ∈ keptOf c b, TrueOffer lim ω rep ρ o.2 ∧ o.1.1 = (c.length o.2.braid : ℤ) ∧ ∃ i, o.2.braid = b.braids i := by
  obtain ⟨s, pl, e1, e2⟩ := stats_ok c b h.valid
  intro o ho
  rw [keptOf, e1, e2] at ho
  obtain ⟨i, -, rfl⟩ := List.mem_map.1 ho
  obtain ⟨P, h1, h2⟩ := imgAt_image (ρ := ρ) hd hp h.reduced h.shift i
  exact ⟨⟨h.gnf i, by rw [projOf_ok h1]; exact h2⟩, rfl, i, rfl⟩

theorem offeredSince_all (c : Config S NF d) (t : Tag) (Q : Offer NF d → Prop) : ∀ (ops : List (Op NF d)) (acc : List (Offer NF d)),
    (∀ b, Op.add b ∈ ops → ∀ o ∈ keptOf c b, o.1 = t → Q o.2) → (∀ o ∈ acc, Q o) → ∀ o ∈ offeredSince c t acc ops, Q o
  | [], acc, _, ha => ha
  | .add b :: ops, acc, h, ha => by
    rw [offeredSince]
    refine offeredSince_all c t Q ops _ (fun b' hb' => h b' (by simp [hb'])) fun o ho => ?_
    rcases List.mem_append.1 ho with ho | ho
    · exact ha o ho
    · obtain ⟨x, hx, hxo⟩ := List.mem_filterMap.1 ho
      split at hxo
      · next e => cases hxo; exact h b (by simp) x hx e
      · cases hxo
  | .discard t' :: ops, acc, h, ha => by
    rw [offeredSince]
    refine offeredSince_all c t Q ops _ (fun b' hb' => h b' (by simp [hb'])) fun o ho => ?_
    split at ho
    · cases ho
    · exact ha o ho

theorem run_append (c : Config S NF d) : ∀ (ops ops' : List (Op NF d)) (st : State S NF d),
    run c st (ops ++ ops') = (run c st ops >>= fun st' => run c st' ops')
  | [], ops', st => rfl
  | .add b :: ops, ops', st => by
    rw [List.cons_append, run, run]
    cases addBraidsImages c st b with
    | error e => rfl
    | ok st1 => exact run_append c ops ops' st1
  | .discard t :: ops, ops', st => run_append c ops ops' (discardBucket st t)

variable {c : Config S NF d} {Q : NF → Prop}

theorem Reach.inv {st : State S NF d} (h : Reach lim ω rep ρ c Q st) : ∃ log, Inv c log st := by
  obtain ⟨s, ops, -, h2⟩ := h
  exact ⟨_, run_inv c ops (inv_init c s) h2⟩

theorem Reach.append {st st' : State S NF d} (h : Reach lim ω rep ρ c Q st) (ops : List (Op NF d))
    (hops : ∀ b, Op.add b ∈ ops → TrueBatch lim ω rep ρ b ∧ ∀ i, Q (b.braids i)) (hr : run c st ops = .ok st') : Reach lim ω rep ρ c Q st' := by
  obtain ⟨s, ops0, h1, h2⟩ := h
  refine ⟨s, ops0 ++ ops, fun b hb => ?_, by rw [run_append, h2]; exact hr⟩
  rcases List.mem_append.1 hb with hb | hb
  · exact h1 b hb
  · exact hops b hb

theorem Reach.bucket (hd : 0 < d) (hp : rep.p ≠ 1) (hc : c.length = NF.canonicalLength) {st : State S NF d} (h : Reach lim ω rep ρ c Q st)
    {t : Tag} {b : Bucket NF d} (hb : Dict.get? st.buckets t = some b) : ∃ l, Holds b l ∧ l ≠ [] ∧
    ∀ o ∈ l, TrueOffer lim ω rep ρ o ∧ (NF.canonicalLength o.braid : ℤ) = t.1 ∧ (o.image.length : ℤ) = t.2 ∧ Q o.braid := by
  obtain ⟨s, ops, h1, h2⟩ := h
  have hi := run_inv c ops (inv_init c s) h2
  obtain ⟨k, l, -, hl⟩ := hi.some t b hb
  refine ⟨l, ⟨hl.hb, hl.hi⟩, hl.ne, fun o ho => ?_⟩
  have := offeredSince_all c t (fun o => TrueOffer lim ω rep ρ o ∧ (NF.canonicalLength o.braid : ℤ) = t.1 ∧ Q o.braid) ops [] (by
    intro b hb o ho e
    obtain ⟨k1, k2, i, k3⟩ := keptOf_true hd hp c (h1 b hb).1 o ho
    refine ⟨k1, ?_, by rw [k3]; exact (h1 b hb).2 i⟩
    rw [← e, k2, hc]) (by simp) o (hl.sub.subset ho)
  exact ⟨this.1, this.2.1, by rw [hl.iw o ho]; exact hl.wd, this.2.2⟩

theorem Reach.sound (hd : 0 < d) (hp : rep.p ≠ 1) (hc : c.length = NF.canonicalLength) {st : State S NF d} (h : Reach lim ω rep ρ c Q st) :
    Sound lim ω rep ρ st := by
  intro t b hb
  obtain ⟨log, hi⟩ := h.inv
  obtain ⟨l, h1, h2, h3⟩ := h.bucket hd hp hc (Dict.get?_of_mem hi.nodup hb)
  exact ⟨l, h1, h2, fun o ho => ⟨(h3 o ho).1, (h3 o ho).2.1, (h3 o ho).2.2.1⟩⟩

theorem step_other {st st' : State S NF d} {tag t : Tag} {x : NF} {A : Img d} (h : step c st tag x A = .ok st') (ht : tag ≠ t) :
    Dict.get? st'.buckets t = Dict.get? st.buckets t := by
  have key : ∀ (st1 : State S NF d) (b : Bucket NF d), st1.buckets = Dict.set st.buckets tag b → Dict.get? st1.buckets t = Dict.get? st.buckets t := by
    intro st1 b e
    rw [e, Dict.get?_set, if_neg ht]
  rw [step] at h
  cases hg : Dict.get? st.buckets tag with
  | none =>
    simp only [hg] at h
    cases hp : projectivise A with
    | error e => rw [hp] at h; cases h
    | ok P =>
      rw [hp, bind_ok] at h
      split at h
      · cases h
      · cases h; exact key _ _ rfl
  | some b =>
    simp only [hg] at h
    cases hk : Dict.get st.counts tag with
    | error e => rw [hk] at h; cases h
    | ok k =>
      rw [hk, bind_ok] at h
      split at h
      · split at h
        · cases h; rfl
        · next g _ =>
          cases hj : g.draw st.rng (k + 1) with
          | error e => rw [hj] at h; cases h
          | ok js =>
            rw [hj, bind_ok] at h
            split at h
            · cases hp : projectivise A with
              | error e => rw [hp] at h; cases h
              | ok P =>
                rw [hp, bind_ok] at h
                cases ha : assignImg b.width P with
                | error e => rw [ha] at h; cases h
                | ok P' => rw [ha, bind_ok] at h; cases h; exact key _ _ rfl
            · cases h; rfl
      · split at h
        · cases h; rfl
        · cases hp : projectivise A with
          | error e => rw [hp] at h; cases h
          | ok P =>
            rw [hp, bind_ok] at h
            cases ha : assignImg b.width P with
            | error e => rw [ha] at h; cases h
            | ok P' => rw [ha, bind_ok] at h; cases h; exact key _ _ rfl

theorem feed_other (t : Tag) : ∀ (rs : List (Raw NF d)) {st st' : State S NF d}, feed c st rs = .ok st' → (∀ r ∈ rs, r.1 ≠ t) →
    Dict.get? st'.buckets t = Dict.get? st.buckets t
  | [], st, st', h, _ => by cases h; rfl
  | r :: rs, st, st', h, hr => by
    rw [feed, List.foldlM_cons] at h
    cases hs : step c st r.1 r.2.1 r.2.2 with
    | error e => rw [hs] at h; cases h
    | ok st1 =>
      rw [hs, bind_ok] at h
      rw [feed_other t rs h fun r' hr' => hr r' (List.mem_cons_of_mem _ hr'), step_other hs (hr r List.mem_cons_self)]

theorem add_other {st st' : State S NF d} {b : Bucketing.Batch NF d} {t : Tag} (h : addBraidsImages c st b = .ok st')
    (ht : ∀ i, (c.length (b.braids i) : ℤ) ≠ t.1) : Dict.get? st'.buckets t = Dict.get? st.buckets t := by
  refine feed_other t _ (add_eq_feed c st st' b h) fun r hr => ?_
  rw [rawOf] at hr
  cases h1 : braidImageStats c b with
  | error e => rw [h1] at hr; cases hr
  | ok s =>
    cases h2 : projlen b.images with
    | error e => rw [h1, h2] at hr; cases hr
    | ok pl =>
      rw [h1, h2] at hr
      obtain ⟨i, -, rfl⟩ := List.mem_map.1 hr
      intro e
      exact ht i (congrArg Prod.fst e)

/-- A pair (index, braid, suffix) of `nf_descendants` for a bucket holding `l`. -/
structure GoodPair (lim : Nat) (ω : List Nat → List Nat → Nat → Nat) (n : Nat) (l : List (Offer NF d)) (k : Nat) (x : Nat × NF × NF) : Prop where
  at_ : ∃ h : x.1 < l.length, l[x.1].braid = x.2.1
  suf : IsGNF lim ω n x.2.2
  pow : x.2.2.power = 0
  len : x.2.2.factors.length = k
  cat : IsGNF lim ω n ⟨n, 0, x.2.1.factors ++ x.2.2.factors⟩

/-- The product of the braid with the first `i + 1` factors of the suffix. -/
def extBy (n i : Nat) (x : Nat × NF × NF) : NF := ⟨n, 0, x.2.1.factors ++ x.2.2.factors.take (i + 1)⟩

theorem foldlM_list {σ α : Type} (f : σ → α → Except Err σ) (P : List α → σ → Prop) (l : List α) (s0 : σ) (h0 : P [] s0)
    (hs : ∀ xs x ys, l = xs ++ x :: ys → ∀ s, P xs s → ∃ s', f s x = .ok s' ∧ P (xs ++ [x]) s') : ∃ s, l.foldlM f s0 = .ok s ∧ P l s := by
  induction l using List.reverseRecOn with
  | nil => exact ⟨s0, rfl, h0⟩
  | append_singleton l x ih =>
    obtain ⟨s, h1, h2⟩ := ih fun xs y ys e => hs xs y (ys ++ [x]) (by rw [e]; simp)
    obtain ⟨s', h3, h4⟩ := hs l x [] rfl s h2
    exact ⟨s', by rw [List.foldlM_append, h1, bind_ok, List.foldlM_cons, h3, bind_ok]; rfl, h4⟩

theorem prefix_gnf {n : Nat} (hn : 2 ≤ n) (hl : n < lim) {l w : List Nat} {e e' : ℤ} (h : IsGNF lim ω n ⟨n, e, l ++ w⟩) : IsGNF lim ω n ⟨n, e', l⟩ := by
  obtain ⟨t, R⟩ := exists_greal lim ω hn hl
  rw [R.isGNF_iff] at h ⊢
  rw [R.1.valid_iff] at h ⊢
  simp only [TableSpec.InR_append, List.map_append, List.mem_append] at h ⊢
  exact ⟨trivial, h.2.1.1, List.IsChain.left_of_append h.2.2.1, fun f hf => h.2.2.2 f (Or.inl hf)⟩

theorem ext_ok {n : Nat} (hn : 2 ≤ n) (hl : n < lim) {l : List (Offer NF d)} {k : Nat} {x : Nat × NF × NF} (hx : GoodPair lim ω n l k x)
    (hg : IsGNF lim ω n x.2.1) (hp : x.2.1.power = 0) {i : Nat} (hi : i < k) :
    IsGNF lim ω n (extBy n i x) ∧ (NF.substring (GNF.tbl lim ω) x.2.2 0 (i + 1) >>= fun s => NF.mul (GNF.tbl lim ω) x.2.1 s) = .ok (extBy n i x) ∧
      gnfBraid n (extBy n i x) = gnfBraid n x.2.1 * prefixBraid n (i + 1) x.2.2 := by
  have h1 : IsGNF lim ω n (extBy n i x) := by
    refine prefix_gnf hn hl (e := 0) (w := x.2.2.factors.drop (i + 1)) ?_
    rw [List.append_assoc, List.take_append_drop]; exact hx.cat
  obtain ⟨t, R⟩ := exists_greal lim ω hn hl
  have hxn : x.2.2.n = n := (R.isGNF_iff.1 hx.suf).n_eq
  have h2 : IsGNF lim ω n ⟨n, 0, x.2.2.factors.take (i + 1)⟩ := by
    rw [R.isGNF_iff] at h1 ⊢
    exact R.1.valid_suffix h1
  have hsub : NF.substring (GNF.tbl lim ω) x.2.2 0 (i + 1) = .ok ⟨n, 0, x.2.2.factors.take (i + 1)⟩ := by
    have h3 : i + 1 ≤ x.2.2.factors.length := by rw [hx.len]; omega
    unfold NF.substring
    rw [show (decide (0 ≤ i + 1) && decide (i + 1 ≤ x.2.2.factors.length)) = true by simp [h3], hxn, hx.pow]
    exact h2.2
  refine ⟨h1, ?_, ?_⟩
  · rw [hsub, bind_ok, (R.1.mul_concat_iff (R.isGNF_iff.1 hg) (R.isGNF_iff.1 h2) rfl).2 (by rw [hp]; exact R.isGNF_iff.1 h1), hp]; rfl
  · rw [gnfBraid, gnfBraid, prefixBraid, hx.pow, hp]
    simp [extBy]

theorem cast_image {p L L' : Nat} (h : L = L') {A : PArr (Fin L) d d} {M : Fin L → LMat p d} (hA : UpToShift p A M) :
    UpToShift p (A.map fun S (j : Fin L') => S (Fin.cast h.symm j)) fun j => M (Fin.cast h.symm j) := by
  subst h
  simpa using hA

theorem descendChunk_spec (hn : 2 ≤ rep.n) (hl : rep.n < lim) (H : SummandRealises rep ρ) (hd : 0 < d) (hp : rep.p ≠ 1) (hF : FullTwistScalar ρ)
    (hsz : 1 ≤ c.size) (hc : c.length = NF.canonicalLength) {t : Tag} {b : Bucket NF d} {l : List (Offer NF d)} (hh : Holds b l)
    (htrue : ∀ o ∈ l, TrueOffer lim ω rep ρ o ∧ (NF.canonicalLength o.braid : ℤ) = t.1 ∧ o.braid.power = 0)
    {k : Nat} {pairs : List (Nat × NF × NF)} (hne : pairs ≠ []) (hpairs : ∀ x ∈ pairs, GoodPair lim ω rep.n l k x)
    {st : State S NF d} (hQ : ∀ x : NF, x.power = 0 → Q x) (hr : Reach lim ω rep ρ c Q st) (hb : Dict.get? st.buckets t = some b) :
    ∃ st' bats, descendChunk (GNF.tbl lim ω) rep c t k st pairs = .ok st' ∧ run c st (bats.map Op.add) = .ok st' ∧
      (∀ b' ∈ bats, TrueBatch lim ω rep ρ b' ∧ ∀ i, (b'.braids i).power = 0) ∧
      braidsOf bats = (List.range k).flatMap (fun i => pairs.map (extBy rep.n i)) ∧ Dict.get? st'.buckets t = some b := by
  have hL : 0 < pairs.length := List.length_pos_iff.2 hne
  have hbr : ∀ x ∈ pairs, IsGNF lim ω rep.n x.2.1 ∧ x.2.1.power = 0 ∧ (NF.canonicalLength x.2.1 : ℤ) = t.1 := by
    intro x hx
    obtain ⟨h1, h2⟩ := (hpairs x hx).at_
    have := htrue _ (List.getElem_mem h1)
    rw [h2] at this
    exact ⟨h2 ▸ this.1.1, this.2.2, this.2.1⟩
  -- the left images
  obtain ⟨lefts, l1, l2, l3⟩ := mapM_spec (fun x : Nat × NF × NF => lookup b.images x.1) (fun x A => IsProjImage rep.p A fun _ => ρ (gnfBraid rep.n x.2.1)) pairs (by
    intro x hx
    obtain ⟨h1, h2⟩ := (hpairs x hx).at_
    have hlen : l.length ≤ b.images.length := by
      have := congrArg List.length hh.2
      rw [List.length_take, List.length_map] at this; omega
    have h3 : b.images[x.1]'(by omega) = l[x.1].image := by
      have : (b.images.take l.length)[x.1]'(by rw [List.length_take]; omega) = (l.map Offer.image)[x.1]'(by simpa using h1) := by
        simp only [hh.2]
      simpa using this
    refine ⟨_, lookup_lt (by omega), ?_⟩
    rw [h3, ← h2]
    exact (htrue _ (List.getElem_mem h1)).1.2)
  obtain ⟨left, le1, -, le3, -⟩ := RepBase.packN_image (p := rep.p) hL lefts l2 (fun i => ρ (gnfBraid rep.n (pairs[i.1]'i.2).2.1)) (by
    intro i hi
    have := l3 i (by omega)
    exact ⟨⟨this.first, this.last⟩, this.shift⟩)
  have le1' : packL pairs.length lefts = .ok left := le1
  -- the right images
  obtain ⟨rights, r1, r2, r3⟩ := evalPrefixes_spec hn hl H hd hp hF (pairs.map fun x => x.2.2) (by simpa using hne) k (by
    intro y hy
    obtain ⟨x, hx, rfl⟩ := List.mem_map.1 hy
    exact ⟨(hpairs x hx).suf, (hpairs x hx).len⟩)
  have hg : Dict.get st.buckets t = .ok b := by rw [Dict.get, hb]
  obtain ⟨st', f1, bats, f2, f3, f4, f5⟩ := foldlM_range (fun st i => do
      let right ← lookup rights (i + 1)
      let images ← rep.mulL left (right.map fun S (j : Fin pairs.length) => S (Fin.cast (by simp) j))
      let prods ← pairs.mapM fun x => do NF.mul (GNF.tbl lim ω) x.2.1 (← NF.substring (GNF.tbl lim ω) x.2.2 0 (i + 1))
      addBraidsImages c st { len := pairs.length, braids := fun j => prods.getD j ⟨0, 0, []⟩, images := images })
    (fun i st' => ∃ bats : List (Bucketing.Batch NF d), run c st (bats.map Op.add) = .ok st' ∧
      (∀ b' ∈ bats, TrueBatch lim ω rep ρ b' ∧ ∀ i, (b'.braids i).power = 0) ∧
      braidsOf bats = (List.range i).flatMap (fun i => pairs.map (extBy rep.n i)) ∧ Dict.get? st'.buckets t = some b) k st
    ⟨[], rfl, by simp, rfl, hb⟩ (by
      rintro i hi st1 ⟨bats, b1, b2, b3, b4⟩
      haveI : Nonempty (Fin pairs.length) := ⟨⟨0, hL⟩⟩
      have hcast : (pairs.map fun x => x.2.2).length = pairs.length := by simp
      obtain ⟨images, m1, m2⟩ := polymatMul_spec (p := rep.p) (fun j : Fin pairs.length => j) (fun j => j) le3
        (cast_image hcast (r3 (i + 1) (by omega)).shift) (by
          intro j
          rw [← map_mul]; exact RepBase.rho_ne ρ hd hp _)
      have m1' : rep.mulL left (rights[i + 1].map fun S (j : Fin pairs.length) => S (Fin.cast hcast.symm j)) = .ok images := m1
      obtain ⟨prods, p1, p2, p3⟩ := mapM_spec (fun x : Nat × NF × NF => do NF.mul (GNF.tbl lim ω) x.2.1 (← NF.substring (GNF.tbl lim ω) x.2.2 0 (i + 1)))
        (fun x y => y = extBy rep.n i x) pairs (fun x hx => ⟨_, (ext_ok hn hl (hpairs x hx) (hbr x hx).1 (hbr x hx).2.1 hi).2.1, rfl⟩)
      have hprods : prods = pairs.map (extBy rep.n i) := List.ext_getElem (by simp [p2]) fun j h1 h2 => by
        rw [p3 j (by simpa using h2), List.getElem_map]
      set b' : Bucketing.Batch NF d := { len := pairs.length, braids := fun j => prods.getD j ⟨0, 0, []⟩, images := images } with hb'
      have hbraids : ∀ j : Fin pairs.length, b'.braids j = extBy rep.n i (pairs[j.1]'j.2) := by
        intro j
        show prods.getD j ⟨0, 0, []⟩ = _
        rw [hprods, List.getD_eq_getElem?_getD, List.getElem?_eq_getElem (by simp), Option.getD_some, List.getElem_map]
      have hbt : TrueBatch lim ω rep ρ b' := by
        refine TrueBatch.of_image hL (fun j => ?_) (m2.congr fun j => ⟨0, ?_⟩)
        · rw [hbraids j]
          have hx := List.getElem_mem j.2
          exact (ext_ok hn hl (hpairs _ hx) (hbr _ hx).1 (hbr _ hx).2.1 hi).1
        · have hx := List.getElem_mem j.2
          rw [hbraids j, (ext_ok hn hl (hpairs _ hx) (hbr _ hx).1 (hbr _ hx).2.1 hi).2.2, map_mul, T_zero, one_smul]
          simp
      have hr1 := hr.append (bats.map Op.add) (fun b'' hb'' => by
        obtain ⟨x, hx, e⟩ := List.mem_map.1 hb''
        cases e; exact ⟨(b2 _ hx).1, fun i => hQ _ ((b2 _ hx).2 i)⟩) b1
      obtain ⟨log, hlog⟩ := hr1.inv
      obtain ⟨st2, a1⟩ := add_ok c hsz hlog b' hbt.valid
      refine ⟨st2, ?_, bats ++ [b'], ?_, ?_, ?_, ?_⟩
      · rw [lookup_lt (by omega), bind_ok, m1', bind_ok, p1, bind_ok]; exact a1
      · rw [List.map_append, run_append, b1, bind_ok]
        show run c st1 [Op.add b'] = _
        rw [run, a1]; rfl
      · intro b'' hb''
        rcases List.mem_append.1 hb'' with hb'' | hb''
        · exact b2 _ hb''
        · obtain rfl := List.mem_singleton.1 hb''
          exact ⟨hbt, fun j => by rw [hbraids j]; rfl⟩
      · rw [braidsOf, List.flatMap_append, List.range_succ, List.flatMap_append]
        congr 1
        simp only [List.flatMap_cons, List.flatMap_nil, List.append_nil]
        refine List.ext_getElem (by simp [hb']) fun j h1 h2 => ?_
        rw [List.getElem_ofFn, List.getElem_map]
        exact hbraids ⟨j, by simpa using h2⟩
      · rw [add_other a1 (fun j => ?_), b4]
        have hx := List.getElem_mem j.2
        have h1 := (hbr _ hx).2.2
        rw [hbraids j, hc, ← h1]
        simp only [extBy, NF.canonicalLength, List.length_append, List.length_take, (hpairs _ hx).len]
        omega)
  refine ⟨st', bats, ?_, f2, f3, f4, f5⟩
  rw [descendChunk, hg, bind_ok, l1, bind_ok, le1', bind_ok, r1, bind_ok]
  exact f1

theorem nfDescendants_spec_gen (hn : 2 ≤ rep.n) (hl : rep.n < lim) (H : SummandRealises rep ρ) (hd : 0 < d) (hp : rep.p ≠ 1) (hF : FullTwistScalar ρ)
    (hsz : 1 ≤ c.size) (hc : c.length = NF.canonicalLength) {t : Tag} {b : Bucket NF d} (k : Nat)
    {st : State S NF d} (hQ : ∀ x : NF, x.power = 0 → Q x) (hr : Reach lim ω rep ρ c Q st) (hb : Dict.get? st.buckets t = some b) (hpow : ∀ x ∈ b.braids, x.power = 0) :
    ∃ st' bats, nfDescendants (GNF.tbl lim ω) rep c st t k = .ok st' ∧ run c st (bats.map Op.add) = .ok st' ∧
      (∀ b' ∈ bats, TrueBatch lim ω rep ρ b' ∧ ∀ i, (b'.braids i).power = 0) ∧
      Dict.get? st'.buckets t = some b ∧
      ∃ W : NF → List (List Nat), (∀ x ∈ b.braids, (W x).Nodup ∧ ∀ w, w ∈ W x ↔ w.length = k ∧ IsGNF lim ω rep.n ⟨rep.n, 0, x.factors ++ w⟩) ∧
        (braidsOf bats).Perm ((List.range k).flatMap fun i => b.braids.flatMap fun x => (W x).map fun w => ⟨rep.n, 0, x.factors ++ w.take (i + 1)⟩) := by
  obtain ⟨tab, R⟩ := exists_greal lim ω hn hl
  obtain ⟨l, hh, hlne, htrue0⟩ := hr.bucket hd hp hc hb
  have htrue : ∀ o ∈ l, TrueOffer lim ω rep ρ o ∧ (NF.canonicalLength o.braid : ℤ) = t.1 ∧ (o.image.length : ℤ) = t.2 ∧ o.braid.power = 0 := fun o ho =>
    ⟨(htrue0 o ho).1, (htrue0 o ho).2.1, (htrue0 o ho).2.2.1, hpow _ (by rw [hh.1]; exact List.mem_map.2 ⟨o, ho, rfl⟩)⟩
  -- the suffixes
  have hsuf : ∀ x, ∃ ys : List NF, x ∈ b.braids → NF.nfSuffixes (GNF.tbl lim ω) x k = .ok ys ∧ ys.Nodup ∧
      (∀ y, y ∈ ys ↔ IsGNF lim ω rep.n y ∧ y.power = 0 ∧ y.factors.length = k ∧ IsGNF lim ω rep.n ⟨rep.n, 0, x.factors ++ y.factors⟩) := by
    intro x
    by_cases hx : x ∈ b.braids
    · rw [hh.1] at hx
      obtain ⟨o, ho, rfl⟩ := List.mem_map.1 hx
      obtain ⟨ys, y1, y2, y3⟩ := R.1.nfSuffixes_spec (R.isGNF_iff.1 (htrue o ho).1.1) k
      have h0 := (htrue o ho).2.2.2
      exact ⟨ys, fun _ => ⟨y1, y2, fun y => by rw [y3, R.isGNF_iff, R.isGNF_iff, h0]⟩⟩
    · exact ⟨[], fun h => absurd h hx⟩
  choose Y hY using hsuf
  obtain ⟨all, a1, a2, a3⟩ := mapM_spec (fun xi : NF × Nat => do
      let ss ← NF.nfSuffixes (GNF.tbl lim ω) xi.1 k
      .ok (ss.map fun s => (xi.2, xi.1, s))) (fun xi ps => ps = (Y xi.1).map fun s => (xi.2, xi.1, s)) b.braids.zipIdx (by
    intro xi hxi
    have hm : xi.1 ∈ b.braids := by
      have := List.mem_zipIdx (x := xi.1) (i := xi.2) hxi
      rw [this.2.2]; exact List.getElem_mem _
    exact ⟨_, by rw [(hY _ hm).1, bind_ok], rfl⟩)
  have hall : all = b.braids.zipIdx.map fun xi => (Y xi.1).map fun s => (xi.2, xi.1, s) :=
    List.ext_getElem (by simp [a2]) fun j h1 h2 => by rw [a3 j (by simpa using h2), List.getElem_map]
  have hgood : ∀ x ∈ all.flatten, GoodPair lim ω rep.n l k x := by
    intro x hx
    rw [hall, List.mem_flatten] at hx
    obtain ⟨ps, hps, hx⟩ := hx
    obtain ⟨xi, hxi, rfl⟩ := List.mem_map.1 hps
    obtain ⟨s, hs, rfl⟩ := List.mem_map.1 hx
    have hz := List.mem_zipIdx (x := xi.1) (i := xi.2) hxi
    have hlt : xi.2 < b.braids.length := by omega
    have hm : xi.1 ∈ b.braids := by rw [hz.2.2]; exact List.getElem_mem _
    obtain ⟨s1, s2, s3, s4⟩ := ((hY _ hm).2.2 s).1 hs
    refine ⟨⟨by rw [hh.1, List.length_map] at hlt; exact hlt, ?_⟩, s1, s2, s3, s4⟩
    dsimp only
    rw [hz.2.2]
    simp only [hh.1, List.getElem_map, Nat.sub_zero]
  obtain ⟨h1, h2, -⟩ := batchedLoop_spec (k := 1000) (by norm_num) all.flatten [] (by simp)
  have hbat : batched all.flatten 1000 = .ok (batchedLoop 1000 [] all.flatten) := by rw [batched, if_pos (by norm_num)]; rfl
  obtain ⟨st', f1, bats, f2, f3, f4, f5⟩ := foldlM_list (descendChunk (GNF.tbl lim ω) rep c t k)
    (fun cs st' => ∃ bats : List (Bucketing.Batch NF d), run c st (bats.map Op.add) = .ok st' ∧
      (∀ b' ∈ bats, TrueBatch lim ω rep ρ b' ∧ ∀ i, (b'.braids i).power = 0) ∧
      Dict.get? st'.buckets t = some b ∧ (braidsOf bats).Perm ((List.range k).flatMap fun i => cs.flatten.map (extBy rep.n i)))
    (batchedLoop 1000 [] all.flatten) st ⟨[], rfl, by simp, hb, by simp [braidsOf]⟩ (by
      rintro cs ch rest e st1 ⟨bats, b1, b2, b3, b4⟩
      have hch : ch ∈ batchedLoop 1000 [] all.flatten := by rw [e]; simp
      have hr1 := hr.append (bats.map Op.add) (fun b'' hb'' => by
        obtain ⟨x, hx, e⟩ := List.mem_map.1 hb''
        cases e; exact ⟨(b2 _ hx).1, fun i => hQ _ ((b2 _ hx).2 i)⟩) b1
      obtain ⟨st2, bats2, c1, c2, c3, c4, c5⟩ := descendChunk_spec hn hl H hd hp hF hsz hc hh (fun o ho => ⟨(htrue o ho).1, (htrue o ho).2.1, (htrue o ho).2.2.2⟩)
        (k := k) (pairs := ch) (by have := (h2 ch hch).1; intro e; simp [e] at this) (fun x hx => hgood x (by
          have : x ∈ (batchedLoop 1000 [] all.flatten).flatten := List.mem_flatten.2 ⟨ch, hch, hx⟩
          rw [h1] at this; simpa using this)) hQ hr1 b3
      refine ⟨st2, c1, bats ++ bats2, ?_, ?_, c5, ?_⟩
      · rw [List.map_append, run_append, b1, bind_ok, c2]
      · intro b'' hb''
        rcases List.mem_append.1 hb'' with hb'' | hb''
        · exact b2 _ hb''
        · exact c3 _ hb''
      · rw [braidsOf, List.flatMap_append]
        refine (b4.append (List.Perm.of_eq c4)).trans ?_
        refine (List.flatMap_append_perm _ _ _).trans (List.Perm.of_eq ?_)
        congr 1
        funext i
        simp)
  refine ⟨st', bats, ?_, f2, f3, f4, fun x => (Y x).map NF.factors, fun x hx => ?_, ?_⟩
  · rw [nfDescendants, Dict.get, hb, bind_ok, a1, bind_ok, hbat, bind_ok]; exact f1
  · obtain ⟨-, y2, y3⟩ := hY x hx
    refine ⟨?_, fun w => ?_⟩
    · rw [List.nodup_map_iff_inj_on y2]
      intro y hy z hz e
      have hy := (y3 y).1 hy
      have hz := (y3 z).1 hz
      have e1 := (R.isGNF_iff.1 hy.1).n_eq
      have e2 := (R.isGNF_iff.1 hz.1).n_eq
      cases y; cases z; simp_all
    · rw [List.mem_map]
      constructor
      · rintro ⟨y, hy, rfl⟩
        have := (y3 y).1 hy
        exact ⟨this.2.2.1, this.2.2.2⟩
      · rintro ⟨h1, h2⟩
        refine ⟨⟨rep.n, 0, w⟩, (y3 _).2 ⟨?_, rfl, h1, h2⟩, rfl⟩
        rw [R.isGNF_iff] at h2 ⊢
        exact R.1.valid_suffix h2
  · refine f5.trans (List.Perm.of_eq ?_)
    congr 1
    funext i
    rw [h1, List.nil_append, hall, List.map_flatten, List.map_map, ← List.flatMap_def]
    have : ∀ (m : Nat) (xs : List NF), List.flatMap ((List.map (extBy rep.n i)) ∘ fun xi : NF × Nat => (Y xi.1).map fun s => (xi.2, xi.1, s)) (xs.zipIdx m) =
        xs.flatMap fun x => ((Y x).map NF.factors).map fun w => (⟨rep.n, 0, x.factors ++ w.take (i + 1)⟩ : NF) := by
      intro m xs
      induction xs generalizing m with
      | nil => rfl
      | cons x xs ih => rw [List.zipIdx_cons, List.flatMap_cons, List.flatMap_cons, ih]; simp [extBy]
    exact this 0 _

theorem nfDescendants_spec (hn : 2 ≤ rep.n) (hl : rep.n < lim) (H : SummandRealises rep ρ) (hd : 0 < d) (hp : rep.p ≠ 1) (hF : FullTwistScalar ρ)
    (hsz : 1 ≤ c.size) (hc : c.length = NF.canonicalLength) {t : Tag} {b : Bucket NF d} (k : Nat)
    {st : State S NF d} (hr : Reach lim ω rep ρ c (fun x => x.power = 0) st) (hb : Dict.get? st.buckets t = some b) :
    ∃ st' bats, nfDescendants (GNF.tbl lim ω) rep c st t k = .ok st' ∧ run c st (bats.map Op.add) = .ok st' ∧
      (∀ b' ∈ bats, TrueBatch lim ω rep ρ b' ∧ ∀ i, (b'.braids i).power = 0) ∧
      Dict.get? st'.buckets t = some b ∧
      ∃ W : NF → List (List Nat), (∀ x ∈ b.braids, (W x).Nodup ∧ ∀ w, w ∈ W x ↔ w.length = k ∧ IsGNF lim ω rep.n ⟨rep.n, 0, x.factors ++ w⟩) ∧
        (braidsOf bats).Perm ((List.range k).flatMap fun i => b.braids.flatMap fun x => (W x).map fun w => ⟨rep.n, 0, x.factors ++ w.take (i + 1)⟩) := by
  refine nfDescendants_spec_gen hn hl H hd hp hF hsz hc k (fun _ h => h) hr hb fun x hx => ?_
  obtain ⟨l, hh, -, h3⟩ := hr.bucket hd hp hc hb
  rw [hh.1] at hx
  obtain ⟨o, ho, rfl⟩ := List.mem_map.1 hx
  exact (h3 o ho).2.2.2

theorem bootstrap_spec_gen (hn : 2 ≤ rep.n) (hl : rep.n < lim) (H : SummandRealises rep ρ) (hd : 0 < d) (hp : rep.p ≠ 1) (hF : FullTwistScalar ρ)
    (hsz : 1 ≤ c.size) (upto : Nat) {st : State S NF d} (hQ : ∀ x : NF, x.power = 0 → Q x) (hr : Reach lim ω rep ρ c Q st) :
    ∃ st' bats, bootstrapExhaustive (GNF.tbl lim ω) rep c st upto = .ok st' ∧ run c st (bats.map Op.add) = .ok st' ∧
      (∀ b' ∈ bats, TrueBatch lim ω rep ρ b' ∧ ∀ i, (b'.braids i).power = 0) ∧
      (braidsOf bats).Nodup ∧ ∀ x, x ∈ braidsOf bats ↔ IsGNF lim ω rep.n x ∧ x.power = 0 ∧ 1 ≤ x.factors.length ∧ x.factors.length ≤ upto := by
  obtain ⟨tab, R⟩ := exists_greal lim ω hn hl
  obtain ⟨st', f1, bats, f2, f3, f4, f5⟩ := foldlM_range (fun st k => do
      let all ← NF.allOfLength (GNF.tbl lim ω) rep.n (k + 1) 0
      let chunks ← batched all 10000
      chunks.foldlM (init := st) fun st xs => do
        let images ← evalSame (GNF.tbl lim ω) rep xs
        addBraidsImages c st { len := xs.length, braids := fun i => xs[i], images := images })
    (fun k st' => ∃ bats : List (Bucketing.Batch NF d), run c st (bats.map Op.add) = .ok st' ∧
      (∀ b' ∈ bats, TrueBatch lim ω rep ρ b' ∧ ∀ i, (b'.braids i).power = 0) ∧
      (braidsOf bats).Nodup ∧ ∀ x, x ∈ braidsOf bats ↔ IsGNF lim ω rep.n x ∧ x.power = 0 ∧ 1 ≤ x.factors.length ∧ x.factors.length ≤ k)
    upto st ⟨[], rfl, by simp, by simp [braidsOf], fun x => by simp only [braidsOf, List.flatMap_nil, List.not_mem_nil, false_iff]; omega⟩ (by
      rintro k - st1 ⟨bats, b1, b2, b3, b4⟩
      obtain ⟨xs, x1, x2, x3, -⟩ := R.1.allOfLength_spec (k + 1) 0
      obtain ⟨h1, h2, -⟩ := batchedLoop_spec (k := 10000) (by norm_num) xs [] (by simp)
      have hbat : batched xs 10000 = .ok (batchedLoop 10000 [] xs) := by rw [batched, if_pos (by norm_num)]; rfl
      obtain ⟨st', g1, bats2, g2, g3, g4⟩ := foldlM_list (fun st xs => do
          let images ← evalSame (GNF.tbl lim ω) rep xs
          addBraidsImages c st { len := xs.length, braids := fun i => xs[i], images := images })
        (fun cs st' => ∃ bats2 : List (Bucketing.Batch NF d), run c st ((bats ++ bats2).map Op.add) = .ok st' ∧
          (∀ b' ∈ bats2, TrueBatch lim ω rep ρ b' ∧ ∀ i, (b'.braids i).power = 0) ∧ braidsOf bats2 = cs.flatten)
        (batchedLoop 10000 [] xs) st1 ⟨[], by simpa using b1, by simp, rfl⟩ (by
          rintro cs ch rest e st2 ⟨bats2, c1, c2, c3⟩
          have hch : ch ∈ batchedLoop 10000 [] xs := by rw [e]; simp
          have hmem : ∀ x ∈ ch, IsGNF lim ω rep.n x ∧ x.power = 0 ∧ x.factors.length = k + 1 := by
            intro x hx
            have : x ∈ (batchedLoop 10000 [] xs).flatten := List.mem_flatten.2 ⟨ch, hch, hx⟩
            rw [h1, List.nil_append, x3, ← R.isGNF_iff] at this
            exact this
          have hne : ch ≠ [] := by have := (h2 ch hch).1; intro e; simp [e] at this
          obtain ⟨A, a1, a2⟩ := evalSame_spec hn hl H hd hp hF ch hne (k + 1) (fun x hx => ⟨(hmem x hx).1, (hmem x hx).2.2⟩)
          set b' : Bucketing.Batch NF d := { len := ch.length, braids := fun i => ch[i], images := A } with hb'
          have hbt : TrueBatch lim ω rep ρ b' :=
            TrueBatch.of_image (List.length_pos_iff.2 hne) (fun i => (hmem _ (List.getElem_mem i.2)).1) a2
          have hr1 := hr.append ((bats ++ bats2).map Op.add) (fun b'' hb'' => by
            obtain ⟨x, hx, e⟩ := List.mem_map.1 hb''
            cases e
            rcases List.mem_append.1 hx with hx | hx
            · exact ⟨(b2 _ hx).1, fun i => hQ _ ((b2 _ hx).2 i)⟩
            · exact ⟨(c2 _ hx).1, fun i => hQ _ ((c2 _ hx).2 i)⟩) c1
          obtain ⟨log, hlog⟩ := hr1.inv
          obtain ⟨st3, d1⟩ := add_ok c hsz hlog b' hbt.valid
          refine ⟨st3, by rw [a1, bind_ok]; exact d1, bats2 ++ [b'], ?_, ?_, ?_⟩
          · rw [← List.append_assoc, List.map_append, run_append, c1, bind_ok]
            show run c st2 [Op.add b'] = _
            rw [run, d1]; rfl
          · intro b'' hb''
            rcases List.mem_append.1 hb'' with hb'' | hb''
            · exact c2 _ hb''
            · obtain rfl := List.mem_singleton.1 hb''
              exact ⟨hbt, fun i => (hmem _ (List.getElem_mem i.2)).2.1⟩
          · rw [braidsOf, List.flatMap_append, List.flatten_append]
            congr 1
            simp only [List.flatMap_cons, List.flatMap_nil, List.append_nil, List.flatten_cons, List.flatten_nil]
            exact List.ofFn_getElem (xs := ch))
      rw [h1, List.nil_append] at g4
      refine ⟨st', by rw [x1, bind_ok, hbat, bind_ok]; exact g1, bats ++ bats2, g2, ?_, ?_, ?_⟩
      · intro b'' hb''
        rcases List.mem_append.1 hb'' with hb'' | hb''
        · exact b2 _ hb''
        · exact g3 _ hb''
      · rw [braidsOf, List.flatMap_append, List.nodup_append]
        refine ⟨b3, by rw [← braidsOf, g4]; exact x2, fun x hx y hy e => ?_⟩
        subst e
        have h1 := (b4 x).1 hx
        rw [← braidsOf, g4, x3] at hy
        omega
      · intro x
        rw [braidsOf, List.flatMap_append, List.mem_append, ← braidsOf, ← braidsOf, b4, g4, x3, ← R.isGNF_iff]
        constructor
        · rintro (⟨h1, h2, h3, h4⟩ | ⟨h1, h2, h3⟩)
          · exact ⟨h1, h2, h3, by omega⟩
          · exact ⟨h1, h2, by omega, by omega⟩
        · rintro ⟨h1, h2, h3, h4⟩
          rcases Nat.lt_or_ge x.factors.length (k + 1) with h | h
          · exact .inl ⟨h1, h2, h3, by omega⟩
          · exact .inr ⟨h1, h2, by omega⟩)
  exact ⟨st', bats, f1, f2, f3, f4, f5⟩

theorem bootstrap_spec (hn : 2 ≤ rep.n) (hl : rep.n < lim) (H : SummandRealises rep ρ) (hd : 0 < d) (hp : rep.p ≠ 1) (hF : FullTwistScalar ρ)
    (hsz : 1 ≤ c.size) (upto : Nat) {st : State S NF d} (hr : Reach lim ω rep ρ c (fun x => x.power = 0) st) :
    ∃ st' bats, bootstrapExhaustive (GNF.tbl lim ω) rep c st upto = .ok st' ∧ run c st (bats.map Op.add) = .ok st' ∧
      (∀ b' ∈ bats, TrueBatch lim ω rep ρ b' ∧ ∀ i, (b'.braids i).power = 0) ∧
      (braidsOf bats).Nodup ∧ ∀ x, x ∈ braidsOf bats ↔ IsGNF lim ω rep.n x ∧ x.power = 0 ∧ 1 ≤ x.factors.length ∧ x.factors.length ≤ upto :=
  bootstrap_spec_gen hn hl H hd hp hF hsz upto (fun _ h => h) hr

end BraidSearch
end Peyl
