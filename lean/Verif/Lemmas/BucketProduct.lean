import Verif.Lemmas.Descend
import Verif.Lemmas.BucketDescend
/-!
# `bucket_product` and `substrings` of `braidsearch.Tracker` offer true images
-/
namespace Peyl
open LaurentPolynomial Polymat Perms
namespace BraidSearch
variable {S : Type} {d : Nat} {rep : Summand d} {ρ : Braid rep.n →* LMat rep.p d} {lim : Nat} {ω : List Nat → List Nat → Nat → Nat}
variable {c : Config S NF d} {Q : NF → Prop}

theorem foldl_max_const {α : Type} (f : α → Nat) (W : Nat) : ∀ (l : List α), (∀ x ∈ l, f x = W) → l ≠ [] → ∀ a ≤ W, (l.map f).foldl max a = W
  | [], _, h, _, _ => absurd rfl h
  | [x], h, _, a, ha => by simp [h x (by simp)]; exact ha
  | x :: y :: l, h, _, a, ha => by
    rw [List.map_cons, List.foldl_cons, h x (by simp)]
    exact foldl_max_const f W (y :: l) (fun z hz => h z (by simp [List.mem_cons.1 hz])) (by simp) _ (by omega)

/-- The contents of a bucket as `bucket_braids_images` returns them. -/
theorem Reach.contents (hd : 0 < d) (hp : rep.p ≠ 1) (hc : c.length = NF.canonicalLength) {st : State S NF d} (h : Reach lim ω rep ρ c Q st)
    {t : Tag} {b : Bucket NF d} (hb : Dict.get? st.buckets t = some b) :
    ∃ l : List (Offer NF d), bucketBraidsImages st t = .ok (l.map Offer.braid, l.map Offer.image) ∧ b.braids = l.map Offer.braid ∧ l ≠ [] ∧
      (∀ o ∈ l, TrueOffer lim ω rep ρ o ∧ (NF.canonicalLength o.braid : ℤ) = t.1 ∧ (o.image.length : ℤ) = t.2 ∧ Q o.braid) := by
  obtain ⟨l, h1, h2, h3⟩ := h.bucket hd hp hc hb
  refine ⟨l, ?_, h1.1, h2, h3⟩
  simp only [bucketBraidsImages, hb]
  rw [h1.1, List.length_map, h1.2]

theorem stack_shift {l : List (Offer NF d)} (hne : l ≠ []) {W : Nat} (h : ∀ o ∈ l, TrueOffer lim ω rep ρ o ∧ o.image.length = W) :
    UpToShift rep.p (stackImgs (((l.map Offer.image).map List.length).foldl max 0) (l.map Offer.image))
      fun i => ρ (gnfBraid rep.n (l[i.1]'(by simpa using i.2)).braid) := by
  have hW : ((l.map Offer.image).map List.length).foldl max 0 = W := by
    rw [List.map_map]
    exact foldl_max_const _ W l (fun o ho => (h o ho).2) hne 0 (by omega)
  rw [hW, stackImgs]
  have hL : 0 < (l.map Offer.image).length := by rw [List.length_map]; exact List.length_pos_iff.2 hne
  refine (Bucketing.stack_image hL (fun i => (l.map Offer.image)[i]) _ (fun i => ?_) fun i => ?_).shift
  · have hi : i.1 < l.length := by simpa using i.2
    have := (h l[i.1] (List.getElem_mem hi)).2
    simpa using this
  · have hi : i.1 < l.length := by simpa using i.2
    have := (h l[i.1] (List.getElem_mem hi)).1.2
    simpa using this

theorem ofFn_prod {α β γ : Type} (a b : Nat) (l : List α) (m : List β) (ha : a = l.length) (hb : b = m.length) (f : α → β → γ) :
    List.ofFn (fun i : Fin (a * b) => f (l[(finProdFinEquiv.symm i).1.1]'(ha ▸ (finProdFinEquiv.symm i).1.2))
      (m[(finProdFinEquiv.symm i).2.1]'(hb ▸ (finProdFinEquiv.symm i).2.2))) = l.flatMap fun x => m.map (f x) := by
  subst ha hb
  rw [List.ofFn_mul, List.flatMap_def]
  congr 1
  refine List.ext_getElem (by simp) fun i h1 h2 => ?_
  rw [List.getElem_ofFn, List.getElem_map]
  refine List.ext_getElem (by simp) fun j h3 h4 => ?_
  rw [List.getElem_ofFn, List.getElem_map]
  have hi : i < l.length := by simpa using h1
  have hj : j < m.length := by simpa using h3
  have : finProdFinEquiv.symm (⟨i * m.length + j, by
      calc i * m.length + j < (i + 1) * m.length := by rw [Nat.add_mul, Nat.one_mul]; omega
      _ ≤ _ := Nat.mul_le_mul_right _ hi⟩ : Fin (l.length * m.length)) = (⟨i, hi⟩, ⟨j, hj⟩) := by
    rw [Equiv.symm_apply_eq]
    ext
    simp [finProdFinEquiv, Nat.mul_comm, Nat.add_comm]
  simp only [this]

theorem getD_map_map {α β γ : Type} (g : β → γ) (l : List α) (h : α → β) (i : Nat) (z : γ) (hi : i < l.length) : ((l.map h).map g).getD i z = g (h l[i]) := by
  rw [List.getD_eq_getElem?_getD, List.getElem?_eq_getElem (by simpa using hi)]
  simp

theorem bucketProduct_spec (hn : 2 ≤ rep.n) (hl : rep.n < lim) (hd : 0 < d) (hp : rep.p ≠ 1)
    (hsz : 1 ≤ c.size) (hc : c.length = NF.canonicalLength) {t u : Tag} {b b' : Bucket NF d}
    {st : State S NF d} (hr : Reach lim ω rep ρ c Q st) (hb : Dict.get? st.buckets t = some b) (hb' : Dict.get? st.buckets u = some b') :
    ∃ st' bat, bucketProduct (GNF.tbl lim ω) rep c st t u = .ok st' ∧ addBraidsImages c st bat = .ok st' ∧ TrueBatch lim ω rep ρ bat ∧
      ∃ f : NF → NF → NF, (∀ x ∈ b.braids, ∀ y ∈ b'.braids, NF.mul (GNF.tbl lim ω) x y = .ok (f x y) ∧
          gnfBraid rep.n (f x y) = gnfBraid rep.n x * gnfBraid rep.n y) ∧
        List.ofFn bat.braids = b.braids.flatMap fun x => b'.braids.map (f x) := by
  obtain ⟨tab, R⟩ := exists_greal lim ω hn hl
  obtain ⟨l, a1, a2, a3, a4⟩ := hr.contents hd hp hc hb
  obtain ⟨m, b1, b2, b3, b4⟩ := hr.contents hd hp hc hb'
  have hmul : ∀ x y, ∃ z, IsGNF lim ω rep.n x → IsGNF lim ω rep.n y → NF.mul (GNF.tbl lim ω) x y = .ok z ∧ IsGNF lim ω rep.n z ∧
      gnfBraid rep.n z = gnfBraid rep.n x * gnfBraid rep.n y := by
    intro x y
    by_cases hx : IsGNF lim ω rep.n x ∧ IsGNF lim ω rep.n y
    · obtain ⟨z, z1, z2, z3⟩ := R.1.mul_spec (R.isGNF_iff.1 hx.1) (R.isGNF_iff.1 hx.2)
      rw [R.den_eq, R.den_eq, R.den_eq] at z3
      exact ⟨z, fun _ _ => ⟨z1, R.isGNF_iff.2 z2, z3⟩⟩
    · exact ⟨x, fun h1 h2 => absurd ⟨h1, h2⟩ hx⟩
  choose f hf using hmul
  have gl : ∀ x ∈ l.map Offer.braid, IsGNF lim ω rep.n x := by
    intro x hx
    obtain ⟨o, ho, rfl⟩ := List.mem_map.1 hx
    exact (a4 o ho).1.1
  have gm : ∀ x ∈ m.map Offer.braid, IsGNF lim ω rep.n x := by
    intro x hx
    obtain ⟨o, ho, rfl⟩ := List.mem_map.1 hx
    exact (b4 o ho).1.1
  have hinner : ∀ x ∈ l.map Offer.braid, (m.map Offer.braid).mapM (fun y => NF.mul (GNF.tbl lim ω) x y) = .ok ((m.map Offer.braid).map (f x)) := by
    intro x hx
    refine Matrix.mapM_ok _ _ _ fun y hy => ?_
    exact (hf x y (gl x hx) (gm y hy)).1
  have houter : ((l.map Offer.braid).mapM fun x => (m.map Offer.braid).mapM fun y => NF.mul (GNF.tbl lim ω) x y) =
      .ok ((l.map Offer.braid).map fun x => (m.map Offer.braid).map (f x)) := Matrix.mapM_ok _ _ _ hinner
  have hlp : 0 < l.length := List.length_pos_iff.2 a3
  have hmp : 0 < m.length := List.length_pos_iff.2 b3
  have sl := stack_shift (rep := rep) (ρ := ρ) (lim := lim) (ω := ω) a3 (W := t.2.toNat) (fun o ho => ⟨(a4 o ho).1, by have := (a4 o ho).2.2.1; omega⟩)
  have sm := stack_shift (rep := rep) (ρ := ρ) (lim := lim) (ω := ω) b3 (W := u.2.toNat) (fun o ho => ⟨(b4 o ho).1, by have := (b4 o ho).2.2.1; omega⟩)
  haveI : Nonempty (Fin (l.map Offer.image).length × Fin (m.map Offer.image).length) := ⟨(⟨0, by simpa using hlp⟩, ⟨0, by simpa using hmp⟩)⟩
  obtain ⟨C, c1, c2⟩ := polymatMul_spec (p := rep.p) (fun g : Fin (l.map Offer.image).length × Fin (m.map Offer.image).length => g.1) (fun g => g.2) sl sm (by
    intro g
    rw [← map_mul]; exact RepBase.rho_ne ρ hd hp _)
  let bat : Bucketing.Batch NF d :=
    { len := (l.map Offer.image).length * (m.map Offer.image).length
      braids := fun i => ((((l.map Offer.braid).map fun x => (m.map Offer.braid).map (f x)).getD (finProdFinEquiv.symm i).1 []).getD (finProdFinEquiv.symm i).2 ⟨0, 0, []⟩)
      images := C.map fun S i => S (finProdFinEquiv.symm i) }
  have hbraid : ∀ i : Fin bat.len, ∃ (h1 : (finProdFinEquiv.symm i).1.1 < l.length) (h2 : (finProdFinEquiv.symm i).2.1 < m.length),
      bat.braids i = f (l[(finProdFinEquiv.symm i).1.1]).braid (m[(finProdFinEquiv.symm i).2.1]).braid := by
    intro i
    have h1 : (finProdFinEquiv.symm i).1.1 < l.length := by simpa using (finProdFinEquiv.symm i).1.2
    have h2 : (finProdFinEquiv.symm i).2.1 < m.length := by simpa using (finProdFinEquiv.symm i).2.2
    refine ⟨h1, h2, ?_⟩
    show ((((l.map Offer.braid).map fun x => (m.map Offer.braid).map (f x)).getD _ []).getD _ _) = _
    rw [getD_map_map _ l Offer.braid _ _ h1, getD_map_map _ m Offer.braid _ _ h2]
  have himg : IsProjImage rep.p bat.images fun i => ρ (gnfBraid rep.n (bat.braids i)) := by
    have hsl : ∀ k i, slice bat.images k i = slice C k (finProdFinEquiv.symm i) := by
      intro k i
      by_cases hk : k < C.length
      · rw [slice_lt _ (by simpa [bat] using hk), slice_lt _ hk]; simp [bat]
      · rw [slice_ge _ (by simpa [bat] using hk), slice_ge _ (by omega)]; rfl
    refine ⟨fun i => by rw [hsl]; exact c2.first _, ?_, ?_, fun i => ?_⟩
    · obtain ⟨g, hg⟩ := c2.last
      refine ⟨finProdFinEquiv g, ?_⟩
      rw [hsl]; simpa [bat] using hg
    · intro hp0 T hT i r s
      obtain ⟨T', hT', rfl⟩ := List.mem_map.1 hT
      exact c2.reduced hp0 T' hT' _ r s
    · obtain ⟨k, hk⟩ := c2.shift (finProdFinEquiv.symm i)
      obtain ⟨h1, h2, h3⟩ := hbraid i
      refine ⟨k, ?_⟩
      rw [h3, (hf _ _ (a4 _ (List.getElem_mem h1)).1.1 (b4 _ (List.getElem_mem h2)).1.1).2.2, map_mul, ← hk]
      exact denMod_of_den (den_eq_iff.2 fun k => hsl k i)
  have hbt : TrueBatch lim ω rep ρ bat := by
    refine TrueBatch.of_image (by simpa [bat] using ⟨hlp, hmp⟩) (fun i => ?_) himg
    obtain ⟨h1, h2, h3⟩ := hbraid i
    rw [h3]
    exact (hf _ _ (a4 _ (List.getElem_mem h1)).1.1 (b4 _ (List.getElem_mem h2)).1.1).2.1
  obtain ⟨log, hlog⟩ := hr.inv
  obtain ⟨st', s1⟩ := add_ok c hsz hlog bat hbt.valid
  refine ⟨st', bat, ?_, s1, hbt, f, ?_, ?_⟩
  · rw [bucketProduct, a1, bind_ok, b1, bind_ok]
    simp only [houter, bind_ok]
    rw [c1, bind_ok]
    exact s1
  · intro x hx y hy
    rw [a2] at hx; rw [b2] at hy
    have := hf x y (gl x hx) (gm y hy)
    exact ⟨this.1, this.2.2⟩
  · rw [a2, b2]
    have key : bat.braids = fun i => f (l[(finProdFinEquiv.symm i).1.1]'(by simpa using (finProdFinEquiv.symm i).1.2)).braid
        (m[(finProdFinEquiv.symm i).2.1]'(by simpa using (finProdFinEquiv.symm i).2.2)).braid := by
      funext i
      exact (hbraid i).2.2
    rw [key]
    rw [List.flatMap_map]
    simp only [List.map_map]
    exact ofFn_prod (l.map Offer.image).length (m.map Offer.image).length l m (by simp) (by simp) fun x y => f x.braid y.braid

/-! ### substrings -/

/-- The braid with the power of `x` and its factors `i, ..., j - 1`. -/
def subBraid (n i j : Nat) (x : NF) : NF := ⟨n, x.power, (x.factors.take j).drop i⟩

theorem sub_gnf {n : Nat} (hn : 2 ≤ n) (hl : n < lim) {x : NF} (hx : IsGNF lim ω n x) (i j : Nat) : IsGNF lim ω n (subBraid n i j x) := by
  obtain ⟨t, R⟩ := exists_greal lim ω hn hl
  rw [R.isGNF_iff, R.1.valid_iff] at hx ⊢
  have hsub : ∀ f ∈ (x.factors.take j).drop i, f ∈ x.factors := fun f hf => List.mem_of_mem_take (List.mem_of_mem_drop hf)
  refine ⟨rfl, fun f hf => hx.2.1 f (hsub f hf), ?_, fun f hf => hx.2.2.2 f (hsub f hf)⟩
  have h := hx.2.2.1
  show List.IsChain _ (((x.factors.take j).drop i).map _)
  rw [← List.take_append_drop j x.factors, List.map_append] at h
  have h := List.IsChain.left_of_append h
  rw [← List.take_append_drop i (x.factors.take j), List.map_append] at h
  exact List.IsChain.right_of_append h

theorem substring_ok {n : Nat} (hn : 2 ≤ n) (hl : n < lim) {x : NF} (hx : IsGNF lim ω n x) {i j : Nat} (hij : i ≤ j) (hj : j ≤ x.factors.length) :
    NF.substring (GNF.tbl lim ω) x i j = .ok (subBraid n i j x) := by
  obtain ⟨t, R⟩ := exists_greal lim ω hn hl
  have hxn : x.n = n := (R.isGNF_iff.1 hx).n_eq
  unfold NF.substring
  rw [show (decide (i ≤ j) && decide (j ≤ x.factors.length)) = true by simp [hij, hj], hxn]
  exact (sub_gnf hn hl hx i j).2

theorem sub_prefix {n i j : Nat} (hij : i ≤ j) (x : NF) {len : Nat} (hx : x.factors.length = len) :
    prefixBraid n (j - i) (subBraid n i len x) = gnfBraid n (subBraid n i j x) := by
  rw [prefixBraid, gnfBraid]
  simp only [subBraid]
  rw [List.take_of_length_le (by omega : x.factors.length ≤ len), List.drop_take]

theorem mem_range_drop {m k x : Nat} (h : x ∈ (List.range m).drop k) : k ≤ x ∧ x < m := by
  obtain ⟨i, hi, rfl⟩ := List.mem_iff_getElem.1 h
  rw [List.length_drop, List.length_range] at hi
  rw [List.getElem_drop, List.getElem_range]
  omega

theorem substrings_spec (hn : 2 ≤ rep.n) (hl : rep.n < lim) (H : SummandRealises rep ρ) (hd : 0 < d) (hp : rep.p ≠ 1) (hF : FullTwistScalar ρ)
    (hsz : 1 ≤ c.size) (hc : c.length = NF.canonicalLength) {t : Tag} {b : Bucket NF d} {st : State S NF d}
    (hr : Reach lim ω rep ρ c (fun _ => True) st) (hb : Dict.get? st.buckets t = some b) :
    ∃ st' bats, substrings (GNF.tbl lim ω) rep c st t = .ok st' ∧ run c st (bats.map Op.add) = .ok st' ∧
      (∀ b' ∈ bats, TrueBatch lim ω rep ρ b') ∧ Dict.get? st'.buckets t = some b ∧
      braidsOf bats = ((List.range (t.1.toNat - 1)).drop 1).flatMap fun i => ((List.range (t.1.toNat - 1)).drop (i + 2)).flatMap fun j =>
        b.braids.map (subBraid rep.n i j) := by
  obtain ⟨l, hh, hlne, htrue⟩ := hr.bucket hd hp hc hb
  have hbr : ∀ x ∈ b.braids, IsGNF lim ω rep.n x ∧ x.factors.length = t.1.toNat := by
    intro x hx
    rw [hh.1] at hx
    obtain ⟨o, ho, rfl⟩ := List.mem_map.1 hx
    have := (htrue o ho).2.1
    exact ⟨(htrue o ho).1.1, by rw [NF.canonicalLength] at this; omega⟩
  have hbne : b.braids ≠ [] := by rw [hh.1]; simpa using hlne
  have hbl : 0 < b.braids.length := List.length_pos_iff.2 hbne
  set len := t.1.toNat with hlen
  have hsub : ∀ i j, i ≤ j → j ≤ len → b.braids.mapM (fun x => NF.substring (GNF.tbl lim ω) x i j) = .ok (b.braids.map (subBraid rep.n i j)) := by
    intro i j hij hj
    refine Matrix.mapM_ok _ _ _ fun x hx => ?_
    exact substring_ok hn hl (hbr x hx).1 hij (by rw [(hbr x hx).2]; exact hj)
  -- the outer loop
  obtain ⟨st', f1, bats, f2, f3, f4, f5⟩ := foldlM_list (fun st i => do
      let b ← Dict.get st.buckets t
      let subs ← b.braids.mapM fun x => NF.substring (GNF.tbl lim ω) x i len
      let images ← evalPrefixes (GNF.tbl lim ω) rep subs
      ((List.range (len - 1)).drop (i + 2)).foldlM (init := st) fun st j => do
        let b ← Dict.get st.buckets t
        let ys ← b.braids.mapM fun x => NF.substring (GNF.tbl lim ω) x i j
        let A ← lookup images (j - i)
        pyAssert (ys.length == subs.length)
        addBraidsImages c st { len := subs.length, braids := fun k => ys.getD k ⟨0, 0, []⟩, images := A })
    (fun is st' => ∃ bats : List (Bucketing.Batch NF d), run c st (bats.map Op.add) = .ok st' ∧
      (∀ b' ∈ bats, TrueBatch lim ω rep ρ b') ∧ Dict.get? st'.buckets t = some b ∧
      braidsOf bats = is.flatMap fun i => ((List.range (len - 1)).drop (i + 2)).flatMap fun j => b.braids.map (subBraid rep.n i j))
    ((List.range (len - 1)).drop 1) st ⟨[], rfl, by simp, hb, rfl⟩ (by
      rintro is i rest ei st1 ⟨bats, b1, b2, b3, b4⟩
      have hi : 1 ≤ i ∧ i < len - 1 := mem_range_drop (by rw [ei]; simp)
      obtain ⟨As, p1, p2, p3⟩ := evalPrefixes_spec hn hl H hd hp hF (b.braids.map (subBraid rep.n i len)) (by simpa using hbne) (len - i) (by
        intro y hy
        obtain ⟨x, hx, rfl⟩ := List.mem_map.1 hy
        refine ⟨sub_gnf hn hl (hbr x hx).1 i len, ?_⟩
        simp [subBraid, (hbr x hx).2])
      obtain ⟨st2, g1, bats2, g2, g3, g4, g5⟩ := foldlM_list (fun st j => do
          let b' ← Dict.get st.buckets t
          let ys ← b'.braids.mapM fun x => NF.substring (GNF.tbl lim ω) x i j
          let A ← lookup As (j - i)
          pyAssert (ys.length == (b.braids.map (subBraid rep.n i len)).length)
          addBraidsImages c st { len := (b.braids.map (subBraid rep.n i len)).length, braids := fun k => ys.getD k ⟨0, 0, []⟩, images := A })
        (fun js st' => ∃ bats2 : List (Bucketing.Batch NF d), run c st ((bats ++ bats2).map Op.add) = .ok st' ∧
          (∀ b' ∈ bats2, TrueBatch lim ω rep ρ b') ∧ Dict.get? st'.buckets t = some b ∧
          braidsOf bats2 = js.flatMap fun j => b.braids.map (subBraid rep.n i j))
        ((List.range (len - 1)).drop (i + 2)) st1 ⟨[], by simpa using b1, by simp, b3, rfl⟩ (by
          rintro js j rest ej st3 ⟨bats2, c1, c2, c3, c4⟩
          have hj : i + 2 ≤ j ∧ j < len - 1 := mem_range_drop (by rw [ej]; simp)
          have hk : j - i < As.length := by omega
          set bat : Bucketing.Batch NF d := { len := (b.braids.map (subBraid rep.n i len)).length, braids := fun k => (b.braids.map (subBraid rep.n i j)).getD k ⟨0, 0, []⟩, images := As[j - i] } with hbat
          have hbraid : ∀ k : Fin bat.len, bat.braids k = subBraid rep.n i j (b.braids[k.1]'(by simpa [hbat] using k.2)) := by
            intro k
            have hk : k.1 < b.braids.length := by simpa [hbat] using k.2
            show (b.braids.map (subBraid rep.n i j)).getD k ⟨0, 0, []⟩ = _
            rw [List.getD_eq_getElem?_getD, List.getElem?_eq_getElem (by simpa using hk), Option.getD_some, List.getElem_map]
          have hbt : TrueBatch lim ω rep ρ bat := by
            refine TrueBatch.of_image (by simpa [hbat] using hbl) (fun k => ?_) ((p3 (j - i) hk).congr fun k => ⟨0, ?_⟩)
            · rw [hbraid]; exact sub_gnf hn hl (hbr _ (List.getElem_mem _)).1 i j
            · have hk : k.1 < b.braids.length := by simpa using k.2
              rw [show bat.braids k = _ from hbraid k, ← sub_prefix (by omega) _ (hbr _ (List.getElem_mem hk)).2, T_zero, one_smul]
              simp
          have hr1 := hr.append ((bats ++ bats2).map Op.add) (fun b'' hb'' => by
            obtain ⟨x, hx, e⟩ := List.mem_map.1 hb''
            cases e
            rcases List.mem_append.1 hx with hx | hx
            · exact ⟨b2 _ hx, fun _ => trivial⟩
            · exact ⟨c2 _ hx, fun _ => trivial⟩) c1
          obtain ⟨log, hlog⟩ := hr1.inv
          obtain ⟨st4, s1⟩ := add_ok c hsz hlog bat hbt.valid
          refine ⟨st4, ?_, bats2 ++ [bat], ?_, ?_, ?_, ?_⟩
          · simp only [Dict.get, c3, bind_ok]
            rw [hsub i j (by omega) (by omega), bind_ok, lookup_lt hk, bind_ok]
            simp only [List.length_map, beq_self_eq_true, pyAssert]
            exact s1
          · rw [← List.append_assoc, List.map_append, run_append, c1, bind_ok]
            show run c st3 [Op.add bat] = _
            rw [run, s1]; rfl
          · intro b'' hb''
            rcases List.mem_append.1 hb'' with hb'' | hb''
            · exact c2 _ hb''
            · obtain rfl := List.mem_singleton.1 hb''
              exact hbt
          · rw [add_other s1 (fun k => ?_), c3]
            rw [hbraid k, hc]
            have hk : k.1 < b.braids.length := by simpa [hbat] using k.2
            have := (hbr _ (List.getElem_mem hk)).2
            simp only [subBraid, NF.canonicalLength, List.length_drop, List.length_take]
            omega
          · rw [braidsOf, List.flatMap_append, ← braidsOf, c4, List.flatMap_append]
            congr 1
            simp only [List.flatMap_cons, List.flatMap_nil, List.append_nil]
            refine List.ext_getElem (by simp [hbat]) fun k h1 h2 => ?_
            rw [List.getElem_ofFn, List.getElem_map]
            exact hbraid _)
      refine ⟨st2, ?_, bats ++ bats2, g2, ?_, g4, ?_⟩
      · simp only [Dict.get, b3, bind_ok]
        rw [hsub i len (by omega) le_rfl, bind_ok, p1, bind_ok]
        simpa only [Dict.get] using g1
      · intro b'' hb''
        rcases List.mem_append.1 hb'' with hb'' | hb''
        · exact b2 _ hb''
        · exact g3 _ hb''
      · rw [braidsOf, List.flatMap_append, ← braidsOf, ← braidsOf, b4, g5, List.flatMap_append]
        simp)
  refine ⟨st', bats, ?_, f2, f3, f4, f5⟩
  unfold substrings
  simp only [hb, bind_ok]
  rw [lookup_lt hbl, bind_ok]
  have : (b.braids[0]).canonicalLength = len := (hbr _ (List.getElem_mem hbl)).2
  rw [this]
  exact f1

end BraidSearch
end Peyl
