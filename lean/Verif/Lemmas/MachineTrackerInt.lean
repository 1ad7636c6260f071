import Verif.Spec.MachineTracker
import Verif.Lemmas.MachineSearchInt
import Verif.Lemmas.MachineTracker
import Verif.Props.BucketProduct
import Verif.Props.MachineBucket
/-!
# The tracker of `braidsearch.py` with machine integers, over the integers
-/
namespace Peyl
open Polymat Polynomial LaurentPolynomial Jones
namespace BraidSearch
variable {lim : Nat} {ω : List Nat → List Nat → Nat → Nat} {n r w m : Nat} {G I : List Matrix} {gs : List (Img (dimension n r))} {ρ : Braid n →* LMat 0 (dimension n r)}
variable {S : Type} {c : Config S NF (dimension n r)}

theorem weight_le (x : NF) : weight n x ≤ ((x.power % 2).toNat + x.factors.length) * (n * (n - 1) / 2) := by
  have := sum_inv_le (n := n) x.factors
  rw [weight, Nat.add_mul]
  omega

/-- Up to a power of `v` the matrix of a prefix of a braid is that of a positive word. -/
theorem prefix_word (hF : FullTwistScalar ρ) (x : NF) (k : Nat) : ∃ u : List Nat, (∀ s ∈ u, s + 1 < n) ∧
    u.length ≤ ((x.power % 2).toNat + min k x.factors.length) * (n * (n - 1) / 2) ∧
    ∃ e : ℤ, ρ (prefixBraid n k x) = (T e : (ZMod 0)[T;T⁻¹]) • ρ (posWord n u) := by
  obtain ⟨u, u1, u2, u3⟩ := delta_word n x.power
  obtain ⟨v, v1, v2, v3⟩ := prod_word u u1 ((x.factors.take k).map (permAt n))
  obtain ⟨e, he⟩ := parity_shift hF x.power ((x.factors.take k).map fun f => lift (permAt n f)).prod
  have hpar : (if x.power % 2 = 0 then 1 else halfTwist n) = posWord n u := by
    rw [← u3]
    split
    · next e =>
      have : (x.power % 2).toNat = 0 := by omega
      rw [this, pow_zero]
    · next e =>
      have : (x.power % 2).toNat = 1 := by omega
      rw [this, pow_one]
  refine ⟨v, v1, ?_, -e, ?_⟩
  · have := sum_inv_le (n := n) (x.factors.take k)
    rw [List.length_take] at this
    rw [v2, u2, List.map_map, Nat.add_mul]
    exact Nat.add_le_add_left this _
  · rw [prefixBraid, ← v3, ← hpar, List.map_map]
    have : ((x.factors.take k).map (lift ∘ permAt n)).prod = ((x.factors.take k).map fun f => lift (permAt n f)).prod := rfl
    rw [this, he, smul_smul, ← T_add, neg_add_cancel, T_zero, one_smul]

theorem mulW_shift {α β γ : Type} [Fintype α] [Fintype β] [Fintype γ] (S : IntSetup n r m w G I gs ρ) (pa : γ → α) (pb : γ → β) {A : PArr α (dimension n r) (dimension n r)}
    {B : PArr β (dimension n r) (dimension n r)} {b : α → Braid n} {c : β → Braid n} (hB : B ≠ []) (hA : UpToShift 0 A fun a => ρ (b a)) (hB' : UpToShift 0 B fun a => ρ (c a))
    (hb : ∀ g, ∃ u v : List Nat, (∀ s ∈ u, s + 1 < n) ∧ (∀ s ∈ v, s + 1 < n) ∧ u.length + v.length ≤ m ∧
      (∃ e : ℤ, ρ (b (pa g)) = (T e : (ZMod 0)[T;T⁻¹]) • ρ (posWord n u)) ∧ ∃ e : ℤ, ρ (c (pb g)) = (T e : (ZMod 0)[T;T⁻¹]) • ρ (posWord n v)) :
    polymatMulW w 0 pa pb A B = polymatMul 0 pa pb A B := by
  obtain ⟨C, c1, c2⟩ := Polymat.mul_spec pa pb A B (.inr hB)
  choose u v hu hv huv e1 e2 using hb
  refine mulW_of_bd S.hw (b := 2 ^ m) (Nat.pow_lt_pow_right (by norm_num) S.hm) _ c1 ?_
  refine bd_words (b := fun g => posWord n (u g ++ v g)) S.hn S.h S.cell S.real (fun g => ?_) fun g => ⟨u g ++ v g, fun s hs => ?_, by rw [List.length_append]; exact huv g, rfl⟩
  · obtain ⟨k1, hk1⟩ := hA (pa g)
    obtain ⟨k2, hk2⟩ := hB' (pb g)
    obtain ⟨k3, hk3⟩ := e1 g
    obtain ⟨k4, hk4⟩ := e2 g
    refine ⟨k1 + k2 + k3 + k4, ?_⟩
    rw [denMod_mul (c2 g), hk1, hk2]
    dsimp only
    rw [hk3, hk4, posWord_append, map_mul]
    simp only [T_add, smul_mul_assoc, mul_smul_comm, smul_smul]
    congr 1
    ring
  · rcases List.mem_append.1 hs with h | h
    · exact hu g s h
    · exact hv g s h

theorem bootstrap_int (I0 : IntSetup n r m w G I gs ρ) (hm : n * (n - 1) / 2 ≤ m) (hl : n < lim) (upto : Nat) (hu : upto * (n * (n - 1) / 2) ≤ m) (st : State S NF (dimension n r)) :
    bootstrapExhaustiveW w (GNF.tbl lim ω) (⟨n, 0, gs⟩ : Summand (dimension n r)) c st upto = bootstrapExhaustive (GNF.tbl lim ω) (⟨n, 0, gs⟩ : Summand (dimension n r)) c st upto := by
  obtain ⟨tab, R⟩ := exists_greal lim ω I0.hn hl
  rw [bootstrapExhaustiveW, bootstrapExhaustive]
  refine foldlM_congr _ _ (fun _ => True) _ (fun s _ k hk => ⟨?_, fun _ _ => trivial⟩) st trivial
  refine bind_congr_ok fun all hall => bind_congr_ok fun chunks hch => ?_
  obtain ⟨all', x1, -, x2, -⟩ := R.1.allOfLength_spec (k + 1) 0
  rw [show NF.allOfLength (GNF.tbl lim ω) (⟨n, 0, gs⟩ : Summand (dimension n r)).n (k + 1) 0 = .ok all' from x1, Except.ok.injEq] at hall
  subst hall
  obtain ⟨h1, -, -⟩ := batchedLoop_spec (k := 10000) (by norm_num) all' [] (by simp)
  rw [batched, if_pos (by norm_num)] at hch
  cases hch
  refine foldlM_congr _ _ (fun _ => True) _ (fun s _ xs hxs => ⟨?_, fun _ _ => trivial⟩) s trivial
  rw [(evals_int (ω := ω) I0 hm hl xs fun x hx => ?_).1]
  have hx' : x ∈ (batchedLoop 10000 [] all').flatten := List.mem_flatten.2 ⟨xs, hxs, hx⟩
  rw [h1, List.nil_append] at hx'
  obtain ⟨k1, k2, k3⟩ := (x2 x).1 hx'
  refine ⟨R.isGNF_iff.2 k1, (weight_le x).trans (le_trans ?_ hu)⟩
  rw [k2, k3]
  have := List.mem_range.1 hk
  exact Nat.mul_le_mul_right _ (by simpa using this)

theorem substrings_int (I0 : IntSetup n r m w G I gs ρ) (hm : n * (n - 1) / 2 ≤ m) (hl : n < lim) (hc : c.length = NF.canonicalLength) (t : Tag)
    (ht : (t.1.toNat + 1) * (n * (n - 1) / 2) ≤ m) (st : State S NF (dimension n r)) (hr : Reach lim ω (⟨n, 0, gs⟩ : Summand (dimension n r)) ρ c (fun _ => True) st) :
    substringsW w (GNF.tbl lim ω) (⟨n, 0, gs⟩ : Summand (dimension n r)) c st t = substrings (GNF.tbl lim ω) (⟨n, 0, gs⟩ : Summand (dimension n r)) c st t := by
  rw [substringsW, substrings]
  cases hb : Dict.get? st.buckets t with
  | none => rfl
  | some b =>
  obtain ⟨l, hh, hlne, htrue⟩ := hr.bucket I0.hd (by show (0 : Nat) ≠ 1; decide) hc hb
  have hbr : ∀ x ∈ b.braids, IsGNF lim ω n x ∧ x.factors.length = t.1.toNat := by
    intro x hx
    rw [hh.1] at hx
    obtain ⟨o, ho, rfl⟩ := List.mem_map.1 hx
    have := (htrue o ho).2.1
    exact ⟨(htrue o ho).1.1, by rw [NF.canonicalLength] at this; omega⟩
  dsimp only
  rw [bind_ok, bind_ok]
  refine bind_congr_ok fun x0 hx0 => ?_
  have h0 : x0.canonicalLength = t.1.toNat := (hbr x0 (RepBase.lookup_mem hx0)).2
  rw [h0]
  refine foldlM_congr _ _ (fun s => Dict.get? s.buckets t = some b) _ (fun s hs i hi => ?_) st hb
  have hi := mem_range_drop hi
  have hsub : ∀ j, i ≤ j → j ≤ t.1.toNat → b.braids.mapM (fun x => NF.substring (GNF.tbl lim ω) x i j) = .ok (b.braids.map (subBraid n i j)) := by
    intro j hij hj
    refine Matrix.mapM_ok _ _ _ fun x hx => ?_
    exact substring_ok I0.hn hl (hbr x hx).1 hij (by rw [(hbr x hx).2]; exact hj)
  have hg : Dict.get s.buckets t = .ok b := by rw [Dict.get, hs]
  constructor
  · rw [hg, bind_ok, bind_ok, hsub _ (by omega) le_rfl, bind_ok, bind_ok]
    rw [(evals_int (ω := ω) I0 hm hl (b.braids.map (subBraid n i t.1.toNat)) fun y hy => ?_).2]
    obtain ⟨x, hx, rfl⟩ := List.mem_map.1 hy
    refine ⟨sub_gnf I0.hn hl (hbr x hx).1 _ _, (weight_le _).trans (le_trans (Nat.mul_le_mul_right _ ?_) ht)⟩
    simp only [subBraid, List.length_drop, List.length_take, (hbr x hx).2]
    omega
  · intro s' h
    rw [hg, bind_ok] at h
    obtain ⟨subs, h1, h⟩ := RepBase.bind_eq_ok h
    obtain ⟨images, h2, h⟩ := RepBase.bind_eq_ok h
    refine foldlM_inv _ (fun s => Dict.get? s.buckets t = some b) _ _ _ (fun s hs j hj s' hs' => ?_) hs h
    have hj := mem_range_drop hj
    rw [Dict.get, hs] at hs'
    dsimp only at hs'
    rw [bind_ok, hsub j (by omega) (by omega), bind_ok] at hs'
    obtain ⟨A, -, hs'⟩ := RepBase.bind_eq_ok hs'
    obtain ⟨_, ha, hs'⟩ := RepBase.bind_eq_ok hs'
    have hlen : (b.braids.map (subBraid n i j)).length = subs.length := by
      rw [pyAssert] at ha
      split at ha
      · next e => simpa using e
      · cases ha
    rw [add_other hs' fun k => ?_, hs]
    have hk : k.1 < b.braids.length := by rw [List.length_map] at hlen; rw [hlen]; exact k.2
    have := (hbr _ (List.getElem_mem hk)).2
    have e : (b.braids.map (subBraid n i j)).getD k.1 ⟨0, 0, []⟩ = subBraid n i j b.braids[k.1] := by
      rw [List.getD_eq_getElem?_getD, List.getElem?_eq_getElem (by simpa using hk), Option.getD_some, List.getElem_map]
    dsimp only
    rw [e, hc]
    simp only [subBraid, NF.canonicalLength, List.length_drop, List.length_take, this]
    omega

theorem product_int (I0 : IntSetup n r m w G I gs ρ) (hc : c.length = NF.canonicalLength) (t u : Tag)
    (ht : (t.1.toNat + u.1.toNat + 2) * (n * (n - 1) / 2) ≤ m) (st : State S NF (dimension n r)) (hr : Reach lim ω (⟨n, 0, gs⟩ : Summand (dimension n r)) ρ c (fun _ => True) st) :
    bucketProductW w (GNF.tbl lim ω) (⟨n, 0, gs⟩ : Summand (dimension n r)) c st t u = bucketProduct (GNF.tbl lim ω) (⟨n, 0, gs⟩ : Summand (dimension n r)) c st t u := by
  have hcon : ∀ (t : Tag) x, bucketBraidsImages st t = .ok x → ∃ l : List (Offer NF (dimension n r)), x = (l.map Offer.braid, l.map Offer.image) ∧ l ≠ [] ∧
      ∀ o ∈ l, TrueOffer lim ω (⟨n, 0, gs⟩ : Summand (dimension n r)) ρ o ∧ o.braid.factors.length = t.1.toNat ∧ o.image.length = t.2.toNat := by
    intro t x hx
    cases hb : Dict.get? st.buckets t with
    | none => rw [bucketBraidsImages, hb] at hx; cases hx
    | some b =>
      obtain ⟨l, l1, -, l2, l3⟩ := hr.contents I0.hd (by show (0 : Nat) ≠ 1; decide) hc hb
      rw [hx] at l1
      cases l1
      refine ⟨l, rfl, l2, fun o ho => ⟨(l3 o ho).1, ?_, ?_⟩⟩
      · have := (l3 o ho).2.1
        rw [NF.canonicalLength] at this; omega
      · have := (l3 o ho).2.2.1; omega
  rw [bucketProductW, bucketProduct]
  refine bind_congr_ok fun x hx => bind_congr_ok fun y hy => bind_congr_ok fun prods _ => ?_
  obtain ⟨l, rfl, l2, l3⟩ := hcon t x hx
  obtain ⟨k, rfl, k2, k3⟩ := hcon u y hy
  dsimp only
  have sl := stack_shift (rep := (⟨n, 0, gs⟩ : Summand (dimension n r))) (ρ := ρ) (lim := lim) (ω := ω) l2 (W := t.2.toNat) (fun o ho => ⟨(l3 o ho).1, (l3 o ho).2.2⟩)
  have sk := stack_shift (rep := (⟨n, 0, gs⟩ : Summand (dimension n r))) (ρ := ρ) (lim := lim) (ω := ω) k2 (W := u.2.toNat) (fun o ho => ⟨(k3 o ho).1, (k3 o ho).2.2⟩)
  have hk0 : 0 < (k.map Offer.image).length := by rw [List.length_map]; exact List.length_pos_iff.2 k2
  rw [mulW_shift I0 _ _ (ne_of_shift I0 sk ⟨0, hk0⟩) sl sk fun g => ?_]
  have g1 : g.1.1 < l.length := by simpa using g.1.2
  have g2 : g.2.1 < k.length := by simpa using g.2.2
  obtain ⟨a, a1, a2, a3⟩ := prefix_word I0.twist l[g.1.1].braid l[g.1.1].braid.factors.length
  obtain ⟨b, b1, b2, b3⟩ := prefix_word I0.twist k[g.2.1].braid k[g.2.1].braid.factors.length
  rw [prefixBraid_all le_rfl] at a3 b3
  refine ⟨a, b, a1, b1, ?_, a3, b3⟩
  rw [min_self, (l3 _ (List.getElem_mem g1)).2.1] at a2
  rw [min_self, (k3 _ (List.getElem_mem g2)).2.1] at b2
  refine le_trans ?_ ht
  refine (Nat.add_le_add a2 b2).trans ?_
  rw [← Nat.add_mul]
  refine Nat.mul_le_mul_right _ ?_
  omega

theorem descendChunk_int (I0 : IntSetup n r m w G I gs ρ) (hm : n * (n - 1) / 2 ≤ m) (hl : n < lim) {t : Tag} {b : Bucket NF (dimension n r)}
    {l : List (Offer NF (dimension n r))} (hh : Holds b l)
    (htrue : ∀ o ∈ l, TrueOffer lim ω (⟨n, 0, gs⟩ : Summand (dimension n r)) ρ o ∧ (NF.canonicalLength o.braid : ℤ) = t.1 ∧ o.braid.power = 0)
    {k : Nat} (ht : (t.1.toNat + k) * (n * (n - 1) / 2) ≤ m) {pairs : List (Nat × NF × NF)} (hne : pairs ≠ []) (hpairs : ∀ x ∈ pairs, GoodPair lim ω n l k x)
    {st : State S NF (dimension n r)} (hb : Dict.get? st.buckets t = some b) :
    descendChunkW w (GNF.tbl lim ω) (⟨n, 0, gs⟩ : Summand (dimension n r)) c t k st pairs = descendChunk (GNF.tbl lim ω) (⟨n, 0, gs⟩ : Summand (dimension n r)) c t k st pairs := by
  have hL : 0 < pairs.length := List.length_pos_iff.2 hne
  obtain ⟨lefts, l1, l2, l3⟩ := mapM_spec (fun x : Nat × NF × NF => lookup b.images x.1) (fun x A => IsProjImage 0 A fun _ => ρ (gnfBraid n x.2.1)) pairs (by
    intro x hx
    obtain ⟨h1, h2⟩ := (hpairs x hx).at_
    have hlen : l.length ≤ b.images.length := by
      have := congrArg List.length hh.2
      rw [List.length_take, List.length_map] at this; omega
    have h3 : b.images[x.1]'(by omega) = l[x.1].image := by
      have : (b.images.take l.length)[x.1]'(by rw [List.length_take]; omega) = (l.map Offer.image)[x.1]'(by simpa using h1) := by
        simp only [hh.2]
      simpa using this
    refine ⟨_, lookup_lt (by omega), ?_⟩
    rw [h3, ← h2]
    exact (htrue _ (List.getElem_mem h1)).1.2)
  obtain ⟨left, le1, -, le3, -⟩ := RepBase.packN_image (p := 0) hL lefts l2 (fun i => ρ (gnfBraid n (pairs[i.1]'i.2).2.1)) (by
    intro i hi
    have := l3 i (by omega)
    exact ⟨⟨this.first, this.last⟩, this.shift⟩)
  have le1' : packL pairs.length lefts = .ok left := le1
  obtain ⟨rights, r1, r2, r3⟩ := evalPrefixes_spec (rep := (⟨n, 0, gs⟩ : Summand (dimension n r))) (lim := lim) (ω := ω) I0.hn hl I0.sreal I0.hd (by show (0 : Nat) ≠ 1; decide) I0.twist (pairs.map fun x => x.2.2) (by simpa using hne) k (by
    intro y hy
    obtain ⟨x, hx, rfl⟩ := List.mem_map.1 hy
    exact ⟨(hpairs x hx).suf, (hpairs x hx).len⟩)
  have hW := (evals_int (ω := ω) I0 hm hl (pairs.map fun x => x.2.2) fun y hy => by
    obtain ⟨x, hx, rfl⟩ := List.mem_map.1 hy
    refine ⟨(hpairs x hx).suf, (weight_le _).trans (le_trans (Nat.mul_le_mul_right _ ?_) ht)⟩
    rw [(hpairs x hx).len, (hpairs x hx).pow]
    simp).2
  have hg : Dict.get st.buckets t = .ok b := by rw [Dict.get, hb]
  rw [descendChunkW, descendChunk, hg, bind_ok, bind_ok, l1, bind_ok, bind_ok, le1', bind_ok, bind_ok, hW, r1, bind_ok, bind_ok]
  refine foldlM_congr _ _ (fun _ => True) _ (fun s _ i hi => ⟨?_, fun _ _ => trivial⟩) st trivial
  have hi := List.mem_range.1 hi
  rw [lookup_lt (by omega : i + 1 < rights.length), bind_ok, bind_ok]
  have hcast : (pairs.map fun x => x.2.2).length = pairs.length := by simp
  have hR : UpToShift 0 (rights[i + 1].map fun S (j : Fin pairs.length) => S (Fin.cast hcast.symm j)) fun j => ρ (prefixBraid n (i + 1) (pairs[j.1]'j.2).2.2) := by
    intro j
    obtain ⟨e, he⟩ := cast_image hcast (r3 (i + 1) (by omega)).shift j
    refine ⟨e, he.trans ?_⟩
    simp
  have e := mulW_shift I0 (fun j : Fin pairs.length => j) (fun j => j) (b := fun j => gnfBraid n (pairs[j.1]'j.2).2.1)
    (c := fun j => prefixBraid n (i + 1) (pairs[j.1]'j.2).2.2) (ne_of_shift I0 hR ⟨0, hL⟩) le3 hR fun j => by
      have hx := List.getElem_mem j.2
      obtain ⟨h1, h2⟩ := (hpairs _ hx).at_
      have h3 := htrue _ (List.getElem_mem h1)
      rw [h2] at h3
      obtain ⟨a, a1, a2, a3⟩ := prefix_word I0.twist (pairs[j.1]'j.2).2.1 (pairs[j.1]'j.2).2.1.factors.length
      obtain ⟨b, b1, b2, b3⟩ := prefix_word I0.twist (pairs[j.1]'j.2).2.2 (i + 1)
      rw [prefixBraid_all le_rfl] at a3
      refine ⟨a, b, a1, b1, ?_, a3, b3⟩
      refine le_trans ?_ ht
      refine (Nat.add_le_add a2 b2).trans ?_
      rw [← Nat.add_mul]
      refine Nat.mul_le_mul_right _ ?_
      have h4 := h3.2.1
      rw [NF.canonicalLength] at h4
      rw [h3.2.2, (hpairs _ hx).pow, (hpairs _ hx).len]
      simp
      omega
  have e' : polymatMulW w (⟨n, 0, gs⟩ : Summand (dimension n r)).p (fun j : Fin pairs.length => j) (fun j => j) left (rights[i + 1].map fun S (j : Fin pairs.length) => S (Fin.cast hcast.symm j)) =
      (⟨n, 0, gs⟩ : Summand (dimension n r)).mulL left (rights[i + 1].map fun S (j : Fin pairs.length) => S (Fin.cast hcast.symm j)) := e
  rw [e']

theorem descend_int (I0 : IntSetup n r m w G I gs ρ) (hm : n * (n - 1) / 2 ≤ m) (hl : n < lim) (hsz : 1 ≤ c.size) (hc : c.length = NF.canonicalLength) (t : Tag) (k : Nat)
    (ht : (t.1.toNat + k) * (n * (n - 1) / 2) ≤ m) (st : State S NF (dimension n r)) (hr : Reach lim ω (⟨n, 0, gs⟩ : Summand (dimension n r)) ρ c (fun _ => True) st)
    (hpow : ∀ b, (t, b) ∈ st.buckets → ∀ x ∈ b.braids, x.power = 0) :
    nfDescendantsW w (GNF.tbl lim ω) (⟨n, 0, gs⟩ : Summand (dimension n r)) c st t k = nfDescendants (GNF.tbl lim ω) (⟨n, 0, gs⟩ : Summand (dimension n r)) c st t k := by
  obtain ⟨tab, R⟩ := exists_greal lim ω I0.hn hl
  rw [nfDescendantsW, nfDescendants]
  cases hb : Dict.get? st.buckets t with
  | none => rw [Dict.get, hb]; rfl
  | some b =>
  have hpow := hpow b (Dict.mem_of_get? hb)
  obtain ⟨l, hh, hlne, htrue0⟩ := hr.bucket I0.hd (by show (0 : Nat) ≠ 1; decide) hc hb
  have htrue : ∀ o ∈ l, TrueOffer lim ω (⟨n, 0, gs⟩ : Summand (dimension n r)) ρ o ∧ (NF.canonicalLength o.braid : ℤ) = t.1 ∧ o.braid.power = 0 := fun o ho =>
    ⟨(htrue0 o ho).1, (htrue0 o ho).2.1, hpow _ (by rw [hh.1]; exact List.mem_map.2 ⟨o, ho, rfl⟩)⟩
  rw [Dict.get, hb, bind_ok, bind_ok]
  refine bind_congr_ok fun all hall => bind_congr_ok fun chunks hch => ?_
  have hgood : ∀ x ∈ all.flatten, GoodPair lim ω n l k x := by
    intro x hx
    obtain ⟨ps, hps, hx⟩ := List.mem_flatten.1 hx
    obtain ⟨xi, hxi, he⟩ := mapM_mem_ok hall ps hps
    obtain ⟨ss, hss, he⟩ := RepBase.bind_eq_ok he
    cases he
    obtain ⟨s, hs, rfl⟩ := List.mem_map.1 hx
    have hz := List.mem_zipIdx (x := xi.1) (i := xi.2) hxi
    have hlt : xi.2 < b.braids.length := by omega
    have hll : xi.2 < l.length := by rw [hh.1, List.length_map] at hlt; exact hlt
    have hxe : xi.1 = l[xi.2].braid := by rw [hz.2.2]; simp only [hh.1, List.getElem_map, Nat.sub_zero]
    have h3 := htrue _ (List.getElem_mem hll)
    have hgx : IsGNF lim ω n xi.1 := by rw [hxe]; exact h3.1.1
    rw [← hxe] at h3
    obtain ⟨ys, y1, -, y3⟩ := R.1.nfSuffixes_spec (R.isGNF_iff.1 hgx) k
    rw [hss] at y1
    cases y1
    obtain ⟨s1, s2, s3, s4⟩ := (y3 s).1 hs
    rw [h3.2.2] at s2 s4
    exact ⟨⟨hll, hxe.symm⟩, R.isGNF_iff.2 s1, s2, s3, R.isGNF_iff.2 s4⟩
  obtain ⟨h1, h2, -⟩ := batchedLoop_spec (k := 1000) (by norm_num) all.flatten [] (by simp)
  rw [batched, if_pos (by norm_num)] at hch
  cases hch
  refine foldlM_congr _ _ (fun s => Reach lim ω (⟨n, 0, gs⟩ : Summand (dimension n r)) ρ c (fun _ => True) s ∧ Dict.get? s.buckets t = some b) _ (fun s hs ch hch => ?_) st ⟨hr, hb⟩
  have hne : ch ≠ [] := by have := (h2 ch hch).1; intro e; simp [e] at this
  have hpairs : ∀ x ∈ ch, GoodPair lim ω n l k x := fun x hx => hgood x (by
    have : x ∈ (batchedLoop 1000 [] all.flatten).flatten := List.mem_flatten.2 ⟨ch, hch, hx⟩
    rw [h1] at this; simpa using this)
  refine ⟨descendChunk_int I0 hm hl hh htrue ht hne hpairs hs.2, fun s' he => ?_⟩
  obtain ⟨st2, bats, c1, c2, c3, -, c5⟩ := descendChunk_spec (rep := (⟨n, 0, gs⟩ : Summand (dimension n r))) (Q := fun _ => True) I0.hn hl I0.sreal I0.hd (by show (0 : Nat) ≠ 1; decide) I0.twist hsz hc hh htrue
    hne hpairs (fun _ _ => trivial) hs.1 hs.2
  rw [c1] at he
  cases he
  exact ⟨hs.1.append _ (addmem fun b' hb' => (c3 b' hb').1) c2, c5⟩

end BraidSearch
end Peyl
