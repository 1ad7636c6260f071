import Verif.Lemmas.BucketDescend2
import Verif.Lemmas.Descend
/-!
# The loops of `nf_descendants` and `bootstrap_exhaustive` of `bucketing.Tracker`
-/
namespace Peyl
open LaurentPolynomial Polymat
namespace Bucketing
variable {S τ W : Type} [DecidableEq τ] [Group W] {d : Nat} {rep : RepBase d} {ρ : Braid rep.n →* LMat rep.p d}
variable {tbl : Nat → Except Err (NFTable τ)} {t : NFTable τ} {g : Germ W} {v : Nat → W} {β : W → Braid rep.n}
variable {c : Config NF d} (K : Ctx rep ρ tbl t g v β c) {rng : Rng S}

/-- The suffixes of length `k` that the code computes for `x`. -/
def sufOf (tbl : Nat → Except Err (NFTable τ)) (k : Nat) (x : NF) : List NF := match NF.nfSuffixes tbl x k with | .ok ys => ys | .error _ => []

/-- A stored pair as `nf_descendants` reads it. -/
structure Pair (rep : RepBase d) (ρ : Braid rep.n →* LMat rep.p d) (t : NFTable τ) (g : Germ W) (v : Nat → W) (β : W → Braid rep.n) (wd : Nat) (x : NF × Img d) : Prop where
  lg : Lg t rep.n x.1
  ne : x.1.factors ≠ []
  img : IsProjImage rep.p x.2 fun _ => Mt ρ g v β x.1
  wd : x.2.length = wd

/-- State of the tracker: reachable buckets, right cache. -/
def TOk (rep : RepBase d) (ρ : Braid rep.n →* LMat rep.p d) (tbl : Nat → Except Err (NFTable τ)) (t : NFTable τ) (g : Germ W) (v : Nat → W)
    (β : W → Braid rep.n) (rng : Rng S) (c : Config NF d) (tr : Tracker S τ d) : Prop :=
  Reach rng c rep.p (Lg t rep.n) (Mt ρ g v β) (tr.buckets, tr.rng) ∧ CacheOk rep ρ tbl t g v β tr.cache

include K

theorem Ctx.loop {wd k : Nat} : ∀ (gs : List (List (NF × Img d))) (tr : Tracker S τ d), TOk rep ρ tbl t g v β rng c tr →
    (∀ grp ∈ gs, grp ≠ [] ∧ (∀ x ∈ grp, Pair rep ρ t g v β wd x) ∧ ∀ x ∈ grp, ∀ y ∈ grp, x.1.factors.getLast? = y.1.factors.getLast?) →
    ∃ tr' bats, descendLoop tbl (rep.toRep tbl) rng c wd k gs tr = .ok tr' ∧ TOk rep ρ tbl t g v β rng c tr' ∧
      run rng c (tr.buckets, tr.rng) (bats.map Op.add) = .ok (tr'.buckets, tr'.rng) ∧
      (∀ b' ∈ bats, TrueBatch rep.p (Lg t rep.n) (Mt ρ g v β) b') ∧
      (braidsOf bats).Perm (gs.flatten.flatMap fun x => (sufOf tbl k x.1).map (ext rep.n x.1))
  | [], tr, h, _ => ⟨tr, [], rfl, h, rfl, by simp, by simp [braidsOf]⟩
  | [] :: gs, tr, h, hg => absurd rfl (hg [] (by simp)).1
  | (x :: xs) :: gs, tr, h, hg => by
    obtain ⟨-, hP, hL⟩ := hg (x :: xs) (by simp)
    obtain ⟨hx, hxne, -, -⟩ := hP x (by simp)
    obtain ⟨r, cache', c1, c2, c3, c4, c5⟩ := K.cached h.2 hx hxne k
    obtain ⟨ys, y1, -, y3, y4⟩ := K.suffixes hx k
    have hys : r.1 = ys := by rw [y1] at c3; cases c3; rfl
    have hsuf : ∀ y ∈ x :: xs, sufOf tbl k y.1 = r.1 := by
      intro y hy
      rw [sufOf, y4 y.1 (hP y hy).lg (hL y hy x (by simp)), hys]
    have hlen : ((x :: xs).map Prod.fst).length = ((x :: xs).map Prod.snd).length := by simp
    have himg : IsProjImage rep.p ((stackImgs wd ((x :: xs).map Prod.snd)).map fun S (i : Fin ((x :: xs).map Prod.fst).length) => S (Fin.cast hlen i))
        (fun i : Fin ((x :: xs).map Prod.fst).length => Mt ρ g v β ((x :: xs).map Prod.fst)[i]) := by
      have hm : ∀ i : Fin ((x :: xs).map Prod.fst).length, ∃ q ∈ x :: xs, ((x :: xs).map Prod.snd)[Fin.cast hlen i] = q.2 ∧ ((x :: xs).map Prod.fst)[i] = q.1 := by
        rintro ⟨i, hi⟩
        have hi' : i < (x :: xs).length := by simpa using hi
        refine ⟨(x :: xs)[i], List.getElem_mem hi', ?_, ?_⟩
        · exact List.getElem_map Prod.snd
        · exact List.getElem_map Prod.fst
      have := stack_image (p := rep.p) (d := d) (W := wd) (L := ((x :: xs).map Prod.fst).length) (by simp)
        (fun i => ((x :: xs).map Prod.snd)[Fin.cast hlen i]) (fun i => Mt ρ g v β ((x :: xs).map Prod.fst)[i]) (fun i => by
          obtain ⟨q, hq, e1, -⟩ := hm i
          rw [e1]; exact (hP q hq).wd) (fun i => by
          obtain ⟨q, hq, e1, e2⟩ := hm i
          rw [e1, e2]; exact (hP q hq).img)
      rw [stackImgs, List.map_map]
      exact this
    obtain ⟨b, b1, b2, b3⟩ := K.product (braids := (x :: xs).map Prod.fst) (by simp) (fun y hy => by
        obtain ⟨q, hq, rfl⟩ := List.mem_map.1 hy
        exact (hP q hq).lg) himg.shift (sufs := r.1) c4 c5.shift (by
      intro a ha s hs
      obtain ⟨q, hq, rfl⟩ := List.mem_map.1 ha
      obtain ⟨ys', y1', -, y3', -⟩ := K.suffixes (hP q hq).lg k
      have : r.1 = ys' := by
        have := hsuf q hq
        rw [sufOf, y1'] at this; exact this.symm
      have := (y3' s).1 (this ▸ hs)
      exact ⟨this.1, this.2.2⟩)
    obtain ⟨st', a1, a2, a3⟩ := h.1.add_ok K.ne K.total K.length K.cap b2
    obtain ⟨tr', bats, l1, l2, l3, l4, l5⟩ := Ctx.loop gs { buckets := st'.1, cache := cache', rng := st'.2 } ⟨a3, c2⟩ (fun grp hgrp => hg grp (by simp [hgrp]))
    refine ⟨tr', b :: bats, ?_, l2, ?_, ?_, ?_⟩
    · rw [descendLoop, c1, bind_ok]
      dsimp only
      have b1' : productBatch tbl (rep.toRep tbl).p ((x :: xs).map Prod.fst)
        ((stackImgs wd ((x :: xs).map Prod.snd)).map fun S i => S ⟨i, by have := i.2; simp only [List.length_map] at this ⊢; exact this⟩) r.1 r.2 = .ok b := b1
      rw [b1', bind_ok, a1, bind_ok]
      exact l1
    · have : ((b :: bats).map Op.add : List (Op NF d)) = [Op.add b] ++ bats.map Op.add := rfl
      rw [this, run_append, a2, bind_ok]; exact l3
    · intro b' hb'
      rcases List.mem_cons.1 hb' with rfl | hb'
      · exact b2
      · exact l4 b' hb'
    · rw [braidsOf, List.flatMap_cons, List.flatten_cons, List.flatMap_append]
      refine List.Perm.append ?_ l5
      rw [b3]
      refine (flatMap_map_swap (fun y x => ext rep.n x y) r.1 ((x :: xs).map Prod.fst)).trans (List.Perm.of_eq ?_)
      rw [List.flatMap_map]
      exact List.flatMap_congr fun q hq => by rw [hsuf q hq]

omit K in
theorem Pair.of_holds {wd : Nat} {b : Bucket Tag NF d} {l : List (Offer NF d)} (hh : Holds b l) (ht : ∀ o ∈ l, Lg t rep.n o.braid ∧ o.braid.factors ≠ [] ∧
    IsProjImage rep.p o.image (fun _ => Mt ρ g v β o.braid) ∧ o.image.length = wd) :
    ((List.range b.braids.length).map fun i => (b.braidsImages.1.getD i ⟨0, 0, []⟩, b.braidsImages.2.getD i [])) = l.map (fun o => (o.braid, o.image)) ∧
      ∀ x ∈ l.map (fun o => (o.braid, o.image)), Pair rep ρ t g v β wd x := by
  have hlen : b.braids.length = l.length := by rw [hh.1, List.length_map]
  refine ⟨?_, fun x hx => ?_⟩
  · refine List.ext_getElem (by simp [hlen]) fun i h1 h2 => ?_
    have hi : i < l.length := by simpa using h2
    have e2 : b.braidsImages.2 = l.map Offer.image := by rw [Bucket.braidsImages, Bucket.size, hlen, hh.2.1]
    have e1 : b.braidsImages.1 = l.map Offer.braid := hh.1
    rw [List.getElem_map, List.getElem_map, List.getElem_range, e1, e2]
    simp [List.getD_eq_getElem?_getD, hi]
  · obtain ⟨o, ho, rfl⟩ := List.mem_map.1 hx
    obtain ⟨h1, h2, h3, h4⟩ := ht o ho
    exact ⟨h1, h2, h3, h4⟩

omit K in
theorem chain_all_eq {α γ : Type} (f : α → γ) : ∀ {l : List α}, l.IsChain (fun x y => f x = f y) → ∀ x ∈ l, ∀ y ∈ l, f x = f y := by
  intro l h
  haveI : IsTrans α (fun x y => f x = f y) := ⟨fun _ _ _ h1 h2 => h1.trans h2⟩
  rw [List.isChain_iff_pairwise] at h
  intro x hx y hy
  haveI : Std.Symm (fun x y => f x = f y) := ⟨fun _ _ e => e.symm⟩
  exact h.forall_of_forall (R := fun x y => f x = f y) (fun _ _ => rfl) hx hy

/-- `nf_descendants`. -/
theorem Ctx.descend {argsort : List Nat → List Nat} (hsort : ∀ l, (argsort l).Perm (List.range l.length)) {tr : Tracker S τ d}
    (h : TOk rep ρ tbl t g v β rng c tr) {tag : Tag} {b : Bucket Tag NF d} (hb : Dict.get? tr.buckets tag = some b) (htag : 1 ≤ tag.1) (k : Nat) :
    ∃ tr' bats, nfDescendants tbl (rep.toRep tbl) rng c argsort tr tag k = .ok tr' ∧ TOk rep ρ tbl t g v β rng c tr' ∧
      run rng c (tr.buckets, tr.rng) (bats.map Op.add) = .ok (tr'.buckets, tr'.rng) ∧
      (∀ b' ∈ bats, TrueBatch rep.p (Lg t rep.n) (Mt ρ g v β) b') ∧
      ∃ Z : NF → List (List Nat), (∀ x ∈ b.braids, (Z x).Nodup ∧ ∀ w, w ∈ Z x ↔ w.length = k ∧ NFReal.Valid t rep.n ⟨rep.n, 0, x.factors ++ w⟩) ∧
        (braidsOf bats).Perm (b.braids.flatMap fun x => (Z x).map fun w => ⟨rep.n, 0, x.factors ++ w⟩) := by
  obtain ⟨l, hh, hne, hw, htrue⟩ := h.1.bucket K.ne K.total K.length K.cap hb
  have hfac : ∀ o ∈ l, o.braid.factors ≠ [] := by
    intro o ho e
    have := (htrue o ho).2.2.1
    rw [NF.canonicalLength, e] at this
    simp at this; omega
  obtain ⟨e1, hP⟩ := Pair.of_holds (rep := rep) (ρ := ρ) (t := t) (g := g) (v := v) (β := β) (wd := b.width) hh
    fun o ho => ⟨(htrue o ho).1, hfac o ho, (htrue o ho).2.1, (htrue o ho).2.2.2⟩
  obtain ⟨last, m1, m2, -⟩ := mapM_spec lastFactor (fun _ _ => True) b.braids (by
    intro x hx
    rw [hh.1] at hx
    obtain ⟨o, ho, rfl⟩ := List.mem_map.1 hx
    exact ⟨_, by rw [lastFactor, List.getLast?_eq_some_getLast (hfac o ho)], trivial⟩)
  set sorted := (argsort last).map fun i => (b.braidsImages.1.getD i ⟨0, 0, []⟩, b.braidsImages.2.getD i []) with hsorted
  have hperm : sorted.Perm (l.map fun o => (o.braid, o.image)) := by
    rw [← e1, hsorted]
    refine List.Perm.map _ ?_
    rw [← m2]; exact hsort last
  obtain ⟨tr', bats, l1, l2, l3, l4, l5⟩ := K.loop (rng := rng) (wd := b.width) (k := k)
    (sorted.splitBy fun x y => x.1.factors.getLast? == y.1.factors.getLast?) tr h (by
      intro grp hg
      refine ⟨List.ne_nil_of_mem_splitBy hg, fun x hx => hP x (hperm.mem_iff.1 ?_), ?_⟩
      · rw [← List.flatten_splitBy (fun x y : NF × Img d => x.1.factors.getLast? == y.1.factors.getLast?) sorted]
        exact List.mem_flatten.2 ⟨grp, hg, hx⟩
      · refine chain_all_eq (fun x : NF × Img d => x.1.factors.getLast?) ?_
        simpa using List.isChain_of_mem_splitBy hg)
  refine ⟨tr', bats, ?_, l2, l3, l4, fun x => (sufOf tbl k x).map NF.factors, fun x hx => ?_, ?_⟩
  · rw [nfDescendants, Dict.get, hb, bind_ok]
    dsimp only
    have m1' : b.braidsImages.1.mapM lastFactor = .ok last := m1
    rw [m1', bind_ok]
    exact l1
  · rw [hh.1] at hx
    obtain ⟨o, ho, rfl⟩ := List.mem_map.1 hx
    obtain ⟨ys, y1, y2, y3, -⟩ := K.suffixes (htrue o ho).1 k
    have hsf : sufOf tbl k o.braid = ys := by rw [sufOf, y1]
    simp only [hsf]
    refine ⟨?_, fun w => ?_⟩
    · rw [List.nodup_map_iff_inj_on y2]
      intro y hy z hz e
      have hy := (y3 y).1 hy
      have hz := (y3 z).1 hz
      have e1 := hy.1.1.n_eq
      have e2 := hz.1.1.n_eq
      have e3 := hy.1.2
      have e4 := hz.1.2
      cases y; cases z; simp_all
    · rw [List.mem_map]
      constructor
      · rintro ⟨y, hy, rfl⟩
        exact ((y3 y).1 hy).2
      · rintro ⟨h1, h2⟩
        exact ⟨⟨rep.n, 0, w⟩, (y3 _).2 ⟨⟨K.real.valid_suffix h2, rfl⟩, h1, h2⟩, rfl⟩
  · refine l5.trans ?_
    rw [List.flatten_splitBy]
    refine (hperm.flatMap_right _).trans (List.Perm.of_eq ?_)
    rw [hh.1, List.flatMap_map, List.flatMap_map]
    refine List.flatMap_congr fun o _ => ?_
    rw [List.map_map]; rfl

/-- `bootstrap_exhaustive`. -/
theorem Ctx.bootstrap (upto : Nat) {tr : Tracker S τ d} (h : TOk rep ρ tbl t g v β rng c tr) :
    ∃ tr' bats, bootstrapExhaustive tbl (rep.toRep tbl) rng c upto tr = .ok tr' ∧ TOk rep ρ tbl t g v β rng c tr' ∧
      run rng c (tr.buckets, tr.rng) (bats.map Op.add) = .ok (tr'.buckets, tr'.rng) ∧
      (∀ b' ∈ bats, TrueBatch rep.p (Lg t rep.n) (Mt ρ g v β) b') ∧
      (braidsOf bats).Nodup ∧ ∀ x, x ∈ braidsOf bats ↔ Lg t rep.n x ∧ 1 ≤ x.factors.length ∧ x.factors.length ≤ upto := by
  have hadd : ∀ bats : List (Batch NF d), (∀ b' ∈ bats, TrueBatch rep.p (Lg t rep.n) (Mt ρ g v β) b') →
      ∀ b'', Op.add b'' ∈ bats.map Op.add → TrueBatch rep.p (Lg t rep.n) (Mt ρ g v β) b'' := by
    intro bats hb b'' hb''
    obtain ⟨x, hx, e⟩ := List.mem_map.1 hb''
    cases e; exact hb _ hx
  obtain ⟨st', f1, bats, f2, f3, f4, f5⟩ := foldlM_range (fun (st : Buckets NF d × S) k => do
      let all ← NF.allOfLength tbl rep.n (k + 1) 0
      let chunks ← batched all 10000
      bootstrapLength (rep.toRep tbl) rng c st chunks)
    (fun k st' => ∃ bats : List (Batch NF d), run rng c (tr.buckets, tr.rng) (bats.map Op.add) = .ok st' ∧
      (∀ b' ∈ bats, TrueBatch rep.p (Lg t rep.n) (Mt ρ g v β) b') ∧
      (braidsOf bats).Nodup ∧ ∀ x, x ∈ braidsOf bats ↔ Lg t rep.n x ∧ 1 ≤ x.factors.length ∧ x.factors.length ≤ k)
    upto (tr.buckets, tr.rng) ⟨[], rfl, by simp, by simp [braidsOf], fun x => by simp only [braidsOf, List.flatMap_nil, List.not_mem_nil, false_iff]; omega⟩ (by
      rintro k - st1 ⟨bats, b1, b2, b3, b4⟩
      obtain ⟨xs, x1, x2, x3, -⟩ := K.real.allOfLength_spec (k + 1) 0
      obtain ⟨h1, h2, -⟩ := batchedLoop_spec (k := 10000) (by norm_num) xs [] (by simp)
      have hbat : batched xs 10000 = .ok (batchedLoop 10000 [] xs) := by rw [batched, if_pos (by norm_num)]; rfl
      obtain ⟨st', g1, bats2, g2, g3, g4⟩ := BraidSearch.foldlM_list (fun (st : Buckets NF d × S) (bs : List NF) => do
          let images ← (rep.toRep tbl).evalSame bs
          addBraidsImages rng c st { len := bs.length, braids := fun i => bs[i], images := images })
        (fun cs st' => ∃ bats2 : List (Batch NF d), run rng c (tr.buckets, tr.rng) ((bats ++ bats2).map Op.add) = .ok st' ∧
          (∀ b' ∈ bats2, TrueBatch rep.p (Lg t rep.n) (Mt ρ g v β) b') ∧ braidsOf bats2 = cs.flatten)
        (batchedLoop 10000 [] xs) st1 ⟨[], by simpa using b1, by simp, rfl⟩ (by
          rintro cs ch rest e st2 ⟨bats2, c1, c2, c3⟩
          have hch : ch ∈ batchedLoop 10000 [] xs := by rw [e]; simp
          have hmem : ∀ x ∈ ch, Lg t rep.n x ∧ x.factors.length = k + 1 := by
            intro x hx
            have : x ∈ (batchedLoop 10000 [] xs).flatten := List.mem_flatten.2 ⟨ch, hch, hx⟩
            rw [h1, List.nil_append, x3] at this
            exact ⟨⟨this.1, this.2.1⟩, this.2.2⟩
          have hne : ch ≠ [] := by have := (h2 ch hch).1; intro e; simp [e] at this
          obtain ⟨A, a1, a2⟩ := K.eval ch hne (k + 1) hmem
          have hbt : TrueBatch rep.p (Lg t rep.n) (Mt ρ g v β) { len := ch.length, braids := fun i => ch[i], images := A } :=
            ⟨List.length_pos_iff.2 hne, fun i => (hmem _ (List.getElem_mem i.2)).1, a2.reduced, a2.shift⟩
          have hr1 := h.1.append ((bats ++ bats2).map Op.add) (hadd _ (fun b' hb' => by
            rcases List.mem_append.1 hb' with hx | hx
            · exact b2 _ hx
            · exact c2 _ hx)) c1
          obtain ⟨st3, d1, d2, -⟩ := hr1.add_ok K.ne K.total K.length K.cap hbt
          have a1' : (rep.toRep tbl).evalSame ch = .ok A := a1
          refine ⟨st3, by rw [a1', bind_ok]; exact d1, bats2 ++ [{ len := ch.length, braids := fun i => ch[i], images := A }], ?_, ?_, ?_⟩
          · rw [← List.append_assoc, List.map_append, run_append, c1, bind_ok]
            exact d2
          · intro b'' hb''
            rcases List.mem_append.1 hb'' with hb'' | hb''
            · exact c2 _ hb''
            · obtain rfl := List.mem_singleton.1 hb''
              exact hbt
          · rw [braidsOf, List.flatMap_append, List.flatten_append]
            congr 1
            simp only [List.flatMap_cons, List.flatMap_nil, List.append_nil, List.flatten_cons, List.flatten_nil]
            exact List.ofFn_getElem (xs := ch))
      rw [h1, List.nil_append] at g4
      refine ⟨st', by rw [x1, bind_ok, hbat, bind_ok]; exact g1, bats ++ bats2, g2, ?_, ?_, ?_⟩
      · intro b'' hb''
        rcases List.mem_append.1 hb'' with hb'' | hb''
        · exact b2 _ hb''
        · exact g3 _ hb''
      · rw [braidsOf, List.flatMap_append, List.nodup_append]
        refine ⟨b3, by rw [← braidsOf, g4]; exact x2, fun x hx y hy e => ?_⟩
        subst e
        have h1 := (b4 x).1 hx
        rw [← braidsOf, g4, x3] at hy
        omega
      · intro x
        rw [braidsOf, List.flatMap_append, List.mem_append, ← braidsOf, ← braidsOf, b4, g4, x3]
        constructor
        · rintro (⟨h1, h3, h4⟩ | ⟨h1, h2, h3⟩)
          · exact ⟨h1, h3, by omega⟩
          · exact ⟨⟨h1, h2⟩, by omega, by omega⟩
        · rintro ⟨⟨h1, h2⟩, h3, h4⟩
          rcases Nat.lt_or_ge x.factors.length (k + 1) with h | h
          · exact .inl ⟨⟨h1, h2⟩, h3, by omega⟩
          · exact .inr ⟨h1, h2, by omega⟩)
  refine ⟨{ tr with buckets := st'.1, rng := st'.2 }, bats, ?_, ⟨h.1.append _ (hadd _ f3) f2, h.2⟩, f2, f3, f4, f5⟩
  rw [bootstrapExhaustive]
  have f1' : ((List.range upto).foldlM (init := (tr.buckets, tr.rng)) fun st k => do
    let all ← NF.allOfLength tbl (rep.toRep tbl).n (k + 1) 0
    let chunks ← batched all 10000
    bootstrapLength (rep.toRep tbl) rng c st chunks) = .ok st' := f1
  rw [f1']; rfl

end Bucketing
end Peyl
