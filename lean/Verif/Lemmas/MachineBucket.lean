import Verif.Spec.MachineBucket
import Verif.Lemmas.MachineMain
import Verif.Lemmas.MachineInt
import Verif.Lemmas.MachineSearchInt
import Verif.Lemmas.MachineGens
import Verif.Lemmas.BucketValidate
/-!
# `bucketing.Tracker` with machine integers
-/
namespace Peyl
open LaurentPolynomial Polymat

theorem mapM_all_ok {α β : Type} {f : α → Except Err β} : ∀ {l : List α} {ys : List β}, l.mapM f = .ok ys → ∀ x ∈ l, ∃ y, f x = .ok y
  | [], _, _, x, hx => by cases hx
  | a :: l, ys, h, x, hx => by
    rw [List.mapM_cons] at h
    obtain ⟨y, h1, h⟩ := RepBase.bind_eq_ok h
    obtain ⟨ys', h2, -⟩ := RepBase.bind_eq_ok h
    rcases List.mem_cons.1 hx with rfl | hx
    · exact ⟨y, h1⟩
    · exact mapM_all_ok h2 x hx

namespace Bucketing
variable {S τ W : Type} [DecidableEq τ] [Group W] {d : Nat} {rep : RepBase d} {ρ : Braid rep.n →* LMat rep.p d}
variable {tbl : Nat → Except Err (NFTable τ)} {t : NFTable τ} {g : Germ W} {v : Nat → W} {β : W → Braid rep.n}
variable {c : Config NF d} (K : Ctx rep ρ tbl t g v β c) {rng : Rng S}

/-- The evaluator does not overflow on braids of length `k`. -/
def EvalOk (w : Nat) (rep : RepBase d) (tbl : Nat → Except Err (NFTable τ)) (t : NFTable τ) (k : Nat) : Prop :=
  ∀ xs : List NF, (∀ x ∈ xs, Lg t rep.n x ∧ x.factors.length = k) → rep.evalSameW w tbl xs = rep.evalSame tbl xs

/-- Products of images of braids of length `l` with images of braids of length `k` do not overflow. -/
def MulOk (w : Nat) (rep : RepBase d) (ρ : Braid rep.n →* LMat rep.p d) (t : NFTable τ) (g : Germ W) (v : Nat → W) (β : W → Braid rep.n) (l k : Nat) : Prop :=
  ∀ (braids sufs : List NF) (left : PArr (Fin braids.length) d d) (rights : PArr (Fin sufs.length) d d), braids ≠ [] → sufs ≠ [] →
    (∀ x ∈ braids, Lg t rep.n x ∧ x.factors.length = l) → (∀ y ∈ sufs, Lg t rep.n y ∧ y.factors.length = k) →
    IsProjImage rep.p left (fun i => Mt ρ g v β braids[i]) → IsProjImage rep.p rights (fun i => Mt ρ g v β sufs[i]) →
    polymatMulW w rep.p (fun g : Fin sufs.length × Fin braids.length => g.2) (fun g => g.1) left rights =
      polymatMul rep.p (fun g : Fin sufs.length × Fin braids.length => g.2) (fun g => g.1) left rights

include K

theorem Ctx.cachedW {w k : Nat} (hE : EvalOk w rep tbl t k) (cache : SuffixCache τ d) {x : NF} (hx : Lg t rep.n x) :
    cachedSuffixes tbl (rep.toRepW w tbl) cache x k = cachedSuffixes tbl (rep.toRep tbl) cache x k := by
  obtain ⟨ys, y1, y2, y3, y4⟩ := K.suffixes hx k
  rw [cachedSuffixes, cachedSuffixes]
  refine bind_congr_ok fun t' _ => bind_congr_ok fun lf _ => bind_congr_ok fun δ _ => ?_
  cases Dict.get? cache (k, δ) with
  | some r => rfl
  | none =>
    dsimp only
    have e : (rep.toRepW w tbl).evalSame ys = (rep.toRep tbl).evalSame ys := hE ys fun y hy => ⟨((y3 y).1 hy).1, ((y3 y).1 hy).2.1⟩
    rw [y1, bind_ok, bind_ok, e]

theorem Ctx.loopW {w wd k l : Nat} (hE : EvalOk w rep tbl t k) (hM : MulOk w rep ρ t g v β l k) : ∀ (gs : List (List (NF × Img d))) (tr : Tracker S τ d), TOk rep ρ tbl t g v β rng c tr →
    (∀ grp ∈ gs, grp ≠ [] ∧ (∀ x ∈ grp, Pair rep ρ t g v β wd x ∧ x.1.factors.length = l) ∧ ∀ x ∈ grp, ∀ y ∈ grp, x.1.factors.getLast? = y.1.factors.getLast?) →
    descendLoopW w tbl (rep.toRepW w tbl) rng c wd k gs tr = descendLoop tbl (rep.toRep tbl) rng c wd k gs tr
  | [], tr, h, _ => rfl
  | [] :: gs, tr, h, hg => absurd rfl (hg [] (by simp)).1
  | (x :: xs) :: gs, tr, h, hg => by
    obtain ⟨-, hP', hL⟩ := hg (x :: xs) (by simp)
    have hP : ∀ x' ∈ x :: xs, Pair rep ρ t g v β wd x' := fun x' hx' => (hP' x' hx').1
    obtain ⟨hx, hxne, -, -⟩ := hP x (by simp)
    obtain ⟨r, cache', c1, c2, c3, c4, c5⟩ := K.cached h.2 hx hxne k
    obtain ⟨ys, y1, -, y3, y4⟩ := K.suffixes hx k
    have hys : r.1 = ys := by rw [y1] at c3; cases c3; rfl
    have hlen : ((x :: xs).map Prod.fst).length = ((x :: xs).map Prod.snd).length := by simp
    have himg : IsProjImage rep.p ((stackImgs wd ((x :: xs).map Prod.snd)).map fun S (i : Fin ((x :: xs).map Prod.fst).length) => S (Fin.cast hlen i))
        (fun i : Fin ((x :: xs).map Prod.fst).length => Mt ρ g v β ((x :: xs).map Prod.fst)[i]) := by
      have hm : ∀ i : Fin ((x :: xs).map Prod.fst).length, ∃ q ∈ x :: xs, ((x :: xs).map Prod.snd)[Fin.cast hlen i] = q.2 ∧ ((x :: xs).map Prod.fst)[i] = q.1 := by
        rintro ⟨i, hi⟩
        have hi' : i < (x :: xs).length := by simpa using hi
        refine ⟨(x :: xs)[i], List.getElem_mem hi', ?_, ?_⟩
        · exact List.getElem_map Prod.snd
        · exact List.getElem_map Prod.fst
      have := stack_image (p := rep.p) (d := d) (W := wd) (L := ((x :: xs).map Prod.fst).length) (by simp)
        (fun i => ((x :: xs).map Prod.snd)[Fin.cast hlen i]) (fun i => Mt ρ g v β ((x :: xs).map Prod.fst)[i]) (fun i => by
          obtain ⟨q, hq, e1, -⟩ := hm i
          rw [e1]; exact (hP q hq).wd) (fun i => by
          obtain ⟨q, hq, e1, e2⟩ := hm i
          rw [e1, e2]; exact (hP q hq).img)
      rw [stackImgs, List.map_map]
      exact this
    have hmul := hM ((x :: xs).map Prod.fst) r.1 _ r.2 (by simp) c4 (fun y hy => by
        obtain ⟨q, hq, rfl⟩ := List.mem_map.1 hy
        exact ⟨(hP q hq).lg, (hP' q hq).2⟩) (fun y hy => by
        rw [hys] at hy
        exact ⟨((y3 y).1 hy).1, ((y3 y).1 hy).2.1⟩) himg c5
    obtain ⟨b, b1, b2, b3⟩ := K.product (braids := (x :: xs).map Prod.fst) (by simp) (fun y hy => by
        obtain ⟨q, hq, rfl⟩ := List.mem_map.1 hy
        exact (hP q hq).lg) himg.shift (sufs := r.1) c4 c5.shift (by
      intro a ha s hs
      obtain ⟨q, hq, rfl⟩ := List.mem_map.1 ha
      obtain ⟨ys', y1', -, y3', -⟩ := K.suffixes (hP q hq).lg k
      have e : r.1 = ys' := by
        have := y4 q.1 (hP q hq).lg (hL q hq x (by simp))
        rw [y1'] at this; cases this; exact hys
      have := (y3' s).1 (e ▸ hs)
      exact ⟨this.1, this.2.2⟩)
    obtain ⟨st', a1, a2, a3⟩ := h.1.add_ok K.ne K.total K.length K.cap b2
    have ih := Ctx.loopW hE hM gs { buckets := st'.1, cache := cache', rng := st'.2 } ⟨a3, c2⟩ (fun grp hgrp => hg grp (by simp [hgrp]))
    rw [descendLoopW, descendLoop, K.cachedW hE _ hx, c1, bind_ok, bind_ok]
    dsimp only
    have b1' : productBatch tbl rep.p ((x :: xs).map Prod.fst)
        ((stackImgs wd ((x :: xs).map Prod.snd)).map fun S i => S ⟨i, by have := i.2; simp only [List.length_map] at this ⊢; exact this⟩) r.1 r.2 = .ok b := b1
    have b1W : productBatchW w tbl rep.p ((x :: xs).map Prod.fst)
        ((stackImgs wd ((x :: xs).map Prod.snd)).map fun S i => S ⟨i, by have := i.2; simp only [List.length_map] at this ⊢; exact this⟩) r.1 r.2 = .ok b := by
      rw [← b1', productBatchW, productBatch]
      exact congrArg (fun z => z >>= _) hmul
    rw [show (rep.toRepW w tbl).p = rep.p from rfl, show (rep.toRep tbl).p = rep.p from rfl, b1', b1W, bind_ok, bind_ok, a1, bind_ok, bind_ok]
    exact ih

/-- `nf_descendants`. -/
theorem Ctx.descendW {argsort : List Nat → List Nat} (hsort : ∀ l, (argsort l).Perm (List.range l.length)) {tr : Tracker S τ d}
    (h : TOk rep ρ tbl t g v β rng c tr) (tag : Tag) {w k : Nat} (hE : EvalOk w rep tbl t k) (hM : MulOk w rep ρ t g v β tag.1.toNat k) :
    nfDescendantsW w tbl (rep.toRepW w tbl) rng c argsort tr tag k = nfDescendants tbl (rep.toRep tbl) rng c argsort tr tag k := by
  rw [nfDescendantsW, nfDescendants]
  refine bind_congr_ok fun b hb => ?_
  have hb : Dict.get? tr.buckets tag = some b := by
    rw [Dict.get] at hb
    split at hb
    · next e => cases hb; exact e
    · cases hb
  refine bind_congr_ok fun last hlast => ?_
  obtain ⟨l, hh, hne, hw, htrue⟩ := h.1.bucket K.ne K.total K.length K.cap hb
  have hlast' : b.braids.mapM lastFactor = .ok last := hlast
  have hfac : ∀ o ∈ l, o.braid.factors ≠ [] := by
    intro o ho e
    obtain ⟨y, hy⟩ := mapM_all_ok hlast' o.braid (by rw [hh.1]; exact List.mem_map_of_mem ho)
    rw [lastFactor, e] at hy
    cases hy
  obtain ⟨e1, hP⟩ := Pair.of_holds (rep := rep) (ρ := ρ) (t := t) (g := g) (v := v) (β := β) (wd := b.width) hh
    fun o ho => ⟨(htrue o ho).1, hfac o ho, (htrue o ho).2.1, (htrue o ho).2.2.2⟩
  obtain ⟨last', m1, m2, -⟩ := mapM_spec lastFactor (fun _ _ => True) b.braids (by
    intro x hx
    rw [hh.1] at hx
    obtain ⟨o, ho, rfl⟩ := List.mem_map.1 hx
    exact ⟨_, by rw [lastFactor, List.getLast?_eq_some_getLast (hfac o ho)], trivial⟩)
  rw [m1] at hlast'; cases hlast'
  set sorted := (argsort last).map fun i => (b.braidsImages.1.getD i ⟨0, 0, []⟩, b.braidsImages.2.getD i []) with hsorted
  have hperm : sorted.Perm (l.map fun o => (o.braid, o.image)) := by
    rw [← e1, hsorted]
    refine List.Perm.map _ ?_
    rw [← m2]; exact hsort last
  refine K.loopW hE hM (rng := rng) (wd := b.width) _ tr h ?_
  intro grp hg
  have hmem : ∀ x ∈ grp, x ∈ l.map fun o => (o.braid, o.image) := fun x hx => by
    refine hperm.mem_iff.1 ?_
    rw [← List.flatten_splitBy (fun x y : NF × Img d => x.1.factors.getLast? == y.1.factors.getLast?) sorted]
    exact List.mem_flatten.2 ⟨grp, hg, hx⟩
  refine ⟨List.ne_nil_of_mem_splitBy hg, fun x hx => ⟨hP x (hmem x hx), ?_⟩, ?_⟩
  · obtain ⟨o, ho, rfl⟩ := List.mem_map.1 (hmem x hx)
    have := (htrue o ho).2.2.1
    rw [NF.canonicalLength] at this
    dsimp only
    omega
  · refine chain_all_eq (fun x : NF × Img d => x.1.factors.getLast?) ?_
    simpa using List.isChain_of_mem_splitBy hg

/-- `bootstrap_exhaustive`. -/
theorem Ctx.bootstrapW {w : Nat} (upto : Nat) (tr : Tracker S τ d) (hE : ∀ k, 1 ≤ k → k ≤ upto → EvalOk w rep tbl t k) :
    bootstrapExhaustive tbl (rep.toRepW w tbl) rng c upto tr = bootstrapExhaustive tbl (rep.toRep tbl) rng c upto tr := by
  rw [bootstrapExhaustive, bootstrapExhaustive, foldlM_congr _ _ (fun _ => True) (List.range upto) (fun st _ k hk => ⟨?_, fun _ _ => trivial⟩) (tr.buckets, tr.rng) trivial]
  have hk := List.mem_range.1 hk
  refine bind_congr_ok fun all hall => bind_congr_ok fun chunks hch => ?_
  obtain ⟨xs, x1, x2, x3, -⟩ := K.real.allOfLength_spec (k + 1) 0
  have hall' : NF.allOfLength tbl rep.n (k + 1) 0 = .ok all := hall
  rw [x1] at hall'; cases hall'
  obtain ⟨h1, h2, -⟩ := batchedLoop_spec (k := 10000) (by norm_num) all [] (by simp)
  have hbat : batched all 10000 = .ok (batchedLoop 10000 [] all) := by rw [batched, if_pos (by norm_num)]; rfl
  rw [hbat] at hch; cases hch
  rw [bootstrapLength, bootstrapLength]
  refine foldlM_congr _ _ (fun _ => True) _ (fun st _ bs hbs => ⟨?_, fun _ _ => trivial⟩) _ trivial
  have e : (rep.toRepW w tbl).evalSame bs = (rep.toRep tbl).evalSame bs := hE (k + 1) (by omega) (by omega) bs fun x hx => by
    have hx' : x ∈ all := by
      have : x ∈ (batchedLoop 10000 [] all).flatten := List.mem_flatten.2 ⟨bs, hbs, hx⟩
      rw [h1] at this; simpa using this
    have := (x3 x).1 hx'
    exact ⟨⟨this.1, this.2.1⟩, this.2.2⟩
  rw [e]

/-- Operations that do not overflow. -/
def OpOk (w : Nat) (rep : RepBase d) (ρ : Braid rep.n →* LMat rep.p d) (tbl : Nat → Except Err (NFTable τ)) (t : NFTable τ) (g : Germ W) (v : Nat → W) (β : W → Braid rep.n) :
    TrackerOp d → Prop
  | .bootstrap upto => ∀ k, 1 ≤ k → k ≤ upto → EvalOk w rep tbl t k
  | .descend tag k => EvalOk w rep tbl t k ∧ MulOk w rep ρ t g v β tag.1.toNat k
  | _ => True

theorem Ctx.historyW {w : Nat} {argsort : List Nat → List Nat} (hsort : ∀ l, (argsort l).Perm (List.range l.length)) (s : S) (ops : List (TrackerOp d))
    (ho : ∀ b, TrackerOp.add b ∈ ops → TrueBatch rep.p (Lg t rep.n) (Mt ρ g v β) b) (hok : ∀ op ∈ ops, OpOk w rep ρ tbl t g v β op) :
    historyW w tbl rep rng c argsort s ops = history tbl (rep.toRep tbl) rng c argsort s ops := by
  refine foldlM_congr _ _ (TOk rep ρ tbl t g v β rng c) _ (fun tr htr op hop => ⟨?_, fun tr' he => ?_⟩) _ (TOk.init s)
  · have h := hok op hop
    cases op with
    | bootstrap upto => exact K.bootstrapW upto tr h
    | descend tag k => exact K.descendW hsort htr tag h.1 h.2
    | discard tag => rfl
    | add b => rfl
  · refine K.history_ok hsort [op] tr htr (fun b hb => ho b ?_) tr' ?_
    · rw [List.mem_singleton] at hb; rw [hb]; exact hop
    · rw [List.foldlM_cons, he]; rfl

end Bucketing
end Peyl
