import Verif.Lemmas.BucketDescend
import Verif.Lemmas.Matrix
import Mathlib.Data.List.SplitBy
/-!
# `nf_descendants`, `bootstrap_exhaustive` and `valiate_buckets` of `bucketing.Tracker`
-/
namespace Peyl
open LaurentPolynomial Polymat
namespace Bucketing
variable {S τ W : Type} [DecidableEq τ] [Group W] {d : Nat} {rep : RepBase d} {ρ : Braid rep.n →* LMat rep.p d}
variable {tbl : Nat → Except Err (NFTable τ)} {t : NFTable τ} {g : Germ W} {v : Nat → W} {β : W → Braid rep.n}

/-- The flattening of a two-dimensional batch. -/
theorem ofFn_prod (f : NF → NF → NF) (sufs braids : List NF) :
    List.ofFn (fun i : Fin (sufs.length * braids.length) => f braids[(finProdFinEquiv.symm i).2] sufs[(finProdFinEquiv.symm i).1]) =
      sufs.flatMap fun y => braids.map fun x => f x y := by
  rw [List.ofFn_mul, List.flatMap_def]
  congr 1
  refine List.ext_getElem (by simp) fun i h1 h2 => ?_
  rw [List.getElem_ofFn, List.getElem_map]
  refine List.ext_getElem (by simp) fun j h3 h4 => ?_
  rw [List.getElem_ofFn, List.getElem_map]
  have hi : i < sufs.length := by simpa using h1
  have hj : j < braids.length := by simpa using h3
  have hq : ∀ h, finProdFinEquiv.symm (⟨i * braids.length + j, h⟩ : Fin (sufs.length * braids.length)) = (⟨i, hi⟩, ⟨j, hj⟩) := by
    intro h
    rw [Equiv.symm_apply_eq]
    ext
    simp [finProdFinEquiv]
    ring
  have hlt : i * braids.length + j < sufs.length * braids.length :=
    calc i * braids.length + j < (i + 1) * braids.length := by rw [Nat.add_mul]; omega
      _ ≤ sufs.length * braids.length := Nat.mul_le_mul_right _ hi
  have := congrArg (fun q : Fin sufs.length × Fin braids.length => f braids[q.2] sufs[q.1]) (hq hlt)
  exact this

/-- The context of all lemmas: a table realised in the braid group and a representation in which the Garside element has a scalar power. -/
structure Ctx (rep : RepBase d) (ρ : Braid rep.n →* LMat rep.p d) (tbl : Nat → Except Err (NFTable τ)) (t : NFTable τ) (g : Germ W) (v : Nat → W)
    (β : W → Braid rep.n) (c : Config NF d) : Prop where
  real : NFReal tbl rep.n t g v β
  rel : Realises rep ρ
  hd : 0 < d
  hp : rep.p ≠ 1
  tau : ∃ k : ℤ, ρ (β g.D ^ t.tauOrder) = (T k : (ZMod rep.p)[T;T⁻¹]) • 1
  divs : ∀ f, f < t.order → ∃ δ, lookup t.divs f = .ok δ
  divs_inj : ∀ f f' δ, f < t.order → f' < t.order → lookup t.divs f = .ok δ → lookup t.divs f' = .ok δ → f = f'
  fol : ∀ x, NFReal.Valid t rep.n x → x.power = 0 → x.factors ≠ [] → ∀ k, ∃ w : List Nat, w.length = k ∧ NFReal.Valid t rep.n ⟨rep.n, 0, x.factors ++ w⟩
  total : c.Total
  length : c.length = NF.canonicalLength
  cap : 1 ≤ c.capacity

/-- Legal braids: power zero. -/
def Lg (t : NFTable τ) (n : Nat) (x : NF) : Prop := NFReal.Valid t n x ∧ x.power = 0

/-- The matrix of a braid. -/
noncomputable def Mt (ρ : Braid rep.n →* LMat rep.p d) (g : Germ W) (v : Nat → W) (β : W → Braid rep.n) (x : NF) : LMat rep.p d := ρ (NFReal.den g v β x)

variable {c : Config NF d} (K : Ctx rep ρ tbl t g v β c) {rng : Rng S}
include K

theorem Ctx.ne (x : NF) (_ : Lg t rep.n x) : Mt ρ g v β x ≠ 0 := RepBase.rho_ne ρ K.hd K.hp _

/-- The suffixes offered after a braid, which depend on its last factor only. -/
theorem Ctx.suffixes {x : NF} (hx : Lg t rep.n x) (k : Nat) : ∃ ys, NF.nfSuffixes tbl x k = .ok ys ∧ ys.Nodup ∧
    (∀ y, y ∈ ys ↔ Lg t rep.n y ∧ y.factors.length = k ∧ NFReal.Valid t rep.n ⟨rep.n, 0, x.factors ++ y.factors⟩) ∧
    ∀ x', Lg t rep.n x' → x'.factors.getLast? = x.factors.getLast? → NF.nfSuffixes tbl x' k = .ok ys := by
  obtain ⟨ys, y1, y2, y3⟩ := K.real.nfSuffixes_spec hx.1 k
  refine ⟨ys, y1, y2, fun y => ?_, fun x' hx' e => ?_⟩
  · rw [y3, hx.2]; exact ⟨fun ⟨a, b, c, e⟩ => ⟨⟨a, b⟩, c, e⟩, fun ⟨⟨a, b⟩, c, e⟩ => ⟨a, b, c, e⟩⟩
  · rw [← y1, NF.nfSuffixes, NF.nfSuffixes, e, hx.2, hx'.2, hx.1.n_eq, hx'.1.n_eq]

/-- The braid with one of its suffixes appended. -/
def ext (n : Nat) (x y : NF) : NF := ⟨n, 0, x.factors ++ y.factors⟩

theorem Ctx.ext_ok {x y : NF} (hx : Lg t rep.n x) (hy : Lg t rep.n y) (h : NFReal.Valid t rep.n ⟨rep.n, 0, x.factors ++ y.factors⟩) :
    NF.mul tbl x y = .ok (ext rep.n x y) ∧ Lg t rep.n (ext rep.n x y) ∧ Mt ρ g v β (ext rep.n x y) = Mt ρ g v β x * Mt ρ g v β y := by
  refine ⟨?_, ⟨h, rfl⟩, ?_⟩
  · have := (K.real.mul_concat_iff hx.1 hy.1 hy.2).2 (by rw [hx.2]; exact h)
    rw [this, hx.2]; rfl
  · rw [Mt, Mt, Mt, ← map_mul]
    congr 1
    simp [NFReal.den, Germ.val, ext, hx.2, hy.2]

/-- Entries of the cache are right. -/
def CacheOk (rep : RepBase d) (ρ : Braid rep.n →* LMat rep.p d) (tbl : Nat → Except Err (NFTable τ)) (t : NFTable τ) (g : Germ W) (v : Nat → W)
    (β : W → Braid rep.n) (cache : SuffixCache τ d) : Prop :=
  ∀ k δ r, Dict.get? cache (k, δ) = some r → ∀ x f, Lg t rep.n x → x.factors.getLast? = some f → lookup t.divs f = .ok δ →
    NF.nfSuffixes tbl x k = .ok r.1 ∧ IsProjImage rep.p r.2 fun i => Mt ρ g v β r.1[i]

theorem Ctx.eval (ys : List NF) (hne : ys ≠ []) (k : Nat) (hy : ∀ y ∈ ys, Lg t rep.n y ∧ y.factors.length = k) :
    ∃ A, rep.evalSame tbl ys = .ok A ∧ IsProjImage rep.p A fun i => Mt ρ g v β ys[i] := by
  obtain ⟨A, a1, a2, a3, a4⟩ := RepBase.evalSame_spec K.real K.rel K.hd K.hp K.tau ys hne k fun y hy' => ⟨(hy y hy').1.1, (hy y hy').2⟩
  exact ⟨A, a1, a2.1, a2.2, a4 (.inr (.inr fun y hy' => (hy y hy').1.2)), a3⟩

theorem Ctx.last_lt {x : NF} {f : Nat} (hx : Lg t rep.n x) (h : x.factors.getLast? = some f) : f < t.order :=
  hx.1.inR f (List.mem_of_getLast? h)

/-- `suffix_cache`. -/
theorem Ctx.cached {cache : SuffixCache τ d} (hc : CacheOk rep ρ tbl t g v β cache) {x : NF} (hx : Lg t rep.n x) (hne : x.factors ≠ []) (k : Nat) :
    ∃ r cache', cachedSuffixes tbl (rep.toRep tbl) cache x k = .ok (r, cache') ∧ CacheOk rep ρ tbl t g v β cache' ∧ NF.nfSuffixes tbl x k = .ok r.1 ∧
      r.1 ≠ [] ∧ IsProjImage rep.p r.2 fun i => Mt ρ g v β r.1[i] := by
  obtain ⟨f, hf⟩ : ∃ f, x.factors.getLast? = some f := ⟨_, List.getLast?_eq_some_getLast hne⟩
  have hlt := K.last_lt hx hf
  obtain ⟨δ, hδ⟩ := K.divs f hlt
  obtain ⟨ys, y1, y2, y3, y4⟩ := K.suffixes hx k
  have hys : ys ≠ [] := by
    obtain ⟨w, w1, w2⟩ := K.fol x hx.1 hx.2 hne k
    exact List.ne_nil_of_mem ((y3 ⟨rep.n, 0, w⟩).2 ⟨⟨K.real.valid_suffix w2, rfl⟩, w1, w2⟩)
  have hstart : cachedSuffixes tbl (rep.toRep tbl) cache x k = (match Dict.get? cache (k, δ) with
      | some r => .ok (r, cache)
      | none => do
        let ss ← NF.nfSuffixes tbl x k
        if ss.length = 0 then .error .index
        else do
          let rights ← (rep.toRep tbl).evalSame ss
          .ok (⟨ss, rights⟩, Dict.set cache (k, δ) ⟨ss, rights⟩)) := by
    rw [cachedSuffixes, hx.1.n_eq, K.real.ok, bind_ok, lastFactor, hf, bind_ok, hδ, bind_ok]
    cases Dict.get? cache (k, δ) <;> rfl
  rw [hstart]
  cases hg : Dict.get? cache (k, δ) with
  | some r =>
    obtain ⟨h1, h2⟩ := hc k δ r hg x f hx hf hδ
    refine ⟨r, cache, rfl, hc, h1, ?_, h2⟩
    rw [y1] at h1; cases h1; exact hys
  | none =>
    obtain ⟨A, a1, a2⟩ := K.eval ys hys k fun y hy => ⟨((y3 y).1 hy).1, ((y3 y).1 hy).2.1⟩
    have a1' : (rep.toRep tbl).evalSame ys = .ok A := a1
    refine ⟨⟨ys, A⟩, Dict.set cache (k, δ) ⟨ys, A⟩, ?_, ?_, y1, hys, a2⟩
    · dsimp only
      rw [y1, bind_ok, if_neg (by simpa using hys), a1', bind_ok]
    · intro k' δ' r' hr' x' f' hx' hf' hδ'
      rw [Dict.get?_set] at hr'
      split at hr'
      · next e =>
        cases hr'
        injection e with e1 e2
        subst e1 e2
        have := K.divs_inj f f' δ hlt (K.last_lt hx' hf') hδ hδ'
        subst this
        exact ⟨y4 x' hx' (by rw [hf, hf']), a2⟩
      · exact hc k' δ' r' hr' x' f' hx' hf' hδ'

/-- The batch made from a group of braids with the same last factor. -/
theorem Ctx.product {braids : List NF} (hne : braids ≠ []) (hb : ∀ x ∈ braids, Lg t rep.n x) {left : PArr (Fin braids.length) d d}
    (hleft : UpToShift rep.p left fun i => Mt ρ g v β braids[i]) {sufs : List NF} (hs : sufs ≠ []) {rights : PArr (Fin sufs.length) d d}
    (hr : UpToShift rep.p rights fun i => Mt ρ g v β sufs[i])
    (hv : ∀ x ∈ braids, ∀ y ∈ sufs, Lg t rep.n y ∧ NFReal.Valid t rep.n ⟨rep.n, 0, x.factors ++ y.factors⟩) :
    ∃ b, productBatch tbl rep.p braids left sufs rights = .ok b ∧ TrueBatch rep.p (Lg t rep.n) (Mt ρ g v β) b ∧
      List.ofFn b.braids = sufs.flatMap fun y => braids.map fun x => ext rep.n x y := by
  have hB : 0 < braids.length := List.length_pos_iff.2 hne
  have hS : 0 < sufs.length := List.length_pos_iff.2 hs
  haveI : Nonempty (Fin sufs.length × Fin braids.length) := ⟨(⟨0, hS⟩, ⟨0, hB⟩)⟩
  obtain ⟨C, c1, c2⟩ := polymatMul_spec (p := rep.p) (fun g : Fin sufs.length × Fin braids.length => g.2) (fun g => g.1) hleft hr (fun i => by
    rw [Mt, Mt, ← map_mul]; exact RepBase.rho_ne ρ K.hd K.hp _)
  have hp : (sufs.mapM fun s => braids.mapM fun b => NF.mul tbl b s) = .ok (sufs.map fun s => braids.map fun b => ext rep.n b s) := by
    apply Matrix.mapM_ok
    intro s hs
    apply Matrix.mapM_ok
    intro b hb'
    exact (K.ext_ok (hb b hb') (hv b hb' s hs).1 (hv b hb' s hs).2).1
  have hget : ∀ i : Fin (sufs.length * braids.length),
      (((sufs.map fun s => braids.map fun b => ext rep.n b s).getD (finProdFinEquiv.symm i).1 []).getD (finProdFinEquiv.symm i).2 ⟨0, 0, []⟩) =
        ext rep.n braids[(finProdFinEquiv.symm i).2] sufs[(finProdFinEquiv.symm i).1] := by
    have key : ∀ q : Fin sufs.length × Fin braids.length,
        (((sufs.map fun s => braids.map fun b => ext rep.n b s).getD q.1 []).getD q.2 ⟨0, 0, []⟩) = ext rep.n braids[q.2] sufs[q.1] := by
      rintro ⟨⟨a, ha⟩, ⟨b, hb⟩⟩
      simp [List.getD_eq_getElem?_getD, ha, hb]
    exact fun i => key _
  refine ⟨_, by rw [productBatch, c1, bind_ok, hp, bind_ok], ⟨Nat.mul_pos hS hB, fun i => ?_, ?_, fun i => ?_⟩, ?_⟩
  · dsimp only
    rw [hget]
    have h1 := List.getElem_mem (finProdFinEquiv.symm i).2.2
    have h2 := List.getElem_mem (finProdFinEquiv.symm i).1.2
    exact (K.ext_ok (hb _ h1) (hv _ h1 _ h2).1 (hv _ h1 _ h2).2).2.1
  · intro hp S' hS' a r s
    obtain ⟨S'', hS'', rfl⟩ := List.mem_map.1 hS'
    exact c2.reduced hp S'' hS'' _ r s
  · obtain ⟨k, hk⟩ := c2.shift (finProdFinEquiv.symm i)
    refine ⟨k, ?_⟩
    dsimp only
    rw [hget]
    have h1 := List.getElem_mem (finProdFinEquiv.symm i).2.2
    have h2 := List.getElem_mem (finProdFinEquiv.symm i).1.2
    have h3 := (K.ext_ok (hb _ h1) (hv _ h1 _ h2).1 (hv _ h1 _ h2).2).2.2
    refine Eq.trans ?_ (hk.trans (by rw [show ext rep.n braids[(finProdFinEquiv.symm i).2] sufs[(finProdFinEquiv.symm i).1] = ext rep.n (braids[(finProdFinEquiv.symm i).2.1]'(by exact (finProdFinEquiv.symm i).2.2)) (sufs[(finProdFinEquiv.symm i).1.1]'(by exact (finProdFinEquiv.symm i).1.2)) from rfl, h3]; rfl))
    apply denMod_of_den
    rw [den_eq_iff]
    intro e
    by_cases he : e < C.length
    · rw [slice_lt C he, slice_lt _ (by simpa using he)]
      exact congrFun (List.getElem_map (fun (S : Fin sufs.length × Fin braids.length → _root_.Matrix (Fin d) (Fin d) ℤ) (i : Fin (sufs.length * braids.length)) => S (finProdFinEquiv.symm i))) i
    · rw [slice_ge C (by omega), slice_ge _ (by simpa using he)]; rfl
  · exact (congrArg List.ofFn (funext hget)).trans (ofFn_prod (ext rep.n) sufs braids)

end Bucketing
end Peyl
