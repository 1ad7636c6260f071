import Verif.Spec.SearchMisc
import Verif.Props.Polymat
import Verif.Lemmas.SearchComplete
import Verif.Lemmas.BucketProduct
/-!
# Statistics of true images, joining batches
-/
namespace Peyl
open LaurentPolynomial Polymat
variable {p d : Nat} {α : Type}

theorem slice_cast_eq_zero {A : PArr α d d} (h : ReducedMod p A) (e : Nat) (a : α) (i j : Fin d) :
    ((slice A e a i j : ℤ) : ZMod p) = 0 ↔ slice A e a i j = 0 := by
  refine ⟨fun h0 => ?_, fun h0 => by rw [h0]; simp⟩
  by_cases hp : p = 0
  · subst hp; exact h0
  · by_cases he : e < A.length
    · rw [ZMod.intCast_zmod_eq_zero_iff_dvd _ p] at h0
      rw [slice_lt A he] at h0 ⊢
      have h1 := h hp _ (List.getElem_mem he) a i j
      exact Int.eq_zero_of_dvd_of_nonneg_of_lt h1.1 h1.2 h0
    · rw [slice_ge A (by omega)]; rfl

theorem coeff_of_shift {A : PArr α d d} {a : α} {M : LMat p d} {k : ℤ} (h : Polymat.denMod p A a = (T k : (ZMod p)[T;T⁻¹]) • M) (m : ℤ) (i j : Fin d) :
    (M i j).coeff m = if 0 ≤ m + k then ((slice A (m + k).toNat a i j : ℤ) : ZMod p) else 0 := by
  rw [← coeff_denMod, h, _root_.Matrix.smul_apply, smul_eq_mul, T, AddMonoidAlgebra.coeff_single_mul_apply, one_mul]
  congr 1; ring

theorem degSet_den (A : PArr α d d) (a : α) (e : Nat) : e ∈ degSet (den A a) ↔ slice A e a ≠ 0 := by
  constructor
  · rintro ⟨i, j, h⟩ h0
    rw [coeff_den, h0] at h; exact h rfl
  · intro h
    by_contra hc
    apply h
    funext i j
    by_contra hne
    exact hc ⟨i, j, by rw [coeff_den]; exact hne⟩

/-- The degree statistics of a tensor all of whose matrices start in degree zero. -/
theorem stats_first [Fintype α] [DecidableEq α] [Nonempty α] {A : PArr α d d} (hf : ∀ a, slice A 0 a ≠ 0) :
    ∃ v dm pl rg, valmin A = .ok v ∧ degmax A = .ok dm ∧ projlen A = .ok pl ∧ rhogap2 A = .ok rg ∧
      ∀ a, v a = 0 ∧ rg a = dm a ∧ pl a = dm a + 1 ∧ ∃ n : ℕ, dm a = n ∧ slice A n a ≠ 0 ∧ ∀ e, slice A e a ≠ 0 → e ≤ n := by
  have hD : A ≠ [] := by
    rintro rfl
    obtain ⟨a⟩ := ‹Nonempty α›
    exact hf a (by rw [slice_ge _ (by simp)]; rfl)
  obtain ⟨v, dm, pl, e, rg, h1, h2, h3, -, h5, h6⟩ := C59_degrees_partial A hD
  refine ⟨v, dm, pl, rg, h1, h2, h3, h5, fun a => ?_⟩
  have hne : den A a ≠ 0 := by
    intro h0
    have : (0 : ℕ) ∈ degSet (den A a) := (degSet_den A a 0).2 (hf a)
    rw [h0] at this
    obtain ⟨i, j, hij⟩ := this
    exact hij (by simp)
  obtain ⟨q1, ⟨n, q2, q3⟩, q4, -, q5⟩ := (h6 a).1 hne
  have hv : v a = 0 := by
    have := q1.2 ((degSet_den A a 0).2 (hf a))
    omega
  refine ⟨hv, by omega, by omega, n, q2, (degSet_den A a n).1 q3.1, fun e he => q3.2 ((degSet_den A a e).2 he)⟩

theorem fitsIn_iff {A : PArr α d d} (hr : ReducedMod p A) {a : α} {M : LMat p d} {k : ℤ} (h : Polymat.denMod p A a = (T k : (ZMod p)[T;T⁻¹]) • M)
    (h0 : slice A 0 a ≠ 0) {n : ℕ} (hn : slice A n a ≠ 0) (hmax : ∀ e, slice A e a ≠ 0 → e ≤ n) (m : ℤ) : FitsIn M m ↔ (n : ℤ) < m := by
  have hc := coeff_of_shift h
  constructor
  · rintro ⟨lo, hlo⟩
    have ex : ∀ e, slice A e a ≠ 0 → lo ≤ (e : ℤ) - k ∧ (e : ℤ) - k < lo + m := by
      intro e he
      obtain ⟨i, hi⟩ := Function.ne_iff.1 he
      obtain ⟨j, hj⟩ := Function.ne_iff.1 hi
      refine hlo i j _ ?_
      rw [hc, if_pos (by omega), sub_add_cancel, Int.toNat_natCast, Ne, slice_cast_eq_zero hr]
      exact hj
    have e1 := ex 0 h0
    have e2 := ex n hn
    push_cast at e1
    omega
  · intro hm
    refine ⟨-k, fun i j l hl => ?_⟩
    rw [hc] at hl
    split at hl
    · next hpos =>
      have := hmax (l + k).toNat (fun e => hl (by rw [e]; simp))
      omega
    · exact absurd rfl hl

theorem nzTerms_eq [Fintype α] [DecidableEq α] {A : PArr α d d} (hr : ReducedMod p A) {a : α} {M : LMat p d} {k : ℤ} (h : Polymat.denMod p A a = (T k : (ZMod p)[T;T⁻¹]) • M) :
    nzTerms A a = termCount M := by
  rw [C59_nz_terms, termCount]
  refine Finset.sum_congr rfl fun i _ => Finset.sum_congr rfl fun j _ => ?_
  have hc := coeff_of_shift h
  refine Finset.card_bij (fun e _ => (e : ℤ) - k) (fun e he => ?_) (fun e _ e' _ hee => by omega) fun m hm => ?_
  · rw [Polynomial.mem_support_iff, coeff_den] at he
    rw [Finsupp.mem_support_iff, hc, if_pos (by omega), sub_add_cancel, Int.toNat_natCast, Ne, slice_cast_eq_zero hr]
    exact he
  · rw [Finsupp.mem_support_iff, hc] at hm
    split at hm
    · next hpos =>
      refine ⟨(m + k).toNat, ?_, by omega⟩
      rw [Polynomial.mem_support_iff, coeff_den]
      rw [Ne, slice_cast_eq_zero hr] at hm; exact hm
    · exact absurd rfl hm

namespace BraidSearch

theorem flatIndex_lt {X : Nat → Type} (A : Σ L : Nat, X L) (As : List (Σ L : Nat, X L)) (i : Fin ((A :: As).map fun A => A.1).sum) (h : i.1 < A.1) :
    flatIndex (A :: As) i = ⟨⟨0, by simp⟩, ⟨i.1, h⟩⟩ := by rw [flatIndex, dif_pos h]

theorem flatIndex_ge {X : Nat → Type} (A : Σ L : Nat, X L) (As : List (Σ L : Nat, X L)) (i : Fin ((A :: As).map fun A => A.1).sum) (j : Fin (As.map fun A => A.1).sum)
    (h : i.1 = A.1 + j.1) : flatIndex (A :: As) i = (let r := flatIndex As j; ⟨r.1.succ, r.2⟩) := by
  rw [flatIndex, dif_neg (by omega)]
  have e : ∀ h', (⟨i.1 - A.1, h'⟩ : Fin (As.map fun A => A.1).sum) = j := fun h' => by ext; simp [h]
  dsimp only
  rw [e]

theorem flatIndex_map {ι : Type} {X : Nat → Type} {β : Type} (g : ι → Σ L : Nat, X L) (f : (b : ι) → Fin (g b).1 → β) :
    ∀ (bs : List ι) (i : Fin ((bs.map g).map fun A => A.1).sum) (z : β), ∃ b ∈ bs, ∃ l : Fin (g b).1,
      (bs.flatMap fun b => List.ofFn (f b)).getD i z = f b l ∧
      (⟨(bs.map g).get (flatIndex (bs.map g) i).1, (flatIndex (bs.map g) i).2⟩ : Σ A : (Σ L : Nat, X L), Fin A.1) = ⟨g b, l⟩
  | [], i, z => absurd i.2 (by simp)
  | b :: bs, i, z => by
    by_cases h : i.1 < (g b).1
    · refine ⟨b, List.mem_cons_self, ⟨i.1, h⟩, ?_, ?_⟩
      · rw [List.flatMap_cons, List.getD_eq_getElem?_getD, List.getElem?_append_left (by simpa using h), List.getElem?_ofFn, dif_pos h]
        rfl
      · rw [show flatIndex ((b :: bs).map g) i = _ from flatIndex_lt (g b) (bs.map g) i h]; rfl
    · have hi : i.1 - (g b).1 < ((bs.map g).map fun A => A.1).sum := by
        have := i.2
        simp only [List.map_cons, List.sum_cons] at this
        omega
      obtain ⟨b', hb', l, h1, h2⟩ := flatIndex_map g f bs ⟨i.1 - (g b).1, hi⟩ z
      refine ⟨b', List.mem_cons_of_mem _ hb', l, ?_, ?_⟩
      · rw [List.flatMap_cons, List.getD_eq_getElem?_getD, List.getElem?_append_right (by simpa using h), ← List.getD_eq_getElem?_getD, List.length_ofFn]
        exact h1
      · rw [show flatIndex ((b :: bs).map g) i = _ from flatIndex_ge (g b) (bs.map g) i ⟨i.1 - (g b).1, hi⟩ (by simp; omega)]
        exact h2

theorem flatIndex_surj {X : Nat → Type} : ∀ (As : List (Σ L : Nat, X L)) (kl : Σ k : Fin As.length, Fin (As.get k).1), ∃ i, flatIndex As i = kl
  | [], kl => absurd kl.1.2 (by simp)
  | A :: As, ⟨⟨0, h⟩, l⟩ => by
    have hl : l.1 < A.1 := l.2
    exact ⟨⟨l.1, by simp only [List.map_cons, List.sum_cons]; omega⟩, flatIndex_lt A As _ hl⟩
  | A :: As, ⟨⟨k + 1, h⟩, l⟩ => by
    obtain ⟨i, hi⟩ := flatIndex_surj As ⟨⟨k, by simpa using h⟩, l⟩
    refine ⟨⟨A.1 + i.1, ?_⟩, ?_⟩
    · have := i.2
      simp only [List.map_cons, List.sum_cons]; omega
    · rw [flatIndex_ge A As _ i rfl, hi]; rfl

theorem foldl_max_mem {γ : Type} (l : List γ) (f : γ → Nat) (h : l.length ≠ 0) : ∃ x ∈ l, f x = (l.map f).foldl max 0 := by
  have gen : ∀ (l : List γ) (a : Nat), (l.map f).foldl max a = a ∨ ∃ x ∈ l, f x = (l.map f).foldl max a := by
    intro l
    induction l with
    | nil => intro a; exact .inl rfl
    | cons x l ih =>
      intro a
      rw [List.map_cons, List.foldl_cons]
      rcases ih (max a (f x)) with h | ⟨y, hy, h⟩
      · rw [h]
        rcases max_choice a (f x) with h' | h'
        · exact .inl h'
        · exact .inr ⟨x, List.mem_cons_self, h'.symm⟩
      · exact .inr ⟨y, List.mem_cons_of_mem _ hy, h⟩
  rcases gen l 0 with h0 | h0
  · cases l with
    | nil => exact absurd rfl h
    | cons x l =>
      refine ⟨x, List.mem_cons_self, ?_⟩
      have := le_foldl_max ((x :: l).map f) (List.mem_map.2 ⟨x, List.mem_cons_self, rfl⟩) 0
      omega
  · exact h0

variable {rep : Summand d} {ρ : Braid rep.n →* LMat rep.p d} {lim : Nat} {ω : List Nat → List Nat → Nat → Nat}

theorem joinBatches_spec (bs : List (Bucketing.Batch NF d)) (hb : ∀ b ∈ bs, TrueBatch lim ω rep ρ b) :
    ∃ out, joinBatches bs = .ok out ∧ List.ofFn out.braids = bs.flatMap (fun b => List.ofFn b.braids) ∧
      (bs ≠ [] → TrueBatch lim ω rep ρ out ∧ IsProjImage rep.p out.images fun i => ρ (gnfBraid rep.n (out.braids i))) := by
  let g : Bucketing.Batch NF d → Σ L : Nat, PArr (Fin L) d d := fun b => ⟨b.len, b.images⟩
  by_cases hne : bs = []
  · subst hne
    exact ⟨_, rfl, rfl, fun h => absurd rfl h⟩
  have hlen : (bs.map g).length ≠ 0 := by simpa using hne
  let W := ((bs.map g).map fun A => (trim A.2).length).foldl max 0
  have hc : concatenate (bs.map g) = .ok ((List.range W).map fun e kl =>
      if e < (trim ((bs.map g).get kl.1).2).length then slice (trim ((bs.map g).get kl.1).2) e kl.2 else 0) := by rw [concatenate, if_neg hlen]
  let out : Bucketing.Batch NF d :=
    { len := ((bs.map g).map fun A => A.1).sum
      braids := fun i => (bs.flatMap fun b => List.ofFn b.braids).getD i ⟨0, 0, []⟩
      images := ((List.range W).map fun e kl =>
        if e < (trim ((bs.map g).get kl.1).2).length then slice (trim ((bs.map g).get kl.1).2) e kl.2 else 0 :
          PArr (Σ k : Fin (bs.map g).length, Fin ((bs.map g).get k).1) d d).map fun S i => S (flatIndex (bs.map g) i) }
  have hout : joinBatches bs = .ok out := by rw [joinBatches]; exact (congrArg (fun P => P >>= _) hc).trans (bind_ok _ _)
  have hWle : ∀ A ∈ bs.map g, (trim A.2).length ≤ W := fun A hA => le_foldl_max ((bs.map g).map fun A => (trim A.2).length) (List.mem_map.2 ⟨A, hA, rfl⟩) 0
  have hsl0 : ∀ e (i : Fin out.len), slice out.images e i = slice ((bs.map g).get (flatIndex (bs.map g) i).1).2 e (flatIndex (bs.map g) i).2 := by
    intro e i
    rw [← slice_trim ((bs.map g).get (flatIndex (bs.map g) i).1).2]
    by_cases he : e < W
    · rw [slice_lt _ (by simpa [out] using he)]
      simp only [out, List.getElem_map, List.getElem_range]
      split
      · rfl
      · next h => rw [slice_ge _ (by omega)]; rfl
    · rw [slice_ge _ (by simpa [out] using he), slice_ge _ (by have := hWle _ (List.get_mem (bs.map g) (flatIndex (bs.map g) i).1); omega)]; rfl
  have key : ∀ i : Fin out.len, ∃ b ∈ bs, ∃ l : Fin b.len, out.braids i = b.braids l ∧ ∀ e, slice out.images e i = slice b.images e l := by
    intro i
    obtain ⟨b, hb', l, h1, h2⟩ := flatIndex_map g (fun b => b.braids) bs i ⟨0, 0, []⟩
    refine ⟨b, hb', l, h1, fun e => ?_⟩
    rw [hsl0]
    exact congrArg (fun q : Σ A : (Σ L : Nat, PArr (Fin L) d d), Fin A.1 => slice q.1.2 e q.2) h2
  have hproj : IsProjImage rep.p out.images fun i => ρ (gnfBraid rep.n (out.braids i)) := by
    refine ⟨fun i => ?_, ?_, ?_, fun i => ?_⟩
    · obtain ⟨b, hb', l, -, h2⟩ := key i
      rw [h2]; exact (hb b hb').first l
    · obtain ⟨A, hA, hAW⟩ := foldl_max_mem (bs.map g) (fun A => (trim A.2).length) hlen
      obtain ⟨b, hb', rfl⟩ := List.mem_map.1 hA
      have hAW : (trim (g b).2).length = W := hAW
      have hW0 : 0 < W := by
        rw [← hAW]
        by_contra h0
        have := (trim_least (g b).2).1 0 (by omega)
        exact (hb b hb').first ⟨0, (hb b hb').pos⟩ (congrFun this _)
      have hlast : slice (g b).2 (W - 1) ≠ 0 := by
        intro h0
        have hmem : (W - 1) ∈ {K | ∀ e, K ≤ e → slice (g b).2 e = 0} := fun e he => by
          rcases Nat.eq_or_lt_of_le he with rfl | he
          · exact h0
          · rw [← slice_trim, slice_ge _ (by omega)]
        have := (trim_least (g b).2).2 hmem
        omega
      obtain ⟨l, hl⟩ := Function.ne_iff.1 hlast
      obtain ⟨k, hk⟩ := List.get_of_mem hA
      have hex : ∃ l' : Fin ((bs.map g).get k).1, slice ((bs.map g).get k).2 (W - 1) l' ≠ 0 := by rw [hk]; exact ⟨l, hl⟩
      obtain ⟨l', hl'⟩ := hex
      obtain ⟨i, hi⟩ := flatIndex_surj (bs.map g) ⟨k, l'⟩
      refine ⟨i, ?_⟩
      have hlen' : out.images.length = W := by simp [out]
      rw [hlen', hsl0, hi]; exact hl'
    · intro hp0 S hS i r s
      obtain ⟨e, he, rfl⟩ := List.getElem_of_mem hS
      rw [← slice_lt _ he]
      obtain ⟨b, hb', l, -, h2⟩ := key i
      rw [h2]
      by_cases he' : e < b.images.length
      · rw [slice_lt _ he']; exact (hb b hb').reduced hp0 _ (List.getElem_mem he') l r s
      · rw [slice_ge _ (by omega)]; exact ⟨le_rfl, by show (0 : ℤ) < rep.p; omega⟩
    · obtain ⟨b, hb', l, h1, h2⟩ := key i
      obtain ⟨k, hk⟩ := (hb b hb').shift l
      refine ⟨k, ?_⟩
      rw [h1, ← hk]
      exact denMod_of_den (den_eq_iff.2 fun e => h2 e)
  refine ⟨out, hout, ?_, fun _ => ⟨⟨?_, fun i => ?_, hproj.first, hproj.reduced, hproj.shift⟩, hproj⟩⟩
  · have hl : (bs.flatMap fun b => List.ofFn b.braids).length = out.len := by
      simp [out, g, List.length_flatMap, Function.comp_def]
    refine List.ext_getElem (by simp [hl]) fun i h1 h2 => ?_
    rw [List.getElem_ofFn]
    show List.getD _ i _ = _
    rw [List.getD_eq_getElem?_getD, List.getElem?_eq_getElem h2]; rfl
  · cases bs with
    | nil => exact absurd rfl hne
    | cons b bs =>
      have := (hb b List.mem_cons_self).pos
      show 0 < (((b :: bs).map g).map fun A => A.1).sum
      simp only [List.map_cons, List.sum_cons, g]; omega
  · obtain ⟨b, hb', l, h1, -⟩ := key i
    rw [h1]; exact (hb b hb').gnf l

end BraidSearch
end Peyl
