import Verif.Lemmas.MachineSigned
import Verif.Lemmas.MachineBucket
/-!
# Machine integers in the evaluators of `RepBase`, for any normal form whose factors have small images
-/
namespace Peyl
open Polymat LaurentPolynomial

theorem prod_smallB {W : Type} {n p d ℓ : Nat} {ρ : Braid n →* LMat p d} {v : Nat → W} {β : W → Braid n} {fs : List Nat} (hS : ∀ f ∈ fs, SmallB ρ ℓ (β (v f))) : SmallB ρ (fs.length * ℓ) ((fs.map v).map β).prod := by
  have := SmallB.prod (ρ := ρ) (ℓ := ℓ) ((fs.map v).map β) (by
    intro b hb
    simp only [List.map_map, List.mem_map, Function.comp] at hb
    obtain ⟨f, hf, rfl⟩ := hb
    exact hS f hf)
  simpa using this

namespace RepBase
variable {d : Nat} {T' : Type} {Q QD : Nat → Prop} {w M W : Nat} {rep : RepBase d} {tbl : Nat → Except Err (NFTable T')}

/-- As `evalSameW_mod`, for braids with certain powers only. -/
theorem evalSameW_mod_of (hw : 1 ≤ w) (hp : rep.p ≠ 0) (hF : ∀ f, Q f → rep.factorImageW w tbl f = rep.factorImage tbl f)
    (hB : ∀ f, Q f → ∀ A, rep.factorImage tbl f = .ok A → Bd (rep.p - 1) A ∧ A.length ≤ W)
    (hD : ∀ k, QD k → rep.deltaImageW w tbl k = rep.deltaImage tbl k) (hM : ∀ k, QD k → ∀ A, rep.deltaImage tbl k = .ok A → Bd M A) (hpM : rep.p - 1 ≤ M)
    (hb : d * W * M * (rep.p - 1) < 2 ^ (w - 1)) (xs : List NF) (hQ : ∀ x ∈ xs, ∀ f ∈ x.factors, Q f)
    (hx : ∀ x ∈ xs, ∀ t k, tbl rep.n = .ok t → NF.tauIndex x.power t.tauOrder = .ok k → QD k) : rep.evalSameW w tbl xs = rep.evalSame tbl xs := by
  rw [evalSameW, evalSame]
  refine bind_congr_ok fun x0 hx0 => ?_
  have hL := lookup_pos hx0
  dsimp only
  refine bind_congr_ok fun _ _ => bind_congr_ok fun t ht => ?_
  have e : (xs.mapM fun x : NF => (do rep.deltaImageW w tbl (← NF.tauIndex x.power t.tauOrder) : Except Err (Img d))) =
      xs.mapM fun x : NF => (do rep.deltaImage tbl (← NF.tauIndex x.power t.tauOrder) : Except Err (Img d)) :=
    mapM_congr_fun fun x hxm => bind_congr_ok fun k hk => hD k (hx x hxm t k ht hk)
  rw [e]
  refine bind_congr_ok fun ds hm => bind_congr_ok fun A hq => ?_
  have hA : Bd M A := by
    refine (packN_bd (b := M) (W := (ds.map List.length).foldl max 0) hq fun X hX => ⟨?_, ?_⟩).1
    · obtain ⟨x, hxm, hfs⟩ := mapM_mem_ok hm X hX
      obtain ⟨f, hf', hf⟩ := bind_eq_ok hfs
      exact hM f (hx x hxm t f ht hf') X hf
    · exact (le_foldl_max _ 0).2 _ (List.mem_map.2 ⟨X, hX, rfl⟩)
  refine foldlM_congr _ _ (Bd M) _ (fun s hs k _ => ?_) A hA
  obtain ⟨s1, s2⟩ := evalStepW_mod hw hp hF hB hb hL (xs.map NF.factors) (fun fs hfs => by
    obtain ⟨x, hx, rfl⟩ := List.mem_map.1 hfs
    exact hQ x hx) hs k
  exact ⟨s1, fun C hC => (s2 C hC).mono hpM⟩

end RepBase

section
variable {τ W : Type} [Group W] {d ℓ w : Nat} {rep : RepBase d} {ρ : Braid rep.n →* LMat rep.p d}
variable {tbl : Nat → Except Err (NFTable τ)} {t : NFTable τ} {g : Germ W} {v : Nat → W} {β : W → Braid rep.n}

/-- Modulo `p`. -/
theorem real_mod (R : NFReal tbl rep.n t g v β) (H : Realises rep ρ) (hd : 0 < d) (hp : 2 ≤ rep.p) (hw : 1 ≤ w) (hS : ∀ f, f < t.order → SmallB ρ ℓ (β (v f)))
    (hb : d * (2 * ℓ + 1) * (rep.p - 1) ^ 2 < 2 ^ (w - 1)) (xs : List NF) (hx : ∀ x ∈ xs, NFReal.Valid t rep.n x ∧ (x.power % (t.tauOrder : ℤ)) ≤ 1) :
    rep.evalSameW w tbl xs = rep.evalSame tbl xs := by
  obtain ⟨a1, a2⟩ := mod_arith hd (by omega) hp hb
  have key : ∀ f, f < t.order → ∃ P, rep.factorImage tbl f = .ok P ∧ Bd (rep.p - 1) P ∧ P.length ≤ 2 * ℓ + 1 := by
    intro f hf
    obtain ⟨P, p1, p2⟩ := RepBase.factorImage_spec R H hd (by omega) hf
    exact ⟨P, p1, bd_of_reduced (by omega) p2.reduced, width_le_smallB (b := fun _ => β (v f)) (fun _ => hS f hf) p2⟩
  refine RepBase.evalSameW_mod_of (Q := fun f => f < t.order) (QD := fun k => k < t.tauOrder ∧ k ≤ 1) (M := rep.p - 1) (W := 2 * ℓ + 1) hw (by omega)
    (fun f hf => ?_) (fun f hf A hA => ?_) (fun k hk => ?_) (fun k hk A hA => ?_) le_rfl a2 xs (fun x hxm => (hx x hxm).1.inR) (fun x hxm t' k ht' hk => ?_)
  · obtain ⟨P, p1, p2, -⟩ := key f hf
    rw [RepBase.factorImageW_eq p1 p2 a1, p1]
  · obtain ⟨P, p1, p2, p3⟩ := key f hf
    rw [p1] at hA; cases hA; exact ⟨p2, p3⟩
  · obtain ⟨P, p1, -, -, p4⟩ := RepBase.deltaImage_spec R H hd (by omega) hk.1
    rw [RepBase.deltaImageW_eq p1 (bd_of_reduced (by omega) (p4 hk.2)) a1, p1]
  · obtain ⟨P, p1, -, -, p4⟩ := RepBase.deltaImage_spec R H hd (by omega) hk.1
    rw [p1] at hA; cases hA
    exact bd_of_reduced (by omega) (p4 hk.2)
  · obtain rfl : t = t' := by have := R.ok; rw [ht'] at this; injection this with this; exact this.symm
    obtain ⟨e1, e2⟩ := R.tauIndex_ok x.power
    rw [e1] at hk; cases hk
    exact ⟨e2, by have := (hx x hxm).2; omega⟩

end

section
variable {τ W : Type} [Group W] {d ℓ w n : Nat} {G I : List Matrix} {ρ : Braid n →* LMat 0 d}
variable {tbl : Nat → Except Err (NFTable τ)} {t : NFTable τ} {g : Germ W} {v : Nat → W} {β : W → Braid n}

/-- Over the integers. -/
theorem real_int (R : NFReal tbl n t g v β) (H : Realises (⟨n, 0, G, I⟩ : RepBase d) ρ) (hd : 0 < d) {m ℓD : Nat} (hw : 1 ≤ w) (hm : m < w - 1)
    (hS : ∀ f, f < t.order → SmallB ρ ℓ (β (v f))) (hSD : SmallB ρ ℓD (β g.D)) (xs : List NF)
    (hx : ∀ x ∈ xs, NFReal.Valid t n x ∧ (x.power % (t.tauOrder : ℤ)).toNat * ℓD + x.factors.length * ℓ ≤ m) :
    (⟨n, 0, G, I⟩ : RepBase d).evalSameW w tbl xs = (⟨n, 0, G, I⟩ : RepBase d).evalSame tbl xs := by
  set rep : RepBase d := ⟨n, 0, G, I⟩ with hrepd
  have hp : rep.p ≠ 1 := by show (0 : Nat) ≠ 1; decide
  have hpow : (2 : Nat) ^ m < 2 ^ (w - 1) := Nat.pow_lt_pow_right (by norm_num) hm
  have key : ∀ x ∈ xs, ∃ k P, NF.tauIndex x.power t.tauOrder = .ok k ∧ rep.deltaImageW w tbl k = .ok P ∧ rep.deltaImage tbl k = .ok P ∧
      RepBase.Cn P ∧ UpToShift 0 P (fun _ => ρ (β g.D ^ (x.power % (t.tauOrder : ℤ)).toNat)) := by
    intro x hxm
    obtain ⟨e1, e2⟩ := R.tauIndex_ok x.power
    obtain ⟨P, p1, p2, p3, -⟩ := RepBase.deltaImage_spec (rep := rep) R H hd hp e2
    have hle : (x.power % (t.tauOrder : ℤ)).toNat * ℓD ≤ m := by
      have := (hx x hxm).2
      omega
    have hbd : Bd (2 ^ m) P := bd_smallB (ρ := ρ) (b := fun _ => β g.D ^ (x.power % (t.tauOrder : ℤ)).toNat) p3 fun _ => (hSD.pow _).mono hle
    exact ⟨_, P, e1, RepBase.deltaImageW_eq p1 hbd hpow, p1, p2, p3⟩
  rw [RepBase.evalSameW, RepBase.evalSame]
  refine bind_congr_ok fun x0 hx0 => ?_
  have hL := RepBase.lookup_pos hx0
  dsimp only
  refine bind_congr_ok fun _ hall => bind_congr_ok fun t' ht' => ?_
  obtain rfl : t = t' := by have := R.ok; rw [show tbl n = .ok t' from ht'] at this; injection this with this; exact this.symm
  have hlen : ∀ x ∈ xs, x.factors.length = x0.canonicalLength := by
    rw [pyAssert] at hall
    split at hall
    · next hh =>
      simp only [List.all_eq_true, beq_iff_eq] at hh
      exact fun x hxm => hh x hxm
    · cases hall
  have hds : (xs.mapM fun x : NF => (do rep.deltaImageW w tbl (← NF.tauIndex x.power t.tauOrder) : Except Err (Img d))) =
      xs.mapM fun x : NF => (do rep.deltaImage tbl (← NF.tauIndex x.power t.tauOrder) : Except Err (Img d)) :=
    mapM_congr_fun fun x hxm => by
      obtain ⟨k, P, k1, k2, k3, -⟩ := key x hxm
      rw [k1, bind_ok, bind_ok, k2, k3]
  rw [hds]
  obtain ⟨ds, d1, d2, d3⟩ := mapM_spec (fun x : NF => do rep.deltaImage tbl (← NF.tauIndex x.power t.tauOrder))
    (fun x P => RepBase.Cn P ∧ UpToShift 0 P (fun _ => ρ (β g.D ^ (x.power % (t.tauOrder : ℤ)).toNat))) xs (by
      intro x hxm
      obtain ⟨k, P, k1, -, k3, k4⟩ := key x hxm
      exact ⟨P, by rw [k1, bind_ok, k3], k4⟩)
  obtain ⟨A0, a1, -, a3, -⟩ := RepBase.packN_image (p := 0) hL ds d2 (fun i => ρ (β g.D ^ (xs[i].power % (t.tauOrder : ℤ)).toNat)) (fun i hi => d3 i (by omega))
  rw [d1, bind_ok, bind_ok, a1, bind_ok, bind_ok]
  have hfac : ∀ fs ∈ xs.map NF.factors, fs.length = x0.canonicalLength ∧ ∀ f ∈ fs, f < t.order := by
    intro fs hfs
    obtain ⟨x, hxm, rfl⟩ := List.mem_map.1 hfs
    exact ⟨hlen x hxm, (hx x hxm).1.inR⟩
  -- the loop
  refine foldlM_range_congr _ _ (fun k A => UpToShift 0 A fun i : Fin xs.length => ρ (β g.D ^ (xs[i].power % (t.tauOrder : ℤ)).toNat * (((xs[i].factors.take k).map v).map β).prod)) _ A0
    (by simpa using a3) fun k hkl B hB => ?_
  have hki : ∀ i : Fin xs.length, k < xs[i].factors.length := fun i => by rw [hlen xs[i] (List.getElem_mem _)]; exact hkl
  have hget : ∀ i : Fin xs.length, ((xs.map NF.factors)[i.1]'(by simp)).getD k 0 = xs[i].factors[k]'(hki i) := by
    intro i
    simp only [List.getElem_map]
    rw [List.getD_eq_getElem?_getD]
    exact congrArg (fun z : Option Nat => z.getD 0) (List.getElem?_eq_getElem (hki i))
  have hprod : ∀ i : Fin xs.length, β g.D ^ (xs[i].power % (t.tauOrder : ℤ)).toNat * (((xs[i].factors.take k).map v).map β).prod * β (v (((xs.map NF.factors)[i.1]'(by simp)).getD k 0)) =
      β g.D ^ (xs[i].power % (t.tauOrder : ℤ)).toNat * (((xs[i].factors.take (k + 1)).map v).map β).prod := by
    intro i
    rw [hget i, List.take_succ_eq_append_getElem (hki i), List.map_append, List.map_append, List.prod_append, mul_assoc]; simp
  obtain ⟨B', e1, e2⟩ := RepBase.evalStep_spec (rep := rep) R H hd hp hL (xs.map NF.factors) (by simp) k
    (fun fs hfs => ⟨by rw [(hfac fs hfs).1]; exact hkl, (hfac fs hfs).2⟩) hB
  refine ⟨?_, B', e1, fun i => ?_⟩
  · obtain ⟨ms, m1, m2, m3⟩ := mapM_spec (fun fs : List Nat => do rep.factorImage tbl (← lookup fs k))
      (fun fs P => IsProjImage rep.p P fun _ => ρ (β (v (fs.getD k 0)))) (xs.map NF.factors) (by
        intro fs hfs
        obtain ⟨h1, h2⟩ := hfac fs hfs
        have h1 : k < fs.length := by omega
        obtain ⟨P, p1, p2⟩ := RepBase.factorImage_spec (rep := rep) R H hd hp (h2 _ (List.getElem_mem h1))
        refine ⟨P, by rw [lookup_lt h1, bind_ok]; exact p1, ?_⟩
        simpa [h1] using p2)
    have m2' : ms.length = xs.length := by simpa using m2
    obtain ⟨B2, b1, b2, b3, -⟩ := RepBase.packN_image (p := rep.p) hL ms m2' (fun i => ρ (β (v (((xs.map NF.factors)[i.1]'(by simp)).getD k 0)))) (by
      intro i hi
      have := m3 i (by simp; omega)
      exact ⟨⟨this.first, this.last⟩, this.shift⟩)
    have hBne : B2 ≠ [] := by
      rintro rfl
      exact b2.1 ⟨0, hL⟩ (by funext i j; rfl)
    obtain ⟨C, c1, c2⟩ := Polymat.mul_spec (fun i : Fin xs.length => i) (fun i => i) B B2 (.inr hBne)
    have hC : Bd (2 ^ m) C := by
      refine bd_smallB (ρ := ρ) (b := fun i : Fin xs.length => β g.D ^ (xs[i].power % (t.tauOrder : ℤ)).toNat * (((xs[i].factors.take (k + 1)).map v).map β).prod) (fun i => ?_) fun i => ?_
      · obtain ⟨k1, hk1⟩ := hB i
        obtain ⟨k2, hk2⟩ := b3 i
        refine ⟨k1 + k2, ?_⟩
        have hk2' : Polymat.denMod 0 B2 i = _ := hk2
        rw [denMod_mul (c2 i), hk1, hk2']; dsimp only; rw [← hprod i, map_mul, map_mul, T_add, smul_mul_assoc, mul_smul_comm, smul_smul, map_mul]
      · have hv := hx xs[i] (List.getElem_mem _)
        refine ((hSD.pow _).mul (prod_smallB (ρ := ρ) (v := v) (β := β) (ℓ := ℓ) (fs := xs[i].factors.take (k + 1)) fun f hf => hS f (hv.1.inR f (List.mem_of_mem_take hf)))).mono (_root_.le_trans ?_ hv.2)
        refine Nat.add_le_add_left (Nat.mul_le_mul_right _ ?_) _
        rw [List.length_take]; omega
    rw [RepBase.evalStepW, RepBase.evalStep, RepBase.stepImages (Q := fun f => f < t.order ∧ SmallB ρ m (β (v f))) (fun f hf => ?_) (fun fs hfs f hf => ?_)]
    · rw [show ((xs.map NF.factors).mapM fun fs => (do rep.factorImage tbl (← lookup fs k) : Except Err (Img d))) = .ok ms from m1]
      rw [bind_ok, bind_ok, b1, bind_ok, bind_ok]
      exact mulW_of_bd hw hpow _ c1 hC
    · obtain ⟨P, p1, p2⟩ := RepBase.factorImage_spec (rep := rep) R H hd hp hf.1
      rw [RepBase.factorImageW_eq p1 (bd_smallB (ρ := ρ) (b := fun _ => β (v f)) p2.shift fun _ => hf.2) hpow, p1]
    · refine ⟨(hfac fs hfs).2 f hf, (hS f ((hfac fs hfs).2 f hf)).mono ?_⟩
      obtain ⟨x, hxm, rfl⟩ := List.mem_map.1 hfs
      have h1 := (hx x hxm).2
      have h2 : 1 * ℓ ≤ x.factors.length * ℓ := Nat.mul_le_mul_right _ (List.length_pos_of_mem hf)
      omega
  · have := e2.shift i
    dsimp only at this ⊢
    rwa [hprod i] at this

end
end Peyl
