import Verif.Lemmas.TLState
import Verif.Lemmas.TLFlip
/-!
# Diagrams multiply associatively; traces are cyclic
-/
namespace Peyl
open LaurentPolynomial

namespace TL

theorem ext_lt {n : Nat} (σ : Fin n → Bool) {v : Nat} (h : v < n) : ext σ v = σ ⟨v, h⟩ := dif_pos h

theorem ext_inj {n : Nat} {σ τ : Fin n → Bool} (h : ∀ v, v < n → ext σ v = ext τ v) : σ = τ := by
  funext v
  have := h v v.2
  rwa [ext_lt σ v.2, ext_lt τ v.2] at this

/-- The identity diagram has the identity matrix. -/
theorem W_id (n : Nat) : W n n (idSeq n) = 1 := by
  classical
  ext σ τ
  rw [W, Matrix.one_apply]
  refine if_congr ⟨fun h => ext_inj fun v hv => ?_, fun h => ?_⟩ rfl rfl
  · have := h v (by simp; omega)
    rw [at_idSeq n v (by omega), idSeq_length, col, col, if_neg (by omega), if_pos hv] at this
    rw [← this]; congr 1; omega
  · subst h
    intro i hi
    rw [idSeq_length] at hi ⊢
    rw [at_idSeq n i hi, col, col]
    split_ifs <;> first | omega | (congr 1 <;> omega)

/-- Turning a diagram upside down transposes the matrix. -/
theorem Fits_reverse {s s' : List Nat} {n m : Nat} (h1 : s.length = n + m) (h2 : s'.length = n + m)
    (h : ∀ i, i < n + m → at_ s' i = n + m - 1 - at_ s (n + m - 1 - i)) (hs : Crossingless s) (σ τ : Nat → Bool) :
    Fits s' n σ τ ↔ Fits s m τ σ := by
  have hc : ∀ i, i < n + m → col (n + m) n σ τ i = col (n + m) m τ σ (n + m - 1 - i) := by
    intro i hi
    rw [col, col]
    split_ifs <;> first | omega | rfl | (congr 1; omega)
  constructor
  · intro hf i hi
    have := hf (n + m - 1 - i) (by omega)
    have hl := hs.lt i hi
    rw [h2, h _ (by omega), hc _ (by omega), hc _ (by omega)] at this
    rw [show n + m - 1 - (n + m - 1 - i) = i by omega, show n + m - 1 - (n + m - 1 - at_ s i) = at_ s i by omega] at this
    rw [h1, this]
  · intro hf i hi
    have := hf (n + m - 1 - i) (by omega)
    have hl := hs.lt (n + m - 1 - i) (by omega)
    rw [h1] at this
    rw [h2, h _ (by omega), hc _ (by omega), hc _ (by omega), show n + m - 1 - (n + m - 1 - at_ s (n + m - 1 - i)) = at_ s (n + m - 1 - i) by omega, this]

theorem rev_range (n : Nat) : (List.range (2 * n)).reverse = idSeq n := by
  apply List.ext_getElem
  · simp
  · intro i h1 h2
    simp [idSeq]
    omega

open Classical in
/-- Closing up: `trace_count` is the exponent of 2 in the trace of the matrix. -/
theorem traceCount_W {s : List Nat} {n : Nat} (hs : Crossingless s) (hl : s.length = 2 * n) :
    ∃ k, traceCount s = .ok k ∧ 2 ^ k = _root_.Matrix.trace (W n n s) ∧ k = (closedLoops s (idSeq n) (2 * n)).ncard := by
  obtain ⟨r, h1, h2, h3, h4⟩ := compose_spec (mid := 2 * n) hs (idSeq_nc n) (by simp) (by omega)
  have hr : r = [] := List.eq_nil_of_length_eq_zero (by rw [h2, idSeq_length]; omega)
  subst hr
  refine ⟨_, ?_, ?_, rfl⟩
  · rw [traceCount, hl, rev_range, h1, bind_ok]; rfl
  · have := W_mul (t := 0) (m := 2 * n) (b := 0) hs (idSeq_nc n) (by omega) (by simp) h1
    have := congrFun (congrFun this Fin.elim0) Fin.elim0
    rw [Matrix.mul_apply, Matrix.smul_apply] at this
    have e0 : W 0 0 [] Fin.elim0 Fin.elim0 = 1 := by
      rw [W, if_pos]; intro i hi; simp at hi
    rw [e0, smul_eq_mul, mul_one] at this
    rw [← this]
    simp only [W, _root_.Matrix.trace, Matrix.diag, mul_ite, mul_one, mul_zero]
    have e : ∀ χ : Fin (2 * n) → Bool, (if Fits (idSeq n) 0 (ext χ) (ext Fin.elim0) then if Fits s (2 * n) (ext Fin.elim0) (ext χ) then 1 else 0 else 0) =
        if Fits (idSeq n) 0 (ext χ) (ext Fin.elim0) ∧ Fits s (2 * n) (ext Fin.elim0) (ext χ) then 1 else 0 := by
      intro τ; by_cases h1 : Fits (idSeq n) 0 (ext τ) (ext Fin.elim0) <;> simp [h1]
    simp only [e]
    rw [Finset.sum_boole, Finset.sum_boole, ← Fintype.card_subtype, ← Fintype.card_subtype]
    norm_cast
    have hsym : ∀ χ : Fin (2 * n) → Bool, Fits (idSeq n) 0 (ext χ) (ext Fin.elim0) ↔ ∀ i, i < 2 * n → ext χ (2 * n - 1 - i) = ext χ i := by
      intro χ
      unfold Fits
      rw [idSeq_length]
      refine ⟨fun h i hi => ?_, fun h i hi => ?_⟩
      · have := h i hi
        rw [at_idSeq n i hi, col, col, if_neg (by omega), if_neg (by omega)] at this
        rw [← this]; congr 1; omega
      · rw [at_idSeq n i hi, col, col, if_neg (by omega), if_neg (by omega), h i hi]
        congr 1; omega
    have hbot : ∀ χ : Fin (2 * n) → Bool, Fits s (2 * n) (ext Fin.elim0) (ext χ) ↔ ∀ i, i < 2 * n → ext χ (at_ s i) = ext χ i := by
      intro χ
      unfold Fits
      rw [hl]
      refine ⟨fun h i hi => ?_, fun h i hi => ?_⟩
      · have := h i hi
        have hh := hs.lt i (by omega)
        rwa [col, col, if_pos (by omega), if_pos (by omega)] at this
      · have hh := hs.lt i (by omega)
        rw [col, col, if_pos (by omega), if_pos (by omega), h i hi]
    refine Fintype.card_congr ⟨fun χ => ⟨fun v => ext χ.1 v, ?_⟩, fun σ => ⟨fun v => col (2 * n) n (ext σ.1) (ext σ.1) v, ?_⟩, ?_, ?_⟩
    · have g1 := (hsym χ.1).1 χ.2.1
      have g2 := (hbot χ.1).1 χ.2.2
      have hc : ∀ i, i < 2 * n → col (2 * n) n (ext fun v : Fin n => ext χ.1 v) (ext fun v : Fin n => ext χ.1 v) i = ext χ.1 i := by
        intro i hi
        rw [col]
        split
        · next h => rw [ext_lt _ h]
        · next h => rw [ext_lt _ (by omega), g1 i hi]
      intro i hi
      have hh := hs.lt i (by omega)
      rw [hl, hc _ (by omega), hc _ (by omega), g2 i (by omega)]
    · have hx : ∀ i, i < 2 * n → ext (fun v : Fin (2 * n) => col (2 * n) n (ext σ.1) (ext σ.1) v) i = col (2 * n) n (ext σ.1) (ext σ.1) i :=
        fun i hi => ext_lt _ hi
      rw [hsym, hbot]
      refine ⟨fun i hi => ?_, fun i hi => ?_⟩
      · rw [hx _ (by omega), hx _ hi, col, col]
        split_ifs <;> first | omega | rfl | (congr 1; omega)
      · have hh := hs.lt i (by omega)
        rw [hx _ (by omega), hx _ hi]
        have := σ.2 i (by omega)
        rwa [hl] at this
    · intro χ
      apply Subtype.ext
      apply ext_inj
      intro v hv
      have g1 := (hsym χ.1).1 χ.2.1
      dsimp only
      rw [ext_lt _ hv]
      dsimp only
      rw [col]
      split
      · next h => rw [ext_lt _ h]
      · next h => rw [ext_lt _ (by omega), g1 v hv]
    · intro σ
      apply Subtype.ext
      funext v
      dsimp only
      rw [ext_lt _ (by omega)]
      dsimp only
      rw [col, if_pos v.2, ext_lt _ v.2]

end TL

namespace TLDiag
open TL

/-- The matrix of a diagram of the type `(n, m)`. -/
noncomputable abbrev mat (n m : Nat) (d : TLDiag) := W n m d.seq

theorem mat_prod {u l : TLDiag} {t m b : Nat} (hu : u.Ok) (hl : l.Ok) (h1 : u.top = t) (h2 : u.bot = m) (h3 : l.top = m) (h4 : l.bot = b) :
    mat t m u * mat m b l = 2 ^ prodL u l • mat t b (prodD u l) := by
  have e1 := hu.1; have e2 := hl.1
  have h := (mul_ok hu hl (by omega)).2.1
  rw [h2] at h
  exact W_mul hu.2 hl.2 (by omega) (by omega) h

theorem mat_inj {a b : TLDiag} {n m k k' : Nat} (ha : a.Ok) (hb : b.Ok) (h1 : a.top = n) (h2 : a.bot = m) (h3 : b.top = n) (h4 : b.bot = m)
    (h : 2 ^ k • mat n m a = 2 ^ k' • mat n m b) : a = b ∧ k = k' := by
  have e1 := ha.1; have e2 := hb.1
  obtain ⟨x, y⟩ := W_smul_inj ha.2 hb.2 (by omega) (by omega) h
  exact ⟨ext' (by omega) (by omega) x, y⟩

/-- Stacking is associative, loops included. -/
theorem prod_assoc {a b c : TLDiag} (ha : a.Ok) (hb : b.Ok) (hc : c.Ok) (h1 : a.bot = b.top) (h2 : b.bot = c.top) :
    prodD (prodD a b) c = prodD a (prodD b c) ∧ prodL a b + prodL (prodD a b) c = prodL b c + prodL a (prodD b c) := by
  obtain ⟨-, -, ab1, ab2, abo⟩ := mul_ok ha hb h1
  obtain ⟨-, -, bc1, bc2, bco⟩ := mul_ok hb hc h2
  obtain ⟨-, -, l1, l2, lo⟩ := mul_ok abo hc (by omega)
  obtain ⟨-, -, r1, r2, ro⟩ := mul_ok ha bco (by omega)
  refine mat_inj (n := a.top) (m := c.bot) lo ro (by omega) (by omega) (by omega) (by omega) ?_
  rw [pow_add, pow_add, mul_smul, mul_smul, ← mat_prod (m := b.bot) abo hc ab1 ab2 h2.symm rfl, ← mat_prod (m := a.bot) ha bco rfl rfl (by omega) bc2,
    ← Matrix.smul_mul, ← Matrix.mul_smul, ← mat_prod (m := a.bot) ha hb rfl rfl (by omega) rfl, ← mat_prod (m := b.bot) hb hc (by omega) rfl (by omega) rfl,
    Matrix.mul_assoc]

/-- The number of loops of the closure. -/
def trc (d : TLDiag) : Nat := match TL.traceCount d.seq with | .ok k => k | .error _ => 0

theorem trc_spec {d : TLDiag} {n : Nat} (hd : d.Ok) (h1 : d.top = n) (h2 : d.bot = n) :
    TL.traceCount d.seq = .ok d.trc ∧ 2 ^ d.trc = _root_.Matrix.trace (mat n n d) := by
  have := hd.1
  obtain ⟨k, k1, k2, k3⟩ := traceCount_W (n := n) hd.2 (by omega)
  have : d.trc = k := by rw [trc, k1]
  rw [this]
  exact ⟨k1, k2⟩

theorem trc_cyclic {a b : TLDiag} (ha : a.Ok) (hb : b.Ok) (h1 : a.bot = b.top) (h2 : b.bot = a.top) :
    prodL a b + (prodD a b).trc = prodL b a + (prodD b a).trc := by
  obtain ⟨-, -, ab1, ab2, abo⟩ := mul_ok ha hb h1
  obtain ⟨-, -, ba1, ba2, bao⟩ := mul_ok hb ha h2
  apply Nat.pow_right_injective (le_refl 2)
  dsimp only
  rw [pow_add, pow_add, (trc_spec (n := a.top) abo ab1 (by omega)).2, (trc_spec (n := b.top) bao ba1 (by omega)).2]
  have e1 := mat_prod (t := a.top) (m := a.bot) (b := a.top) ha hb rfl rfl h1.symm h2
  have e2 := mat_prod (t := a.bot) (m := a.top) (b := a.bot) hb ha (by omega) (by omega) rfl rfl
  have := Matrix.trace_mul_comm (mat a.top a.bot a) (mat a.bot a.top b)
  rw [e1, e2, Matrix.trace_smul, Matrix.trace_smul, smul_eq_mul, smul_eq_mul] at this
  rw [h1] at this
  exact this

theorem trc_id (n : Nat) : (⟨n, n, idSeq n⟩ : TLDiag).trc = n := by
  have := (trc_spec (d := ⟨n, n, idSeq n⟩) (n := n) ⟨by simp; omega, idSeq_nc n⟩ rfl rfl).2
  unfold mat at this; rw [W_id, Matrix.trace_one] at this
  simp at this
  exact this

/-- Upside down: the matrix is transposed. -/
theorem mat_upsideDown {d : TLDiag} {n m : Nat} (hd : d.Ok) (h1 : d.top = n) (h2 : d.bot = m) : mat m n d.upsideDown = (mat n m d).transpose := by
  have hl := hd.1
  ext σ τ
  rw [Matrix.transpose_apply]
  simp only [mat, W]
  congr 1
  rw [eq_iff_iff]
  refine Fits_reverse (n := n) (m := m) (by omega) (by rw [upsideDown_length]; omega) (fun i hi => ?_) hd.2 _ _
  have := at_upsideDown hd (i := i) (by omega)
  rw [this, ← hl, h1, h2]

/-- Turning a product upside down. -/
theorem prod_upsideDown {a b : TLDiag} (ha : a.Ok) (hb : b.Ok) (h1 : a.bot = b.top) :
    (prodD a b).upsideDown = prodD b.upsideDown a.upsideDown ∧ prodL a b = prodL b.upsideDown a.upsideDown := by
  have fa := upsideDown_ok ha
  have fb := upsideDown_ok hb
  obtain ⟨-, -, ab1, ab2, abo⟩ := mul_ok ha hb h1
  obtain ⟨-, -, r1, r2, ro⟩ := mul_ok fb fa (by show b.top = a.bot; omega)
  refine mat_inj (n := b.bot) (m := a.top) (upsideDown_ok abo) ro ab2 ab1 r1 r2 ?_
  rw [← mat_prod (t := b.bot) (m := b.top) (b := a.top) fb fa rfl rfl (by show a.bot = _; omega) rfl,
    mat_upsideDown abo ab1 ab2, mat_upsideDown (n := b.top) hb rfl rfl, mat_upsideDown (m := b.top) ha rfl h1, ← Matrix.transpose_mul,
    ← Matrix.transpose_smul, ← mat_prod (t := a.top) (m := b.top) (b := b.bot) ha hb rfl h1 rfl rfl]

theorem trc_upsideDown {d : TLDiag} (hd : d.Ok) (h : d.top = d.bot) : d.upsideDown.trc = d.trc := by
  apply Nat.pow_right_injective (le_refl 2)
  dsimp only
  rw [(trc_spec (n := d.top) (upsideDown_ok hd) h.symm rfl).2, (trc_spec (n := d.top) hd rfl h.symm).2, mat_upsideDown hd rfl h.symm, Matrix.trace_transpose]

end TLDiag
end Peyl
