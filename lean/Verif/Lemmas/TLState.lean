import Verif.Lemmas.TLEv
import Mathlib.Data.Matrix.Mul
import Mathlib.LinearAlgebra.Matrix.Trace
import Mathlib.SetTheory.Cardinal.Finite
/-!
# The two-colour state sum of a crossingless matching

A diagram gives the 0/1-matrix indexed by colourings of its top and bottom points whose entry is 1 iff every arc has ends of the
same colour.  Stacking diagrams multiplies matrices, each closed loop contributing a factor 2.
-/
namespace Peyl
namespace TL

/-- A colouring of `n` points as a function on all numbers. -/
def ext {n : Nat} (σ : Fin n → Bool) (v : Nat) : Bool := if h : v < n then σ ⟨v, h⟩ else false

/-- The colour of the point `i` of a diagram with `N` points, `b` of them at the bottom. -/
def col (N b : Nat) (σ τ : Nat → Bool) (i : Nat) : Bool := if i < b then τ i else σ (N - 1 - i)

/-- Every arc has ends of the same colour. -/
def Fits (s : List Nat) (b : Nat) (σ τ : Nat → Bool) : Prop := ∀ i, i < s.length → col s.length b σ τ (at_ s i) = col s.length b σ τ i

open Classical in
/-- The matrix of a diagram. -/
noncomputable def W (n m : Nat) (s : List Nat) : _root_.Matrix (Fin n → Bool) (Fin m → Bool) ℕ :=
  fun σ τ => if Fits s m (ext σ) (ext τ) then 1 else 0

section compose
variable {u l r : List Nat} {t m b : Nat}

/-- The colour of a point of the stacked picture. -/
def pcol (u l : List Nat) (m b : Nat) (σ τ ρ : Nat → Bool) : Pt → Bool
  | (true, v) => col u.length m σ τ v
  | (false, v) => col l.length b τ ρ v

theorem pcol_joined {σ τ ρ : Nat → Bool} (hl : l.length = m + b) (h1 : Fits u m σ τ) (h2 : Fits l b τ ρ) {x y : Pt}
    (h : Joined u l m x y) : pcol u l m b σ τ ρ x = pcol u l m b σ τ ρ y := by
  induction h with
  | rel x y h =>
    cases h with
    | lower v hv => exact (h2 v hv).symm
    | upper v hv => exact (h1 v hv).symm
    | glue v hv =>
      show col u.length m σ τ v = col l.length b τ ρ _
      rw [col, if_pos hv, col, if_neg (by omega)]
      congr 1; omega
  | refl => rfl
  | symm _ _ _ ih => exact ih.symm
  | trans _ _ _ _ _ ih1 ih2 => exact ih1.trans ih2

theorem pcol_outer {σ τ ρ : Nat → Bool} (hu : u.length = t + m) (hl : l.length = m + b) (hr : r.length = t + b) (i : Nat) :
    pcol u l m b σ τ ρ (outer l m i) = col r.length b σ ρ i := by
  unfold outer
  rw [col, show l.length - m = b by omega]
  split
  · next h => show col l.length b τ ρ i = _; rw [col, if_pos h]
  · next h =>
    show col u.length m σ τ _ = _
    rw [col, if_neg (by omega)]
    congr 1; omega

open Classical in
/-- A colour for every point: that of the outer end if there is one, otherwise that of the loop. -/
noncomputable def kap (u l : List Nat) (m N : Nat) (c : Nat → Bool) (g : closedLoops u l m → Bool) (x : Pt) : Bool :=
  if h : ∃ i, i < N ∧ Joined u l m (outer l m i) x then c h.choose
  else if h : {y | Joined u l m x y} ∈ closedLoops u l m then g ⟨_, h⟩ else false

theorem kap_joined {N : Nat} {c : Nat → Bool} {g : closedLoops u l m → Bool}
    (hc : ∀ i j, i < N → j < N → Joined u l m (outer l m i) (outer l m j) → c i = c j) {x y : Pt} (h : Joined u l m x y) :
    kap u l m N c g x = kap u l m N c g y := by
  have hex : (∃ i, i < N ∧ Joined u l m (outer l m i) x) ↔ (∃ i, i < N ∧ Joined u l m (outer l m i) y) :=
    ⟨fun ⟨i, h1, h2⟩ => ⟨i, h1, h2.trans h⟩, fun ⟨i, h1, h2⟩ => ⟨i, h1, h2.trans h.symm⟩⟩
  have hset : {z | Joined u l m x z} = {z | Joined u l m y z} := by
    ext z; exact ⟨fun hz => h.symm.trans hz, fun hz => h.trans hz⟩
  unfold kap
  by_cases hx : ∃ i, i < N ∧ Joined u l m (outer l m i) x
  · have hy := hex.1 hx
    rw [dif_pos hx, dif_pos hy]
    exact hc _ _ hx.choose_spec.1 hy.choose_spec.1 ((hx.choose_spec.2.trans h).trans hy.choose_spec.2.symm)
  · rw [dif_neg hx, dif_neg fun hy => hx (hex.2 hy)]
    generalize {z | Joined u l m x z} = A at hset
    subst hset
    rfl

theorem kap_outer {N : Nat} {c : Nat → Bool} {g : closedLoops u l m → Bool}
    (hc : ∀ i j, i < N → j < N → Joined u l m (outer l m i) (outer l m j) → c i = c j) {i : Nat} (hi : i < N) :
    kap u l m N c g (outer l m i) = c i := by
  have hx : ∃ j, j < N ∧ Joined u l m (outer l m j) (outer l m i) := ⟨i, hi, Joined.refl _⟩
  unfold kap
  rw [dif_pos hx]
  exact hc _ _ hx.choose_spec.1 hi hx.choose_spec.2

theorem closedLoops_finite (u l : List Nat) (m : Nat) : (closedLoops u l m).Finite := by
  apply ((List.range m).toFinset.finite_toSet.image fun v => {x | Joined u l m (true, v) x}).subset
  rintro C ⟨v, hv, rfl, -⟩
  exact ⟨v, by simpa using hv, rfl⟩

/-- The number of colourings of the middle row that fit. -/
theorem card_fits (cu : Crossingless u) (cl : Crossingless l) (hu : u.length = t + m) (hl : l.length = m + b) (hr : r.length = t + b)
    (hres : ∀ i k, i < b + t → k < b + t → (at_ r i = k ↔ i ≠ k ∧ Joined u l m (outer l m i) (outer l m k))) (hrlt : ∀ i, i < b + t → at_ r i < b + t)
    (σ ρ : Nat → Bool) (hf : Fits r b σ ρ) :
    Nat.card {τ : Fin m → Bool // Fits u m σ (ext τ) ∧ Fits l b (ext τ) ρ} = 2 ^ (closedLoops u l m).ncard := by
  have hN : (l.length - m) + (u.length - m) = b + t := by omega
  have hc : ∀ i j, i < b + t → j < b + t → Joined u l m (outer l m i) (outer l m j) → col r.length b σ ρ i = col r.length b σ ρ j := by
    intro i j hi hj h
    by_cases e : i = j
    · rw [e]
    · rw [← (hres i j hi hj).2 ⟨e, h⟩]
      exact (hf i (by omega)).symm
  -- the colour of every point from a colouring of the loops
  have hk : ∀ (g : closedLoops u l m → Bool) (x : Pt), (x.1 = true → x.2 < u.length) → (x.1 = false → x.2 < l.length) →
      pcol u l m b σ (ext fun v : Fin m => kap u l m (b + t) (col r.length b σ ρ) g (true, v)) ρ x = kap u l m (b + t) (col r.length b σ ρ) g x := by
    rintro g ⟨s, v⟩ h1 h2
    cases s with
    | true =>
      have h1 := h1 rfl
      dsimp only at h1
      show col u.length m σ _ v = _
      rw [col]
      split
      · next h => rw [ext, dif_pos h]
      · next h =>
        have e : ((true, v) : Pt) = outer l m (v - m + b) := by
          rw [outer, if_neg (by omega)]; congr 1; omega
        rw [e, kap_outer hc (by omega), col, if_neg (by omega)]
        congr 1; omega
    | false =>
      have h2 := h2 rfl
      dsimp only at h2
      show col l.length b _ ρ v = _
      rw [col]
      split
      · next h =>
        have e : ((false, v) : Pt) = outer l m v := by
          rw [outer, if_pos (by omega)]
        rw [e, kap_outer hc (by omega), col, if_pos h]
      · next h =>
        rw [ext, dif_pos (by omega)]
        refine kap_joined hc (Joined.glue (by omega) ?_)
        dsimp only
        omega
  have hfit : ∀ g : closedLoops u l m → Bool, Fits u m σ (ext fun v : Fin m => kap u l m (b + t) (col r.length b σ ρ) g (true, v)) ∧
      Fits l b (ext fun v : Fin m => kap u l m (b + t) (col r.length b σ ρ) g (true, v)) ρ := by
    intro g
    constructor
    · intro v hv
      have e1 := hk g (true, v) (fun _ => hv) (by simp)
      have e2 := hk g (true, at_ u v) (fun _ => cu.lt v hv) (by simp)
      exact e2.trans ((kap_joined hc (Joined.upArc hv rfl)).symm.trans e1.symm)
    · intro v hv
      have e1 := hk g (false, v) (by simp) (fun _ => hv)
      have e2 := hk g (false, at_ l v) (by simp) (fun _ => cl.lt v hv)
      exact e2.trans ((kap_joined hc (Joined.lowArc hv rfl)).symm.trans e1.symm)
  have key : {τ : Fin m → Bool // Fits u m σ (ext τ) ∧ Fits l b (ext τ) ρ} ≃ (closedLoops u l m → Bool) :=
    { toFun := fun τ C => ext τ.1 C.2.choose
      invFun := fun g => ⟨_, hfit g⟩
      left_inv := by
        rintro ⟨τ, h1, h2⟩
        apply Subtype.ext
        funext v
        have hp : ∀ w, w < m → pcol u l m b σ (ext τ) ρ (true, w) = ext τ w := fun w hw => by
          show col u.length m σ _ w = _
          rw [col, if_pos hw]
        have hv : τ v = ext τ v := by rw [ext, dif_pos v.2]
        dsimp only
        unfold kap
        split
        · next h =>
          rw [hv, ← hp v v.2, ← pcol_joined hl h1 h2 h.choose_spec.2, pcol_outer hu hl hr]
        · next h =>
          have hmem : {y | Joined u l m (true, (v : Nat)) y} ∈ closedLoops u l m :=
            ⟨v, v.2, rfl, fun i hi hj => h ⟨i, by omega, Joined.symm hj⟩⟩
          rw [dif_pos hmem]
          have hs := hmem.choose_spec
          show ext τ hmem.choose = τ v
          rw [hv, ← hp v v.2, ← hp _ hs.1]
          refine pcol_joined hl h1 h2 ?_
          have : (true, (v : Nat)) ∈ {x | Joined u l m (true, hmem.choose) x} := hs.2.1 ▸ Joined.refl _
          exact this
      right_inv := by
        intro g
        funext C
        have hs := C.2.choose_spec
        show ext _ C.2.choose = g C
        rw [ext, dif_pos hs.1]
        show kap u l m (b + t) _ _ (true, C.2.choose) = g C
        unfold kap
        rw [dif_neg]
        · have e : {y | Joined u l m (true, C.2.choose) y} = C.1 := hs.2.1.symm
          rw [dif_pos (by rw [e]; exact C.2)]
          congr 1
          exact Subtype.ext e
        · rintro ⟨i, hi, hj⟩
          refine hs.2.2 i (by omega) ?_
          rw [hs.2.1]
          exact Joined.symm hj }
  haveI : Finite (closedLoops u l m) := closedLoops_finite u l m
  rw [Nat.card_congr key, Nat.card_fun, Nat.card_coe_set_eq]
  simp

open Classical in
/-- Stacking multiplies the matrices, every closed loop giving a factor 2. -/
theorem W_mul (cu : Crossingless u) (cl : Crossingless l) (hu : u.length = t + m) (hl : l.length = m + b) {k : Nat}
    (h : compose u l m = .ok (r, k)) : W t m u * W m b l = 2 ^ k • W t b r := by
  obtain ⟨r', h1, h2, h3, h4⟩ := compose_spec (mid := m) cu cl (by omega) (by omega)
  rw [h1] at h
  injection h with h
  injection h with e1 e2
  subst e1 e2
  have hN : (l.length - m) + (u.length - m) = b + t := by omega
  rw [hN] at h2 h4
  ext σ ρ
  rw [Matrix.mul_apply, Matrix.smul_apply]
  simp only [W, mul_ite, mul_one, mul_zero, smul_eq_mul]
  have e : ∀ τ : Fin m → Bool, (if Fits l b (ext τ) (ext ρ) then if Fits u m (ext σ) (ext τ) then 1 else 0 else 0) =
      if Fits u m (ext σ) (ext τ) ∧ Fits l b (ext τ) (ext ρ) then 1 else 0 := by
    intro τ; by_cases h1 : Fits l b (ext τ) (ext ρ) <;> simp [h1]
  simp only [e]
  rw [Finset.sum_boole, ← Fintype.card_subtype, ← Nat.card_eq_fintype_card]
  split
  · next hf =>
    exact_mod_cast card_fits cu cl hu hl (by omega) h4 (fun i hi => by have := h3.lt i (by omega); omega) _ _ hf
  · next hf =>
    rw [Nat.card_eq_zero.2 (.inl ?_)]
    · rfl
    · refine ⟨fun ⟨τ, f1, f2⟩ => hf fun i hi => ?_⟩
      have hi' := h3.lt i hi
      have hj := ((h4 i (at_ r' i) (by omega) (by omega)).1 rfl).2
      have := pcol_joined (b := b) hl f1 f2 hj
      rw [pcol_outer (r := r') hu hl (by omega), pcol_outer (r := r') hu hl (by omega)] at this
      exact this.symm

end compose

/-- The matrix determines the matching. -/
theorem W_inj {s s' : List Nat} {n m : Nat} (hs : Crossingless s) (hs' : Crossingless s') (h1 : s.length = n + m) (h2 : s'.length = n + m)
    (h : ∀ σ τ, W n m s σ τ ≠ 0 → W n m s' σ τ ≠ 0) : s = s' := by
  refine ext_at (by omega) fun i hi => ?_
  have hj := hs.lt i hi
  set j := at_ s i with hjd
  let c : Nat → Bool := fun x => decide (x = i ∨ x = j)
  let τ : Fin m → Bool := fun v => c v
  let σ : Fin n → Bool := fun v => c (n + m - 1 - v)
  have hc : ∀ x, x < n + m → col (n + m) m (ext σ) (ext τ) x = c x := by
    intro x hx
    rw [col]
    split
    · next h => rw [ext, dif_pos h]
    · next h =>
      rw [ext, dif_pos (by omega)]
      show c (n + m - 1 - (n + m - 1 - x)) = c x
      congr 1; omega
  have hW : W n m s σ τ ≠ 0 := by
    rw [W, if_pos]
    · simp
    · intro x hx
      have := hs.lt x hx
      rw [h1, hc _ (by omega), hc _ (by omega)]
      show decide _ = decide _
      rw [decide_eq_decide]
      have ii := hs.invol i hi
      have ix := hs.invol x hx
      rw [← hjd] at ii
      constructor
      · rintro (e | e)
        · right; rw [hjd, ← e, ix]
        · left; rw [← ix, e, ii]
      · rintro (e | e)
        · right; rw [e]
        · left; rw [e, ii]
  have hW' := h σ τ hW
  rw [W] at hW'
  split at hW'
  · next hf =>
    have := hf i (by omega)
    have hl := hs'.lt i (by omega)
    rw [h2, hc _ (by omega), hc _ (by omega)] at this
    have h5 : c i = true := by simp [c]
    rw [h5] at this
    have h6 : at_ s' i = i ∨ at_ s' i = j := by simpa [c] using this
    rcases h6 with h6 | h6
    · exact absurd h6 (hs'.nofix i (by omega))
    · exact h6.symm
  · exact absurd rfl hW'

/-- Constant colourings always fit. -/
theorem W_const {s : List Nat} {n m : Nat} (hs : Crossingless s) (h1 : s.length = n + m) : W n m s (fun _ => false) (fun _ => false) = 1 := by
  have e : ∀ n, ext (fun _ : Fin n => false) = fun _ => false := by
    intro n; funext v; rw [ext]; split <;> rfl
  rw [W, if_pos]
  intro i hi
  rw [e, e]
  simp [col]

/-- A diagram and a number of loops can be read off the scaled matrix. -/
theorem W_smul_inj {s s' : List Nat} {n m k k' : Nat} (hs : Crossingless s) (hs' : Crossingless s') (h1 : s.length = n + m) (h2 : s'.length = n + m)
    (h : 2 ^ k • W n m s = 2 ^ k' • W n m s') : s = s' ∧ k = k' := by
  have hk : k = k' := by
    have := congrFun (congrFun h fun _ => false) fun _ => false
    rw [Matrix.smul_apply, Matrix.smul_apply, W_const hs h1, W_const hs' h2] at this
    simpa using this
  subst hk
  refine ⟨W_inj hs hs' h1 h2 fun σ τ hn => ?_, rfl⟩
  have := congrFun (congrFun h σ) τ
  rw [Matrix.smul_apply, Matrix.smul_apply] at this
  intro h0
  rw [h0, smul_zero] at this
  simp [hn] at this

end TL
end Peyl
