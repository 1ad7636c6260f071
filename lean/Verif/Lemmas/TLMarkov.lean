import Verif.Lemmas.TLHcomp
import Verif.Lemmas.TLMorAlg
import Verif.Lemmas.TLCellBasis
import Verif.Lemmas.JonesRep
/-!
# Cell modules are functorial, and the Markov trace is a weighted sum of their traces
-/
namespace Peyl
open LaurentPolynomial
namespace TL
open TLDiag

/-- The loop value. -/
noncomputable abbrev dl : ℤ[T;T⁻¹] := T 1 + T (-1)

/-- Diagrams of the type `(n, t)` with `t` through strands. -/
abbrev CellD (n t : Nat) : Type := {d : TLDiag // d.top = n ∧ d.bot = t ∧ Cell n t d.seq}

theorem CellD.ok {n t : Nat} (d : CellD n t) : d.1.Ok := ⟨by rw [d.2.1, d.2.2.1, d.2.2.2.len], d.2.2.2.nc⟩

instance (n t : Nat) : Finite (CellD n t) := by
  refine Finite.of_injective (β := Fin (n + t) → Fin (n + t)) (fun d i => ⟨at_ d.1.seq i, ?_⟩) ?_
  · have := d.2.2.2.nc.lt i (by rw [d.2.2.2.len]; exact i.2)
    rwa [d.2.2.2.len] at this
  · intro d e h
    apply Subtype.ext
    refine TLDiag.ext' (by rw [d.2.1, e.2.1]) (by rw [d.2.2.1, e.2.2.1]) (ext_at (by rw [d.2.2.2.len, e.2.2.2.len]) fun i hi => ?_)
    rw [d.2.2.2.len] at hi
    have := congrFun h ⟨i, hi⟩
    exact congrArg Fin.val this

noncomputable instance (n t : Nat) : Fintype (CellD n t) := Fintype.ofFinite _

/-- Composition from above does not create through strands. -/
theorem Cell.of_prod {x d : TLDiag} (hx : x.Ok) (hd : d.Ok) (h : x.bot = d.top) (hc : Cell x.top d.bot (prodD x d).seq) : Cell d.top d.bot d.seq := by
  have e1 := hx.1; have e2 := hd.1
  refine ⟨hd.2, hd.1.symm, fun i hi => ?_⟩
  by_contra hlt
  obtain ⟨res, r1, r2, r3, r4⟩ := compose_spec (mid := x.bot) hx.2 hd.2 (by omega) (by omega)
  have := (mul_ok hx hd h).2.1
  rw [r1] at this
  injection this with this
  injection this with this _
  rw [← this] at hc
  have l1 := hd.2.lt i (by omega)
  have := (r4 i (at_ d.seq i) (by omega) (by omega)).2 ⟨(hd.2.nofix i (by omega)).symm, by
    rw [outer, if_pos (by omega), outer, if_pos (by omega)]
    exact Joined.lowArc (by omega) rfl⟩
  have := hc.up i hi
  omega

open Classical in
/-- The action of a diagram `x` of the type `(n, m)` on cell diagrams. -/
noncomputable def act (t n m : Nat) (x : TLDiag) : _root_.Matrix (CellD n t) (CellD m t) ℤ[T;T⁻¹] :=
  fun b' b => if prodD x b.1 = b'.1 then dl ^ prodL x b.1 else 0

/-- The action is functorial. -/
theorem act_mul {t n m k : Nat} {x y : TLDiag} (hx : x.Ok) (hy : y.Ok) (h1 : x.top = n) (h2 : x.bot = m) (h3 : y.top = m) (h4 : y.bot = k) :
    act t n m x * act t m k y = dl ^ prodL x y • act t n k (prodD x y) := by
  classical
  refine Matrix.ext fun b' b => ?_
  rw [Matrix.mul_apply, Matrix.smul_apply, smul_eq_mul]
  have hb := b.ok
  obtain ⟨-, -, yb1, yb2, ybo⟩ := mul_ok hy hb (by rw [h4, b.2.1])
  obtain ⟨e1, e2⟩ := prod_assoc hx hy hb (by omega) (by rw [h4, b.2.1])
  by_cases hc : Cell m t (prodD y b.1).seq
  · rw [Finset.sum_eq_single (⟨prodD y b.1, by omega, by rw [yb2, b.2.2.1], hc⟩ : CellD m t)]
    · simp only [act, e1]
      simp only [ite_true]
      split
      · rw [← pow_add, ← pow_add, e2, add_comm]
      · simp
    · intro c _ hne
      have : act t m k y c b = 0 := by
        rw [act, if_neg]
        intro e; exact hne (Subtype.ext e.symm)
      rw [this, mul_zero]
    · intro h; exact absurd (Finset.mem_univ _) h
  · rw [Finset.sum_eq_zero]
    · have : act t n k (prodD x y) b' b = 0 := by
        rw [act, if_neg]
        intro e
        apply hc
        rw [e1] at e
        have hcell := b'.2.2.2
        rw [← e] at hcell
        have := Cell.of_prod hx ybo (by omega) (by rw [h1, yb2, b.2.2.1]; exact hcell)
        rwa [yb1, yb2, h3, b.2.2.1] at this
      rw [this, mul_zero]
    · intro c _
      have : act t m k y c b = 0 := by
        rw [act, if_neg]
        intro e; exact hc (by rw [e]; exact c.2.2.2)
      rw [this, mul_zero]

theorem act_id (t n : Nat) : act t n n ⟨n, n, idSeq n⟩ = 1 := by
  classical
  refine Matrix.ext fun b' b => ?_
  obtain ⟨e1, e2⟩ := TLMor.prod_id_left b.ok b.2.1
  rw [act, e1, e2, pow_zero, Matrix.one_apply]
  exact if_congr ⟨fun h => (Subtype.ext h).symm, fun h => congrArg Subtype.val h.symm⟩ rfl rfl

theorem act_trace_cyclic {t n m : Nat} {x y : TLDiag} (hx : x.Ok) (hy : y.Ok) (h1 : x.top = n) (h2 : x.bot = m) (h3 : y.top = m) (h4 : y.bot = n) :
    dl ^ prodL x y * (act t n n (prodD x y)).trace = dl ^ prodL y x * (act t m m (prodD y x)).trace := by
  have := Matrix.trace_mul_comm (act t n m x) (act t m n y)
  rwa [act_mul hx hy h1 h2 h3 h4, act_mul hy hx h3 h4 h1 h2, Matrix.trace_smul, Matrix.trace_smul, smul_eq_mul, smul_eq_mul] at this

/-! ### Traces are determined by their values on identities -/

/-- Inside every arc there is an innermost one. -/
theorem innermost {D : List Nat} (hD : Crossingless D) (i : Nat) (hi : i < D.length) (h : i < at_ D i) : ∃ k, i ≤ k ∧ k + 1 ≤ at_ D i ∧ at_ D k = k + 1 := by
  induction hn : at_ D i - i using Nat.strong_induction_on generalizing i with
  | _ n ih =>
    have hl := hD.lt i hi
    have hv := hD.invol i hi
    by_cases he : at_ D i = i + 1
    · exact ⟨i, le_refl _, by omega, he⟩
    · have l1 := hD.lt (i + 1) (by omega)
      have n1 := hD.nofix (i + 1) (by omega)
      have v1 := hD.invol (i + 1) (by omega)
      have h2 : i + 1 < at_ D (i + 1) := by
        by_contra hc
        have h3 : at_ D (i + 1) ≠ i := fun e => by rw [e] at v1; omega
        exact hD.noncross (at_ D (i + 1)) i (by omega) hi (by omega) (by omega) (by rw [v1]; omega)
      have h3 : at_ D (i + 1) < at_ D i := by
        by_contra hc
        have h4 : at_ D (i + 1) ≠ at_ D i := fun e => by rw [e, hv] at v1; omega
        exact hD.noncross i (i + 1) hi (by omega) (by omega) (by omega) (by omega)
      obtain ⟨k, k1, k2, k3⟩ := ih (at_ D (i + 1) - (i + 1)) (by omega) (i + 1) (by omega) h2 rfl
      exact ⟨k, by omega, by omega, k3⟩

/-- The cup and the cap. -/
def cupD : TLDiag := ⟨2, 0, [1, 0]⟩
def capD : TLDiag := ⟨0, 2, [1, 0]⟩
def idD (n : Nat) : TLDiag := ⟨n, n, idSeq n⟩

theorem idD_ok (n : Nat) : (idD n).Ok := ⟨by simp [idD]; omega, idSeq_nc n⟩
theorem nc10 : Crossingless [1, 0] := idSeq_nc 1
theorem cupD_ok : cupD.Ok := ⟨rfl, nc10⟩
theorem capD_ok : capD.Ok := ⟨rfl, nc10⟩

/-- The cup and the cap at the place `k`, among `n` through strands. -/
def cupAt (k n : Nat) : TLDiag := beside (idD k) (beside cupD (idD n))
def capAt (k n : Nat) : TLDiag := beside (idD k) (beside capD (idD n))

theorem cupAt_ok (k n : Nat) : (cupAt k n).Ok := beside_ok (idD_ok k) (beside_ok cupD_ok (idD_ok n))
theorem capAt_ok (k n : Nat) : (capAt k n).Ok := beside_ok (idD_ok k) (beside_ok capD_ok (idD_ok n))

theorem cup_cap : prodD cupD capD = ⟨2, 2, [1, 0, 3, 2]⟩ ∧ prodL cupD capD = 0 := by
  constructor <;> decide +kernel

theorem beside_e (k n : Nat) : beside (idD k) (beside ⟨2, 2, [1, 0, 3, 2]⟩ (idD n)) = ⟨k + 2 + n, k + 2 + n, eSeq k (k + 2 + n)⟩ := by
  have hin : ∀ x, x < 4 + 2 * n → at_ (insSeq [1, 0, 3, 2] (idSeq n) 2) x = if x = 0 then 1 else if x = 1 then 0 else if x = 2 * n + 2 then 2 * n + 3 else
      if x = 2 * n + 3 then 2 * n + 2 else 2 * n + 3 - x := by
    intro x hx
    rw [at_ins (by simp) _ (by simp; omega), idSeq_length]
    by_cases c1 : x < 2
    · rw [if_pos c1]
      have : x = 0 ∨ x = 1 := by omega
      rcases this with rfl | rfl <;> simp [at_]
    · rw [if_neg c1]
      by_cases c2 : x < 2 + 2 * n
      · rw [if_pos c2, at_idSeq n _ (by omega), if_neg (by omega), if_neg (by omega), if_neg (by omega), if_neg (by omega)]; omega
      · rw [if_neg c2]
        have : x = 2 * n + 2 ∨ x = 2 * n + 3 := by omega
        rcases this with rfl | rfl
        · simp [at_, show 2 * n + 2 - 2 * n = 2 by omega]; omega
        · simp [at_, show 2 * n + 3 - 2 * n = 3 by omega]; omega
  refine ext' (by show k + (2 + n) = k + 2 + n; omega) (by show k + (2 + n) = k + 2 + n; omega) ?_
  have hl2 : (insSeq [1, 0, 3, 2] (idSeq n) 2).length = 4 + 2 * n := by rw [insSeq_length (by simp)]; simp
  show insSeq (idSeq k) (insSeq [1, 0, 3, 2] (idSeq n) 2) k = eSeq k (k + 2 + n)
  have hl := insSeq_length (s := idSeq k) (t := insSeq [1, 0, 3, 2] (idSeq n) 2) (i := k) (by simp; omega)
  rw [hl2, idSeq_length] at hl
  refine ext_at (by rw [hl, eSeq_length]; omega) fun x hx => ?_
  rw [hl] at hx
  rw [at_ins (by simp; omega) _ (by rw [hl2, idSeq_length]; omega), hl2, at_eSeq (by omega) x (by omega)]
  by_cases c1 : x < k
  · rw [if_pos c1, at_idSeq k x (by omega), if_neg (by omega)]
    split_ifs <;> omega
  · rw [if_neg c1]
    by_cases c2 : x < k + (4 + 2 * n)
    · rw [if_pos c2, hin _ (by omega)]
      split_ifs <;> omega
    · rw [if_neg c2, at_idSeq k _ (by omega)]
      split_ifs <;> omega

theorem cupAt_capAt (k n : Nat) : prodD (cupAt k n) (capAt k n) = ⟨k + 2 + n, k + 2 + n, eSeq k (k + 2 + n)⟩ ∧ prodL (cupAt k n) (capAt k n) = 0 := by
  obtain ⟨i1, i2⟩ := interchange (idD_ok k) (beside_ok cupD_ok (idD_ok n)) (idD_ok k) (beside_ok capD_ok (idD_ok n)) rfl rfl
  obtain ⟨j1, j2⟩ := interchange cupD_ok (idD_ok n) capD_ok (idD_ok n) rfl rfl
  obtain ⟨u1, u2⟩ := TLMor.prod_id_left (idD_ok k) (n := k) rfl
  obtain ⟨w1, w2⟩ := TLMor.prod_id_left (idD_ok n) (n := n) rfl
  rw [cupAt, capAt, i1, i2, j1, j2, cup_cap.1, cup_cap.2]
  have e1 : prodD (idD k) (idD k) = idD k := u1
  have e2 : prodL (idD k) (idD k) = 0 := u2
  have e3 : prodD (idD n) (idD n) = idD n := w1
  have e4 : prodL (idD n) (idD n) = 0 := w2
  rw [e1, e2, e3, e4, beside_e]
  exact ⟨rfl, rfl⟩

/-- A family of functions on square diagrams that is cyclic, with a factor for every loop. -/
def Tracial (f : Nat → TLDiag → ℤ[T;T⁻¹]) : Prop := ∀ (n m : Nat) (x y : TLDiag), x.Ok → y.Ok → x.top = n → x.bot = m → y.top = m → y.bot = n →
  dl ^ prodL x y * f n (prodD x y) = dl ^ prodL y x * f m (prodD y x)

theorem dl_ne_zero : dl ≠ 0 := by
  intro h
  have h2 := congrArg (LaurentPolynomial.eval₂ (RingHom.id ℤ) 1) h
  simp [dl] at h2

theorem tracial_unique {f g : Nat → TLDiag → ℤ[T;T⁻¹]} (hf : Tracial f) (hg : Tracial g) (h : ∀ n, f n (idD n) = g n (idD n)) (n : Nat) (d : TLDiag)
    (hd : d.Ok) (h1 : d.top = n) (h2 : d.bot = n) : f n d = g n d := by
  induction n using Nat.strong_induction_on generalizing d with
  | _ n ih =>
    have hl := hd.1
    by_cases hc : ∀ i, i < n → n ≤ at_ d.seq i
    · have : d = idD n := ext' h1 h2 (Cell.eq_id ⟨hd.2, by omega, hc⟩)
      rw [this, h]
    · push Not at hc
      obtain ⟨i, hi, hlt⟩ := hc
      -- an innermost arc at the bottom
      have : ∃ k, k + 1 < n ∧ at_ d.seq k = k + 1 := by
        have n1 := hd.2.nofix i (by omega)
        have v1 := hd.2.invol i (by omega)
        rcases lt_or_gt_of_ne n1 with c | c
        · obtain ⟨k, k1, k2, k3⟩ := innermost hd.2 (at_ d.seq i) (by omega) (by rw [v1]; exact c)
          rw [v1] at k2
          exact ⟨k, by omega, k3⟩
        · obtain ⟨k, k1, k2, k3⟩ := innermost hd.2 i (by omega) c
          exact ⟨k, by omega, k3⟩
      obtain ⟨k, hk, hcup⟩ := this
      obtain ⟨m, rfl⟩ : ∃ m, n = k + 2 + m := ⟨n - k - 2, by omega⟩
      have cu : (cupAt k m).top = k + 2 + m ∧ (cupAt k m).bot = k + m := ⟨by show k + (2 + m) = _; omega, by show k + (0 + m) = _; omega⟩
      have ca : (capAt k m).top = k + m ∧ (capAt k m).bot = k + 2 + m := ⟨by show k + (0 + m) = _; omega, by show k + (2 + m) = _; omega⟩
      obtain ⟨p1, p2⟩ := TLMor.prod_e_right (i := k) (n := k + 2 + m) (by omega) hd h2
      rw [act_of_cup hd.2 (by omega) hcup] at p1
      obtain ⟨a1, a2⟩ := prod_assoc hd (cupAt_ok k m) (capAt_ok k m) (by omega) (by omega)
      rw [(cupAt_capAt k m).1, p1] at a1
      have a1 : prodD (prodD d (cupAt k m)) (capAt k m) = d := by rw [a1]; exact ext' rfl h2.symm rfl
      obtain ⟨-, -, y1, y2, yo⟩ := mul_ok hd (cupAt_ok k m) (by omega)
      set y := prodD d (cupAt k m) with hy
      obtain ⟨-, -, z1, z2, zo⟩ := mul_ok (capAt_ok k m) yo (by omega)
      have F := hf (k + 2 + m) (k + m) y (capAt k m) yo (capAt_ok k m) (by omega) (by omega) (by omega) (by omega)
      have G := hg (k + 2 + m) (k + m) y (capAt k m) yo (capAt_ok k m) (by omega) (by omega) (by omega) (by omega)
      rw [a1, ih (k + m) (by omega) (prodD (capAt k m) y) zo (by omega) (by omega), ← G, a1] at F
      exact mul_left_cancel₀ (pow_ne_zero _ dl_ne_zero) F

end TL
end Peyl
