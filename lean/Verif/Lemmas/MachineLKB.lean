import Verif.Lemmas.MachineSize
import Verif.Props.LKBEval
/-!
# The generators of `LKBRep` have small entries; machine integers in `LKBRep`
-/
namespace Peyl
open Polymat Polynomial LaurentPolynomial

/-- A power of `v` or its negative. -/
def SM (e : ℤ) (x : ℤ[T;T⁻¹]) : Prop := x = T e ∨ x = -T e

theorem SM.neg {e : ℤ} {x : ℤ[T;T⁻¹]} (h : SM e x) : SM e (-x) := by rcases h with rfl | rfl <;> simp [SM]
theorem SM.one : SM 0 1 := .inl T_zero.symm
theorem SM.mul {e f : ℤ} {x y : ℤ[T;T⁻¹]} (h : SM e x) (h' : SM f y) : SM (e + f) (x * y) := by
  rw [SM, T_add]; rcases h with rfl | rfl <;> rcases h' with rfl | rfl <;> simp only [neg_mul, mul_neg, neg_neg, true_or, or_true]
theorem SM.pow {e : ℤ} {x : ℤ[T;T⁻¹]} (h : SM e x) : ∀ k : Nat, SM (k * e) (x ^ k)
  | 0 => by simpa using SM.one
  | k + 1 => by
    have := (SM.pow h k).mul h
    rwa [← pow_succ, show (k : ℤ) * e + e = ((k + 1 : Nat) : ℤ) * e by push_cast; ring] at this

theorem unit_SM {x : LPoly} (hx : x.Trimmed) (hu : x.isUnit = true) : SM x.val x.den := by
  rcases (LPoly.isUnit_den_iff hx).1 (LKB.unit_den hx hu) with h | h <;> simp [SM, LPoly.den, h, listPoly]

/-- `x` is `v^lo` times a polynomial of degree at most `D`, the sum of the absolute values of its coefficients is at most `c`. -/
def Nrm (lo : ℤ) (D c : Nat) (x : ℤ[T;T⁻¹]) : Prop :=
  ∃ f g : ℤ[X], x = T lo * f.toLaurent ∧ (∀ e, |f.coeff e| ≤ g.coeff e) ∧ g.natDegree ≤ D ∧ g.eval 1 ≤ c

theorem Nrm.zero {lo : ℤ} {D : Nat} : Nrm lo D 0 0 := ⟨0, 0, by simp, by simp, by simp, by simp⟩

theorem Nrm.of_SM {lo e : ℤ} {D : Nat} {x : ℤ[T;T⁻¹]} (h : SM e x) (h1 : lo ≤ e) (h2 : e ≤ lo + D) : Nrm lo D 1 x := by
  have e0 : (T lo : ℤ[T;T⁻¹]) * (X ^ (e - lo).toNat : ℤ[X]).toLaurent = T e := by
    rw [toLaurent_X_pow, ← T_add]; congr 1; omega
  have hc : ∀ k, |((X ^ (e - lo).toNat : ℤ[X])).coeff k| ≤ (X ^ (e - lo).toNat : ℤ[X]).coeff k := fun k => by rw [coeff_X_pow]; split <;> simp
  have hd : (X ^ (e - lo).toNat : ℤ[X]).natDegree ≤ D := by rw [natDegree_X_pow]; omega
  rcases h with rfl | rfl
  · exact ⟨_, _, e0.symm, hc, hd, by simp⟩
  · refine ⟨-X ^ (e - lo).toNat, _, ?_, fun k => ?_, hd, by simp⟩
    · rw [map_neg, mul_neg, e0]
    · rw [coeff_neg, abs_neg]; exact hc k

theorem Nrm.add {lo : ℤ} {D c c' : Nat} {x y : ℤ[T;T⁻¹]} (h : Nrm lo D c x) (h' : Nrm lo D c' y) : Nrm lo D (c + c') (x + y) := by
  obtain ⟨f, g, h1, h2, h3, h4⟩ := h
  obtain ⟨f', g', h1', h2', h3', h4'⟩ := h'
  refine ⟨f + f', g + g', by rw [h1, h1', map_add, mul_add], fun e => ?_, (natDegree_add_le _ _).trans (max_le h3 h3'), ?_⟩
  · rw [coeff_add, coeff_add]; exact (abs_add_le _ _).trans (add_le_add (h2 e) (h2' e))
  · rw [eval_add]; push_cast; exact add_le_add h4 h4'

namespace LKB
variable {n : Nat} {q t : LPoly}

/-- The lowest exponent, in the images of the generators, and the span of the exponents. -/
def lowExp (n : Nat) (q t : LPoly) : ℤ := min t.val 0 + n * min q.val 0
def degSpan (n : Nat) (q t : LPoly) : Nat := t.val.natAbs + n * q.val.natAbs

theorem exp_zero (n : Nat) (q t : LPoly) : lowExp n q t ≤ 0 ∧ (0 : ℤ) ≤ lowExp n q t + degSpan n q t := by
  have h1 : (n : ℤ) * min q.val 0 ≤ 0 := mul_nonpos_of_nonneg_of_nonpos (by omega) (by omega)
  have h2 : 0 ≤ (n : ℤ) * (min q.val 0 + q.val.natAbs) := mul_nonneg (by omega) (by omega)
  rw [lowExp, degSpan]; push_cast; rw [mul_add] at h2
  push_cast at h2
  constructor
  · omega
  · have : 0 ≤ min t.val 0 + |t.val| := by have := abs_nonneg t.val; have := neg_abs_le t.val; omega
    linarith

theorem exp_q (hn : 1 ≤ n) (q t : LPoly) : lowExp n q t ≤ q.val ∧ q.val ≤ lowExp n q t + degSpan n q t := by
  have h1 : (n : ℤ) * min q.val 0 ≤ 1 * min q.val 0 := mul_le_mul_of_nonpos_right (by exact_mod_cast hn) (by omega)
  have h2 : 1 * (min q.val 0 + |q.val|) ≤ (n : ℤ) * (min q.val 0 + |q.val|) := mul_le_mul_of_nonneg_right (by exact_mod_cast hn) (by have := neg_abs_le q.val; have := abs_nonneg q.val; omega)
  have h3 : q.val ≤ min q.val 0 + |q.val| := by have := le_abs_self q.val; have := abs_nonneg q.val; rcases le_total q.val 0 with h | h
                                                · rw [min_eq_left h]; omega
                                                · rw [min_eq_right h]; omega
  have h4 : 0 ≤ min t.val 0 + |t.val| := by have := abs_nonneg t.val; have := neg_abs_le t.val; omega
  rw [lowExp, degSpan]; push_cast; rw [mul_add, mul_add] at h2
  constructor
  · omega
  · linarith

theorem exp_tq (q t : LPoly) {k : Nat} (hk : k ≤ n) : lowExp n q t ≤ t.val + k * q.val ∧ t.val + k * q.val ≤ lowExp n q t + degSpan n q t := by
  have hk' : (k : ℤ) ≤ n := by exact_mod_cast hk
  have h3 : q.val ≤ min q.val 0 + |q.val| := by have := le_abs_self q.val; have := abs_nonneg q.val; rcases le_total q.val 0 with h | h
                                                · rw [min_eq_left h]; omega
                                                · rw [min_eq_right h]; omega
  have h3' : 0 ≤ min q.val 0 + |q.val| := by have := neg_abs_le q.val; have := abs_nonneg q.val; omega
  have h4 : t.val ≤ min t.val 0 + |t.val| := by have := le_abs_self t.val; have := abs_nonneg t.val; rcases le_total t.val 0 with h | h
                                                · rw [min_eq_left h]; omega
                                                · rw [min_eq_right h]; omega
  have h1 : (n : ℤ) * min q.val 0 ≤ k * min q.val 0 := mul_le_mul_of_nonpos_right hk' (by omega)
  have h1' : (k : ℤ) * min q.val 0 ≤ k * q.val := mul_le_mul_of_nonneg_left (by omega) (by omega)
  have h2 : (k : ℤ) * q.val ≤ k * (min q.val 0 + |q.val|) := mul_le_mul_of_nonneg_left h3 (by omega)
  have h2' : (k : ℤ) * (min q.val 0 + |q.val|) ≤ n * (min q.val 0 + |q.val|) := mul_le_mul_of_nonneg_right hk' h3'
  rw [lowExp, degSpan]; push_cast
  have e : (n : ℤ) * (min q.val 0 + |q.val|) = n * min q.val 0 + n * |q.val| := by ring
  constructor
  · have : min t.val 0 ≤ t.val := min_le_left _ _
    linarith
  · linarith

/-- The entries of a column. -/
theorem column_nrm (hq : q.Trimmed) (ht : t.Trimmed) (hqu : q.isUnit = true) (htu : t.isUnit = true) {s : Nat} (hs : s + 1 < n) {p : Nat × Nat} (hp : p ∈ pairs n) :
    ∃ col, column q t s p.1 p.2 = .ok col ∧ ∃ c : Nat × Nat → Nat, (∀ row, Nrm (lowExp n q t) (degSpan n q t) (c row) (get col row).den) ∧
      ∃ (k l : Nat × Nat) (x y : Nat), x + y ≤ 5 ∧ ∀ row, c row = (if row = k then x else 0) + if row = l then y else 0 := by
  obtain ⟨h1, h2⟩ := mem_pairs.1 hp
  obtain ⟨i, j⟩ := p
  dsimp only at h1 h2 ⊢
  have hQ := unit_SM hq hqu
  have hT := unit_SM ht htu
  have e0 := exp_zero n q t
  have eq1 := exp_q (n := n) (by omega) q t
  -- the monomials that occur
  have m1 : Nrm (lowExp n q t) (degSpan n q t) 1 1 := .of_SM SM.one e0.1 e0.2
  have mq : Nrm (lowExp n q t) (degSpan n q t) 1 q.den := .of_SM hQ eq1.1 eq1.2
  have mq' : Nrm (lowExp n q t) (degSpan n q t) 1 (-q.den) := .of_SM hQ.neg eq1.1 eq1.2
  have mt : ∀ k, k ≤ n → Nrm (lowExp n q t) (degSpan n q t) 1 (t.den * q.den ^ k) := fun k hk =>
    .of_SM (hT.mul (hQ.pow k)) (exp_tq q t hk).1 (exp_tq q t hk).2
  have mt' : ∀ k, k ≤ n → Nrm (lowExp n q t) (degSpan n q t) 1 (-(t.den * q.den ^ k)) := fun k hk =>
    .of_SM (hT.mul (hQ.pow k)).neg (exp_tq q t hk).1 (exp_tq q t hk).2
  have single : ∀ (k : Nat × Nat) (c : LPoly) (x : Nat), x ≤ 5 → Nrm (lowExp n q t) (degSpan n q t) x c.den →
      ∃ col, (Except.ok [(k, c)] : Except Err _) = .ok col ∧ ∃ c : Nat × Nat → Nat, (∀ row, Nrm (lowExp n q t) (degSpan n q t) (c row) (get col row).den) ∧
      ∃ (k l : Nat × Nat) (x y : Nat), x + y ≤ 5 ∧ ∀ row, c row = (if row = k then x else 0) + if row = l then y else 0 := by
    intro k c x hx h
    refine ⟨_, rfl, fun row => if row = k then x else 0, fun row => ?_, k, k, x, 0, by omega, fun row => by simp⟩
    rw [den_get_single]
    dsimp only
    split
    · exact h
    · exact .zero
  have pair : ∀ (k l : Nat × Nat) (c e : LPoly) (x y : Nat), k ≠ l → x + y ≤ 5 → Nrm (lowExp n q t) (degSpan n q t) x c.den → Nrm (lowExp n q t) (degSpan n q t) y e.den →
      ∃ col, (Except.ok [(k, c), (l, e)] : Except Err _) = .ok col ∧ ∃ c : Nat × Nat → Nat, (∀ row, Nrm (lowExp n q t) (degSpan n q t) (c row) (get col row).den) ∧
      ∃ (k l : Nat × Nat) (x y : Nat), x + y ≤ 5 ∧ ∀ row, c row = (if row = k then x else 0) + if row = l then y else 0 := by
    intro k l c e x y hkl hx h h'
    refine ⟨_, rfl, fun row => (if row = k then x else 0) + if row = l then y else 0, fun row => ?_, k, l, x, y, hx, fun row => rfl⟩
    rw [den_get_pair hkl]
    refine Nrm.add ?_ ?_
    · split
      · exact h
      · exact .zero
    · split
      · exact h'
      · exact .zero
  unfold column
  dsimp only
  split_ifs with c1 c2 c3 c4 c5 c6 c7
  · refine single _ _ 1 (by omega) ?_
    rw [LPoly.den_mul, LPoly.den_mul, mul_assoc, ← pow_two]
    exact mt 2 (by omega)
  · refine pair _ _ _ _ 2 1 (by simp) (by omega) ?_ mq
    rw [LPoly.den_add, LPoly.den_neg, den_one]
    exact mq'.add m1
  · rw [LPoly.pow_nonneg _ _ (by omega), bind_ok]
    refine pair _ _ _ _ 1 2 (by intro h; injection h with h h'; omega) (by omega) (by rw [den_one]; exact m1) ?_
    rw [LPoly.den_mul, LPoly.den_mul, LPoly.den_sub, den_one, LPoly.den_powNat, mul_sub, mul_one, mul_assoc, ← pow_succ, sub_eq_add_neg]
    exact (mt _ (by omega)).add (mt' _ (by omega))
  · refine pair _ _ _ _ 2 1 (by intro h; injection h with h h'; omega) (by omega) ?_ mq
    rw [LPoly.den_mul, LPoly.den_mul, LPoly.den_sub, den_one, mul_sub, mul_one, mul_assoc, ← pow_two, sub_eq_add_neg]
    have := mt' 1 (by omega)
    rw [pow_one] at this
    exact (mt 2 (by omega)).add this
  · refine pair _ _ _ _ 1 2 (by intro h; injection h with h h'; omega) (by omega) (by rw [den_one]; exact m1) ?_
    rw [LPoly.den_add, LPoly.den_neg, den_one]
    exact mq'.add m1
  · exact single _ _ 1 (by omega) (by rw [den_one]; exact m1)
  · rw [LPoly.pow_nonneg _ _ (by omega), bind_ok, LPoly.pow_nonneg _ _ (by omega), bind_ok]
    refine pair _ _ _ _ 1 4 (by intro h; injection h with h h'; omega) (by omega) (by rw [den_one]; exact m1) ?_
    rw [LPoly.den_mul, LPoly.den_mul, LPoly.den_powNat, LPoly.den_powNat, LPoly.den_sub, den_one, show (2 : Int).toNat = 2 from rfl]
    set k := ((s : Int) - i).toNat with hk
    have e : t.den * q.den ^ k * (q.den - 1) ^ 2 = t.den * q.den ^ (k + 2) + -(t.den * q.den ^ (k + 1)) + -(t.den * q.den ^ (k + 1)) + t.den * q.den ^ k := by ring
    rw [e]
    exact (((mt _ (by omega)).add (mt' _ (by omega))).add (mt' _ (by omega))).add (mt _ (by omega))
  · exfalso; omega

/-- A generator matrix. -/
theorem gen_size (hq : q.Trimmed) (ht : t.Trimmed) (hqu : q.isUnit = true) (htu : t.isUnit = true) {s : Nat} (hs : s + 1 < n) {M : Matrix} (hM : gen n q t s = .ok M) :
    ∀ d, d = (pairs n).length → ∃ N : _root_.Matrix (Fin d) (Fin d) ℤ[X], Size (degSpan n q t) 5 N ∧ M.den d d = (T (lowExp n q t) : ℤ[T;T⁻¹]) • N.map fun f => f.toLaurent := by
  rintro _ rfl
  obtain ⟨M', m1, m2, m3⟩ := gen_spec hq ht hs
  rw [hM] at m1; cases m1
  choose col hcol c hc k l x y hxy hrow using fun b : Fin (pairs n).length => column_nrm hq ht hqu htu hs (List.getElem_mem b.2)
  choose f g h1 h2 h3 h4 using fun a b : Fin (pairs n).length => hc b (pairs n)[a]
  refine ⟨fun a b => f a b, ⟨fun a b => g a b, h2, h3, fun b => ?_⟩, ?_⟩
  · have h6 : ∑ a, (g a b).eval 1 ≤ ∑ a : Fin (pairs n).length, ((c b (pairs n)[a] : Nat) : ℤ) := Finset.sum_le_sum fun a _ => h4 a b
    refine h6.trans ?_
    have hone : ∀ (k : Nat × Nat) (x : Nat), ∑ a : Fin (pairs n).length, (if (pairs n)[a] = k then x else 0) ≤ x := by
      intro k x
      have hcard : (Finset.univ.filter fun a : Fin (pairs n).length => (pairs n)[a] = k).card ≤ 1 := Finset.card_le_one.2 fun a ha a' ha' => by
        simp only [Finset.mem_filter, Finset.mem_univ, true_and] at ha ha'
        exact Fin.ext ((nodup_pairs n).getElem_inj_iff.1 (ha.trans ha'.symm))
      rw [← Finset.sum_filter, Finset.sum_const, smul_eq_mul]
      nlinarith
    have h7 : ∑ a : Fin (pairs n).length, c b (pairs n)[a] ≤ 5 := by
      simp only [hrow]
      rw [Finset.sum_add_distrib]
      exact (add_le_add (hone _ _) (hone _ _)).trans (hxy b)
    exact_mod_cast h7
  · ext1 a b
    rw [m3 a b _ (hcol b), _root_.Matrix.smul_apply, smul_eq_mul]
    exact h1 a b

theorem rep_gens {p : Nat} {G I : List Matrix} (h : rep n p q t = .ok ⟨n, p, G, I⟩) (s : Nat) (hs : s < G.length) : gen n q t s = .ok G[s] := by
  rw [rep] at h
  obtain ⟨gi, h1, h⟩ := bind_eq_ok.1 h
  injection h with h; injection h with _ _ hG hI
  rw [artinGensInvs] at h1
  obtain ⟨_, -, h1⟩ := bind_eq_ok.1 h1
  obtain ⟨_, -, h1⟩ := bind_eq_ok.1 h1
  obtain ⟨_, -, h1⟩ := bind_eq_ok.1 h1
  obtain ⟨gens, h2, h1⟩ := bind_eq_ok.1 h1
  injection h1 with h1
  subst h1
  dsimp only at hG
  subst hG
  have : ∀ (l : List Nat) (gs : List Matrix), l.mapM (fun s => gen n q t s) = .ok gs → ∀ i (hi : i < gs.length), ∃ h : i < l.length, gen n q t l[i] = .ok gs[i] := by
    intro l
    induction l with
    | nil => intro gs h i hi; cases h; simp at hi
    | cons a l ih =>
      intro gs h i hi
      rw [List.mapM_cons] at h
      obtain ⟨g, hg, h⟩ := bind_eq_ok.1 h
      obtain ⟨gs', hgs, h⟩ := bind_eq_ok.1 h
      cases h
      cases i with
      | zero => exact ⟨by simp, hg⟩
      | succ i =>
        obtain ⟨h1, h2⟩ := ih gs' hgs i (by simpa using hi)
        exact ⟨by simpa using h1, by simpa using h2⟩
  obtain ⟨h3, h4⟩ := this _ _ h2 s hs
  simpa using h4

end LKB

/-- The images of the generators. -/
theorem IsLKB.size {n p : Nat} {q t : LPoly} {G : List Matrix} {ρ : Braid n →* LMat p (LKB.dimension n)} (hq : q.Trimmed) (ht : t.Trimmed)
    (hqu : q.isUnit = true) (htu : t.isUnit = true) (H : IsLKB n p q t ⟨n, p, G, G⟩ ρ) (s : Nat) (hs : s + 1 < n) :
    SizeB ρ (LKB.degSpan n q t) 5 (sigma n s) := by
  have hl : G.length = n - 1 := H.len
  have hg := LKB.rep_gens H.ok s (by omega)
  obtain ⟨N, n1, n2⟩ := LKB.gen_size hq ht hqu htu hs hg (LKB.dimension n) (LKB.length_pairs n).symm
  refine ⟨N, LKB.lowExp n q t, n1, ?_⟩
  have h1 := H.gens s (by show s < G.length; omega)
  rw [← h1]
  show (G[s].den _ _).map (LPoly.red p) = _
  rw [n2]
  ext1 i j
  simp only [_root_.Matrix.map_apply, _root_.Matrix.smul_apply, smul_eq_mul, map_mul, red_T]

namespace RepBase
variable {d n p w : Nat} {G I I' : List Matrix} {T' : Type} {tbl : Nat → Except Err (NFTable T')} {t : NFTable T'}

theorem factorImageW_pos (ht : tbl n = .ok t) (hw : ∀ w ∈ t.artinWord, ∀ ie ∈ w, 0 ≤ ie.2) (i : Nat) :
    (⟨n, p, G, G⟩ : RepBase d).factorImageW w tbl i = (⟨n, p, G, I⟩ : RepBase d).factorImageW w tbl i := by
  unfold factorImageW
  dsimp only
  rw [ht, bind_ok, bind_ok]
  cases h : lookup t.artinWord i with
  | error e => rfl
  | ok w => rw [bind_ok, bind_ok, evaluate_pos (I := I) w (hw w (lookup_mem h))]

theorem deltaImageW_pos (ht : tbl n = .ok t) (hw : ∀ w ∈ t.artinWord, ∀ ie ∈ w, 0 ≤ ie.2) (i : Nat) :
    (⟨n, p, G, G⟩ : RepBase d).deltaImageW w tbl i = (⟨n, p, G, I⟩ : RepBase d).deltaImageW w tbl i := by
  unfold deltaImageW
  dsimp only
  rw [ht, bind_ok, bind_ok]
  cases h : lookup t.artinWord t.D with
  | error e => rfl
  | ok w => rw [bind_ok, bind_ok, evaluate_pos (I := I) w (hw w (lookup_mem h))]

theorem evalStepW_pos (ht : tbl n = .ok t) (hw : ∀ w ∈ t.artinWord, ∀ ie ∈ w, 0 ≤ ie.2) :
    (⟨n, p, G, G⟩ : RepBase d).evalStepW w tbl = (⟨n, p, G, I⟩ : RepBase d).evalStepW w tbl := by
  funext L fs A i
  unfold evalStepW
  rw [show (⟨n, p, G, G⟩ : RepBase d).factorImageW w tbl = (⟨n, p, G, I⟩ : RepBase d).factorImageW w tbl from funext (factorImageW_pos ht hw)]

theorem evalSameW_pos (ht : tbl n = .ok t) (hw : ∀ w ∈ t.artinWord, ∀ ie ∈ w, 0 ≤ ie.2) :
    (⟨n, p, G, G⟩ : RepBase d).evalSameW w tbl = (⟨n, p, G, I⟩ : RepBase d).evalSameW w tbl := by
  funext xs
  unfold evalSameW
  rw [evalStepW_pos (I := I) ht hw, show (⟨n, p, G, G⟩ : RepBase d).deltaImageW w tbl = (⟨n, p, G, I⟩ : RepBase d).deltaImageW w tbl from funext (deltaImageW_pos ht hw)]

theorem evalIntegersW_pos (ht : tbl n = .ok t) (hw : ∀ w ∈ t.artinWord, ∀ ie ∈ w, 0 ≤ ie.2) :
    (⟨n, p, G, G⟩ : RepBase d).evalIntegersW w tbl = (⟨n, p, G, I⟩ : RepBase d).evalIntegersW w tbl := by
  funext xs
  unfold evalIntegersW
  rw [evalStepW_pos (I := I) ht hw, show (⟨n, p, G, G⟩ : RepBase d).factorImageW w tbl = (⟨n, p, G, I⟩ : RepBase d).factorImageW w tbl from funext (factorImageW_pos ht hw)]

end RepBase
end Peyl
