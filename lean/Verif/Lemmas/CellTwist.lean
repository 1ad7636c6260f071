import Verif.Lemmas.CellModule
/-!
# The full twist acts on a cell module by a power of `v`
-/
namespace Peyl
namespace TL
open _root_.Matrix

/-- `r` cups followed by `b` through strands. -/
def cupSeq (r b : Nat) : List Nat := (List.range (2 * r + b + b)).map fun x =>
  if x < b then 2 * r + b + b - 1 - x else if x < b + 2 * r then (if (x - b) % 2 = 0 then x + 1 else x - 1) else 2 * r + b + b - 1 - x

theorem cupSeq_length (r b : Nat) : (cupSeq r b).length = 2 * r + b + b := by simp [cupSeq]

theorem at_cupSeq (r b x : Nat) (h : x < 2 * r + b + b) : at_ (cupSeq r b) x =
    if x < b then 2 * r + b + b - 1 - x else if x < b + 2 * r then (if (x - b) % 2 = 0 then x + 1 else x - 1) else 2 * r + b + b - 1 - x :=
  at_range _ _ _ h

/-- The arcs of `cupSeq`, as a disjunction. -/
theorem cupSeq_arc (r b x : Nat) (h : x < 2 * r + b + b) :
    (x < b ∧ at_ (cupSeq r b) x = 2 * r + b + b - 1 - x) ∨ (b ≤ x ∧ x < b + 2 * r ∧ (x - b) % 2 = 0 ∧ at_ (cupSeq r b) x = x + 1) ∨
    (b ≤ x ∧ x < b + 2 * r ∧ (x - b) % 2 = 1 ∧ at_ (cupSeq r b) x = x - 1) ∨ (b + 2 * r ≤ x ∧ at_ (cupSeq r b) x = 2 * r + b + b - 1 - x) := by
  rw [at_cupSeq r b x h]
  split_ifs <;> omega

theorem cupSeq_cell (r b : Nat) : Cell (2 * r + b) b (cupSeq r b) := by
  refine ⟨⟨fun x hx => ?_, fun x hx => ?_, fun x hx => ?_, fun x y hx hy h1 h2 h3 => ?_⟩, cupSeq_length r b, fun i hi => ?_⟩
  · rw [cupSeq_length] at hx ⊢
    rcases cupSeq_arc r b x hx with h | h | h | h <;> omega
  · rw [cupSeq_length] at hx
    rcases cupSeq_arc r b x hx with h | h | h | h <;> omega
  · rw [cupSeq_length] at hx
    rcases cupSeq_arc r b x hx with h | h | h | h
    · rcases cupSeq_arc r b (at_ (cupSeq r b) x) (by omega) with h' | h' | h' | h' <;> omega
    · rcases cupSeq_arc r b (at_ (cupSeq r b) x) (by omega) with h' | h' | h' | h' <;> omega
    · rcases cupSeq_arc r b (at_ (cupSeq r b) x) (by omega) with h' | h' | h' | h' <;> omega
    · rcases cupSeq_arc r b (at_ (cupSeq r b) x) (by omega) with h' | h' | h' | h' <;> omega
  · rw [cupSeq_length] at hx hy
    rcases cupSeq_arc r b x hx with h | h | h | h <;> rcases cupSeq_arc r b y hy with h' | h' | h' | h' <;> omega
  · rcases cupSeq_arc r b i (by omega) with h | h | h | h <;> omega

/-- Two neighbouring through strands are cut. -/
theorem cupSeq_cut (r b k : Nat) (h1 : b + 2 * r ≤ k) (h2 : k + 1 < 2 * r + b + b) : ¬ Cell (2 * r + b) b (actSeq k (cupSeq r b)) := by
  intro hc
  have hi := cupSeq_arc r b k (by omega)
  have hj := cupSeq_arc r b (k + 1) (by omega)
  have := hc.up (at_ (cupSeq r b) k) (by omega)
  have hm := cupSeq_arc r b (at_ (cupSeq r b) k) (by omega)
  rw [at_actSeq _ _ _ (by rw [cupSeq_length]; omega), cupCap] at this
  split_ifs at this <;> omega

/-- Every arc contains a small cup. -/
theorem small_cup {D : List Nat} (hD : Crossingless D) : ∀ (m x : Nat), at_ D x = x + 1 + m → x + 1 + m < D.length →
    ∃ t, x ≤ t ∧ t + 1 ≤ x + 1 + m ∧ at_ D t = t + 1 := by
  intro m
  induction m using Nat.strong_induction_on with
  | _ m ih =>
    intro x hx hl
    rcases Nat.eq_zero_or_pos m with rfl | hm
    · exact ⟨x, le_rfl, by omega, hx⟩
    have q1 := hD.invol x (by omega)
    have q2 := hD.invol (x + 1) (by omega)
    have q3 := hD.nofix (x + 1) (by omega)
    have q4 := hD.lt (x + 1) (by omega)
    have n1 : at_ D (x + 1) ≠ x := fun e => by rw [e, hx] at q2; omega
    have n2 : at_ D (x + 1) ≠ at_ D x := fun e => by rw [e, q1] at q2; omega
    have n3 : ¬ at_ D (x + 1) < x := fun e => by
      refine hD.noncross (at_ D (x + 1)) x q4 (by omega) e ?_ ?_ <;> rw [q2] <;> omega
    have n4 : ¬ at_ D x < at_ D (x + 1) := fun e => hD.noncross x (x + 1) (by omega) (by omega) (by omega) (by omega) e
    obtain ⟨t, t1, t2, t3⟩ := ih (at_ D (x + 1) - (x + 1) - 1) (by omega) (x + 1) (by omega) (by omega)
    exact ⟨t, by omega, by omega, t3⟩

/-- `D` starts with `j` cups. -/
def Lead (b j : Nat) (D : List Nat) : Prop := ∀ i, i < j → at_ D (b + 2 * i) = b + 2 * i + 1

theorem Lead.arc {n b j : Nat} {D : List Nat} (hc : Cell n b D) (h : Lead b j D) (hj : 2 * j ≤ n) {x : Nat} (hx : b ≤ x) (hx' : x < b + 2 * j) :
    b ≤ at_ D x ∧ at_ D x < b + 2 * j := by
  have hl := hc.len
  obtain ⟨i, hi⟩ : ∃ i, x = b + 2 * i ∨ x = b + 2 * i + 1 := ⟨(x - b) / 2, by omega⟩
  rcases hi with hi | hi
  · rw [hi, h i (by omega)]; omega
  · have := hc.nc.invol (b + 2 * i) (by omega)
    rw [h i (by omega)] at this
    rw [hi, this]; omega

theorem Lead.exists_cup {r b j : Nat} {D : List Nat} (hc : Cell (2 * r + b) b D) (h : Lead b j D) (hj : j < r) :
    ∃ t, b + 2 * j ≤ t ∧ t + 1 < 2 * r + b + b ∧ at_ D t = t + 1 := by
  have hl := hc.len
  by_contra hne
  push Not at hne
  have hbelow : ∀ x, b + 2 * j ≤ x → x < 2 * r + b + b → at_ D x < b := by
    intro x h1 h2
    by_contra h3
    have q1 := hc.nc.invol x (by omega)
    have q2 := hc.nc.nofix x (by omega)
    have q3 := hc.nc.lt x (by omega)
    have q4 : b + 2 * j ≤ at_ D x := by
      by_contra h4
      have := h.arc hc (by omega) (x := at_ D x) (by omega) (by omega)
      omega
    rcases Nat.lt_or_gt_of_ne q2 with q | q
    · obtain ⟨t, t1, t2, t3⟩ := small_cup hc.nc (x - at_ D x - 1) (at_ D x) (by rw [q1]; omega) (by omega)
      exact hne t (by omega) (by omega) t3
    · obtain ⟨t, t1, t2, t3⟩ := small_cup hc.nc (at_ D x - x - 1) x (by omega) (by omega)
      exact hne t (by omega) (by omega) t3
  have := Finset.card_le_card_of_injOn (s := Finset.Ico (b + 2 * j) (2 * r + b + b)) (t := Finset.range b) (at_ D)
    (fun x hx => by
      have hx := Finset.mem_Ico.1 hx
      exact Finset.mem_coe.2 (Finset.mem_range.2 (hbelow x hx.1 hx.2)))
    (fun x hx y hy e => by
      have hx := Finset.mem_Ico.1 (Finset.mem_coe.1 hx)
      have hy := Finset.mem_Ico.1 (Finset.mem_coe.1 hy)
      rw [← hc.nc.invol x (by omega), e, hc.nc.invol y (by omega)])
  simp only [Nat.card_Ico, Finset.card_range] at this
  omega

/-- A cell diagram that starts with the maximal number of cups is `cupSeq`. -/
theorem Lead.eq {r b : Nat} {D : List Nat} (hc : Cell (2 * r + b) b D) (h : Lead b r D) : D = cupSeq r b := by
  have hl := hc.len
  have hup : ∀ i, i < b → b + 2 * r ≤ at_ D i := by
    intro i hi
    by_contra hlt
    have := h.arc hc (by omega) (x := at_ D i) (hc.up i hi) (by omega)
    rw [hc.nc.invol i (by omega)] at this
    omega
  have hdec : ∀ i j, i < j → j < b → at_ D j < at_ D i := by
    intro i j hij hj
    have q1 := hc.nc.invol i (by omega)
    have q2 := hc.nc.invol j (by omega)
    have q3 := hup i (by omega)
    have hne : at_ D i ≠ at_ D j := fun e => by rw [e, q2] at q1; omega
    by_contra hcon
    exact hc.nc.noncross i j (by omega) (by omega) hij (by omega) (by omega)
  have h1 : ∀ i, i < b → at_ D i ≤ 2 * r + b + b - 1 - i := by
    intro i
    induction i with
    | zero => intro hi; have := hc.nc.lt 0 (by omega); omega
    | succ i ih => intro hi; have := ih (by omega); have := hdec i (i + 1) (by omega) hi; omega
  have h2 : ∀ m, m < b → b + 2 * r + m ≤ at_ D (b - 1 - m) := by
    intro m
    induction m with
    | zero => intro hi; have := hup (b - 1 - 0) (by omega); omega
    | succ m ih => intro hi; have := ih (by omega); have := hdec (b - 1 - (m + 1)) (b - 1 - m) (by omega) (by omega); omega
  have h3 : ∀ i, i < b → at_ D i = 2 * r + b + b - 1 - i := by
    intro i hi
    have a1 := h1 i hi
    have a2 := h2 (b - 1 - i) (by omega)
    rw [show b - 1 - (b - 1 - i) = i by omega] at a2
    omega
  refine ext_at (by rw [hl, cupSeq_length]) fun x hx => ?_
  rw [hl] at hx
  rw [at_cupSeq _ _ _ hx]
  split_ifs with c1 c2 c3
  · exact h3 x c1
  · rw [show x = b + 2 * ((x - b) / 2) by omega, h _ (by omega)]
  · have := hc.nc.invol (b + 2 * ((x - b) / 2)) (by omega)
    rw [h _ (by omega)] at this
    rw [show x = b + 2 * ((x - b) / 2) + 1 by omega, this]; omega
  · have := hc.nc.invol (2 * r + b + b - 1 - x) (by omega)
    rwa [h3 (2 * r + b + b - 1 - x) (by omega), show 2 * r + b + b - 1 - (2 * r + b + b - 1 - x) = x by omega] at this

/-- Every cell diagram is obtained from `cupSeq` by the action, without loops. -/
theorem cell_cyclic {r b : Nat} (P : List Nat → Prop) (h0 : P (cupSeq r b))
    (hstep : ∀ D k, Cell (2 * r + b) b D → b ≤ k → k + 1 < 2 * r + b + b → Cell (2 * r + b) b (actSeq k D) → actLoops k D = 0 → P D → P (actSeq k D))
    (D : List Nat) (hD : Cell (2 * r + b) b D) : P D := by
  have key : ∀ m j, j + m = r → ∀ D, Cell (2 * r + b) b D → Lead b j D → P D := by
    intro m
    induction m with
    | zero => intro j hj D hD hL; rw [Lead.eq hD (by rw [← show j = r by omega]; exact hL)]; exact h0
    | succ m ih =>
      intro j hj D hD hL
      obtain ⟨t, t1, t2, t3⟩ := hL.exists_cup hD (by omega)
      obtain ⟨q, rfl⟩ := Nat.exists_eq_add_of_le t1
      clear t1
      induction q generalizing D with
      | zero =>
        refine ih (j + 1) (by omega) D hD fun i hi => ?_
        rcases Nat.lt_succ_iff_lt_or_eq.1 hi with hi | rfl
        · exact hL i hi
        · exact t3
      | succ q ihq =>
        have hl := hD.len
        obtain ⟨e1, e2, e3⟩ := act_return_left hD.nc (t := b + 2 * j + q) (by omega) t3
        have hc' : Cell (2 * r + b) b (actSeq (b + 2 * j + q) D) :=
          Cell.of_act (act_nc hD.nc (by omega)) (by simpa using hl) (k := b + 2 * j + q + 1) (by omega) (by simp; omega) (by rw [e1]; exact hD)
        have := hstep (actSeq (b + 2 * j + q) D) (b + 2 * j + q + 1) hc' (by omega) (by omega) (by rw [e1]; exact hD) e3
          (ihq _ hc' (fun i hi => by
            rw [at_actSeq _ _ _ (by omega), cupCap_off, hL i hi] <;> (try rw [hL i hi]) <;> omega) (by omega) (at_act_self (by omega)))
        rwa [e1] at this
  exact key r 0 (by omega) D hD fun i hi => by omega

variable {R : Type*} [CommRing R] {ι : Type*} [Fintype ι] [DecidableEq ι] {r b : Nat} {β : ι → List Nat} (h : IsBasis (2 * r + b) b β)
  {v vi : R} (hv : v * vi = 1)

/-- The matrix of a generator. -/
def Smat (v vi : R) (β : ι → List Nat) (b i : Nat) : _root_.Matrix ι ι R := 1 - v • Emat (v + vi) β (b + i)

/-- The exponent of the Jucys–Murphy element. -/
def jmExp (r k : Nat) : Nat := if k < 2 * r then (if k % 2 = 0 then k else k + 3) else 2 * r

include h hv in
theorem S_far {i j : Nat} (hij : i + 2 ≤ j) (hj : j < 2 * r + b - 1) : Smat v vi β b i * Smat v vi β b j = Smat v vi β b j * Smat v vi β b i := by
  have := E_far h (δ := v + vi) (j := b + i) (k := b + j) (by omega) (by omega) (by omega)
  simp only [Smat, sub_mul, mul_sub, one_mul, mul_one, smul_mul_smul_comm, this]
  abel

include h hv in
theorem S_braid {i : Nat} (hi : i + 1 < 2 * r + b - 1) : Smat v vi β b i * Smat v vi β b (i + 1) * Smat v vi β b i =
    Smat v vi β b (i + 1) * Smat v vi β b i * Smat v vi β b (i + 1) :=
  tl_braid hv (E_sq h (by omega) (by omega)) (E_sq h (by omega) (by omega)) (E_up h (k := b + i) (by omega) (by omega))
    (E_down h (k := b + i) (by omega) (by omega))

include h hv in
theorem S_inv {i : Nat} (hi : i < 2 * r + b - 1) : Smat v vi β b i * (1 - vi • Emat (v + vi) β (b + i)) = 1 ∧
    (1 - vi • Emat (v + vi) β (b + i)) * Smat v vi β b i = 1 :=
  tl_inv hv (E_sq h (by omega) (by omega))

include hv in
theorem comm_E {k : Nat} {Z : _root_.Matrix ι ι R} (hZ : Z * Smat v vi β b k = Smat v vi β b k * Z) :
    Z * Emat (v + vi) β (b + k) = Emat (v + vi) β (b + k) * Z := by
  have e : Emat (v + vi) β (b + k) = vi • (1 - Smat v vi β b k) := by
    rw [Smat, sub_sub_cancel, smul_smul, mul_comm, hv, one_smul]
  rw [e, mul_smul_comm, smul_mul_assoc, mul_sub, sub_mul, mul_one, one_mul, hZ]

include h hv in
theorem jm_vec {k : Nat} (hk : k ≤ 2 * r + b - 1) :
    JM.jm (Smat v vi β b) k *ᵥ cvec β (cupSeq r b) = v ^ jmExp r k • cvec β (cupSeq r b) := by
  induction k using Nat.strong_induction_on with
  | _ k ih =>
  have hcell := cupSeq_cell r b
  have hlen := hcell.len
  rcases k with _ | k
  · have : jmExp r 0 = 0 := by unfold jmExp; split_ifs <;> omega
    rw [JM.jm, one_mulVec, this, pow_zero, one_smul]
  -- the action of a generator on a vector
  have hS : ∀ (i : Nat) (x : ι → R), Smat v vi β b i *ᵥ x = x - v • Emat (v + vi) β (b + i) *ᵥ x := fun i x => by
    rw [Smat, sub_mulVec, one_mulVec, smul_mulVec]
  by_cases hkr : 2 * r ≤ k
  · -- through strands
    have hu : Smat v vi β b k *ᵥ cvec β (cupSeq r b) = cvec β (cupSeq r b) := by
      rw [hS, E_vec h hcell.nc hlen (by omega) (by omega), cvec_zero h (cupSeq_cut r b (b + k) (by omega) (by omega)), smul_zero, smul_zero, sub_zero]
    rw [JM.jm, ← mulVec_mulVec, hu, ← mulVec_mulVec, ih k (by omega) (by omega), mulVec_smul, hu]
    rw [jmExp, jmExp, if_neg (by omega), if_neg (by omega)]
  have hcup : ∀ i, i % 2 = 0 → i < 2 * r → at_ (cupSeq r b) (b + i) = b + i + 1 := by
    intro i hi hi'
    have := cupSeq_arc r b (b + i) (by omega)
    omega
  have heven : ∀ i, i % 2 = 0 → i < 2 * r → Emat (v + vi) β (b + i) *ᵥ cvec β (cupSeq r b) = (v + vi) • cvec β (cupSeq r b) := by
    intro i hi hi'
    rw [E_vec h hcell.nc hlen (by omega) (by omega), act_of_cup hcell.nc (by omega) (hcup i hi hi'), actLoops, if_pos (hcup i hi hi'), pow_one]
  have hSeven : ∀ i, i % 2 = 0 → i < 2 * r → Smat v vi β b i *ᵥ cvec β (cupSeq r b) = -(v ^ 2) • cvec β (cupSeq r b) := by
    intro i hi hi'
    rw [hS, heven i hi hi', smul_smul]
    rw [show v * (v + vi) = v ^ 2 + 1 by linear_combination hv]
    module
  by_cases hpar : k % 2 = 0
  · rw [JM.jm, ← mulVec_mulVec, hSeven k hpar (by omega), ← mulVec_mulVec, mulVec_smul, mulVec_smul, ih k (by omega) (by omega), mulVec_smul,
      hSeven k hpar (by omega), smul_smul, smul_smul]
    congr 1
    rw [jmExp, jmExp, if_pos (by omega), if_pos hpar]
    have : k + 1 < 2 * r := by omega
    rw [if_pos this, if_neg (by omega)]
    ring
  · obtain ⟨j, rfl⟩ : ∃ j, k = j + 1 := ⟨k - 1, by omega⟩
    have hj : j % 2 = 0 := by omega
    set u : ι → R := cvec β (cupSeq r b) with hu
    set w : ι → R := Emat (v + vi) β (b + (j + 1)) *ᵥ u with hw
    have hcj := hcup j hj (by omega)
    obtain ⟨e1, e2, e3⟩ := act_return_right hcell.nc (t := b + j) (by omega) hcj
    have hEw : Emat (v + vi) β (b + j) *ᵥ w = u := by
      rw [hw, hu, E_vec h hcell.nc hlen (by omega) (by omega), mulVec_smul,
        E_vec h (act_nc hcell.nc (by omega)) (by simpa using hlen) (by omega) (by omega), show b + (j + 1) = b + j + 1 by omega, e1, e2, e3]
      simp
    have hEw' : Emat (v + vi) β (b + (j + 1)) *ᵥ w = (v + vi) • w := by
      rw [hw, mulVec_mulVec, E_sq h (by omega) (by omega), smul_mulVec]
    have far := fun i j hij hj => S_far h hv (i := i) (j := j) hij hj
    have hjm : JM.jm (Smat v vi β b) j *ᵥ w = v ^ jmExp r j • w := by
      rw [hw, mulVec_mulVec, comm_E hv (JM.jm_comm_far far (j := j + 1) (k := j) (by omega) (by omega)), ← mulVec_mulVec, ih j (by omega) (by omega), mulVec_smul]
    have a1 : Smat v vi β b (j + 1) *ᵥ u = u - v • w := hS _ _
    have a2 : Smat v vi β b j *ᵥ (u - v • w) = -v • w := by
      rw [mulVec_sub, mulVec_smul, hSeven j hj (by omega), hS, hEw]
      module
    have a3 : Smat v vi β b j *ᵥ w = w - v • u := by rw [hS, hEw]
    have a4 : Smat v vi β b (j + 1) *ᵥ (w - v • u) = -v • u := by
      rw [mulVec_sub, mulVec_smul, a1, hS, hEw', smul_smul, show v * (v + vi) = v ^ 2 + 1 by linear_combination hv]
      module
    rw [JM.jm, JM.jm]
    simp only [← mulVec_mulVec]
    rw [a1, a2, mulVec_smul, hjm]
    simp only [mulVec_smul, a3, a4, smul_smul]
    congr 1
    rw [jmExp, jmExp, if_pos (by omega), if_pos hj]
    split_ifs with c1 c2
    · ring
    · omega
    · rw [show 2 * r = j + 2 by omega]; ring

include h hv in
theorem half_vec {k : Nat} (hk : k ≤ 2 * r + b - 1) :
    (JM.half (Smat v vi β b) k ^ 2) *ᵥ cvec β (cupSeq r b) = v ^ (∑ i ∈ Finset.range (k + 1), jmExp r i) • cvec β (cupSeq r b) := by
  induction k with
  | zero =>
    have : jmExp r 0 = 0 := by unfold jmExp; split_ifs <;> omega
    rw [JM.half, one_pow, one_mulVec, Finset.sum_range_one, this, pow_zero, one_smul]
  | succ k ih =>
    have far := fun i j hij hj => S_far h hv (i := i) (j := j) hij hj
    have adj := fun i hi => S_braid h hv (i := i) hi
    rw [JM.half_sq_succ far adj (by omega), ← mulVec_mulVec, jm_vec h hv hk, mulVec_smul, ih (by omega), smul_smul, ← pow_add,
      Finset.sum_range_succ _ (k + 1)]
    congr 2; omega

theorem sum_jmExp_even (r m : Nat) (hm : m ≤ r) : ∑ i ∈ Finset.range (2 * m), jmExp r i = m * (2 * m - 1) + 3 * m := by
  induction m with
  | zero => simp
  | succ m ih =>
    rw [show 2 * (m + 1) = 2 * m + 1 + 1 by ring, Finset.sum_range_succ, Finset.sum_range_succ, ih (by omega), jmExp, jmExp, if_pos (by omega), if_pos (by omega),
      if_pos (by omega), if_neg (by omega)]
    rcases m with _ | m
    · simp
    · rw [show 2 * (m + 1) - 1 = 2 * m + 1 by omega, show 2 * (m + 1) + 1 + 1 - 1 = 2 * m + 3 by omega]; ring

theorem sum_jmExp (r b : Nat) : ∑ i ∈ Finset.range (2 * r + b), jmExp r i = 2 * r * (r + b + 1) := by
  induction b with
  | zero =>
    rw [Nat.add_zero, sum_jmExp_even r r le_rfl]
    rcases r with _ | r
    · simp
    · rw [show 2 * (r + 1) - 1 = 2 * r + 1 by omega]; ring
  | succ b ih => rw [← Nat.add_assoc, Finset.sum_range_succ, ih, jmExp, if_neg (by omega)]; ring

include h hv in
/-- The full twist on `n = 2r + b` strands acts on the cell module by `v^(2r(n-r+1))`. -/
theorem full_twist (hn : 1 ≤ 2 * r + b) :
    JM.half (Smat v vi β b) (2 * r + b - 1) ^ 2 = v ^ (2 * r * (r + b + 1)) • (1 : _root_.Matrix ι ι R) := by
  have far := fun i j hij hj => S_far h hv (i := i) (j := j) hij hj
  have adj := fun i hi => S_braid h hv (i := i) hi
  refine mat_ext h fun D hD => ?_
  rw [smul_mulVec, one_mulVec]
  refine cell_cyclic (r := r) (b := b) (fun D => JM.half (Smat v vi β b) (2 * r + b - 1) ^ 2 *ᵥ cvec β D = v ^ (2 * r * (r + b + 1)) • cvec β D) ?_ ?_ D hD
  · rw [half_vec h hv le_rfl, show 2 * r + b - 1 + 1 = 2 * r + b by omega, sum_jmExp]
  · intro D k hD hk hk' _ hl hP
    obtain ⟨i, rfl⟩ := Nat.exists_eq_add_of_le hk
    have e := E_vec h (δ := v + vi) hD.nc hD.len hk hk'
    rw [hl, pow_zero, one_smul] at e
    rw [← e, mulVec_mulVec, comm_E hv (JM.half_sq_comm far adj le_rfl (i := i) (by omega)), ← mulVec_mulVec, hP, mulVec_smul]

end TL
end Peyl
