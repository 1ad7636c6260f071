import Verif.Lemmas.RepBase
import Verif.Lemmas.Bucketing
/-!
# Bulk evaluation of normal forms
-/
namespace Peyl
open LaurentPolynomial Polymat

theorem foldlM_range {σ : Type} (f : σ → Nat → Except Err σ) (P : Nat → σ → Prop) (n : Nat) (s0 : σ) (h0 : P 0 s0)
    (hs : ∀ k < n, ∀ s, P k s → ∃ s', f s k = .ok s' ∧ P (k + 1) s') : ∃ s, (List.range n).foldlM f s0 = .ok s ∧ P n s := by
  induction n with
  | zero => exact ⟨s0, rfl, h0⟩
  | succ n ih =>
    obtain ⟨s, h1, h2⟩ := ih fun k hk => hs k (by omega)
    obtain ⟨s', h3, h4⟩ := hs n (by omega) s h2
    exact ⟨s', by rw [List.range_succ, List.foldlM_append, h1, bind_ok, List.foldlM_cons, h3, bind_ok]; rfl, h4⟩

/-- `mapM` over a list, position by position. -/
theorem mapM_spec {α β : Type} (f : α → Except Err β) (Q : α → β → Prop) : ∀ (l : List α), (∀ x ∈ l, ∃ y, f x = .ok y ∧ Q x y) →
    ∃ ys, l.mapM f = .ok ys ∧ ∃ h : ys.length = l.length, ∀ i (hi : i < l.length), Q l[i] (ys[i]'(h ▸ hi))
  | [], _ => ⟨[], rfl, rfl, fun i hi => absurd hi (by simp)⟩
  | x :: l, h => by
    obtain ⟨y, y1, y2⟩ := h x (by simp)
    obtain ⟨ys, h1, h2, h3⟩ := mapM_spec f Q l fun z hz => h z (by simp [hz])
    refine ⟨y :: ys, by rw [List.mapM_cons, y1, bind_ok, h1, bind_ok]; rfl, by simp [h2], ?_⟩
    intro i hi
    cases i with
    | zero => exact y2
    | succ i => exact h3 i (by simpa using hi)

namespace RepBase
open Matrix
variable {d p : Nat}

theorem fromMatrix_good {m : Matrix} (h : m.Shape d d) (hk : Kind d m) :
    ∃ A k, fromMatrix d d m true = .ok A ∧ (den A ()).map (fun f => f.toLaurent) = (T k : ℤ[T;T⁻¹]) • m.den d d := by
  rcases hk with hk | ⟨hk, -⟩
  · obtain ⟨h1, -, h3⟩ := fromMatrix_lp h hk true
    by_cases hv : ValGE m 0
    · obtain ⟨A, a1, a2⟩ := h1 hv
      exact ⟨A, 0, a1, by rw [a2, T_zero, one_smul]⟩
    · exact h3 hv rfl
  · obtain ⟨A, a1, a2⟩ := fromMatrix_int h hk true
    exact ⟨A, 0, a1, by rw [a2, T_zero, one_smul]⟩

theorem shift_of_den {A : Img d} {m : Matrix} {k : ℤ} (h : (den A ()).map (fun f => f.toLaurent) = (T k : ℤ[T;T⁻¹]) • m.den d d) :
    UpToShift p A (fun _ => m.denMod p d) ∧ (CoeffRed p d m → ReducedMod p A) := by
  constructor
  · rintro ⟨⟩
    refine ⟨k, ?_⟩
    funext i j
    have := congrFun (congrFun h i) j
    rw [_root_.Matrix.map_apply, _root_.Matrix.smul_apply, smul_eq_mul] at this
    rw [denMod_apply, this, map_mul, red_T]; rfl
  · intro hr hp S hS a i j
    obtain ⟨e, he, rfl⟩ := List.getElem_of_mem hS
    cases a
    have := congrArg (fun f => f.coeff (e : ℤ)) (congrFun (congrFun h i) j)
    simp only [_root_.Matrix.map_apply, _root_.Matrix.smul_apply, smul_eq_mul] at this
    rw [coeff_toLaurent_int', if_pos (by omega), Int.toNat_natCast, coeff_den, slice_lt A he, T,
      AddMonoidAlgebra.coeff_single_mul_apply, one_mul] at this
    rw [this]; exact hr hp i j _

theorem rho_ne {n : Nat} (ρ : Braid n →* LMat p d) (hd : 0 < d) (hp : p ≠ 1) (b : Braid n) : ρ b ≠ 0 := by
  intro h
  have h1 : (1 : LMat p d) = 0 := by rw [← map_one ρ, ← mul_inv_cancel b, map_mul, h, zero_mul]
  haveI : Nontrivial (ZMod p) := by
    rcases Nat.eq_zero_or_pos p with rfl | hp0
    · exact inferInstanceAs (Nontrivial ℤ)
    · haveI : Fact (1 < p) := ⟨by omega⟩; infer_instance
  have := congrFun (congrFun h1 ⟨0, hd⟩) ⟨0, hd⟩
  simp at this

theorem packN_spec {L : Nat} (hL : 0 < L) (As : List (Img d)) (hl : As.length = L) :
    ∃ P, packN L As = .ok P ∧ (∀ i, den P i = den (As[i.1]'(by omega)) ()) ∧ P.length = (As.map fun A => (trim A).length).foldl max 0 := by
  obtain ⟨P, h1, h2, h3⟩ := pack_spec As (by rintro rfl; simp at hl; omega)
  refine ⟨_, by rw [packN, dif_pos hl, h1, bind_ok], fun i => ?_, by rw [List.length_map, h3]⟩
  refine Eq.trans ?_ (h2 (Fin.cast hl.symm i))
  rw [den_eq_iff]
  intro e
  by_cases he : e < P.length
  · rw [slice_lt P he, slice_lt _ (by simpa using he)]
    rw [List.getElem_map]
  · rw [slice_ge P (by omega), slice_ge _ (by simpa using he)]; rfl

/-- The tensor is canonical: matrices start in degree zero and the last degree is used. -/
structure Cn {α : Type} (A : PArr α d d) : Prop where
  first : ∀ a, slice A 0 a ≠ 0
  last : ∃ a, slice A (A.length - 1) a ≠ 0

theorem packN_cn {L : Nat} (hL : 0 < L) (As : List (Img d)) (hl : As.length = L) (hc : ∀ A ∈ As, Cn A) (P : PArr (Fin L) d d)
    (h2 : ∀ i, den P i = den (As[i.1]'(by omega)) ()) (h3 : P.length = (As.map fun A => (trim A).length).foldl max 0) : Cn P := by
  have hs : ∀ e i, slice P e i = slice (As[i.1]'(by omega)) e () := fun e i => den_eq_iff.1 (h2 i) e
  refine ⟨fun i => by rw [hs]; exact (hc _ (List.getElem_mem _)).first (), ?_⟩
  by_contra hcon
  push Not at hcon
  have hpos : 0 < P.length := by
    by_contra h0
    have := (hc _ (List.getElem_mem (show 0 < As.length by omega))).first ()
    have e := hs 0 ⟨0, hL⟩
    rw [slice_ge P (by omega)] at e
    exact this e.symm
  have : P.length ≤ P.length - 1 := by
    conv_lhs => rw [h3]
    rw [foldl_max_le]
    refine ⟨by omega, fun x hx => ?_⟩
    obtain ⟨A, hA, rfl⟩ := List.mem_map.1 hx
    obtain ⟨i, hi, rfl⟩ := List.getElem_of_mem hA
    apply (trim_least _).2
    intro e he
    funext u; cases u
    have h := hs e ⟨i, by omega⟩
    rw [← h]
    by_cases hee : e = P.length - 1
    · rw [hee]; exact hcon _
    · rw [slice_ge P (by omega)]; rfl
  omega

theorem reduced_of_slices {α β : Type} {P : PArr α d d} (h : ∀ e a, e < P.length → ∃ (B : PArr β d d) (e' : Nat) (b : β), ReducedMod p B ∧ slice P e a = slice B e' b) :
    ReducedMod p P := by
  intro hp S hS a i j
  obtain ⟨e, he, rfl⟩ := List.getElem_of_mem hS
  obtain ⟨B, e', b, hB, hs⟩ := h e a he
  rw [slice_lt P he] at hs
  rw [hs]
  by_cases hb : e' < B.length
  · rw [slice_lt B hb]; exact hB hp _ (List.getElem_mem hb) b i j
  · rw [slice_ge B (by omega)]; exact ⟨le_rfl, by show (0 : ℤ) < p; omega⟩

theorem packN_image {L : Nat} (hL : 0 < L) (As : List (Img d)) (hl : As.length = L) (M : Fin L → LMat p d)
    (hc : ∀ i (hi : i < As.length), Cn As[i] ∧ UpToShift p As[i] fun _ => M ⟨i, by omega⟩) :
    ∃ P, packN L As = .ok P ∧ Cn P ∧ UpToShift p P M ∧ ((∀ A ∈ As, ReducedMod p A) → ReducedMod p P) := by
  obtain ⟨P, h1, h2, h3⟩ := packN_spec hL As hl
  refine ⟨P, h1, packN_cn hL As hl (fun A hA => ?_) P h2 h3, ?_, ?_⟩
  · obtain ⟨i, hi, rfl⟩ := List.getElem_of_mem hA
    exact (hc i hi).1
  · intro i
    obtain ⟨k, hk⟩ := (hc i.1 (by omega)).2 ()
    exact ⟨k, by rw [denMod_of_den (h2 i), hk]⟩
  · intro hr
    exact reduced_of_slices fun e i _ => ⟨_, e, (), hr _ (List.getElem_mem (by omega)), den_eq_iff.1 (h2 i) e⟩

variable {W T' : Type} [Group W] {tbl : Nat → Except Err (NFTable T')} {rep : RepBase d} {ρ : Braid rep.n →* LMat rep.p d}
  {t : NFTable T'} {g : Germ W} {v : Nat → W} {β : W → Braid rep.n}

theorem factorImage_spec (R : NFReal tbl rep.n t g v β) (H : Realises rep ρ) (hd : 0 < d) (hp : rep.p ≠ 1) {i : Nat} (hi : i < t.order) :
    ∃ P, rep.factorImage tbl i = .ok P ∧ IsProjImage rep.p P fun _ => ρ (β (v i)) := by
  obtain ⟨w, w1, w2, w3⟩ := R.words i hi
  obtain ⟨m, m1, m2, m3, m4, m5⟩ := evaluate_spec H hd hp w fun se hse => (w2 se hse).2
  obtain ⟨A, k, a1, a2⟩ := fromMatrix_good m2 m3
  obtain ⟨s1, s2⟩ := shift_of_den (p := rep.p) a2
  rw [m5, w3] at s1
  obtain ⟨P, p1, p2⟩ := project_spec s1 (s2 m4) fun _ => rho_ne ρ hd hp _
  refine ⟨P, ?_, p2⟩
  simp only [factorImage, R.ok, bind_ok, w1, m1, a1, p1]

theorem deltaImage_spec (R : NFReal tbl rep.n t g v β) (H : Realises rep ρ) (hd : 0 < d) (hp : rep.p ≠ 1) {k : Nat} (hk : k < t.tauOrder) :
    ∃ P, rep.deltaImage tbl k = .ok P ∧ Cn P ∧ UpToShift rep.p P (fun _ => ρ (β g.D ^ k)) ∧ (k ≤ 1 → ReducedMod rep.p P) := by
  obtain ⟨w, w1, w2, w3⟩ := R.words t.D R.spec.D_lt
  rw [R.spec.v_D] at w3
  obtain ⟨m, m1, m2, m3, m4, m5⟩ := evaluate_spec H hd hp w fun se hse => (w2 se hse).2
  rw [w3] at m5
  -- the power of the matrix
  have : ∃ x, m.pow k = .ok x ∧ x.Shape d d ∧ Kind d x ∧ x.den d d = m.den d d ^ k := by
    obtain ⟨x, x1, x2, x3⟩ := pow_spec m2 k
    refine ⟨x, x1, x2, ?_, x3⟩
    rcases m3 with m3 | ⟨m3, m3'⟩
    · obtain ⟨y, y1, y2, y3, -⟩ := pow_good hd m2 m3 k
      rw [x1, Except.ok.injEq] at y1; rw [y1]; exact y3
    · -- powers of an integer identity matrix
      refine .inr ⟨?_, by rw [x3, m3', one_pow]⟩
      have loop : ∀ (e : Nat) {a b : Matrix}, a.Shape d d → b.Shape d d → (∀ y ∈ a.data, IsInt y) → (∀ y ∈ b.data, IsInt y) →
          ∀ x, powLoop a b e = .ok x → ∀ y ∈ x.data, IsInt y := by
        intro e
        induction e using Nat.strong_induction_on with
        | _ e ih =>
          intro a b ha hb ka kb x h
          rw [powLoop] at h
          split at h
          · cases h; exact ka
          · next hne =>
            obtain ⟨q, q1, q2, q3⟩ := mul_spec hb hb
            obtain ⟨r, r1, r2, r3⟩ := mul_spec ha hb
            have kq := (mul_kind hd hb hb q1).2.2 kb kb
            have kr := (mul_kind hd ha hb r1).2.2 ka kb
            split at h
            · rw [r1] at h; simp only [bind_ok, q1] at h
              exact ih (e / 2) (by omega) r2 q2 kr kq x h
            · simp only [bind_ok, q1] at h
              exact ih (e / 2) (by omega) ha q2 ka kq x h
      rw [pow, m2.nrows, m2.ncols, if_neg (by simp), if_neg (by omega)] at x1
      rcases kind_identity d with hk | hk
      · intro y hy
        refine loop _ (shape_identity d) m2 ?_ m3 x x1 y hy
        intro z hz
        simp only [identity, tabulate, List.mem_flatMap, List.mem_map] at hz
        obtain ⟨i, -, j, -, rfl⟩ := hz
        exact ⟨_, rfl⟩
      · exact loop _ (shape_identity d) m2 hk.1 m3 x x1
  obtain ⟨x, x1, x2, x3, x4⟩ := this
  obtain ⟨A, l, a1, a2⟩ := fromMatrix_good x2 x3
  obtain ⟨s1, s2⟩ := shift_of_den (p := rep.p) a2
  rw [Matrix.denMod_pow x4, m5, ← map_pow] at s1
  obtain ⟨P, p1, p2, p3⟩ := projectivise_spec A (s1.den_ne fun _ => rho_ne ρ hd hp _)
  have hP : rep.deltaImage tbl k = .ok P := by
    simp only [deltaImage, R.ok, bind_ok, w1, m1, x1, a1, p1, pyAssert, decide_eq_true hk, if_true]
  refine ⟨P, hP, ⟨p2.1, p2.2⟩, ?_, fun hk1 => ?_⟩
  · rintro ⟨⟩
    obtain ⟨e, he⟩ := s1 ()
    obtain ⟨f, hf⟩ := p3 ()
    rw [denMod_X_pow hf, T_smul_eq_iff, T_smul_smul] at he
    exact ⟨_, he⟩
  · have hcr : CoeffRed rep.p d x := by
      intro hp0
      rw [x4]
      interval_cases k
      · rw [pow_zero]; exact coeff_one_red hp0 hp
      · rw [pow_one]; exact m4 hp0
    have hr := s2 hcr
    obtain ⟨P', q1, q2⟩ := project_spec s1 hr fun _ => rho_ne ρ hd hp _
    rw [p1, Except.ok.injEq] at q1
    rw [q1]; exact q2.reduced

theorem evalStep_spec (R : NFReal tbl rep.n t g v β) (H : Realises rep ρ) (hd : 0 < d) (hp : rep.p ≠ 1) {L : Nat} (hL : 0 < L)
    (factors : List (List Nat)) (hf : factors.length = L) (k : Nat) (hk : ∀ fs ∈ factors, k < fs.length ∧ ∀ f ∈ fs, f < t.order)
    {A : PArr (Fin L) d d} {b : Fin L → Braid rep.n} (hA : UpToShift rep.p A fun i => ρ (b i)) :
    ∃ B, rep.evalStep tbl L factors A k = .ok B ∧
      IsProjImage rep.p B fun i => ρ (b i * β (v ((factors[i.1]'(by omega)).getD k 0))) := by
  obtain ⟨ms, m1, m2, m3⟩ := mapM_spec (fun fs : List Nat => do rep.factorImage tbl (← lookup fs k))
    (fun fs P => IsProjImage rep.p P fun _ => ρ (β (v (fs.getD k 0)))) factors (by
      intro fs hfs
      obtain ⟨h1, h2⟩ := hk fs hfs
      obtain ⟨P, p1, p2⟩ := factorImage_spec R H hd hp (h2 _ (List.getElem_mem h1))
      refine ⟨P, by rw [lookup_lt h1, bind_ok]; exact p1, ?_⟩
      simpa [h1] using p2)
  obtain ⟨B, b1, b2, b3, -⟩ := packN_image (p := rep.p) hL ms (by omega) (fun i => ρ (β (v ((factors[i.1]'(by omega)).getD k 0)))) (by
    intro i hi
    have := m3 i (by omega)
    exact ⟨⟨this.first, this.last⟩, this.shift⟩)
  haveI : Nonempty (Fin L) := ⟨⟨0, hL⟩⟩
  obtain ⟨C, c1, c2⟩ := polymatMul_spec (p := rep.p) (fun i : Fin L => i) (fun i => i) hA b3 (fun i => by
    rw [← map_mul]; exact rho_ne ρ hd hp _)
  refine ⟨C, ?_, ?_⟩
  · simp only [evalStep, m1, bind_ok, b1, polymatMulL]; exact c1
  · simpa only [map_mul] using c2

theorem tau_shift (hD : ∃ k : ℤ, ρ (β g.D ^ t.tauOrder) = (T k : (ZMod rep.p)[T;T⁻¹]) • 1) (q : ℤ) :
    ∃ k : ℤ, ρ (β g.D ^ ((t.tauOrder : ℤ) * q)) = (T k : (ZMod rep.p)[T;T⁻¹]) • 1 := by
  obtain ⟨k, hk⟩ := hD
  have hnat : ∀ m : ℕ, ρ (β g.D ^ ((t.tauOrder : ℤ) * m)) = (T (k * m) : (ZMod rep.p)[T;T⁻¹]) • 1 := by
    intro m
    rw [zpow_mul, zpow_natCast, zpow_natCast, map_pow, hk, smul_pow, one_pow, T_pow, mul_comm]
  obtain ⟨m, rfl | rfl⟩ := q.eq_nat_or_neg
  · exact ⟨_, hnat m⟩
  · refine ⟨-(k * m), ?_⟩
    have h := hnat m
    have h2 : ρ (β g.D ^ ((t.tauOrder : ℤ) * m)) * ρ (β g.D ^ ((t.tauOrder : ℤ) * -m)) = 1 := by
      rw [← map_mul, ← zpow_add, mul_neg, add_neg_cancel, zpow_zero, map_one]
    rw [h, smul_mul_assoc, one_mul, T_smul_eq_iff] at h2
    exact h2

theorem power_shift (R : NFReal tbl rep.n t g v β) (hD : ∃ k : ℤ, ρ (β g.D ^ t.tauOrder) = (T k : (ZMod rep.p)[T;T⁻¹]) • 1) (q : ℤ) (b : Braid rep.n) :
    ∃ k : ℤ, ρ (β g.D ^ (q % t.tauOrder).toNat * b) = (T k : (ZMod rep.p)[T;T⁻¹]) • ρ (β g.D ^ q * b) := by
  have hpos : (0 : ℤ) < t.tauOrder := by have := R.spec.tauOrder_pos; omega
  obtain ⟨k, hk⟩ := tau_shift hD (-(q / t.tauOrder))
  refine ⟨k, ?_⟩
  rw [← zpow_natCast, Int.toNat_of_nonneg (Int.emod_nonneg _ (by omega)), Int.emod_def, sub_eq_add_neg, ← mul_neg, add_comm q, zpow_add,
    mul_assoc, map_mul, hk, smul_mul_assoc, one_mul]

/-- The bulk evaluator. -/
theorem evalSame_spec (R : NFReal tbl rep.n t g v β) (H : Realises rep ρ) (hd : 0 < d) (hp : rep.p ≠ 1)
    (hD : ∃ k : ℤ, ρ (β g.D ^ t.tauOrder) = (T k : (ZMod rep.p)[T;T⁻¹]) • 1) (xs : List NF) (hne : xs ≠ []) (len : Nat)
    (hx : ∀ x ∈ xs, NFReal.Valid t rep.n x ∧ x.factors.length = len) :
    ∃ A, rep.evalSame tbl xs = .ok A ∧ Cn A ∧ UpToShift rep.p A (fun i => ρ (NFReal.den g v β xs[i])) ∧
      ((0 < len ∨ t.tauOrder ≤ 2 ∨ ∀ x ∈ xs, x.power = 0) → ReducedMod rep.p A) := by
  have hL : 0 < xs.length := List.length_pos_iff.2 hne
  obtain ⟨ds, d1, d2, d3⟩ := mapM_spec (fun x : NF => do rep.deltaImage tbl (← NF.tauIndex x.power t.tauOrder))
    (fun x P => Cn P ∧ UpToShift rep.p P (fun _ => ρ (β g.D ^ (x.power % t.tauOrder).toNat)) ∧ ((t.tauOrder ≤ 2 ∨ x.power = 0) → ReducedMod rep.p P)) xs (by
      intro x _
      obtain ⟨e1, e2⟩ := R.tauIndex_ok x.power
      obtain ⟨P, p1, p2, p3, p4⟩ := deltaImage_spec R H hd hp e2
      exact ⟨P, by rw [e1, bind_ok, p1], p2, p3, fun h => p4 (by
        rcases h with h | h
        · omega
        · rw [h]; simp)⟩)
  obtain ⟨A0, a1, a2, a3, a4⟩ := packN_image (p := rep.p) hL ds d2 (fun i => ρ (β g.D ^ (xs[i].power % t.tauOrder).toNat)) (by
    intro i hi
    have := d3 i (by omega)
    exact ⟨this.1, this.2.1⟩)
  obtain ⟨A, h1, h2, h3, h4⟩ := foldlM_range (rep.evalStep tbl xs.length (xs.map NF.factors))
    (fun k A => Cn A ∧ UpToShift rep.p A (fun i => ρ (β g.D ^ (xs[i].power % t.tauOrder).toNat * ((xs[i].factors.take k).map fun f => β (v f)).prod)) ∧
      ((0 < k ∨ t.tauOrder ≤ 2 ∨ ∀ x ∈ xs, x.power = 0) → ReducedMod rep.p A)) len A0
    ⟨a2, by simpa using a3, fun h => a4 (fun B hB => by
      obtain ⟨i, hi, rfl⟩ := List.getElem_of_mem hB
      exact (d3 i (by omega)).2.2 (by
        rcases h with h | h | h
        · omega
        · exact .inl h
        · exact .inr (h _ (List.getElem_mem _))))⟩
    (by
      rintro k hk A ⟨c1, c2, c3⟩
      obtain ⟨B, b1, b2⟩ := evalStep_spec R H hd hp hL (xs.map NF.factors) (by simp) k (by
        intro fs hfs
        obtain ⟨x, hxm, rfl⟩ := List.mem_map.1 hfs
        obtain ⟨v1, v2⟩ := hx x hxm
        exact ⟨by omega, v1.inR⟩) c2
      refine ⟨B, b1, ⟨b2.first, b2.last⟩, ?_, fun _ => b2.reduced⟩
      have hs := b2.shift
      convert hs using 3 with i
      have hlt : k < xs[i].factors.length := by rw [(hx xs[i] (List.getElem_mem _)).2]; exact hk
      rw [mul_assoc]
      congr 1
      rw [List.take_succ_eq_append_getElem hlt, List.map_append, List.prod_append]
      have hlt' : k < xs[i.1].factors.length := hlt
      simp [List.getElem?_eq_getElem hlt'])
  refine ⟨A, ?_, h2, ?_, h4⟩
  · have hlk : lookup xs 0 = .ok xs[0] := lookup_lt hL
    have hall : (xs.all fun x => x.canonicalLength == xs[0].canonicalLength) = true := by
      rw [List.all_eq_true]; intro x hxm
      simp only [NF.canonicalLength, beq_iff_eq]
      rw [(hx x hxm).2, (hx xs[0] (List.getElem_mem _)).2]
    simp only [evalSame, hlk, bind_ok, hall, pyAssert, if_true, R.ok]
    rw [d1]
    simp only [bind_ok, a1]
    have : xs[0].canonicalLength = len := (hx xs[0] (List.getElem_mem _)).2
    rw [this]; exact h1
  · refine h3.congr fun i => ?_
    have hlen : xs[i].factors.take len = xs[i].factors := List.take_of_length_le (by rw [(hx xs[i] (List.getElem_mem _)).2])
    rw [hlen]
    obtain ⟨k, hk⟩ := power_shift R hD xs[i].power ((xs[i].factors.map fun f => β (v f)).prod)
    refine ⟨k, hk.trans ?_⟩
    congr 2
    simp [NFReal.den, Germ.val, Function.comp_def]

/-- The index evaluator: `k = 0` factors give the identity with a batch axis of length one. -/
theorem evalIntegers_spec (R : NFReal tbl rep.n t g v β) (H : Realises rep ρ) (hd : 0 < d) (hp : rep.p ≠ 1)
    (seqs : List (List Nat)) (hne : seqs ≠ []) (len : Nat) (hs : ∀ s ∈ seqs, s.length = len ∧ ∀ f ∈ s, f < t.order) :
    (0 < len → ∃ A, rep.evalIntegers tbl seqs = .ok ⟨seqs.length, A⟩ ∧ IsProjImage rep.p A fun i => ρ ((seqs[i].map fun f => β (v f)).prod)) ∧
    (len = 0 → ∃ A, rep.evalIntegers tbl seqs = .ok ⟨1, A⟩ ∧ IsProjImage rep.p A fun _ => 1) := by
  have hL : 0 < seqs.length := List.length_pos_iff.2 hne
  obtain ⟨I, i1, i2⟩ := factorImage_spec R H hd hp R.spec.id_lt
  obtain ⟨S, s1, s2, s3, s4⟩ := packN_image (p := rep.p) (L := 1) (by omega) [I] rfl (fun _ => ρ (β (v t.id))) (by
    intro i hi
    obtain rfl : i = 0 := by simpa using hi
    exact ⟨⟨i2.first, i2.last⟩, i2.shift⟩)
  have hone : ρ (β (v t.id)) = 1 := by rw [R.spec.v_id, R.hom.one, map_one]
  have hlk : lookup seqs 0 = .ok seqs[0] := lookup_lt hL
  have h0 : seqs[0].length = len := (hs _ (List.getElem_mem _)).1
  have hall : (seqs.all fun s => s.length == len) = true := by
    rw [List.all_eq_true]; intro s hm; simp [(hs s hm).1]
  have hall2 : (seqs.all fun s => s.all fun x => decide (x < t.order)) = true := by
    rw [List.all_eq_true]; intro s hm; rw [List.all_eq_true]; intro x hx; simpa using (hs s hm).2 x hx
  constructor
  · intro hpos
    obtain ⟨A, h1, -, h3⟩ := foldlM_range (rep.evalStep tbl seqs.length seqs)
      (fun k A => UpToShift rep.p A (fun i : Fin seqs.length => ρ (((seqs[i].take k).map fun f => β (v f)).prod)) ∧
        (0 < k → IsProjImage rep.p A (fun i : Fin seqs.length => ρ (((seqs[i].take k).map fun f => β (v f)).prod)))) len (S.map fun S _ => S 0)
      ⟨by
        intro i
        obtain ⟨k, hk⟩ := s3 0
        refine ⟨k, ?_⟩
        rw [hone] at hk
        simp only [List.take_zero, List.map_nil, List.prod_nil, map_one]
        rw [← hk]
        apply denMod_of_den
        rw [den_eq_iff]
        intro e
        by_cases he : e < S.length
        · rw [slice_lt S he, slice_lt _ (by simpa using he)]
          exact congrFun (List.getElem_map (fun (S : Fin 1 → _root_.Matrix (Fin d) (Fin d) ℤ) (_ : Fin seqs.length) => S 0)) i
        · rw [slice_ge S (by omega), slice_ge _ (by simpa using he)]; rfl, fun h => absurd h (by omega)⟩
      (by
        rintro k hk A ⟨c1, -⟩
        obtain ⟨B, b1, b2⟩ := evalStep_spec R H hd hp hL seqs rfl k (fun fs hfs => ⟨by rw [(hs fs hfs).1]; exact hk, (hs fs hfs).2⟩) c1
        have hb : IsProjImage rep.p B (fun i : Fin seqs.length => ρ (((seqs[i].take (k + 1)).map fun f => β (v f)).prod)) := by
          convert b2 using 3 with i
          have hlt : k < seqs[i.1].length := by rw [(hs _ (List.getElem_mem _)).1]; exact hk
          rw [List.take_succ_eq_append_getElem (by exact hlt), List.map_append, List.prod_append]
          simp [List.getElem?_eq_getElem hlt]
        exact ⟨B, b1, hb.shift, fun _ => hb⟩)
    refine ⟨A, ?_, ?_⟩
    · simp only [evalIntegers, hlk, bind_ok, h0, hall, pyAssert, if_true, R.ok, hall2, i1, s1, if_neg (show ¬ len = 0 by omega)]
      rw [h1]; rfl
    · have := h3 hpos
      refine this.congr fun i => ⟨0, ?_⟩
      rw [T_zero, one_smul, List.take_of_length_le (by exact (hs _ (List.getElem_mem i.2)).1.le)]
  · rintro hz
    refine ⟨S, ?_, ⟨s2.first, s2.last, s4 (fun A hA => ?_), ?_⟩⟩
    · simp only [evalIntegers, hlk, bind_ok, h0, hall, pyAssert, if_true, R.ok, hall2, i1, s1, if_pos hz]
    · rw [List.mem_singleton.1 hA]; exact i2.reduced
    · simpa only [hone] using s3

end RepBase
end Peyl
