import Verif.Lemmas.RepEval
import Verif.Lemmas.GNF
import Verif.Lemmas.BraidSearch
/-!
# The evaluators of `braidsearch.py`
-/
namespace Peyl
open LaurentPolynomial Polymat Perms
namespace BraidSearch
variable {d : Nat} {rep : Summand d} {ρ : Braid rep.n →* LMat rep.p d}

theorem eye_image {p : Nat} (hd : 0 < d) (hp : p ≠ 1) : IsProjImage p (eye d) fun _ => (1 : LMat p d) := by
  have h0 : slice (eye d) 0 () ≠ 0 := by
    intro h
    have := congrFun (congrFun h ⟨0, hd⟩) ⟨0, hd⟩
    simp [slice, eye] at this
  refine ⟨fun _ => h0, ⟨(), h0⟩, ?_, fun a => ⟨0, ?_⟩⟩
  · intro hp0 S hS a i j
    simp only [eye, List.mem_singleton] at hS
    subst hS
    dsimp only
    split <;> omega
  · rw [T_zero, one_smul]; exact denMod_eye

theorem mul1_fold (hd : 0 < d) (hp : rep.p ≠ 1) (ms : List (Img d)) (bs : List (Braid rep.n)) (hlen : ms.length = bs.length)
    (h : ∀ i (hi : i < ms.length), UpToShift rep.p ms[i] fun _ => ρ bs[i]) : ∀ (A : Img d) (b : Braid rep.n), IsProjImage rep.p A (fun _ => ρ b) →
    ∃ B, ms.foldlM rep.mul1 A = .ok B ∧ IsProjImage rep.p B fun _ => ρ (b * bs.prod) := by
  induction ms generalizing bs with
  | nil =>
    intro A b hA
    obtain rfl : bs = [] := by simpa using hlen.symm
    exact ⟨A, rfl, by simpa using hA⟩
  | cons m ms ih =>
    intro A b hA
    cases bs with
    | nil => simp at hlen
    | cons c bs =>
      obtain ⟨C, c1, c2⟩ := polymatMul_spec (p := rep.p) (fun u : Unit => u) (fun u => u) hA.shift (h 0 (by simp)) (fun _ => by
        rw [← map_mul]; exact RepBase.rho_ne ρ hd hp _)
      obtain ⟨B, b1, b2⟩ := ih bs (by simpa using hlen) (fun i hi => h (i + 1) (by simpa using hi)) C (b * c) (by simpa using c2)
      refine ⟨B, ?_, by simpa [mul_assoc] using b2⟩
      have c1' : rep.mul1 A m = .ok C := c1
      rw [List.foldlM_cons, c1', bind_ok]; exact b1

theorem permImage_spec (H : SummandRealises rep ρ) (hd : 0 < d) (hp : rep.p ≠ 1) (π : Equiv.Perm (Fin rep.n)) :
    ∃ A, rep.permImage (wordOf π) = .ok A ∧ IsProjImage rep.p A fun _ => ρ (lift π) := by
  obtain ⟨w, w1, w2⟩ := shortlex_spec π
  have hpr := w1.prod
  obtain ⟨ms, m1, m2, m3⟩ := mapM_spec (lookup rep.gens) (fun s A => UpToShift rep.p A fun _ => ρ (sigma rep.n s)) w (by
    intro s hs
    have hlt : s < rep.gens.length := by rw [H.gens_len]; have := hpr.2.2 s hs; omega
    exact ⟨_, lookup_lt hlt, H.gens s hlt⟩)
  obtain ⟨B, b1, b2⟩ := mul1_fold hd hp ms (w.map (sigma rep.n)) (by simp [m2]) (fun i hi => by simpa using m3 i (by omega)) (eye d) 1
    (by simpa using eye_image hd hp)
  obtain ⟨P, p1, p2⟩ := project_spec b2.shift b2.reduced (fun _ => RepBase.rho_ne ρ hd hp _)
  refine ⟨P, ?_, ?_⟩
  · simp only [Summand.permImage, w2, bind_ok, m1, b1]; exact p1
  · have : lift π = posWord rep.n w := lift_eq_posWord (w := w) ⟨hpr.2.2, by rw [hpr.1, _root_.inv_inv], by rw [hpr.2.1, inv_inv]⟩
    rw [this]; simpa [posWord] using p2

theorem table_spec (H : SummandRealises rep ρ) (hd : 0 < d) (hp : rep.p ≠ 1) (hF : FullTwistScalar ρ) :
    ∃ tab, rep.table = .ok tab ∧ ∀ π : Equiv.Perm (Fin rep.n), ∃ A, Dict.get tab (wordOf π) = .ok A ∧ IsProjImage rep.p A fun _ => ρ (lift π) := by
  have key : ∀ ws : List (List Nat), (∀ w ∈ ws, ∃ π : Equiv.Perm (Fin rep.n), w = wordOf π) →
      ∃ tab, ws.mapM (fun w => do .ok (w, ← rep.permImage w)) = .ok tab ∧
        ∀ π : Equiv.Perm (Fin rep.n), wordOf π ∈ ws → ∃ A, Dict.get tab (wordOf π) = .ok A ∧ IsProjImage rep.p A fun _ => ρ (lift π) := by
    intro ws
    induction ws with
    | nil => intro _; exact ⟨[], rfl, by simp⟩
    | cons w ws ih =>
      intro h
      obtain ⟨σ, rfl⟩ := h w (by simp)
      obtain ⟨tab, t1, t2⟩ := ih fun w hw => h w (by simp [hw])
      obtain ⟨A, a1, a2⟩ := permImage_spec H hd hp σ
      refine ⟨(wordOf σ, A) :: tab, ?_, ?_⟩
      · rw [List.mapM_cons, a1, bind_ok, bind_ok, t1]; rfl
      · intro π hπ
        by_cases e : σ = π
        · subst e
          exact ⟨A, by simp [Dict.get, Dict.get?_cons], a2⟩
        · have hne : wordOf σ ≠ wordOf π := fun h => e (wordOf_injective h)
          obtain ⟨B, b1, b2⟩ := t2 π (by simpa [hne.symm] using hπ)
          refine ⟨B, ?_, b2⟩
          rw [Dict.get, Dict.get?_cons, if_neg hne]; exact b1
  obtain ⟨tab, t1, t2⟩ := key (elements rep.n) (fun w hw => by
    obtain ⟨π, h⟩ := (elements_mem w).1 hw
    exact ⟨π, h⟩)
  have t3 : ∀ π : Equiv.Perm (Fin rep.n), ∃ A, Dict.get tab (wordOf π) = .ok A ∧ IsProjImage rep.p A fun _ => ρ (lift π) :=
    fun π => t2 π ((elements_mem _).2 ⟨π, rfl⟩)
  refine ⟨tab, ?_, t3⟩
  obtain ⟨X, x1, x2⟩ := t3 (w0 rep.n)
  obtain ⟨C, c1, c2⟩ := polymatMul_spec (p := rep.p) (fun u : Unit => u) (fun u => u) x2.shift x2.shift (fun _ => by
    rw [← map_mul]; exact RepBase.rho_ne ρ hd hp _)
  obtain ⟨k, hk⟩ := hF
  have : C = eye d := c2.unique ((eye_image hd hp).congr fun _ => ⟨-k, by
    rw [← map_mul, ← pow_two]
    have : lift (w0 rep.n) = halfTwist rep.n := rfl
    rw [this, hk, T_smul_smul, neg_add_cancel, T_zero, one_smul]⟩)
  simp only [Summand.table, t1, bind_ok, longestElement_eq, x1, Summand.mul1, c1, this]
  simp [eqAll, pyAssert, eye]


variable {lim : Nat} {ω : List Nat → List Nat → Nat → Nat}

theorem canonicalFactors_spec {n : Nat} (hn : 2 ≤ n) (hl : n < lim) {x : NF} (hx : IsGNF lim ω n x) :
    NF.canonicalFactors (GNF.tbl lim ω) x = .ok (x.factors.map fun f => wordOf (permAt n f)) := by
  obtain ⟨t, R⟩ := exists_greal lim ω hn hl
  have hv := R.isGNF_iff.1 hx
  have : ∀ fs : List Nat, (∀ f ∈ fs, f < n.factorial) → fs.mapM (lookup t.divs) = .ok (fs.map fun f => wordOf (permAt n f)) := by
    intro fs
    induction fs with
    | nil => intro _; rfl
    | cons f fs ih =>
      intro h
      have hf : f < (elements n).length := by rw [elements_length]; exact h f (by simp)
      have hk : lookup t.divs f = .ok (wordOf (permAt n f)) := by rw [R.2.2.1, lookup_lt hf, permAt_spec hf]
      rw [List.mapM_cons, hk, bind_ok, ih fun g hg => h g (by simp [hg])]; rfl
  rw [NF.canonicalFactors, hv.n_eq, R.1.ok, bind_ok]
  exact this _ hx.1

/-- The partial product of the first `k` canonical factors. -/
noncomputable def prefixBraid (n k : Nat) (x : NF) : Braid n := halfTwist n ^ x.power * ((x.factors.take k).map fun f => lift (permAt n f)).prod

theorem prefixBraid_all {n k : Nat} {x : NF} (h : x.factors.length ≤ k) : prefixBraid n k x = gnfBraid n x := by
  rw [prefixBraid, List.take_of_length_le h]; rfl

theorem scalar_zpow {n p : Nat} (ρ : Braid n →* LMat p d) {x : Braid n} (h : ∃ k : ℤ, ρ x = (T k : (ZMod p)[T;T⁻¹]) • 1) (q : ℤ) :
    ∃ k : ℤ, ρ (x ^ q) = (T k : (ZMod p)[T;T⁻¹]) • 1 := by
  obtain ⟨k, hk⟩ := h
  have hnat : ∀ m : ℕ, ρ (x ^ (m : ℤ)) = (T (k * m) : (ZMod p)[T;T⁻¹]) • 1 := by
    intro m
    rw [zpow_natCast, map_pow, hk, smul_pow, one_pow, T_pow, mul_comm]
  obtain ⟨m, rfl | rfl⟩ := q.eq_nat_or_neg
  · exact ⟨_, hnat m⟩
  · refine ⟨-(k * m), ?_⟩
    have h := hnat m
    have h2 : ρ (x ^ (m : ℤ)) * ρ (x ^ (-m : ℤ)) = 1 := by
      rw [← map_mul, ← zpow_add, add_neg_cancel, zpow_zero, map_one]
    rw [h, smul_mul_assoc, one_mul, T_smul_eq_iff] at h2
    exact h2

theorem parity_shift {n p : Nat} {ρ : Braid n →* LMat p d} (hF : FullTwistScalar ρ) (q : ℤ) (b : Braid n) :
    ∃ k : ℤ, ρ ((if q % 2 = 0 then 1 else halfTwist n) * b) = (T k : (ZMod p)[T;T⁻¹]) • ρ (halfTwist n ^ q * b) := by
  obtain ⟨k, hk⟩ := scalar_zpow ρ hF (-(q / 2))
  refine ⟨k, ?_⟩
  have e : (if q % 2 = 0 then 1 else halfTwist n) = (halfTwist n ^ 2) ^ (-(q / 2)) * halfTwist n ^ q := by
    rw [← zpow_natCast, ← zpow_mul, ← zpow_add]
    split
    · rw [show ((2 : ℕ) : ℤ) * -(q / 2) + q = 0 by omega, zpow_zero]
    · rw [show ((2 : ℕ) : ℤ) * -(q / 2) + q = 1 by omega, zpow_one]
  rw [e, mul_assoc, map_mul, hk, smul_mul_assoc, one_mul]

theorem evalStep_spec (hd : 0 < d) (hp : rep.p ≠ 1) {tab : List (List Nat × Img d)}
    (ht : ∀ π : Equiv.Perm (Fin rep.n), ∃ A, Dict.get tab (wordOf π) = .ok A ∧ IsProjImage rep.p A fun _ => ρ (lift π))
    {L : Nat} (hL : 0 < L) (pss : List (List (Equiv.Perm (Fin rep.n)))) (hlen : pss.length = L) (k : Nat) (hk : ∀ ps ∈ pss, k < ps.length)
    {A : PArr (Fin L) d d} {M : Fin L → Braid rep.n} (hA : UpToShift rep.p A fun i => ρ (M i)) :
    ∃ B, evalStep rep tab L (pss.map fun ps => ps.map wordOf) A k = .ok B ∧
      IsProjImage rep.p B fun i => ρ (M i * lift ((pss[i.1]'(by omega)).getD k 1)) := by
  obtain ⟨ms, m1, m2, m3⟩ := mapM_spec (fun fs : List (List Nat) => do Dict.get tab (← lookup fs k))
    (fun fs P => ∀ ps : List (Equiv.Perm (Fin rep.n)), fs = ps.map wordOf → IsProjImage rep.p P fun _ => ρ (lift (ps.getD k 1))) (pss.map fun ps => ps.map wordOf) (by
      intro fs hfs
      obtain ⟨ps, hps, rfl⟩ := List.mem_map.1 hfs
      have hlt : k < (ps.map wordOf).length := by simpa using hk ps hps
      obtain ⟨P, p1, p2⟩ := ht (ps[k]'(hk ps hps))
      refine ⟨P, by rw [lookup_lt hlt, bind_ok, List.getElem_map]; exact p1, ?_⟩
      intro ps' e
      obtain rfl : ps = ps' := List.map_injective_iff.2 wordOf_injective e
      simpa [hk ps hps] using p2)
  obtain ⟨B, b1, -, b3, -⟩ := RepBase.packN_image (p := rep.p) hL ms (by simp at m2; omega) (fun i => ρ (lift ((pss[i.1]'(by omega)).getD k 1))) (by
    intro i hi
    have := m3 i (by omega) (pss[i]'(by simp at m2; omega)) (by simp)
    exact ⟨⟨this.first, this.last⟩, this.shift⟩)
  haveI : Nonempty (Fin L) := ⟨⟨0, hL⟩⟩
  obtain ⟨C, c1, c2⟩ := polymatMul_spec (p := rep.p) (fun i : Fin L => i) (fun i => i) hA b3 (fun i => by
    rw [← map_mul]; exact RepBase.rho_ne ρ hd hp _)
  refine ⟨C, ?_, ?_⟩
  · have b1' : packL L ms = .ok B := b1
    simp only [evalStep, m1, bind_ok, b1', Summand.mulL]; exact c1
  · simpa only [map_mul] using c2


/-- The permutations of the canonical factors. -/
noncomputable def permsOf (n : Nat) (x : NF) : List (Equiv.Perm (Fin n)) := x.factors.map (permAt n)

theorem evalStart_spec (hn : 2 ≤ rep.n) (hl : rep.n < lim) (H : SummandRealises rep ρ) (hd : 0 < d) (hp : rep.p ≠ 1) (hF : FullTwistScalar ρ)
    (xs : List NF) (hne : xs ≠ []) (len : Nat) (hx : ∀ x ∈ xs, IsGNF lim ω rep.n x ∧ x.factors.length = len) :
    ∃ tab A, evalStart (GNF.tbl lim ω) rep xs = .ok (len, (xs.map (permsOf rep.n)).map (fun ps => ps.map wordOf), tab, A) ∧
      IsProjImage rep.p A (fun i => ρ (if xs[i].power % 2 = 0 then 1 else halfTwist rep.n)) ∧
      ∀ π : Equiv.Perm (Fin rep.n), ∃ A, Dict.get tab (wordOf π) = .ok A ∧ IsProjImage rep.p A fun _ => ρ (lift π) := by
  have hL : 0 < xs.length := List.length_pos_iff.2 hne
  obtain ⟨tab, t1, t2⟩ := table_spec H hd hp hF
  obtain ⟨W, w1, w2⟩ := t2 (w0 rep.n)
  have hw : IsProjImage rep.p W fun _ => ρ (halfTwist rep.n) := w2
  have hone : ∀ i (hi : i < (xs.map fun x => if x.power % 2 = 0 then eye d else W).length),
      IsProjImage rep.p (xs.map fun x => if x.power % 2 = 0 then eye d else W)[i]
        (fun _ => ρ (if (xs[i]'(by simpa using hi)).power % 2 = 0 then 1 else halfTwist rep.n)) := by
    intro i hi
    simp only [List.getElem_map]
    split
    · simpa using eye_image hd hp
    · exact hw
  obtain ⟨A, a1, a2, a3, a4⟩ := RepBase.packN_image (p := rep.p) hL (xs.map fun x => if x.power % 2 = 0 then eye d else W) (by simp)
    (fun i => ρ (if xs[i].power % 2 = 0 then 1 else halfTwist rep.n)) (fun i hi => ⟨⟨(hone i hi).first, (hone i hi).last⟩, (hone i hi).shift⟩)
  refine ⟨tab, A, ?_, ⟨a2.first, a2.last, a4 (fun B hB => ?_), a3⟩, t2⟩
  · have hlk : lookup xs 0 = .ok xs[0] := lookup_lt hL
    have hall : (xs.all fun x => x.canonicalLength == xs[0].canonicalLength) = true := by
      rw [List.all_eq_true]; intro x hxm
      simp only [NF.canonicalLength, beq_iff_eq]
      rw [(hx x hxm).2, (hx xs[0] (List.getElem_mem _)).2]
    have hlen : xs[0].canonicalLength = len := (hx xs[0] (List.getElem_mem _)).2
    have hfac : xs.mapM (NF.canonicalFactors (GNF.tbl lim ω)) = .ok ((xs.map (permsOf rep.n)).map fun ps => ps.map wordOf) := by
      clear hone a1 a2 a3 a4 hlk hall hlen A hL hne
      induction xs with
      | nil => rfl
      | cons x xs ih =>
        rw [List.mapM_cons, canonicalFactors_spec hn hl (hx x (by simp)).1, bind_ok, ih fun y hy => hx y (by simp [hy])]
        simp [permsOf, bind_ok]
    have a1' : packL xs.length (xs.map fun x => if x.power % 2 = 0 then eye d else W) = .ok A := a1
    rw [hlen] at hall
    simp only [evalStart, hlk, bind_ok, hlen, hall, pyAssert, if_true, hfac, t1, longestElement_eq, w1, a1']
  · obtain ⟨i, hi, rfl⟩ := List.getElem_of_mem hB
    exact (hone i hi).reduced

theorem prefixLoop_spec {tab : List (List Nat × Img d)} {L : Nat} {factors : List (List (List Nat))} (P : Nat → PArr (Fin L) d d → Prop) :
    ∀ (m s : Nat) (A : PArr (Fin L) d d), P s A → (∀ k, s ≤ k → k < s + m → ∀ A, P k A → ∃ B, evalStep rep tab L factors A k = .ok B ∧ P (k + 1) B) →
    ∃ Bs, prefixLoop rep tab L factors (List.range' s m) A = .ok Bs ∧ Bs.length = m + 1 ∧ ∀ j (hj : j < Bs.length), P (s + j) Bs[j]
  | 0, s, A, h, _ => ⟨[A], rfl, rfl, fun j hj => by
      obtain rfl : j = 0 := by simpa using hj
      exact h⟩
  | m + 1, s, A, h, hs => by
    obtain ⟨B, b1, b2⟩ := hs s le_rfl (by omega) A h
    obtain ⟨Bs, h1, h2, h3⟩ := prefixLoop_spec P m (s + 1) B b2 (fun k hk hk' => hs k (by omega) (by omega))
    refine ⟨A :: Bs, ?_, by simp [h2], ?_⟩
    · simp only [List.range'_succ, prefixLoop, b1, bind_ok, h1]
    · intro j hj
      cases j with
      | zero => exact h
      | succ j => have := h3 j (by simpa using hj); rw [show s + (j + 1) = s + 1 + j by omega]; exact this

theorem step_prefix (hd : 0 < d) (hp : rep.p ≠ 1) {tab : List (List Nat × Img d)}
    (ht : ∀ π : Equiv.Perm (Fin rep.n), ∃ A, Dict.get tab (wordOf π) = .ok A ∧ IsProjImage rep.p A fun _ => ρ (lift π))
    (xs : List NF) (hne : xs ≠ []) (len : Nat) (hx : ∀ x ∈ xs, x.factors.length = len) (M : Fin xs.length → Braid rep.n) (k : Nat) (hk : k < len)
    (A : PArr (Fin xs.length) d d)
    (hA : IsProjImage rep.p A fun i => ρ (M i * ((xs[i].factors.take k).map fun f => lift (permAt rep.n f)).prod)) :
    ∃ B, evalStep rep tab xs.length ((xs.map (permsOf rep.n)).map (fun ps => ps.map wordOf)) A k = .ok B ∧
      IsProjImage rep.p B fun i => ρ (M i * ((xs[i].factors.take (k + 1)).map fun f => lift (permAt rep.n f)).prod) := by
  obtain ⟨B, b1, b2⟩ := evalStep_spec hd hp ht (List.length_pos_iff.2 hne) (xs.map (permsOf rep.n)) (by simp) k (by
    intro ps hps
    obtain ⟨x, hxm, rfl⟩ := List.mem_map.1 hps
    simpa [permsOf, hx x hxm] using hk) hA.shift
  refine ⟨B, b1, ?_⟩
  convert b2 using 3 with i
  have hlt : k < xs[i].factors.length := by rw [hx xs[i] (List.getElem_mem _)]; exact hk
  rw [mul_assoc]
  congr 1
  rw [List.take_succ_eq_append_getElem hlt, List.map_append, List.prod_append]
  have hlt' : k < xs[i.1].factors.length := hlt
  simp [permsOf, List.getElem?_eq_getElem hlt']

theorem evalSame_spec (hn : 2 ≤ rep.n) (hl : rep.n < lim) (H : SummandRealises rep ρ) (hd : 0 < d) (hp : rep.p ≠ 1) (hF : FullTwistScalar ρ)
    (xs : List NF) (hne : xs ≠ []) (len : Nat) (hx : ∀ x ∈ xs, IsGNF lim ω rep.n x ∧ x.factors.length = len) :
    ∃ A, evalSame (GNF.tbl lim ω) rep xs = .ok A ∧ IsProjImage rep.p A fun i => ρ (gnfBraid rep.n xs[i]) := by
  obtain ⟨tab, A, h1, h2, h3⟩ := evalStart_spec hn hl H hd hp hF xs hne len hx
  obtain ⟨B, b1, b2⟩ := foldlM_range (evalStep rep tab xs.length ((xs.map (permsOf rep.n)).map (fun ps => ps.map wordOf)))
    (fun k A => IsProjImage rep.p A fun i => ρ ((if xs[i].power % 2 = 0 then 1 else halfTwist rep.n) *
      ((xs[i].factors.take k).map fun f => lift (permAt rep.n f)).prod)) len A (by simpa using h2)
    (fun k hk A hA => step_prefix hd hp h3 xs hne len (fun x hx' => (hx x hx').2) _ k hk A hA)
  refine ⟨B, by simp only [evalSame, h1, bind_ok]; exact b1, b2.congr fun i => ?_⟩
  rw [← prefixBraid_all (le_of_eq (hx xs[i] (List.getElem_mem _)).2), prefixBraid]
  exact parity_shift hF _ _

theorem evalPrefixes_spec (hn : 2 ≤ rep.n) (hl : rep.n < lim) (H : SummandRealises rep ρ) (hd : 0 < d) (hp : rep.p ≠ 1) (hF : FullTwistScalar ρ)
    (xs : List NF) (hne : xs ≠ []) (len : Nat) (hx : ∀ x ∈ xs, IsGNF lim ω rep.n x ∧ x.factors.length = len) :
    ∃ As, evalPrefixes (GNF.tbl lim ω) rep xs = .ok As ∧ As.length = len + 1 ∧
      ∀ k (hk : k < As.length), IsProjImage rep.p As[k] fun i => ρ (prefixBraid rep.n k xs[i]) := by
  obtain ⟨tab, A, h1, h2, h3⟩ := evalStart_spec hn hl H hd hp hF xs hne len hx
  obtain ⟨Bs, b1, b2, b3⟩ := prefixLoop_spec (rep := rep) (tab := tab) (factors := (xs.map (permsOf rep.n)).map (fun ps => ps.map wordOf))
    (fun k A => IsProjImage rep.p A fun i => ρ ((if xs[i].power % 2 = 0 then 1 else halfTwist rep.n) *
      ((xs[i].factors.take k).map fun f => lift (permAt rep.n f)).prod)) len 0 A (by simpa using h2)
    (fun k _ hk A hA => step_prefix hd hp h3 xs hne len (fun x hx' => (hx x hx').2) _ k (by omega) A hA)
  refine ⟨Bs, by simp only [evalPrefixes, h1, bind_ok, List.range_eq_range']; exact b1, b2, fun k hk => ?_⟩
  have := b3 k hk
  rw [zero_add] at this
  exact this.congr fun i => parity_shift hF _ _

theorem evaluateBraidFactors_spec (hn : 2 ≤ rep.n) (hl : rep.n < lim) (H : SummandRealises rep ρ) (hd : 0 < d) (hp : rep.p ≠ 1) (hF : FullTwistScalar ρ)
    (x : NF) (hx : IsGNF lim ω rep.n x) :
    ∃ A, evaluateBraidFactors (GNF.tbl lim ω) rep x = .ok A ∧ IsProjImage rep.p A fun _ => ρ (gnfBraid rep.n x) := by
  obtain ⟨tab, t1, t2⟩ := table_spec H hd hp hF
  obtain ⟨W, w1, w2⟩ := t2 (w0 rep.n)
  have hw : IsProjImage rep.p W fun _ => ρ (halfTwist rep.n) := w2
  obtain ⟨ms, m1, m2, m3⟩ := mapM_spec (Dict.get tab) (fun w A => ∀ π : Equiv.Perm (Fin rep.n), w = wordOf π → IsProjImage rep.p A fun _ => ρ (lift π))
    (x.factors.map fun f => wordOf (permAt rep.n f)) (by
      intro w hw
      obtain ⟨f, -, rfl⟩ := List.mem_map.1 hw
      obtain ⟨A, a1, a2⟩ := t2 (permAt rep.n f)
      exact ⟨A, a1, fun π e => wordOf_injective e ▸ a2⟩)
  have key : ∀ (S : Img d) (b : Braid rep.n), IsProjImage rep.p S (fun _ => ρ b) → ∃ B, ms.foldlM rep.mul1 S = .ok B ∧
      IsProjImage rep.p B fun _ => ρ (b * (x.factors.map fun f => lift (permAt rep.n f)).prod) := fun S b hS =>
    mul1_fold hd hp ms (x.factors.map fun f => lift (permAt rep.n f)) (by simpa using m2) (fun i hi => by
      have := m3 i (by simp at m2 ⊢; omega) (permAt rep.n (x.factors[i]'(by simp at m2; omega))) (by simp)
      simpa using this.shift) S b hS
  obtain ⟨S, s1, s2⟩ : ∃ S, (if x.power % 2 = 0 then .ok (eye d) else Dict.get tab (wordOf (w0 rep.n))) = Except.ok S ∧
      IsProjImage rep.p S (fun _ => ρ (if x.power % 2 = 0 then 1 else halfTwist rep.n)) := by
    split
    · exact ⟨_, rfl, by simpa using eye_image hd hp⟩
    · exact ⟨W, w1, hw⟩
  obtain ⟨B, b1, b2⟩ := key S _ s2
  obtain ⟨P, p1, p2⟩ := project_spec b2.shift b2.reduced (fun _ => RepBase.rho_ne ρ hd hp _)
  refine ⟨P, ?_, p2.congr fun _ => parity_shift hF _ _⟩
  simp only [evaluateBraidFactors, canonicalFactors_spec hn hl hx, bind_ok, t1, longestElement_eq, m1]
  split_ifs with hpar
  · rw [if_pos hpar] at s1
    cases s1
    rw [b1, bind_ok]; exact p1
  · rw [if_neg hpar] at s1
    rw [s1, bind_ok, b1, bind_ok]; exact p1


/-- What the grouping loop has recorded for the braids seen so far. -/
structure Grouped (xs : List NF) (i : Nat) (byLen : List (Nat × List Nat)) (loc : List (Nat × Nat)) : Prop where
  nodup : (byLen.map Prod.fst).Nodup
  sound : ∀ l idx, (l, idx) ∈ byLen → idx ≠ [] ∧ ∀ j ∈ idx, ∃ h : j < xs.length, xs[j].factors.length = l
  len : loc.length = i
  loc : ∀ j (h : j < loc.length) (h' : j < xs.length), ∃ idx, Dict.get? byLen loc[j].1 = some idx ∧ idx[loc[j].2]? = some j

theorem groupLoop_spec (all : List NF) : ∀ (xs : List NF) (i : Nat) (byLen : List (Nat × List Nat)) (loc : List (Nat × Nat)),
    all.drop i = xs → Grouped all i byLen loc → Grouped all (i + xs.length) (groupLoop xs i byLen loc).1 (groupLoop xs i byLen loc).2
  | [], i, byLen, loc, _, h => by simpa [groupLoop] using h
  | x :: xs, i, byLen, loc, hd, h => by
    have hi : i < all.length := by
      by_contra hc
      rw [List.drop_eq_nil_of_le (by omega)] at hd; simp at hd
    have hx : all[i] = x := by
      rw [List.drop_eq_getElem_cons hi] at hd; exact (List.cons.inj hd).1
    have hrest : all.drop (i + 1) = xs := by
      rw [List.drop_eq_getElem_cons hi] at hd; exact (List.cons.inj hd).2
    rw [groupLoop, List.length_cons, show i + (xs.length + 1) = i + 1 + xs.length by omega]
    apply groupLoop_spec all xs (i + 1) _ _ hrest
    set idx := (Dict.get? byLen x.canonicalLength).getD [] with hidx
    refine ⟨Dict.nodup_set _ _ h.nodup, ?_, by simp [h.len], ?_⟩
    · intro l idx' hm
      have hg := Dict.get?_of_mem (Dict.nodup_set _ _ h.nodup) hm
      rw [Dict.get?_set] at hg
      split at hg
      · rename_i e
        obtain rfl : idx ++ [i] = idx' := by simpa using hg
        refine ⟨by simp, fun j hj => ?_⟩
        rw [List.mem_append, List.mem_singleton] at hj
        rcases hj with hj | rfl
        · cases hq : Dict.get? byLen x.canonicalLength with
          | none => rw [hidx, hq] at hj; simp at hj
          | some q =>
            rw [hidx, hq] at hj
            obtain ⟨a, b⟩ := (h.sound _ q (Dict.mem_of_get? hq)).2 j (by simpa using hj)
            exact ⟨a, by rw [b, ← e]⟩
        · exact ⟨hi, by rw [hx, ← e]; rfl⟩
      · exact h.sound l idx' (Dict.mem_of_get? hg)
    · intro j hj hj'
      by_cases hjl : j < loc.length
      · rw [List.getElem_append_left hjl]
        obtain ⟨q, q1, q2⟩ := h.loc j hjl hj'
        rw [Dict.get?_set]
        by_cases e : x.canonicalLength = loc[j].1
        · refine ⟨_, if_pos e, ?_⟩
          rw [hidx, e, q1, Option.getD_some]
          obtain ⟨hq, he⟩ := List.getElem?_eq_some_iff.1 q2
          rw [List.getElem?_append_left hq, q2]
        · exact ⟨q, by rw [if_neg e, q1], q2⟩
      · have : j = loc.length := by simp at hj; omega
        subst this
        have hli := h.len
        rw [List.getElem_append_right le_rfl]
        simp only [Nat.sub_self, List.getElem_cons_zero]
        exact ⟨_, by rw [Dict.get?_set, if_pos rfl], by simp [hli]⟩

theorem evaluateBraids_spec (hn : 2 ≤ rep.n) (hl : rep.n < lim) (H : SummandRealises rep ρ) (hd : 0 < d) (hp : rep.p ≠ 1) (hF : FullTwistScalar ρ)
    (xs : List NF) (hx : ∀ x ∈ xs, IsGNF lim ω rep.n x) :
    ∃ As, evaluateBraids (GNF.tbl lim ω) rep xs = .ok As ∧ ∃ h : As.length = xs.length,
      ∀ i (hi : i < xs.length), UpToShift rep.p (As[i]'(h ▸ hi)) (fun _ => ρ (gnfBraid rep.n xs[i])) ∧ ReducedMod rep.p (As[i]'(h ▸ hi)) ∧
        slice (As[i]'(h ▸ hi)) 0 () ≠ 0 := by
  have G := groupLoop_spec xs xs 0 [] [] rfl ⟨by simp, by simp, rfl, fun j h => by simp at h⟩
  rw [zero_add] at G
  set byLen := (groupLoop xs 0 [] []).1
  set loc := (groupLoop xs 0 [] []).2
  obtain ⟨imgs, i1, i2, i3⟩ := mapM_spec (fun li : Nat × List Nat => do
      let ys ← li.2.mapM (lookup xs)
      let A ← evalSame (GNF.tbl lim ω) rep ys
      .ok (li.1, (List.finRange ys.length).map (imgAt A)))
    (fun li q => li.1 = q.1 ∧ ∀ m (hm : m < li.2.length), ∃ (hx' : li.2[m] < xs.length) (A : Img d), q.2[m]? = some A ∧
      UpToShift rep.p A (fun _ => ρ (gnfBraid rep.n xs[li.2[m]])) ∧ ReducedMod rep.p A ∧ slice A 0 () ≠ 0) byLen (by
      rintro ⟨l, idx⟩ hm
      obtain ⟨hne, hs⟩ := G.sound l idx hm
      obtain ⟨ys, y1, y2, y3⟩ := mapM_spec (lookup xs) (fun j y => ∃ h : j < xs.length, xs[j] = y) idx (by
        intro j hj
        obtain ⟨hj', -⟩ := hs j hj
        exact ⟨xs[j], lookup_lt hj', hj', rfl⟩)
      have hyne : ys ≠ [] := by
        intro e; rw [e] at y2; exact hne (List.length_eq_zero_iff.1 y2.symm)
      obtain ⟨A, a1, a2⟩ := evalSame_spec hn hl H hd hp hF ys hyne l (by
        intro y hy
        obtain ⟨m, hm', rfl⟩ := List.getElem_of_mem hy
        obtain ⟨hj, e⟩ := y3 m (by omega)
        obtain ⟨hj', e'⟩ := hs _ (List.getElem_mem (show m < idx.length by omega))
        rw [← e]
        exact ⟨hx _ (List.getElem_mem _), e'⟩)
      refine ⟨(l, (List.finRange ys.length).map (imgAt A)), by simp only [y1, bind_ok, a1], rfl, ?_⟩
      intro m hm'
      obtain ⟨hj, e⟩ := y3 m hm'
      simp only at hm'
      have hm2 : m < ys.length := by omega
      refine ⟨hj, imgAt A ⟨m, hm2⟩, by simp [hm2], ?_, ?_, ?_⟩
      · rintro ⟨⟩
        obtain ⟨k, hk⟩ := a2.shift ⟨m, hm2⟩
        refine ⟨k, ?_⟩
        rw [denMod_of_den (Bucketing.den_imgAt A ⟨m, hm2⟩), hk]
        simp only [Fin.getElem_fin, e]
      · intro hp0 S hS a i j
        obtain ⟨S', hS', rfl⟩ := List.mem_map.1 hS
        exact a2.reduced hp0 S' hS' _ i j
      · rw [Bucketing.slice_imgAt]; exact a2.first _)
  have hkeys : imgs.map Prod.fst = byLen.map Prod.fst := by
    apply List.ext_getElem (by simp [i2])
    intro m h1 h2
    simp only [List.getElem_map]
    exact (i3 m (by simpa using h2)).1.symm
  have hnd : (imgs.map Prod.fst).Nodup := by rw [hkeys]; exact G.nodup
  obtain ⟨As, a1, a2, a3⟩ := mapM_spec (fun li : Nat × Nat => do
      let l ← Dict.get imgs li.1
      lookup l li.2)
    (fun li A => ∀ j idx, Dict.get? byLen li.1 = some idx → idx[li.2]? = some j → ∃ h : j < xs.length,
      UpToShift rep.p A (fun _ => ρ (gnfBraid rep.n xs[j])) ∧ ReducedMod rep.p A ∧ slice A 0 () ≠ 0) loc (by
      intro li hli
      obtain ⟨j, hj, rfl⟩ := List.getElem_of_mem hli
      obtain ⟨idx, q1, q2⟩ := G.loc j hj (by rw [← G.len]; exact hj)
      obtain ⟨m, hm, hme⟩ := List.getElem_of_mem (Dict.mem_of_get? q1)
      obtain ⟨e1, e2⟩ := i3 m hm
      obtain ⟨hlt, hje⟩ := List.getElem?_eq_some_iff.1 q2
      obtain ⟨hx', A, b1, b2⟩ := e2 loc[j].2 (by rw [hme]; exact hlt)
      have hget : Dict.get? imgs loc[j].1 = some (imgs[m]'(by omega)).2 := by
        apply Dict.get?_of_mem hnd
        have : (imgs[m]'(by omega)).1 = loc[j].1 := by rw [← e1, hme]
        rw [← this]; exact List.getElem_mem _
      refine ⟨A, ?_, ?_⟩
      · rw [Dict.get, hget]
        simp only [bind_ok]
        obtain ⟨h1, h2⟩ := List.getElem?_eq_some_iff.1 b1
        rw [lookup_lt h1, h2]
      · intro j' idx' q1' q2'
        rw [q1] at q1'; cases q1'
        rw [q2] at q2'; cases q2'
        have e : byLen[m].2[loc[j].2]'(by rw [hme]; exact hlt) = j := by simp only [hme]; exact hje
        simp only [e] at hx' b2
        exact ⟨hx', b2⟩)
  refine ⟨As, ?_, by rw [a2, G.len], ?_⟩
  · simp only [evaluateBraids]
    rw [i1, bind_ok]
    exact a1
  · intro i hi
    have hloc : i < loc.length := by rw [G.len]; exact hi
    obtain ⟨idx, q1, q2⟩ := G.loc i hloc hi
    obtain ⟨_, h⟩ := a3 i hloc i idx q1 q2
    exact h

end BraidSearch
end Peyl
