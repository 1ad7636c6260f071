import Verif.Lemmas.MachineSearch
/-!
# The evaluators of `braidsearch.py` with machine integers, over the integers
-/
namespace Peyl
open Polymat Polynomial LaurentPolynomial Jones
namespace BraidSearch
variable {lim : Nat} {ω : List Nat → List Nat → Nat → Nat} {n r w m : Nat} {G I : List Matrix} {gs : List (Img (dimension n r))} {ρ : Braid n →* LMat 0 (dimension n r)}

/-- What is known about a summand over the integers. -/
structure IntSetup (n r m w : Nat) (G I : List Matrix) (gs : List (Img (dimension n r))) (ρ : Braid n →* LMat 0 (dimension n r)) : Prop where
  hn : 2 ≤ n
  h : 2 * r ≤ n
  cell : cellRep n r 0 = .ok ⟨n, 0, G, I⟩
  real : Realises (⟨n, 0, G, I⟩ : RepBase (dimension n r)) ρ
  sreal : SummandRealises (⟨n, 0, gs⟩ : Summand (dimension n r)) ρ
  twist : FullTwistScalar ρ
  hd : 0 < dimension n r
  hw : 1 ≤ w
  hm : m < w - 1

theorem mulW_words {γ : Type} [Fintype γ] (S : IntSetup n r m w G I gs ρ) {A B : PArr γ (dimension n r) (dimension n r)} {b c : γ → Braid n} (hB : B ≠ [])
    (hA : UpToShift 0 A fun a => ρ (b a)) (hB' : UpToShift 0 B fun a => ρ (c a))
    (hb : (∀ a, ∃ k : ℤ, ρ (b a * c a) = (T k : (ZMod 0)[T;T⁻¹]) • 1) ∨ ∀ a, ∃ u : List Nat, (∀ s ∈ u, s + 1 < n) ∧ u.length ≤ m ∧ b a * c a = posWord n u) :
    polymatMulW w 0 (fun i : γ => i) (fun i => i) A B = polymatMul 0 (fun i : γ => i) (fun i => i) A B := by
  obtain ⟨C, c1, c2⟩ := Polymat.mul_spec (fun i : γ => i) (fun i => i) A B (.inr hB)
  have hs : UpToShift 0 C fun a => ρ (b a * c a) := by
    intro i
    obtain ⟨k1, hk1⟩ := hA i
    obtain ⟨k2, hk2⟩ := hB' i
    refine ⟨k1 + k2, ?_⟩
    rw [denMod_mul (c2 i), hk1, hk2]; dsimp only; rw [map_mul, T_add, smul_mul_assoc, mul_smul_comm, smul_smul]
  refine mulW_of_bd S.hw (b := 2 ^ m) (Nat.pow_lt_pow_right (by norm_num) S.hm) _ c1 ?_
  rcases hb with hb | hb
  · refine bd_words (b := fun _ => (1 : Braid n)) S.hn S.h S.cell S.real (fun i => ?_) fun _ => ⟨[], by simp, by simp, by simp [posWord]⟩
    obtain ⟨k1, hk1⟩ := hs i
    obtain ⟨k2, hk2⟩ := hb i
    refine ⟨k1 + k2, ?_⟩
    rw [hk1]; dsimp only; rw [hk2, map_one, smul_smul, ← T_add]
  · exact bd_words (b := fun a => b a * c a) S.hn S.h S.cell S.real hs hb

theorem ne_of_image {γ : Type} {p d : Nat} {A : PArr γ d d} {M : γ → LMat p d} (h : IsProjImage p A M) (a : γ) : A ≠ [] := by
  rintro rfl
  exact h.first a (by funext i j; rfl)

theorem ne_of_shift (S : IntSetup n r m w G I gs ρ) {γ : Type} {A : PArr γ (dimension n r) (dimension n r)} {b : γ → Braid n} (h : UpToShift 0 A fun a => ρ (b a)) (a : γ) : A ≠ [] := by
  rintro rfl
  exact h.den_ne (fun a => RepBase.rho_ne ρ S.hd (by norm_num) (b a)) a (by funext i j; ext e; rw [coeff_den]; rfl)

/-- A product of images of the Artin generators or of simple braids. -/
theorem fold_words (S : IntSetup n r m w G I gs ρ) (ms : List (Img (dimension n r))) (us : List (List Nat)) (hlen : ms.length = us.length) (hus : ∀ u ∈ us, ∀ s ∈ u, s + 1 < n)
    (h : ∀ i (hi : i < ms.length), UpToShift 0 ms[i] fun _ => ρ (posWord n us[i])) : ∀ (A : Img (dimension n r)) (u : List Nat), (∀ s ∈ u, s + 1 < n) →
    u.length + (us.map List.length).sum ≤ m → IsProjImage 0 A (fun _ => ρ (posWord n u)) →
    ms.foldlM ((⟨n, 0, gs⟩ : Summand (dimension n r)).mul1W w) A = ms.foldlM (⟨n, 0, gs⟩ : Summand (dimension n r)).mul1 A := by
  induction ms generalizing us with
  | nil => intro A u _ _ _; rfl
  | cons M ms ih =>
    intro A u hu hsum hA
    cases us with
    | nil => simp at hlen
    | cons v us =>
      have hM := h 0 (by simp)
      simp only [List.getElem_cons_zero] at hM
      have huv : ∀ s ∈ u ++ v, s + 1 < n := fun s hs => by
        rcases List.mem_append.1 hs with h | h
        · exact hu s h
        · exact hus v (by simp) s h
      have hl : (u ++ v).length + (us.map List.length).sum ≤ m := by
        rw [List.length_append]; simp only [List.map_cons, List.sum_cons] at hsum; omega
      have e : (⟨n, 0, gs⟩ : Summand (dimension n r)).mul1W w A M = (⟨n, 0, gs⟩ : Summand (dimension n r)).mul1 A M :=
        mulW_words S (ne_of_shift S hM ()) hA.shift hM (.inr fun _ => ⟨u ++ v, huv, by omega, by rw [posWord_append]⟩)
      rw [List.foldlM_cons, List.foldlM_cons, e]
      obtain ⟨C, c1, c2⟩ := polymatMul_spec (p := 0) (fun u : Unit => u) (fun u => u) hA.shift hM (fun _ => by
        rw [← map_mul]; exact RepBase.rho_ne ρ S.hd (by norm_num) _)
      have c1' : (⟨n, 0, gs⟩ : Summand (dimension n r)).mul1 A M = .ok C := c1
      rw [c1', bind_ok, bind_ok]
      refine ih us (by simpa using hlen) (fun x hx => hus x (by simp [hx])) (fun i hi => h (i + 1) (by simpa using hi)) C (u ++ v) huv hl ?_
      simpa [posWord_append] using c2

theorem permImageW_int (S : IntSetup n r m w G I gs ρ) (hm : n * (n - 1) / 2 ≤ m) (π : Equiv.Perm (Fin n)) :
    (⟨n, 0, gs⟩ : Summand (dimension n r)).permImageW w (wordOf π) = (⟨n, 0, gs⟩ : Summand (dimension n r)).permImage (wordOf π) := by
  obtain ⟨x, w1, w2⟩ := shortlex_spec π
  have hpr := w1.prod
  obtain ⟨ms, m1, m2, m3⟩ := mapM_spec (lookup gs) (fun s A => UpToShift 0 A fun _ => ρ (sigma n s)) x (by
    intro s hs
    have hlt : s < gs.length := by rw [S.sreal.gens_len]; have := hpr.2.2 s hs; show s < n - 1; omega
    exact ⟨_, lookup_lt hlt, S.sreal.gens s hlt⟩)
  have hx : x.length ≤ n * (n - 1) / 2 := by
    obtain ⟨u, -, u2, -, u4⟩ := lift_word (n := n) π
    have : x.length = inv π := by rw [hpr.2.1, inv_inv]
    omega
  have e := fold_words (gs := gs) S ms (x.map fun s => [s]) (by simp [m2]) (fun u hu => by
      obtain ⟨s, hs, rfl⟩ := List.mem_map.1 hu
      simpa using hpr.2.2 s hs) (fun i hi => by
      have := m3 i (by omega)
      simpa [posWord] using this) (eye (dimension n r)) [] (by simp) (by
      have : ((x.map fun s => [s]).map List.length).sum = x.length := by simp [Function.comp_def]
      rw [this]; simp; omega) (by simpa [posWord] using eye_image (p := 0) S.hd (by norm_num))
  simp only [Summand.permImageW, Summand.permImage, w2, bind_ok]
  rw [show x.mapM (lookup (⟨n, 0, gs⟩ : Summand (dimension n r)).gens) = .ok ms from m1, bind_ok, bind_ok, e]

theorem tableW_int (S : IntSetup n r m w G I gs ρ) (hm : n * (n - 1) / 2 ≤ m) :
    (⟨n, 0, gs⟩ : Summand (dimension n r)).tableW w = (⟨n, 0, gs⟩ : Summand (dimension n r)).table := by
  rw [Summand.tableW, Summand.table]
  have e : ((Perms.elements n).mapM fun x => (do .ok (x, ← (⟨n, 0, gs⟩ : Summand (dimension n r)).permImageW w x) : Except Err (List Nat × Img (dimension n r)))) =
      (Perms.elements n).mapM fun x => (do .ok (x, ← (⟨n, 0, gs⟩ : Summand (dimension n r)).permImage x) : Except Err (List Nat × Img (dimension n r))) :=
    mapM_congr_fun fun x hx => by
      obtain ⟨π, rfl⟩ := (elements_mem x).1 hx
      rw [permImageW_int S hm]
  rw [e]
  refine bind_congr_ok fun tab htab => bind_congr_ok fun x hx => ?_
  obtain ⟨h1, h2⟩ := tab_entries htab _ (dictGet_mem hx)
  rw [show Perms.longestElement (⟨n, 0, gs⟩ : Summand (dimension n r)).n = wordOf (w0 n) from longestElement_eq] at h2
  obtain ⟨B, b1, b2⟩ := permImage_spec (rep := (⟨n, 0, gs⟩ : Summand (dimension n r))) S.sreal S.hd (by norm_num) (w0 n)
  rw [show (⟨n, 0, gs⟩ : Summand (dimension n r)).permImage (wordOf (w0 n)) = .ok x from h2] at b1
  cases b1
  have b3 : IsProjImage 0 x fun _ => ρ (lift (w0 n)) := b2
  have e2 : (⟨n, 0, gs⟩ : Summand (dimension n r)).mul1W w x x = (⟨n, 0, gs⟩ : Summand (dimension n r)).mul1 x x :=
    mulW_words S (ne_of_image b3 ()) b3.shift b3.shift (.inl fun _ => by
      obtain ⟨k, hk⟩ := S.twist
      exact ⟨k, by rw [← pow_two]; exact hk⟩)
  rw [e2]

theorem step_int (S : IntSetup n r m w G I gs ρ) {tab : List (List Nat × Img (dimension n r))}
    (ht : ∀ π : Equiv.Perm (Fin n), ∃ A, Dict.get tab (wordOf π) = .ok A ∧ IsProjImage 0 A fun _ => ρ (lift π))
    {L : Nat} (hL : 0 < L) (pss : List (List (Equiv.Perm (Fin n)))) (hlen : pss.length = L) (k : Nat) (hk : ∀ ps ∈ pss, k < ps.length)
    {A : PArr (Fin L) (dimension n r) (dimension n r)} {M : Fin L → Braid n} (hA : UpToShift 0 A fun i => ρ (M i))
    (hb : ∀ i : Fin L, ∃ u : List Nat, (∀ s ∈ u, s + 1 < n) ∧ u.length ≤ m ∧ M i * lift ((pss[i.1]'(by omega)).getD k 1) = posWord n u) :
    evalStepW w (⟨n, 0, gs⟩ : Summand (dimension n r)) tab L (pss.map fun ps => ps.map wordOf) A k = evalStep (⟨n, 0, gs⟩ : Summand (dimension n r)) tab L (pss.map fun ps => ps.map wordOf) A k := by
  obtain ⟨ms, m1, m2, m3⟩ := mapM_spec (fun fs : List (List Nat) => do Dict.get tab (← lookup fs k))
    (fun fs P => ∀ ps : List (Equiv.Perm (Fin n)), fs = ps.map wordOf → IsProjImage 0 P fun _ => ρ (lift (ps.getD k 1))) (pss.map fun ps => ps.map wordOf) (by
      intro fs hfs
      obtain ⟨ps, hps, rfl⟩ := List.mem_map.1 hfs
      have hlt : k < (ps.map wordOf).length := by simpa using hk ps hps
      obtain ⟨P, p1, p2⟩ := ht (ps[k]'(hk ps hps))
      refine ⟨P, by rw [lookup_lt hlt, bind_ok, List.getElem_map]; exact p1, ?_⟩
      intro ps' e
      obtain rfl : ps = ps' := List.map_injective_iff.2 wordOf_injective e
      simpa [hk ps hps] using p2)
  obtain ⟨B, b1, b2, b3, -⟩ := RepBase.packN_image (p := 0) hL ms (by simp at m2; omega) (fun i => ρ (lift ((pss[i.1]'(by omega)).getD k 1))) (by
    intro i hi
    have := m3 i (by omega) (pss[i]'(by simp at m2; omega)) (by simp)
    exact ⟨⟨this.first, this.last⟩, this.shift⟩)
  have b1' : packL L ms = .ok B := b1
  rw [evalStepW, evalStep]
  rw [show ((pss.map fun ps => ps.map wordOf).mapM fun fs => (do Dict.get tab (← lookup fs k) : Except Err (Img (dimension n r)))) = .ok ms from m1]
  rw [bind_ok, bind_ok, b1', bind_ok, bind_ok]
  exact mulW_words S (ne_of_shift S b3 ⟨0, hL⟩) hA b3 (.inr hb)

theorem prefix_congr {d : Nat} {rep : Summand d} {tab : List (List Nat × Img d)} {L : Nat} {factors : List (List (List Nat))} (P : Nat → PArr (Fin L) d d → Prop) :
    ∀ (m s : Nat) (A : PArr (Fin L) d d), P s A → (∀ k, s ≤ k → k < s + m → ∀ A, P k A → evalStepW w rep tab L factors A k = evalStep rep tab L factors A k ∧
      ∃ B, evalStep rep tab L factors A k = .ok B ∧ P (k + 1) B) →
    prefixLoopW w rep tab L factors (List.range' s m) A = prefixLoop rep tab L factors (List.range' s m) A
  | 0, s, A, h, _ => rfl
  | m + 1, s, A, h, hs => by
    obtain ⟨e, B, b1, b2⟩ := hs s le_rfl (by omega) A h
    have := prefix_congr P m (s + 1) B b2 (fun k hk hk' => hs k (by omega) (by omega))
    simp only [List.range'_succ, prefixLoopW, prefixLoop, e, b1, bind_ok, this]

/-- The number of letters of a braid as a positive word, up to full twists. -/
noncomputable def weight (n : Nat) (x : NF) : Nat := (x.power % 2).toNat * (n * (n - 1) / 2) + (x.factors.map fun f => inv (permAt n f)).sum

theorem prefix_step (S : IntSetup n r m w G I gs ρ) {tab : List (List Nat × Img (dimension n r))}
    (ht : ∀ π : Equiv.Perm (Fin n), ∃ A, Dict.get tab (wordOf π) = .ok A ∧ IsProjImage 0 A fun _ => ρ (lift π))
    (xs : List NF) (hne : xs ≠ []) (len : Nat) (hx : ∀ x ∈ xs, x.factors.length = len ∧ weight n x ≤ m) (k : Nat) (hk : k < len) (A : PArr (Fin xs.length) (dimension n r) (dimension n r))
    (hA : IsProjImage 0 A fun i => ρ ((if xs[i].power % 2 = 0 then 1 else halfTwist n) * ((xs[i].factors.take k).map fun f => lift (permAt n f)).prod)) :
    evalStepW w (⟨n, 0, gs⟩ : Summand (dimension n r)) tab xs.length ((xs.map (permsOf n)).map fun ps => ps.map wordOf) A k =
      evalStep (⟨n, 0, gs⟩ : Summand (dimension n r)) tab xs.length ((xs.map (permsOf n)).map fun ps => ps.map wordOf) A k ∧
    ∃ B, evalStep (⟨n, 0, gs⟩ : Summand (dimension n r)) tab xs.length ((xs.map (permsOf n)).map fun ps => ps.map wordOf) A k = .ok B ∧
      IsProjImage 0 B fun i => ρ ((if xs[i].power % 2 = 0 then 1 else halfTwist n) * ((xs[i].factors.take (k + 1)).map fun f => lift (permAt n f)).prod) := by
  refine ⟨?_, step_prefix (rep := (⟨n, 0, gs⟩ : Summand (dimension n r))) S.hd (by norm_num) ht xs hne len (fun x hxm => (hx x hxm).1) _ k hk A hA⟩
  refine step_int S ht (List.length_pos_iff.2 hne) (xs.map (permsOf n)) (by simp) k (by
    intro ps hps
    obtain ⟨x, hxm, rfl⟩ := List.mem_map.1 hps
    simpa [permsOf, (hx x hxm).1] using hk) hA.shift fun i => ?_
  obtain ⟨u, u1, u2, u3⟩ := delta_word n xs[i].power
  have hpar : (if xs[i].power % 2 = 0 then 1 else halfTwist n) = posWord n u := by
    rw [← u3]
    split
    · next e =>
      have : (xs[i].power % 2).toNat = 0 := by omega
      rw [this, pow_zero]
    · next e =>
      have : (xs[i].power % 2).toNat = 1 := by omega
      rw [this, pow_one]
  have hlt : k < xs[i].factors.length := by rw [(hx xs[i] (List.getElem_mem _)).1]; exact hk
  obtain ⟨v, v1, v2, v3⟩ := prod_word u u1 ((xs[i].factors.take (k + 1)).map (permAt n))
  refine ⟨v, v1, ?_, ?_⟩
  · have hw := (hx xs[i] (List.getElem_mem _)).2
    rw [weight] at hw
    have hle := ((List.take_sublist (k + 1) xs[i].factors).map fun f => inv (permAt n f)).sum_le_sum (fun _ _ => Nat.zero_le _)
    rw [v2, List.map_map]
    have : (List.map (inv ∘ permAt n) (List.take (k + 1) xs[i].factors)).sum = ((List.take (k + 1) xs[i].factors).map fun f => inv (permAt n f)).sum := rfl
    omega
  · rw [← v3, ← hpar, mul_assoc]
    congr 1
    rw [List.take_succ_eq_append_getElem hlt, List.map_append, List.map_append, List.prod_append, List.map_map]
    have hlt' : k < xs[i.1].factors.length := hlt
    congr 1
    simp [permsOf, List.getElem?_eq_getElem hlt']

theorem evalStart_shape {d : Nat} {rep : Summand d} {tbl : Nat → Except Err (NFTable (List Nat))} {xs : List NF} {y : Nat × List (List (List Nat)) × List (List Nat × Img d) × PArr (Fin xs.length) d d}
    (h : evalStart tbl rep xs = .ok y) : xs ≠ [] ∧ ∀ x ∈ xs, x.factors.length = y.1 := by
  rw [evalStart] at h
  obtain ⟨x0, h0, h⟩ := RepBase.bind_eq_ok h
  obtain ⟨_, hall, h⟩ := RepBase.bind_eq_ok h
  obtain ⟨_, -, h⟩ := RepBase.bind_eq_ok h
  obtain ⟨tab, ht, h⟩ := RepBase.bind_eq_ok h
  obtain ⟨anti, ha, h⟩ := RepBase.bind_eq_ok h
  obtain ⟨A, hA, h⟩ := RepBase.bind_eq_ok h
  cases h
  refine ⟨List.length_pos_iff.1 (RepBase.lookup_pos h0), ?_⟩
  rw [pyAssert] at hall
  split at hall
  · next hh =>
    simp only [List.all_eq_true, beq_iff_eq] at hh
    exact fun x hx => hh x hx
  · cases hall

theorem evals_int (S : IntSetup n r m w G I gs ρ) (hm : n * (n - 1) / 2 ≤ m) (hl : n < lim) (xs : List NF) (hx : ∀ x ∈ xs, IsGNF lim ω n x ∧ weight n x ≤ m) :
    evalSameW w (GNF.tbl lim ω) (⟨n, 0, gs⟩ : Summand (dimension n r)) xs = evalSame (GNF.tbl lim ω) (⟨n, 0, gs⟩ : Summand (dimension n r)) xs ∧
    evalPrefixesW w (GNF.tbl lim ω) (⟨n, 0, gs⟩ : Summand (dimension n r)) xs = evalPrefixes (GNF.tbl lim ω) (⟨n, 0, gs⟩ : Summand (dimension n r)) xs := by
  have hT := tableW_int S hm
  have key : ∀ y, evalStart (GNF.tbl lim ω) (⟨n, 0, gs⟩ : Summand (dimension n r)) xs = .ok y →
      (List.range y.1).foldlM (evalStepW w (⟨n, 0, gs⟩ : Summand (dimension n r)) y.2.2.1 xs.length y.2.1) y.2.2.2 =
        (List.range y.1).foldlM (evalStep (⟨n, 0, gs⟩ : Summand (dimension n r)) y.2.2.1 xs.length y.2.1) y.2.2.2 ∧
      prefixLoopW w (⟨n, 0, gs⟩ : Summand (dimension n r)) y.2.2.1 xs.length y.2.1 (List.range y.1) y.2.2.2 =
        prefixLoop (⟨n, 0, gs⟩ : Summand (dimension n r)) y.2.2.1 xs.length y.2.1 (List.range y.1) y.2.2.2 := by
    intro y hy
    obtain ⟨hne, hlen⟩ := evalStart_shape hy
    obtain ⟨tab, A, h1, h2, h3⟩ := evalStart_spec (rep := (⟨n, 0, gs⟩ : Summand (dimension n r))) S.hn hl S.sreal S.hd (by norm_num) S.twist xs hne y.1
      (fun x hxm => ⟨(hx x hxm).1, hlen x hxm⟩)
    have hstep := prefix_step (w := w) S h3 xs hne y.1 fun x hxm => ⟨hlen x hxm, (hx x hxm).2⟩
    rw [hy, Except.ok.injEq] at h1
    rw [h1]
    have h0 : IsProjImage 0 A fun i => ρ ((if xs[i].power % 2 = 0 then 1 else halfTwist n) * ((xs[i].factors.take 0).map fun f => lift (permAt n f)).prod) := by simpa using h2
    refine ⟨foldlM_range_congr _ _ (fun k (A : PArr (Fin xs.length) (dimension n r) (dimension n r)) => IsProjImage 0 A fun i => ρ ((if xs[i].power % 2 = 0 then 1 else halfTwist n) *
      ((xs[i].factors.take k).map fun f => lift (permAt n f)).prod)) _ A h0 fun k hk B hB => hstep k hk B hB, ?_⟩
    rw [List.range_eq_range']
    exact prefix_congr (fun k (A : PArr (Fin xs.length) (dimension n r) (dimension n r)) => IsProjImage 0 A fun i => ρ ((if xs[i].power % 2 = 0 then 1 else halfTwist n) *
      ((xs[i].factors.take k).map fun f => lift (permAt n f)).prod)) _ 0 A h0 fun k _ hk B hB => hstep k (by simpa using hk) B hB
  constructor
  · rw [evalSameW, evalSame, evalStartW_eq hT]
    exact bind_congr_ok fun y hy => (key y hy).1
  · rw [evalPrefixesW, evalPrefixes, evalStartW_eq hT]
    exact bind_congr_ok fun y hy => (key y hy).2

theorem evaluateBraids_int (S : IntSetup n r m w G I gs ρ) (hm : n * (n - 1) / 2 ≤ m) (hl : n < lim) (xs : List NF) (hx : ∀ x ∈ xs, IsGNF lim ω n x ∧ weight n x ≤ m) :
    evaluateBraidsW w (GNF.tbl lim ω) (⟨n, 0, gs⟩ : Summand (dimension n r)) xs = evaluateBraids (GNF.tbl lim ω) (⟨n, 0, gs⟩ : Summand (dimension n r)) xs := by
  rw [evaluateBraidsW, evaluateBraids]
  dsimp only
  congr 1
  refine mapM_congr_fun fun li _ => bind_congr_ok fun ys hys => ?_
  rw [(evals_int S hm hl ys fun y hy => ?_).1]
  obtain ⟨i, -, hi⟩ := mapM_mem_ok hys y hy
  exact hx y (RepBase.lookup_mem hi)

theorem evaluateBraidFactors_int (S : IntSetup n r m w G I gs ρ) (hm : n * (n - 1) / 2 ≤ m) (hl : n < lim) (x : NF) (hx : IsGNF lim ω n x) (hwt : weight n x ≤ m) :
    evaluateBraidFactorsW w (GNF.tbl lim ω) (⟨n, 0, gs⟩ : Summand (dimension n r)) x = evaluateBraidFactors (GNF.tbl lim ω) (⟨n, 0, gs⟩ : Summand (dimension n r)) x := by
  obtain ⟨tab, t1, t2⟩ := table_spec (rep := (⟨n, 0, gs⟩ : Summand (dimension n r))) S.sreal S.hd (by norm_num) S.twist
  obtain ⟨W, w1, w2⟩ := t2 (w0 n)
  have w2 : IsProjImage 0 W fun _ => ρ (halfTwist n) := w2
  obtain ⟨ms, m1, m2, m3⟩ := mapM_spec (Dict.get tab) (fun w A => ∀ π : Equiv.Perm (Fin n), w = wordOf π → IsProjImage 0 A fun _ => ρ (lift π))
    (x.factors.map fun f => wordOf (permAt n f)) (by
      intro w hw
      obtain ⟨f, -, rfl⟩ := List.mem_map.1 hw
      obtain ⟨A, a1, a2⟩ := t2 (permAt n f)
      exact ⟨A, a1, fun π e => wordOf_injective e ▸ a2⟩)
  choose rw r1 r2 r3 _ using fun π : Equiv.Perm (Fin n) => lift_word π
  obtain ⟨u, u1, u2, u3⟩ := delta_word n x.power
  have key : ∀ A : Img (dimension n r), IsProjImage 0 A (fun _ => ρ (halfTwist n ^ (x.power % 2).toNat)) →
      ms.foldlM ((⟨n, 0, gs⟩ : Summand (dimension n r)).mul1W w) A = ms.foldlM (⟨n, 0, gs⟩ : Summand (dimension n r)).mul1 A := fun A hA =>
    fold_words S ms (x.factors.map fun f => rw (permAt n f)) (by simpa using m2) (fun v hv => by
      obtain ⟨f, -, rfl⟩ := List.mem_map.1 hv
      exact r1 _) (fun i hi => by
      have := m3 i (by simp at m2 ⊢; omega) (permAt n (x.factors[i]'(by simp at m2; omega))) (by simp)
      simpa [← r3] using this.shift) A u u1 (by
      have e : ((x.factors.map fun f => rw (permAt n f)).map List.length) = x.factors.map fun f => inv (permAt n f) := by
        rw [List.map_map]; exact List.map_congr_left fun f _ => r2 _
      rw [e, u2]; exact hwt) (by rw [← u3]; exact hA)
  rw [evaluateBraidFactorsW, evaluateBraidFactors, tableW_int S hm, t1, canonicalFactors_spec (n := n) S.hn hl hx]
  simp only [bind_ok, m1, longestElement_eq]
  split_ifs with hp
  · rw [key _ (by simpa [hp] using eye_image (p := 0) S.hd (by norm_num))]
  · have : x.power % 2 = 1 := by omega
    rw [w1, bind_ok, bind_ok, key _ (by simpa [this] using w2)]

end BraidSearch
end Peyl
