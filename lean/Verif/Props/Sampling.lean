import Verif.Lemmas.SampleCount
import Verif.Props.Braid
import Verif.Props.DGNF
/-!
# The distribution of `sample` (C117)

Vocabulary (Spec/Sampling.lean): `chance k N f x` is the chance that `f` returns `x` when it is given `k` independent draws out of `N`
equally likely numbers.  `rand.choice(xs)` of the model takes the remainder of the draw, so the draws are uniform on `xs` as soon as
`len(xs)` divides `N`.
-/
namespace Peyl
open Equiv TableSpec
variable {n lim : Nat}

theorem order_le {W T : Type} [Group W] [Fintype W] {tbl : Nat → Except Err (NFTable T)} {t : NFTable T} {g : Germ W} {v : Nat → W} {β : W → Braid n}
    (R : NFReal tbl n t g v β) : t.order ≤ Fintype.card W := by
  have : Function.Injective fun i : Fin t.order => v i := fun i j e => Fin.ext (R.spec.inj i j i.2 j.2 e)
  simpa using Fintype.card_le_of_injective _ this

/-- C117: if every `rand.choice` is uniform and the choices are independent, then every factor of `GNF.sample(n, k)` is equally likely to be
any of the factors that can legally follow the earlier ones: the chance of a normal form is the product of the reciprocals of the numbers of
legal one-factor extensions of its prefixes. -/
theorem C117_gnf (ω : List Nat → List Nat → Nat → Nat) (hn : 2 ≤ n) (hl : n < lim) (k N : Nat) (hN0 : 0 < N)
    (hN : ∀ m, 0 < m → m ≤ n.factorial → m ∣ N) (x : NF) (hx : IsGNF lim ω n x) (hp : x.power = 0) (hk : x.factors.length = k) :
    chance k N (fun rand => NF.sample (GNF.tbl lim ω) rand n k) x =
      ∏ i ∈ Finset.range k, (1 : ℚ) / {f | IsGNF lim ω n ⟨n, 0, x.factors.take i ++ [f]⟩}.ncard := by
  obtain ⟨t, R⟩ := exists_greal lim ω hn hl
  have ho : t.order ≤ n.factorial := by simpa [Fintype.card_perm] using order_le R.1
  rw [R.1.sample_chance hN0 (fun m h1 h2 => hN m h1 (h2.trans ho)) k x (R.isGNF_iff.1 hx) hp hk]
  simp only [R.isGNF_iff]

/-- C117: the same for `DGNF.sample`. -/
theorem C117_dgnf (ω : NPar → NPar → Nat → Nat) (hn : 2 ≤ n) (hl : NPar.catalanNum n < lim) (k N : Nat) (hN0 : 0 < N)
    (hN : ∀ m, 0 < m → m ≤ n.factorial → m ∣ N) (x : NF) (hx : IsDGNF lim ω n x) (hp : x.power = 0) (hk : x.factors.length = k) :
    chance k N (fun rand => NF.sample (DGNF.tbl lim ω) rand n k) x =
      ∏ i ∈ Finset.range k, (1 : ℚ) / {f | IsDGNF lim ω n ⟨n, 0, x.factors.take i ++ [f]⟩}.ncard := by
  obtain ⟨l, t, R⟩ := dgnf_real lim ω hn hl
  have ho : t.order ≤ n.factorial := by simpa [Fintype.card_perm] using order_le R.real
  rw [R.real.sample_chance hN0 (fun m h1 h2 => hN m h1 (h2.trans ho)) k x (R.isDGNF_iff.1 hx) hp hk]
  simp only [R.isDGNF_iff]

/-- There are such `N`: for example `(n!)!`. -/
example (n : Nat) : 0 < n.factorial.factorial ∧ ∀ m, 0 < m → m ≤ n.factorial → m ∣ n.factorial.factorial :=
  ⟨Nat.factorial_pos _, fun _ h1 h2 => Nat.dvd_factorial h1 h2⟩

/-! ### The normal forms of a given length are not equally likely -/

/-- The number of legal factors after a factor, counted in the symmetric group. -/
theorem ext_count {ω : List Nat → List Nat → Nat → Nat} {t : NFTable (List Nat)} (R : GReal lim ω n t) {f : Nat} (hf : f < t.order)
    (hv : IsGNF lim ω n ⟨n, 0, [f]⟩) : {h | IsGNF lim ω n ⟨n, 0, [f] ++ [h]⟩}.ncard = {π : Perm (Fin n) | LeftWeighted (permAt n f) π ∧ π ≠ 1 ∧ π ≠ w0 n}.ncard := by
  obtain ⟨xs, y1, y2, y3⟩ := R.1.spec.follows f hf
  obtain ⟨c1, -⟩ := R.1.ext_ncard (pre := [f]) hf (R.isGNF_iff.1 hv) rfl y1
  have c1' : {h | IsGNF lim ω n ⟨n, 0, [f] ++ [h]⟩}.ncard = xs.length := by
    rw [← c1]; congr 1; ext h; exact R.isGNF_iff
  rw [c1', ← List.toFinset_card_of_nodup y2, ← Set.ncard_coe_finset]
  refine Set.ncard_congr (fun i _ => permAt n i) ?_ ?_ ?_
  · intro i hi
    have hi' := (y3 i).1 (by simpa using hi)
    refine ⟨(pairN_perm _ _).1 hi'.2.1, ?_, ?_⟩
    · have := hi'.2.2.1; rwa [Ne, R.1.spec.id_eq hi'.1] at this
    · have := hi'.2.2.2; rwa [Ne, R.1.spec.D_eq hi'.1] at this
  · intro i j hi hj e
    exact R.1.spec.inj i j ((y3 i).1 (by simpa using hi)).1 ((y3 j).1 (by simpa using hj)).1 e
  · rintro π ⟨h1, h2, h3⟩
    obtain ⟨i, hi, rfl⟩ := R.1.spec.surj π (permGerm_P _)
    refine ⟨i, ?_, rfl⟩
    have : i ∈ xs := (y3 i).2 ⟨hi, (pairN_perm _ _).2 h1, by rw [Ne, R.1.spec.id_eq hi]; exact h2, by rw [Ne, R.1.spec.D_eq hi]; exact h3⟩
    simpa using this

theorem lw_four (ρ π : Perm (Fin 4)) : LeftWeighted ρ π ↔ ∀ i : Fin 3, π⁻¹ i.succ < π⁻¹ i.castSucc → ρ i.succ < ρ i.castSucc := by
  constructor
  · intro h i hi; exact h i (by omega) hi
  · intro h i hi hlt; exact h ⟨i, by omega⟩ hlt

theorem count_s0 : {π : Perm (Fin 4) | LeftWeighted (sg 4 0) π ∧ π ≠ 1 ∧ π ≠ w0 4}.ncard = 3 := by
  have : {π : Perm (Fin 4) | LeftWeighted (sg 4 0) π ∧ π ≠ 1 ∧ π ≠ w0 4} = ((Finset.univ.filter fun π : Perm (Fin 4) =>
      (∀ i : Fin 3, π⁻¹ i.succ < π⁻¹ i.castSucc → sg 4 0 i.succ < sg 4 0 i.castSucc) ∧ π ≠ 1 ∧ π ≠ w0 4 : Finset (Perm (Fin 4))) : Set (Perm (Fin 4))) := by
    ext π; simp [lw_four]
  rw [this, Set.ncard_coe_finset]
  decide +kernel

theorem count_s1 : {π : Perm (Fin 4) | LeftWeighted (sg 4 1) π ∧ π ≠ 1 ∧ π ≠ w0 4}.ncard = 5 := by
  have : {π : Perm (Fin 4) | LeftWeighted (sg 4 1) π ∧ π ≠ 1 ∧ π ≠ w0 4} = ((Finset.univ.filter fun π : Perm (Fin 4) =>
      (∀ i : Fin 3, π⁻¹ i.succ < π⁻¹ i.castSucc → sg 4 1 i.succ < sg 4 1 i.castSucc) ∧ π ≠ 1 ∧ π ≠ w0 4 : Finset (Perm (Fin 4))) : Set (Perm (Fin 4))) := by
    ext π; simp [lw_four]
  rw [this, Set.ncard_coe_finset]
  decide +kernel

/-- C117 (limits of the claim): the samples are not uniform on the normal forms of the requested length; on four strands already two factors
make a difference. -/
theorem C117_not_uniform (ω : List Nat → List Nat → Nat → Nat) (hl : 4 < lim) (N : Nat) (hN0 : 0 < N) (hN : ∀ m, 0 < m → m ≤ Nat.factorial 4 → m ∣ N) :
    ∃ x y, IsGNF lim ω 4 x ∧ IsGNF lim ω 4 y ∧ x.power = 0 ∧ y.power = 0 ∧ x.factors.length = 2 ∧ y.factors.length = 2 ∧
      chance 2 N (fun rand => NF.sample (GNF.tbl lim ω) rand 4 2) x ≠ chance 2 N (fun rand => NF.sample (GNF.tbl lim ω) rand 4 2) y := by
  obtain ⟨t, R⟩ := exists_greal lim ω (by norm_num : 2 ≤ 4) hl
  have mk : ∀ j, j + 1 < 4 → ∃ a, a < t.order ∧ permAt 4 a = sg 4 j ∧ IsGNF lim ω 4 ⟨4, 0, [a]⟩ ∧ IsGNF lim ω 4 ⟨4, 0, [a, a]⟩ := by
    intro j hj
    obtain ⟨a, ha, e⟩ := R.1.spec.surj (sg 4 j) (permGerm_P _)
    have n1 : a ≠ t.id := by
      rw [Ne, R.1.spec.id_eq ha, e]
      have hj' : j < 3 := by omega
      interval_cases j <;> decide
    have n2 : a ≠ t.D := by rw [Ne, R.1.spec.D_eq ha, e]; exact sg_ne_w0 (by norm_num) hj
    refine ⟨a, ha, e, R.isGNF_iff.2 (R.1.valid_iff.2 ⟨rfl, by simpa using ha, by simp [Germ.Nrm], by simpa using ⟨n1, n2⟩⟩),
      R.isGNF_iff.2 (R.1.valid_iff.2 ⟨rfl, by simpa using ha, ?_, by simpa using ⟨n1, n2⟩⟩)⟩
    unfold Germ.Nrm
    simp only [List.map_cons, List.map_nil, List.isChain_cons_cons, List.isChain_singleton, and_true]
    rw [e, pairN_perm]
    have : LeftWeighted (sg 4 j) (sg 4 j) := by
      have hj' : j < 3 := by omega
      rw [lw_four]; interval_cases j <;> decide
    exact this
  obtain ⟨a, ha, ea, va, vaa⟩ := mk 0 (by norm_num)
  obtain ⟨b, hb, eb, vb, vbb⟩ := mk 1 (by norm_num)
  refine ⟨_, _, vaa, vbb, rfl, rfl, rfl, rfl, ?_⟩
  rw [C117_gnf ω (by norm_num) hl 2 N hN0 hN _ vaa rfl rfl, C117_gnf ω (by norm_num) hl 2 N hN0 hN _ vbb rfl rfl]
  have qa := ext_count R ha va
  have qb := ext_count R hb vb
  rw [ea, count_s0] at qa
  rw [eb, count_s1] at qb
  have q0 : {f | IsGNF lim ω 4 ⟨4, 0, [] ++ [f]⟩}.ncard ≠ 0 := by
    have hne : {f | IsGNF lim ω 4 ⟨4, 0, [] ++ [f]⟩}.Nonempty := ⟨a, va⟩
    have hfin : {f | IsGNF lim ω 4 ⟨4, 0, [] ++ [f]⟩}.Finite := (Finset.range (Nat.factorial 4)).finite_toSet.subset fun f hf => by
      have := hf.1 f (by simp)
      simpa using this
    exact (Set.ncard_pos hfin).2 hne |>.ne'
  simp only [Finset.prod_range_succ, Finset.prod_range_zero, one_mul, List.take_zero, List.take_succ_cons, qa, qb]
  intro e
  have q0' : ((1 : ℚ) / ({f | IsGNF lim ω 4 ⟨4, 0, [] ++ [f]⟩}.ncard : ℚ)) ≠ 0 := one_div_ne_zero (by exact_mod_cast q0)
  have := mul_left_cancel₀ q0' e
  norm_num at this

example := C117_not_uniform (lim := 7) pop0 (by decide) (Nat.factorial 24) (Nat.factorial_pos _) fun _ h1 h2 => Nat.dvd_factorial h1 h2

end Peyl
