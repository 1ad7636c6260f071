import Verif.Lemmas.NParGerm
import Verif.Lemmas.PermGerm
/-!
# Band generators satisfy the relations of Birman, Ko and Lee, and realise the dual germ
-/
namespace Peyl
open Equiv
variable {n : Nat}

/-- Braid relations for a family of elements. -/
structure ArtinRel {H : Type} [Group H] (n : Nat) (s : Nat → H) : Prop where
  far : ∀ i j, j + 1 < n → i + 2 ≤ j → s i * s j = s j * s i
  braid : ∀ i, i + 1 + 1 < n → s i * s (i + 1) * s i = s (i + 1) * s i * s (i + 1)

theorem artinRel_sigma : ArtinRel n (sigma n) := ⟨sigma_comm, sigma_braid⟩

section
variable {H : Type} [Group H] (s : Nat → H)

/-- The band element on `a` and `a + k + 1`. -/
def bnd (a : Nat) : Nat → H
  | 0 => s a
  | k + 1 => s (a + k + 1) * bnd a k * (s (a + k + 1))⁻¹

/-- The band element on `a < b`. -/
def ban (a b : Nat) : H := bnd s a (b - a - 1)

theorem ban_succ_self (a : Nat) : ban s a (a + 1) = s a := by simp [ban, bnd]

theorem ban_succ {a b : Nat} (h : a < b) : ban s a (b + 1) = s b * ban s a b * (s b)⁻¹ := by
  obtain ⟨k, rfl⟩ : ∃ k, b = a + k + 1 := ⟨b - a - 1, by omega⟩
  unfold ban
  rw [show a + k + 1 + 1 - a - 1 = k + 1 by omega, show a + k + 1 - a - 1 = k by omega]; rfl

variable {s} (R : ArtinRel n s)
include R

/-- Induction over the second strand. -/
theorem ban_far {a b i : Nat} (hab : a < b) (hb : b < n) (hi : i + 1 < n) (h : i + 2 ≤ a ∨ b < i) : Commute (s i) (ban s a b) := by
  induction b, hab using Nat.le_induction with
  | base =>
    rw [Nat.succ_eq_add_one, ban_succ_self]
    rcases h with h | h
    · exact R.far i a hb h
    · exact (R.far a i hi (by omega)).symm
  | succ b hab ih =>
    rw [ban_succ s hab]
    have h1 := ih (by omega) (by omega)
    have h2 : Commute (s i) (s b) := by
      rcases h with h | h
      · exact R.far i b hb (by omega)
      · exact (R.far b i hi (by omega)).symm
    exact (h2.mul_right h1).mul_right h2.inv_right

theorem ban_in {a b i : Nat} (hai : a < i) (hib : i + 1 < b) (hb : b < n) : Commute (s i) (ban s a b) := by
  induction b, hib using Nat.le_induction with
  | base =>
    rw [Nat.succ_eq_add_one, ban_succ s (by omega : a < i + 1), ban_succ s hai]
    have h1 : Commute (s (i + 1)) (ban s a i) := ban_far R hai (by omega) (by omega) (Or.inr (by omega))
    have h2 := R.braid i hb
    set x := ban s a i
    have h3 : s (i + 1) * (s i)⁻¹ * (s (i + 1))⁻¹ = (s i)⁻¹ * (s (i + 1))⁻¹ * s i := by
      rw [mul_inv_eq_iff_eq_mul, mul_inv_eq_iff_eq_mul, mul_assoc, mul_assoc, mul_assoc, ← mul_assoc (s i), h2]
      group
    show s i * _ = _ * s i
    calc s i * (s (i + 1) * (s i * x * (s i)⁻¹) * (s (i + 1))⁻¹)
        = (s i * s (i + 1) * s i) * x * ((s i)⁻¹ * (s (i + 1))⁻¹) := by group
      _ = s (i + 1) * s i * (s (i + 1) * x) * ((s i)⁻¹ * (s (i + 1))⁻¹) := by rw [h2]; group
      _ = s (i + 1) * s i * x * (s (i + 1) * (s i)⁻¹ * (s (i + 1))⁻¹) := by rw [h1.eq]; group
      _ = _ := by rw [h3]; group
  | succ b hab ih =>
    have hab : i + 1 < b := hab
    rw [ban_succ s (by omega : a < b)]
    have h1 := ih (by omega)
    have h2 : Commute (s i) (s b) := R.far i b hb (by omega)
    exact (h2.mul_right h1).mul_right h2.inv_right

/-- The braid relation between a band and the next generator. -/
theorem ban_braid {a b : Nat} (hab : a < b) (hb : b + 1 < n) : ban s a b * s b * ban s a b = s b * ban s a b * s b := by
  induction b, hab using Nat.le_induction with
  | base => rw [Nat.succ_eq_add_one, ban_succ_self]; exact R.braid a hb
  | succ b hab ih =>
    have hab : a < b := hab
    rw [ban_succ s hab]
    have e := ih (by omega)
    have c : Commute (s (b + 1)) (ban s a b) := ban_far R hab (by omega) hb (Or.inr (by omega))
    have h2 := R.braid b hb
    set x := ban s a b
    have e2 : s b * x * (s b)⁻¹ = x⁻¹ * s b * x := by
      rw [mul_inv_eq_iff_eq_mul, mul_assoc x⁻¹, mul_assoc x⁻¹, eq_inv_mul_iff_mul_eq, ← mul_assoc]; exact e
    rw [e2]
    calc x⁻¹ * s b * x * s (b + 1) * (x⁻¹ * s b * x) = x⁻¹ * s b * (x * s (b + 1)) * x⁻¹ * s b * x := by group
      _ = x⁻¹ * (s b * s (b + 1) * s b) * x := by rw [← c.eq]; group
      _ = (x⁻¹ * s (b + 1)) * s b * (s (b + 1) * x) := by rw [h2]; group
      _ = (s (b + 1) * x⁻¹) * s b * (x * s (b + 1)) := by rw [← c.inv_right.eq, c.eq]
      _ = _ := by group

theorem ban_tri {a b c : Nat} (hab : a < b) (hbc : b < c) (hc : c < n) :
    ban s b c * ban s a b = ban s a c * ban s b c ∧ ban s a c * ban s b c = ban s a b * ban s a c := by
  induction c, hbc using Nat.le_induction with
  | base =>
    rw [Nat.succ_eq_add_one, ban_succ_self, ban_succ s hab]
    have := ban_braid R hab hc
    refine ⟨by group, ?_⟩
    rw [mul_assoc, inv_mul_cancel, mul_one, ← mul_assoc, ← mul_assoc, this]; group
  | succ c hbc ih =>
    have hbc : b < c := hbc
    rw [ban_succ s hbc, ban_succ s (hab.trans hbc)]
    have k : Commute (s c) (ban s a b) := ban_far R hab (by omega) hc (Or.inr hbc)
    obtain ⟨e1, e2⟩ := ih (by omega)
    have k2 : ban s a b = s c * ban s a b * (s c)⁻¹ := by rw [k.eq]; group
    constructor
    · calc _ = s c * ban s b c * (s c)⁻¹ * (s c * ban s a b * (s c)⁻¹) := by rw [← k2]
        _ = s c * (ban s b c * ban s a b) * (s c)⁻¹ := by group
        _ = _ := by rw [e1]; group
    · calc _ = s c * (ban s a c * ban s b c) * (s c)⁻¹ := by group
        _ = (s c * ban s a b * (s c)⁻¹) * (s c * ban s a c * (s c)⁻¹) := by rw [e2]; group
        _ = _ := by rw [← k2]

/-- An element commuting with the generators of a band commutes with the band. -/
theorem ban_comm {a b : Nat} (hab : a < b) {x : H} (h : ∀ i, a ≤ i → i < b → Commute x (s i)) : Commute x (ban s a b) := by
  induction b, hab using Nat.le_induction with
  | base => rw [Nat.succ_eq_add_one, ban_succ_self]; exact h a le_rfl (by omega)
  | succ b hab ih =>
    have hab : a < b := hab
    rw [ban_succ s hab]
    have h2 := h b hab.le (by omega)
    exact (h2.mul_right (ih fun i h1 h2 => h i h1 (by omega))).mul_right h2.inv_right

theorem ban_rel : BKLRel (n := n) fun p => ban s p.1 p.2 where
  tri1 a b c h1 h2 := (ban_tri R h1 h2 c.2).1
  tri2 a b c h1 h2 := (ban_tri R h1 h2 c.2).2
  side a b c d h1 h2 h3 := by
    have h1 : (a : Nat) < b := h1
    have h2 : (b : Nat) < c := h2
    have h3 : (c : Nat) < d := h3
    have := d.2
    exact ban_comm R h3 fun i i1 i2 => (ban_far R h1 b.2 (by omega) (Or.inr (by omega))).symm
  nest a b c d h1 h2 h3 := by
    have h1 : (a : Nat) < b := h1
    have h2 : (b : Nat) < c := h2
    have h3 : (c : Nat) < d := h3
    exact ban_comm R h2 fun i i1 i2 => (ban_in R (show (a : Nat) < i by omega) (show i + 1 < (d : Nat) by omega) d.2).symm

end

/-! ### The dual lift -/

theorem bandUp_eq (a k : Nat) : bandUp n a k = bnd (sigma n) a k := by
  induction k with
  | zero => rfl
  | succ k ih => rw [bandUp, bnd, ih]

theorem band_eq {a b : Nat} (h : a < b) : band n a b = ban (sigma n) a b := by
  rw [band, if_neg h.ne, min_eq_left h.le, max_eq_right h.le, bandUp_eq]; rfl

theorem band_rel : BKLRel (n := n) fun p => band n p.1 p.2 := by
  have h := ban_rel (n := n) (s := sigma n) artinRel_sigma
  have e : ∀ p : Fin n × Fin n, p.1 < p.2 → band n p.1 p.2 = ban (sigma n) p.1 p.2 := fun p hp => band_eq hp
  constructor
  · intro a b c h1 h2
    rw [e (b, c) h2, e (a, b) h1, e (a, c) (h1.trans h2)]; exact h.tri1 a b c h1 h2
  · intro a b c h1 h2
    rw [e (b, c) h2, e (a, b) h1, e (a, c) (h1.trans h2)]; exact h.tri2 a b c h1 h2
  · intro a b c d h1 h2 h3
    rw [e (a, b) h1, e (c, d) h3]; exact h.side a b c d h1 h2 h3
  · intro a b c d h1 h2 h3
    rw [e (a, d) (h1.trans (h2.trans h3)), e (b, c) h2]; exact h.nest a b c d h1 h2 h3

theorem exists_transWord (π : Perm (Fin n)) : ∃ w, Germ.Red (nparGerm n) (fun p => p.1 < p.2) tr w π := by
  induction hm : rlen π using Nat.strong_induction_on generalizing π with
  | _ m ih =>
    by_cases h1 : π = 1
    · exact ⟨[], by simp, by simp [h1], by simp [h1, (nparGerm n).len_one]⟩
    · obtain ⟨a, b, hab, h⟩ := exists_rlen_split h1
      obtain ⟨w, w1, w2, w3⟩ := ih (rlen (swap a b * π)) (by omega) _ rfl
      have key : ∀ p : Fin n × Fin n, p.1 < p.2 → tr p = swap a b → ∃ w, Germ.Red (nparGerm n) (fun p => p.1 < p.2) tr w π := by
        intro p hp e
        refine ⟨p :: w, by simpa [hp] using w1, ?_, ?_⟩
        · rw [List.map_cons, List.prod_cons, w2, e, ← mul_assoc, swap_mul_self, one_mul]
        · rw [List.length_cons, w3]; exact h
      rcases lt_or_gt_of_ne hab with hlt | hlt
      · exact key (a, b) hlt rfl
      · exact key (b, a) hlt (swap_comm _ _)

theorem red_iff_min {w : List (Fin n × Fin n)} {π : Perm (Fin n)} :
    Germ.Red (nparGerm n) (fun p => p.1 < p.2) tr w π ↔ IsMinTransWord w π := by
  constructor
  · rintro ⟨h1, h2, h3⟩
    refine ⟨⟨h1, h2⟩, ?_⟩
    rintro w' ⟨k1, k2⟩
    rw [h3, ← k2]; exact len_trs k1
  · rintro ⟨⟨h1, h2⟩, h3⟩
    obtain ⟨w', k1, k2, k3⟩ := exists_transWord π
    refine ⟨h1, h2, le_antisymm ?_ ?_⟩
    · rw [← k3]; exact h3 w' ⟨k1, k2⟩
    · rw [← h2]; exact len_trs h1

/-- All shortest factorisations of a noncrossing permutation spell the same braid. -/
theorem dlift_eq {π : Perm (Fin n)} (hπ : NCP π) {w : List (Fin n × Fin n)} (h : IsMinTransWord w π) :
    dlift π = (w.map fun p => band n p.1 p.2).prod := by
  have hex : ∃ w, IsMinTransWord w π := ⟨w, h⟩
  rw [dlift, dif_pos hex]
  exact Germ.matsumoto npar_atoms.1 npar_atoms.2 (npar_joinCond _ band_rel) (nparGerm_P.2 hπ) (red_iff_min.2 hex.choose_spec) (red_iff_min.2 h)

theorem dlift_hom : (nparGerm n).GermHom (dlift (n := n)) :=
  Germ.germHom_of_matsumoto npar_atoms.1 npar_atoms.2 (npar_joinCond _ band_rel) fun _ _ hP h => dlift_eq (nparGerm_P.1 hP) (red_iff_min.1 h)

theorem ncp_tr {p : Fin n × Fin n} (hp : p.1 < p.2) : NCP (tr p) :=
  nparGerm_P.1 ((nparGerm_le hp).2 (sameCycle_dcyc _ _))

theorem dlift_tr {p : Fin n × Fin n} (hp : p.1 < p.2) : dlift (tr p) = band n p.1 p.2 := by
  rw [dlift_eq (ncp_tr hp) (w := [p]) (red_iff_min.1 ⟨by simpa using hp, by simp, by simp [(nparGerm n).atom_len ⟨p, hp, rfl⟩]⟩)]; simp

theorem npar_D_ne (h : 2 ≤ n) : (nparGerm n).D ≠ 1 := by
  intro e
  have e : dcyc n = 1 := e
  have := dcyc_val (⟨0, by omega⟩ : Fin n)
  rw [e] at this; simp at this; omega

theorem map_ban {H K : Type} [Group H] [Group K] (φ : H →* K) (s : Nat → H) (a k : Nat) : φ (bnd s a k) = bnd (fun i => φ (s i)) a k := by
  induction k with
  | zero => rfl
  | succ k ih => simp only [bnd, map_mul, map_inv, ih]

/-- A family satisfying the band relations comes from a homomorphism of the braid group. -/
theorem BKLRel.exists_hom {H : Type} [Group H] {f : Fin n × Fin n → H} (R : BKLRel f) :
    ∃ φ : Braid n →* H, ∀ p : Fin n × Fin n, p.1 < p.2 → φ (band n p.1 p.2) = f p := by
  set s : Nat → H := fun i => if h : i + 1 < n then f (⟨i, by omega⟩, ⟨i + 1, h⟩) else 1 with hs
  have sv : ∀ i (h : i + 1 < n), s i = f (⟨i, by omega⟩, ⟨i + 1, h⟩) := fun i h => by rw [hs]; simp only [h, dif_pos]
  obtain ⟨φ, hφ⟩ := braid_lift (n := n) s
    (by
      intro i j hj h
      rw [sv i (by omega), sv j hj]
      by_cases e : i + 1 < j
      · exact R.side _ _ _ _ (by simp [Fin.lt_def]) (by simpa [Fin.lt_def] using e) (by simp [Fin.lt_def])
      · omega)
    (by
      intro i h
      rw [sv i (by omega), sv (i + 1) h]
      have t1 := R.tri1 (⟨i, by omega⟩ : Fin n) ⟨i + 1, by omega⟩ ⟨i + 1 + 1, h⟩ (by simp [Fin.lt_def]) (by simp [Fin.lt_def])
      have t2 := R.tri2 (⟨i, by omega⟩ : Fin n) ⟨i + 1, by omega⟩ ⟨i + 1 + 1, h⟩ (by simp [Fin.lt_def]) (by simp [Fin.lt_def])
      set x := f (⟨i, by omega⟩, ⟨i + 1, by omega⟩)
      set y := f (⟨i + 1, by omega⟩, ⟨i + 1 + 1, h⟩)
      set z := f (⟨i, by omega⟩, ⟨i + 1 + 1, h⟩)
      calc x * y * x = x * (y * x) := by group
        _ = x * (z * y) := by rw [t1]
        _ = (x * z) * y := by group
        _ = (y * x) * y := by rw [← t2, ← t1])
  refine ⟨φ, ?_⟩
  rintro ⟨a, b⟩ hab
  have hab : (a : Nat) < b := hab
  rw [band_eq hab, ban, map_ban]
  have key : ∀ k (b : Fin n), (b : Nat) = a + k + 1 → bnd (fun i => φ (sigma n i)) a k = f (a, b) := by
    intro k
    induction k with
    | zero =>
      intro b hb
      have h1 : (a : Nat) + 1 < n := by have := b.2; omega
      rw [bnd, hφ a h1, sv a h1]; congr 2; apply Fin.ext; simp only; omega
    | succ k ih =>
      intro b hb
      have h1 : (a : Nat) + k + 1 + 1 < n := by have := b.2; omega
      have e := ih ⟨a + k + 1, by omega⟩ rfl
      rw [bnd, e, hφ _ h1, sv _ h1, mul_inv_eq_iff_eq_mul]
      have hb' : f (a, b) = f (a, ⟨a + k + 1 + 1, h1⟩) := congrArg (fun x => f (a, x)) (Fin.ext (by simp only; omega))
      rw [hb']
      exact R.tri1 a ⟨a + k + 1, by omega⟩ ⟨a + k + 1 + 1, h1⟩ (by simp only [Fin.lt_def]; omega) (by simp [Fin.lt_def])
  exact key _ b (by omega)

theorem npar_faithful (hD : (nparGerm n).D ≠ 1) :
    ∃ φ : Braid n →* (Equiv.Perm (nparGerm n).X)ᵐᵒᵖ, ∀ x, (nparGerm n).P x → φ (dlift x) = Germ.act hD x := by
  have hom := Germ.act_germHom hD
  have key : ∀ (w : List (Fin n × Fin n)) (π : Perm (Fin n)), (nparGerm n).P π → Germ.Red (nparGerm n) (fun p => p.1 < p.2) tr w π →
      Germ.act hD π = (w.map fun p => Germ.act hD (tr p)).prod := by
    intro w
    induction w with
    | nil =>
      rintro π - ⟨-, h, -⟩
      rw [← h]; simpa using hom.one
    | cons i w ih =>
      intro π hP h
      have c := Germ.Red.cons (g := nparGerm n) npar_atoms.1 h
      rw [List.map_cons, List.prod_cons, ← ih _ ((nparGerm n).P_div c.1 hP) c.2]
      exact (hom.div c.1 hP).symm
  -- the action satisfies the band relations
  have rel : BKLRel (n := n) fun p => Germ.act hD (tr p) := by
    have eqw : ∀ w w' : List (Fin n × Fin n), (∀ s ∈ w, s.1 < s.2) → (∀ s ∈ w', s.1 < s.2) → w.length = w'.length →
        (w.map tr).prod = (w'.map tr).prod → rlen ((w.map tr).prod⁻¹ * dcyc n) + w.length = rlen (dcyc n) →
        (w.map fun p => Germ.act hD (tr p)).prod = (w'.map fun p => Germ.act hD (tr p)).prod := by
      intro w w' h1 h2 h3 h4 h5
      obtain ⟨hP, hR⟩ := red_of_walk h1 h5
      rw [← key w _ hP hR, ← key w' _ hP ⟨h2, h4.symm, by rw [← h3]; exact hR.2.2⟩]
    constructor
    · intro a b c h1 h2
      simpa using eqw [(b, c), (a, b)] [(a, c), (b, c)] (by simp [h1, h2]) (by simp [h2, h1.trans h2]) rfl
        (by simpa using tr_rel.tri1 a b c h1 h2) (tri_walk h1 h2 ncp_dcyc (sameCycle_dcyc _ _) (sameCycle_dcyc _ _))
    · intro a b c h1 h2
      have k := tri_walk h1 h2 ncp_dcyc (sameCycle_dcyc _ _) (sameCycle_dcyc _ _)
      have e1 := tr_rel.tri1 a b c h1 h2
      have e2 := tr_rel.tri2 a b c h1 h2
      simpa using eqw [(a, c), (b, c)] [(a, b), (a, c)] (by simp [h2, h1.trans h2]) (by simp [h1, h1.trans h2]) rfl
        (by simpa using e2) (by simpa [e1] using k)
    · intro a b c d h1 h2 h3
      simpa using eqw [(a, b), (c, d)] [(c, d), (a, b)] (by simp [h1, h3]) (by simp [h1, h3]) rfl
        (by simpa using tr_rel.side a b c d h1 h2 h3) (disj_walk h1 h3 (Or.inl h2) ncp_dcyc (sameCycle_dcyc _ _) (sameCycle_dcyc _ _))
    · intro a b c d h1 h2 h3
      have h4 := h1.trans (h2.trans h3)
      simpa using eqw [(a, d), (b, c)] [(b, c), (a, d)] (by simp [h2, h4]) (by simp [h2, h4]) rfl
        (by simpa using tr_rel.nest a b c d h1 h2 h3) (disj_walk h4 h2 (Or.inr (Or.inr ⟨h1, h3⟩)) ncp_dcyc (sameCycle_dcyc _ _) (sameCycle_dcyc _ _))
  obtain ⟨φ, hφ⟩ := rel.exists_hom
  refine ⟨φ, fun x hx => ?_⟩
  obtain ⟨w, hw⟩ := exists_transWord x
  rw [dlift_eq (nparGerm_P.1 hx) (red_iff_min.1 hw), key w x hx hw, map_list_prod, List.map_map]
  congr 1
  apply List.map_congr_left
  intro p hp
  exact hφ p (hw.1 p hp)

end Peyl
