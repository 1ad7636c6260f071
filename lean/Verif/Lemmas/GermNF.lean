import Verif.Lemmas.Germ
import Mathlib.Data.List.DropRight
import Mathlib.Algebra.Group.End
import Mathlib.Algebra.Group.Opposite
import Mathlib.Algebra.BigOperators.Group.List.Basic
/-!
# Canonical forms and the faithful realisation of a germ

`C (d, l)` is the canonical form of `D^d l₁ ⋯ l_k`.  Right multiplication by simple elements acts on canonical forms by
bijections and respects germ products; hence distinct canonical forms are distinct in any group through which this action
factors.
-/
namespace Peyl
namespace Germ
open Relation
variable {W : Type} [Group W] {g : Germ W}

theorem atom_ne_one {s : W} (h : g.atom s) : s ≠ 1 := fun e => by
  have := g.atom_len h; rw [e, g.len_one] at this; omega

theorem pairN_D (x : W) : g.PairN g.D x := fun s hs h _ => atom_ne_one hs (g.le_one (by simpa using h))
theorem pairN_one (x : W) : g.PairN x 1 := fun _ hs _ h => atom_ne_one hs (g.le_one h)

theorem nf_consD {l : List W} (hl : g.AllP l) : g.nf (g.D :: l) = g.D :: g.nf l := by
  refine nf_eq (by simp [hl, g.P_D]) ((nf_steps hl).cons _) ?_
  refine List.IsChain.cons (nf_nrm hl) fun y _ => pairN_D y

theorem nf_snoc1 {l : List W} (hl : g.AllP l) : g.nf (l ++ [1]) = g.nf l ++ [1] := by
  refine nf_eq (by simp [hl, g.P_one]) ((nf_steps hl).append _) ?_
  refine List.IsChain.append (nf_nrm hl) (by simp) ?_
  intro x _ y hy; simp at hy; subst hy; exact pairN_one x

theorem nf_repD {l : List W} (a : ℕ) (hl : g.AllP l) : g.nf (List.replicate a g.D ++ l) = List.replicate a g.D ++ g.nf l := by
  induction a with
  | zero => rfl
  | succ a ih =>
    rw [List.replicate_succ, List.cons_append, nf_consD, ih]; · rfl
    simp only [AllP_append]; exact ⟨fun x hx => (List.eq_of_mem_replicate hx) ▸ g.P_D, hl⟩

theorem allP_rep {x : W} (h : g.P x) (a : ℕ) : g.AllP (List.replicate a x) := fun _ hx => (List.eq_of_mem_replicate hx) ▸ h

theorem nf_rep1 {l : List W} (b : ℕ) (hl : g.AllP l) : g.nf (l ++ List.replicate b 1) = g.nf l ++ List.replicate b 1 := by
  induction b with
  | zero => simp
  | succ b ih =>
    rw [List.replicate_succ', ← List.append_assoc, nf_snoc1, ih, List.append_assoc]
    simp [hl, allP_rep g.P_one]

/-- `1, x → x, 1` through a block of ones. -/
theorem steps_one {x : W} (h : g.P x) (l : List W) : g.Steps (1 :: x :: l) (x :: 1 :: l) := by
  have := move (g := g) (l := l) (m := x) (x := 1) (y := x) g.P_one h (by rw [inv_one, one_mul]; exact h) (g.le_refl x)
  simpa using this

theorem steps_ones {x : W} (h : g.P x) (b : ℕ) : g.Steps (List.replicate b 1 ++ [x]) (x :: List.replicate b 1) := by
  induction b with
  | zero => exact .refl
  | succ b ih =>
    rw [List.replicate_succ, List.cons_append]
    exact (ih.cons 1).trans (by simpa using steps_one h _)

/-- A product of two simple elements which is simple: `x, y → x y, 1`. -/
theorem steps_mul {x y : W} (hx : g.P x) (hxy : g.P (x * y)) (h : g.le x (x * y)) (l : List W) :
    g.Steps (x :: y :: l) (x * y :: 1 :: l) := by
  have hy : g.le y (x⁻¹ * g.D) := (g.le_rc_iff hx).2 ⟨h, hxy⟩
  have := move (g := g) (l := l) (m := y) (x := x) (y := y) hx (g.P_of_le hy (g.P_rc hx)) hy (g.le_refl y)
  simpa using this

/-- `x, D → D, τ x`. -/
theorem steps_D {x : W} (hx : g.P x) (l : List W) : g.Steps (x :: g.D :: l) (g.D :: g.tau x :: l) := by
  have := move (g := g) (l := l) (m := x⁻¹ * g.D) (x := x) (y := g.D) hx g.P_D (g.le_refl _) (g.P_rc hx)
  rw [mul_inv_cancel_left, g.rc_rc] at this; exact this

theorem steps_snocD {l : List W} (hl : g.AllP l) : g.Steps (l ++ [g.D]) (g.D :: l.map g.tau) := by
  induction l with
  | nil => exact .refl
  | cons x l ih =>
    simp only [AllP_cons] at hl
    exact ((ih hl.2).cons x).trans (steps_D hl.1 _)

theorem atom_exists_of_not_pairN {x y : W} (hy : g.P y) {m : W} (hm : m ≠ 1) (h1 : g.le m (x⁻¹ * g.D)) (h2 : g.le m y) :
    ¬ g.PairN x y := fun h => by
  obtain ⟨s, hs, hsm⟩ := g.exists_atom hm (g.P_of_le h2 hy)
  exact h s hs (g.le_trans hsm h1) (g.le_trans hsm h2)

/-- Normal pairs have no nontrivial common divisor of complement and successor. -/
theorem PairN.eq_one {x y m : W} (h : g.PairN x y) (hy : g.P y) (h1 : g.le m (x⁻¹ * g.D)) (h2 : g.le m y) : m = 1 :=
  by_contra fun hm => atom_exists_of_not_pairN hy hm h1 h2 h

theorem pairN_iff {x y : W} (hy : g.P y) : g.PairN x y ↔ ∀ m, g.le m (x⁻¹ * g.D) → g.le m y → m = 1 :=
  ⟨fun h _ h1 h2 => h.eq_one hy h1 h2, fun h s hs h1 h2 => atom_ne_one hs (h s h1 h2)⟩

/-- The `D`-conjugate of a normal pair is normal. -/
theorem PairN.tau {x y : W} (hy : g.P y) (h : g.PairN x y) : g.PairN (g.tau x) (g.tau y) := by
  rw [pairN_iff (g.P_tau.2 hy)]
  intro m h1 h2
  have e : g.tau (g.D * m * g.D⁻¹) = m := by unfold Germ.tau; group
  have h3 : g.le (g.D * m * g.D⁻¹) y := by rw [← g.le_tau, e]; exact h2
  have h4 : g.le (g.D * m * g.D⁻¹) (x⁻¹ * g.D) := by
    rw [← g.le_tau, e, g.tau_mul, g.tau_inv, g.tau_D]; exact h1
  have := h.eq_one hy h4 h3
  rw [← e, this, g.tau_one]

theorem Nrm.tau {l : List W} (hl : g.AllP l) (h : g.Nrm l) : g.Nrm (l.map g.tau) := by
  induction l with
  | nil => simp [Nrm]
  | cons x l ih =>
    simp only [AllP_cons] at hl
    unfold Nrm at *
    rw [List.map_cons]
    rw [List.isChain_cons] at h
    refine List.IsChain.cons (ih hl.2 h.2) ?_
    intro y hy
    rw [List.head?_map, Option.mem_map] at hy
    obtain ⟨z, hz, rfl⟩ := hy
    exact (h.1 z hz).tau (hl.2 z (List.mem_of_mem_head? hz))

theorem allP_tau {l : List W} (h : g.AllP l) : g.AllP (l.map g.tau) := by
  intro x hx; obtain ⟨y, hy, rfl⟩ := List.mem_map.1 hx; exact g.P_tau.2 (h y hy)

/-- Properties of the stored data of a normal form object. -/
structure Canon (g : Germ W) (p : ℤ × List W) : Prop where
  allP : g.AllP p.2
  nrm : g.Nrm p.2
  head : p.2.head? ≠ some g.D
  last : p.2.getLast? ≠ some 1

open Classical in
/-- Cut leading `D`s and trailing identities. -/
noncomputable def strip (g : Germ W) (l : List W) : ℕ × List W :=
  ((l.takeWhile (fun x => decide (x = g.D))).length, (l.dropWhile (fun x => decide (x = g.D))).rdropWhile (fun x => decide (x = 1)))

theorem takeWhile_rep (l : List W) : ∃ a r, l = List.replicate a g.D ++ r ∧ r.head? ≠ some g.D := by
  induction l with
  | nil => exact ⟨0, [], rfl, by simp⟩
  | cons x l ih =>
    by_cases h : x = g.D
    · obtain ⟨a, r, h1, h2⟩ := ih
      exact ⟨a + 1, r, by rw [h1, h, List.replicate_succ]; rfl, h2⟩
    · exact ⟨0, x :: l, rfl, by simpa using h⟩

theorem rtake_rep (l : List W) : ∃ b m, l = m ++ List.replicate b 1 ∧ m.getLast? ≠ some 1 := by
  induction l using List.reverseRecOn with
  | nil => exact ⟨0, [], rfl, by simp⟩
  | append_singleton l x ih =>
    by_cases h : x = 1
    · obtain ⟨b, m, h1, h2⟩ := ih
      exact ⟨b + 1, m, by rw [h1, h, List.replicate_succ', List.append_assoc], h2⟩
    · exact ⟨0, l ++ [x], by simp, by simpa using h⟩

/-- Every list splits as `D^a m 1^b`. -/
theorem exists_split (g : Germ W) (l : List W) : ∃ a b m, l = List.replicate a g.D ++ m ++ List.replicate b 1 ∧
    m.head? ≠ some g.D ∧ m.getLast? ≠ some 1 := by
  obtain ⟨a, r, h1, h2⟩ := takeWhile_rep (g := g) l
  obtain ⟨b, m, h3, h4⟩ := rtake_rep r
  refine ⟨a, b, m, by rw [h1, h3, List.append_assoc], ?_, h4⟩
  cases m with
  | nil => simp
  | cons x m => rw [h3] at h2; simpa using h2

theorem strip_eq (hD : g.D ≠ 1) (a b : ℕ) (m : List W) (h1 : m.head? ≠ some g.D) (h2 : m.getLast? ≠ some 1) :
    g.strip (List.replicate a g.D ++ m ++ List.replicate b 1) = (a, m) := by
  classical
  unfold strip
  induction a with
  | zero =>
    simp only [List.replicate_zero, List.nil_append]
    have hd : (m ++ List.replicate b 1).head? ≠ some g.D := by
      cases m with
      | nil => cases b with
        | zero => simp
        | succ b => simpa [List.replicate_succ] using fun h => hD h.symm
      | cons x m => simpa using h1
    have t : (m ++ List.replicate b 1).takeWhile (fun x => decide (x = g.D)) = [] := by
      cases hm : m ++ List.replicate b 1 with
      | nil => rfl
      | cons x l => rw [hm] at hd; simp at hd; simp [hd]
    have d : (m ++ List.replicate b 1).dropWhile (fun x => decide (x = g.D)) = m ++ List.replicate b 1 := by
      cases hm : m ++ List.replicate b 1 with
      | nil => rfl
      | cons x l => rw [hm] at hd; simp at hd; simp [hd]
    rw [t, d]
    refine Prod.ext rfl ?_
    show (m ++ List.replicate b 1).rdropWhile _ = m
    clear t d hd
    induction b with
    | zero =>
      simp only [List.replicate_zero, List.append_nil]
      cases m using List.reverseRecOn with
      | nil => simp
      | append_singleton l x => simp at h2; simp [h2]
    | succ b ih =>
      rw [List.replicate_succ', ← List.append_assoc, List.rdropWhile_concat_pos _ _ _ (by simp)]; exact ih
  | succ a ih =>
    rw [List.replicate_succ, List.cons_append, List.cons_append]
    simp only [Prod.mk.injEq] at ih
    rw [List.takeWhile_cons_of_pos (by simp), List.dropWhile_cons_of_pos (by simp), List.length_cons, ih.1, ih.2]

/-- Canonical form of `D^d l₁ ⋯ l_k`. -/
noncomputable def C (g : Germ W) (p : ℤ × List W) : ℤ × List W :=
  (p.1 + (g.strip (g.nf p.2)).1, (g.strip (g.nf p.2)).2)

/-- The defining property of `C`. -/
theorem C_spec (hD : g.D ≠ 1) (d : ℤ) {l : List W} (hl : g.AllP l) :
    g.Canon (g.C (d, l)) ∧ ∃ a b : ℕ, g.nf l = List.replicate a g.D ++ (g.C (d, l)).2 ++ List.replicate b 1 ∧
      (g.C (d, l)).1 = d + a := by
  obtain ⟨a, b, m, h1, h2, h3⟩ := exists_split g (g.nf l)
  have hs := strip_eq hD a b m h2 h3
  rw [← h1] at hs
  have e : g.C (d, l) = (d + a, m) := by simp only [C, hs]
  rw [e]
  refine ⟨⟨?_, ?_, h2, h3⟩, a, b, h1, rfl⟩
  · have := nf_allP hl; rw [h1] at this; simp only [AllP_append] at this; exact this.1.2
  · have := nf_nrm hl; rw [h1] at this
    exact List.IsChain.right_of_append (List.IsChain.left_of_append this)

theorem C_eq (hD : g.D ≠ 1) (d : ℤ) {l : List W} (a b : ℕ) (m : List W)
    (h : g.nf l = List.replicate a g.D ++ m ++ List.replicate b 1) (h1 : m.head? ≠ some g.D) (h2 : m.getLast? ≠ some 1) :
    g.C (d, l) = (d + a, m) := by
  simp only [C]; rw [h, strip_eq hD a b m h1 h2]

theorem C_canon_eq (hD : g.D ≠ 1) {p : ℤ × List W} (h : g.Canon p) : g.C p = p := by
  have := C_eq hD p.1 (l := p.2) 0 0 p.2 (by rw [nf_of_nrm h.allP h.nrm]; simp) h.head h.last
  simpa using this

theorem C_congr {d : ℤ} {l l' : List W} (h : g.nf l = g.nf l') : g.C (d, l) = g.C (d, l') := by simp only [C, h]

theorem C_rep (hD : g.D ≠ 1) (d : ℤ) (a b : ℕ) {l : List W} (hl : g.AllP l) :
    g.C (d, List.replicate a g.D ++ l ++ List.replicate b 1) = g.C (d + a, l) := by
  obtain ⟨a', b', m, h1, h2, h3⟩ := exists_split g (g.nf l)
  have hal : g.AllP (List.replicate a g.D ++ l) := by simp [hl, allP_rep g.P_D]
  rw [C_eq hD (d + a) a' b' m h1 h2 h3, C_eq hD d (a + a') (b' + b) m _ h2 h3]
  · push_cast; rw [add_assoc]
  · rw [nf_rep1 _ hal, nf_repD _ hl, h1]
    rw [List.replicate_add, List.replicate_add]
    simp only [List.append_assoc]

/-- Multiplying the canonical form by a further simple factor. -/
theorem C_snoc (hD : g.D ≠ 1) (d : ℤ) {l : List W} (hl : g.AllP l) {x : W} (hx : g.P x) :
    g.C ((g.C (d, l)).1, (g.C (d, l)).2 ++ [x]) = g.C (d, l ++ [x]) := by
  obtain ⟨hc, a, b, h1, h2⟩ := C_spec hD d hl
  have hmP : g.AllP (g.C (d, l)).2 := hc.allP
  generalize (g.C (d, l)).2 = m at *
  have hlx : g.AllP (l ++ [x]) := by simp [hl, hx]
  have hm : g.AllP (m ++ [x]) := AllP_append.2 ⟨hmP, by simp [hx]⟩
  have s : g.Steps (l ++ [x]) (List.replicate a g.D ++ (m ++ [x]) ++ List.replicate b 1) := by
    have s1 := (nf_steps hl).append [x]
    rw [h1] at s1
    have s2 := (steps_ones hx b).prepend (List.replicate a g.D ++ m)
    refine s1.trans ?_
    simpa [List.append_assoc] using s2
  rw [C_congr (nf_of_steps hlx s), C_rep hD d a b hm, h2]

/-! ### The action -/

/-- Canonical forms as a type. -/
abbrev X (g : Germ W) := {p : ℤ × List W // g.Canon p}

theorem canon_nil (d : ℤ) : g.Canon (d, []) := ⟨by simp, by simp [Nrm], by simp, by simp⟩

open Classical in
/-- Right multiplication by a simple element. -/
noncomputable def rho (hD : g.D ≠ 1) (x : W) (p : g.X) : g.X :=
  if hx : g.P x then ⟨g.C (p.1.1, p.1.2 ++ [x]), (C_spec hD _ (by simp [hx, p.2.allP])).1⟩ else p

theorem rho_val (hD : g.D ≠ 1) {x : W} (hx : g.P x) (p : g.X) : (rho hD x p).1 = g.C (p.1.1, p.1.2 ++ [x]) := by
  rw [rho, dif_pos hx]

/-- Germ products are respected. -/
theorem rho_mul (hD : g.D ≠ 1) {x y : W} (hx : g.P x) (hxy : g.P (x * y)) (h : g.le x (x * y)) (p : g.X) :
    rho hD y (rho hD x p) = rho hD (x * y) p := by
  have hy : g.P y := by have := g.P_div h hxy; simpa using this
  apply Subtype.ext
  rw [rho_val hD hy, rho_val hD hxy, rho_val hD hx]
  rw [C_snoc hD _ (by simp [hx, p.2.allP]) hy]
  have hal : g.AllP (p.1.2 ++ [x] ++ [y]) := by simp [hx, hy, p.2.allP]
  have s : g.Steps (p.1.2 ++ [x] ++ [y]) (p.1.2 ++ [x * y] ++ [1]) := by
    have := (steps_mul hx hxy h []).prepend p.1.2
    simpa using this
  rw [C_congr (nf_of_steps hal s)]
  have := C_rep hD p.1.1 0 1 (l := p.1.2 ++ [x * y]) (by simp [hxy, p.2.allP])
  simpa using this

theorem rho_D (hD : g.D ≠ 1) (p : g.X) : (rho hD g.D p).1 = (p.1.1 + 1, p.1.2.map g.tau) := by
  rw [rho_val hD g.P_D]
  have hal : g.AllP (p.1.2 ++ [g.D]) := by simp [p.2.allP, g.P_D]
  have ht : g.AllP (p.1.2.map g.tau) := allP_tau p.2.allP
  rw [C_congr (nf_of_steps hal (steps_snocD p.2.allP))]
  have := C_rep hD p.1.1 1 0 ht
  simp only [List.replicate_one, List.replicate_zero, List.append_nil, List.cons_append, List.nil_append] at this
  rw [this]
  refine (C_eq hD _ 0 0 (p.1.2.map g.tau) ?_ ?_ ?_).trans (by simp)
  · rw [nf_of_nrm ht (p.2.nrm.tau p.2.allP)]; simp
  · intro h
    rw [List.head?_map] at h
    obtain ⟨z, hz, hz'⟩ := Option.map_eq_some_iff.1 h
    rw [← g.tau_D] at hz'
    exact p.2.head (by rw [hz, g.tau_injective hz'])
  · intro h
    rw [List.getLast?_map] at h
    obtain ⟨z, hz, hz'⟩ := Option.map_eq_some_iff.1 h
    rw [← g.tau_one] at hz'
    exact p.2.last (by rw [hz, g.tau_injective hz'])

theorem rho_D_bij (hD : g.D ≠ 1) : Function.Bijective (rho hD g.D) := by
  constructor
  · intro p q h
    have := congrArg Subtype.val h
    rw [rho_D, rho_D] at this
    apply Subtype.ext
    simp only [Prod.mk.injEq, add_left_inj] at this
    exact Prod.ext this.1 (List.map_injective_iff.2 g.tau_injective this.2)
  · intro q
    -- conjugate back
    have ti : ∀ z, g.tau (g.D * z * g.D⁻¹) = z := fun z => by unfold tau; group
    have hmap : (q.1.2.map fun z => g.D * z * g.D⁻¹).map g.tau = q.1.2 := by
      rw [List.map_map]; exact (List.map_congr_left (fun z _ => ti z)).trans (List.map_id _)
    have hP : ∀ z, g.P z → g.P (g.D * z * g.D⁻¹) := fun z hz => by rw [← g.P_tau, ti]; exact hz
    have hal : g.AllP (q.1.2.map fun z => g.D * z * g.D⁻¹) := by
      intro x hx; obtain ⟨y, hy, rfl⟩ := List.mem_map.1 hx; exact hP y (q.2.allP y hy)
    have hc : g.Canon (q.1.1 - 1, q.1.2.map fun z => g.D * z * g.D⁻¹) := by
      refine ⟨hal, ?_, ?_, ?_⟩
      · unfold Nrm
        refine List.isChain_map_of_isChain (R := fun a b => g.PairN a b ∧ g.P b) (S := g.PairN) _ ?_ ?_
        · rintro a b ⟨hab, hb⟩
          rw [pairN_iff (hP b hb)]
          intro m h1 h2
          have h1' := g.le_tau.2 h1
          have h2' := g.le_tau.2 h2
          rw [g.tau_mul, g.tau_inv, g.tau_D, ti] at h1'
          rw [ti] at h2'
          have := hab.eq_one hb h1' h2'
          rw [← g.tau_one] at this; exact g.tau_injective this
        · have := q.2.nrm
          unfold Nrm at this
          refine List.IsChain.imp_of_mem_imp ?_ this
          intro a b _ hb h; exact ⟨h, q.2.allP b hb⟩
      · intro h
        simp only [List.head?_map] at h
        obtain ⟨z, hz, hz'⟩ := Option.map_eq_some_iff.1 h
        apply q.2.head; rw [hz]
        have := congrArg g.tau hz'; rw [ti, g.tau_D] at this; rw [this]
      · intro h
        simp only [List.getLast?_map] at h
        obtain ⟨z, hz, hz'⟩ := Option.map_eq_some_iff.1 h
        apply q.2.last; rw [hz]
        have := congrArg g.tau hz'; rw [ti, g.tau_one] at this; rw [this]
    refine ⟨⟨_, hc⟩, Subtype.ext ?_⟩
    rw [rho_D]; simp only [hmap]; simp

theorem rho_bij (hD : g.D ≠ 1) {x : W} (hx : g.P x) : Function.Bijective (rho hD x) := by
  have h1 : rho hD (x⁻¹ * g.D) ∘ rho hD x = rho hD g.D := by
    funext p
    have := rho_mul hD (x := x) (y := x⁻¹ * g.D) hx (by rw [mul_inv_cancel_left]; exact g.P_D)
      (by rw [mul_inv_cancel_left]; exact hx) p
    rw [mul_inv_cancel_left] at this; exact this
  have h2 : rho hD x ∘ rho hD (g.D * x⁻¹) = rho hD g.D := by
    funext p
    have := rho_mul hD (x := g.D * x⁻¹) (y := x) (g.P_lc hx) (by rw [inv_mul_cancel_right]; exact g.P_D)
      (by rw [inv_mul_cancel_right]; exact g.P_lc hx) p
    rw [inv_mul_cancel_right] at this; exact this
  have hb := rho_D_bij (g := g) hD
  constructor
  · have := hb.1; rw [← h1] at this; exact Function.Injective.of_comp this
  · have := hb.2; rw [← h2] at this; exact Function.Surjective.of_comp this

open Classical in
/-- The realisation of the germ in a group: `β x` is right multiplication by `x`. -/
noncomputable def act (hD : g.D ≠ 1) (x : W) : (Equiv.Perm g.X)ᵐᵒᵖ :=
  if hx : g.P x then .op (Equiv.ofBijective _ (rho_bij hD hx)) else 1

theorem act_apply (hD : g.D ≠ 1) {x : W} (hx : g.P x) (p : g.X) : (act hD x).unop p = rho hD x p := by
  rw [act, dif_pos hx]; rfl

/-- A map to a group respecting germ products. -/
def GermHom (g : Germ W) {H : Type} [Group H] (β : W → H) : Prop :=
  ∀ x y, g.P x → g.P (x * y) → g.le x (x * y) → β (x * y) = β x * β y

theorem act_germHom (hD : g.D ≠ 1) : g.GermHom (act hD) := by
  intro x y hx hxy h
  have hy : g.P y := by have := g.P_div h hxy; simpa using this
  apply MulOpposite.unop_injective
  ext1 p
  rw [act_apply hD hxy, MulOpposite.unop_mul, Equiv.Perm.mul_apply, act_apply hD hx, act_apply hD hy]
  exact (rho_mul hD hx hxy h p).symm

/-- The element denoted by stored data. -/
def val (g : Germ W) {H : Type} [Group H] (β : W → H) (p : ℤ × List W) : H := β g.D ^ p.1 * (p.2.map β).prod

theorem act_list (hD : g.D ≠ 1) (l : List W) (hl : g.AllP l) (d : ℤ) (m : List W) (hm : g.AllP m) (p : g.X)
    (hp : p.1 = g.C (d, m)) : ((l.map (act hD)).prod.unop p).1 = g.C (d, m ++ l) := by
  induction l generalizing m p with
  | nil => simp [hp]
  | cons x l ih =>
    simp only [AllP_cons] at hl
    rw [List.map_cons, List.prod_cons, MulOpposite.unop_mul, Equiv.Perm.mul_apply, act_apply hD hl.1]
    rw [ih hl.2 (m ++ [x]) (by simp [hm, hl.1]) (rho hD x p) (by rw [rho_val hD hl.1, hp, C_snoc hD d hm hl.1])]
    simp

theorem act_D_pow (hD : g.D ≠ 1) (d : ℤ) : ((act hD g.D ^ d).unop ⟨(0, []), canon_nil 0⟩).1 = (d, []) := by
  have h1 : ∀ d : ℤ, (act hD g.D).unop ⟨(d, []), canon_nil d⟩ = ⟨(d + 1, []), canon_nil _⟩ := fun d => by
    rw [act_apply hD g.P_D]; apply Subtype.ext; rw [rho_D]; rfl
  have key : (act hD g.D ^ d).unop ⟨(0, []), canon_nil 0⟩ = ⟨(d, []), canon_nil d⟩ := by
    induction d using Int.induction_on with
    | zero => rfl
    | succ i ih => rw [zpow_add_one, MulOpposite.unop_mul, Equiv.Perm.mul_apply, ih, h1]
    | pred i ih =>
      rw [zpow_sub_one, MulOpposite.unop_mul, Equiv.Perm.mul_apply, ih, MulOpposite.unop_inv, Equiv.Perm.inv_eq_iff_eq, h1]
      congr 2; ring
  rw [key]

/-- Evaluating the realisation at the base point gives the canonical form. -/
theorem act_val (hD : g.D ≠ 1) (d : ℤ) {l : List W} (hl : g.AllP l) :
    ((g.val (act hD) (d, l)).unop ⟨(0, []), canon_nil 0⟩).1 = g.C (d, l) := by
  rw [val, MulOpposite.unop_mul, Equiv.Perm.mul_apply]
  have := act_list hD l hl d [] (by simp) ((act hD g.D ^ d).unop ⟨(0, []), canon_nil 0⟩)
    (by rw [act_D_pow, C_canon_eq hD (canon_nil d)])
  simpa using this

/-- Faithfulness for any group through which the action factors. -/
theorem C_eq_of_val (hD : g.D ≠ 1) {H : Type} [Group H] {β : W → H} (φ : H →* (Equiv.Perm g.X)ᵐᵒᵖ)
    (hφ : ∀ x, g.P x → φ (β x) = act hD x) {d e : ℤ} {l m : List W} (hl : g.AllP l) (hm : g.AllP m)
    (h : g.val β (d, l) = g.val β (e, m)) : g.C (d, l) = g.C (e, m) := by
  have key : ∀ (d : ℤ) (l : List W), g.AllP l → φ (g.val β (d, l)) = g.val (act hD) (d, l) := by
    intro d l hl
    rw [val, val, map_mul, map_zpow, hφ _ g.P_D, map_list_prod, List.map_map]
    congr 2
    exact List.map_congr_left fun x hx => hφ x (hl x hx)
  have := congrArg φ h
  rw [key _ _ hl, key _ _ hm] at this
  rw [← act_val hD d hl, ← act_val hD e hm, this]

/-- Moves do not change the value. -/
theorem Step.val {H : Type} [Group H] {β : W → H} (hβ : g.GermHom β) {l l' : List W} (h : g.Step l l') (hl : g.AllP l) :
    (l'.map β).prod = (l.map β).prod := by
  induction h with
  | @head s x y l hs h1 h2 =>
    simp only [AllP_cons] at hl
    have a := (g.le_rc_iff hl.1).1 h1
    have e1 := hβ x s hl.1 a.2 a.1
    have e2 := hβ s (s⁻¹ * y) (g.P_of_le h2 hl.2.1) (by simpa using hl.2.1) (by simpa using h2)
    rw [mul_inv_cancel_left] at e2
    simp only [List.map_cons, List.prod_cons, e1, e2, mul_assoc]
  | tail _ ih =>
    simp only [AllP_cons] at hl
    simp only [List.map_cons, List.prod_cons, ih hl.2]

theorem Steps.val {H : Type} [Group H] {β : W → H} (hβ : g.GermHom β) {l l' : List W} (h : g.Steps l l') (hl : g.AllP l) :
    (l'.map β).prod = (l.map β).prod := by
  induction h with
  | refl => rfl
  | tail h1 h ih => rw [h.val hβ (Steps.allP h1 hl), ih]

theorem GermHom.one {H : Type} [Group H] {β : W → H} (hβ : g.GermHom β) : β 1 = 1 := by
  have := hβ 1 1 g.P_one (by simpa using g.P_one) (by simpa using g.one_le 1)
  simpa using this

theorem GermHom.div {H : Type} [Group H] {β : W → H} (hβ : g.GermHom β) {x y : W} (h : g.le x y) (hy : g.P y) :
    β x * β (x⁻¹ * y) = β y := by
  have := hβ x (x⁻¹ * y) (g.P_of_le h hy) (by simpa using hy) (by simpa using h)
  rw [← this, mul_inv_cancel_left]

/-- `β D β(τ x) = β x β D`. -/
theorem GermHom.D_tau {H : Type} [Group H] {β : W → H} (hβ : g.GermHom β) {x : W} (hx : g.P x) :
    β g.D * β (g.tau x) = β x * β g.D := by
  have h1 := hβ.div hx g.P_D
  have h2 := hβ.div (g.P_rc hx) g.P_D
  rw [g.rc_rc] at h2
  calc β g.D * β (g.tau x) = β x * β (x⁻¹ * g.D) * β (g.tau x) := by rw [h1]
    _ = β x * β g.D := by rw [mul_assoc, h2]

/-- The canonical form has the same value. -/
theorem C_val (hD : g.D ≠ 1) {H : Type} [Group H] {β : W → H} (hβ : g.GermHom β) (d : ℤ) {l : List W} (hl : g.AllP l) :
    g.val β (g.C (d, l)) = g.val β (d, l) := by
  obtain ⟨_, a, b, h1, h2⟩ := C_spec hD d hl
  have h3 := (nf_steps hl).val hβ hl
  rw [h1] at h3
  simp only [List.map_append, List.prod_append, List.map_replicate, List.prod_replicate, hβ.one, one_pow, mul_one] at h3
  rw [val, val, h2, zpow_add, mul_assoc, zpow_natCast, ← h3]

/-- Equal-length lists with the same value have the same normal form. -/
theorem nf_eq_of_act (hD : g.D ≠ 1) {l m : List W} (hl : g.AllP l) (hm : g.AllP m) (hlen : l.length = m.length)
    (h : (l.map (act hD)).prod = (m.map (act hD)).prod) : g.nf l = g.nf m := by
  have hC : g.C (0, l) = g.C (0, m) := by
    rw [← act_val hD 0 hl, ← act_val hD 0 hm]; simp only [val, h]
  obtain ⟨_, a, b, h1, h2⟩ := C_spec hD 0 hl
  obtain ⟨_, a', b', h3, h4⟩ := C_spec hD 0 hm
  rw [hC] at h1 h2
  have ha : a = a' := by have := h2.symm.trans h4; omega
  have hb : b = b' := by
    have e1 := congrArg List.length h1
    have e2 := congrArg List.length h3
    rw [nf_length hl] at e1; rw [nf_length hm] at e2
    simp at e1 e2; omega
  rw [h1, h3, ha, hb]

/-! ### Domino rule -/

theorem Step.prod {l l' : List W} (h : g.Step l l') : l'.prod = l.prod := by
  induction h with
  | head => simp [mul_assoc]
  | tail _ ih => simp [ih]

theorem Steps.prod {l l' : List W} (h : g.Steps l l') : l'.prod = l.prod := by
  induction h with
  | refl => rfl
  | tail _ h ih => rw [← ih, h.prod]

theorem Steps.head_le {l l' : List W} (h : g.Steps l l') (hl : g.AllP l) {x : W} {r : List W} (e : l = x :: r) :
    ∃ y r', l' = y :: r' ∧ g.le x y := by
  induction h with
  | refl => exact ⟨x, r, e, g.le_refl x⟩
  | tail h1 h ih =>
    obtain ⟨y, r', rfl, hxy⟩ := ih
    have hP := Steps.allP h1 hl
    cases h with
    | head hs a b =>
      simp only [AllP_cons] at hP
      exact ⟨_, _, rfl, g.le_trans hxy ((g.le_rc_iff hP.1).1 a).1⟩
    | tail h => exact ⟨_, _, rfl, hxy⟩

/-- Complements of a normal pair, in reverse order, form a normal pair. -/
theorem PairN.comp {a b : W} (ha : g.P a) (hb : g.P b) (h : g.PairN a b) : g.PairN (b⁻¹ * g.D) (g.tau (a⁻¹ * g.D)) := by
  rw [pairN_iff (g.P_tau.2 (g.P_rc ha))]
  intro m h1 h2
  rw [g.rc_rc] at h1
  have e : g.tau (g.D * m * g.D⁻¹) = m := by unfold Germ.tau; group
  have h3 : g.le (g.D * m * g.D⁻¹) b := by rw [← g.le_tau, e]; exact h1
  have h4 : g.le (g.D * m * g.D⁻¹) (a⁻¹ * g.D) := by rw [← g.le_tau, e]; exact h2
  have := h.eq_one hb h4 h3
  rw [← e, this, g.tau_one]

/-- If `(a, b)` is normal and `a b d` divides `D²` then `b d` is simple. -/
theorem le_comp_of_sq (hD : g.D ≠ 1) {a b d f k : W} (ha : g.P a) (hb : g.P b) (hd : g.P d) (hf : g.P f) (hk : g.P k)
    (hn : g.PairN a b)
    (h : act hD a * act hD b * act hD d * act hD f * act hD k = act hD g.D * act hD g.D) : g.le d (b⁻¹ * g.D) := by
  have hβ := act_germHom (g := g) hD
  generalize hβe : act (g := g) hD = β at *
  have h1 : β a * β b * (β (b⁻¹ * g.D) * β (g.tau (a⁻¹ * g.D))) = β g.D * β g.D := by
    have e1 := hβ.div hb g.P_D
    have e2 := hβ.D_tau (g.P_rc ha)
    have e3 := hβ.div ha g.P_D
    calc β a * β b * (β (b⁻¹ * g.D) * β (g.tau (a⁻¹ * g.D))) = β a * (β b * β (b⁻¹ * g.D)) * β (g.tau (a⁻¹ * g.D)) := by
          simp only [mul_assoc]
      _ = β a * (β g.D * β (g.tau (a⁻¹ * g.D))) := by rw [e1, mul_assoc]
      _ = β g.D * β g.D := by rw [e2, ← mul_assoc, e3]
  have h2 : β d * (β f * β k) = β (b⁻¹ * g.D) * β (g.tau (a⁻¹ * g.D)) := by
    apply mul_left_cancel (a := β a * β b)
    rw [h1, ← h]; simp only [mul_assoc]
  have hP1 : g.AllP [d, f, k] := by simp [hd, hf, hk]
  have hP2 : g.AllP [b⁻¹ * g.D, g.tau (a⁻¹ * g.D), 1] := by simp [g.P_rc hb, g.P_tau.2 (g.P_rc ha), g.P_one]
  have h3 := nf_eq_of_act hD hP1 hP2 rfl (by rw [hβe]; simpa [hβ.one] using h2)
  rw [nf_of_nrm hP2 (by simp [Nrm, hn.comp ha hb, pairN_one])] at h3
  obtain ⟨y, r', e, hy⟩ := (nf_steps hP1).head_le hP1 rfl
  rw [h3] at e; simp at e; rw [e.1]; exact hy

/-- Second domino rule: combing a new factor leftwards through a normal list. -/
theorem domino (hD : g.D ≠ 1) {a b c b1 c1 a2 b2 : W} (ha : g.P a) (hb : g.P b) (hc : g.P c) (hn : g.PairN a b)
    (h1 : g.Steps [b, c] [b1, c1]) (hn1 : g.PairN b1 c1) (h2 : g.Steps [a, b1] [a2, b2]) : g.PairN b2 c1 := by
  have hβ := act_germHom (g := g) hD
  have hbc : g.AllP [b, c] := by simp [hb, hc]
  have p1 := h1.allP hbc
  simp only [AllP_cons] at p1
  have hab1 : g.AllP [a, b1] := by simp [ha, p1.1]
  have p2 := h2.allP hab1
  simp only [AllP_cons] at p2
  intro s hs s1 s2
  apply hn1 s hs _ s2
  have q := (g.le_rc_iff p2.2.1).1 s1
  have hsP := g.P_of_le s2 p1.2.1
  -- `b ≼ b1`
  obtain ⟨y, r', e, hy⟩ := h1.head_le hbc rfl
  simp at e
  rw [← e.1] at hy
  -- `m = b⁻¹ b1`, with `m c1 = c`
  have hbb1 : g.le b b1 := hy
  have e1 := h1.val hβ hbc
  have e2 := h2.val hβ hab1
  simp only [List.map_cons, List.map_nil, List.prod_cons, List.prod_nil, mul_one] at e1 e2
  -- `m s ≼ c`: compare normal forms
  have hm : g.le (b⁻¹ * b1) (b⁻¹ * g.D) := g.div_le_div hbb1 p1.1
  have hm1 : act hD (b⁻¹ * b1) * act hD c1 = act hD c := by
    have := hβ.div hbb1 p1.1
    apply mul_left_cancel (a := act hD b); rw [← mul_assoc, this, e1]
  have hmP : g.P (b⁻¹ * b1) := g.P_div hbb1 p1.1
  have hnf := nf_eq_of_act hD (l := [b⁻¹ * b1, c1]) (m := [c, 1]) (by simp [hmP, p1.2.1]) (by simp [hc, g.P_one]) rfl
    (by simp [hm1, hβ.one])
  rw [nf_of_nrm (l := [c, 1]) (by simp [hc, g.P_one]) (by simp [Nrm, pairN_one])] at hnf
  -- hence `m c1` is a germ product equal to `c`
  have hmc : g.Steps [b⁻¹ * b1, c1] [c, 1] := hnf ▸ nf_steps (by simp [hmP, p1.2.1])
  obtain ⟨z, rz, ez, hz⟩ := hmc.head_le (by simp [hmP, p1.2.1]) rfl
  simp at ez; rw [← ez.1] at hz
  have hc' : b⁻¹ * b1 * c1 = c := by have := hmc.prod; simpa using this.symm
  have hms : g.le (b⁻¹ * b1) (b⁻¹ * b1 * s) ∧ g.le (b⁻¹ * b1 * s) (b⁻¹ * b1 * c1) :=
    g.of_mul_le_mul (by rw [hc']; exact hz) s2
  have hdP : g.P (b⁻¹ * b1 * s) := g.P_of_le hms.2 (by rw [hc']; exact hc)
  have hfin := le_comp_of_sq hD (d := b⁻¹ * b1 * s) (f := (b2 * s)⁻¹ * g.D) (k := g.tau (a2⁻¹ * g.D)) ha hb hdP
    (g.P_rc q.2) (g.P_tau.2 (g.P_rc p2.1)) hn (by
      have f1 : act hD b * act hD (b⁻¹ * b1 * s) = act hD b1 * act hD s := by
        rw [hβ _ s hmP hdP hms.1, ← mul_assoc, hβ.div hbb1 p1.1]
      have f2 := hβ _ s p2.2.1 q.2 q.1
      have f3 := hβ.div q.2 g.P_D
      have f4 := hβ.D_tau (g.P_rc p2.1)
      have f5 := hβ.div p2.1 g.P_D
      calc act hD a * act hD b * act hD (b⁻¹ * b1 * s) * act hD ((b2 * s)⁻¹ * g.D) * act hD (g.tau (a2⁻¹ * g.D))
          = act hD a * (act hD b * act hD (b⁻¹ * b1 * s)) * act hD ((b2 * s)⁻¹ * g.D) * act hD (g.tau (a2⁻¹ * g.D)) := by
            simp only [mul_assoc]
        _ = (act hD a * act hD b1) * act hD s * act hD ((b2 * s)⁻¹ * g.D) * act hD (g.tau (a2⁻¹ * g.D)) := by
            rw [f1]; simp only [mul_assoc]
        _ = act hD a2 * (act hD b2 * act hD s) * act hD ((b2 * s)⁻¹ * g.D) * act hD (g.tau (a2⁻¹ * g.D)) := by
            rw [← e2]; simp only [mul_assoc]
        _ = act hD a2 * (act hD (b2 * s) * act hD ((b2 * s)⁻¹ * g.D)) * act hD (g.tau (a2⁻¹ * g.D)) := by
            rw [← f2]; simp only [mul_assoc]
        _ = act hD a2 * (act hD g.D * act hD (g.tau (a2⁻¹ * g.D))) := by rw [f3]; simp only [mul_assoc]
        _ = act hD g.D * act hD g.D := by rw [f4, ← mul_assoc, f5])
  -- translate `m s ≼ b*` into `s ≼ b1*`
  have hb' : g.le b (b * (b⁻¹ * b1 * s)) ∧ g.P (b * (b⁻¹ * b1 * s)) := (g.le_rc_iff hb).1 hfin
  have eb : b * (b⁻¹ * b1 * s) = b1 * s := by group
  rw [eb] at hb'
  rw [g.le_rc_iff p1.1]
  refine ⟨?_, hb'.2⟩
  have := (g.of_div_le_div hb'.1 (y := b1) (by rw [← mul_assoc]; exact hms.1)).2
  exact this

end Germ
end Peyl
