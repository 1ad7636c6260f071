import Verif.Lemmas.NFSpec
import Mathlib.Data.List.Nodup
/-!
# Enumeration, counting, sampling; infimum and supremum
-/
namespace Peyl
open Relation
variable {W : Type} [Group W] {T : Type}

namespace Germ
variable {g : Germ W}

theorem PairN.D_right {x : W} (hx : g.P x) (h : g.PairN x g.D) : x = g.D := by
  have := h.eq_one g.P_D (g.le_refl _) (g.P_rc hx)
  exact inv_mul_eq_one.1 this

theorem PairN.one_left {y : W} (hy : g.P y) (h : g.PairN 1 y) : y = 1 :=
  h.eq_one hy (by rw [inv_one, one_mul]; exact hy) (g.le_refl _)

/-- In a canonical list every factor is proper. -/
theorem Canon.proper {p : ℤ × List W} (h : g.Canon p) : ∀ x ∈ p.2, x ≠ g.D ∧ x ≠ 1 := by
  obtain ⟨d, l⟩ := p
  have hP := h.allP
  have hN := h.nrm
  have hh := h.head
  have hl := h.last
  simp only at hP hN hh hl ⊢
  clear h
  have key1 : ∀ l : List W, g.AllP l → g.Nrm l → l.head? ≠ some g.D → ∀ x ∈ l, x ≠ g.D := by
    intro l
    induction l with
    | nil => simp
    | cons x l ih =>
      intro hP hN hh y hy
      have hx : x ≠ g.D := by simpa using hh
      rcases List.mem_cons.1 hy with rfl | hy
      · exact hx
      · simp only [AllP_cons] at hP
        unfold Nrm at hN ih
        rw [List.isChain_cons] at hN
        refine ih hP.2 hN.2 ?_ y hy
        intro e
        exact hx (PairN.D_right hP.1 (hN.1 g.D e))
  have key2 : ∀ l : List W, g.AllP l → g.Nrm l → l.getLast? ≠ some 1 → ∀ x ∈ l, x ≠ 1 := by
    intro l
    induction l with
    | nil => simp
    | cons x l ih =>
      intro hP hN hl y hy
      simp only [AllP_cons] at hP
      unfold Nrm at hN ih
      rw [List.isChain_cons] at hN
      cases l with
      | nil => simp at hy hl; rw [hy]; exact hl
      | cons z l =>
        have hl' : (z :: l).getLast? ≠ some 1 := by simpa using hl
        have rest := ih hP.2 hN.2 hl'
        rcases List.mem_cons.1 hy with rfl | hy
        · rintro rfl
          have hz := PairN.one_left (hP.2 z (by simp)) (hN.1 z (by simp))
          exact rest z (by simp) hz
        · exact rest y hy
  exact fun x hx => ⟨key1 l hP hN hh x hx, key2 l hP hN hl x hx⟩

theorem canon_of_proper {d : ℤ} {l : List W} (hP : g.AllP l) (hN : g.Nrm l) (h : ∀ x ∈ l, x ≠ g.D ∧ x ≠ 1) :
    g.Canon (d, l) :=
  ⟨hP, hN, fun e => (h _ (List.mem_of_mem_head? e)).1 rfl, fun e => (h _ (List.mem_of_mem_getLast? e)).2 rfl⟩

end Germ

namespace TableSpec
variable {t : NFTable T} {g : Germ W} {v : Nat → W} (S : TableSpec t g v)
include S

/-- `normal_forms` after index `f`: exactly the lists of proper in-range factors forming a normal list after `f`. -/
theorem normalFormsFrom_spec (k : Nat) {f : Nat} (hf : f < t.order) :
    ∃ ws, t.normalFormsFrom k f = .ok ws ∧ ws.Nodup ∧
      ∀ w, w ∈ ws ↔ w.length = k ∧ InR t w ∧ g.Nrm (v f :: w.map v) ∧ ∀ x ∈ w, x ≠ t.id ∧ x ≠ t.D := by
  induction k generalizing f with
  | zero =>
    refine ⟨[[]], rfl, by simp, fun w => ?_⟩
    rw [List.mem_singleton, List.length_eq_zero_iff]
    constructor
    · rintro rfl; simp [Germ.Nrm]
    · exact fun h => h.1
  | succ k ih =>
    obtain ⟨xs, x1, x2, x3⟩ := S.follows f hf
    -- collect the recursive calls
    have coll : ∀ ys : List Nat, (∀ y ∈ ys, y < t.order) → ys.Nodup → ∃ rs, (ys.mapM fun x => do
        let r ← t.normalFormsFrom k x
        Except.ok (r.map (x :: ·))) = .ok rs ∧ rs.flatten.Nodup ∧
        ∀ w, w ∈ rs.flatten ↔ ∃ y ∈ ys, ∃ u, w = y :: u ∧ u.length = k ∧ InR t u ∧ g.Nrm (v y :: u.map v) ∧
          ∀ x ∈ u, x ≠ t.id ∧ x ≠ t.D := by
      intro ys
      induction ys with
      | nil => intro _ _; exact ⟨[], rfl, by simp, by simp⟩
      | cons y ys ihy =>
        intro hy hnd
        obtain ⟨ws, w1, w2, w3⟩ := ih (f := y) (hy y (by simp))
        obtain ⟨rs, r1, r2, r3⟩ := ihy (fun z hz => hy z (by simp [hz])) (List.nodup_cons.1 hnd).2
        refine ⟨ws.map (y :: ·) :: rs, ?_, ?_, ?_⟩
        · rw [List.mapM_cons, w1, bind_ok, bind_ok, r1]; rfl
        · rw [List.flatten_cons, List.nodup_append']
          refine ⟨w2.map (List.cons_injective), r2, ?_⟩
          intro w hw hw'
          obtain ⟨u, _, rfl⟩ := List.mem_map.1 hw
          obtain ⟨y', hy', u', e, _⟩ := (r3 _).1 hw'
          simp only [List.cons.injEq] at e
          exact (List.nodup_cons.1 hnd).1 (e.1 ▸ hy')
        · intro w
          rw [List.flatten_cons, List.mem_append, List.mem_map, r3]
          constructor
          · rintro (⟨u, hu, rfl⟩ | ⟨y', hy', rest⟩)
            · exact ⟨y, by simp, u, rfl, (w3 u).1 hu⟩
            · exact ⟨y', by simp [hy'], rest⟩
          · rintro ⟨y', hy', u, e, hu⟩
            rcases List.mem_cons.1 hy' with rfl | hy'
            · exact Or.inl ⟨u, (w3 u).2 hu, e.symm⟩
            · exact Or.inr ⟨y', hy', u, e, hu⟩
    obtain ⟨rs, r1, r2, r3⟩ := coll xs (fun y hy => ((x3 y).1 hy).1) x2
    refine ⟨rs.flatten, ?_, r2, fun w => ?_⟩
    · unfold NFTable.normalFormsFrom; rw [x1, bind_ok, r1]; rfl
    · rw [r3]
      constructor
      · rintro ⟨y, hy, u, rfl, u1, u2, u3, u4⟩
        obtain ⟨y1, y2, y3, y4⟩ := (x3 y).1 hy
        refine ⟨by simp [u1], by simp [y1, u2], ?_, ?_⟩
        · unfold Germ.Nrm at *; rw [List.map_cons, List.isChain_cons_cons]; exact ⟨y2, u3⟩
        · intro x hx; rcases List.mem_cons.1 hx with rfl | hx
          · exact ⟨y3, y4⟩
          · exact u4 x hx
      · rintro ⟨w1, w2, w3, w4⟩
        cases w with
        | nil => simp at w1
        | cons y u =>
          simp only [InR_cons] at w2
          unfold Germ.Nrm at *
          rw [List.map_cons, List.isChain_cons_cons] at w3
          refine ⟨y, (x3 y).2 ⟨w2.1, w3.1, w4 y (by simp)⟩, u, rfl, by simpa using w1, w2.2, w3.2, fun x hx => w4 x (by simp [hx])⟩

theorem opt_lt {f : Option Nat} (hf : ∀ i ∈ f, i < t.order) : f.getD t.D < t.order := by
  cases f with
  | none => exact S.D_lt
  | some i => exact hf i rfl

/-- The number of normal forms after `f`. -/
noncomputable def cnt (t : NFTable T) (k f : Nat) : Nat := match t.normalFormsFrom k f with | .ok ws => ws.length | .error _ => 0

theorem cnt_succ (k : Nat) {f : Nat} {xs : List Nat} (hx : lookup t.follows f = .ok xs) (hR : ∀ x ∈ xs, x < t.order) :
    cnt t (k + 1) f = (xs.map (cnt t k)).sum := by
  have coll : ∃ rs, (xs.mapM fun x => do
        let r ← t.normalFormsFrom k x
        Except.ok (r.map (x :: ·))) = .ok rs ∧ rs.flatten.length = (xs.map (cnt t k)).sum := by
    clear hx
    induction xs with
    | nil => exact ⟨[], rfl, rfl⟩
    | cons y ys ihy =>
      obtain ⟨ws, w1, -, -⟩ := S.normalFormsFrom_spec k (hR y (by simp))
      obtain ⟨rs, r1, r2⟩ := ihy (fun z hz => hR z (by simp [hz]))
      refine ⟨ws.map (y :: ·) :: rs, ?_, ?_⟩
      · rw [List.mapM_cons, w1, bind_ok, bind_ok, r1]; rfl
      · rw [List.flatten_cons, List.length_append, r2, List.map_cons, List.sum_cons, List.length_map, cnt, w1]
  obtain ⟨rs, r1, r2⟩ := coll
  rw [cnt, NFTable.normalFormsFrom, hx, bind_ok, r1]; exact r2

omit S in
theorem dictAdd_sum (F : Nat → Nat) (d : List (Nat × Nat)) (y c : Nat) :
    ((NFTable.dictAdd d y c).map fun p => p.2 * F p.1).sum = (d.map fun p => p.2 * F p.1).sum + c * F y := by
  induction d with
  | nil => simp [NFTable.dictAdd]
  | cons p d ih =>
    obtain ⟨z, k⟩ := p
    unfold NFTable.dictAdd
    split
    · rename_i h; subst h; simp; ring
    · simp only [List.map_cons, List.sum_cons, ih]; ring

omit S in
theorem dictAdd_keys (Q : Nat → Prop) (d : List (Nat × Nat)) (y c : Nat) (hd : ∀ p ∈ d, Q p.1) (hy : Q y) :
    ∀ p ∈ NFTable.dictAdd d y c, Q p.1 := by
  induction d with
  | nil => simp [NFTable.dictAdd, hy]
  | cons p d ih =>
    obtain ⟨z, k⟩ := p
    unfold NFTable.dictAdd
    intro q hq
    split at hq
    · rcases List.mem_cons.1 hq with rfl | hq
      · exact hd (z, k) (by simp)
      · exact hd q (by simp [hq])
    · rcases List.mem_cons.1 hq with rfl | hq
      · exact hd (z, k) (by simp)
      · exact ih (fun p hp => hd p (by simp [hp])) q hq

theorem countStep_spec (counts : List (Nat × Nat)) (h : ∀ p ∈ counts, p.1 < t.order) (k : Nat) :
    ∃ c', t.countStep counts = .ok c' ∧ (∀ p ∈ c', p.1 < t.order) ∧
      (c'.map fun p => p.2 * cnt t k p.1).sum = (counts.map fun p => p.2 * cnt t (k + 1) p.1).sum := by
  unfold NFTable.countStep
  suffices H : ∀ acc : List (Nat × Nat), (∀ p ∈ acc, p.1 < t.order) → ∃ c', counts.foldlM (init := acc) (fun acc xc => do
      let ys ← lookup t.follows xc.1
      Except.ok (ys.foldl (fun acc y => NFTable.dictAdd acc y xc.2) acc)) = .ok c' ∧ (∀ p ∈ c', p.1 < t.order) ∧
      (c'.map fun p => p.2 * cnt t k p.1).sum =
        (acc.map fun p => p.2 * cnt t k p.1).sum + (counts.map fun p => p.2 * cnt t (k + 1) p.1).sum by
    simpa using H [] (by simp)
  induction counts with
  | nil => intro acc hacc; exact ⟨acc, rfl, hacc, by simp⟩
  | cons xc counts ih =>
    intro acc hacc
    obtain ⟨ys, y1, y2, y3⟩ := S.follows xc.1 (h xc (by simp))
    have hR : ∀ y ∈ ys, y < t.order := fun y hy => ((y3 y).1 hy).1
    have inner : ∀ (ys : List Nat) (acc : List (Nat × Nat)), (∀ y ∈ ys, y < t.order) → (∀ p ∈ acc, p.1 < t.order) →
        (∀ p ∈ ys.foldl (fun acc y => NFTable.dictAdd acc y xc.2) acc, p.1 < t.order) ∧
        ((ys.foldl (fun acc y => NFTable.dictAdd acc y xc.2) acc).map fun p => p.2 * cnt t k p.1).sum =
          (acc.map fun p => p.2 * cnt t k p.1).sum + xc.2 * (ys.map (cnt t k)).sum := by
      intro ys
      induction ys with
      | nil => intro acc _ h; exact ⟨h, by simp⟩
      | cons y ys ih' =>
        intro acc hy hacc
        have := ih' (NFTable.dictAdd acc y xc.2) (fun z hz => hy z (by simp [hz]))
          (dictAdd_keys (· < t.order) acc y xc.2 hacc (hy y (by simp)))
        refine ⟨this.1, ?_⟩
        rw [List.foldl_cons, this.2, dictAdd_sum, List.map_cons, List.sum_cons]; ring
    obtain ⟨i1, i2⟩ := inner ys acc hR hacc
    obtain ⟨c', c1, c2, c3⟩ := ih (fun p hp => h p (by simp [hp])) _ i1
    refine ⟨c', ?_, c2, ?_⟩
    · rw [List.foldlM_cons, y1, bind_ok, bind_ok]; exact c1
    · rw [c3, i2, List.map_cons, List.sum_cons, S.cnt_succ k y1 hR]; ring

theorem count_spec (k : Nat) (f : Option Nat) (hf : ∀ i ∈ f, i < t.order) :
    ∃ ws, t.normalForms k f = .ok ws ∧ t.countNormalForms k f = .ok ws.length := by
  have hf' := S.opt_lt hf
  obtain ⟨ws, w1, -, -⟩ := S.normalFormsFrom_spec k hf'
  refine ⟨ws, w1, ?_⟩
  have hc : cnt t k (f.getD t.D) = ws.length := by rw [cnt, w1]
  unfold NFTable.countNormalForms
  by_cases hk : k = 0
  · subst hk; rw [if_pos rfl]; cases w1; rfl
  rw [if_neg hk]
  obtain ⟨xs, x1, x2, x3⟩ := S.follows _ hf'
  have hR : ∀ y ∈ xs, y < t.order := fun y hy => ((x3 y).1 hy).1
  rw [x1, bind_ok]
  have loop : ∀ (m j : Nat) (c : List (Nat × Nat)), (∀ p ∈ c, p.1 < t.order) → ∃ c',
      (List.range' j m).foldlM (init := c) (fun counts _ => t.countStep counts) = .ok c' ∧
      (c'.map (·.2)).sum = (c.map fun p => p.2 * cnt t m p.1).sum := by
    intro m
    induction m with
    | zero =>
      intro j c _; refine ⟨c, rfl, ?_⟩
      congr 1; apply List.map_congr_left; intro p _; simp [cnt, NFTable.normalFormsFrom]
    | succ m ih =>
      intro j c hcR
      obtain ⟨c1, e1, e2, e3⟩ := S.countStep_spec c hcR m
      obtain ⟨c2, e4, e5⟩ := ih (j + 1) c1 e2
      exact ⟨c2, by rw [List.range'_succ, List.foldlM_cons, e1]; exact e4, by rw [e5, e3]⟩
  obtain ⟨c', l1, l2⟩ := loop (k - 1) 0 (xs.dedup.map fun x => (x, 1)) (by
    intro p hp; obtain ⟨x, hx, rfl⟩ := List.mem_map.1 hp; exact hR x (List.mem_dedup.1 hx))
  rw [List.range_eq_range', l1, bind_ok, l2, ← hc]
  obtain ⟨k, rfl⟩ : ∃ m, k = m + 1 := ⟨k - 1, by omega⟩
  rw [S.cnt_succ k x1 hR, x2.dedup, List.map_map]
  congr 2
  apply List.map_congr_left; intro x _; simp

end TableSpec

namespace Germ
variable {g : Germ W}

/-- A nontrivial simple element ends in an atom. -/
theorem exists_right_atom (hsq : ∀ s, g.atom s → s * s = 1) {x : W} (hx : g.P x) (h1 : x ≠ 1) :
    ∃ s, g.atom s ∧ g.P s ∧ g.len (x * s) + 1 = g.len x := by
  induction hn : g.len x using Nat.strong_induction_on generalizing x with
  | _ N ih =>
    obtain ⟨s, hs, hsx⟩ := g.exists_atom h1 hx
    have hsx : g.le s x := hsx
    have hs1 := g.atom_len hs
    by_cases h2 : s⁻¹ * x = 1
    · have : x = s := (inv_mul_eq_one.1 h2).symm
      refine ⟨s, hs, this ▸ hx, ?_⟩
      rw [this, hsq s hs, g.len_one, ← hn, this, hs1]
    · obtain ⟨r, hr, hrP, hr'⟩ := ih (g.len (s⁻¹ * x)) (by unfold le at hsx; omega) (g.P_div hsx hx) h2 rfl
      refine ⟨r, hr, hrP, ?_⟩
      have a := g.len_mul_le s (s⁻¹ * x * r)
      have b := g.len_mul_le (x * r) r
      rw [mul_assoc x r r, hsq r hr, mul_one, g.atom_len hr] at b
      have e : s * (s⁻¹ * x * r) = x * r := by group
      rw [e] at a
      unfold le at hsx; omega

/-- Every nontrivial simple element is followed by some atom in a normal pair. -/
theorem exists_follower (hsq : ∀ s, g.atom s → s * s = 1) {x : W} (hx : g.P x) (h1 : x ≠ 1) :
    ∃ s, g.atom s ∧ g.P s ∧ g.PairN x s := by
  obtain ⟨s, hs, hsP, hlen⟩ := exists_right_atom hsq hx h1
  refine ⟨s, hs, hsP, ?_⟩
  intro r hr r1 r2
  have hrs : r = s := by
    have : g.len (r⁻¹ * s) = 0 := by have := g.atom_len hr; have := g.atom_len hs; unfold le at r2; omega
    exact inv_mul_eq_one.1 (g.len_eq_zero.1 this)
  subst hrs
  have := (g.le_mul).1 ((g.le_rc_iff hx).1 r1).1
  have := g.atom_len hr
  omega

end Germ

namespace NFReal
variable {tbl : Nat → Except Err (NFTable T)} {n : Nat} {t : NFTable T} {g : Germ W} {v : Nat → W} {β : W → Braid n}
variable (R : NFReal tbl n t g v β)
open TableSpec
include R

theorem canon_iff (d : ℤ) {w : List Nat} (h : InR t w) : g.Canon (d, w.map v) ↔ g.Nrm (w.map v) ∧ ∀ x ∈ w, x ≠ t.id ∧ x ≠ t.D := by
  constructor
  · intro hc
    refine ⟨hc.nrm, fun x hx => ?_⟩
    have := hc.proper (v x) (List.mem_map_of_mem hx)
    rw [Ne, Ne, R.spec.id_eq (h x hx), R.spec.D_eq (h x hx)]; exact ⟨this.2, this.1⟩
  · rintro ⟨h1, h2⟩
    refine Germ.canon_of_proper (R.spec.allP h) h1 fun y hy => ?_
    obtain ⟨x, hx, rfl⟩ := List.mem_map.1 hy
    have := h2 x hx
    rw [Ne, Ne, R.spec.id_eq (h x hx), R.spec.D_eq (h x hx)] at this; exact ⟨this.2, this.1⟩

theorem valid_iff {x : NF} : Valid t n x ↔ x.n = n ∧ InR t x.factors ∧ g.Nrm (x.factors.map v) ∧
    ∀ f ∈ x.factors, f ≠ t.id ∧ f ≠ t.D := by
  constructor
  · intro h
    exact ⟨h.n_eq, h.inR, (R.canon_iff x.power h.inR).1 (R.canon h)⟩
  · rintro ⟨h1, h2, h3⟩
    have := (R.make_ok h2 ((R.canon_iff x.power h2).2 h3)).2
    exact ⟨h1, h2, this.norm⟩

omit R in
theorem nrm_consD {l : List W} : g.Nrm (g.D :: l) ↔ g.Nrm l := by
  unfold Germ.Nrm; rw [List.isChain_cons]
  exact ⟨fun h => h.2, fun h => ⟨fun y _ => Germ.pairN_D y, h⟩⟩

/-- Mapping the constructor over lists which are canonical always succeeds. -/
theorem mapM_make (ws : List (List Nat)) (d : ℤ) (f : List Nat → List Nat) (h : ∀ w ∈ ws, Valid t n ⟨n, d, f w⟩) :
    ws.mapM (fun w => NF.make tbl n d (f w)) = .ok (ws.map fun w => ⟨n, d, f w⟩) := by
  induction ws with
  | nil => rfl
  | cons w ws ih =>
    have hw := h w (by simp)
    rw [List.mapM_cons, (R.make_ok hw.inR (R.canon hw)).1, bind_ok, ih (fun u hu => h u (by simp [hu]))]; rfl

theorem allOfLength_spec (k : Nat) (d : ℤ) : ∃ xs, NF.allOfLength tbl n k d = .ok xs ∧ xs.Nodup ∧
    (∀ x, x ∈ xs ↔ Valid t n x ∧ x.power = d ∧ x.factors.length = k) ∧ NF.countAllOfLength tbl n k = .ok xs.length := by
  obtain ⟨ws, w1, w2⟩ := R.spec.count_spec k none (by simp)
  obtain ⟨ws', a1, a2, a3⟩ := R.spec.normalFormsFrom_spec k R.spec.D_lt
  have : ws' = ws := by
    have h : t.normalForms k none = t.normalFormsFrom k t.D := rfl
    rw [h, a1] at w1; cases w1; rfl
  subst this
  have hv : ∀ w, w ∈ ws' ↔ w.length = k ∧ Valid t n ⟨n, d, w⟩ := by
    intro w
    rw [a3, R.valid_iff, R.spec.v_D, nrm_consD]; simp
  refine ⟨ws'.map fun w => ⟨n, d, w⟩, ?_, ?_, ?_, ?_⟩
  · unfold NF.allOfLength
    rw [R.ok, bind_ok, w1, bind_ok]
    exact R.mapM_make ws' d id fun w hw => ((hv w).1 hw).2
  · exact a2.map fun a b h => by simpa using h
  · intro x
    rw [List.mem_map]
    constructor
    · rintro ⟨w, hw, rfl⟩; exact ⟨((hv w).1 hw).2, rfl, ((hv w).1 hw).1⟩
    · rintro ⟨h1, h2, h3⟩
      refine ⟨x.factors, (hv _).2 ⟨h3, ?_⟩, ?_⟩
      · exact ⟨rfl, h1.inR, h1.norm⟩
      · cases x; have := h1.n_eq; simp_all
  · unfold NF.countAllOfLength; rw [R.ok, bind_ok, w2, List.length_map]

theorem last_lt {x : NF} (hx : Valid t n x) : ∀ i ∈ x.factors.getLast?, i < t.order :=
  fun i hi => hx.inR i (List.mem_of_mem_getLast? hi)

omit R in
theorem nrm_append_last {l m : List W} : g.Nrm (l ++ m) ↔ g.Nrm l ∧ g.Nrm (l.getLast?.getD g.D :: m) := by
  cases l using List.reverseRecOn with
  | nil => simp only [List.nil_append, List.getLast?_nil, Option.getD_none]; rw [nrm_consD]; simp [Germ.Nrm]
  | append_singleton l x =>
    simp only [List.getLast?_append, List.getLast?_singleton, Option.some_or, Option.getD_some]
    unfold Germ.Nrm
    rw [List.append_assoc, List.singleton_append]
    exact List.isChain_split

/-- What `normal_forms` yields after the last factor of an object. -/
theorem suffix_spec {x : NF} (hx : Valid t n x) (k : Nat) : ∃ ws, t.normalForms k x.factors.getLast? = .ok ws ∧ ws.Nodup ∧
    t.countNormalForms k x.factors.getLast? = .ok ws.length ∧
    ∀ w, w ∈ ws ↔ w.length = k ∧ Valid t n ⟨n, x.power, x.factors ++ w⟩ := by
  obtain ⟨ws, w1, w2⟩ := R.spec.count_spec k _ (R.last_lt hx)
  obtain ⟨ws', a1, a2, a3⟩ := R.spec.normalFormsFrom_spec k (R.spec.opt_lt (R.last_lt hx))
  have : ws' = ws := by
    have h : t.normalForms k x.factors.getLast? = t.normalFormsFrom k (x.factors.getLast?.getD t.D) := rfl
    rw [h, a1] at w1; cases w1; rfl
  subst this
  refine ⟨ws', w1, a2, w2, fun w => ?_⟩
  have hxv := R.valid_iff.1 hx
  have hlast : v (x.factors.getLast?.getD t.D) = (x.factors.map v).getLast?.getD g.D := by
    rw [List.getLast?_map]; cases x.factors.getLast? with
    | none => simp [R.spec.v_D]
    | some i => simp
  rw [a3, R.valid_iff, hlast]
  simp only [InR_append, List.map_append, List.mem_append]
  rw [nrm_append_last]
  constructor
  · rintro ⟨b1, b2, b3, b4⟩
    exact ⟨b1, trivial, ⟨hx.inR, b2⟩, ⟨hxv.2.2.1, b3⟩, fun f hf => hf.elim (hxv.2.2.2 f) (b4 f)⟩
  · rintro ⟨b1, -, b2, b3, b4⟩
    exact ⟨b1, b2.2, b3.2, fun f hf => b4 f (Or.inr hf)⟩

theorem valid_suffix {d e : ℤ} {l w : List Nat} (h : Valid t n ⟨n, d, l ++ w⟩) : Valid t n ⟨n, e, w⟩ := by
  rw [R.valid_iff] at h ⊢
  simp only [InR_append, List.map_append, List.mem_append] at h ⊢
  exact ⟨trivial, h.2.1.2, List.IsChain.right_of_append h.2.2.1, fun f hf => h.2.2.2 f (Or.inr hf)⟩

theorem nfDescendants_spec {x : NF} (hx : Valid t n x) : ∃ xs, NF.nfDescendants tbl x = .ok xs ∧ xs.Nodup ∧
    ∀ y, y ∈ xs ↔ Valid t n y ∧ y.power = x.power ∧ ∃ f, y.factors = x.factors ++ [f] := by
  obtain ⟨ws, w1, w2, -, w3⟩ := R.suffix_spec hx 1
  refine ⟨ws.map fun w => ⟨n, x.power, x.factors ++ w⟩, ?_, ?_, fun y => ?_⟩
  · unfold NF.nfDescendants; rw [hx.n_eq, R.ok, bind_ok, w1, bind_ok]
    exact R.mapM_make ws x.power (x.factors ++ ·) fun w hw => ((w3 w).1 hw).2
  · exact w2.map fun a b h => by simpa using h
  · rw [List.mem_map]
    constructor
    · rintro ⟨w, hw, rfl⟩
      obtain ⟨h1, h2⟩ := (w3 w).1 hw
      obtain ⟨f, rfl⟩ := List.length_eq_one_iff.1 h1
      exact ⟨h2, rfl, f, rfl⟩
    · rintro ⟨h1, h2, f, h3⟩
      have e : (⟨n, x.power, x.factors ++ [f]⟩ : NF) = y := by cases y; have := h1.n_eq; simp_all
      refine ⟨[f], (w3 _).2 ⟨rfl, ?_⟩, e⟩
      rw [e]; exact h1

theorem nfSuffixes_spec {x : NF} (hx : Valid t n x) (k : Nat) : ∃ ys, NF.nfSuffixes tbl x k = .ok ys ∧ ys.Nodup ∧
    ∀ y, y ∈ ys ↔ Valid t n y ∧ y.power = x.power ∧ y.factors.length = k ∧ Valid t n ⟨n, x.power, x.factors ++ y.factors⟩ := by
  obtain ⟨ws, w1, w2, -, w3⟩ := R.suffix_spec hx k
  refine ⟨ws.map fun w => ⟨n, x.power, w⟩, ?_, ?_, fun y => ?_⟩
  · unfold NF.nfSuffixes; rw [hx.n_eq, R.ok, bind_ok, w1, bind_ok]
    exact R.mapM_make ws x.power id fun w hw => R.valid_suffix ((w3 w).1 hw).2
  · exact w2.map fun a b h => by simpa using h
  · rw [List.mem_map]
    constructor
    · rintro ⟨w, hw, rfl⟩
      obtain ⟨h1, h2⟩ := (w3 w).1 hw
      exact ⟨R.valid_suffix h2, rfl, h1, h2⟩
    · rintro ⟨h1, h2, h3, h4⟩
      refine ⟨y.factors, (w3 _).2 ⟨h3, h4⟩, ?_⟩
      cases y; have := h1.n_eq; simp_all

/-- A product without cancellation is concatenation, and conversely. -/
theorem mul_concat_iff {x y : NF} (hx : Valid t n x) (hy : Valid t n y) (hp : y.power = 0) :
    NF.mul tbl x y = .ok ⟨n, x.power, x.factors ++ y.factors⟩ ↔ Valid t n ⟨n, x.power, x.factors ++ y.factors⟩ := by
  obtain ⟨z, z1, z2, z3⟩ := R.mul_spec hx hy
  constructor
  · intro h; rw [z1] at h; cases h; exact z2
  · intro h
    rw [z1, R.den_inj z2 h]
    rw [z3]; unfold den Germ.val; simp [hp, mul_assoc]

/-! ### Sampling -/

/-- Extensibility: every nontrivial simple element has a proper follower as soon as no atom is `D`. -/
theorem follows_ne_nil (hD : ∀ s, g.atom s → s ≠ g.D) (hat : ∃ s, g.atom s ∧ g.P s) {f : Nat} (hf : f < t.order) (h1 : f ≠ t.id) :
    ∃ xs, lookup t.follows f = .ok xs ∧ xs ≠ [] := by
  obtain ⟨xs, x1, x2, x3⟩ := R.spec.follows f hf
  refine ⟨xs, x1, ?_⟩
  rw [Ne, R.spec.id_eq hf] at h1
  obtain ⟨s, hs, hsP, hN⟩ := Germ.exists_follower R.atom_sq (R.spec.simple f hf) h1
  obtain ⟨j, hj, rfl⟩ := R.spec.surj s hsP
  have : j ∈ xs := (x3 j).2 ⟨hj, hN, by rw [Ne, R.spec.id_eq hj]; exact Germ.atom_ne_one hs, by rw [Ne, R.spec.D_eq hj]; exact hD _ hs⟩
  exact List.ne_nil_of_mem this

theorem sampleLoop_spec (hD : ∀ s, g.atom s → s ≠ g.D) (hat : ∃ s, g.atom s ∧ g.P s) (ω : Nat → Nat) (k i : Nat) {f : Nat}
    (hf : f < t.order) (h1 : f ≠ t.id) :
    ∃ w, t.sampleLoop ω k i f = .ok w ∧ w.length = k ∧ InR t w ∧ g.Nrm (v f :: w.map v) ∧ ∀ x ∈ w, x ≠ t.id ∧ x ≠ t.D := by
  induction k generalizing i f with
  | zero => exact ⟨[], rfl, rfl, by simp, by simp [Germ.Nrm], by simp⟩
  | succ k ih =>
    obtain ⟨xs, x1, x2⟩ := R.follows_ne_nil hD hat hf h1
    obtain ⟨xs', y1, y2, y3⟩ := R.spec.follows f hf
    rw [x1] at y1; cases y1
    have hlt : ω i % xs.length < xs.length := Nat.mod_lt _ (List.length_pos_iff.2 x2)
    have hm := (y3 _).1 (List.getElem_mem hlt)
    obtain ⟨w, w1, w2, w3, w4, w5⟩ := ih (i + 1) hm.1 hm.2.2.1
    refine ⟨xs[ω i % xs.length] :: w, ?_, by simp [w2], by simp [w3, hm.1], ?_, ?_⟩
    · unfold NFTable.sampleLoop; rw [x1, bind_ok, lookup_lt hlt, bind_ok, w1]; rfl
    · unfold Germ.Nrm at *; rw [List.map_cons, List.isChain_cons_cons]; exact ⟨hm.2.1, w4⟩
    · intro x hx; rcases List.mem_cons.1 hx with rfl | hx
      · exact hm.2.2
      · exact w5 x hx

theorem sampleLoop_surj (k : Nat) {f : Nat} (hf : f < t.order) (w : List Nat) (hw : w.length = k) (h1 : InR t w)
    (h2 : g.Nrm (v f :: w.map v)) (h3 : ∀ x ∈ w, x ≠ t.id ∧ x ≠ t.D) : ∃ ω : Nat → Nat, ∀ i, t.sampleLoop (fun j => ω (j - i)) k i f = .ok w := by
  induction k generalizing f w with
  | zero => cases w with | nil => exact ⟨fun _ => 0, fun _ => rfl⟩ | cons => simp at hw
  | succ k ih =>
    cases w with
    | nil => simp at hw
    | cons x w =>
      simp only [InR_cons] at h1
      unfold Germ.Nrm at h2
      rw [List.map_cons, List.isChain_cons_cons] at h2
      obtain ⟨xs, y1, y2, y3⟩ := R.spec.follows f hf
      have hm : x ∈ xs := (y3 x).2 ⟨h1.1, h2.1, h3 x (by simp)⟩
      obtain ⟨p, hp, e⟩ := List.getElem_of_mem hm
      obtain ⟨ω, hω⟩ := ih h1.1 w (by simpa using hw) h1.2 h2.2 (fun y hy => h3 y (by simp [hy]))
      refine ⟨fun j => if j = 0 then p else ω (j - 1), fun i => ?_⟩
      unfold NFTable.sampleLoop
      rw [y1, bind_ok]
      have e1 : (if i - i = 0 then p else ω (i - i - 1)) % xs.length = p := by
        rw [if_pos (by omega)]; exact Nat.mod_eq_of_lt hp
      rw [e1, lookup_lt hp, bind_ok, e]
      have e2 : t.sampleLoop (fun j => if j - i = 0 then p else ω (j - i - 1)) k (i + 1) x = .ok w := by
        rw [← hω (i + 1)]
        have congrω : ∀ (k i' : Nat) (f : Nat) (ω1 ω2 : Nat → Nat), (∀ j, i' ≤ j → ω1 j = ω2 j) →
            t.sampleLoop ω1 k i' f = t.sampleLoop ω2 k i' f := by
          intro k
          induction k with
          | zero => intros; rfl
          | succ k ihk =>
            intro i' f ω1 ω2 h
            unfold NFTable.sampleLoop
            rw [h i' le_rfl]
            congr 1; funext xs; congr 1; funext x
            rw [ihk (i' + 1) x ω1 ω2 (fun j hj => h j (by omega))]
        apply congrω
        intro j hj
        rw [if_neg (by omega)]; congr 1
      rw [e2]; rfl

theorem sample_spec (hD : ∀ s, g.atom s → s ≠ g.D) (hat : ∃ s, g.atom s ∧ g.P s) (k : Nat) :
    (∀ ω, ∃ x, NF.sample tbl ω n k = .ok x ∧ Valid t n x ∧ x.power = 0 ∧ x.factors.length = k) ∧
    ∀ x, Valid t n x → x.power = 0 → x.factors.length = k → ∃ ω, NF.sample tbl ω n k = .ok x := by
  have hDid : t.D ≠ t.id := by rw [Ne, R.spec.id_eq R.spec.D_lt, R.spec.v_D]; exact R.spec.D_ne
  constructor
  · intro ω
    obtain ⟨w, w1, w2, w3, w4, w5⟩ := R.sampleLoop_spec hD hat ω k 0 R.spec.D_lt hDid
    rw [R.spec.v_D, nrm_consD] at w4
    have hv : Valid t n ⟨n, 0, w⟩ := R.valid_iff.2 ⟨rfl, w3, w4, w5⟩
    refine ⟨_, ?_, hv, rfl, w2⟩
    unfold NF.sample NFTable.sample; rw [R.ok, bind_ok, w1, bind_ok]
    exact (R.make_ok hv.inR (R.canon hv)).1
  · intro x hx hp hk
    have hxv := R.valid_iff.1 hx
    obtain ⟨ω, hω⟩ := R.sampleLoop_surj k R.spec.D_lt x.factors hk hx.inR (by rw [R.spec.v_D, nrm_consD]; exact hxv.2.2.1) hxv.2.2.2
    refine ⟨ω, ?_⟩
    have := hω 0
    simp only [Nat.sub_zero] at this
    unfold NF.sample NFTable.sample; rw [R.ok, bind_ok, this, bind_ok]
    have e : (⟨n, 0, x.factors⟩ : NF) = x := by cases x; have := hx.n_eq; simp_all
    have hv : Valid t n ⟨n, 0, x.factors⟩ := e ▸ hx
    rw [(R.make_ok hv.inR (R.canon hv)).1, e]

/-! ### Infimum and supremum -/

omit R in
/-- Products of simple elements. -/
def GPos (g : Germ W) (β : W → Braid n) (b : Braid n) : Prop := ∃ l, g.AllP l ∧ b = (l.map β).prod

omit R in
theorem GPos.mul {a b : Braid n} (ha : GPos g β a) (hb : GPos g β b) : GPos g β (a * b) := by
  obtain ⟨u, hu, rfl⟩ := ha; obtain ⟨w, hw, rfl⟩ := hb
  exact ⟨u ++ w, by simp [hu, hw], by simp⟩

omit R in
theorem gpos_one : GPos g β (1 : Braid n) := ⟨[], by simp, rfl⟩

omit R in
theorem GPos.pow {a : Braid n} (ha : GPos g β a) (k : ℕ) : GPos g β (a ^ k) := by
  induction k with
  | zero => rw [pow_zero]; exact gpos_one
  | succ k ih => rw [pow_succ]; exact GPos.mul ih ha

omit R in
theorem gpos_beta {x : W} (hx : g.P x) : GPos g β (β x) := ⟨[x], by simpa using hx, by simp⟩

theorem inf_spec {x : NF} (hx : Valid t n x) (k : ℤ) : GPos g β (β g.D ^ (-k) * den g v β x) ↔ k ≤ x.power := by
  have cx := R.canon hx
  constructor
  · intro h
    obtain ⟨l, l1, l2⟩ := h
    have e : den g v β x = g.val β (k, l) := by
      unfold Germ.val; rw [← l2]; group
    have hC := R.C_inj cx.allP l1 e
    rw [Germ.C_canon_eq R.spec.D_ne cx] at hC
    obtain ⟨-, a, b, -, h2⟩ := Germ.C_spec R.spec.D_ne k l1
    have := congrArg Prod.fst hC
    simp only at this h2
    omega
  · intro h
    obtain ⟨m, hm⟩ := Int.eq_ofNat_of_zero_le (sub_nonneg.2 h)
    have e : β g.D ^ (-k) * den g v β x = β g.D ^ m * ((x.factors.map v).map β).prod := by
      unfold den Germ.val; rw [← mul_assoc, ← zpow_add, ← zpow_natCast, ← hm]; congr 2; ring
    rw [e]
    exact GPos.mul (GPos.pow (gpos_beta g.P_D) m) ⟨_, cx.allP, rfl⟩

omit R in
/-- The factors of the inverse. -/
def invList (g : Germ W) : List W → List W
  | [] => []
  | f :: l => invList g l ++ [g.tau^[l.length] (f⁻¹ * g.D)]

theorem invList_spec {l : List W} (hl : g.AllP l) (hp : ∀ x ∈ l, x ≠ g.D ∧ x ≠ 1) (hN : g.Nrm l) :
    g.AllP (invList g l) ∧ (∀ x ∈ invList g l, x ≠ g.D ∧ x ≠ 1) ∧ g.Nrm (invList g l) ∧
      (l.map β).prod * ((invList g l).map β).prod = β g.D ^ l.length := by
  induction l with
  | nil => simp [invList, Germ.Nrm]
  | cons f l ih =>
    simp only [Germ.AllP_cons] at hl
    have hN' : g.Nrm l := by unfold Germ.Nrm at *; simpa using hN.tail
    obtain ⟨i1, i2, i3, i4⟩ := ih hl.2 (fun x hx => hp x (by simp [hx])) hN'
    have hc := g.P_rc hl.1
    have hit := R.conj_iter l.length hc
    have tinj : ∀ k, Function.Injective (g.tau^[k]) := fun k => g.tau_injective.iterate k
    have tD : ∀ k, g.tau^[k] g.D = g.D := fun k => Function.iterate_fixed g.tau_D k
    have t1 : ∀ k, g.tau^[k] 1 = 1 := fun k => Function.iterate_fixed g.tau_one k
    refine ⟨by simp [invList, i1, hit.2], ?_, ?_, ?_⟩
    · intro x hx
      simp only [invList, List.mem_append, List.mem_singleton] at hx
      rcases hx with hx | rfl
      · exact i2 x hx
      · have := hp f (by simp)
        constructor
        · intro e
          have := tinj _ (e.trans (tD l.length).symm)
          rw [mul_eq_right, inv_eq_one] at this; exact (hp f (by simp)).2 this
        · intro e
          have := tinj _ (e.trans (t1 l.length).symm)
          rw [inv_mul_eq_one] at this; exact (hp f (by simp)).1 this
    · unfold invList
      refine List.IsChain.append i3 (by simp) ?_
      intro x hx y hy
      simp only [List.head?_cons, Option.mem_def, Option.some.injEq] at hy
      subst hy
      cases l with
      | nil => simp [invList] at hx
      | cons f2 l2 =>
        simp only [invList, List.getLast?_append, List.getLast?_singleton, Option.some_or, Option.mem_def, Option.some.injEq] at hx
        subst hx
        unfold Germ.Nrm at hN
        rw [List.isChain_cons_cons] at hN
        simp only [Germ.AllP_cons] at hl
        have hpc := hN.1.comp hl.1 hl.2.1
        rw [List.length_cons, Function.iterate_succ_apply]
        have tpair : ∀ (k : ℕ) {a b : W}, g.P b → g.PairN a b → g.PairN (g.tau^[k] a) (g.tau^[k] b) := by
          intro k
          induction k with
          | zero => intro a b _ h; exact h
          | succ k ihk => intro a b hb h; rw [Function.iterate_succ_apply, Function.iterate_succ_apply]; exact ihk (g.P_tau.2 hb) (h.tau hb)
        exact tpair _ (g.P_tau.2 (g.P_rc hl.1)) hpc
    · simp only [invList, List.map_append, List.prod_append, List.map_cons, List.map_nil, List.prod_cons, List.prod_nil, mul_one]
      have := R.hom.div hl.1 g.P_D
      calc β f * (l.map β).prod * (((invList g l).map β).prod * β (g.tau^[l.length] (f⁻¹ * g.D)))
          = β f * ((l.map β).prod * ((invList g l).map β).prod) * β (g.tau^[l.length] (f⁻¹ * g.D)) := by simp only [mul_assoc]
        _ = β f * (β g.D ^ l.length * β (g.tau^[l.length] (f⁻¹ * g.D))) := by rw [i4, mul_assoc]
        _ = β g.D ^ (f :: l).length := by rw [hit.1, ← mul_assoc, this, List.length_cons, pow_succ']

/-- `inf (x⁻¹) = - sup x`, and inversion preserves the canonical length. -/
theorem inv_data {x z : NF} (hx : Valid t n x) (hz : Valid t n z) (h : den g v β z = (den g v β x)⁻¹) :
    z.power = -(x.power + x.factors.length) ∧ z.factors.length = x.factors.length := by
  have cx := R.canon hx
  obtain ⟨i1, i2, i3, i4⟩ := R.invList_spec cx.allP cx.proper cx.nrm
  set L := invList g (x.factors.map v) with hL
  have hlen : L.length = x.factors.length := by
    rw [hL]
    have : ∀ l : List W, (invList g l).length = l.length := by
      intro l; induction l with
      | nil => rfl
      | cons a l ih => simp [invList, ih]
    rw [this, List.length_map]
  -- conjugate the list through `D^power`
  set k := ((-(x.power + x.factors.length)) % (t.tauOrder : ℤ)).toNat with hk
  have cL : g.Canon (-(x.power + x.factors.length), L.map g.tau^[k]) := canon_tau_iter k (Germ.canon_of_proper i1 i3 i2)
  have e : den g v β z = g.val β (-(x.power + x.factors.length), L.map g.tau^[k]) := by
    rw [h]
    unfold den Germ.val
    have h4 : ((x.factors.map v).map β).prod⁻¹ = (L.map β).prod * β g.D ^ (-(x.factors.length : ℤ)) := by
      rw [zpow_neg, zpow_natCast, inv_eq_iff_mul_eq_one, ← mul_assoc, i4, List.length_map, mul_inv_cancel]
    have hdp : ∀ p : ℤ, (L.map β).prod * β g.D ^ p = β g.D ^ p * ((L.map g.tau^[(p % (t.tauOrder : ℤ)).toNat]).map β).prod :=
      fun p => R.conj_prod p L i1
    rw [mul_inv_rev, h4, mul_assoc, ← zpow_neg, ← zpow_add, hk, ← hdp]
    congr 2; ring
  have hC := R.C_inj (R.canon hz).allP cL.allP e
  rw [Germ.C_canon_eq R.spec.D_ne (R.canon hz), Germ.C_canon_eq R.spec.D_ne cL] at hC
  simp only [Prod.mk.injEq] at hC
  exact ⟨hC.1, by have := congrArg List.length hC.2; simpa [hlen] using this⟩

theorem gpos_conj {b : Braid n} (p : ℤ) (h : GPos g β b) : GPos g β (β g.D ^ (-p) * b * β g.D ^ p) := by
  obtain ⟨l, l1, rfl⟩ := h
  rw [mul_assoc, R.conj_prod p l l1, ← mul_assoc, ← zpow_add, neg_add_cancel, zpow_zero, one_mul]
  refine ⟨_, ?_, rfl⟩
  intro y hy
  obtain ⟨x, hx, rfl⟩ := List.mem_map.1 hy
  exact (R.conj_iter _ (l1 x hx)).2

theorem sup_spec {x : NF} (hx : Valid t n x) (k : ℤ) :
    GPos g β ((den g v β x)⁻¹ * β g.D ^ k) ↔ x.power + x.factors.length ≤ k := by
  obtain ⟨z, -, z2, z3⟩ := R.inv_spec hx
  have hz := R.inv_data hx z2 z3
  have hi := R.inf_spec z2 (-k)
  rw [z3, neg_neg, hz.1, neg_le_neg_iff] at hi
  rw [← hi]
  constructor
  · intro h
    have := R.gpos_conj (-k) h
    rw [neg_neg, zpow_neg] at this
    simpa [mul_assoc] using this
  · intro h
    have := R.gpos_conj k h
    rw [zpow_neg] at this
    simpa [mul_assoc] using this

end NFReal
end Peyl
