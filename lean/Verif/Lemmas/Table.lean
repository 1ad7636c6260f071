import Verif.Lemmas.GermAlg
import Verif.Model.Braid
import Verif.Spec.Braid
/-!
# Tables that implement a germ
-/
namespace Peyl
open Relation

theorem lookup_ok {α : Type} {l : List α} {i : Nat} {a : α} : lookup l i = .ok a ↔ l[i]? = some a := by
  unfold lookup; split <;> simp_all

theorem lookup_lt {α : Type} {l : List α} {i : Nat} (h : i < l.length) : lookup l i = .ok l[i] := by
  rw [lookup_ok]; simp [h]

@[simp] theorem bind_ok {α β : Type} (a : α) (f : α → Except Err β) : (Except.ok a >>= f) = f a := rfl
@[simp] theorem bind_err {α β : Type} (e : Err) (f : α → Except Err β) : (Except.error e >>= f) = Except.error e := rfl

variable {W : Type} [Group W] {T : Type}

/-- The table `t` implements the germ `g`, the index `i` standing for the simple element `v i`. -/
structure TableSpec (t : NFTable T) (g : Germ W) (v : Nat → W) : Prop where
  D_ne : g.D ≠ 1
  inj : ∀ i j, i < t.order → j < t.order → v i = v j → i = j
  simple : ∀ i, i < t.order → g.P (v i)
  surj : ∀ x, g.P x → ∃ i, i < t.order ∧ v i = x
  id_lt : t.id < t.order
  v_id : v t.id = 1
  D_lt : t.D < t.order
  v_D : v t.D = g.D
  leftComp : ∀ i, i < t.order → ∃ j, j < t.order ∧ lookup t.leftComp i = .ok j ∧ v j = g.D * (v i)⁻¹
  rightComp : ∀ i, i < t.order → ∃ j, j < t.order ∧ lookup t.rightComp i = .ok j ∧ v j = (v i)⁻¹ * g.D
  tauOrder_pos : 0 < t.tauOrder
  tau_order : ∀ x, (g.tau)^[t.tauOrder] x = x
  tauRight : ∀ k i, k < t.tauOrder → i < t.order → ∃ j, j < t.order ∧ lookup2 t.tauRight k i = .ok j ∧ v j = (g.tau)^[k] (v i)
  renorm : ∀ i j, i < t.order → j < t.order → ∃ a b, a < t.order ∧ b < t.order ∧ lookup2 t.renorm i j = .ok (a, b) ∧
    g.Steps [v i, v j] [v a, v b] ∧ g.PairN (v a) (v b)
  isNormalised : ∀ i j, i < t.order → j < t.order → ∃ b, lookup2 t.isNormalised i j = .ok b ∧ (b = true ↔ g.PairN (v i) (v j))
  follows : ∀ i, i < t.order → ∃ l, lookup t.follows i = .ok l ∧ l.Nodup ∧
    ∀ j, j ∈ l ↔ j < t.order ∧ g.PairN (v i) (v j) ∧ j ≠ t.id ∧ j ≠ t.D

namespace TableSpec
variable {t : NFTable T} {g : Germ W} {v : Nat → W} (S : TableSpec t g v)
include S

/-- All factors in range. -/
def InR (t : NFTable T) (fs : List Nat) : Prop := ∀ f ∈ fs, f < t.order

omit S in
@[simp] theorem InR_nil : InR t [] := by simp [InR]
omit S in
@[simp] theorem InR_cons {x : Nat} {l : List Nat} : InR t (x :: l) ↔ x < t.order ∧ InR t l := by simp [InR]
omit S in
@[simp] theorem InR_append {l l' : List Nat} : InR t (l ++ l') ↔ InR t l ∧ InR t l' := by
  simp only [InR, List.mem_append]
  exact ⟨fun h => ⟨fun x hx => h x (Or.inl hx), fun x hx => h x (Or.inr hx)⟩, fun h x hx => hx.elim (h.1 x) (h.2 x)⟩

theorem allP {fs : List Nat} (h : InR t fs) : g.AllP (fs.map v) := by
  intro x hx; obtain ⟨i, hi, rfl⟩ := List.mem_map.1 hx; exact S.simple i (h i hi)

theorem map_inj {l m : List Nat} (hl : InR t l) (hm : InR t m) (h : l.map v = m.map v) : l = m := by
  induction l generalizing m with
  | nil => cases m <;> simp_all
  | cons x l ih =>
    cases m with
    | nil => simp at h
    | cons y m =>
      simp only [List.map_cons, List.cons.injEq, InR_cons] at *
      exact ⟨S.inj x y hl.1 hm.1 h.1, ih hl.2 hm.2 h.2⟩

theorem pairs_spec {fs : List Nat} (h : InR t fs) : ∃ b, t.pairsNormalised fs = .ok b ∧ (b = true ↔ g.Nrm (fs.map v)) := by
  induction fs with
  | nil => exact ⟨true, rfl, by simp [Germ.Nrm]⟩
  | cons x l ih =>
    cases l with
    | nil => exact ⟨true, rfl, by simp [Germ.Nrm]⟩
    | cons y l =>
      simp only [InR_cons] at h ih
      obtain ⟨b, hb, hb'⟩ := S.isNormalised x y h.1 h.2.1
      obtain ⟨c, hc, hc'⟩ := ih h.2
      simp only [NFTable.pairsNormalised, hb, bind_ok]
      cases b with
      | false => exact ⟨false, rfl, by simp only [Germ.Nrm, List.map_cons, List.isChain_cons_cons, ← hb']; simp⟩
      | true =>
        refine ⟨c, hc, ?_⟩
        rw [hc']; simp only [Germ.Nrm, List.map_cons, List.isChain_cons_cons, ← hb']; simp

theorem D_eq {i : Nat} (h : i < t.order) : i = t.D ↔ v i = g.D :=
  ⟨fun e => e ▸ S.v_D, fun e => S.inj _ _ h S.D_lt (e.trans S.v_D.symm)⟩
theorem id_eq {i : Nat} (h : i < t.order) : i = t.id ↔ v i = 1 :=
  ⟨fun e => e ▸ S.v_id, fun e => S.inj _ _ h S.id_lt (e.trans S.v_id.symm)⟩

theorem head_iff {fs : List Nat} (h : InR t fs) : fs.head? = some t.D ↔ (fs.map v).head? = some g.D := by
  cases fs with
  | nil => simp
  | cons x l => simp only [InR_cons] at h; simpa using S.D_eq h.1

theorem last_iff {fs : List Nat} (h : InR t fs) : fs.getLast? = some t.id ↔ (fs.map v).getLast? = some 1 := by
  cases fs using List.reverseRecOn with
  | nil => simp
  | append_singleton l x => simp only [InR_append, InR_cons] at h; simpa using S.id_eq h.2.1

/-- The constructor's check decides canonicity. -/
theorem isFactorsNormalised_spec (d : ℤ) {fs : List Nat} (h : InR t fs) :
    ∃ b, t.isFactorsNormalised fs = .ok b ∧ (b = true ↔ g.Canon (d, fs.map v)) := by
  obtain ⟨b, hb, hb'⟩ := S.pairs_spec h
  simp only [NFTable.isFactorsNormalised, hb, bind_ok]
  cases b with
  | false =>
    refine ⟨false, rfl, by simp only [Bool.false_eq_true, false_iff]; intro hc; simpa using hb'.2 hc.nrm⟩
  | true =>
    refine ⟨_, rfl, ?_⟩
    have hN := hb'.1 rfl
    have h1 := S.head_iff h
    have h2 := S.last_iff h
    constructor
    · intro hh
      refine ⟨S.allP h, hN, ?_, ?_⟩
      · show (fs.map v).head? ≠ some g.D
        rw [Ne, ← h1]; cases fs with
        | nil => simp
        | cons x l => simp at hh ⊢; exact hh.1
      · show (fs.map v).getLast? ≠ some 1
        rw [Ne, ← h2]; cases fs with
        | nil => simp
        | cons x l => simp only [List.length_cons, Nat.add_eq_zero_iff, one_ne_zero, and_false, beq_iff_eq,
            Bool.or_eq_true, Bool.and_eq_true, bne_iff_ne, ne_eq, false_or] at hh; exact hh.2
    · intro hc
      have a : fs.head? ≠ some t.D := by rw [Ne, h1]; exact hc.head
      have b : fs.getLast? ≠ some t.id := by rw [Ne, h2]; exact hc.last
      simp [a, b]

/-- `renorm` is the normal form of a pair. -/
theorem renorm_nf {i j : Nat} (hi : i < t.order) (hj : j < t.order) :
    ∃ a b, a < t.order ∧ b < t.order ∧ lookup2 t.renorm i j = .ok (a, b) ∧ g.nf [v i, v j] = [v a, v b] := by
  obtain ⟨a, b, ha, hb, h1, h2, h3⟩ := S.renorm i j hi hj
  exact ⟨a, b, ha, hb, h1, Germ.nf_eq (by simp [S.simple i hi, S.simple j hj]) h2 (by simp [Germ.Nrm, h3])⟩

theorem renormAt_spec {fs : List Nat} (h : InR t fs) {i : Nat} (hi : i + 1 < fs.length) :
    ∃ fs', t.renormAt fs i = .ok fs' ∧ InR t fs' ∧ fs'.map v = g.E i (fs.map v) ∧ fs'.length = fs.length := by
  obtain ⟨pre, x, y, post, rfl, rfl⟩ : ∃ pre b c post, fs = pre ++ b :: c :: post ∧ i = pre.length := by
    refine ⟨fs.take i, fs[i], fs[i + 1], fs.drop (i + 2), ?_, by simp; omega⟩
    rw [List.getElem_cons_drop, List.getElem_cons_drop, List.take_append_drop]
  simp only [InR_append, InR_cons] at h
  obtain ⟨a, b, ha, hb, h1, h2⟩ := S.renorm_nf h.2.1 h.2.2.1
  have l1 : lookup (pre ++ x :: y :: post) pre.length = .ok x := by rw [lookup_ok]; simp
  have l2 : lookup (pre ++ x :: y :: post) (pre.length + 1) = .ok y := by
    rw [lookup_ok, List.getElem?_append_right (by omega)]; simp
  refine ⟨pre ++ a :: b :: post, ?_, by simp [h, ha, hb], ?_, by simp⟩
  · simp only [NFTable.renormAt, l1, l2, h1, bind_ok]
    rw [List.set_append_right _ _ (by omega), List.set_append_right _ _ (by simp)]; simp
  · have e := Germ.E_at (g := g) (pre.map v) (v x) (v y) (post.map v)
    rw [List.length_map] at e
    simp only [List.map_append, List.map_cons]
    rw [e, h2]; rfl

theorem back_spec {fs : List Nat} (h : InR t fs) {i : Nat} (hi : i < fs.length) :
    ∃ fs', (List.range i).reverse.foldlM t.renormAt fs = .ok fs' ∧ InR t fs' ∧ fs'.map v = g.back i (fs.map v) ∧
      fs'.length = fs.length := by
  induction i generalizing fs with
  | zero => exact ⟨fs, rfl, h, rfl, rfl⟩
  | succ i ih =>
    obtain ⟨f1, a1, a2, a3, a4⟩ := S.renormAt_spec h (i := i) hi
    obtain ⟨f2, b1, b2, b3, b4⟩ := ih a2 (by omega)
    refine ⟨f2, ?_, b2, by rw [b3, a3]; rfl, by omega⟩
    rw [List.range_succ, List.reverse_append, List.reverse_singleton, List.singleton_append, List.foldlM_cons, a1]
    exact b1

theorem fwd_spec {fs : List Nat} (h : InR t fs) (i k : Nat) (hi : i + k + 1 ≤ fs.length ∨ k = 0) :
    ∃ fs', (List.range' i k).foldlM t.renormAt fs = .ok fs' ∧ InR t fs' ∧ g.Steps (fs.map v) (fs'.map v) ∧
      fs'.length = fs.length := by
  induction k generalizing i fs with
  | zero => exact ⟨fs, rfl, h, .refl, rfl⟩
  | succ k ih =>
    obtain ⟨f1, a1, a2, a3, a4⟩ := S.renormAt_spec h (i := i) (by omega)
    obtain ⟨f2, b1, b2, b3, b4⟩ := ih a2 (i + 1) (by omega)
    refine ⟨f2, ?_, b2, ?_, by omega⟩
    · rw [List.range'_succ, List.foldlM_cons, a1]; exact b1
    · rw [a3] at b3; exact (Germ.E_steps i (S.allP h)).trans b3

/-- The main loop of `normalise_factors`, after `k` rounds: at least as normalised as insertion. -/
theorem rounds_spec {fs : List Nat} (h : InR t fs) (k : Nat) (hk : k + 1 ≤ fs.length ∨ k = 0) :
    ∃ fs', (List.range k).foldlM (init := fs) (fun fs i => do
        let fs ← t.renormAt fs i
        let fs ← (List.range i).reverse.foldlM (init := fs) t.renormAt
        (List.range' (i + 1) (fs.length - 1 - (i + 1))).foldlM (init := fs) t.renormAt) = .ok fs' ∧
      InR t fs' ∧ g.Steps (g.ins k (fs.map v)) (fs'.map v) ∧ fs'.length = fs.length := by
  induction k with
  | zero => exact ⟨fs, rfl, h, .refl, rfl⟩
  | succ k ih =>
    obtain ⟨f0, z1, z2, z3, z4⟩ := ih (by omega)
    obtain ⟨f1, a1, a2, a3, a4⟩ := S.renormAt_spec z2 (i := k) (by omega)
    obtain ⟨f2, b1, b2, b3, b4⟩ := S.back_spec a2 (i := k) (by omega)
    obtain ⟨f3, c1, c2, c3, c4⟩ := S.fwd_spec b2 (k + 1) (f2.length - 1 - (k + 1)) (by omega)
    refine ⟨f3, ?_, c2, ?_, by omega⟩
    · rw [List.range_succ, List.foldlM_append, z1]
      simp only [bind_ok, List.foldlM_cons, List.foldlM_nil, a1, b1, c1]; rfl
    · have hA := Germ.ins_allP k (S.allP h)
      rw [b3, a3] at c3
      exact (Germ.back_mono k (Germ.E_allP k hA) (Germ.E_mono k hA z3)).trans c3

omit S in
theorem cut_split (fs : List Nat) : ∃ a b, fs = List.replicate a t.D ++ (t.cut fs).2 ++ List.replicate b t.id ∧
    (t.cut fs).1 = a ∧ (t.cut fs).2.head? ≠ some t.D ∧ (t.cut fs).2.getLast? ≠ some t.id := by
  unfold NFTable.cut
  simp only
  set r := fs.dropWhile (· == t.D) with hr
  have e1 : ∃ a, fs = List.replicate a t.D ++ r := by
    refine ⟨(fs.takeWhile (· == t.D)).length, ?_⟩
    conv_lhs => rw [← List.takeWhile_append_dropWhile (p := (· == t.D)) (l := fs)]
    congr 1
    refine List.eq_replicate_of_mem fun x hx => ?_
    have := List.mem_takeWhile_imp hx; simpa using this
  obtain ⟨a, e1⟩ := e1
  have e2 : ∃ b, r = r.rdropWhile (· == t.id) ++ List.replicate b t.id := by
    refine ⟨(r.rtakeWhile (· == t.id)).length, ?_⟩
    conv_lhs => rw [← List.rdropWhile_append_rtakeWhile (p := (· == t.id)) (l := r)]
    congr 1
    refine List.eq_replicate_of_mem fun x hx => ?_
    have := List.mem_rtakeWhile_imp hx; simpa using this
  obtain ⟨b, e2⟩ := e2
  have hh : r.head? ≠ some t.D := by
    intro h
    have := List.head?_dropWhile_not (· == t.D) fs
    rw [← hr, h] at this; simp at this
  refine ⟨a, b, ?_, ?_, ?_, ?_⟩
  · rw [List.append_assoc, ← e2, ← e1]
  · have := congrArg List.length e1; simp at this; omega
  · intro h
    apply hh
    rw [e2]
    cases hm : r.rdropWhile (· == t.id) with
    | nil => rw [hm] at h; simp at h
    | cons x l => rw [hm] at h; simpa using h
  · intro h
    have := List.rdropWhile_last_not (· == t.id) r (by intro h'; rw [h'] at h; simp at h)
    rw [List.getLast?_eq_some_getLast (by intro h'; rw [h'] at h; simp at h)] at h
    simp only [Option.some.injEq] at h
    rw [h] at this; simp at this

/-- Cutting a normalised list gives the canonical form. -/
theorem cut_spec {fs : List Nat} (h : InR t fs) {l : List W} (hl : g.nf l = fs.map v) (d : ℤ) :
    InR t (t.cut fs).2 ∧ g.C (d, l) = (d + (t.cut fs).1, (t.cut fs).2.map v) := by
  obtain ⟨a, b, e, e1, e2, e3⟩ := cut_split (t := t) fs
  have hc : InR t (t.cut fs).2 := by rw [e] at h; simp only [InR_append] at h; exact h.1.2
  refine ⟨hc, ?_⟩
  rw [e1]
  refine Germ.C_eq S.D_ne d a b _ ?_ ?_ ?_
  · rw [hl]; conv_lhs => rw [e]
    simp [S.v_D, S.v_id]
  · rw [Ne, ← S.head_iff hc]; exact e2
  · rw [Ne, ← S.last_iff hc]; exact e3

/-- `normalise_factors` computes the canonical form. -/
theorem normaliseFactors_spec {fs : List Nat} (h : InR t fs) (d : ℤ) :
    ∃ r, t.normaliseFactors fs = .ok r ∧ InR t r.2 ∧ g.C (d, fs.map v) = (d + r.1, r.2.map v) := by
  obtain ⟨f, h1, h2, h3, h4⟩ := S.rounds_spec h (fs.length - 1) (by omega)
  have hn : g.nf (fs.map v) = f.map v := by
    have := Germ.ins_eq_nf (g := g) S.D_ne (S.allP h)
    rw [List.length_map] at this
    rw [this] at h3
    exact ((Germ.nf_nrm (S.allP h)).steps h3).symm
  obtain ⟨c1, c2⟩ := S.cut_spec h2 hn d
  exact ⟨t.cut f, by simp only [NFTable.normaliseFactors, h1, bind_ok], c1, c2⟩

/-- Combing back with early exit. -/
theorem combBack_spec (pre : List Nat) (b1 c1 : Nat) (post : List Nat) {b c : W}
    (hP : InR t (pre ++ b1 :: c1 :: post)) (hb : g.P b) (hc : g.P c)
    (hn : g.Nrm (pre.map v ++ [b])) (h1 : g.Steps [b, c] [v b1, v c1]) (hn1 : g.PairN (v b1) (v c1)) :
    ∃ r, t.combBack pre.length (pre ++ b1 :: c1 :: post) = .ok (r ++ c1 :: post) ∧ InR t r ∧
      g.Nrm (r.map v ++ [v c1]) ∧ r.length = pre.length + 1 ∧
      g.Steps ((pre ++ b1 :: c1 :: post).map v) ((r ++ c1 :: post).map v) := by
  induction pre using List.reverseRecOn generalizing b1 c1 post b c with
  | nil =>
    simp only [List.nil_append, InR_cons] at hP
    exact ⟨[b1], rfl, by simp [hP], by simp [Germ.Nrm, hn1], rfl, .refl⟩
  | append_singleton pre a ih =>
    simp only [List.append_assoc, List.singleton_append, InR_append, InR_cons] at hP
    obtain ⟨a', b', ha', hb', l0, hs, hN⟩ := S.renorm a b1 hP.2.1 hP.2.2.1
    have l1 : lookup (pre ++ a :: b1 :: c1 :: post) pre.length = .ok a := by rw [lookup_ok]; simp
    have l2 : lookup (pre ++ a :: b1 :: c1 :: post) (pre.length + 1) = .ok b1 := by
      rw [lookup_ok, List.getElem?_append_right (by omega)]; simp
    rw [List.map_append, List.map_cons, List.map_nil, List.append_assoc, List.singleton_append, Germ.nrm_snoc2] at hn
    rw [List.length_append, List.length_singleton]
    simp only [List.append_assoc, List.singleton_append, NFTable.combBack, l1, l2, l0, bind_ok]
    by_cases he : a' = a
    · subst he
      have hb1 : b1 = b' := by
        have := hs.prod; simp at this; exact (S.inj _ _ hb' hP.2.2.1 this).symm
      subst hb1
      refine ⟨pre ++ [a', b1], by simp, by simp [hP], ?_, by simp, by simp; exact .refl⟩
      have e : (pre ++ [a', b1]).map v ++ [v c1] = (pre.map v ++ [v a']) ++ [v b1, v c1] := by simp
      rw [e, Germ.nrm_snoc2, List.append_assoc, List.singleton_append, Germ.nrm_snoc2]
      exact ⟨⟨hn.1, hN⟩, hn1⟩
    · have hbeq : (a' == a) = false := by simpa using he
      simp only [hbeq]
      have hset : ((pre ++ a :: b1 :: c1 :: post).set pre.length a').set (pre.length + 1) b' = pre ++ a' :: b' :: c1 :: post := by
        rw [List.set_append_right _ _ (by omega), List.set_append_right _ _ (by simp)]; simp
      rw [hset]
      have hdom := Germ.domino S.D_ne (S.simple a hP.2.1) hb hc hn.2 h1 hn1 hs
      obtain ⟨r, r1, r2, r3, r4, r5⟩ := ih a' b' (c1 :: post) (b := v a) (c := v b1)
        (by simp [hP, ha', hb']) (S.simple a hP.2.1) (S.simple b1 hP.2.2.1) hn.1 hs hN
      refine ⟨r ++ [b'], by simpa using r1, by simp [r2, hb'], ?_, by simp [r4], ?_⟩
      · rw [List.map_append, List.map_cons, List.map_nil, List.append_assoc, List.singleton_append, Germ.nrm_snoc2]
        exact ⟨r3, hdom⟩
      · refine ReflTransGen.trans ?_ (by simpa using r5)
        have := (hs.append (v c1 :: post.map v)).prepend (pre.map v)
        simpa using this

theorem productLoop_spec (p q : List Nat) (hp : p ≠ []) (hR : InR t (p ++ q)) (h1 : g.Nrm (p.map v)) (h2 : g.Nrm (q.map v)) :
    ∃ fs, t.productLoop q.length (p.length - 1) (p ++ q) = .ok fs ∧ InR t fs ∧ g.Nrm (fs.map v) ∧
      g.Steps ((p ++ q).map v) (fs.map v) := by
  induction q generalizing p with
  | nil => exact ⟨p, by simp [NFTable.productLoop], by simpa using hR, h1, by simp; exact .refl⟩
  | cons c post ih =>
    obtain ⟨pre, b, rfl⟩ : ∃ pre b, p = pre ++ [b] := ⟨p.dropLast, p.getLast hp, (List.dropLast_append_getLast hp).symm⟩
    simp only [List.append_assoc, List.singleton_append, InR_append, InR_cons] at hR
    obtain ⟨b', c', hb', hc', l0, hs, hN⟩ := S.renorm b c hR.2.1 hR.2.2.1
    have l1 : lookup (pre ++ b :: c :: post) pre.length = .ok b := by rw [lookup_ok]; simp
    have l2 : lookup (pre ++ b :: c :: post) (pre.length + 1) = .ok c := by
      rw [lookup_ok, List.getElem?_append_right (by omega)]; simp
    rw [List.map_append, List.map_cons, List.map_nil] at h1
    have elen : (pre ++ [b]).length - 1 = pre.length := by simp
    rw [elen, List.append_assoc, List.singleton_append, List.length_cons]
    simp only [NFTable.productLoop, l1, l2, l0, bind_ok]
    by_cases he : b' = b
    · subst he
      have hc1 : c' = c := by
        have := hs.prod; simp at this; exact S.inj _ _ hc' hR.2.2.1 this
      subst hc1
      refine ⟨pre ++ b' :: c' :: post, by simp, by simp [hR], ?_, .refl⟩
      have := h2
      unfold Germ.Nrm at *
      rw [List.map_append, List.map_cons, List.map_cons, List.isChain_append_cons_cons]
      exact ⟨h1, hN, by simpa using h2⟩
    · have hbeq : (b' == b) = false := by simpa using he
      simp only [hbeq]
      have hset : ((pre ++ b :: c :: post).set pre.length b').set (pre.length + 1) c' = pre ++ b' :: c' :: post := by
        rw [List.set_append_right _ _ (by omega), List.set_append_right _ _ (by simp)]; simp
      rw [hset]
      obtain ⟨r, r1, r2, r3, r4, r5⟩ := S.combBack_spec pre b' c' post (b := v b) (c := v c) (by simp [hR, hb', hc'])
        (S.simple b hR.2.1) (S.simple c hR.2.2.1) h1 hs hN
      obtain ⟨fs, f1, f2, f3, f4⟩ := ih (r ++ [c']) (by simp) (by simp [r2, hc', hR])
        (by simpa using r3) (by
          unfold Germ.Nrm at *
          rw [List.map_cons] at h2
          have := h2.tail; simpa using this)
      simp only [Bool.false_eq_true, if_false, r1, bind_ok]
      refine ⟨fs, ?_, f2, f3, ?_⟩
      · have e : (r ++ [c']).length - 1 = pre.length + 1 := by simp [r4]
        rw [e] at f1; simpa using f1
      · have s1 := (hs.append (post.map v)).prepend (pre.map v)
        refine ReflTransGen.trans (b := (pre ++ b' :: c' :: post).map v) (by simpa using s1) (r5.trans ?_)
        simpa using f4

theorem canConcatenate_spec {l r : List Nat} (hl : InR t l) (hr : InR t r) (h1 : g.Nrm (l.map v)) (h2 : g.Nrm (r.map v)) :
    ∃ b, t.canConcatenate l r = .ok b ∧ (b = true ↔ g.Nrm ((l ++ r).map v)) := by
  unfold NFTable.canConcatenate
  cases l using List.reverseRecOn with
  | nil => exact ⟨true, rfl, by simpa using h2⟩
  | append_singleton l x =>
    cases r with
    | nil => exact ⟨true, by simp, by simpa using h1⟩
    | cons y r =>
      simp only [InR_append, InR_cons] at hl hr
      obtain ⟨b, hb, hb'⟩ := S.isNormalised x y hl.2.1 hr.1
      refine ⟨b, by simpa using hb, ?_⟩
      rw [hb']
      unfold Germ.Nrm at *
      have e : (l ++ [x] ++ y :: r).map v = l.map v ++ v x :: v y :: r.map v := by simp
      rw [e, List.isChain_append_cons_cons]
      simp only [List.map_append, List.map_cons, List.map_nil] at h1 h2
      exact ⟨fun h => ⟨h1, h, h2⟩, fun h => h.2.1⟩

/-- `product_normalised_factors` computes the canonical form of the concatenation. -/
theorem product_spec {l r : List Nat} (d : ℤ) (hl : InR t l) (hr : InR t r) (h1 : g.Canon (0, l.map v)) (h2 : g.Canon (0, r.map v)) :
    ∃ q, t.productNormalisedFactors l r = .ok q ∧ InR t q.2 ∧ g.C (d, (l ++ r).map v) = (d + q.1, q.2.map v) := by
  obtain ⟨b, hb, hb'⟩ := S.canConcatenate_spec hl hr h1.nrm h2.nrm
  unfold NFTable.productNormalisedFactors
  rw [hb, bind_ok]
  have hlr : InR t (l ++ r) := by simp [hl, hr]
  cases b with
  | true =>
    have hN := hb'.1 rfl
    refine ⟨(0, l ++ r), rfl, hlr, ?_⟩
    -- the concatenation is canonical
    refine Germ.C_eq S.D_ne d 0 0 _ (by rw [Germ.nf_of_nrm (S.allP hlr) hN]; simp) ?_ ?_
    · cases l with
      | nil => simpa using h2.head
      | cons x l => simpa using h1.head
    · cases r using List.reverseRecOn with
      | nil => simpa using h1.last
      | append_singleton r x => have := h2.last; simp at this ⊢; exact this
  | false =>
    have hl0 : l ≠ [] := by rintro rfl; simp at hb'; exact hb' h2.nrm
    obtain ⟨fs, f1, f2, f3, f4⟩ := S.productLoop_spec l r hl0 hlr h1.nrm h2.nrm
    have hlen : (l.length + r.length - 1) - (l.length - 1) = r.length := by
      have := List.length_pos_iff.2 hl0; omega
    simp only [Bool.false_eq_true, if_false, hlen, f1, bind_ok]
    obtain ⟨c1, c2⟩ := S.cut_spec f2 (Germ.nf_eq (S.allP hlr) f4 f3) d
    exact ⟨t.cut fs, rfl, c1, c2⟩

end TableSpec
end Peyl
