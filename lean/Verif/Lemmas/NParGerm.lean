import Verif.Lemmas.NCPerm
import Verif.Lemmas.Matsumoto
/-!
# The dual germ: noncrossing permutations under the reflection length
-/
namespace Peyl
open Equiv
variable {n : Nat}

theorem NCP.walk_same {y z : Perm (Fin n)} (h : NCP y) {a b : Fin n} (hs : y.SameCycle b a) (hab : a ≤ b)
    (hz : ∀ i, i ≤ b → a ≤ y i → y i < i → z i = y i) : z.SameCycle b a := by
  have := h.walk hs hab (fun i => z.SameCycle b i) (fun i h1 h2 h3 => by
    rw [← hz i h1 h2 h3, Perm.sameCycle_apply_right])
  exact this ▸ Perm.SameCycle.refl z b

/-- Crossing pairs lie in one block. -/
theorem NCP.cross {y : Perm (Fin n)} (h : NCP y) {a b c d : Fin n} (h1 : a < b) (h2 : b < c) (h3 : c < d)
    (hac : y.SameCycle a c) (hbd : y.SameCycle b d) : y.SameCycle a b := by
  by_contra hc
  have key : ∀ m (e : Fin n), (e : Nat) = m → b < e → e < d → y.SameCycle e a → False := by
    intro m
    induction m using Nat.strong_induction_on with
    | _ m ih =>
      intro e he hb hd hs
      obtain ⟨e1, e2⟩ := h.descend hs (h1.trans hb)
      have hs' : y.SameCycle (y e) a := Perm.sameCycle_apply_left.2 hs
      rcases lt_trichotomy (y e) b with hlt | heq | hgt
      · have := sameCycle_mem (p := fun j => y e < j ∧ j < e) (fun j hj => h.gap hj.1 hj.2) hbd ⟨hlt, hb⟩
        exact absurd this.2 (not_lt.2 hd.le)
      · exact hc (heq ▸ hs').symm
      · exact ih (y e) (by rw [← he]; exact e2) (y e) rfl hgt (e2.trans hd) hs'
  exact key _ c rfl h2 h3 hac.symm

/-- The transposition of a pair. -/
def tr (p : Fin n × Fin n) : Perm (Fin n) := swap p.1 p.2

/-- The relations of Birman, Ko and Lee between band generators. -/
structure BKLRel {H : Type} [Group H] (f : Fin n × Fin n → H) : Prop where
  tri1 : ∀ a b c, a < b → b < c → f (b, c) * f (a, b) = f (a, c) * f (b, c)
  tri2 : ∀ a b c, a < b → b < c → f (a, c) * f (b, c) = f (a, b) * f (a, c)
  side : ∀ a b c d, a < b → b < c → c < d → f (a, b) * f (c, d) = f (c, d) * f (a, b)
  nest : ∀ a b c d, a < b → b < c → c < d → f (a, d) * f (b, c) = f (b, c) * f (a, d)

theorem tr_rel : BKLRel (tr (n := n)) := by
  constructor <;> intros <;> ext i <;> simp only [tr, Perm.mul_apply, swap_val, Fin.lt_def] at * <;> split_ifs <;> omega

/-- Everything needed about the join of two transpositions. -/
def JoinOf (p q : Fin n × Fin n) : Prop := ∃ w u u' : List (Fin n × Fin n),
  (∀ s ∈ p :: u, s.1 < s.2) ∧ (∀ s ∈ q :: u', s.1 < s.2) ∧ w.length = (p :: u).length ∧ w.length = (q :: u').length ∧
  (∀ (H : Type) [Group H] (f : Fin n × Fin n → H), BKLRel f → (w.map f).prod = ((p :: u).map f).prod ∧ (w.map f).prod = ((q :: u').map f).prod) ∧
  ∀ y, NCP y → y.SameCycle p.1 p.2 → y.SameCycle q.1 q.2 → rlen ((w.map tr).prod⁻¹ * y) + w.length = rlen y

theorem JoinOf.symm {p q : Fin n × Fin n} (h : JoinOf p q) : JoinOf q p := by
  obtain ⟨w, u, u', h1, h2, h3, h4, h5, h6⟩ := h
  exact ⟨w, u', u, h2, h1, h4, h3, fun H _ f hf => (h5 H f hf).symm, fun y a b c => h6 y a c b⟩

theorem walk2 {y : Perm (Fin n)} {p q : Fin n × Fin n} (hp : p.1 < p.2) (hq : q.1 < q.2) (h1 : y.SameCycle p.1 p.2)
    (h2 : (tr p * y).SameCycle q.1 q.2) : rlen (([p, q].map tr).prod⁻¹ * y) + 2 = rlen y := by
  have a := (rlen_swap_lt_iff y hp.ne).2 h1
  have b := (rlen_swap_lt_iff (tr p * y) hq.ne).2 h2
  have e : ([p, q].map tr).prod⁻¹ * y = swap q.1 q.2 * (tr p * y) := by
    simp [tr, mul_inv_rev, mul_assoc]
  rw [e]; change rlen (tr p * y) + 1 = rlen y at a; omega

theorem walk3 {y : Perm (Fin n)} {p q r : Fin n × Fin n} (hp : p.1 < p.2) (hq : q.1 < q.2) (hr : r.1 < r.2) (h1 : y.SameCycle p.1 p.2)
    (h2 : (tr p * y).SameCycle q.1 q.2) (h3 : (tr q * (tr p * y)).SameCycle r.1 r.2) : rlen (([p, q, r].map tr).prod⁻¹ * y) + 3 = rlen y := by
  have a := (rlen_swap_lt_iff y hp.ne).2 h1
  have b := (rlen_swap_lt_iff (tr p * y) hq.ne).2 h2
  have c := (rlen_swap_lt_iff (tr q * (tr p * y)) hr.ne).2 h3
  have e : ([p, q, r].map tr).prod⁻¹ * y = swap r.1 r.2 * (tr q * (tr p * y)) := by
    simp [tr, mul_inv_rev, mul_assoc]
  change rlen (tr p * y) + 1 = rlen y at a
  change rlen (tr q * (tr p * y)) + 1 = rlen (tr p * y) at b
  rw [e]; omega

theorem tr_mul_of_ne {y : Perm (Fin n)} {p : Fin n × Fin n} {i : Fin n} (h1 : y i ≠ p.1) (h2 : y i ≠ p.2) : (tr p * y) i = y i :=
  swap_apply_of_ne_of_ne h1 h2

theorem joinOf_self {p : Fin n × Fin n} (hp : p.1 < p.2) : JoinOf p p := by
  refine ⟨[p], [], [], by simpa using hp, by simpa using hp, rfl, rfl, fun H _ f hf => ⟨rfl, rfl⟩, fun y h h1 h2 => ?_⟩
  have := (rlen_swap_lt_iff y hp.ne).2 h1
  simpa [tr] using this

/-- The walk for a triple. -/
theorem tri_walk {a b c : Fin n} (h1 : a < b) (h2 : b < c) {y : Perm (Fin n)} (h : NCP y) (hab : y.SameCycle a b) (hbc : y.SameCycle b c) :
    rlen (([(b, c), (a, b)].map tr).prod⁻¹ * y) + 2 = rlen y := by
  refine walk2 h2 h1 hbc (h.walk_same hab.symm h1.le fun i hi _ h4 => ?_).symm
  exact tr_mul_of_ne (h4.trans_le hi).ne ((h4.trans_le hi).trans h2).ne

theorem joinOf_tri {a b c : Fin n} (h1 : a < b) (h2 : b < c) :
    JoinOf (a, b) (b, c) ∧ JoinOf (a, b) (a, c) ∧ JoinOf (b, c) (a, c) := by
  have h3 := h1.trans h2
  refine ⟨⟨[(b, c), (a, b)], [(a, c)], [(a, b)], by simp [h1, h3], by simp [h1, h2], rfl, rfl, fun H _ f hf => ?_, fun y h k1 k2 => ?_⟩,
    ⟨[(b, c), (a, b)], [(a, c)], [(b, c)], by simp [h1, h3], by simp [h2, h3], rfl, rfl, fun H _ f hf => ?_, fun y h k1 k2 => ?_⟩,
    ⟨[(b, c), (a, b)], [(a, b)], [(b, c)], by simp [h1, h2], by simp [h2, h3], rfl, rfl, fun H _ f hf => ?_, fun y h k1 k2 => ?_⟩⟩
  · simp [hf.tri1 a b c h1 h2, hf.tri2 a b c h1 h2]
  · exact tri_walk h1 h2 h k1 k2
  · simp [hf.tri1 a b c h1 h2, hf.tri2 a b c h1 h2]
  · exact tri_walk h1 h2 h k1 (k1.symm.trans k2)
  · simp [hf.tri1 a b c h1 h2, hf.tri2 a b c h1 h2]
  · exact tri_walk h1 h2 h (k2.trans k1.symm) k1

theorem disj_walk {a b c d : Fin n} (h1 : a < b) (h2 : c < d) (h : b < c ∨ d < a ∨ (a < c ∧ d < b)) {y : Perm (Fin n)} (hy : NCP y)
    (k1 : y.SameCycle a b) (k2 : y.SameCycle c d) : rlen (([(a, b), (c, d)].map tr).prod⁻¹ * y) + 2 = rlen y := by
  refine walk2 h1 h2 k1 (hy.walk_same k2.symm h2.le fun i i1 i2 i3 => tr_mul_of_ne ?_ ?_).symm
  all_goals
    simp only [Ne, Fin.ext_iff, Fin.lt_def, Fin.le_def] at *
    omega

theorem joinOf_disj {a b c d : Fin n} (h1 : a < b) (h2 : c < d) (h : b < c ∨ d < a ∨ (a < c ∧ d < b)) : JoinOf (a, b) (c, d) := by
  refine ⟨[(a, b), (c, d)], [(c, d)], [(a, b)], by simp [h1, h2], by simp [h1, h2], rfl, rfl, fun H _ f hf => ⟨rfl, ?_⟩, fun y hy k1 k2 => ?_⟩
  · simp only [List.map_cons, List.map_nil, List.prod_cons, List.prod_nil, mul_one]
    rcases h with h | h | h
    · exact hf.side a b c d h1 h h2
    · exact (hf.side c d a b h2 h h1).symm
    · exact hf.nest a c d b h.1 h2 h.2
  · exact disj_walk h1 h2 h hy k1 k2

theorem joinOf_cross {a b c d : Fin n} (h1 : a < b) (h2 : b < c) (h3 : c < d) : JoinOf (a, c) (b, d) := by
  have hac := h1.trans h2
  have hbd := h2.trans h3
  have had := h1.trans hbd
  refine ⟨[(c, d), (b, c), (a, b)], [(a, d), (b, c)], [(c, d), (a, b)], by simp [hac, had, h2], by simp [hbd, h3, h1], rfl, rfl,
    fun H _ f hf => ?_, fun y hy k1 k2 => ?_⟩
  · simp only [List.map_cons, List.map_nil, List.prod_cons, List.prod_nil, mul_one]
    constructor
    · rw [← mul_assoc (f (a, c)), ← hf.tri2 a c d hac h3, ← hf.tri1 a c d hac h3, mul_assoc, hf.tri1 a b c h1 h2]
    · rw [← mul_assoc, hf.tri1 b c d h2 h3, mul_assoc]
  · have kab := hy.cross h1 h2 h3 k1 k2
    have kbc := kab.symm.trans k1
    have kcd := kbc.symm.trans k2
    refine walk3 h3 h2 h1 kcd (hy.walk_same kbc.symm h2.le fun i i1 i2 i3 => tr_mul_of_ne ?_ ?_).symm
      (hy.walk_same kab.symm h1.le fun i i1 i2 i3 => ?_).symm
    · exact (i3.trans_le i1).ne
    · exact ((i3.trans_le i1).trans h3).ne
    · have l := i3.trans_le i1
      rw [tr_mul_of_ne, tr_mul_of_ne]
      · exact (l.trans h2).ne
      · exact ((l.trans h2).trans h3).ne
      · rw [tr_mul_of_ne (l.trans h2).ne ((l.trans h2).trans h3).ne]; exact l.ne
      · rw [tr_mul_of_ne (l.trans h2).ne ((l.trans h2).trans h3).ne]; exact (l.trans h2).ne

theorem joinOf_all (p q : Fin n × Fin n) (hp : p.1 < p.2) (hq : q.1 < q.2) : JoinOf p q := by
  obtain ⟨a, b⟩ := p
  obtain ⟨c, d⟩ := q
  simp only at hp hq
  rcases lt_trichotomy a c with hac | rfl | hac
  · rcases lt_trichotomy b c with hbc | rfl | hbc
    · exact joinOf_disj hp hq (Or.inl hbc)
    · exact (joinOf_tri hp hq).1
    · rcases lt_trichotomy b d with hbd | rfl | hbd
      · exact joinOf_cross hac hbc hbd
      · exact (joinOf_tri hac hq).2.2.symm
      · exact joinOf_disj hp hq (Or.inr (Or.inr ⟨hac, hbd⟩))
  · rcases lt_trichotomy b d with hbd | rfl | hbd
    · exact (joinOf_tri hp hbd).2.1
    · exact joinOf_self hp
    · exact (joinOf_tri hq hbd).2.1.symm
  · rcases lt_trichotomy a d with had | rfl | had
    · rcases lt_trichotomy b d with hbd | rfl | hbd
      · exact (joinOf_disj hq hp (Or.inr (Or.inr ⟨hac, hbd⟩))).symm
      · exact (joinOf_tri hac hp).2.2
      · exact (joinOf_cross hac had hbd).symm
    · exact (joinOf_tri hq hp).1.symm
    · exact joinOf_disj hp hq (Or.inr (Or.inl had))

theorem len_tr {p : Fin n × Fin n} (h : p.1 < p.2) : rlen (tr p) = 1 := rlen_swap h.ne

theorem len_trs {w : List (Fin n × Fin n)} (h : ∀ s ∈ w, s.1 < s.2) : rlen (w.map tr).prod ≤ w.length := by
  induction w with
  | nil => simp [rlen_eq_zero.2]
  | cons p w ih =>
    have h1 := ih (fun s hs => h s (by simp [hs]))
    have h2 := rlen_mul_le (tr p) (w.map tr).prod
    rw [len_tr (h p (by simp))] at h2
    simp only [List.map_cons, List.prod_cons, List.length_cons]; omega

theorem tr_le_iff {p : Fin n × Fin n} (h : p.1 < p.2) (x : Perm (Fin n)) : rlen (tr p) + rlen ((tr p)⁻¹ * x) = rlen x ↔ x.SameCycle p.1 p.2 := by
  rw [← rlen_swap_lt_iff x h.ne, len_tr h, tr, swap_inv, add_comm]

theorem sameCycle_dcyc (a b : Fin n) : (dcyc n).SameCycle a b := by
  rcases n with _ | _ | n
  · exact a.elim0
  · rw [show a = b from Fin.ext (by omega)]
  · rw [dcyc, Perm.sameCycle_inv]
    have h := isCycle_finRotate (n := n)
    exact h.sameCycle (by simp [finRotate_succ_apply]) (by simp [finRotate_succ_apply])

/-- The Garside germ of the dual presentation: reflection length, descending cycle, transpositions. -/
noncomputable def nparGerm (n : Nat) : Germ (Perm (Fin n)) where
  len := rlen
  D := dcyc n
  atom s := ∃ p : Fin n × Fin n, p.1 < p.2 ∧ s = tr p
  len_eq_zero := rlen_eq_zero
  len_mul_le := rlen_mul_le
  len_inv := rlen_inv
  len_conj x := rlen_conj x _
  atom_len := by rintro s ⟨p, hp, rfl⟩; exact len_tr hp
  exists_atom := by
    intro x h1 _
    obtain ⟨a, b, hab, h⟩ := exists_rlen_split h1
    have hs := (rlen_swap_lt_iff x hab).1 h
    rcases lt_or_gt_of_ne hab with hlt | hlt
    · exact ⟨_, ⟨(a, b), hlt, rfl⟩, (tr_le_iff hlt x).2 hs⟩
    · exact ⟨_, ⟨(b, a), hlt, rfl⟩, (tr_le_iff (p := (b, a)) hlt x).2 hs.symm⟩
  join := by
    rintro s t x ⟨p, hp, rfl⟩ ⟨q, hq, rfl⟩ _ _ _
    obtain ⟨w, u, u', h1, h2, h3, h4, h5, h6⟩ := joinOf_all p q hp hq
    have e := h5 _ tr tr_rel
    have hlow : w.length ≤ rlen (w.map tr).prod := by
      have a := h6 (dcyc n) ncp_dcyc (sameCycle_dcyc _ _) (sameCycle_dcyc _ _)
      have b := rlen_mul_le (w.map tr).prod ((w.map tr).prod⁻¹ * dcyc n)
      rw [mul_inv_cancel_left] at b
      omega
    have hup : rlen (w.map tr).prod ≤ w.length := by rw [e.1, h3]; exact len_trs h1
    refine ⟨(w.map tr).prod, ?_, ?_, fun y hy sy ty => ?_⟩
    · have a := rlen_mul_le (tr p) ((tr p)⁻¹ * (w.map tr).prod)
      rw [mul_inv_cancel_left] at a
      have b : rlen ((tr p)⁻¹ * (w.map tr).prod) ≤ u.length := by
        rw [e.1]; simp only [List.map_cons, List.prod_cons, inv_mul_cancel_left]
        exact len_trs fun s hs => h1 s (by simp [hs])
      rw [len_tr hp] at a ⊢
      simp only [List.length_cons] at h3; omega
    · have a := rlen_mul_le (tr q) ((tr q)⁻¹ * (w.map tr).prod)
      rw [mul_inv_cancel_left] at a
      have b : rlen ((tr q)⁻¹ * (w.map tr).prod) ≤ u'.length := by
        rw [e.2]; simp only [List.map_cons, List.prod_cons, inv_mul_cancel_left]
        exact len_trs fun s hs => h2 s (by simp [hs])
      rw [len_tr hq] at a ⊢
      simp only [List.length_cons] at h4; omega
    · have := h6 y (ncp_of_below hy) ((tr_le_iff hp y).1 sy) ((tr_le_iff hq y).1 ty)
      omega

theorem nparGerm_P {x : Perm (Fin n)} : (nparGerm n).P x ↔ NCP x := below_iff x

theorem nparGerm_le {p : Fin n × Fin n} (h : p.1 < p.2) {x : Perm (Fin n)} : (nparGerm n).le (tr p) x ↔ x.SameCycle p.1 p.2 := tr_le_iff h x

theorem npar_atoms : (∀ p : Fin n × Fin n, p.1 < p.2 → (nparGerm n).atom (tr p)) ∧
    ∀ s, (nparGerm n).atom s → ∃ p : Fin n × Fin n, p.1 < p.2 ∧ tr p = s :=
  ⟨fun p h => ⟨p, h, rfl⟩, fun _ ⟨p, hp, e⟩ => ⟨p, hp, e.symm⟩⟩

theorem npar_joinCond {H : Type} [Group H] (f : Fin n × Fin n → H) (hf : BKLRel f) :
    Germ.JoinCond (nparGerm n) (fun p => p.1 < p.2) tr f := by
  intro p q x hp hq hx lp lq
  obtain ⟨w, u, u', h1, h2, h3, h4, h5, h6⟩ := joinOf_all p q hp hq
  have e := h5 _ tr tr_rel
  have k := h6 x (nparGerm_P.1 hx) ((nparGerm_le hp).1 lp) ((nparGerm_le hq).1 lq)
  have hup : rlen (w.map tr).prod ≤ w.length := by rw [e.1, h3]; exact len_trs h1
  have hle : (nparGerm n).le (w.map tr).prod x := by rw [Germ.le_iff]; change rlen _ + rlen _ ≤ rlen _; omega
  have hlen : w.length = rlen (w.map tr).prod := by
    unfold Germ.le at hle; change rlen _ + rlen _ = rlen _ at hle; omega
  refine ⟨(w.map tr).prod, u, u', hle, ⟨h1, e.1.symm, h3 ▸ hlen⟩, ⟨h2, e.2.symm, h4 ▸ hlen⟩, ?_⟩
  rw [← (h5 _ f hf).1, (h5 _ f hf).2]

/-- A factorisation along which the length of the descending cycle drops is reduced. -/
theorem red_of_walk {w : List (Fin n × Fin n)} (hw : ∀ s ∈ w, s.1 < s.2) (h : rlen ((w.map tr).prod⁻¹ * dcyc n) + w.length = rlen (dcyc n)) :
    (nparGerm n).P (w.map tr).prod ∧ Germ.Red (nparGerm n) (fun p => p.1 < p.2) tr w (w.map tr).prod := by
  have hup : rlen (w.map tr).prod ≤ w.length := len_trs hw
  have hle : (nparGerm n).le (w.map tr).prod (dcyc n) := by rw [Germ.le_iff]; change rlen _ + rlen _ ≤ rlen _; omega
  refine ⟨hle, hw, rfl, ?_⟩
  unfold Germ.le at hle; change rlen _ + rlen _ = rlen _ at hle
  change _ = rlen _; omega

end Peyl
