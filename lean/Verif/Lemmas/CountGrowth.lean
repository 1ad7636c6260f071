import Verif.Lemmas.GNF
/-!
# How the number of normal forms grows with the length
-/
namespace Peyl
open TableSpec
namespace TableSpec
variable {W : Type} [Group W] {T : Type} {t t' : NFTable T} {g : Germ W} {v : Nat → W}

theorem cnt_zero (t : NFTable T) (f : Nat) : cnt t 0 f = 1 := by simp [cnt, NFTable.normalFormsFrom]

/-- Two tables of the same germ, with the same numbering, count alike. -/
theorem cnt_congr (S : TableSpec t g v) (S' : TableSpec t' g v) (ho : t.order = t'.order) (k : Nat) : ∀ f, f < t.order → cnt t k f = cnt t' k f := by
  induction k with
  | zero => intro f _; rw [cnt_zero, cnt_zero]
  | succ k ih =>
    intro f hf
    obtain ⟨l, l1, l2, l3⟩ := S.follows f hf
    obtain ⟨l', l1', l2', l3'⟩ := S'.follows f (ho ▸ hf)
    rw [S.cnt_succ k l1 fun y hy => ((l3 y).1 hy).1, S'.cnt_succ k l1' fun y hy => ((l3' y).1 hy).1]
    have hp : l.Perm l' := (List.perm_ext_iff_of_nodup l2 l2').2 fun j => by
      rw [l3, l3', ← ho]
      constructor
      · rintro ⟨h1, h2, h3, h4⟩
        exact ⟨h1, h2, fun e => h3 ((S.id_eq h1).2 (by rw [e, S'.v_id])), fun e => h4 ((S.D_eq h1).2 (by rw [e, S'.v_D]))⟩
      · rintro ⟨h1, h2, h3, h4⟩
        exact ⟨h1, h2, fun e => h3 ((S'.id_eq (ho ▸ h1)).2 (by rw [e, S.v_id])), fun e => h4 ((S'.D_eq (ho ▸ h1)).2 (by rw [e, S.v_D]))⟩
    rw [← (hp.map _).sum_eq]
    congr 1
    exact List.map_congr_left fun y hy => ih y ((l3 y).1 hy).1

theorem D_congr (S : TableSpec t g v) (S' : TableSpec t' g v) (ho : t.order = t'.order) : t.D = t'.D :=
  S.inj _ _ S.D_lt (ho ▸ S'.D_lt) (by rw [S.v_D, S'.v_D])

theorem count_eq (S : TableSpec t g v) (k : Nat) : t.countNormalForms k none = .ok (cnt t k t.D) := by
  obtain ⟨ws, w1, w2⟩ := S.count_spec k none (by simp)
  have h : t.normalForms k none = t.normalFormsFrom k t.D := rfl
  rw [w2, cnt, ← h, w1]

theorem cnt_le_D (S : TableSpec t g v) (k : Nat) {f : Nat} (hf : f < t.order) : cnt t k f ≤ cnt t k t.D := by
  cases k with
  | zero => rw [cnt_zero, cnt_zero]
  | succ k =>
    obtain ⟨l, l1, l2, l3⟩ := S.follows f hf
    obtain ⟨l', l1', l2', l3'⟩ := S.follows t.D S.D_lt
    rw [S.cnt_succ k l1 fun y hy => ((l3 y).1 hy).1, S.cnt_succ k l1' fun y hy => ((l3' y).1 hy).1]
    have hs : l ⊆ l' := fun y hy => by
      obtain ⟨h1, -, h3, h4⟩ := (l3 y).1 hy
      exact (l3' y).2 ⟨h1, by rw [S.v_D]; exact Germ.pairN_D _, h3, h4⟩
    obtain ⟨l'', p, q⟩ := List.subperm_of_subset l2 hs
    rw [← (p.map _).sum_eq]
    exact (q.map _).sum_le_sum fun _ _ => Nat.zero_le _

/-- The count is submultiplicative. -/
theorem cnt_add_le (S : TableSpec t g v) (j k : Nat) : ∀ f, f < t.order → cnt t (j + k) f ≤ cnt t j f * cnt t k t.D := by
  induction j with
  | zero => intro f hf; rw [cnt_zero, one_mul, Nat.zero_add]; exact S.cnt_le_D k hf
  | succ j ih =>
    intro f hf
    obtain ⟨l, l1, l2, l3⟩ := S.follows f hf
    have hR : ∀ y ∈ l, y < t.order := fun y hy => ((l3 y).1 hy).1
    rw [show j + 1 + k = (j + k) + 1 by omega, S.cnt_succ _ l1 hR, S.cnt_succ _ l1 hR, ← List.sum_map_mul_right]
    exact List.sum_le_sum fun y hy => ih y (hR y hy)

/-- The factors are counted by the length one. -/
theorem cnt_one (S : TableSpec t g v) : cnt t 1 t.D = t.order - 2 := by
  obtain ⟨l, l1, l2, l3⟩ := S.follows t.D S.D_lt
  have hR : ∀ y ∈ l, y < t.order := fun y hy => ((l3 y).1 hy).1
  have h1 : cnt t 1 t.D = l.length := by
    rw [S.cnt_succ 0 l1 hR, List.map_congr_left fun y _ => cnt_zero t y]; simp
  have hne : t.id ≠ t.D := fun e => S.D_ne (by rw [← S.v_D, ← e, S.v_id])
  have hc : l.toFinset = ((Finset.range t.order).erase t.id).erase t.D := by
    ext y
    simp only [List.mem_toFinset, l3, Finset.mem_erase, Finset.mem_range, S.v_D]
    exact ⟨fun h => ⟨h.2.2.2, h.2.2.1, h.1⟩, fun h => ⟨h.2.2, Germ.pairN_D _, h.2.1, h.1⟩⟩
  rw [h1, ← List.toFinset_card_of_nodup l2, hc, Finset.card_erase_of_mem, Finset.card_erase_of_mem, Finset.card_range]
  · omega
  · exact Finset.mem_range.2 S.id_lt
  · exact Finset.mem_erase.2 ⟨hne.symm, Finset.mem_range.2 S.D_lt⟩

/-- A linear recurrence for the counts after every proper factor holds for ever when it holds at the start. -/
theorem cnt_rec (S : TableSpec t g v) (a b : List (Nat × Nat))
    (h0 : ∀ f, f < t.order → f ≠ t.id → f ≠ t.D → (a.map fun ci => ci.1 * cnt t ci.2 f).sum = (b.map fun ci => ci.1 * cnt t ci.2 f).sum) (k : Nat) :
    (∀ f, f < t.order → f ≠ t.id → f ≠ t.D → (a.map fun ci => ci.1 * cnt t (k + ci.2) f).sum = (b.map fun ci => ci.1 * cnt t (k + ci.2) f).sum) ∧
    (a.map fun ci => ci.1 * cnt t (k + 1 + ci.2) t.D).sum = (b.map fun ci => ci.1 * cnt t (k + 1 + ci.2) t.D).sum := by
  have sw : ∀ (l : List Nat) (f k : Nat), lookup t.follows f = .ok l → (∀ y ∈ l, y < t.order) → ∀ a : List (Nat × Nat),
      (a.map fun ci => ci.1 * cnt t (k + 1 + ci.2) f).sum = (l.map fun y => (a.map fun ci => ci.1 * cnt t (k + ci.2) y).sum).sum := by
    intro l f k hl hR a
    induction a with
    | nil => simp
    | cons c a ih =>
      simp only [List.map_cons, List.sum_cons, ih, List.sum_map_add]
      rw [show k + 1 + c.2 = (k + c.2) + 1 by omega, S.cnt_succ _ hl hR, List.sum_map_mul_left]
  have step : ∀ k, (∀ f, f < t.order → f ≠ t.id → f ≠ t.D → (a.map fun ci => ci.1 * cnt t (k + ci.2) f).sum = (b.map fun ci => ci.1 * cnt t (k + ci.2) f).sum) →
      ∀ f, f < t.order → (a.map fun ci => ci.1 * cnt t (k + 1 + ci.2) f).sum = (b.map fun ci => ci.1 * cnt t (k + 1 + ci.2) f).sum := by
    intro k h f hf
    obtain ⟨l, l1, l2, l3⟩ := S.follows f hf
    have hR : ∀ y ∈ l, y < t.order := fun y hy => ((l3 y).1 hy).1
    rw [sw l f k l1 hR a, sw l f k l1 hR b]
    congr 1
    exact List.map_congr_left fun y hy => h y (hR y hy) ((l3 y).1 hy).2.2.1 ((l3 y).1 hy).2.2.2
  have all : ∀ k, ∀ f, f < t.order → f ≠ t.id → f ≠ t.D → (a.map fun ci => ci.1 * cnt t (k + ci.2) f).sum = (b.map fun ci => ci.1 * cnt t (k + ci.2) f).sum := by
    intro k
    induction k with
    | zero => simpa using h0
    | succ k ih => exact fun f hf _ _ => step k ih f hf
  exact ⟨all k, step k (all k) t.D S.D_lt⟩

/-- If two factors can follow every factor but the identity, the counts at least double. -/
theorem cnt_double (S : TableSpec t g v) (h : ∀ f, f < t.order → f ≠ t.id → ∃ i j, i < t.order ∧ j < t.order ∧ i ≠ j ∧
    (g.PairN (v f) (v i) ∧ i ≠ t.id ∧ i ≠ t.D) ∧ g.PairN (v f) (v j) ∧ j ≠ t.id ∧ j ≠ t.D) (k : Nat) :
    ∀ f, f < t.order → f ≠ t.id → 2 * cnt t k f ≤ cnt t (k + 1) f := by
  induction k with
  | zero =>
    intro f hf hne
    obtain ⟨l, l1, l2, l3⟩ := S.follows f hf
    obtain ⟨i, j, hi, hj, hij, h1, h2⟩ := h f hf hne
    rw [S.cnt_succ 0 l1 fun y hy => ((l3 y).1 hy).1, List.map_congr_left fun y _ => cnt_zero t y, cnt_zero]
    have hsub : [i, j].Subperm l := List.subperm_of_subset (by simpa using hij) (by
      intro y hy
      simp only [List.mem_cons, List.not_mem_nil, or_false] at hy
      rcases hy with rfl | rfl
      · exact (l3 _).2 ⟨hi, h1⟩
      · exact (l3 _).2 ⟨hj, h2⟩)
    have := hsub.length_le
    simp at this ⊢
    omega
  | succ k ih =>
    intro f hf hne
    obtain ⟨l, l1, l2, l3⟩ := S.follows f hf
    have hR : ∀ y ∈ l, y < t.order := fun y hy => ((l3 y).1 hy).1
    rw [S.cnt_succ (k + 1) l1 hR, S.cnt_succ k l1 hR, ← List.sum_map_mul_left]
    exact List.sum_le_sum fun y hy => ih y (hR y hy) ((l3 y).1 hy).2.2.1

end TableSpec

open Equiv in
/-- On three strands or more, two simple braids can follow every simple braid but the identity. -/
theorem two_followers {n : Nat} (hn : 3 ≤ n) {x : Perm (Fin n)} (hx : x ≠ 1) : ∃ y z : Perm (Fin n), y ≠ z ∧
    (LeftWeighted x y ∧ y ≠ 1 ∧ y ≠ w0 n) ∧ LeftWeighted x z ∧ z ≠ 1 ∧ z ≠ w0 n := by
  obtain ⟨i, hi, hd⟩ := exists_descent hx
  obtain ⟨j, hj, hij⟩ : ∃ j, j + 1 < n ∧ (j = i + 1 ∨ i = j + 1) := by
    by_cases h : i + 2 < n
    · exact ⟨i + 1, by omega, .inl rfl⟩
    · exact ⟨i - 1, by omega, .inr (by omega)⟩
  have hz : (sg n i * sg n j)⁻¹ = sg n j * sg n i := by rw [mul_inv_rev, sg_inv, sg_inv]
  have hval : ∀ a : Fin n, ((sg n i * sg n j)⁻¹ a).val =
      (let b := if a.val = i then i + 1 else if a.val = i + 1 then i else a.val; if b = j then j + 1 else if b = j + 1 then j else b) := fun a => by
    rw [hz, Perm.mul_apply, sg_apply_val j _ hj, sg_apply_val i a hi]
  have only : ∀ k (h : k + 1 < n), (sg n i * sg n j)⁻¹ ⟨k + 1, h⟩ < (sg n i * sg n j)⁻¹ ⟨k, by omega⟩ → k = i := by
    intro k h hlt
    rw [Fin.lt_def, hval, hval] at hlt
    dsimp only at hlt
    split_ifs at hlt <;> omega
  have only' : ∀ k (h : k + 1 < n), (sg n i)⁻¹ ⟨k + 1, h⟩ < (sg n i)⁻¹ ⟨k, by omega⟩ → k = i := by
    intro k h hlt
    rw [sg_inv, Fin.lt_def, sg_apply_val i _ hi, sg_apply_val i _ hi] at hlt
    dsimp only at hlt
    split_ifs at hlt <;> omega
  have lw : ∀ y : Perm (Fin n), (∀ k (h : k + 1 < n), y⁻¹ ⟨k + 1, h⟩ < y⁻¹ ⟨k, by omega⟩ → k = i) → LeftWeighted x y := fun y hy k h hlt => by
    obtain rfl := hy k h hlt
    exact hd
  refine ⟨sg n i, sg n i * sg n j, ?_, ⟨lw _ only', sg_ne_one hi, sg_ne_w0 hn hi⟩, lw _ only, ?_, ?_⟩
  · intro e
    exact sg_ne_one hj (by simpa using e.symm)
  · intro e
    have h1 := hval ⟨i, by omega⟩
    rw [e, _root_.inv_one, Perm.one_apply] at h1
    dsimp only at h1
    split_ifs at h1 <;> omega
  · intro e
    have := only j hj (by
      rw [e, Fin.lt_def]
      show (Fin.rev _).val < (Fin.rev _).val
      rw [Fin.val_rev, Fin.val_rev]
      dsimp only
      omega)
    omega

end Peyl
