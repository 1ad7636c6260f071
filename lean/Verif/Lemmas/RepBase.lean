import Verif.Lemmas.ProjRep
import Verif.Lemmas.NFSpec
/-!
# Evaluation of words and normal forms in a representation
-/
namespace Peyl
open LaurentPolynomial

namespace Matrix

/-- The entry is an `LPoly`. -/
def IsLP (x : Entry) : Prop := ∃ q, x = .lp q
def IsInt (x : Entry) : Prop := ∃ k, x = .int k

theorem isLP_mul_right {x y : Entry} (h : IsLP y) : IsLP (Entry.mul x y) := by
  obtain ⟨q, rfl⟩ := h; cases x <;> exact ⟨_, rfl⟩
theorem isLP_add_right {x y : Entry} (h : IsLP y) : IsLP (Entry.add x y) := by
  obtain ⟨q, rfl⟩ := h; cases x <;> exact ⟨_, rfl⟩
theorem isLP_mul_left {x y : Entry} (h : IsLP x) : IsLP (Entry.mul x y) := by
  obtain ⟨q, rfl⟩ := h; cases y <;> exact ⟨_, rfl⟩
theorem isLP_add_left {x y : Entry} (h : IsLP x) : IsLP (Entry.add x y) := by
  obtain ⟨q, rfl⟩ := h; cases y <;> exact ⟨_, rfl⟩
theorem isInt_mul {x y : Entry} (h : IsInt x) (h' : IsInt y) : IsInt (Entry.mul x y) := by
  obtain ⟨q, rfl⟩ := h; obtain ⟨r, rfl⟩ := h'; exact ⟨_, rfl⟩
theorem isInt_add {x y : Entry} (h : IsInt x) (h' : IsInt y) : IsInt (Entry.add x y) := by
  obtain ⟨q, rfl⟩ := h; obtain ⟨r, rfl⟩ := h'; exact ⟨_, rfl⟩

theorem foldl_addAt_lp {α : Type} (ps : List α) (f : α → Nat) (g : α → Entry) (acc : List Entry)
    (h : ∀ p ∈ ps, f p < acc.length) (hg : ∀ p ∈ ps, IsLP (g p)) (c : Nat) (hc : IsLP (at' acc c) ∨ ∃ p ∈ ps, f p = c) :
    IsLP (at' (ps.foldl (fun acc p => addAt acc (f p) (g p)) acc) c) := by
  induction ps generalizing acc with
  | nil => rcases hc with hc | ⟨p, hp, -⟩
           · exact hc
           · cases hp
  | cons p ps ih =>
    have h1 := h p (by simp)
    apply ih (addAt acc (f p) (g p)) (by intro q hq; simpa [addAt] using h q (by simp [hq])) (fun q hq => hg q (by simp [hq]))
    rw [at_addAt _ _ _ _ h1]
    by_cases e : f p = c
    · rw [if_pos e]; exact .inl (isLP_add_right (hg p (by simp)))
    · rw [if_neg e]
      rcases hc with hc | ⟨q, hq, e'⟩
      · exact .inl hc
      · rcases List.mem_cons.1 hq with rfl | hq
        · exact absurd e' e
        · exact .inr ⟨q, hq, e'⟩

theorem foldl_addAt_int {α : Type} (ps : List α) (f : α → Nat) (g : α → Entry) (acc : List Entry)
    (h : ∀ p ∈ ps, f p < acc.length) (hg : ∀ p ∈ ps, IsInt (g p)) (c : Nat) (hc : IsInt (at' acc c)) :
    IsInt (at' (ps.foldl (fun acc p => addAt acc (f p) (g p)) acc) c) := by
  induction ps generalizing acc with
  | nil => exact hc
  | cons p ps ih =>
    have h1 := h p (by simp)
    apply ih (addAt acc (f p) (g p)) (by intro q hq; simpa [addAt] using h q (by simp [hq])) (fun q hq => hg q (by simp [hq]))
    rw [at_addAt _ _ _ _ h1]
    split
    · exact isInt_add hc (hg p (by simp))
    · exact hc

theorem all_iff_at {l : List Entry} (P : Entry → Prop) : (∀ x ∈ l, P x) ↔ ∀ k < l.length, P (at' l k) := by
  constructor
  · intro h k hk
    apply h
    rw [at', List.getD_eq_getElem?_getD, List.getElem?_eq_getElem hk]; exact List.getElem_mem hk
  · intro h x hx
    obtain ⟨k, hk, rfl⟩ := List.getElem_of_mem hx
    have := h k hk
    rwa [at', List.getD_eq_getElem?_getD, List.getElem?_eq_getElem hk] at this

/-- The kind of the entries of a square product. -/
theorem mul_kind {a b x : Matrix} {d : Nat} (hd : 0 < d) (ha : a.Shape d d) (hb : b.Shape d d) (h : mul a b = .ok x) :
    ((∀ y ∈ b.data, IsLP y) → ∀ y ∈ x.data, IsLP y) ∧
    ((∀ y ∈ a.data, IsLP y) → ∀ y ∈ x.data, IsLP y) ∧
    ((∀ y ∈ a.data, IsInt y) → (∀ y ∈ b.data, IsInt y) → ∀ y ∈ x.data, IsInt y) := by
  unfold mul at h
  rw [ha.ncols, ha.nrows, hb.nrows, hb.ncols, if_neg (by simp)] at h
  simp only at h
  set triples := (List.range d).flatMap fun i => (List.range d).flatMap fun j => (List.range d).map fun k => (i, j, k) with ht
  have hmem : ∀ t ∈ triples, t.1 < d ∧ t.2.1 < d ∧ t.2.2 < d := by
    intro t h
    simp only [ht, List.mem_flatMap, List.mem_map, List.mem_range] at h
    obtain ⟨i, hi, j, hj, k, hk, rfl⟩ := h
    exact ⟨hi, hj, hk⟩
  have hidx : ∀ t ∈ triples, d * t.1 + t.2.1 < (List.replicate (d * d) (Entry.int 0)).length := by
    intro t h
    have := hmem t h
    rw [List.length_replicate]
    exact idx_lt this.1 this.2.1
  have hrep : ∀ k, at' (List.replicate (d * d) (Entry.int 0)) k = .int 0 := by
    intro k
    rw [at', List.getD_eq_getElem?_getD, List.getElem?_replicate]
    split <;> rfl
  have hlen := (foldl_addAt triples (fun t => d * t.1 + t.2.1)
    (fun t => Entry.mul (at' a.data (d * t.1 + t.2.2)) (at' b.data (d * t.2.2 + t.2.1)))
    (List.replicate (d * d) (.int 0)) hidx (by
      intro k; rw [hrep]; trivial)).1
  rw [make] at h
  split at h
  · cases h
  split at h
  · cases h
  rw [Except.ok.injEq] at h
  have hx := congrArg Matrix.data h
  rw [← hx]
  simp only
  have hcov : ∀ k < d * d, ∃ t ∈ triples, d * t.1 + t.2.1 = k := by
    intro k hk
    refine ⟨(k / d, k % d, 0), ?_, Nat.div_add_mod k d⟩
    simp only [ht, List.mem_flatMap, List.mem_map, List.mem_range]
    exact ⟨_, Nat.div_lt_of_lt_mul hk, _, Nat.mod_lt _ hd, 0, hd, rfl⟩
  have atL : ∀ {m : Matrix} {P : Entry → Prop}, m.Shape d d → (∀ y ∈ m.data, P y) → ∀ i j, i < d → j < d → P (at' m.data (d * i + j)) := by
    intro m P hm hP i j hi hj
    exact (all_iff_at P).1 hP _ (by rw [hm.length]; exact idx_lt hi hj)
  refine ⟨fun hl => ?_, fun hl => ?_, fun hl hr => ?_⟩
  · rw [all_iff_at]
    intro k hk
    rw [hlen, List.length_replicate] at hk
    refine foldl_addAt_lp triples (fun t => d * t.1 + t.2.1) _ _ hidx (fun t h => ?_) k (.inr (hcov k hk))
    exact isLP_mul_right (atL hb hl _ _ (hmem t h).2.2 (hmem t h).2.1)
  · rw [all_iff_at]
    intro k hk
    rw [hlen, List.length_replicate] at hk
    refine foldl_addAt_lp triples (fun t => d * t.1 + t.2.1) _ _ hidx (fun t h => ?_) k (.inr (hcov k hk))
    exact isLP_mul_left (atL ha hl _ _ (hmem t h).1 (hmem t h).2.2)
  · rw [all_iff_at]
    intro k hk
    refine foldl_addAt_int triples (fun t => d * t.1 + t.2.1) _ _ hidx (fun t h => ?_) k ⟨0, hrep k⟩
    exact isInt_mul (atL ha hl _ _ (hmem t h).1 (hmem t h).2.2) (atL hb hr _ _ (hmem t h).2.2 (hmem t h).2.1)

/-- Either all entries are `LPoly`s, or all are ints and the matrix is the identity. -/
def Kind (d : Nat) (m : Matrix) : Prop := (∀ y ∈ m.data, IsLP y) ∨ ((∀ y ∈ m.data, IsInt y) ∧ m.den d d = 1)

theorem kind_identity (d : Nat) : Kind d (identity d) := by
  refine .inr ⟨?_, den_identity d⟩
  intro y hy
  simp only [identity, tabulate, List.mem_flatMap, List.mem_map] at hy
  obtain ⟨i, -, j, -, rfl⟩ := hy
  exact ⟨_, rfl⟩

/-- Products of square matrices of one kind. -/
theorem mul_good {a b : Matrix} {d : Nat} (hd : 0 < d) (ha : a.Shape d d) (hb : b.Shape d d) (ka : Kind d a) (kb : Kind d b) :
    ∃ x, mul a b = .ok x ∧ x.Shape d d ∧ Kind d x ∧ x.den d d = a.den d d * b.den d d ∧ ((∀ y ∈ b.data, IsLP y) → ∀ y ∈ x.data, IsLP y) := by
  obtain ⟨x, h1, h2, h3⟩ := mul_spec ha hb
  obtain ⟨k1, k2, k3⟩ := mul_kind hd ha hb h1
  refine ⟨x, h1, h2, ?_, h3, k1⟩
  rcases kb with kb | kb
  · exact .inl (k1 kb)
  · rcases ka with ka | ka
    · exact .inl (k2 ka)
    · exact .inr ⟨k3 ka.1 kb.1, by rw [h3, ka.2, kb.2, one_mul]⟩

theorem powLoop_kind {d : Nat} (hd : 0 < d) (exp : Nat) : ∀ {acc pow2 : Matrix}, acc.Shape d d → pow2.Shape d d → Kind d acc → (∀ y ∈ pow2.data, IsLP y) →
    ∀ x, powLoop acc pow2 exp = .ok x → Kind d x := by
  induction exp using Nat.strong_induction_on with
  | _ exp ih =>
    intro acc pow2 ha hp ka kp x h
    rw [powLoop] at h
    split at h
    · cases h; exact ka
    · next hne =>
      obtain ⟨q, q1, q2, q3, -, q5⟩ := mul_good hd hp hp (.inl kp) (.inl kp)
      obtain ⟨r, r1, r2, r3, -, -⟩ := mul_good hd ha hp ka (.inl kp)
      split at h
      · rw [r1] at h; simp only [bind_ok, q1] at h
        exact ih (exp / 2) (by omega) r2 q2 r3 (q5 kp) x h
      · simp only [bind_ok, q1] at h
        exact ih (exp / 2) (by omega) ha q2 ka (q5 kp) x h

theorem pow_good {a : Matrix} {d : Nat} (hd : 0 < d) (ha : a.Shape d d) (ka : ∀ y ∈ a.data, IsLP y) (e : Nat) :
    ∃ x, pow a e = .ok x ∧ x.Shape d d ∧ Kind d x ∧ x.den d d = a.den d d ^ e := by
  obtain ⟨x, h1, h2, h3⟩ := pow_spec ha e
  refine ⟨x, h1, h2, ?_, h3⟩
  rw [pow, ha.nrows, ha.ncols, if_neg (by simp), if_neg (by omega)] at h1
  exact powLoop_kind hd _ (shape_identity d) ha (kind_identity d) ka x h1

theorem denMod_mul {a b x : Matrix} {p d : Nat} (h : x.den d d = a.den d d * b.den d d) : x.denMod p d = a.denMod p d * b.denMod p d := by
  rw [denMod, h, _root_.Matrix.map_mul]; rfl

theorem denMod_one {x : Matrix} {p d : Nat} (h : x.den d d = 1) : x.denMod p d = 1 := by
  rw [denMod, h, _root_.Matrix.map_one _ (map_zero _) (map_one _)]

theorem denMod_pow {a x : Matrix} {p d : Nat} {e : Nat} (h : x.den d d = a.den d d ^ e) : x.denMod p d = a.denMod p d ^ e := by
  have : ∀ M : _root_.Matrix (Fin d) (Fin d) ℤ[T;T⁻¹], (M ^ e).map (LPoly.red p) = (M.map (LPoly.red p)) ^ e := fun M =>
    map_pow (LPoly.red p).mapMatrix M e
  rw [denMod, h, this]; rfl

/-- Coefficients in `[0, p)` (no condition for `p = 0`). -/
def CoeffRed (p d : Nat) (m : Matrix) : Prop := p ≠ 0 → ∀ i j k, 0 ≤ (m.den d d i j).coeff k ∧ (m.den d d i j).coeff k < p

end Matrix

namespace RepBase
open Matrix Polymat
variable {d : Nat} {rep : RepBase d} {ρ : Braid rep.n →* LMat rep.p d}

theorem letter_spec (H : Realises rep ρ) (hd : 0 < d) {ie : Nat × ℤ} (h : ie.1 + 1 < rep.n) :
    ∃ m, rep.letter ie = .ok m ∧ m.Shape d d ∧ Kind d m ∧ m.denMod rep.p d = ρ (sigma rep.n ie.1 ^ ie.2) := by
  obtain ⟨i, e⟩ := ie
  simp only at h
  by_cases he : e ≥ 0
  · have hi : i < rep.gens.length := by have := H.gens_len; omega
    obtain ⟨g1, g2, g3⟩ := H.gens i hi
    obtain ⟨x, x1, x2, x3, x4⟩ := pow_good hd g1 g2 e.toNat
    rw [Int.toNat_of_nonneg he] at x1
    refine ⟨x, ?_, x2, x3, ?_⟩
    · simp only [letter, if_pos he, lookup_lt hi, bind_ok, x1]
    · rw [denMod_pow x4, g3, ← map_pow, ← zpow_natCast, Int.toNat_of_nonneg he]
  · have hi : i < rep.invs.length := by have := H.invs_len; omega
    obtain ⟨g1, g2, g3⟩ := H.invs i hi
    obtain ⟨x, x1, x2, x3, x4⟩ := pow_good hd g1 g2 e.natAbs
    refine ⟨x, ?_, x2, x3, ?_⟩
    · simp only [letter, if_neg he, lookup_lt hi, bind_ok, x1]
    · rw [denMod_pow x4, g3, ← map_pow, ← zpow_natCast, inv_zpow', Int.natCast_natAbs, abs_of_neg (by omega), neg_neg]

theorem foldl_spec (hd : 0 < d) (p : Nat) : ∀ (ms : List Matrix) (acc : Matrix), acc.Shape d d → Kind d acc → (∀ m ∈ ms, m.Shape d d ∧ Kind d m) →
    ∃ x, ms.foldlM Matrix.mul acc = .ok x ∧ x.Shape d d ∧ Kind d x ∧ x.denMod p d = acc.denMod p d * (ms.map (Matrix.denMod p d)).prod
  | [], acc, h1, h2, _ => ⟨acc, rfl, h1, h2, by simp⟩
  | m :: ms, acc, h1, h2, h => by
    obtain ⟨m1, m2⟩ := h m (by simp)
    obtain ⟨x, x1, x2, x3, x4, -⟩ := mul_good hd h1 m1 h2 m2
    obtain ⟨y, y1, y2, y3, y4⟩ := foldl_spec hd p ms x x2 x3 fun m' hm => h m' (by simp [hm])
    refine ⟨y, by rw [List.foldlM_cons, x1, bind_ok, y1], y2, y3, ?_⟩
    rw [y4, Matrix.denMod_mul x4, List.map_cons, List.prod_cons, mul_assoc]

theorem coeff_one_red {p : Nat} (hp0 : p ≠ 0) (hp : p ≠ 1) (i j : Fin d) (k : ℤ) :
    0 ≤ ((1 : _root_.Matrix (Fin d) (Fin d) ℤ[T;T⁻¹]) i j).coeff k ∧ ((1 : _root_.Matrix (Fin d) (Fin d) ℤ[T;T⁻¹]) i j).coeff k < p := by
  rw [_root_.Matrix.one_apply]
  have h1 : ∀ k : ℤ, (1 : ℤ[T;T⁻¹]).coeff k = if k = 0 then 1 else 0 := by
    intro k
    rw [← T_zero, T, AddMonoidAlgebra.coeff_single, Finsupp.single_apply]
    simp only [eq_comm]
  split
  · rw [h1]; split <;> omega
  · simp; omega

theorem coeffRed_modp {p : Nat} {m : Matrix} (h : m.Shape d d) (hp : p ≠ 1) (hk : Kind d m) :
    CoeffRed p d (if p ≠ 0 then m.map (Entry.modp p) else m) ∧ Kind d (if p ≠ 0 then m.map (Entry.modp p) else m) := by
  by_cases hp0 : p = 0
  · rw [if_neg (by simpa using hp0)]
    exact ⟨fun h => absurd hp0 h, hk⟩
  · rw [if_pos hp0]
    rcases hk with hk | ⟨hk, h1⟩
    · refine ⟨fun _ i j k => ?_, .inl ?_⟩
      · rw [den_map h _ (Entry.ok_modp p)]
        obtain ⟨q, hq⟩ := hk _ (at_mem h i j)
        rw [hq, Entry.modp, Entry.den, LPoly.coeffAt_map _ (by simp), Int.fmod_eq_emod_of_nonneg _ (by omega)]
        exact ⟨Int.emod_nonneg _ (by omega), Int.emod_lt_of_pos _ (by omega)⟩
      · intro y hy
        obtain ⟨x, hx, rfl⟩ := List.mem_map.1 hy
        obtain ⟨q, rfl⟩ := hk x hx
        exact ⟨_, rfl⟩
    · have : m.map (Entry.modp p) = m := by
        have e : m.data.map (Entry.modp p) = m.data := by
          conv_rhs => rw [← List.map_id m.data]
          apply List.map_congr_left
          intro x hx
          obtain ⟨k, rfl⟩ := hk x hx
          rfl
        rw [Matrix.map, e]
      rw [this]
      refine ⟨fun _ i j k => ?_, .inr ⟨hk, h1⟩⟩
      rw [h1]; exact coeff_one_red hp0 hp i j k

theorem evaluate_spec (H : Realises rep ρ) (hd : 0 < d) (hp : rep.p ≠ 1) (w : List (Nat × ℤ)) (hw : ∀ se ∈ w, se.1 + 1 < rep.n) :
    ∃ m, rep.evaluateArtinWord w = .ok m ∧ m.Shape d d ∧ Kind d m ∧ CoeffRed rep.p d m ∧ m.denMod rep.p d = ρ (wordBraid rep.n w) := by
  have : ∃ ms, w.mapM rep.letter = .ok ms ∧ (∀ m ∈ ms, m.Shape d d ∧ Kind d m) ∧
      (ms.map (Matrix.denMod rep.p d)).prod = ρ (wordBraid rep.n w) := by
    clear hp
    induction w with
    | nil => exact ⟨[], rfl, by simp, by simp [wordBraid]⟩
    | cons a w ih =>
      obtain ⟨ms, h1, h2, h3⟩ := ih fun se hse => hw se (by simp [hse])
      obtain ⟨m, m1, m2, m3, m4⟩ := letter_spec H hd (hw a (by simp))
      refine ⟨m :: ms, by rw [List.mapM_cons, m1, bind_ok, h1, bind_ok]; rfl, ?_, ?_⟩
      · intro y hy; rcases List.mem_cons.1 hy with rfl | hy
        · exact ⟨m2, m3⟩
        · exact h2 y hy
      · rw [List.map_cons, List.prod_cons, h3, m4, ← map_mul]; simp [wordBraid]
  obtain ⟨ms, h1, h2, h3⟩ := this
  obtain ⟨x, x1, x2, x3, x4⟩ := foldl_spec hd rep.p ms (Matrix.identity d) (shape_identity d) (kind_identity d) h2
  rw [denMod_one (den_identity d), one_mul, h3] at x4
  obtain ⟨r1, r2⟩ := coeffRed_modp x2 hp x3
  refine ⟨_, by rw [evaluateArtinWord, h1, bind_ok, x1, bind_ok], ?_, r2, r1, ?_⟩
  · split
    · exact shape_map x2 _ (Entry.ok_modp _)
    · exact x2
  · rw [← x4]
    split
    · exact red_map_modp x2 rep.p
    · rfl

end RepBase
end Peyl
