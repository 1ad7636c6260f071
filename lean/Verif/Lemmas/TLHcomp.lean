import Verif.Lemmas.TLAlg
import Mathlib.LinearAlgebra.Matrix.Kronecker
import Mathlib.Data.Fin.Tuple.Basic
/-!
# Diagrams side by side
-/
namespace Peyl
open LaurentPolynomial

namespace TL

/-- `t` drawn inside `s`, between its points `i - 1` and `i`. -/
def insSeq (s t : List Nat) (i : Nat) : List Nat :=
  (s.take i).map (fun x => if x < i then x else x + t.length) ++ t.map (· + i) ++ (s.drop i).map (fun x => if x < i then x else x + t.length)

theorem insert_ins {s t : List Nat} {i : Nat} (h : i ≤ s.length) : TL.insert s t i = .ok (insSeq s t i) := by
  rw [TL.insert, pyAssert, if_pos (by simpa using h), bind_ok]; rfl

theorem insSeq_length {s t : List Nat} {i : Nat} (h : i ≤ s.length) : (insSeq s t i).length = s.length + t.length := by
  simp [insSeq]; omega

theorem at_ins {s t : List Nat} {i : Nat} (h : i ≤ s.length) (x : Nat) (hx : x < s.length + t.length) :
    at_ (insSeq s t i) x = if x < i then (if at_ s x < i then at_ s x else at_ s x + t.length)
      else if x < i + t.length then at_ t (x - i) + i
      else (if at_ s (x - t.length) < i then at_ s (x - t.length) else at_ s (x - t.length) + t.length) := by
  have hl : x < (insSeq s t i).length := by rw [insSeq_length h]; exact hx
  rw [at_lt _ _ hl]
  simp only [insSeq]
  by_cases h1 : x < i
  · rw [if_pos h1, List.getElem_append_left (by simp; omega), List.getElem_append_left (by simp; omega)]
    simp only [List.getElem_map, List.getElem_take]
    rw [at_lt _ _ (by omega)]
  · rw [if_neg h1]
    by_cases h2 : x < i + t.length
    · rw [if_pos h2, List.getElem_append_left (by simp; omega), List.getElem_append_right (by simp; omega)]
      simp only [List.getElem_map, List.length_map, List.length_take]
      rw [at_lt _ _ (by omega)]
      simp only [Nat.min_eq_left h]
    · rw [if_neg h2, List.getElem_append_right (by simp; omega)]
      simp only [List.getElem_map, List.length_append, List.length_map, List.length_take, List.getElem_drop]
      have e : i + (x - (min i s.length + t.length)) = x - t.length := by omega
      simp only [e]
      rw [at_lt _ _ (by omega)]

theorem insSeq_nc {s t : List Nat} {i : Nat} (h : i ≤ s.length) (hs : Crossingless s) (ht : Crossingless t) : Crossingless (insSeq s t i) := by
  have hl := insSeq_length (t := t) h
  -- points of the outer and of the inner diagram
  have ho : ∀ x, x < s.length + t.length → ¬ (i ≤ x ∧ x < i + t.length) → ∃ y, y < s.length ∧ x = (if y < i then y else y + t.length) ∧
      at_ (insSeq s t i) x = (if at_ s y < i then at_ s y else at_ s y + t.length) := by
    intro x hx hn
    by_cases h1 : x < i
    · exact ⟨x, by omega, by rw [if_pos h1], by rw [at_ins h x hx, if_pos h1]⟩
    · exact ⟨x - t.length, by omega, by rw [if_neg (by omega)]; omega, by rw [at_ins h x hx, if_neg h1, if_neg (by omega)]⟩
  have hi : ∀ x, i ≤ x → x < i + t.length → at_ (insSeq s t i) x = at_ t (x - i) + i := by
    intro x h1 h2
    rw [at_ins h x (by omega), if_neg (by omega), if_pos h2]
  have ho' : ∀ y, y < s.length → at_ (insSeq s t i) (if y < i then y else y + t.length) = (if at_ s y < i then at_ s y else at_ s y + t.length) := by
    intro y hy
    obtain ⟨z, z1, z2, z3⟩ := ho (if y < i then y else y + t.length) (by split <;> omega) (by split <;> omega)
    have : z = y := by split_ifs at z2 <;> omega
    rw [z3, this]
  refine ⟨fun x hx => ?_, fun x hx => ?_, fun x hx => ?_, fun a b ha hb h1 h2 h3 => ?_⟩
  · rw [hl] at hx ⊢
    by_cases hc : i ≤ x ∧ x < i + t.length
    · rw [hi x hc.1 hc.2]; have := ht.lt (x - i) (by omega); omega
    · obtain ⟨y, y1, y2, y3⟩ := ho x hx hc
      rw [y3]; have := hs.lt y y1; split <;> omega
  · rw [hl] at hx
    by_cases hc : i ≤ x ∧ x < i + t.length
    · rw [hi x hc.1 hc.2]; have := ht.nofix (x - i) (by omega); omega
    · obtain ⟨y, y1, y2, y3⟩ := ho x hx hc
      rw [y3, y2]; have := hs.nofix y y1; split_ifs <;> omega
  · rw [hl] at hx
    by_cases hc : i ≤ x ∧ x < i + t.length
    · have l := ht.lt (x - i) (by omega)
      rw [hi x hc.1 hc.2, hi _ (by omega) (by omega), show at_ t (x - i) + i - i = at_ t (x - i) by omega, ht.invol _ (by omega)]
      omega
    · obtain ⟨y, y1, y2, y3⟩ := ho x hx hc
      rw [y3, ho' _ (hs.lt y y1), hs.invol y y1, y2]
  · rw [hl] at ha hb
    by_cases ca : i ≤ a ∧ a < i + t.length
    · have la := ht.lt (a - i) (by omega)
      rw [hi a ca.1 ca.2] at h2 h3
      rw [hi b (by omega) (by omega)] at h3
      exact ht.noncross (a - i) (b - i) (by omega) (by omega) (by omega) (by omega) (by omega)
    · obtain ⟨y, y1, y2, y3⟩ := ho a ha ca
      rw [y3] at h2 h3
      have ly := hs.lt y y1
      by_cases cb : i ≤ b ∧ b < i + t.length
      · rw [hi b cb.1 cb.2] at h3
        have lb := ht.lt (b - i) (by omega)
        split_ifs at h2 h3 <;> omega
      · obtain ⟨z, z1, z2, z3⟩ := ho b hb cb
        rw [z3] at h3
        have lz := hs.lt z z1
        refine hs.noncross y z y1 z1 ?_ ?_ ?_ <;> split_ifs at * <;> omega

/-- The matrix of the picture of two diagrams side by side. -/
theorem Fits_ins {s t : List Nat} {n1 m1 n2 m2 : Nat} (hs : Crossingless s) (ht : Crossingless t) (h1 : s.length = n1 + m1) (h2 : t.length = n2 + m2)
    (σ1 : Fin n1 → Bool) (σ2 : Fin n2 → Bool) (τ1 : Fin m1 → Bool) (τ2 : Fin m2 → Bool) :
    Fits (insSeq s t m1) (m1 + m2) (ext (Fin.append σ1 σ2)) (ext (Fin.append τ1 τ2)) ↔ Fits s m1 (ext σ1) (ext τ1) ∧ Fits t m2 (ext σ2) (ext τ2) := by
  have hl := insSeq_length (t := t) (show m1 ≤ s.length by omega)
  have happ : ∀ {a b : Nat} (f : Fin a → Bool) (g : Fin b → Bool) (v : Nat), ext (Fin.append f g) v = if v < a then ext f v else ext g (v - a) := by
    intro a b f g v
    by_cases c1 : v < a
    · rw [if_pos c1, ext_lt _ c1, ext_lt _ (by omega)]
      exact Fin.append_left f g ⟨v, c1⟩
    · rw [if_neg c1]
      by_cases c2 : v < a + b
      · rw [ext_lt _ c2, ext_lt _ (by omega)]
        have := Fin.append_right f g ⟨v - a, by omega⟩
        rw [← this]
        congr 1
        ext; simp; omega
      · rw [ext, ext, dif_neg c2, dif_neg (by omega)]
  -- colours
  have ci : ∀ x, x < t.length → col (s.length + t.length) (m1 + m2) (ext (Fin.append σ1 σ2)) (ext (Fin.append τ1 τ2)) (x + m1) = col t.length m2 (ext σ2) (ext τ2) x := by
    intro x hx
    rw [col, col]
    split_ifs
    · rw [happ, if_neg (by omega)]; congr 1; omega
    · omega
    · omega
    · rw [happ, if_neg (by omega)]; congr 1; omega
  have co : ∀ y, y < s.length → col (s.length + t.length) (m1 + m2) (ext (Fin.append σ1 σ2)) (ext (Fin.append τ1 τ2)) (if y < m1 then y else y + t.length) = col s.length m1 (ext σ1) (ext τ1) y := by
    intro y hy
    by_cases c : y < m1
    · rw [if_pos c, col, col, if_pos (by omega), if_pos c, happ, if_pos c]
    · rw [if_neg c, col, col, if_neg (by omega), if_neg c, happ, if_pos (by omega)]
      congr 1; omega
  constructor
  · intro hf
    constructor
    · intro y hy
      have hx := hf (if y < m1 then y else y + t.length) (by rw [hl]; split <;> omega)
      rw [hl] at hx
      rw [co y hy] at hx
      rw [← hx, ← co _ (hs.lt y hy)]
      congr 1
      rw [at_ins (by omega) _ (by split <;> omega)]
      by_cases c : y < m1
      · simp only [if_pos c]
      · simp only [if_neg c]
        rw [if_neg (show ¬ y + t.length < m1 by omega), if_neg (show ¬ y + t.length < m1 + t.length by omega)]
        simp only [Nat.add_sub_cancel]
    · intro x hx
      have hy := hf (x + m1) (by rw [hl]; omega)
      rw [hl, ci x hx] at hy
      rw [← hy, ← ci _ (ht.lt x hx)]
      congr 1
      rw [at_ins (by omega) _ (by omega), if_neg (by omega), if_pos (by omega), Nat.add_sub_cancel]
  · rintro ⟨f1, f2⟩ x hx
    rw [hl] at hx ⊢
    rw [at_ins (by omega) x hx]
    by_cases c1 : x < m1
    · rw [if_pos c1, co _ (hs.lt x (by omega)), f1 x (by omega), ← co x (by omega), if_pos c1]
    · rw [if_neg c1]
      by_cases c2 : x < m1 + t.length
      · rw [if_pos c2, ci _ (ht.lt _ (by omega)), f2 _ (by omega), ← ci _ (by omega)]
        congr 1; omega
      · rw [if_neg c2, co _ (hs.lt _ (by omega)), f1 _ (by omega), ← co _ (by omega), if_neg (by omega)]
        congr 1; omega

open Kronecker in
theorem W_ins {s t : List Nat} {n1 m1 n2 m2 : Nat} (hs : Crossingless s) (ht : Crossingless t) (h1 : s.length = n1 + m1) (h2 : t.length = n2 + m2) :
    (W (n1 + n2) (m1 + m2) (insSeq s t m1)).submatrix (Fin.appendEquiv n1 n2) (Fin.appendEquiv m1 m2) = W n1 m1 s ⊗ₖ W n2 m2 t := by
  ext ⟨σ1, σ2⟩ ⟨τ1, τ2⟩
  rw [Matrix.submatrix_apply, Matrix.kroneckerMap_apply]
  show W _ _ _ (Fin.append σ1 σ2) (Fin.append τ1 τ2) = _
  have := Fits_ins hs ht h1 h2 σ1 σ2 τ1 τ2
  simp only [W]
  by_cases a1 : Fits s m1 (ext σ1) (ext τ1) <;> by_cases a2 : Fits t m2 (ext σ2) (ext τ2) <;> simp [a1, a2, this]

end TL

namespace TLDiag
open TL Kronecker

/-- `b` to the right of `a`. -/
def beside (a b : TLDiag) : TLDiag := ⟨a.top + b.top, a.bot + b.bot, insSeq a.seq b.seq a.bot⟩

theorem beside_ok {a b : TLDiag} (ha : a.Ok) (hb : b.Ok) : (beside a b).Ok := by
  have h1 := ha.1; have h2 := hb.1
  refine ⟨?_, insSeq_nc (by omega) ha.2 hb.2⟩
  show a.top + b.top + (a.bot + b.bot) = (insSeq a.seq b.seq a.bot).length
  rw [insSeq_length (by omega)]; omega

theorem hcomp_ok {a b : TLDiag} (ha : a.Ok) (hb : b.Ok) : hcomp a b = .ok (beside a b) := by
  have h1 := ha.1
  rw [hcomp, insert_ins (by omega), bind_ok]
  exact make_ok (beside_ok ha hb).1 (beside_ok ha hb).2

theorem mat_beside {a b : TLDiag} {n1 m1 n2 m2 : Nat} (ha : a.Ok) (hb : b.Ok) (h1 : a.top = n1) (h2 : a.bot = m1) (h3 : b.top = n2) (h4 : b.bot = m2) :
    (mat (n1 + n2) (m1 + m2) (beside a b)).submatrix (Fin.appendEquiv n1 n2) (Fin.appendEquiv m1 m2) = mat n1 m1 a ⊗ₖ mat n2 m2 b := by
  have e1 := ha.1; have e2 := hb.1
  subst h2
  exact W_ins ha.2 hb.2 (by omega) (by omega)

theorem submatrix_inj {A B C D : Type*} (e : A ≃ B) (f : C ≃ D) {M N : _root_.Matrix B D ℕ} (h : M.submatrix e f = N.submatrix e f) : M = N := by
  ext i j
  have := congrFun (congrFun h (e.symm i)) (f.symm j)
  simpa using this

/-- The interchange law. -/
theorem interchange {a b c d : TLDiag} (ha : a.Ok) (hb : b.Ok) (hc : c.Ok) (hd : d.Ok) (h1 : a.bot = c.top) (h2 : b.bot = d.top) :
    prodD (beside a b) (beside c d) = beside (prodD a c) (prodD b d) ∧ prodL (beside a b) (beside c d) = prodL a c + prodL b d := by
  obtain ⟨-, -, ac1, ac2, aco⟩ := mul_ok ha hc h1
  obtain ⟨-, -, bd1, bd2, bdo⟩ := mul_ok hb hd h2
  have ab := beside_ok ha hb
  have cd := beside_ok hc hd
  have hx : (beside a b).bot = (beside c d).top := by show a.bot + b.bot = c.top + d.top; omega
  obtain ⟨-, -, r1, r2, ro⟩ := mul_ok ab cd hx
  refine mat_inj (n := a.top + b.top) (m := c.bot + d.bot) ro (beside_ok aco bdo) r1 r2 (by show (prodD a c).top + (prodD b d).top = _; omega)
    (by show (prodD a c).bot + (prodD b d).bot = _; omega) ?_
  rw [← mat_prod (t := a.top + b.top) (m := a.bot + b.bot) (b := c.bot + d.bot) ab cd rfl rfl hx.symm rfl]
  apply submatrix_inj (Fin.appendEquiv a.top b.top) (Fin.appendEquiv c.bot d.bot)
  rw [← Matrix.submatrix_mul_equiv _ _ _ (Fin.appendEquiv a.bot b.bot) _, mat_beside ha hb rfl rfl rfl rfl, mat_beside hc hd h1.symm rfl h2.symm rfl,
    ← Matrix.mul_kronecker_mul, mat_prod ha hc rfl rfl h1.symm rfl, mat_prod hb hd rfl rfl h2.symm rfl, Matrix.submatrix_smul, Pi.smul_apply,
    Pi.smul_apply, mat_beside aco bdo ac1 ac2 bd1 bd2, Matrix.smul_kronecker, Matrix.kronecker_smul, pow_add, mul_smul]

theorem trc_beside {a b : TLDiag} (ha : a.Ok) (hb : b.Ok) (h1 : a.top = a.bot) (h2 : b.top = b.bot) : (beside a b).trc = a.trc + b.trc := by
  apply Nat.pow_right_injective (le_refl 2)
  dsimp only
  rw [pow_add, (trc_spec (n := a.top) ha rfl h1.symm).2, (trc_spec (n := b.top) hb rfl h2.symm).2,
    (trc_spec (n := a.top + b.top) (beside_ok ha hb) rfl (by show a.bot + b.bot = _; omega)).2, ← Matrix.trace_kronecker, ← mat_beside ha hb rfl h1.symm rfl h2.symm]
  simp only [_root_.Matrix.trace, _root_.Matrix.diag, Matrix.submatrix_apply]
  exact (Equiv.sum_comp (Fin.appendEquiv a.top b.top) fun x => mat (a.top + b.top) (a.top + b.top) (beside a b) x x).symm

theorem beside_assoc {a b c : TLDiag} (ha : a.Ok) (hb : b.Ok) (hc : c.Ok) : beside (beside a b) c = beside a (beside b c) := by
  have h1 := ha.1; have h2 := hb.1; have h3 := hc.1
  refine ext' (Nat.add_assoc ..) (Nat.add_assoc ..) ?_
  show insSeq (insSeq a.seq b.seq a.bot) c.seq (a.bot + b.bot) = insSeq a.seq (insSeq b.seq c.seq b.bot) a.bot
  have l1 := insSeq_length (s := a.seq) (t := b.seq) (i := a.bot) (by omega)
  have l2 := insSeq_length (s := b.seq) (t := c.seq) (i := b.bot) (by omega)
  have l3 := insSeq_length (s := insSeq a.seq b.seq a.bot) (t := c.seq) (i := a.bot + b.bot) (by omega)
  have l4 := insSeq_length (s := a.seq) (t := insSeq b.seq c.seq b.bot) (i := a.bot) (by omega)
  refine ext_at (by omega) fun x hx => ?_
  rw [at_ins (s := insSeq a.seq b.seq a.bot) (by omega) _ (by omega), at_ins (s := a.seq) (t := insSeq b.seq c.seq b.bot) (by omega) _ (by omega), l2]
  by_cases c1 : x < a.bot
  · rw [if_pos (by omega), if_pos c1, at_ins (by omega) _ (by omega), if_pos c1]
    split_ifs <;> omega
  · rw [if_neg c1]
    by_cases c2 : x < a.bot + (b.seq.length + c.seq.length)
    · rw [if_pos c2, at_ins (s := b.seq) (t := c.seq) (i := b.bot) (by omega) _ (by omega)]
      by_cases c3 : x < a.bot + b.bot
      · have e : at_ (insSeq a.seq b.seq a.bot) x = at_ b.seq (x - a.bot) + a.bot := by
          rw [at_ins (by omega) _ (by omega), if_neg (by omega), if_pos (by omega)]
        rw [if_pos c3, e, if_pos (show x - a.bot < b.bot by omega)]
        split_ifs <;> omega
      · rw [if_neg c3, if_neg (show ¬ x - a.bot < b.bot by omega)]
        by_cases c4 : x < a.bot + b.bot + c.seq.length
        · rw [if_pos c4, if_pos (by omega), show x - a.bot - b.bot = x - (a.bot + b.bot) by omega]; omega
        · have e : at_ (insSeq a.seq b.seq a.bot) (x - c.seq.length) = at_ b.seq (x - a.bot - c.seq.length) + a.bot := by
            rw [at_ins (by omega) _ (by omega), if_neg (by omega), if_pos (by omega)]
            congr 2; omega
          rw [if_neg c4, if_neg (show ¬ x - a.bot < b.bot + c.seq.length by omega), e]
          split_ifs <;> omega
    · have e : at_ (insSeq a.seq b.seq a.bot) (x - c.seq.length) = (if at_ a.seq (x - c.seq.length - b.seq.length) < a.bot then at_ a.seq (x - c.seq.length - b.seq.length)
          else at_ a.seq (x - c.seq.length - b.seq.length) + b.seq.length) := by
        rw [at_ins (by omega) _ (by omega), if_neg (by omega), if_neg (by omega)]
      rw [if_neg c2, if_neg (by omega), if_neg (by omega), e, show x - (b.seq.length + c.seq.length) = x - c.seq.length - b.seq.length by omega]
      split_ifs <;> omega

theorem beside_empty_right {a : TLDiag} (ha : a.Ok) : beside a ⟨0, 0, []⟩ = a := by
  have h1 := ha.1
  refine ext' rfl rfl ?_
  show insSeq a.seq [] a.bot = a.seq
  refine ext_at (by rw [insSeq_length (by omega)]; rfl) fun x hx => ?_
  rw [insSeq_length (by omega)] at hx
  rw [at_ins (by omega) _ hx]
  simp
  omega

theorem beside_empty_left (a : TLDiag) : beside ⟨0, 0, []⟩ a = a := by
  refine ext' (Nat.zero_add _) (Nat.zero_add _) ?_
  show insSeq [] a.seq 0 = a.seq
  simp [insSeq]

theorem beside_id (n m : Nat) : beside ⟨n, n, idSeq n⟩ ⟨m, m, idSeq m⟩ = ⟨n + m, n + m, idSeq (n + m)⟩ := by
  refine ext' rfl rfl ?_
  show insSeq (idSeq n) (idSeq m) n = idSeq (n + m)
  refine ext_at (by rw [insSeq_length (by simp; omega)]; simp; omega) fun x hx => ?_
  rw [insSeq_length (by simp; omega), idSeq_length, idSeq_length] at hx
  rw [at_ins (by simp; omega) _ (by simp; omega), at_idSeq (n + m) x (by omega), idSeq_length]
  split_ifs with c1 c2 c3 c4 c5
  all_goals (try rw [at_idSeq n _ (by omega)] at *) <;> (try rw [at_idSeq m _ (by omega)]) <;> omega

end TLDiag
end Peyl
