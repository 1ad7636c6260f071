import Verif.Model.LKB
import Verif.Lemmas.LKB
import Verif.Lemmas.JonesCell
import Mathlib.LinearAlgebra.Matrix.ToLin
import Mathlib.Tactic.NoncommRing
/-!
# The matrices of `LKBRep`
-/
namespace Peyl
open LaurentPolynomial
namespace LKB

theorem fromRows_square {k : Nat} (hk : 0 < k) (F : Nat → Nat → Entry) (hF : ∀ i j, (F i j).Ok) :
    ∃ M, Matrix.fromRows ((List.range k).map fun i => (List.range k).map fun j => F i j) = .ok M ∧ M.Shape k k ∧ ∀ i j, M.den k k i j = (F i j).den := by
  have hsh := Matrix.shape_tabulate k k F hF
  refine ⟨⟨k, k, Matrix.tabulate k k F⟩, ?_, hsh, fun i j => ?_⟩
  · rw [Matrix.fromRows.eq_def]
    split
    · next h => simp at h; omega
    · next r rs h =>
      have hr : r.length = k := by
        have : r ∈ ((List.range k).map fun i => (List.range k).map fun j => F i j) := by rw [h]; exact List.mem_cons_self ..
        obtain ⟨i, -, rfl⟩ := List.mem_map.1 this
        simp
      rw [if_pos, hr]
      · have := (Matrix.make_shape (r := k) (c := k) (d := Matrix.tabulate k k F) (Matrix.length_tabulate _ _ _) hsh.ok).1
        rw [← this, List.length_map, List.length_range]
        rw [Matrix.tabulate, List.flatMap_def]
      · rw [hr, List.all_eq_true]
        intro x hx
        obtain ⟨i, -, rfl⟩ := List.mem_map.1 hx
        simp
  · rw [Matrix.den_apply hsh, Matrix.at_tabulate _ _ _ _ _ i.2 j.2]

theorem mem_pairs {n : Nat} {p : Nat × Nat} : p ∈ pairs n ↔ p.1 < p.2 ∧ p.2 < n := by
  simp only [pairs, List.mem_flatMap, List.mem_range, List.mem_map, List.mem_range'_1]
  constructor
  · rintro ⟨i, hi, j, hj, rfl⟩; dsimp only; omega
  · rintro ⟨h1, h2⟩; exact ⟨p.1, by omega, p.2, by omega, rfl⟩

theorem nodup_pairs (n : Nat) : (pairs n).Nodup := by
  rw [pairs, List.nodup_flatMap]
  refine ⟨fun i _ => (List.nodup_range' ..).map fun a b h => by injection h, ?_⟩
  refine List.nodup_range.imp_of_mem ?_
  intro a b _ _ hab
  rw [Function.onFun, List.disjoint_left]
  intro p hp hp'
  obtain ⟨j, -, rfl⟩ := List.mem_map.1 hp
  obtain ⟨j', -, h⟩ := List.mem_map.1 hp'
  injection h with h1 h2
  exact hab h1.symm

theorem length_pairs (n : Nat) : (pairs n).length = n.choose 2 := by
  have : (pairs n).length = ∑ i ∈ Finset.range n, (n - 1 - i) := by
    rw [pairs, List.length_flatMap]
    simp only [List.length_map, List.length_range']
    rw [show (∑ i ∈ Finset.range n, (n - 1 - i)) = ((List.range n).map fun i => n - 1 - i).sum from rfl]
    refine congrArg List.sum (List.map_congr_left fun i _ => ?_)
    omega
  rw [this, Finset.sum_range_reflect (fun i => i) n, Finset.sum_range_id, Nat.choose_two_right]

theorem get_trimmed (col : List ((Nat × Nat) × LPoly)) (p : Nat × Nat) (h : ∀ e ∈ col, e.2.Trimmed) : (get col p).Trimmed := by
  rw [get]
  split
  · next e he => exact h e (List.mem_of_find?_eq_some he)
  · exact LPoly.trimmed_make _ _

theorem den_get_single (k : Nat × Nat) (c : LPoly) (p : Nat × Nat) : (get [(k, c)] p).den = if p = k then c.den else 0 := by
  rw [get, List.find?_cons]
  by_cases h : p = k
  · subst h; simp
  · rw [if_neg h]
    have : (k == p) = false := by simpa using fun e => h e.symm
    simp only [this, List.find?_nil]
    rw [LPoly.den_make]; simp [listPoly]

theorem den_get_pair {k l : Nat × Nat} (hkl : k ≠ l) (c e : LPoly) (p : Nat × Nat) :
    (get [(k, c), (l, e)] p).den = (if p = k then c.den else 0) + if p = l then e.den else 0 := by
  by_cases h : p = k
  · subst h; rw [if_pos rfl, if_neg hkl, add_zero]; simp [get]
  · have : (k == p) = false := by simpa using fun e => h e.symm
    have e1 : get [(k, c), (l, e)] p = get [(l, e)] p := by simp [get, List.find?_cons, this]
    rw [if_neg h, zero_add, e1, den_get_single]

section
variable {n : Nat} {q t : LPoly}

theorem den_one : (LPoly.make 0 [1]).den = 1 := by rw [LPoly.den_int]; simp

theorem column_ok (hq : q.Trimmed) (ht : t.Trimmed) {s : Nat} (hs : s + 1 < n) {p : Nat × Nat} (hp : p ∈ pairs n) :
    ∃ col, column q t s p.1 p.2 = .ok col ∧ ∀ e ∈ col, e.2.Trimmed := by
  obtain ⟨h1, h2⟩ := mem_pairs.1 hp
  obtain ⟨i, j⟩ := p
  dsimp only at h1 h2 ⊢
  have tm := LPoly.trimmed_make
  unfold column
  dsimp only
  split_ifs with c1 c2 c3 c4 c5 c6 c7
  · exact ⟨_, rfl, by simp only [List.forall_mem_cons]; exact ⟨tm _ _, by simp⟩⟩
  · exact ⟨_, rfl, by simp only [List.forall_mem_cons]; exact ⟨tm _ _, hq, by simp⟩⟩
  · rw [LPoly.pow_nonneg _ _ (by omega), bind_ok]
    exact ⟨_, rfl, by simp only [List.forall_mem_cons]; exact ⟨tm _ _, tm _ _, by simp⟩⟩
  · exact ⟨_, rfl, by simp only [List.forall_mem_cons]; exact ⟨tm _ _, hq, by simp⟩⟩
  · exact ⟨_, rfl, by simp only [List.forall_mem_cons]; exact ⟨tm _ _, tm _ _, by simp⟩⟩
  · exact ⟨_, rfl, by simp only [List.forall_mem_cons]; exact ⟨tm _ _, by simp⟩⟩
  · rw [LPoly.pow_nonneg _ _ (by omega), bind_ok, LPoly.pow_nonneg _ _ (by omega), bind_ok]
    exact ⟨_, rfl, by simp only [List.forall_mem_cons]; exact ⟨tm _ _, tm _ _, by simp⟩⟩
  · exfalso; omega

theorem gen_spec (hq : q.Trimmed) (ht : t.Trimmed) {s : Nat} (hs : s + 1 < n) :
    ∃ M, gen n q t s = .ok M ∧ M.Shape (pairs n).length (pairs n).length ∧ ∀ (a b : Fin (pairs n).length) col,
      column q t s (pairs n)[b].1 (pairs n)[b].2 = .ok col → M.den _ _ a b = (get col (pairs n)[a]).den := by
  have : ∀ p, ∃ col, p ∈ pairs n → column q t s p.1 p.2 = .ok col ∧ ∀ e ∈ col, e.2.Trimmed := fun p => by
    by_cases hp : p ∈ pairs n
    · obtain ⟨col, h⟩ := column_ok hq ht hs hp; exact ⟨col, fun _ => h⟩
    · exact ⟨[], fun h => absurd h hp⟩
  choose C hC using this
  have hpos : 0 < (pairs n).length := List.length_pos_of_mem ((mem_pairs (p := (s, s + 1))).2 ⟨by simp, hs⟩)
  obtain ⟨M, m1, m2, m3⟩ := fromRows_square hpos (fun a b => Entry.lp (if h : a < (pairs n).length ∧ b < (pairs n).length then get (C ((pairs n)[b]'h.2)) ((pairs n)[a]'h.1) else LPoly.make 0 []))
    (fun a b => by
      dsimp only [Entry.Ok]
      split
      · next h => exact get_trimmed _ _ (hC _ (List.getElem_mem _)).2
      · exact LPoly.trimmed_make _ _)
  refine ⟨M, ?_, m2, fun a b col hcol => ?_⟩
  · rw [gen, TL.mapM_ok _ C _ (fun p hp => (hC p hp).1), bind_ok, ← m1]
    congr 1
    apply List.ext_getElem (by simp)
    intro a h1 h2
    rw [List.length_map] at h1
    simp only [List.getElem_map, List.getElem_range, List.map_map]
    apply List.ext_getElem (by simp)
    intro b h3 h4
    rw [List.length_map] at h3
    simp only [List.getElem_map, List.getElem_range, Function.comp_apply]
    rw [dif_pos ⟨h1, h3⟩]
  · rw [m3]
    simp only [Entry.den, a.2, b.2, and_self, dif_pos]
    have := (hC _ (List.getElem_mem b.2)).1
    rw [show ((pairs n)[(b : Nat)]) = (pairs n)[b] from rfl, hcol] at this
    injection this with this
    rw [this]; rfl

/-- The basis vectors. -/
noncomputable def xvec (n i j : Nat) : Fin (pairs n).length → ℤ[T;T⁻¹] := fun a => if (pairs n)[a] = (i, j) then 1 else 0

theorem toLin_xvec (A : _root_.Matrix (Fin (pairs n).length) (Fin (pairs n).length) ℤ[T;T⁻¹]) {i j : Nat} (hij : i < j) (hj : j < n) :
    ∃ b, (pairs n)[b] = (i, j) ∧ _root_.Matrix.toLin' A (xvec n i j) = fun a => A a b := by
  obtain ⟨b, hb, e⟩ := List.getElem_of_mem ((mem_pairs (p := (i, j))).2 ⟨hij, hj⟩)
  refine ⟨⟨b, hb⟩, e, ?_⟩
  have : xvec n i j = Pi.single ⟨b, hb⟩ 1 := by
    funext a
    rw [xvec, Pi.single_apply]
    congr 1
    rw [eq_iff_iff]
    constructor
    · intro h
      exact Fin.ext ((nodup_pairs n).getElem_inj_iff.1 (h.trans e.symm))
    · rintro rfl; exact e
  rw [this, _root_.Matrix.toLin'_apply, _root_.Matrix.mulVec_single_one]
  rfl

theorem acts (hq : q.Trimmed) (ht : t.Trimmed) (G : Nat → Matrix) (hG : ∀ s, s + 1 < n → gen n q t s = .ok (G s)) :
    Acts n q.den t.den (xvec n) (fun s => _root_.Matrix.toLin' ((G s).den (pairs n).length (pairs n).length)) := by
  have key : ∀ s i j col, s + 1 < n → i < j → j < n → column q t s i j = .ok col →
      _root_.Matrix.toLin' ((G s).den (pairs n).length (pairs n).length) (xvec n i j) = fun a => (get col (pairs n)[a]).den := by
    intro s i j col hs hij hj hcol
    obtain ⟨M, m1, m2, m3⟩ := gen_spec hq ht hs
    rw [hG s hs] at m1; cases m1
    obtain ⟨b, hb, e⟩ := toLin_xvec ((G s).den (pairs n).length (pairs n).length) hij hj
    rw [e]
    funext a
    exact m3 a b col (by rw [hb]; exact hcol)
  constructor
  · intro s hs
    rw [key s s (s + 1) _ hs (by omega) hs (by rw [column, if_pos ⟨rfl, rfl⟩])]
    funext a
    simp [den_get_single, xvec, LPoly.den_mul]
  · intro s i hs hi
    rw [key s i s _ hs hi (by omega) (by rw [column, if_neg (by omega), if_pos ⟨hi, rfl⟩])]
    funext a
    rw [den_get_pair (by simp)]
    simp [xvec, LPoly.den_mul, LPoly.den_add, LPoly.den_neg, den_one]
    split_ifs <;> ring
  · intro s i hs hi
    rw [key s i (s + 1) _ hs (by omega) hs (by rw [column, if_neg (by omega), if_neg (by omega), if_pos ⟨hi, rfl⟩, LPoly.pow_nonneg _ _ (by omega), bind_ok])]
    funext a
    rw [den_get_pair (by simp)]
    have : ((s + 1 : Nat) - (i : Int)).toNat = s + 1 - i := by omega
    rw [this]
    simp [xvec, LPoly.den_mul, LPoly.den_sub, den_one, LPoly.den_powNat]
  · intro s j hj hs
    rw [key s s j _ (by omega) (by omega) hj (by rw [column, if_neg (by omega), if_neg (by omega), if_neg (by omega), if_pos ⟨rfl, hs⟩])]
    funext a
    rw [den_get_pair (by simp)]
    simp [xvec, LPoly.den_mul, LPoly.den_sub, den_one]
  · intro s j hj hs
    rw [key s (s + 1) j _ (by omega) (by omega) hj (by rw [column, if_neg (by omega), if_neg (by omega), if_neg (by omega), if_neg (by omega), if_pos ⟨rfl, hs⟩])]
    funext a
    rw [den_get_pair (by simp)]
    simp [xvec, LPoly.den_add, LPoly.den_neg, den_one]
    split_ifs <;> ring
  · intro s i j hs hj hij h
    rw [key s i j _ hs hij hj (by rw [column, if_neg (by omega), if_neg (by omega), if_neg (by omega), if_neg (by omega), if_neg (by omega), if_pos (by omega)])]
    funext a
    simp [den_get_single, xvec, den_one]
  · intro s i j hs hj hi hsj
    rw [key s i j _ hs (by omega) hj (by rw [column, if_neg (by omega), if_neg (by omega), if_neg (by omega), if_neg (by omega), if_neg (by omega), if_neg (by omega), if_pos (by omega), LPoly.pow_nonneg _ _ (by omega), bind_ok, LPoly.pow_nonneg _ _ (by omega), bind_ok])]
    funext a
    rw [den_get_pair (by simp; omega)]
    simp [xvec, LPoly.den_mul, LPoly.den_sub, den_one, LPoly.den_powNat]

theorem ext_xvec {A B : _root_.Matrix (Fin (pairs n).length) (Fin (pairs n).length) ℤ[T;T⁻¹]}
    (h : ∀ i j, i < j → j < n → _root_.Matrix.toLin' A (xvec n i j) = _root_.Matrix.toLin' B (xvec n i j)) : A = B := by
  funext a b
  obtain ⟨h1, h2⟩ := mem_pairs.1 (List.getElem_mem b.2)
  obtain ⟨b', e, hA⟩ := toLin_xvec A h1 h2
  obtain ⟨b'', e', hB⟩ := toLin_xvec B h1 h2
  have : b' = b := Fin.ext ((nodup_pairs n).getElem_inj_iff.1 e)
  have : b'' = b := Fin.ext ((nodup_pairs n).getElem_inj_iff.1 e')
  subst_vars
  have := h _ _ h1 h2
  rw [hA, hB] at this
  exact congrFun this a

/-- Everything about the generator matrices. -/
theorem main (hq : q.Trimmed) (ht : t.Trimmed) (hqu : q.isUnit = true) (htu : t.isUnit = true) (hn : 1 ≤ n) :
    ∃ G : Nat → Matrix, artinGensInvs n q t = .ok ((List.range (n - 1)).map G, (List.range (n - 1)).map G) ∧
      (∀ s, s + 1 < n → (G s).Shape (pairs n).length (pairs n).length) ∧
      Acts n q.den t.den (xvec n) (fun s => _root_.Matrix.toLin' ((G s).den (pairs n).length (pairs n).length)) := by
  have : ∀ s, ∃ M, s + 1 < n → gen n q t s = .ok M ∧ M.Shape (pairs n).length (pairs n).length := fun s => by
    by_cases hs : s + 1 < n
    · obtain ⟨M, h1, h2, -⟩ := gen_spec hq ht hs; exact ⟨M, fun _ => ⟨h1, h2⟩⟩
    · exact ⟨⟨0, 0, []⟩, fun h => absurd h hs⟩
  choose G hG using this
  refine ⟨G, ?_, fun s hs => (hG s hs).2, acts hq ht G fun s hs => (hG s hs).1⟩
  rw [artinGensInvs, pyAssert, if_pos (by simpa using hn), bind_ok, pyAssert, if_pos hqu, bind_ok, pyAssert, if_pos htu, bind_ok,
    TL.mapM_ok _ G _ (fun s hs => (hG s (by have := List.mem_range.1 hs; omega)).1), bind_ok]

end
end LKB
end Peyl
