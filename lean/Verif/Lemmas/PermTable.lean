import Verif.Lemmas.NFEnum
import Verif.Lemmas.PermGerm
import Verif.Lemmas.PermEnum
import Verif.Spec.BraidNF
/-!
# The permutation table implements the permutation germ
-/
namespace Peyl
open Equiv Perms Relation
variable {n : Nat}

theorem mapM_ok {α γ : Type} (f : α → Except Err γ) (l : List α) (h : ∀ x ∈ l, ∃ y, f x = .ok y) :
    ∃ r, l.mapM f = .ok r ∧ r.length = l.length ∧ ∀ i (hi : i < l.length) (hr : i < r.length), f l[i] = .ok r[i] := by
  induction l with
  | nil => exact ⟨[], rfl, rfl, by simp⟩
  | cons x l ih =>
    obtain ⟨y, hy⟩ := h x (by simp)
    obtain ⟨r, r1, r2, r3⟩ := ih (fun z hz => h z (by simp [hz]))
    refine ⟨y :: r, by rw [List.mapM_cons, hy, bind_ok, r1]; rfl, by simp [r2], ?_⟩
    intro i hi hr
    cases i with
    | zero => simpa using hy
    | succ i => simpa using r3 i (by simpa using hi) (by simpa using hr)

theorem permAt_spec {i : Nat} (h : i < (elements n).length) : (elements n)[i] = wordOf (permAt n i) := by
  have hm := (elements_mem (elements n)[i]).1 (List.getElem_mem h)
  have hex : ∃ π : Perm (Fin n), (elements n)[i]? = some (wordOf π) := by
    obtain ⟨π, hπ⟩ := hm; exact ⟨π, by rw [List.getElem?_eq_getElem h, hπ]⟩
  rw [permAt, dif_pos hex]
  have := hex.choose_spec
  exact Option.some.inj ((List.getElem?_eq_getElem h).symm.trans this)

theorem dictIndex_ok {α : Type} [BEq α] [LawfulBEq α] {l : List α} {x : α} (h : x ∈ l) :
    ∃ i, ∃ hi : i < l.length, dictIndex l x = .ok i ∧ l[i] = x := by
  cases e : l.idxOf? x with
  | none => exact absurd h (List.idxOf?_eq_none_iff.1 e)
  | some i =>
    obtain ⟨h1, h2, -⟩ := List.idxOf?_eq_some_iff.1 e
    exact ⟨i, h1, by rw [dictIndex, e], h2⟩

theorem dictIndex_getElem {α : Type} [BEq α] [LawfulBEq α] {l : List α} (hl : l.Nodup) {i : Nat} (hi : i < l.length) :
    dictIndex l l[i] = .ok i := by
  obtain ⟨j, hj, h1, h2⟩ := dictIndex_ok (List.getElem_mem hi)
  rw [h1, (hl.getElem_inj_iff).1 h2]

/-- Looking up a permutation. -/
theorem perm_index (π : Perm (Fin n)) : ∃ i, i < n.factorial ∧ dictIndex (elements n) (wordOf π) = .ok i ∧ permAt n i = π := by
  obtain ⟨i, hi, h1, h2⟩ := dictIndex_ok ((elements_mem _).2 ⟨π, rfl⟩)
  refine ⟨i, by rw [← elements_length]; exact hi, h1, ?_⟩
  rw [permAt_spec hi] at h2; exact wordOf_injective h2

theorem permAt_inj {i j : Nat} (hi : i < n.factorial) (hj : j < n.factorial) (h : permAt n i = permAt n j) : i = j := by
  rw [← elements_length] at hi hj
  have := (permAt_spec hi).trans ((congrArg wordOf h).trans (permAt_spec hj).symm)
  exact ((elements_nodup n).getElem_inj_iff).1 this

/-- A column of the table computed permutation by permutation. -/
theorem perm_column (F : Perm (Fin n) → Perm (Fin n)) (f : List Nat → Except Err Nat)
    (hf : ∀ π, f (wordOf π) = dictIndex (elements n) (wordOf (F π))) :
    ∃ r, (elements n).mapM f = .ok r ∧ ∀ i, i < n.factorial → ∃ j, j < n.factorial ∧ lookup r i = .ok j ∧ permAt n j = F (permAt n i) := by
  obtain ⟨r, r1, r2, r3⟩ := mapM_ok f (elements n) (by
    intro x hx
    obtain ⟨π, rfl⟩ := (elements_mem x).1 hx
    obtain ⟨i, -, h, -⟩ := perm_index (F π)
    exact ⟨i, by rw [hf, h]⟩)
  refine ⟨r, r1, fun i hi => ?_⟩
  rw [← elements_length] at hi
  have h := r3 i hi (by omega)
  rw [permAt_spec hi, hf] at h
  obtain ⟨j, hj, h1, h2⟩ := perm_index (F (permAt n i))
  rw [h1] at h
  simp only [Except.ok.injEq] at h
  exact ⟨j, hj, by rw [lookup_lt (by omega), h], h2⟩

theorem sg_le_rc_iff (x : Perm (Fin n)) {i : Nat} (h : i + 1 < n) :
    (permGerm n).le (sg n i) (x⁻¹ * (permGerm n).D) ↔ x ⟨i, by omega⟩ < x ⟨i + 1, h⟩ := by
  rw [permGerm_le h]
  show (x⁻¹ * w0 n)⁻¹ _ < (x⁻¹ * w0 n)⁻¹ _ ↔ _
  rw [mul_inv_rev, _root_.inv_inv, w0_inv, Perm.mul_apply, Perm.mul_apply]
  simp [w0]

theorem pairN_perm (x y : Perm (Fin n)) : (permGerm n).PairN x y ↔
    ∀ i (h : i + 1 < n), y⁻¹ ⟨i + 1, h⟩ < y⁻¹ ⟨i, by omega⟩ → x ⟨i + 1, h⟩ < x ⟨i, by omega⟩ := by
  constructor
  · intro hN i h hy
    by_contra hc
    have hne : x ⟨i, by omega⟩ ≠ x ⟨i + 1, h⟩ := by intro e; have := x.injective e; simp at this
    exact hN (sg n i) (permGerm_atom h) ((sg_le_rc_iff x h).2 (lt_of_le_of_ne (not_lt.1 hc) hne)) ((permGerm_le h).2 hy)
  · rintro hN s ⟨i, h, rfl⟩ h1 h2
    exact absurd (hN i h ((permGerm_le h).1 h2)) (not_lt.2 ((sg_le_rc_iff x h).1 h1).le)

theorem coxGens_ok (n : Nat) : coxGens n = .ok ((List.range (n - 1)).map fun i => wordOf (sg n i)) := by
  unfold coxGens
  have : ∀ l : List Nat, (∀ i ∈ l, i + 1 < n) → l.mapM (fun i => transposition n i (i + 1)) = .ok (l.map fun i => wordOf (sg n i)) := by
    intro l
    induction l with
    | nil => intro _; rfl
    | cons i l ih =>
      intro h
      have hi := h i (by simp)
      rw [List.mapM_cons, transposition_ok i (i + 1) (by omega) hi, bind_ok, ih (fun j hj => h j (by simp [hj])), List.map_cons, sg_eq hi]
      rfl
  exact this _ (fun i hi => by have := List.mem_range.1 hi; omega)

/-- The renormalisation loop, for every choice of descents. -/
theorem renormLoop_spec (ω : Nat → Nat) (fuel k : Nat) (w z : Perm (Fin n)) (hf : inv z < fuel) :
    ∃ w' z' : Perm (Fin n), PermTable.renormLoop ((List.range (n - 1)).map fun i => wordOf (sg n i)) ω fuel k (wordOf w) (wordOf z)
      = .ok (wordOf w', wordOf z') ∧ (permGerm n).Steps [w, z] [w', z'] ∧ (permGerm n).PairN w' z' := by
  induction fuel generalizing k w z with
  | zero => omega
  | succ fuel ih =>
    unfold PermTable.renormLoop
    simp only
    set diff := (leftDescentSet (wordOf z)).filter fun s => !((rightDescentSet (wordOf w)).contains s) with hd
    have hmem : ∀ s, s ∈ diff ↔ ∃ h : s + 1 < n, z⁻¹ ⟨s + 1, h⟩ < z⁻¹ ⟨s, by omega⟩ ∧ ¬ w ⟨s + 1, h⟩ < w ⟨s, by omega⟩ := by
      intro s
      rw [hd, List.mem_filter, leftDescentSet_mem]
      simp only [Bool.not_eq_true', List.contains_eq_mem, decide_eq_false_iff_not, rightDescentSet_mem]
      constructor
      · rintro ⟨⟨h, h1⟩, h2⟩; exact ⟨h, h1, fun h3 => h2 ⟨h, h3⟩⟩
      · rintro ⟨h, h1, h2⟩; exact ⟨⟨h, h1⟩, fun ⟨_, h3⟩ => h2 h3⟩
    by_cases he : diff.isEmpty
    · rw [if_pos he]
      refine ⟨w, z, rfl, .refl, (pairN_perm w z).2 ?_⟩
      intro i h hz
      by_contra hc
      have := (hmem i).2 ⟨h, hz, hc⟩
      rw [List.isEmpty_iff.1 he] at this; simp at this
    · rw [if_neg he]
      have hpos : 0 < diff.length := List.length_pos_iff.2 (fun e => he (by rw [e]; rfl))
      have hlt : ω k % diff.length < diff.length := Nat.mod_lt _ hpos
      obtain ⟨h, h1, h2⟩ := (hmem _).1 (List.getElem_mem hlt)
      set s := diff[ω k % diff.length] with hs
      rw [lookup_lt hlt, bind_ok, ← hs, lookup_lt (by simp; omega), bind_ok, List.getElem_map, List.getElem_range,
        compose_eq, bind_ok, compose_eq, bind_ok]
      have hdown := inv_sg_mul_down z h h1
      obtain ⟨w', z', e1, e2, e3⟩ := ih (k + 1) (w * sg n s) (sg n s * z) (by omega)
      refine ⟨w', z', e1, ?_, e3⟩
      refine ReflTransGen.head ?_ e2
      have hne : w ⟨s, by omega⟩ ≠ w ⟨s + 1, h⟩ := by intro e; have := w.injective e; simp at this
      have st := Germ.Step.head (g := permGerm n) (l := []) (permGerm_atom h) ((sg_le_rc_iff w h).2 (lt_of_le_of_ne (not_lt.1 h2) hne))
        ((permGerm_le h).2 h1)
      rwa [sg_inv] at st

theorem renormEntry_spec (ω : Nat → Nat) (x y : Perm (Fin n)) : ∃ a b bb, PermTable.renormEntry (elements n)
      ((List.range (n - 1)).map fun i => wordOf (sg n i)) ω (wordOf x) (wordOf y) = .ok ((a, b), bb) ∧
      a < n.factorial ∧ b < n.factorial ∧ (permGerm n).Steps [x, y] [permAt n a, permAt n b] ∧
      (permGerm n).PairN (permAt n a) (permAt n b) ∧ (bb = true ↔ (permGerm n).PairN x y) := by
  obtain ⟨w, z, e1, e2, e3⟩ := renormLoop_spec ω (Perms.length (wordOf y) + 1) 0 x y (by rw [length_eq]; omega)
  obtain ⟨i, i1, i2, i3⟩ := perm_index w
  obtain ⟨j, j1, j2, j3⟩ := perm_index z
  refine ⟨i, j, wordOf x == wordOf w && wordOf y == wordOf z, ?_, i1, j1, by rw [i3, j3]; exact e2, by rw [i3, j3]; exact e3, ?_⟩
  · unfold PermTable.renormEntry
    rw [e1, bind_ok, i2, bind_ok, j2, bind_ok]
  · rw [Bool.and_eq_true, beq_iff_eq, beq_iff_eq]
    constructor
    · rintro ⟨h1, h2⟩; rw [wordOf_injective h1, wordOf_injective h2]; exact e3
    · intro h
      have hN : (permGerm n).Nrm [x, y] := by simpa [Germ.Nrm] using h
      have := hN.steps e2
      simp only [List.cons.injEq, and_true] at this
      rw [this.1, this.2]; exact ⟨rfl, rfl⟩

theorem row_follows {α : Type} (row : List (α × Bool)) (i0 D0 : Nat) :
    ((row.zipIdx.filter fun e => e.1.2 && e.2 != i0 && e.2 != D0).map (·.2)).Nodup ∧
    ∀ j, j ∈ (row.zipIdx.filter fun e => e.1.2 && e.2 != i0 && e.2 != D0).map (·.2) ↔
      (∃ h : j < row.length, row[j].2 = true) ∧ j ≠ i0 ∧ j ≠ D0 := by
  constructor
  · refine List.Nodup.sublist (l₂ := row.zipIdx.map (·.2)) ?_ ?_
    · exact List.Sublist.map _ List.filter_sublist
    · have : row.zipIdx.map (·.2) = List.range row.length := by
        apply List.ext_getElem (by simp); intro i h1 h2; simp
      rw [this]; exact List.nodup_range
  · intro j
    simp only [List.mem_map, List.mem_filter, Bool.and_eq_true, bne_iff_ne]
    constructor
    · rintro ⟨⟨e, k⟩, ⟨h1, h2⟩, rfl⟩
      have := List.mk_mem_zipIdx_iff_getElem?.1 h1
      obtain ⟨h3, h4⟩ := List.getElem?_eq_some_iff.1 this
      exact ⟨⟨h3, by rw [h4]; exact h2.1.1⟩, h2.1.2, h2.2⟩
    · rintro ⟨⟨h1, h2⟩, h3, h4⟩
      exact ⟨(row[j], j), ⟨List.mk_mem_zipIdx_iff_getElem?.2 (List.getElem?_eq_getElem h1), ⟨⟨h2, h3⟩, h4⟩⟩, rfl⟩

/-- The permutation table implements the permutation germ, whatever `set.pop` returns. -/
theorem build_spec (ω : List Nat → List Nat → Nat → Nat) (hn : 2 ≤ n) : ∃ t, PermTable.build ω n = .ok t ∧
    TableSpec t (permGerm n) (permAt n) ∧ t.order = n.factorial ∧ t.divs = elements n ∧ t.artinGens.length = n - 1 ∧
    (∀ i, i + 1 < n → ∃ j, j < t.order ∧ lookup t.artinGens i = .ok j ∧ permAt n j = sg n i) ∧
    (∀ i, i < t.order → ∃ w, lookup t.artinWord i = .ok w ∧ (∀ se ∈ w, (se.2 = 1 ∨ se.2 = -1) ∧ se.1 + 1 < n) ∧
      wordBraid n w = lift (permAt n i)) := by
  have hex : ∀ x ∈ elements n, ∃ π : Perm (Fin n), x = wordOf π := fun x hx => (elements_mem x).1 hx
  obtain ⟨i0, i1, i2, i3⟩ := perm_index (1 : Perm (Fin n))
  obtain ⟨d0, d1, d2, d3⟩ := perm_index (w0 n)
  -- generators
  obtain ⟨ag, ag1, ag2, ag3⟩ := mapM_ok (dictIndex (elements n)) ((List.range (n - 1)).map fun i => wordOf (sg n i)) (by
    intro x hx; obtain ⟨i, -, rfl⟩ := List.mem_map.1 hx
    obtain ⟨j, -, h, -⟩ := perm_index (sg n i); exact ⟨j, h⟩)
  obtain ⟨lc, lc1, lc2⟩ := perm_column (n := n) (fun π => w0 n * π⁻¹) (fun p => do
    let q ← compose (longestElement n) (inverse p)
    dictIndex (elements n) q) (fun π => by rw [longestElement_eq, inverse_eq, compose_eq, bind_ok])
  obtain ⟨rc, rc1, rc2⟩ := perm_column (n := n) (fun π => π⁻¹ * w0 n) (fun p => do
    let q ← compose (inverse p) (longestElement n)
    dictIndex (elements n) q) (fun π => by rw [longestElement_eq, inverse_eq, compose_eq, bind_ok])
  obtain ⟨tau, tau1, tau2⟩ := perm_column (n := n) (fun π => w0 n * π * w0 n) (fun p => do
    let q ← compose (longestElement n) p
    let q ← compose q (longestElement n)
    dictIndex (elements n) q) (fun π => by rw [longestElement_eq, compose_eq, bind_ok, compose_eq, bind_ok])
  -- the renormalisation entries
  obtain ⟨en, en1, en2, en3⟩ := mapM_ok (fun x => (elements n).mapM fun y =>
      PermTable.renormEntry (elements n) ((List.range (n - 1)).map fun i => wordOf (sg n i)) (ω x y) x y) (elements n) (by
    intro x hx
    obtain ⟨π, rfl⟩ := hex x hx
    obtain ⟨r, r1, -, -⟩ := mapM_ok (fun y => PermTable.renormEntry (elements n)
      ((List.range (n - 1)).map fun i => wordOf (sg n i)) (ω (wordOf π) y) (wordOf π) y) (elements n) (by
        intro y hy; obtain ⟨ρ, rfl⟩ := hex y hy
        obtain ⟨a, b, bb, h, -⟩ := renormEntry_spec (ω (wordOf π) (wordOf ρ)) π ρ
        exact ⟨_, h⟩)
    exact ⟨r, r1⟩)
  have ent : ∀ i, i < n.factorial → ∃ hi : i < en.length, en[i].length = n.factorial ∧ ∀ j (hj : j < n.factorial),
      ∃ hj' : j < en[i].length, en[i][j].1.1 < n.factorial ∧ en[i][j].1.2 < n.factorial ∧
        (permGerm n).Steps [permAt n i, permAt n j] [permAt n en[i][j].1.1, permAt n en[i][j].1.2] ∧
        (permGerm n).PairN (permAt n en[i][j].1.1) (permAt n en[i][j].1.2) ∧
        (en[i][j].2 = true ↔ (permGerm n).PairN (permAt n i) (permAt n j)) := by
    intro i hi
    rw [← elements_length] at hi
    have hi' : i < en.length := by omega
    refine ⟨hi', ?_⟩
    have h := en3 i hi hi'
    obtain ⟨r, r1, r2, r3⟩ := mapM_ok (fun y => PermTable.renormEntry (elements n)
      ((List.range (n - 1)).map fun i => wordOf (sg n i)) (ω (elements n)[i] y) (elements n)[i] y) (elements n) (by
        intro y hy; obtain ⟨ρ, rfl⟩ := hex y hy
        obtain ⟨a, b, bb, h, -⟩ := renormEntry_spec (ω (elements n)[i] (wordOf ρ)) (permAt n i) ρ
        exact ⟨_, by rw [← permAt_spec hi] at h; exact h⟩)
    rw [r1] at h
    simp only [Except.ok.injEq] at h
    rw [← h]
    refine ⟨by rw [r2, elements_length], fun j hj => ?_⟩
    rw [← elements_length] at hj
    refine ⟨by omega, ?_⟩
    have e := r3 j hj (by omega)
    obtain ⟨a, b, bb, h1, h2, h3, h4, h5, h6⟩ := renormEntry_spec (ω (elements n)[i] (elements n)[j]) (permAt n i) (permAt n j)
    rw [← permAt_spec hi, ← permAt_spec hj] at h1
    rw [h1] at e
    simp only [Except.ok.injEq] at e
    rw [← e]; exact ⟨h2, h3, h4, h5, h6⟩
  -- artin words
  obtain ⟨aw, aw1, aw2, aw3⟩ := mapM_ok (fun p => do
    let w ← shortlex p
    Except.ok (w.map fun s => (s, (1 : Int)))) (elements n) (by
    intro x hx; obtain ⟨π, rfl⟩ := hex x hx
    obtain ⟨w, -, h⟩ := shortlex_spec π
    exact ⟨_, by rw [h, bind_ok]⟩)
  refine ⟨
     { n := n
       order := n.factorial
       divs := elements n
       id := i0
       D := d0
       artinGens := ag
       leftComp := lc
       rightComp := rc
       tauOrder := 2
       tauLeft := [List.range n.factorial, tau]
       tauRight := [List.range n.factorial, tau]
       renorm := en.map fun row => row.map (·.1)
       isNormalised := en.map fun row => row.map (·.2)
       follows := en.map fun row => (row.zipIdx.filter fun e => e.1.2 && e.2 != i0 && e.2 != d0).map (·.2)
       artinWord := aw }, ?_, ?_, rfl, rfl, ?_, ?_, ?_⟩
  · unfold PermTable.build
    simp only
    rw [identity_eq, i2, bind_ok]
    rw [longestElement_eq, d2, bind_ok, coxGens_ok, bind_ok, ag1, bind_ok]
    rw [longestElement_eq] at lc1 rc1 tau1
    rw [lc1, bind_ok, rc1, bind_ok, tau1, bind_ok, en1, bind_ok, aw1, bind_ok]
  · exact
    { D_ne := perm_D_ne hn
      inj := fun i j hi hj h => permAt_inj hi hj h
      simple := fun i _ => permGerm_P _
      surj := fun x _ => by obtain ⟨i, hi, -, h⟩ := perm_index x; exact ⟨i, hi, h⟩
      id_lt := i1
      v_id := i3
      D_lt := d1
      v_D := d3
      leftComp := lc2
      rightComp := rc2
      tauOrder_pos := Nat.succ_pos 1
      tau_order := by
        intro x
        show (permGerm n).tau ((permGerm n).tau x) = x
        unfold Germ.tau
        show (w0 n)⁻¹ * ((w0 n)⁻¹ * x * w0 n) * w0 n = x
        rw [w0_inv, ← mul_assoc, ← mul_assoc, w0_sq, one_mul, mul_assoc, w0_sq, mul_one]
      tauRight := by
        intro k i hk hi
        have : k = 0 ∨ k = 1 := by simp only at hk; omega
        rcases this with rfl | rfl
        · refine ⟨i, hi, ?_, rfl⟩
          show lookup (List.range n.factorial) i = _
          rw [lookup_lt (by simpa using hi)]; simp
        · obtain ⟨j, j1, j2, j3⟩ := tau2 i hi
          refine ⟨j, j1, j2, ?_⟩
          rw [j3]
          show _ = (permGerm n).tau _
          unfold Germ.tau
          show _ = (w0 n)⁻¹ * _ * w0 n
          rw [w0_inv]
      renorm := by
        intro i j hi hj
        obtain ⟨h1, h2, h3⟩ := ent i hi
        obtain ⟨h4, h5, h6, h7, h8, -⟩ := h3 j hj
        refine ⟨_, _, h5, h6, ?_, h7, h8⟩
        unfold lookup2
        rw [lookup_lt (by simpa using h1), bind_ok, lookup_lt (by simpa using h4)]
        simp
      isNormalised := by
        intro i j hi hj
        obtain ⟨h1, h2, h3⟩ := ent i hi
        obtain ⟨h4, h5, h6, h7, h8, h9⟩ := h3 j hj
        refine ⟨_, ?_, h9⟩
        unfold lookup2
        rw [lookup_lt (by simpa using h1), bind_ok, lookup_lt (by simpa using h4)]
        simp
      follows := by
        intro i hi
        obtain ⟨h1, h2, h3⟩ := ent i hi
        have := row_follows en[i] i0 d0
        refine ⟨_, ?_, this.1, fun j => ?_⟩
        · rw [lookup_lt (by simpa using h1), List.getElem_map]
        · rw [this.2]
          constructor
          · rintro ⟨⟨h4, h5⟩, h6⟩
            obtain ⟨_, -, -, -, -, h9⟩ := h3 j (by omega)
            exact ⟨by simp only; omega, h9.1 h5, h6⟩
          · rintro ⟨h4, h5, h6⟩
            obtain ⟨h7, -, -, -, -, h9⟩ := h3 j h4
            exact ⟨⟨h7, h9.2 h5⟩, h6⟩ }
  · simpa using ag2
  · intro i hi
    have h := ag3 i (by simp; omega) (by simp at ag2; omega)
    rw [List.getElem_map, List.getElem_range] at h
    obtain ⟨j, j1, j2, j3⟩ := perm_index (sg n i)
    rw [j2] at h; simp only [Except.ok.injEq] at h
    refine ⟨j, j1, ?_, j3⟩
    show lookup ag i = _
    rw [lookup_lt (by simp at ag2; omega), h]
  · intro i hi
    have hi' : i < (elements n).length := by rw [elements_length]; exact hi
    have h := aw3 i hi' (by omega)
    rw [permAt_spec hi'] at h
    obtain ⟨w, w1, w2⟩ := shortlex_spec (permAt n i)
    simp only [w2, bind_ok, Except.ok.injEq] at h
    have hp := w1.prod
    refine ⟨w.map fun s => (s, 1), ?_, ?_, ?_⟩
    · show lookup aw i = _
      rw [lookup_lt (by omega), h]
    · intro se hse; obtain ⟨s, hs, rfl⟩ := List.mem_map.1 hse
      exact ⟨Or.inl rfl, hp.2.2 s hs⟩
    · rw [lift_eq_posWord (w := w) ⟨hp.2.2, by rw [hp.1, _root_.inv_inv], by rw [hp.2.1, inv_inv]⟩]
      simp [wordBraid, posWord, Function.comp_def]

/-- `GNF` realises the permutation germ in the braid group. -/
theorem gnf_real (lim : Nat) (ω : List Nat → List Nat → Nat → Nat) (hn : 2 ≤ n) (hl : n < lim) : ∃ t,
    NFReal (GNF.tbl lim ω) n t (permGerm n) (permAt n) lift ∧ t.order = n.factorial ∧ t.divs = elements n ∧
    ∀ i, i + 1 < n → ∃ j, j < n.factorial ∧ lookup t.artinGens i = .ok j ∧ permAt n j = sg n i := by
  obtain ⟨t, t1, t2, t3, t4, t5, t6, t7⟩ := build_spec (n := n) ω hn
  refine ⟨t, ⟨?_, t2, lift_hom, perm_faithful _, t5, fun i hi => ?_, t7, ?_⟩, t3, t4, fun i hi => by rw [← t3]; exact t6 i hi⟩
  · show PermTable.create lim ω n = _
    rw [PermTable.create, if_neg (by omega), t1]
  · obtain ⟨j, j1, j2, j3⟩ := t6 i hi
    exact ⟨j, j1, j2, by rw [j3, lift_sg hi]⟩
  · rintro s ⟨i, -, rfl⟩; exact sg_sq i

end Peyl
