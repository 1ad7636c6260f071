import Verif.Lemmas.JonesCell
import Verif.Lemmas.RepBase
import Verif.Lemmas.ProjRep
/-!
# `JonesCellRep` satisfies Artin's relations, and the full twist acts by a power of `v`
-/
namespace Peyl
open LaurentPolynomial
namespace Jones
open TL

theorem allM_ok {α : Type} (f : α → Except Err Bool) (l : List α) (h : ∀ x ∈ l, f x = .ok true) : allM f l = .ok true := by
  induction l with
  | nil => rfl
  | cons x l ih => rw [allM, h x (List.mem_cons_self ..), bind_ok, if_pos rfl, ih fun y hy => h y (List.mem_cons_of_mem _ hy)]

/-- `g` is `x e_i + 1`. -/
structure GenOf (n i : Nat) (x : ℤ[T;T⁻¹]) (g : TLMor) : Prop where
  wf : g.WF
  top : g.top = n
  bot : g.bot = n
  coef : ∀ d, g.coef d = (([(⟨n, n, eSeq i n⟩, x), (⟨n, n, idSeq n⟩, 1)] : List (TLDiag × ℤ[T;T⁻¹])).map fun t => if t.1 = d then t.2 else 0).sum

theorem den_v : LPoly.v.den = T 1 := by
  rw [LPoly.v, LPoly.den_make]
  have : listPoly [0, 1] = Polynomial.X := by simp only [listPoly, map_one, map_zero]; ring
  rw [this, Polynomial.toLaurent_X, T_zero, one_mul]

theorem vinv_spec : ∃ w, LPoly.pow LPoly.v (-1) = .ok w ∧ w.Trimmed ∧ w.den = T (-1) := by
  have hv : (T 1 : ℤ[T;T⁻¹]) * T (-1) = 1 := by rw [← T_add]; simp
  obtain ⟨w, h1, h2, h3⟩ := LPoly.den_pow_unit (a := LPoly.v) (LPoly.trimmed_make _ _) ⟨T 1, T (-1), hv, by rw [mul_comm, hv]⟩ den_v.symm (-1)
  refine ⟨w, h1, h2, ?_⟩
  rw [h3, zpow_neg_one]; rfl

theorem tlGensInvs_spec (n : Nat) : ∃ g g' : Nat → TLMor, tlGensInvs n = .ok ((List.range (n - 1)).map g, (List.range (n - 1)).map g') ∧
    ∀ i, i + 1 < n → GenOf n i (-T 1) (g i) ∧ GenOf n i (-T (-1)) (g' i) := by
  obtain ⟨w, w1, w2, w3⟩ := vinv_spec
  have hv : (T 1 : ℤ[T;T⁻¹]) * T (-1) = 1 := by rw [← T_add]; simp
  have hE : ∀ i, ∃ e, i + 1 < n → TLMor.e i n = .ok e := fun i => by
    by_cases hi : i + 1 < n
    · obtain ⟨e, h, -⟩ := TLMor.e_spec hi; exact ⟨e, fun _ => h⟩
    · exact ⟨⟨0, 0, []⟩, fun h => absurd h hi⟩
  choose E hE using hE
  have key : ∀ (c c' : LPoly), c.den * c'.den = 1 → ∃ G : Nat → TLMor, (((List.range (n - 1)).map E).mapM fun e => do TLMor.smul (← TLMor.subScalar e c) (LPoly.neg c')) =
      .ok ((List.range (n - 1)).map G) ∧ ∀ i, i + 1 < n → GenOf n i (-c'.den) (G i) := by
    intro c c' hc
    have : ∀ i, ∃ g, i + 1 < n → (do TLMor.smul (← TLMor.subScalar (E i) c) (LPoly.neg c')) = .ok g ∧ GenOf n i (-c'.den) g := fun i => by
      by_cases hi : i + 1 < n
      · obtain ⟨g, h1, h2, h3, h4, h5⟩ := TLMor.gen_spec hi hc (hE i hi)
        exact ⟨g, fun _ => ⟨h1, h2, h3, h4, h5⟩⟩
      · exact ⟨⟨0, 0, []⟩, fun h => absurd h hi⟩
    choose G hG using this
    refine ⟨G, ?_, fun i hi => (hG i hi).2⟩
    rw [List.mapM_map]
    exact mapM_ok _ _ _ fun i hi => (hG i (by have := List.mem_range.1 hi; omega)).1
  obtain ⟨g, g1, g2⟩ := key w LPoly.v (by rw [w3, den_v, mul_comm, hv])
  obtain ⟨g', g1', g2'⟩ := key LPoly.v w (by rw [w3, den_v, hv])
  refine ⟨g, g', ?_, fun i hi => ⟨by rw [← den_v]; exact g2 i hi, by rw [← w3]; exact g2' i hi⟩⟩
  rw [tlGensInvs, w1, bind_ok, mapM_ok _ E _ (fun i hi => hE i (by have := List.mem_range.1 hi; omega)), bind_ok, g1, bind_ok, g1', bind_ok]
  rw [allM_ok]
  · rfl
  · intro xy hxy
    obtain ⟨k, hk, rfl⟩ := List.getElem_of_mem hxy
    simp only [List.length_zip, List.length_map, List.length_range, min_self] at hk
    have a := g2 k (by omega); have a' := g2' k (by omega)
    simp only [List.getElem_zip, List.getElem_map, List.getElem_range]
    have := TLMor.gen_mul_inv (i := k) (n := n) (by omega) (x := -LPoly.v.den) (y := -w.den) (by rw [w3, den_v]; linear_combination hv)
      (by rw [w3, den_v]; ring) a.wf a'.wf ⟨a.top, a.bot⟩ ⟨a'.top, a'.bot⟩ a.coef a'.coef
    obtain ⟨u, u1, -⟩ := TLMor.id_spec n
    rw [this, u1, bind_ok, bind_ok]
    simp

theorem dimension_pos {n r : Nat} (h : 2 * r ≤ n) {B : List TLDiag} (hB : ∀ d, d ∈ B ↔ d.top = n ∧ d.bot = n - 2 * r ∧ Cell n (n - 2 * r) d.seq) : B ≠ [] := by
  intro e
  have hc := cupSeq_cell r (n - 2 * r)
  rw [show 2 * r + (n - 2 * r) = n by omega] at hc
  have := (hB ⟨n, n - 2 * r, cupSeq r (n - 2 * r)⟩).2 ⟨rfl, rfl, hc⟩
  rw [e] at this
  cases this

theorem dimension_eq {n r : Nat} {B : List TLDiag} (hB : (B.length : Int) = cellDim n r) : B.length = dimension n r := by
  rw [cellDim] at hB
  rw [dimension]
  split_ifs at hB ⊢ with h
  · subst h; simp at hB; exact_mod_cast hB
  · omega

/-- The matrices `cell_matrices` returns, with the order of the basis. -/
theorem cellMatrices_sorted {n r : Nat} (h : 2 * r ≤ n) : ∃ (β : Fin (dimension n r) → List Nat) (A A' : Nat → Matrix), (∀ a c, a < c → ¬ List.Lex (· < ·) (β c) (β a)) ∧ IsBasis n (n - 2 * r) β ∧
    cellMatrices n r = .ok ((List.range (n - 1)).map A, (List.range (n - 1)).map A') ∧ 0 < dimension n r ∧
    ∀ i, i + 1 < n → ((A i).Shape (dimension n r) (dimension n r) ∧ (∀ x ∈ (A i).data, ∃ q, x = .lp q) ∧
        (A i).den (dimension n r) (dimension n r) = 1 - (T 1 : ℤ[T;T⁻¹]) • Emat (T 1 + T (-1)) β (n - 2 * r + (n - 2 - i))) ∧
      ((A' i).Shape (dimension n r) (dimension n r) ∧ (∀ x ∈ (A' i).data, ∃ q, x = .lp q) ∧
        (A' i).den (dimension n r) (dimension n r) = 1 - (T (-1) : ℤ[T;T⁻¹]) • Emat (T 1 + T (-1)) β (n - 2 * r + (n - 2 - i))) := by
  obtain ⟨B, B1, B2, B3, B4, B5⟩ := cellBasis_spec n r h
  have hne := dimension_pos h B4
  rw [← dimension_eq B5]
  obtain ⟨g, g', hg, hgg⟩ := tlGensInvs_spec n
  have hB := fun d hd => (B4 d).1 hd
  have hok : ∀ d ∈ B, d.Ok := fun d hd => ⟨by rw [(hB d hd).1, (hB d hd).2.1, (hB d hd).2.2.len], (hB d hd).2.2.nc⟩
  have key : ∀ (x : ℤ[T;T⁻¹]) (g : Nat → TLMor), (∀ i, i + 1 < n → GenOf n i (-x) (g i)) → ∀ i, ∃ M, i + 1 < n → cellMatrix (g i) r = .ok M ∧
      M.Shape B.length B.length ∧ (∀ x ∈ M.data, ∃ q, x = .lp q) ∧
      M.den B.length B.length = 1 - x • Emat (T 1 + T (-1)) (fun a : Fin B.length => B[a].seq) (n - 2 * r + (n - 2 - i)) := by
    intro x g hg i
    by_cases hi : i + 1 < n
    swap
    · exact ⟨⟨0, 0, []⟩, fun h => absurd h hi⟩
    obtain ⟨M, M1, M2, M3, M4⟩ := cellMatrix_spec (hg i hi).wf (hg i hi).top (hg i hi).bot B1 hB hne
    refine ⟨M, fun _ => ⟨M1, M2, M3, ?_⟩⟩
    ext1 a c
    have ha := hB _ (List.getElem_mem a.2); have hc := hB _ (List.getElem_mem c.2)
    have okc := hok _ (List.getElem_mem c.2)
    obtain ⟨p1, p2⟩ := TLMor.prod_e_left hi okc hc.1
    obtain ⟨p3, p4⟩ := TLMor.prod_id_left okc hc.1
    rw [M4, coeffOn, TLMor.gen_ev (hg i hi).coef]
    simp only [Fin.getElem_fin, p1, p2, p3, p4, pow_zero]
    have hk : (B[c.1]).seq.length - 2 - i = n - 2 * r + (n - 2 - i) := by rw [hc.2.2.len]; omega
    rw [hk]
    have e1 : ((⟨n, (B[c.1]).bot, actSeq (n - 2 * r + (n - 2 - i)) (B[c.1]).seq⟩ : TLDiag) = B[a.1]) ↔ actSeq (n - 2 * r + (n - 2 - i)) (B[c.1]).seq = (B[a.1]).seq :=
      ⟨fun e => by rw [← e], fun e => TLDiag.ext' ha.1.symm (by rw [hc.2.1, ha.2.1]) e⟩
    have e2 : (B[c.1] = B[a.1]) ↔ a = c := by
      rw [B2.getElem_inj_iff]; exact ⟨fun e => Fin.ext e.symm, fun e => by rw [e]⟩
    simp only [e1, e2, _root_.Matrix.sub_apply, _root_.Matrix.one_apply, _root_.Matrix.smul_apply, smul_eq_mul, Emat, Fin.getElem_fin]
    ring
  choose A hA using key (T 1) g fun i hi => (hgg i hi).1
  choose A' hA' using key (T (-1)) g' fun i hi => (hgg i hi).2
  refine ⟨fun a => B[a].seq, A, A', fun a c hac => ?_, ⟨fun a => (hB _ (List.getElem_mem a.2)).2.2, fun a c e => ?_, fun D hD => ?_⟩, ?_, List.length_pos_iff.2 hne, fun i hi => ⟨(hA i hi).2, (hA' i hi).2⟩⟩
  · have ha := hB _ (List.getElem_mem a.2); have hc := hB _ (List.getElem_mem c.2)
    have := List.pairwise_iff_getElem.1 B3 a.1 c.1 a.2 c.2 hac
    rw [TLDiag.le, decide_eq_true_eq, ha.1, ha.2.1, hc.1, hc.2.1] at this
    exact fun q => List.not_lt.2 this (List.Lex.cons (List.Lex.cons q))
  · have ha := hB _ (List.getElem_mem a.2); have hc := hB _ (List.getElem_mem c.2)
    have := TLDiag.ext' (ha.1.trans hc.1.symm) (ha.2.1.trans hc.2.1.symm) e
    exact Fin.ext (B2.getElem_inj_iff.1 this)
  · have := (B4 ⟨n, n - 2 * r, D⟩).2 ⟨rfl, rfl, hD⟩
    obtain ⟨k, hk, e⟩ := List.getElem_of_mem this
    exact ⟨⟨k, hk⟩, by simp only [Fin.getElem_fin, e]⟩
  · rw [cellMatrices, hg, bind_ok]
    dsimp only
    rw [List.mapM_map, List.mapM_map]
    rw [mapM_ok ((fun g => cellMatrix g r) ∘ g) A (List.range (n - 1)) (fun i hi => (hA i (by have := List.mem_range.1 hi; omega)).1), bind_ok,
      mapM_ok ((fun g => cellMatrix g r) ∘ g') A' (List.range (n - 1)) (fun i hi => (hA' i (by have := List.mem_range.1 hi; omega)).1), bind_ok]

/-- The matrices `cell_matrices` returns. -/
theorem cellMatrices_spec {n r : Nat} (h : 2 * r ≤ n) : ∃ (β : Fin (dimension n r) → List Nat) (A A' : Nat → Matrix), IsBasis n (n - 2 * r) β ∧
    cellMatrices n r = .ok ((List.range (n - 1)).map A, (List.range (n - 1)).map A') ∧ 0 < dimension n r ∧
    ∀ i, i + 1 < n → ((A i).Shape (dimension n r) (dimension n r) ∧ (∀ x ∈ (A i).data, ∃ q, x = .lp q) ∧
        (A i).den (dimension n r) (dimension n r) = 1 - (T 1 : ℤ[T;T⁻¹]) • Emat (T 1 + T (-1)) β (n - 2 * r + (n - 2 - i))) ∧
      ((A' i).Shape (dimension n r) (dimension n r) ∧ (∀ x ∈ (A' i).data, ∃ q, x = .lp q) ∧
        (A' i).den (dimension n r) (dimension n r) = 1 - (T (-1) : ℤ[T;T⁻¹]) • Emat (T 1 + T (-1)) β (n - 2 * r + (n - 2 - i))) := by
  obtain ⟨β, A, A', -, h'⟩ := cellMatrices_sorted h
  exact ⟨β, A, A', h'⟩

open Polymat in
theorem Emat_red {d p : Nat} (β : Fin d → List Nat) (k : Nat) (x : ℤ) :
    ((1 : _root_.Matrix (Fin d) (Fin d) ℤ[T;T⁻¹]) - (T x : ℤ[T;T⁻¹]) • Emat (T 1 + T (-1)) β k).map (LPoly.red p) =
      (1 : LMat p d) - (T x : (ZMod p)[T;T⁻¹]) • Emat (T 1 + T (-1)) β k := by
  ext1 a c
  simp only [_root_.Matrix.map_apply, _root_.Matrix.sub_apply, _root_.Matrix.smul_apply, smul_eq_mul, Emat, _root_.Matrix.one_apply, map_sub, map_mul, red_T]
  congr 1
  · split <;> simp
  · congr 1
    split
    · rw [map_pow, map_add, red_T, red_T]
    · simp

/-- `JonesCellRep(n, r, p)`: what `artin_gens_invs()` returns. -/
theorem cellRep_spec {n r p : Nat} (hn : 1 ≤ n) (h : 2 * r ≤ n) : ∃ (β : Fin (dimension n r) → List Nat) (A A' : Nat → Matrix), IsBasis n (n - 2 * r) β ∧
    cellRep n r p = .ok ⟨n, p, (List.range (n - 1)).map A, (List.range (n - 1)).map A'⟩ ∧
    ∀ i, i + 1 < n → ((A i).Shape (dimension n r) (dimension n r) ∧ (∀ x ∈ (A i).data, ∃ q, x = .lp q) ∧
        (A i).denMod p (dimension n r) = 1 - (T 1 : (ZMod p)[T;T⁻¹]) • Emat (T 1 + T (-1)) β (n - 2 * r + (n - 2 - i))) ∧
      ((A' i).Shape (dimension n r) (dimension n r) ∧ (∀ x ∈ (A' i).data, ∃ q, x = .lp q) ∧
        (A' i).denMod p (dimension n r) = 1 - (T (-1) : (ZMod p)[T;T⁻¹]) • Emat (T 1 + T (-1)) β (n - 2 * r + (n - 2 - i))) := by
  obtain ⟨β, A, A', h1, h2, -, h3⟩ := cellMatrices_spec h
  have e : cellRep n r p = (do let gi ← artinGensInvs n r p; .ok ⟨n, p, gi.1, gi.2⟩) := by
    rw [cellRep, pyAssert, if_pos (by simpa using hn), bind_ok, pyAssert, if_pos (by simpa using h), bind_ok]
  have lp : ∀ M : Matrix, (∀ x ∈ M.data, ∃ q, x = Entry.lp q) → ∀ x ∈ (M.map (Entry.modp p)).data, ∃ q, x = Entry.lp q := by
    intro M hM x hx
    simp only [Matrix.map, List.mem_map] at hx
    obtain ⟨y, hy, rfl⟩ := hx
    obtain ⟨q, rfl⟩ := hM y hy
    exact ⟨_, rfl⟩
  by_cases hp : p = 0
  · refine ⟨β, A, A', h1, ?_, fun i hi => ?_⟩
    · rw [e, artinGensInvs, h2, bind_ok, if_neg (by simpa using hp), bind_ok]
    · obtain ⟨⟨a1, a2, a3⟩, ⟨b1, b2, b3⟩⟩ := h3 i hi
      refine ⟨⟨a1, a2, ?_⟩, ⟨b1, b2, ?_⟩⟩
      · rw [Matrix.denMod, a3, Emat_red]
      · rw [Matrix.denMod, b3, Emat_red]
  · refine ⟨β, fun i => (A i).map (Entry.modp p), fun i => (A' i).map (Entry.modp p), h1, ?_, fun i hi => ?_⟩
    · rw [e, artinGensInvs, h2, bind_ok, if_pos hp, bind_ok]
      simp only [List.map_map]; rfl
    · obtain ⟨⟨a1, a2, a3⟩, ⟨b1, b2, b3⟩⟩ := h3 i hi
      refine ⟨⟨Matrix.shape_map a1 _ (Entry.ok_modp p), lp _ a2, ?_⟩, ⟨Matrix.shape_map b1 _ (Entry.ok_modp p), lp _ b2, ?_⟩⟩
      · rw [Matrix.denMod, Matrix.red_map_modp a1, a3, Emat_red]
      · rw [Matrix.denMod, Matrix.red_map_modp b1, b3, Emat_red]

theorem TT (p : Nat) : (T 1 : (ZMod p)[T;T⁻¹]) * T (-1) = 1 := by rw [← T_add]; simp

/-- Artin's relations. -/
theorem cellRep_relations {n r p : Nat} (hn : 1 ≤ n) (h : 2 * r ≤ n) :
    ∃ rep, cellRep n r p = .ok rep ∧ rep.n = n ∧ rep.p = p ∧ rep.Relations := by
  obtain ⟨β, A, A', h1, h2, h3⟩ := cellRep_spec (p := p) hn h
  obtain ⟨b, rfl⟩ := Nat.exists_eq_add_of_le h
  rw [show 2 * r + b - 2 * r = b by omega] at h1 h3
  refine ⟨_, h2, rfl, rfl, ?_⟩
  have hs : ∀ i, i + 1 < 2 * r + b → (A i).denMod p (dimension (2 * r + b) r) = Smat (T 1) (T (-1)) β b (2 * r + b - 2 - i) := fun i hi => (h3 i hi).1.2.2
  refine ⟨by simp, by simp, ?_, ?_, ?_, ?_, ?_, ?_⟩
  · intro m hm
    obtain ⟨i, hi, rfl⟩ := List.mem_map.1 hm
    have := (h3 i (by have := List.mem_range.1 hi; omega)).1
    exact ⟨this.1, this.2.1⟩
  · intro m hm
    obtain ⟨i, hi, rfl⟩ := List.mem_map.1 hm
    have := (h3 i (by have := List.mem_range.1 hi; omega)).2
    exact ⟨this.1, this.2.1⟩
  · intro i hi hi'
    simp only [List.length_map, List.length_range] at hi
    simp only [List.getElem_map, List.getElem_range]
    rw [hs i (by omega), (h3 i (by omega)).2.2.2]
    exact (S_inv h1 (TT p) (i := 2 * r + b - 2 - i) (by omega)).1
  · intro i hi hi'
    simp only [List.length_map, List.length_range] at hi
    simp only [List.getElem_map, List.getElem_range]
    rw [hs i (by omega), (h3 i (by omega)).2.2.2]
    exact (S_inv h1 (TT p) (i := 2 * r + b - 2 - i) (by omega)).2
  · intro i j hj hij
    simp only [List.length_map, List.length_range] at hj
    simp only [List.getElem_map, List.getElem_range]
    rw [hs i (by omega), hs j (by omega)]
    exact (S_far h1 (TT p) (i := 2 * r + b - 2 - j) (j := 2 * r + b - 2 - i) (by omega) (by omega)).symm
  · intro i hi
    simp only [List.length_map, List.length_range] at hi
    simp only [List.getElem_map, List.getElem_range]
    rw [hs i (by omega), hs (i + 1) (by omega), show 2 * r + b - 2 - i = 2 * r + b - 2 - (i + 1) + 1 by omega]
    exact (S_braid h1 (TT p) (i := 2 * r + b - 2 - (i + 1)) (by omega)).symm

theorem half_map {M N : Type*} [Monoid M] [Monoid N] (f : M →* N) (s : Nat → M) (k : Nat) : f (JM.half s k) = JM.half (fun i => f (s i)) k := by
  have hd : ∀ k, f (JM.dn s k) = JM.dn (fun i => f (s i)) k := by
    intro k
    induction k with
    | zero => simp [JM.dn]
    | succ k ih => rw [JM.dn, JM.dn, map_mul, ih]
  induction k with
  | zero => simp [JM.half]
  | succ k ih => rw [JM.half, JM.half, map_mul, ih, hd]

theorem half_congr {M : Type*} [Monoid M] {s t : Nat → M} {k : Nat} (h : ∀ i, i < k → s i = t i) : JM.half s k = JM.half t k := by
  have hd : ∀ j, j ≤ k → JM.dn s j = JM.dn t j := by
    intro j hj
    induction j with
    | zero => rfl
    | succ j ih => rw [JM.dn, JM.dn, ih (by omega), h j (by omega)]
  have : ∀ j, j ≤ k → JM.half s j = JM.half t j := by
    intro j hj
    induction j with
    | zero => rfl
    | succ j ih => rw [JM.half, JM.half, ih (by omega), hd _ (by omega)]
  exact this k le_rfl

/-- The full twist of any homomorphism with these generators. -/
theorem fullTwist_of_gens {n r p : Nat} (hn : 1 ≤ n) (h : 2 * r ≤ n) {d : Nat} {β : Fin d → List Nat} (h1 : IsBasis n (n - 2 * r) β) (ρ : Braid n →* LMat p d)
    (hρ : ∀ i, i + 1 < n → ρ (sigma n i) = 1 - (T 1 : (ZMod p)[T;T⁻¹]) • Emat (T 1 + T (-1)) β (n - 2 * r + (n - 2 - i))) :
    ρ (halfTwist n ^ 2) = (T (2 * r * (n - r + 1) : Nat) : (ZMod p)[T;T⁻¹]) • 1 := by
  obtain ⟨b, rfl⟩ := Nat.exists_eq_add_of_le h
  rw [show 2 * r + b - 2 * r = b by omega] at h1 hρ
  rw [halfTwist_eq_rev hn, map_pow, half_map,
    half_congr (t := Smat (T 1 : (ZMod p)[T;T⁻¹]) (T (-1)) β b) (fun i hi => by
      rw [hρ _ (by omega), Smat, show 2 * r + b - 2 - (2 * r + b - 2 - i) = i by omega]),
    full_twist h1 (TT p) hn, T_pow]
  congr 2
  rw [show 2 * r + b - r = r + b by omega]; simp

end Jones
end Peyl
