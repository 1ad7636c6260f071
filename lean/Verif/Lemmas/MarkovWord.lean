import Verif.Lemmas.MarkovStab
import Verif.Lemmas.TLMorAlg
import Verif.Lemmas.JonesSummand
import Verif.Props.Rep
/-!
# Words in the generators of the Temperley–Lieb algebra
-/
namespace Peyl
open LaurentPolynomial
namespace Jones
open TL TLDiag TLMor

/-- `g` and `g'` are what `tl_gens_invs(n)` returns. -/
structure TLGens (n : Nat) (g g' : Nat → Sq n) : Prop where
  ok : tlGensInvs n = .ok ((List.range (n - 1)).map fun i => (g i).1, (List.range (n - 1)).map fun i => (g' i).1)
  gen : ∀ i, i + 1 < n → GenOf n i (-T 1) (g i).1
  inv : ∀ i, i + 1 < n → GenOf n i (-T (-1)) (g' i).1

theorem exists_tlGens (n : Nat) : ∃ g g', TLGens n g g' := by
  obtain ⟨g, g', h1, h2⟩ := tlGensInvs_spec n
  have key : ∀ (x : ℤ[T;T⁻¹]) (g : Nat → TLMor), (∀ i, i + 1 < n → GenOf n i x (g i)) → ∃ f : Nat → Sq n, ∀ i, i + 1 < n → (f i).1 = g i := by
    intro x g hg
    refine ⟨fun i => if h : i + 1 < n then ⟨g i, (hg i h).wf, (hg i h).top, (hg i h).bot⟩ else 1, fun i hi => ?_⟩
    exact congrArg Subtype.val (dif_pos hi)
  obtain ⟨f, hf⟩ := key _ g fun i hi => (h2 i hi).1
  obtain ⟨f', hf'⟩ := key _ g' fun i hi => (h2 i hi).2
  refine ⟨f, f', ?_, fun i hi => by rw [hf i hi]; exact (h2 i hi).1, fun i hi => by rw [hf' i hi]; exact (h2 i hi).2⟩
  rw [h1]
  congr 2 <;> refine List.map_congr_left fun i hi => ?_
  · exact (hf i (by have := List.mem_range.1 hi; omega)).symm
  · exact (hf' i (by have := List.mem_range.1 hi; omega)).symm

/-- A letter and a word. -/
noncomputable def tlLetter {n : Nat} (g g' : Nat → Sq n) (se : Nat × ℤ) : Sq n := (if 0 ≤ se.2 then g se.1 else g' se.1) ^ se.2.natAbs
noncomputable def tlWord {n : Nat} (g g' : Nat → Sq n) (w : List (Nat × ℤ)) : Sq n := (w.map (tlLetter g g')).prod

/-- The cell representation as a homomorphism. -/
theorem exists_cellHom {n r : Nat} (h : 2 * r ≤ n) : ∃ Φ : Sq n →* _root_.Matrix (Fin (dimension n r)) (Fin (dimension n r)) ℤ[T;T⁻¹], ∀ m : Sq n,
    (∃ M, cellMatrix m.1 r = .ok M ∧ M.Shape (dimension n r) (dimension n r) ∧ M.den (dimension n r) (dimension n r) = Φ m) ∧
    (Φ m).trace = m.1.ev fun d => (act (n - 2 * r) n n d).trace := by
  classical
  obtain ⟨B, b1, b2, b3, b4, b5⟩ := cellBasis_spec n r h
  rw [← dimension_eq b5]
  have hB := fun d hd => (b4 d).1 hd
  have hne := dimension_pos h b4
  have spec := fun m : Sq n => cellMatrix_spec m.2.1 m.2.2.1 m.2.2.2 b1 hB hne
  choose M m1 m2 m3 m4 using spec
  refine ⟨⟨⟨fun m => (M m).den B.length B.length, ?_⟩, ?_⟩, fun m => ⟨⟨M m, m1 m, m2 m, rfl⟩, ?_⟩⟩
  · obtain ⟨u, u1, u2, u3, u4, u5⟩ := TLMor.id_spec n
    have hu : (1 : Sq n).1 = u := by
      have := sq_one_eq n
      rw [u1] at this
      exact (Except.ok.inj this).symm
    refine _root_.Matrix.ext fun i j => ?_
    rw [m4, coeffOn, hu, TLMor.ev_single u5]
    have hj : B[j].top = n ∧ B[j].bot = n - 2 * r ∧ Cell n (n - 2 * r) B[j].seq := hB _ (List.getElem_mem j.2)
    obtain ⟨p3, p4⟩ := TLMor.prod_id_left (n := n) (d := B[j]) ⟨by rw [hj.1, hj.2.1, hj.2.2.len], hj.2.2.nc⟩ hj.1
    rw [p3, p4, pow_zero, _root_.Matrix.one_apply]
    refine if_congr ?_ rfl rfl
    simp only [Fin.getElem_fin]
    rw [b2.getElem_inj_iff]; exact ⟨fun e => Fin.ext e.symm, fun e => by rw [e]⟩
  · intro a b
    obtain ⟨B', A', C', D', c1, c2, c3, c4, -, -, -, c8⟩ := cellMatrix_mul a.2.1 b.2.1 a.2.2.1 a.2.2.2 b.2.2.1 b.2.2.2 h (sq_mul_eq a b)
    rw [b1] at c1; cases c1
    rw [m1] at c2 c3 c4; cases c2; cases c3; cases c4
    exact c8
  · exact cellMatrix_trace m.2.1 m.2.2.1 m.2.2.2 h b1 (m1 m)

/-- What `JonesCellRep(n, r, p)` makes of a word: the matrix of the product of the `tl_gens_invs`. -/
theorem evaluate_tlWord {n r p : Nat} (hn : 1 ≤ n) (h : 2 * r ≤ n) (hp : p ≠ 1) {g g' : Nat → Sq n} (hg : TLGens n g g')
    {Φ : Sq n →* _root_.Matrix (Fin (dimension n r)) (Fin (dimension n r)) ℤ[T;T⁻¹]}
    (hΦ : ∀ m : Sq n, ∃ M, cellMatrix m.1 r = .ok M ∧ M.Shape (dimension n r) (dimension n r) ∧ M.den (dimension n r) (dimension n r) = Φ m)
    {rep : RepBase (dimension n r)} (hr : cellRep n r p = .ok rep) (w : List (Nat × ℤ)) (hw : ∀ se ∈ w, se.1 + 1 < n) :
    ∃ (ρ : Braid n →* LMat p (dimension n r)) (m : Matrix), rep.evaluateArtinWord w = .ok m ∧ m.Shape (dimension n r) (dimension n r) ∧
      m.denMod p (dimension n r) = ρ (wordBraid n w) ∧ m.denMod p (dimension n r) = (Φ (tlWord g g' w)).map (LPoly.red p) := by
  obtain ⟨ρ, G, I, h1, h2, h3, -⟩ := jones_main n r p hn h
  rw [hr, Except.ok.injEq] at h1
  subst h1
  obtain ⟨m, m1, m2, m3, -⟩ := C53_word h2 h3 hp w hw
  refine ⟨ρ, m, m1, m2, m3, ?_⟩
  rw [m3]
  choose M M1 M2 M3 using hΦ
  -- the matrices of the generators
  have hcm : cellMatrices n r = .ok ((List.range (n - 1)).map fun i => M (g i), (List.range (n - 1)).map fun i => M (g' i)) := by
    rw [cellMatrices, hg.ok, bind_ok]
    dsimp only
    have k : ∀ g : Nat → Sq n, ((List.range (n - 1)).map fun i => (g i).1).mapM (fun g => cellMatrix g r) = .ok ((List.range (n - 1)).map fun i => M (g i)) := fun g => by
      rw [List.mapM_map]
      exact TL.mapM_ok _ (fun i => M (g i)) _ (fun i _ => M1 (g i))
    rw [k g, bind_ok, k g', bind_ok]
  rw [cellRep, pyAssert, if_pos (by simpa using hn), bind_ok, pyAssert, if_pos (by simpa using h), bind_ok, artinGensInvs, hcm, bind_ok, bind_ok, Except.ok.injEq] at hr
  have hG : G.map (fun m => m.denMod p (dimension n r)) = (List.range (n - 1)).map fun i => (Φ (g i)).map (LPoly.red p) := by
    have : G = (if p ≠ 0 then ((List.range (n - 1)).map fun i => M (g i)).map (Matrix.map (Entry.modp p)) else (List.range (n - 1)).map fun i => M (g i)) := by
      have := congrArg RepBase.gens hr
      rw [← show _ = G from this]; split <;> rfl
    rw [this]
    split
    · rw [List.map_map, List.map_map]
      refine List.map_congr_left fun i _ => ?_
      simp only [Function.comp_apply, Matrix.denMod]
      rw [Matrix.red_map_modp (M2 _), M3]
    · rw [List.map_map]
      refine List.map_congr_left fun i _ => ?_
      simp only [Function.comp_apply, Matrix.denMod]
      rw [M3]
  have hI : I.map (fun m => m.denMod p (dimension n r)) = (List.range (n - 1)).map fun i => (Φ (g' i)).map (LPoly.red p) := by
    have : I = (if p ≠ 0 then ((List.range (n - 1)).map fun i => M (g' i)).map (Matrix.map (Entry.modp p)) else (List.range (n - 1)).map fun i => M (g' i)) := by
      have := congrArg RepBase.invs hr
      rw [← show _ = I from this]; split <;> rfl
    rw [this]
    split
    · rw [List.map_map, List.map_map]
      refine List.map_congr_left fun i _ => ?_
      simp only [Function.comp_apply, Matrix.denMod]
      rw [Matrix.red_map_modp (M2 _), M3]
    · rw [List.map_map]
      refine List.map_congr_left fun i _ => ?_
      simp only [Function.comp_apply, Matrix.denMod]
      rw [M3]
  have hlG : G.length = n - 1 := h2.gens_len
  have hlI : I.length = n - 1 := h2.invs_len
  have hs : ∀ i, i + 1 < n → ρ (sigma n i) = (Φ (g i)).map (LPoly.red p) ∧ ρ (sigma n i)⁻¹ = (Φ (g' i)).map (LPoly.red p) := by
    intro i hi
    constructor
    · rw [← (h2.gens i (by show i < G.length; omega)).2.2]
      have e1 : (G.map (fun m => m.denMod p (dimension n r)))[i]'(by simp; omega) = G[i].denMod p (dimension n r) := by simp
      rw [show ((⟨n, p, G, I⟩ : RepBase (dimension n r)).gens[i]).denMod p (dimension n r) = G[i].denMod p (dimension n r) from rfl, ← e1]
      simp only [hG, List.getElem_map, List.getElem_range]
    · rw [← (h2.invs i (by show i < I.length; omega)).2.2]
      have e1 : (I.map (fun m => m.denMod p (dimension n r)))[i]'(by simp; omega) = I[i].denMod p (dimension n r) := by simp
      rw [show ((⟨n, p, G, I⟩ : RepBase (dimension n r)).invs[i]).denMod p (dimension n r) = I[i].denMod p (dimension n r) from rfl, ← e1]
      simp only [hI, List.getElem_map, List.getElem_range]
  -- words
  let Ψ : Sq n →* LMat p (dimension n r) := ((LPoly.red p).mapMatrix : _ →+* LMat p (dimension n r)).toMonoidHom.comp Φ
  show ρ (wordBraid n w) = Ψ (tlWord g g' w)
  rw [wordBraid, tlWord, map_list_prod, map_list_prod, List.map_map, List.map_map]
  congr 1
  refine List.map_congr_left fun se hse => ?_
  obtain ⟨s1, s2⟩ := hs se.1 (hw se hse)
  simp only [Function.comp_apply, tlLetter, map_pow]
  split
  · next c =>
    rw [show Ψ (g se.1) = ρ (sigma n se.1) from s1.symm, ← map_pow, ← zpow_natCast, Int.natAbs_of_nonneg c]
  · next c =>
    rw [show Ψ (g' se.1) = ρ (sigma n se.1)⁻¹ from s2.symm, ← map_pow, ← zpow_natCast, inv_zpow', show -(se.2.natAbs : ℤ) = se.2 by omega]

/-- The weighted sum of the traces of the cell matrices is the trace. -/
theorem trace_cells {n : Nat} (Φ : ∀ r, Sq n →* _root_.Matrix (Fin (dimension n r)) (Fin (dimension n r)) ℤ[T;T⁻¹])
    (hΦ : ∀ r, 2 * r ≤ n → ∀ m : Sq n, (Φ r m).trace = m.1.ev fun d => (act (n - 2 * r) n n d).trace) (m : Sq n) :
    ∑ r ∈ Finset.range (n / 2 + 1), qint (n - 2 * r + 1) * (Φ r m).trace = m.1.ev fun d => dl ^ d.trc := by
  obtain ⟨q, q1, q2, q3⟩ := TLMor.trace_spec m.2.1 (by rw [m.2.2.1, m.2.2.2])
  have := trace_formula m.2.1 m.2.2.1 m.2.2.2 q1
  rw [q3] at this
  rw [show (m.1.ev fun d => dl ^ d.trc) = m.1.ev fun d => (T 1 + T (-1)) ^ d.trc from rfl, this]
  exact Finset.sum_congr rfl fun r hr => by rw [hΦ r (by have := Finset.mem_range.1 hr; omega)]

/-! ### One more strand -/

/-- `b` is `a` with one more strand at the right. -/
def Ext {n : Nat} (a : Sq n) (b : Sq (n + 1)) : Prop := ∀ G : TLDiag → ℤ[T;T⁻¹], b.1.ev G = a.1.ev fun d => G (beside d (idD 1))

theorem ev_one {n : Nat} (G : TLDiag → ℤ[T;T⁻¹]) : (1 : Sq n).1.ev G = G (idD n) := by
  obtain ⟨u, u1, u2, u3, u4, u5⟩ := TLMor.id_spec n
  have hu : (1 : Sq n).1 = u := by
    have := sq_one_eq n
    rw [u1] at this
    exact (Except.ok.inj this).symm
  rw [hu, TLMor.ev_single u5]; rfl

theorem ev_mul {n : Nat} (a b : Sq n) (G : TLDiag → ℤ[T;T⁻¹]) : (a * b).1.ev G = a.1.ev fun x => b.1.ev fun y => dl ^ prodL x y * G (prodD x y) :=
  mul_ev a.2.1 b.2.1 (by rw [a.2.2.2, b.2.2.1]) (sq_mul_eq a b) G

theorem Ext.one {n : Nat} : Ext (1 : Sq n) (1 : Sq (n + 1)) := fun G => by
  rw [ev_one, ev_one]
  exact congrArg G (beside_id n 1).symm

theorem Ext.mul {n : Nat} {a a' : Sq n} {b b' : Sq (n + 1)} (h : Ext a b) (h' : Ext a' b') : Ext (a * a') (b * b') := fun G => by
  rw [ev_mul, ev_mul, h]
  refine ev_congr_fun fun t ht => ?_
  rw [h']
  refine ev_congr_fun fun s hs => ?_
  obtain ⟨i1, i2⟩ := interchange (a.2.1.good t ht) (idD_ok 1) (a'.2.1.good s hs) (idD_ok 1) (by rw [(a.2.1.type t ht).2, (a'.2.1.type s hs).1, a.2.2.2, a'.2.2.1]) rfl
  obtain ⟨p1, p2⟩ := TLMor.prod_id_left (n := 1) (idD_ok 1) rfl
  have p1 : prodD (idD 1) (idD 1) = idD 1 := p1
  have p2 : prodL (idD 1) (idD 1) = 0 := p2
  rw [i1, i2, p1, p2, Nat.add_zero]

theorem Ext.pow {n : Nat} {a : Sq n} {b : Sq (n + 1)} (h : Ext a b) (k : Nat) : Ext (a ^ k) (b ^ k) := by
  induction k with
  | zero => rw [pow_zero, pow_zero]; exact Ext.one
  | succ k ih => rw [pow_succ, pow_succ]; exact ih.mul h

theorem beside_eSeq {n i : Nat} (hi : i + 1 < n) : beside ⟨n, n, eSeq i n⟩ (idD 1) = ⟨n + 1, n + 1, eSeq i (n + 1)⟩ := by
  obtain ⟨k, rfl⟩ : ∃ k, n = i + 2 + k := ⟨n - i - 2, by omega⟩
  have hE : (⟨2, 2, [1, 0, 3, 2]⟩ : TLDiag).Ok := by
    have := (mul_ok cupD_ok capD_ok rfl).2.2.2.2
    rwa [cup_cap.1] at this
  rw [← beside_e, beside_assoc (idD_ok _) (beside_ok hE (idD_ok _)) (idD_ok 1), beside_assoc hE (idD_ok _) (idD_ok 1)]
  have := beside_e i (k + 1)
  rw [show i + 2 + k + 1 = i + 2 + (k + 1) by omega, ← this]
  congr 2
  exact beside_id k 1

theorem Ext.gen {n i : Nat} (hi : i + 1 < n) {x : ℤ[T;T⁻¹]} {a : Sq n} {b : Sq (n + 1)} (ha : GenOf n i x a.1) (hb : GenOf (n + 1) i x b.1) : Ext a b := fun G => by
  rw [gen_ev hb.coef, gen_ev ha.coef, beside_eSeq hi]
  congr 2
  exact (beside_id n 1).symm

theorem Ext.word {n : Nat} {g g' : Nat → Sq n} {f f' : Nat → Sq (n + 1)} (hg : TLGens n g g') (hf : TLGens (n + 1) f f') (w : List (Nat × ℤ))
    (hw : ∀ se ∈ w, se.1 + 1 < n) : Ext (tlWord g g' w) (tlWord f f' w) := by
  induction w with
  | nil => exact Ext.one
  | cons se w ih =>
    have h := hw se (by simp)
    rw [tlWord, tlWord, List.map_cons, List.map_cons, List.prod_cons, List.prod_cons]
    refine Ext.mul ?_ (ih fun x hx => hw x (by simp [hx]))
    rw [tlLetter, tlLetter]
    refine Ext.pow ?_ _
    split
    · exact Ext.gen h (hg.gen _ h) (hf.gen _ (by omega))
    · exact Ext.gen h (hg.inv _ h) (hf.inv _ (by omega))

/-- A free strand. -/
theorem Ext.trace_free {n : Nat} {a : Sq n} {b : Sq (n + 1)} (h : Ext a b) : (b.1.ev fun d => dl ^ d.trc) = dl * a.1.ev fun d => dl ^ d.trc := by
  rw [h, ← ev_mul_fun]
  refine ev_congr_fun fun t ht => ?_
  rw [trc_beside (a.2.1.good t ht) (idD_ok 1) (by rw [(a.2.1.type t ht).1, (a.2.1.type t ht).2, a.2.2.1, a.2.2.2]) rfl]
  have : (idD 1).trc = 1 := TLDiag.trc_id 1
  rw [this, pow_succ, mul_comm]

/-- A crossing of the last strand with the new one. -/
theorem Ext.trace_stab {n : Nat} (hn : 1 ≤ n) {a : Sq n} {b c : Sq (n + 1)} (h : Ext a b) {x : ℤ[T;T⁻¹]} (hc : GenOf (n + 1) (n - 1) x c.1) :
    ((b * c).1.ev fun d => dl ^ d.trc) = (x + dl) * a.1.ev fun d => dl ^ d.trc := by
  obtain ⟨k, rfl⟩ : ∃ k, n = k + 1 := ⟨n - 1, by omega⟩
  rw [ev_mul, h, ← ev_mul_fun]
  refine ev_congr_fun fun t ht => ?_
  have hgood := a.2.1.good t ht
  have h1 : t.1.top = k + 1 := by rw [(a.2.1.type t ht).1, a.2.2.1]
  have h2 : t.1.bot = k + 1 := by rw [(a.2.1.type t ht).2, a.2.2.2]
  rw [gen_ev hc.coef]
  have e1 := TLDiag.trace_stab hgood h1 h2
  have e2 := trc_beside hgood (idD_ok 1) (by omega) rfl
  have e3 : (idD 1).trc = 1 := TLDiag.trc_id 1
  obtain ⟨p1, p2⟩ := TLMor.prod_id_right (n := k + 2) (beside_ok hgood (idD_ok 1)) (by show t.1.bot + 1 = _; omega)
  have hl : (⟨k + 1 + 1, k + 1 + 1, eSeq (k + 1 - 1) (k + 1 + 1)⟩ : TLDiag) = lastE k := rfl
  rw [hl, show k + 1 + 1 = k + 2 from rfl, p1, p2, ← pow_add, ← pow_add, e1, e2, e3, Nat.zero_add, pow_succ]
  ring

end Jones
end Peyl
