import Verif.Lemmas.Plots
/-!
# C143: the projlens plotted in the notebook
-/
namespace Peyl
open Plots BraidSearch Search LaurentPolynomial Jones Polymat
variable {lim : Nat} {ω : List Nat → List Nat → Nat → Nat} {d : Nat}

/-- The braid with the first `k` canonical factors of `x` and infimum zero. -/
def NF.head (x : NF) (k : Nat) : NF := ⟨x.n, 0, x.factors.take k⟩

/-- `w` is the number of degrees from the lowest to the highest power of `v` in the matrix `m`. -/
def SpansDegrees (m : Matrix) (d w : Nat) : Prop :=
  ∃ lo : ℤ, (∀ i j e, (m.den d d i j).coeff e ≠ 0 → lo ≤ e ∧ e < lo + w) ∧
    (∃ i j, (m.den d d i j).coeff lo ≠ 0) ∧ ∃ i j, (m.den d d i j).coeff (lo + w - 1) ≠ 0

namespace Plots

theorem isGNF_head {n : Nat} (hn : 2 ≤ n) (hl : n < lim) {x : NF} (hx : IsGNF lim ω n x) (k : Nat) : IsGNF lim ω n (x.head k) ∧ x.n = n := by
  obtain ⟨t, R⟩ := exists_greal lim ω hn hl
  have hxn : x.n = n := (R.isGNF_iff.1 hx).n_eq
  refine ⟨?_, hxn⟩
  obtain ⟨y, -, y2, -, -, -⟩ := (C18_substring hn hl x hx 0 (min k x.factors.length)).1 ⟨by omega, by omega⟩
  have h := (R.isGNF_iff.1 hx)
  have := R.isGNF_iff.2 ((substring_valid R.1 h 0 (min k x.factors.length)).1 ⟨by omega, by omega⟩).2
  have h2 := Bur.isGNF_power this 0
  rw [NF.head, hxn]
  have e : x.factors.take k = (x.factors.take (min k x.factors.length)).drop 0 := by
    rw [List.drop_zero, List.take_eq_take_min]
  rw [e]; exact h2

theorem gnfBraid_head {n : Nat} (x : NF) (k : Nat) : gnfBraid n (x.head k) = ((x.factors.take k).map fun f => lift (permAt n f)).prod := by
  rw [gnfBraid, NF.head, zpow_zero, one_mul]

variable {rep : RepBase d} {ρ : Braid rep.n →* LMat rep.p d}

theorem evaluate_good (hn : 2 ≤ rep.n) (hl : rep.n < lim) (H : Realises rep ρ) (hd : 0 < d) (hp : rep.p ≠ 1) (x : NF) (hx : IsGNF lim ω rep.n x) :
    ∃ m, rep.evaluate (GNF.tbl lim ω) x = .ok m ∧ m.Shape d d ∧ Matrix.Kind d m ∧ Matrix.CoeffRed rep.p d m ∧ m.denMod rep.p d = ρ (gnfBraid rep.n x) := by
  obtain ⟨t, R⟩ := exists_greal lim ω hn hl
  obtain ⟨w, w1, w2, w3⟩ := R.1.artinWord_spec (R.isGNF_iff.1 hx)
  obtain ⟨m, h1, h2, h3, h4, h5⟩ := RepBase.evaluate_spec H hd hp w fun se hse => (w2 se hse).2
  refine ⟨m, by rw [RepBase.evaluate, w1, bind_ok, h1], h2, h3, h4, ?_⟩
  rw [h5, w3, R.den_eq]

theorem evaluateLoop_spec (hn : 2 ≤ rep.n) (hl : rep.n < lim) (H : Realises rep ρ) (hd : 0 < d) (hp : rep.p ≠ 1) (x : NF) (hx : IsGNF lim ω rep.n x) :
    ∀ (gs : List NF) (k : Nat), k + gs.length = x.factors.length →
      (∀ i (h : i < gs.length) (h' : k + i < x.factors.length), IsGNF lim ω rep.n gs[i] ∧ gnfBraid rep.n gs[i] = lift (permAt rep.n x.factors[k + i])) →
      ∃ ms, evaluateLoop lim ω rep (x.head k) gs = .ok ms ∧ ms.length = gs.length ∧
        ∀ i (h : i < ms.length), rep.evaluate (GNF.tbl lim ω) (x.head (k + i + 1)) = .ok ms[i] := by
  intro gs
  induction gs with
  | nil => intro k _ _; exact ⟨[], rfl, rfl, fun i h => absurd h (by simp)⟩
  | cons g gs ih =>
    intro k hk hg
    simp only [List.length_cons] at hk
    obtain ⟨g1, g2⟩ := hg 0 (by simp) (by omega)
    simp only [List.getElem_cons_zero, Nat.add_zero] at g1 g2
    obtain ⟨z, z1, z2, z3⟩ := C11_mul hn hl (x.head k) g (isGNF_head hn hl hx k).1 g1
    have hz : z = x.head (k + 1) := by
      refine (C15_unique hn hl _ _ z2 (isGNF_head hn hl hx _).1).2 ?_
      rw [z3, g2, gnfBraid_head, gnfBraid_head, List.take_succ_eq_append_getElem (by omega), List.map_append, List.prod_append]
      simp
    subst hz
    obtain ⟨m, m1, -⟩ := evaluate_good hn hl H hd hp _ z2
    obtain ⟨ms, s1, s2, s3⟩ := ih (k + 1) (by omega) (fun i h h' => by
      obtain ⟨a, b⟩ := hg (i + 1) (by simpa using h) (by omega)
      simp only [List.getElem_cons_succ] at a b
      refine ⟨a, b.trans ?_⟩
      congr 3; omega)
    refine ⟨m :: ms, by rw [evaluateLoop, z1, bind_ok, m1, bind_ok, s1, bind_ok], by simp [s2], ?_⟩
    intro i h
    cases i with
    | zero => exact m1
    | succ i =>
      have := s3 i (by simpa using h)
      rw [List.getElem_cons_succ, ← this]
      congr 2; omega

theorem canonicalFactors_eq {n : Nat} (hn : 2 ≤ n) (hl : n < lim) {x : NF} (hx : IsGNF lim ω n x) :
    NF.canonicalFactors (GNF.tbl lim ω) x = .ok (x.factors.map fun f => wordOf (permAt n f)) := by
  obtain ⟨t, R⟩ := exists_greal lim ω hn hl
  have hx' := R.isGNF_iff.1 hx
  have hcf : ∀ fs : List Nat, TableSpec.InR t fs → fs.mapM (lookup t.divs) = .ok (fs.map fun f => wordOf (permAt n f)) := by
    intro fs
    induction fs with
    | nil => intro _; rfl
    | cons f fs ih =>
      intro h
      simp only [TableSpec.InR_cons, R.2.1] at h
      rw [← elements_length] at h
      rw [List.mapM_cons, ih h.2, R.2.2.1, lookup_lt h.1, bind_ok, permAt_spec h.1]; rfl
  unfold NF.canonicalFactors
  rw [hx'.n_eq, R.1.ok, bind_ok]; exact hcf _ hx'.inR

theorem evaluations_spec (hn : 2 ≤ rep.n) (hl : rep.n < lim) (H : Realises rep ρ) (hd : 0 < d) (hp : rep.p ≠ 1) (x : NF) (hx : IsGNF lim ω rep.n x) :
    (x.factors ≠ [] → ∃ ms, evaluations lim ω rep x = .ok ms ∧ ms.length = x.factors.length ∧
      ∀ k (h : k < ms.length), rep.evaluate (GNF.tbl lim ω) (x.head (k + 1)) = .ok ms[k]) ∧
    (x.factors = [] → evaluations lim ω rep x = .error .index) := by
  have hcf := canonicalFactors_eq hn hl hx
  constructor
  · intro hne
    obtain ⟨gs, g1, g2, g3⟩ := mapM_spec (BraidGroup.positiveLift lim ω rep.n)
      (fun w g => IsGNF lim ω rep.n g ∧ ∀ π, w = wordOf π → gnfBraid rep.n g = lift π) (x.factors.map fun f => wordOf (permAt rep.n f)) (by
        intro w hw
        obtain ⟨f, -, rfl⟩ := List.mem_map.1 hw
        obtain ⟨π, g, e, a, b, c⟩ := C19_positive_lift (ω := ω) hn hl _ (isPermWord_wordOf (permAt rep.n f)) (length_wordOf _)
        exact ⟨g, a, b, fun π' h => by rw [c]; congr 1; exact wordOf_injective (e.symm.trans h)⟩)
    simp only [List.length_map] at g2
    have hpos := List.length_pos_iff.2 hne
    rcases gs with _ | ⟨g, gs⟩
    · simp at g2; omega
    · simp only [List.length_cons] at g2
      have hg0 := g3 0 (by simpa using hpos)
      simp only [List.getElem_cons_zero, List.getElem_map] at hg0
      have hz : g = x.head 1 := by
        refine (C15_unique hn hl _ _ hg0.1 (isGNF_head hn hl hx _).1).2 ?_
        rw [hg0.2 _ rfl, gnfBraid_head, List.take_succ_eq_append_getElem hpos]
        simp
      obtain ⟨m, m1, -⟩ := evaluate_good hn hl H hd hp _ (isGNF_head hn hl hx 1).1
      obtain ⟨ms, s1, s2, s3⟩ := evaluateLoop_spec hn hl H hd hp x hx gs 1 (by omega) (by
        intro i h h'
        have := g3 (i + 1) (by simpa using (by omega : i + 1 < x.factors.length))
        simp only [List.getElem_cons_succ, List.getElem_map] at this
        refine ⟨this.1, (this.2 _ rfl).trans ?_⟩
        congr 3; omega)
      refine ⟨m :: ms, ?_, by simp [s2]; omega, ?_⟩
      · rw [evaluations, hcf, bind_ok, g1, bind_ok]
        subst hz
        simp only [m1, bind_ok, s1]
      · intro k h
        cases k with
        | zero => exact m1
        | succ k =>
          have := s3 k (by simpa using h)
          rw [List.getElem_cons_succ, ← this]
          congr 2; omega
  · intro he
    rw [evaluations, hcf, bind_ok, he]; rfl


/-- `projlen` of a batch of projectivised matrices is, at every index, the width of the projectivised single matrix. -/
theorem widths_of {L p : Nat} {A : PArr (Fin L) d d} {M : Fin L → LMat p d} (hA : IsProjImage p A M) :
    ∃ pl, projlen A = .ok pl ∧ ∀ M', IsProjImage p A M' → ∀ (i : Fin L) (B : Img d), IsProjImage p B (fun _ => M' i) → pl i = B.length := by
  haveI : Nonempty (Fin L) := let ⟨a, _⟩ := hA.last; ⟨a⟩
  obtain ⟨v, dm, pl, rg, -, -, h3, -, h5⟩ := stats_first hA.first
  refine ⟨pl, h3, fun M' hM' i B hB => ?_⟩
  obtain ⟨-, -, h6, m, h7, h8, h9⟩ := h5 i
  have hs : ∀ e, slice ((List.range (m + 1)).map fun e (_ : Unit) => slice A e i) e () = slice A e i := by
    intro e
    rw [slice_map_range]
    split
    · rfl
    · by_contra hc
      have := h9 e fun h => hc h.symm
      omega
  have hlen : ((List.range (m + 1)).map fun e (_ : Unit) => slice A e i).length = m + 1 := by simp
  have hC : IsProjImage p ((List.range (m + 1)).map fun e (_ : Unit) => slice A e i : Img d) fun _ => M' i := by
    refine ⟨fun ⟨⟩ => by rw [hs]; exact hA.first i, ⟨(), by rw [hlen, hs]; exact h8⟩, ?_, fun ⟨⟩ => ?_⟩
    · exact RepBase.reduced_of_slices fun e _ _ => ⟨A, e, i, hA.reduced, hs e⟩
    · obtain ⟨k, hk⟩ := hM'.shift i
      exact ⟨k, by rw [denMod_of_den (den_eq_iff.2 hs), hk]⟩
  rw [← hB.unique hC] at hlen
  omega

theorem spansDegrees_of {m : Matrix} {A P : Img d} {s : ℤ} (hA : (den A ()).map (fun f => f.toLaurent) = (T s : ℤ[T;T⁻¹]) • m.den d d) (hP : projectivise A = .ok P) :
    SpansDegrees m d P.length := by
  obtain ⟨⟨p1, ⟨⟨⟩, p2⟩⟩, p3⟩ := projectivise_iff.1 hP
  obtain ⟨k, hk⟩ := p3 ()
  have hlen : 0 < P.length := by
    by_contra h
    exact p1 () (by rw [slice_ge P (by omega)]; rfl)
  have hc : ∀ i j e, (m.den d d i j).coeff e = if (k - s : ℤ) ≤ e then slice P (e - (k - s)).toNat () i j else 0 := by
    intro i j e
    have h1 := congrArg (fun f => f.coeff (e + s)) (congrFun (congrFun hA i) j)
    simp only [_root_.Matrix.map_apply, _root_.Matrix.smul_apply, smul_eq_mul] at h1
    rw [T, AddMonoidAlgebra.coeff_single_mul_apply, one_mul, show -s + (e + s) = e by ring] at h1
    rw [← h1, coeff_toLaurent_int', hk, _root_.Matrix.smul_apply, smul_eq_mul, mul_comm, Polynomial.coeff_mul_X_pow', coeff_den]
    by_cases h : (k - s : ℤ) ≤ e
    · rw [if_pos (by omega), if_pos (by omega), if_pos h]; congr 1; omega
    · rw [if_neg h]
      split
      · rw [if_neg (by omega)]
      · rfl
  have ex : ∀ e, slice P e () ≠ 0 → ∃ i j, slice P e () i j ≠ 0 := by
    intro e h
    by_contra hn
    push Not at hn
    exact h (by funext i j; exact hn i j)
  refine ⟨k - s, fun i j e he => ?_, ?_, ?_⟩
  · rw [hc] at he
    split at he
    · next h =>
      refine ⟨h, ?_⟩
      by_contra hlt
      rw [slice_ge P (by omega)] at he
      exact he rfl
    · exact absurd rfl he
  · obtain ⟨i, j, h⟩ := ex 0 (p1 ())
    exact ⟨i, j, by rw [hc, if_pos le_rfl]; simpa using h⟩
  · obtain ⟨i, j, h⟩ := ex _ p2
    refine ⟨i, j, ?_⟩
    rw [hc, if_pos (by omega), show ((k : ℤ) - s + P.length - 1 - (k - s)).toNat = P.length - 1 by omega]
    exact h

/-- Everything about the notebook's numbers for one braid. -/
theorem projLengths_spec (hn : 2 ≤ rep.n) (hl : rep.n < lim) (H : Realises rep ρ) (hd : 0 < d) (hp : rep.p ≠ 1)
    (hpos : ∀ i, i + 1 < rep.n → PolyM (ρ (sigma rep.n i))) (x : NF) (hx : IsGNF lim ω rep.n x) (hne : x.factors ≠ []) :
    ∃ ls, projLengths lim ω rep x = .ok ls ∧ ls.length = x.factors.length ∧ ∀ k (h : k < ls.length),
      (∃ m, rep.evaluate (GNF.tbl lim ω) (x.head (k + 1)) = .ok m ∧ SpansDegrees m d ls[k]) ∧
      ∃ A : Img d, IsProjImage rep.p A (fun _ => ρ (gnfBraid rep.n (x.head (k + 1)))) ∧ A.length = ls[k] := by
  obtain ⟨ms, s1, s2, s3⟩ := (evaluations_spec hn hl H hd hp x hx).1 hne
  have hm : ∀ m ∈ ms, ∃ l, (do let P ← projectivise (← fromMatrix d d m false); .ok P.length : Except Err Nat) = .ok l ∧
      (SpansDegrees m d l ∧ ∀ k, rep.evaluate (GNF.tbl lim ω) (x.head (k + 1)) = .ok m →
        ∃ A : Img d, IsProjImage rep.p A (fun _ => ρ (gnfBraid rep.n (x.head (k + 1)))) ∧ A.length = l) := by
    intro m hm
    obtain ⟨k, hk, rfl⟩ := List.getElem_of_mem hm
    have key : ∀ k', rep.evaluate (GNF.tbl lim ω) (x.head (k' + 1)) = .ok ms[k] →
        ∃ A P, fromMatrix d d ms[k] false = .ok A ∧ (den A ()).map (fun f => f.toLaurent) = ms[k].den d d ∧ projectivise A = .ok P ∧
          IsProjImage rep.p P (fun _ => ρ (gnfBraid rep.n (x.head (k' + 1)))) := by
      intro k' hk'
      have hg := isGNF_head hn hl hx (k' + 1)
      obtain ⟨m, m1, m2, m3, m4, m5⟩ := evaluate_good hn hl H hd hp _ hg.1
      rw [hk'] at m1; cases m1
      have hP : PolyM (ρ (gnfBraid rep.n (x.head (k' + 1)))) := by rw [NF.head, hg.2]; exact polyM_prefix hpos _
      obtain ⟨A, a1, a2⟩ := fromMatrix_pos m2 m3 m4 (by rw [m5]; exact hP)
      obtain ⟨c1, c2⟩ := RepBase.shift_of_den (p := rep.p) (k := 0) (by rw [T_zero, one_smul]; exact a2)
      rw [m5] at c1
      obtain ⟨P, p1, p2⟩ := project_spec c1 (c2 m4) fun _ => RepBase.rho_ne ρ hd hp _
      exact ⟨A, P, a1, a2, p1, p2⟩
    obtain ⟨A, P, a1, a2, p1, p2⟩ := key k (s3 k hk)
    refine ⟨P.length, by rw [a1, bind_ok, p1, bind_ok], spansDegrees_of (s := 0) (by rw [T_zero, one_smul]; exact a2) p1, fun k' hk' => ?_⟩
    obtain ⟨A', P', a1', -, p1', p2'⟩ := key k' hk'
    rw [a1] at a1'; cases a1'
    rw [p1] at p1'; cases p1'
    exact ⟨P, p2', rfl⟩
  obtain ⟨ls, l1, l2, l3⟩ := mapM_spec _ _ ms hm
  refine ⟨ls, by rw [projLengths, s1, bind_ok]; exact l1, by omega, fun k h => ?_⟩
  have hk : k < ms.length := by omega
  obtain ⟨h1, h2⟩ := l3 k hk
  exact ⟨⟨_, s3 k hk, h1⟩, h2 k (s3 k hk)⟩

theorem trajectories_spec {sm : Summand d} {τ : Braid sm.n →* LMat sm.p d} (hn : 2 ≤ sm.n) (hl : sm.n < lim) (H : SummandRealises sm τ) (hF : FullTwistScalar τ)
    (hd : 0 < d) (hp : sm.p ≠ 1) (xs : List NF) (hne : xs ≠ []) (len : Nat) (hx : ∀ x ∈ xs, IsGNF lim ω sm.n x ∧ NF.canonicalLength x = len) :
    ∃ cs, trajectories lim ω sm xs = .ok cs ∧ ∃ hc : cs.length = xs.length, ∀ i (hi : i < xs.length),
      ∃ hci : (cs[i]'(hc ▸ hi)).length = len + 1, ∀ k (hk : k < len + 1), ((cs[i]'(hc ▸ hi))[k]'(hci ▸ hk)).1 = k ∧
        ∀ A : Img d, IsProjImage sm.p A (fun _ => τ (halfTwist sm.n ^ xs[i].power * ((xs[i].factors.take k).map fun f => lift (permAt sm.n f)).prod)) →
          ((cs[i]'(hc ▸ hi))[k]'(hci ▸ hk)).2 = A.length := by
  obtain ⟨As, a1, a2, a3⟩ := C55_search_prefixes hn hl H hF hd hp xs hne len hx
  obtain ⟨pls, p1, p2, p3⟩ := mapM_spec projlen (fun A pl => ∀ M, IsProjImage sm.p A M → ∀ (i : Fin xs.length) (B : Img d),
      IsProjImage sm.p B (fun _ => M i) → pl i = B.length) As (by
    intro A hA
    obtain ⟨k, hk, rfl⟩ := List.getElem_of_mem hA
    obtain ⟨pl, q1, q2⟩ := widths_of (a3 k hk)
    exact ⟨pl, q1, q2⟩)
  have hlen : ∀ i : Fin xs.length, (List.range (xs[i].canonicalLength + 1)).length = (pls.map fun l => l i).length := by
    intro i
    rw [List.length_range, List.length_map, p2, a2]
    exact congrArg (· + 1) (hx xs[i.1] (List.getElem_mem _)).2
  obtain ⟨cs, c1, c2, c3⟩ := mapM_spec (fun i : Fin xs.length => do
      let X := List.range (xs[i].canonicalLength + 1)
      let Y := pls.map fun l => l i
      if X.length = Y.length then .ok (X.zip Y) else .error .value : Fin xs.length → Except Err (List (Nat × Int)))
    (fun i c => c = (List.range (xs[i].canonicalLength + 1)).zip (pls.map fun l => l i)) (List.finRange xs.length) (fun i _ =>
      ⟨_, if_pos (hlen i), rfl⟩)
  rw [List.length_finRange] at c2
  refine ⟨cs, by rw [trajectories, a1, bind_ok, p1, bind_ok]; exact c1, c2, fun i hi => ?_⟩
  have hci := c3 i (by simpa using hi)
  simp only [List.getElem_finRange] at hci
  have hl1 := (hx xs[i] (List.getElem_mem _)).2
  refine ⟨?_, fun k hk => ?_⟩
  · rw [hci, List.length_zip, ← hlen, min_self, List.length_range]
    exact congrArg (· + 1) hl1
  · simp only [hci, List.getElem_zip, List.getElem_range, List.getElem_map, true_and]
    intro A hA
    exact p3 k (by omega) _ (a3 k (by omega)) _ A hA

end Plots

/-- C143: the evaluations behind the plot of one braid, for any representation: entry `k` is `evaluate` of the braid with the first
`k + 1` canonical factors and infimum zero, whatever the infimum of the braid.  A power of the Garside element raises IndexError. -/
theorem C143_evaluations {rep : RepBase d} {ρ : Braid rep.n →* LMat rep.p d} (hn : 2 ≤ rep.n) (hl : rep.n < lim) (H : Realises rep ρ) (hd : 0 < d)
    (hp : rep.p ≠ 1) (x : NF) (hx : IsGNF lim ω rep.n x) :
    (x.factors ≠ [] → ∃ ms, evaluations lim ω rep x = .ok ms ∧ ms.length = x.factors.length ∧
      ∀ k (h : k < ms.length), IsGNF lim ω rep.n (x.head (k + 1)) ∧ rep.evaluate (GNF.tbl lim ω) (x.head (k + 1)) = .ok ms[k] ∧
        ms[k].denMod rep.p d = ρ ((x.factors.take (k + 1)).map fun f => lift (permAt rep.n f)).prod) ∧
    (x.factors = [] → evaluations lim ω rep x = .error .index) := by
  obtain ⟨h1, h2⟩ := evaluations_spec hn hl H hd hp x hx
  refine ⟨fun hne => ?_, h2⟩
  obtain ⟨ms, s1, s2, s3⟩ := h1 hne
  refine ⟨ms, s1, s2, fun k h => ?_⟩
  have hg := (isGNF_head hn hl hx (k + 1)).1
  obtain ⟨m, m1, -, -, -, m5⟩ := evaluate_good hn hl H hd hp _ hg
  have := s3 k h
  rw [this] at m1; cases m1
  exact ⟨hg, this, by rw [m5, gnfBraid_head]⟩

example := C143_evaluations (by decide) (by decide) real315 (by decide) (by decide) _ gnfA

/-- C143: the numbers plotted for one braid in a Jones representation: `from_matrix` never meets a negative power of `v` (it does not
raise), and number `k` is the number of degrees spanned by the matrix of the first `k + 1` factors. -/
theorem C143_plot (n r p : Nat) (hn : 2 ≤ n) (hl : n < lim) (h : 2 * r ≤ n) (hp : p ≠ 1) : ∃ rep : RepBase (dimension n r), cellRep n r p = .ok rep ∧
    ∀ x, IsGNF lim ω n x → x.factors ≠ [] → ∃ ls, projLengths lim ω rep x = .ok ls ∧ ls.length = x.factors.length ∧
      ∀ k (h : k < ls.length), ∃ m, rep.evaluate (GNF.tbl lim ω) (x.head (k + 1)) = .ok m ∧ SpansDegrees m (dimension n r) ls[k] := by
  obtain ⟨ρ, G, I, gs, g1, g2, g3, g4, hF, hd⟩ := C54_hypotheses n r p hn h
  refine ⟨_, g1, fun x hx hne => ?_⟩
  obtain ⟨ls, l1, l2, l3⟩ := projLengths_spec (rep := ⟨n, p, G, I⟩) hn hl g2 hd hp (fun i hi => polyM_sigma (by omega) h g1 g2 hi) x hx hne
  exact ⟨ls, l1, l2, fun k hk => (l3 k hk).1⟩

example := C143_plot (lim := 7) (ω := pop0) 4 1 5 (by decide) (by decide) (by decide) (by decide)

/-- C143: for any representation in which the full twist is scalar and any braid, `projectivise(from_matrix(evaluate(x), proj=True))` is
what the bulk evaluator `polymat_evaluate_braid(x)` returns. -/
theorem C143_from_matrix {rep : RepBase d} {ρ : Braid rep.n →* LMat rep.p d} (hn : 2 ≤ rep.n) (hl : rep.n < lim) (H : Realises rep ρ)
    (hF : FullTwistScalar ρ) (hd : 0 < d) (hp : rep.p ≠ 1) (x : NF) (hx : IsGNF lim ω rep.n x) :
    ∃ m A P, rep.evaluate (GNF.tbl lim ω) x = .ok m ∧ fromMatrix d d m true = .ok A ∧ projectivise A = .ok P ∧ rep.evalOne (GNF.tbl lim ω) x = .ok P ∧
      SpansDegrees m d P.length := by
  obtain ⟨m, m1, m2, m3, m4, m5⟩ := evaluate_good hn hl H hd hp x hx
  obtain ⟨A, k, a1, a2⟩ := RepBase.fromMatrix_good m2 m3
  obtain ⟨c1, c2⟩ := RepBase.shift_of_den (p := rep.p) a2
  rw [m5] at c1
  obtain ⟨P, p1, p2⟩ := project_spec c1 (c2 m4) fun _ => RepBase.rho_ne ρ hd hp _
  obtain ⟨Q, q1, q2⟩ := C55_single hn hl H hF hd hp x hx
  refine ⟨m, A, P, m1, a1, p1, by rw [q1, q2.unique p2], ?_⟩
  exact spansDegrees_of a2 p1

example := C143_from_matrix (by decide) (by decide) real315 twist315 (by decide) (by decide) _ gnfA

/-- C143: `plot_trajectories` of braids of one canonical length never raises; braid `i` gets one point for every number of factors from 0
to its length, the number of degrees spanned by the matrix of the prefix.  For a braid with infimum zero the first point is `(0, 1)` and the others are the numbers of the other plot. -/
theorem C143_trajectories (n r p : Nat) (hn : 2 ≤ n) (hl : n < lim) (h : 2 * r ≤ n) (hp : p ≠ 1) :
    ∃ (rep : RepBase (dimension n r)) (sm : Summand (dimension n r)), cellRep n r p = .ok rep ∧ summand n r p = .ok sm ∧
    ∀ (xs : List NF) (len : Nat), xs ≠ [] → (∀ x ∈ xs, IsGNF lim ω n x ∧ NF.canonicalLength x = len) →
      ∃ cs, trajectories lim ω sm xs = .ok cs ∧ ∃ hc : cs.length = xs.length, ∀ i (hi : i < xs.length),
        (cs[i]'(hc ▸ hi)).map Prod.fst = List.range (len + 1) ∧
        (∀ k y, (k, y) ∈ cs[i]'(hc ▸ hi) → ∃ m w, rep.evaluate (GNF.tbl lim ω) ⟨n, xs[i].power, xs[i].factors.take k⟩ = .ok m ∧
          SpansDegrees m (dimension n r) w ∧ y = w) ∧
        (xs[i].power = 0 → ∃ ys : List Nat, (cs[i]'(hc ▸ hi)).map Prod.snd = 1 :: ys.map (fun y : Nat => (y : ℤ)) ∧
          (xs[i].factors ≠ [] → projLengths lim ω rep xs[i] = .ok ys)) := by
  obtain ⟨ρ, G, I, gs, g1, g2, g3, g4, hF, hd⟩ := C54_hypotheses n r p hn h
  refine ⟨_, _, g1, g3, fun xs len hne hx => ?_⟩
  obtain ⟨cs, c1, hc, c2⟩ := trajectories_spec (sm := ⟨n, p, gs⟩) hn hl g4 hF hd hp xs hne len hx
  refine ⟨cs, c1, hc, fun i hi => ?_⟩
  obtain ⟨hci, c3⟩ := c2 i hi
  obtain ⟨hxi, hli⟩ := hx xs[i] (List.getElem_mem _)
  refine ⟨?_, fun k y hky => ?_, fun h0 => ?_⟩
  rotate_left
  · obtain ⟨k', hk', e⟩ := List.getElem_of_mem hky
    obtain ⟨e1, e2⟩ := c3 k' (by omega)
    rw [e] at e1 e2
    obtain rfl : k = k' := e1
    have hg := Bur.isGNF_power (isGNF_head hn hl hxi k).1 xs[i].power
    obtain ⟨m, A, P, m1, a1, p1, q1, sp⟩ := C143_from_matrix (rep := ⟨n, p, G, I⟩) hn hl g2 hF hd hp _ hg
    obtain ⟨Q, b1, b2⟩ := C55_single (rep := ⟨n, p, G, I⟩) hn hl g2 hF hd hp _ hg
    rw [q1] at b1; cases b1
    exact ⟨m, P.length, m1, sp, e2 P b2⟩
  rotate_right
  · apply List.ext_getElem (by simp [hci])
    intro k k1 k2
    simp only [List.getElem_map, List.getElem_range]
    exact (c3 k (by simpa using k2)).1
  · -- the identity
    have hone : IsProjImage p (eye (dimension n r)) (fun _ => ρ (halfTwist n ^ xs[i].power * ((xs[i].factors.take 0).map fun f => lift (permAt n f)).prod)) := by
      rw [h0, zpow_zero, one_mul, List.take_zero, List.map_nil, List.prod_nil, map_one]
      exact eye_image hd hp
    have hw0 := (c3 0 (by omega)).2 _ hone
    have key : ∃ ys : List Nat, ys.length = len ∧ (xs[i].factors ≠ [] → projLengths lim ω (⟨n, p, G, I⟩ : RepBase (dimension n r)) xs[i] = .ok ys) ∧
        ∀ k (hk : k < ys.length) (hk' : k + 1 < len + 1), ((cs[i]'(hc ▸ hi))[k + 1]'(hci ▸ hk')).2 = ys[k] := by
      by_cases hf : xs[i].factors = []
      · have : len = 0 := by rw [← hli, NF.canonicalLength, hf]; rfl
        exact ⟨[], this.symm, fun h => absurd hf h, fun k hk => absurd hk (by simp)⟩
      · obtain ⟨ls, l1, l2, l3⟩ := projLengths_spec (rep := ⟨n, p, G, I⟩) hn hl g2 hd hp (fun i hi => polyM_sigma (by omega) h g1 g2 hi) xs[i] hxi hf
        refine ⟨ls, l2.trans hli, fun _ => l1, fun k hk hk' => ?_⟩
        obtain ⟨-, A, a1, a2⟩ := l3 k hk
        rw [← a2]
        refine (c3 (k + 1) hk').2 A ?_
        rw [h0, zpow_zero, one_mul]
        rw [gnfBraid_head] at a1
        exact a1
    obtain ⟨ys, y1, y2, y3⟩ := key
    refine ⟨ys, ?_, y2⟩
    apply List.ext_getElem (by simp [hci, y1])
    intro k k1 k2
    cases k with
    | zero =>
      rw [List.getElem_map, List.getElem_cons_zero, hw0]; rfl
    | succ k =>
      simp only [List.length_cons, List.length_map] at k2
      simp only [List.getElem_map, List.getElem_cons_succ]
      exact y3 k (by omega) (by omega)

example := C143_trajectories (lim := 7) (ω := pop0) 4 1 5 (by decide) (by decide) (by decide) (by decide)

end Peyl
