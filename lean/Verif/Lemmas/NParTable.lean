import Verif.Lemmas.NParWord
import Verif.Lemmas.PermTable
import Verif.Spec.DGNF
import Mathlib.Combinatorics.Enumerative.Catalan.Basic
/-!
# The table of noncrossing partitions implements the germ of noncrossing partitions
-/
namespace Peyl
open Equiv Perms Relation
variable {n : Nat}

theorem dcyc_pow (n : Nat) : (dcyc n) ^ n = 1 := by
  rcases n with _ | n
  · simp
  · have : ∀ k : Nat, ∀ i : Fin (n + 1), (((finRotate (n + 1)) ^ k) i : Fin (n + 1)) = i + Fin.ofNat (n + 1) k := by
      intro k
      induction k with
      | zero => intro i; simp
      | succ k ih =>
        intro i
        rw [pow_succ', Perm.mul_apply, ih, finRotate_succ_apply, add_assoc]
        congr 1
        apply Fin.ext
        simp [Fin.val_add]
    rw [dcyc, inv_pow, inv_eq_one]
    apply Equiv.ext; intro i
    rw [this]
    have : Fin.ofNat (n + 1) (n + 1) = 0 := Fin.ext (by simp)
    rw [this, add_zero]; rfl

theorem catalanNum_eq (n : Nat) : NPar.catalanNum n = catalan n := by
  rw [catalan_eq_centralBinom_div, NPar.catalanNum, Nat.centralBinom]

/-- `l` is the list of all noncrossing partitions. -/
structure NL (n : Nat) (l : List NPar) : Prop where
  ok : NPar.allOfSize n = .ok l
  nodup : l.Nodup
  length : l.length = NPar.catalanNum n
  mem : ∀ p, p ∈ l ↔ ∃ x : Perm (Fin n), NCP x ∧ p = nparOf x

theorem exists_nl (n : Nat) : ∃ l, NL n l := by
  obtain ⟨l, h1, h2, h3, h4⟩ := TL.generateSequences_spec n
  refine ⟨l.map fun s => ⟨n, s⟩, ?_, h2.map (fun a b h => by simpa using h), ?_, fun p => ?_⟩
  · rw [NPar.allOfSize, h1, bind_ok]
  · rw [List.length_map, h3, catalanNum_eq]
  · rw [List.mem_map]
    constructor
    · rintro ⟨s, hs, rfl⟩
      have hok : (⟨n, s⟩ : NPar).Ok := (h4 s).1 hs
      exact exists_nparOf hok
    · rintro ⟨x, hx, rfl⟩
      exact ⟨(nparOf x).inv, (h4 _).2 (nparOf_ok.2 hx), rfl⟩

variable {l : List NPar}

theorem NL.at (L : NL n l) {i : Nat} (h : i < l.length) : l[i] = nparOf (nparAt n i) ∧ NCP (nparAt n i) := by
  obtain ⟨x, hx, e⟩ := (L.mem _).1 (List.getElem_mem h)
  have hex : ∃ π : Perm (Fin n), ∃ l p, NPar.allOfSize n = .ok l ∧ l[i]? = some p ∧ p.toPermutation = .ok (wordOf π) :=
    ⟨x, l, l[i], L.ok, List.getElem?_eq_getElem h, by rw [e]; exact toPermutation_eq x⟩
  have hx' : nparAt n i = x := by
    rw [nparAt, dif_pos hex]
    obtain ⟨l', p, h1, h2, h3⟩ := hex.choose_spec
    rw [L.ok, Except.ok.injEq] at h1
    rw [← h1, List.getElem?_eq_getElem h, Option.some.injEq, e] at h2
    rw [← h2, toPermutation_eq, Except.ok.injEq] at h3
    exact (wordOf_injective h3).symm
  rw [hx']; exact ⟨e, hx⟩

theorem NL.index (L : NL n l) {x : Perm (Fin n)} (hx : NCP x) :
    ∃ i, i < NPar.catalanNum n ∧ dictIndex l (nparOf x) = .ok i ∧ nparAt n i = x := by
  obtain ⟨i, hi, h1, h2⟩ := dictIndex_ok ((L.mem _).2 ⟨x, hx, rfl⟩)
  refine ⟨i, by rw [← L.length]; exact hi, h1, ?_⟩
  rw [(L.at hi).1] at h2; exact nparOf_injective h2

theorem NL.inj (L : NL n l) {i j : Nat} (hi : i < NPar.catalanNum n) (hj : j < NPar.catalanNum n) (h : nparAt n i = nparAt n j) : i = j := by
  rw [← L.length] at hi hj
  have := (L.at hi).1.trans ((congrArg nparOf h).trans (L.at hj).1.symm)
  exact (L.nodup.getElem_inj_iff).1 this

/-- A column of the table. -/
theorem NL.column (L : NL n l) (F : Perm (Fin n) → Perm (Fin n)) (hF : ∀ x, NCP x → NCP (F x)) (f : NPar → Except Err Nat)
    (hf : ∀ x, NCP x → f (nparOf x) = dictIndex l (nparOf (F x))) :
    ∃ r, l.mapM f = .ok r ∧ r.length = NPar.catalanNum n ∧
      ∀ i, i < NPar.catalanNum n → ∃ j, j < NPar.catalanNum n ∧ lookup r i = .ok j ∧ nparAt n j = F (nparAt n i) := by
  obtain ⟨r, r1, r2, r3⟩ := mapM_ok f l (by
    intro p hp
    obtain ⟨x, hx, rfl⟩ := (L.mem p).1 hp
    obtain ⟨i, -, h, -⟩ := L.index (hF x hx)
    exact ⟨i, by rw [hf x hx, h]⟩)
  refine ⟨r, r1, by rw [r2, L.length], fun i hi => ?_⟩
  rw [← L.length] at hi
  have h := r3 i hi (by omega)
  obtain ⟨e, hN⟩ := L.at hi
  rw [e, hf _ hN] at h
  obtain ⟨j, hj, h1, h2⟩ := L.index (hF _ hN)
  rw [h1, Except.ok.injEq] at h
  exact ⟨j, hj, by rw [lookup_lt (by omega), h], h2⟩

theorem pairN_npar (x y : Perm (Fin n)) : (nparGerm n).PairN x y ↔ DualLeftWeighted x y := by
  constructor
  · intro h a b hab h1 h2
    exact h (tr (a, b)) (npar_atoms.1 (a, b) hab) ((nparGerm_le (p := (a, b)) hab).2 h1) ((nparGerm_le (p := (a, b)) hab).2 h2)
  · intro h s hs h1 h2
    obtain ⟨p, hp, rfl⟩ := npar_atoms.2 s hs
    exact h p.1 p.2 hp ((nparGerm_le hp).1 h1) ((nparGerm_le hp).1 h2)

theorem tr_inv (p : Fin n × Fin n) : (tr p)⁻¹ = tr p := by simp [tr]

/-- The renormalisation loop, for every choice of edges. -/
theorem npar_renormLoop (ω : Nat → Nat) (fuel k : Nat) {w z : Perm (Fin n)} (hw : NCP w) (hz : NCP z) (hf : rlen z < fuel) :
    ∃ w' z' : Perm (Fin n), NParTable.renormLoop n ω fuel k (nparOf w) (nparOf z) = .ok (nparOf w', nparOf z') ∧ NCP w' ∧ NCP z' ∧
      (nparGerm n).Steps [w, z] [w', z'] ∧ (nparGerm n).PairN w' z' := by
  induction fuel generalizing k w z with
  | zero => omega
  | succ fuel ih =>
    unfold NParTable.renormLoop
    have hrc := nparGerm_P.1 ((nparGerm n).P_rc (nparGerm_P.2 hw))
    obtain ⟨ew, w1, w2⟩ := edges_spec hrc
    obtain ⟨ez, z1, z2⟩ := edges_spec hz
    have w1' : (nparOf (w⁻¹ * dcyc n)).edges = .ok ew := w1
    simp only [rightComplement_eq, bind_ok, w1', z1]
    set common := ew.filter fun e => ez.contains e with hcom
    have hmem : ∀ a b : Nat, (a, b) ∈ common ↔ ∃ (ha : a < n) (hb : b < n), a < b ∧
        (w⁻¹ * dcyc n).SameCycle ⟨a, ha⟩ ⟨b, hb⟩ ∧ z.SameCycle ⟨a, ha⟩ ⟨b, hb⟩ := by
      intro a b
      rw [hcom, List.mem_filter, List.contains_iff_mem, w2, z2]
      constructor
      · rintro ⟨⟨ha, hb, h1, h2⟩, ⟨_, _, _, h3⟩⟩; exact ⟨ha, hb, h1, h2, h3⟩
      · rintro ⟨ha, hb, h1, h2, h3⟩; exact ⟨⟨ha, hb, h1, h2⟩, ⟨ha, hb, h1, h3⟩⟩
    by_cases he : common.isEmpty
    · rw [if_pos he]
      refine ⟨w, z, rfl, hw, hz, .refl, (pairN_npar w z).2 fun a b hab h1 h2 => ?_⟩
      have := (hmem a b).2 ⟨a.2, b.2, hab, h1, h2⟩
      rw [List.isEmpty_iff.1 he] at this; simp at this
    · rw [if_neg he]
      have hpos : 0 < common.length := List.length_pos_iff.2 (fun e => he (by rw [e]; rfl))
      have hlt : ω k % common.length < common.length := Nat.mod_lt _ hpos
      rcases hab' : common[ω k % common.length] with ⟨a, b⟩
      obtain ⟨ha, hb, hab, h1, h2⟩ := (hmem a b).1 (hab' ▸ List.getElem_mem hlt)
      set p : Fin n × Fin n := (⟨a, ha⟩, ⟨b, hb⟩) with hp
      have hpl : p.1 < p.2 := hab
      have l1 := (nparGerm_le (x := w⁻¹ * dcyc n) hpl).2 h1
      have l2 := (nparGerm_le (x := z) hpl).2 h2
      have hwp : NCP (w * tr p) := nparGerm_P.1 ((nparGerm n).le_rc_iff (nparGerm_P.2 hw) |>.1 l1).2
      have hzp : NCP (tr p * z) := by
        have := nparGerm_P.1 ((nparGerm n).P_div l2 (nparGerm_P.2 hz)); rwa [tr_inv] at this
      have hlen : rlen (tr p * z) + 1 = rlen z := (rlen_swap_lt_iff z hpl.ne).2 h2
      obtain ⟨w', z', e1, e2, e3, e4, e5⟩ := ih (k + 1) hwp hzp (by omega)
      refine ⟨w', z', ?_, e2, e3, ReflTransGen.head ?_ e4, e5⟩
      · have hfc : NPar.fromComponents n [[((a : Nat) : Int), ((b : Nat) : Int)]] = .ok (nparOf (tr p)) :=
          fromComponents_pair (a := ⟨a, ha⟩) (b := ⟨b, hb⟩) hab
        rw [lookup_lt hlt, hab', bind_ok]
        simp only [toPermutation_eq, bind_ok, hfc, compose_eq, fromPermutation_ok hwp, fromPermutation_ok hzp]
        exact e1
      · have st := Germ.Step.head (g := nparGerm n) (l := []) (npar_atoms.1 p hpl) l1 l2
        rwa [tr_inv] at st

theorem rlen_le (x : Perm (Fin n)) : rlen x ≤ n := Nat.sub_le _ _

theorem npar_renormEntry (L : NL n l) (ω : Nat → Nat) {x y : Perm (Fin n)} (hx : NCP x) (hy : NCP y) :
    ∃ a b bb, NParTable.renormEntry n l ω (nparOf x) (nparOf y) = .ok ((a, b), bb) ∧
      a < NPar.catalanNum n ∧ b < NPar.catalanNum n ∧ (nparGerm n).Steps [x, y] [nparAt n a, nparAt n b] ∧
      (nparGerm n).PairN (nparAt n a) (nparAt n b) ∧ (bb = true ↔ (nparGerm n).PairN x y) := by
  obtain ⟨w, z, e1, hw, hz, e2, e3⟩ := npar_renormLoop ω (n + 1) 0 hx hy (by have := rlen_le y; omega)
  obtain ⟨i, i1, i2, i3⟩ := L.index hw
  obtain ⟨j, j1, j2, j3⟩ := L.index hz
  refine ⟨i, j, nparOf w == nparOf x && nparOf z == nparOf y, ?_, i1, j1, by rw [i3, j3]; exact e2, by rw [i3, j3]; exact e3, ?_⟩
  · unfold NParTable.renormEntry
    rw [e1, bind_ok, i2, bind_ok, j2, bind_ok]
  · rw [Bool.and_eq_true, beq_iff_eq, beq_iff_eq]
    constructor
    · rintro ⟨h1, h2⟩; rw [← nparOf_injective h1, ← nparOf_injective h2]; exact e3
    · intro h
      have hN : (nparGerm n).Nrm [x, y] := by simpa [Germ.Nrm] using h
      have := hN.steps e2
      simp only [List.cons.injEq, and_true] at this
      rw [this.1, this.2]; exact ⟨rfl, rfl⟩

/-- The rows of `tau` beyond the second: iterates. -/
theorem tauRows_spec {one : List Nat} {order : Nat} (F : Nat → Nat) (h1 : ∀ i, i < order → F i < order ∧ lookup one i = .ok (F i))
    (k m : Nat) (prev : List Nat) (hp : ∀ i, i < order → lookup prev i = .ok (F^[m] i)) :
    ∃ rows, NParTable.tauRows one order k prev = .ok rows ∧ rows.length = k ∧
      ∀ j i, j < k → i < order → lookup2 rows j i = .ok (F^[m + 1 + j] i) := by
  have hlt : ∀ m i, i < order → F^[m] i < order := by
    intro m
    induction m with
    | zero => intro i hi; exact hi
    | succ m ih => intro i hi; rw [Function.iterate_succ_apply']; exact (h1 _ (ih i hi)).1
  induction k generalizing m prev with
  | zero => exact ⟨[], rfl, rfl, by omega⟩
  | succ k ih =>
    have hrow : (List.range order).mapM (fun x => do
        let y ← lookup prev x
        lookup one y) = .ok ((List.range order).map fun i => F^[m + 1] i) := by
      apply TL.mapM_ok
      intro i hi
      rw [List.mem_range] at hi
      rw [hp i hi, bind_ok, (h1 _ (hlt m i hi)).2, Function.iterate_succ_apply']
    obtain ⟨rows, r1, r2, r3⟩ := ih (m + 1) ((List.range order).map fun i => F^[m + 1] i) (by
      intro i hi; rw [lookup_lt (by simpa using hi)]; simp)
    refine ⟨_ :: rows, by rw [NParTable.tauRows, hrow, bind_ok, r1, bind_ok], by simp [r2], fun j i hj hi => ?_⟩
    cases j with
    | zero =>
      unfold lookup2
      rw [lookup_lt (by simp), bind_ok]
      simp only [List.getElem_cons_zero]
      rw [lookup_lt (by simpa using hi)]; simp
    | succ j =>
      have := r3 j i (by omega) hi
      unfold lookup2 at this ⊢
      rw [show m + 1 + (j + 1) = m + 1 + 1 + j by omega, ← this]; rfl

theorem tau_iter (k : Nat) (x : Perm (Fin n)) : (nparGerm n).tau^[k] x = (dcyc n ^ k)⁻¹ * x * dcyc n ^ k := by
  induction k generalizing x with
  | zero => simp
  | succ k ih =>
    rw [Function.iterate_succ_apply', ih]
    show (dcyc n)⁻¹ * _ * dcyc n = _
    rw [pow_succ]; group

/-- What the table of noncrossing partitions contains, beside the `NFTable` data. -/
structure NParData (n : Nat) (l : List NPar) (t : NParTable) : Prop where
  order : t.order = NPar.catalanNum n
  divs : t.divs = l
  tauOrder : t.tauOrder = n
  gens_len : t.artinGens.length = n - 1
  gens : ∀ i (h : i + 1 < n), ∃ j, j < t.order ∧ lookup t.artinGens i = .ok j ∧ nparAt n j = tr (⟨i, by omega⟩, ⟨i + 1, h⟩)
  words : ∀ i, i < t.order → ∃ w, lookup t.artinWord i = .ok w ∧ (∀ se ∈ w, (se.2 = 1 ∨ se.2 = -1) ∧ se.1 + 1 < n) ∧
      wordBraid n w = dlift (nparAt n i)
  bkl : ∃ K : Nat × Nat → Nat, t.bklGens = (NPar.pairs2 (List.range n)).map (fun e => (e, K e)) ∧
    ∀ a b (ha : a < n) (hb : b < n), a < b → K (a, b) < t.order ∧ nparAt n (K (a, b)) = tr (⟨a, ha⟩, ⟨b, hb⟩)

/-- The table of noncrossing partitions implements their germ, whatever `set.pop` returns. -/
theorem npar_build_spec (ω : NPar → NPar → Nat → Nat) (hn : 2 ≤ n) (L : NL n l) : ∃ t, NParTable.build ω n = .ok t ∧
    TableSpec t.toNFTable (nparGerm n) (nparAt n) ∧ NParData n l t := by
  have hex : ∀ p ∈ l, ∃ x : Perm (Fin n), NCP x ∧ p = nparOf x := fun p hp => (L.mem p).1 hp
  obtain ⟨i0, i1, i2, i3⟩ := L.index (ncp_one (n := n))
  obtain ⟨d0, d1, d2, d3⟩ := L.index (ncp_dcyc (n := n))
  have hatom : ∀ p : Fin n × Fin n, p.1 < p.2 → NCP (tr p) := fun p hp => ncp_tr hp
  -- generators
  have hag : ∀ i (h : i + 1 < n), ∃ j, j < NPar.catalanNum n ∧ (do
      let p ← NPar.fromComponents n [[((i : Nat) : Int), ((i : Nat) : Int) + 1]]
      dictIndex l p) = Except.ok j ∧ nparAt n j = tr (⟨i, by omega⟩, ⟨i + 1, h⟩) := by
    intro i h
    have hlt : (⟨i, by omega⟩ : Fin n) < ⟨i + 1, h⟩ := by simp [Fin.lt_def]
    obtain ⟨j, j1, j2, j3⟩ := L.index (hatom (⟨i, by omega⟩, ⟨i + 1, h⟩) hlt)
    have hf := fromComponents_pair hlt
    simp only [Nat.cast_add, Nat.cast_one] at hf
    exact ⟨j, j1, by rw [hf, bind_ok, j2], j3⟩
  obtain ⟨ag, ag1, ag2, ag3⟩ := mapM_ok (fun (i : Nat) => do
      let p ← NPar.fromComponents n [[((i : Nat) : Int), ((i : Nat) : Int) + 1]]
      dictIndex l p) (List.range (n - 1)) (by
    intro i hi
    obtain ⟨j, -, h, -⟩ := hag i (by have := List.mem_range.1 hi; omega)
    exact ⟨j, h⟩)
  rw [List.length_range] at ag2
  -- band generators
  have hbk : ∀ e : Nat × Nat, ∃ k, ∀ (ha : e.1 < n) (hb : e.2 < n), e.1 < e.2 → k < NPar.catalanNum n ∧
      nparAt n k = tr (⟨e.1, ha⟩, ⟨e.2, hb⟩) ∧ (do
      let p ← NPar.fromComponents n [[(e.1 : Int), (e.2 : Int)]]
      let k ← dictIndex l p
      .ok (e, k)) = Except.ok (e, k) := by
    intro e
    by_cases h : e.1 < n ∧ e.2 < n ∧ e.1 < e.2
    · obtain ⟨ha, hb, hab⟩ := h
      have hlt : (⟨e.1, ha⟩ : Fin n) < ⟨e.2, hb⟩ := hab
      obtain ⟨j, j1, j2, j3⟩ := L.index (hatom (⟨e.1, ha⟩, ⟨e.2, hb⟩) hlt)
      have hf := fromComponents_pair hlt
      refine ⟨j, fun _ _ _ => ⟨j1, j3, ?_⟩⟩
      simp only at hf
      rw [hf, bind_ok, j2, bind_ok]
    · exact ⟨0, fun ha hb hab => absurd ⟨ha, hb, hab⟩ h⟩
  choose K hK using hbk
  have bk1 : (NPar.pairs2 (List.range n)).mapM (fun ij : Nat × Nat => do
      let p ← NPar.fromComponents n [[(ij.1 : Int), (ij.2 : Int)]]
      let k ← dictIndex l p
      .ok (ij, k)) = Except.ok ((NPar.pairs2 (List.range n)).map fun e => (e, K e)) := by
    apply TL.mapM_ok
    intro e he
    have := (mem_pairs2 List.pairwise_lt_range).1 he
    simp only [List.mem_range] at this
    exact (hK e this.1 this.2.1 this.2.2).2.2
  have hlc : ∀ x : Perm (Fin n), NCP x → NCP (dcyc n * x⁻¹) := fun x hx => nparGerm_P.1 ((nparGerm n).P_lc (nparGerm_P.2 hx))
  have hrc : ∀ x : Perm (Fin n), NCP x → NCP (x⁻¹ * dcyc n) := fun x hx => nparGerm_P.1 ((nparGerm n).P_rc (nparGerm_P.2 hx))
  obtain ⟨lc, lc1, -, lc2⟩ := L.column (fun x => dcyc n * x⁻¹) hlc (fun p => do
    let q ← p.leftComplement
    dictIndex l q) (fun x _ => by rw [leftComplement_eq, bind_ok])
  obtain ⟨rc, rc1, -, rc2⟩ := L.column (fun x => x⁻¹ * dcyc n) hrc (fun p => do
    let q ← p.rightComplement
    dictIndex l q) (fun x _ => by rw [rightComplement_eq, bind_ok])
  obtain ⟨tl, tl1, tl0, tl2⟩ := L.column (fun x => dcyc n * (dcyc n * x⁻¹)⁻¹) (fun x hx => hlc _ (hlc x hx)) (fun p => do
    let q ← p.leftComplement
    let q ← q.leftComplement
    dictIndex l q) (fun x _ => by rw [leftComplement_eq, bind_ok, leftComplement_eq, bind_ok])
  obtain ⟨tr', tr1, tr0, tr2⟩ := L.column (fun x => (x⁻¹ * dcyc n)⁻¹ * dcyc n) (fun x hx => hrc _ (hrc x hx)) (fun p => do
    let q ← p.rightComplement
    let q ← q.rightComplement
    dictIndex l q) (fun x _ => by rw [rightComplement_eq, bind_ok, rightComplement_eq, bind_ok])
  -- artin words
  obtain ⟨aw, aw1, aw2, aw3⟩ := mapM_ok NPar.artinWord l (by
    intro p hp
    obtain ⟨x, hx, rfl⟩ := hex p hp
    obtain ⟨w, h, -⟩ := npar_artinWord hx
    exact ⟨w, h⟩)
  -- the rows of tau
  have rowOf : ∀ (col : List Nat) (G : Perm (Fin n) → Perm (Fin n)), (∀ i, i < NPar.catalanNum n → ∃ j, j < NPar.catalanNum n ∧
      lookup col i = .ok j ∧ nparAt n j = G (nparAt n i)) → ∃ F : Nat → Nat, ∀ i, i < NPar.catalanNum n → F i < NPar.catalanNum n ∧
      lookup col i = .ok (F i) ∧ nparAt n (F i) = G (nparAt n i) := by
    intro col G h
    have : ∀ i, ∃ j, i < NPar.catalanNum n → j < NPar.catalanNum n ∧ lookup col i = .ok j ∧ nparAt n j = G (nparAt n i) := by
      intro i
      by_cases hi : i < NPar.catalanNum n
      · obtain ⟨j, hj⟩ := h i hi; exact ⟨j, fun _ => hj⟩
      · exact ⟨0, fun h => absurd h hi⟩
    choose F hF using this
    exact ⟨F, hF⟩
  obtain ⟨FL, hFL⟩ := rowOf tl (fun x => dcyc n * (dcyc n * x⁻¹)⁻¹) tl2
  obtain ⟨FR, hFR⟩ := rowOf tr' (fun x => (x⁻¹ * dcyc n)⁻¹ * dcyc n) tr2
  obtain ⟨rl, rl1, rl2, rl3⟩ := tauRows_spec FL (fun i hi => ⟨(hFL i hi).1, (hFL i hi).2.1⟩) (n - 2) 1 tl (fun i hi => (hFL i hi).2.1)
  obtain ⟨rr, rr1, rr2, rr3⟩ := tauRows_spec FR (fun i hi => ⟨(hFR i hi).1, (hFR i hi).2.1⟩) (n - 2) 1 tr' (fun i hi => (hFR i hi).2.1)
  -- the renormalisation entries
  obtain ⟨en, en1, en2, en3⟩ := mapM_ok (fun x => l.mapM fun y => NParTable.renormEntry n l (ω x y) x y) l (by
    intro p hp
    obtain ⟨x, hx, rfl⟩ := hex p hp
    obtain ⟨r, r1, -, -⟩ := mapM_ok (fun y => NParTable.renormEntry n l (ω (nparOf x) y) (nparOf x) y) l (by
        intro q hq; obtain ⟨y, hy, rfl⟩ := hex q hq
        obtain ⟨a, b, bb, h, -⟩ := npar_renormEntry L (ω (nparOf x) (nparOf y)) hx hy
        exact ⟨_, h⟩)
    exact ⟨r, r1⟩)
  have ent : ∀ i, i < NPar.catalanNum n → ∃ hi : i < en.length, en[i].length = NPar.catalanNum n ∧ ∀ j (hj : j < NPar.catalanNum n),
      ∃ hj' : j < en[i].length, en[i][j].1.1 < NPar.catalanNum n ∧ en[i][j].1.2 < NPar.catalanNum n ∧
        (nparGerm n).Steps [nparAt n i, nparAt n j] [nparAt n en[i][j].1.1, nparAt n en[i][j].1.2] ∧
        (nparGerm n).PairN (nparAt n en[i][j].1.1) (nparAt n en[i][j].1.2) ∧
        (en[i][j].2 = true ↔ (nparGerm n).PairN (nparAt n i) (nparAt n j)) := by
    intro i hi
    rw [← L.length] at hi
    have hi' : i < en.length := by omega
    refine ⟨hi', ?_⟩
    have h := en3 i hi hi'
    obtain ⟨ei, hNi⟩ := L.at hi
    obtain ⟨r, r1, r2, r3⟩ := mapM_ok (fun y => NParTable.renormEntry n l (ω l[i] y) l[i] y) l (by
        intro q hq; obtain ⟨y, hy, rfl⟩ := hex q hq
        obtain ⟨a, b, bb, h, -⟩ := npar_renormEntry L (ω l[i] (nparOf y)) hNi hy
        exact ⟨_, by rw [← ei] at h; exact h⟩)
    rw [r1] at h
    simp only [Except.ok.injEq] at h
    rw [← h]
    refine ⟨by rw [r2, L.length], fun j hj => ?_⟩
    rw [← L.length] at hj
    refine ⟨by omega, ?_⟩
    have e := r3 j hj (by omega)
    obtain ⟨ej, hNj⟩ := L.at hj
    obtain ⟨a, b, bb, h1, h2, h3, h4, h5, h6⟩ := npar_renormEntry L (ω l[i] l[j]) hNi hNj
    rw [← ei, ← ej] at h1
    rw [h1] at e
    simp only [Except.ok.injEq] at e
    rw [← e]; exact ⟨h2, h3, h4, h5, h6⟩
  refine ⟨
     { n := n
       order := NPar.catalanNum n
       divs := l
       id := i0
       D := d0
       artinGens := ag
       leftComp := lc
       rightComp := rc
       tauOrder := n
       tauLeft := List.range (NPar.catalanNum n) :: tl :: rl
       tauRight := List.range (NPar.catalanNum n) :: tr' :: rr
       renorm := en.map fun row => row.map (·.1)
       isNormalised := en.map fun row => row.map (·.2)
       follows := en.map fun row => (row.zipIdx.filter fun e => e.1.2 && e.2 != i0 && e.2 != d0).map (·.2)
       artinWord := aw
       bklGens := (NPar.pairs2 (List.range n)).map fun e => (e, K e) }, ?_, ?_, ?_⟩
  · unfold NParTable.build
    rw [L.ok, bind_ok]
    simp only
    rw [ag1, bind_ok, bk1, bind_ok, finest_eq, i2, bind_ok, coarsest_eq, d2, bind_ok, lc1, bind_ok, rc1, bind_ok, aw1, bind_ok,
      if_neg (by omega), tl1, bind_ok, tr1, bind_ok, rl1, bind_ok, rr1, bind_ok, en1, bind_ok]
  · exact
    { D_ne := npar_D_ne hn
      inj := fun i j hi hj h => L.inj hi hj h
      simple := fun i hi => nparGerm_P.2 (L.at (by rw [L.length]; exact hi)).2
      surj := fun x hx => by obtain ⟨i, hi, -, h⟩ := L.index (nparGerm_P.1 hx); exact ⟨i, hi, h⟩
      id_lt := i1
      v_id := i3
      D_lt := d1
      v_D := d3
      leftComp := lc2
      rightComp := rc2
      tauOrder_pos := by simp only; omega
      tau_order := by
        intro x
        show (nparGerm n).tau^[n] x = x
        rw [tau_iter, dcyc_pow]; simp
      tauRight := by
        intro k i hk hi
        have hk : k < n := hk
        have hi : i < NPar.catalanNum n := hi
        have it : ∀ m, FR^[m] i < NPar.catalanNum n ∧ nparAt n (FR^[m] i) = (nparGerm n).tau^[m] (nparAt n i) := by
          intro m
          induction m with
          | zero => exact ⟨hi, rfl⟩
          | succ m ih =>
            rw [Function.iterate_succ_apply', Function.iterate_succ_apply']
            have := hFR _ ih.1
            exact ⟨this.1, by rw [this.2.2, ih.2]; exact (nparGerm n).rc_rc _⟩
        refine ⟨FR^[k] i, (it k).1, ?_, (it k).2⟩
        match k, hk with
        | 0, _ =>
          show lookup (List.range _) i = _
          rw [lookup_lt (by simpa using hi)]; simp
        | 1, _ => exact (hFR i hi).2.1
        | k + 2, hk =>
          have := rr3 k i (by omega) hi
          rw [show 1 + 1 + k = k + 2 by omega] at this
          rw [← this]; rfl
      renorm := by
        intro i j hi hj
        obtain ⟨h1, h2, h3⟩ := ent i hi
        obtain ⟨h4, h5, h6, h7, h8, -⟩ := h3 j hj
        refine ⟨_, _, h5, h6, ?_, h7, h8⟩
        unfold lookup2
        rw [lookup_lt (by simpa using h1), bind_ok, lookup_lt (by simpa using h4)]
        simp
      isNormalised := by
        intro i j hi hj
        obtain ⟨h1, h2, h3⟩ := ent i hi
        obtain ⟨h4, h5, h6, h7, h8, h9⟩ := h3 j hj
        refine ⟨_, ?_, h9⟩
        unfold lookup2
        rw [lookup_lt (by simpa using h1), bind_ok, lookup_lt (by simpa using h4)]
        simp
      follows := by
        intro i hi
        obtain ⟨h1, h2, h3⟩ := ent i hi
        have := row_follows en[i] i0 d0
        refine ⟨_, ?_, this.1, fun j => ?_⟩
        · rw [lookup_lt (by simpa using h1), List.getElem_map]
        · rw [this.2]
          constructor
          · rintro ⟨⟨h4, h5⟩, h6⟩
            obtain ⟨_, -, -, -, -, h9⟩ := h3 j (by omega)
            exact ⟨by simp only; omega, h9.1 h5, h6⟩
          · rintro ⟨h4, h5, h6⟩
            obtain ⟨h7, -, -, -, -, h9⟩ := h3 j h4
            exact ⟨⟨h7, h9.2 h5⟩, h6⟩ }
  · refine ⟨rfl, rfl, rfl, ag2, fun i hi => ?_, fun i hi => ?_, K, rfl, fun a b ha hb hab => ?_⟩
    · have h := ag3 i (by simp; omega) (by omega)
      rw [List.getElem_range] at h
      obtain ⟨j, j1, j2, j3⟩ := hag i hi
      rw [j2, Except.ok.injEq] at h
      refine ⟨j, j1, ?_, j3⟩
      show lookup ag i = _
      rw [lookup_lt (by omega), h]
    · have hi' : i < l.length := by rw [L.length]; exact hi
      have h := aw3 i hi' (by omega)
      obtain ⟨e, hN⟩ := L.at hi'
      rw [e] at h
      obtain ⟨w, w1, w2, w3⟩ := npar_artinWord hN
      rw [w1, Except.ok.injEq] at h
      refine ⟨w, ?_, w2, w3⟩
      show lookup aw i = _
      rw [lookup_lt (by omega), h]
    · exact ⟨(hK (a, b) ha hb hab).1, (hK (a, b) ha hb hab).2.1⟩

/-- The realisation of a `DGNF` table. -/
structure DReal (lim : Nat) (ω : NPar → NPar → Nat → Nat) (n : Nat) (l : List NPar) (t : NParTable) : Prop where
  create : NParTable.create lim ω n = .ok t
  nl : NL n l
  data : NParData n l t
  real : NFReal (DGNF.tbl lim ω) n t.toNFTable (nparGerm n) (nparAt n) dlift

theorem band_adj (n i : Nat) : band n i (i + 1) = sigma n i := by
  rw [band_eq (by omega), ban_succ_self]

/-- `DGNF` realises the germ of noncrossing partitions in the braid group. -/
theorem dgnf_real (lim : Nat) (ω : NPar → NPar → Nat → Nat) (hn : 2 ≤ n) (hl : NPar.catalanNum n < lim) : ∃ l t, DReal lim ω n l t := by
  obtain ⟨l, L⟩ := exists_nl n
  obtain ⟨t, t1, t2, t3⟩ := npar_build_spec ω hn L
  have hc : NParTable.create lim ω n = .ok t := by rw [NParTable.create, if_neg (by omega), t1]
  refine ⟨l, t, hc, L, t3, ?_, t2, dlift_hom, npar_faithful _, t3.gens_len, fun i hi => ?_, t3.words, ?_⟩
  · rw [DGNF.tbl, hc, bind_ok]
  · obtain ⟨j, j1, j2, j3⟩ := t3.gens i hi
    refine ⟨j, j1, j2, ?_⟩
    rw [j3, dlift_tr (by simp [Fin.lt_def])]; exact band_adj n i
  · rintro s ⟨p, -, rfl⟩; simp [tr]

end Peyl
