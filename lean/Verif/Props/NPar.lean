import Verif.Lemmas.NParTable
import Mathlib.Combinatorics.Enumerative.Catalan.Basic
/-!
# Properties C25, C26, C27, C30: noncrossing partitions and band generators
-/
namespace Peyl
open Equiv Perms TL
variable {n : Nat}

/-! ## C25 -/

/-- C25: `is_parallel_descending_cycles` answers for every permutation, and answers True exactly for the products of disjoint
parallel descending cycles. -/
theorem C25_is_parallel_descending (x : Perm (Fin n)) :
    ∃ b, isParallelDescendingCycles (wordOf x) = .ok b ∧ (b = true ↔ ParallelDescending x) := isParallel_spec x

example := C25_is_parallel_descending (n := 5) (Equiv.swap 1 3)

/-- C25: the permutation of a noncrossing partition is accepted by `is_parallel_descending_cycles`, has the blocks as its
cycles, and `from_permutation` gets the partition back. -/
theorem C25_to_permutation (p : NPar) (h : p.Ok) : ∃ x : Perm (Fin p.n), p.toPermutation = .ok (wordOf x) ∧
    isParallelDescendingCycles (wordOf x) = .ok true ∧ (∀ a b, x.SameCycle a b ↔ p.blocks a b) ∧
    NPar.fromPermutation (wordOf x) = .ok p := by
  obtain ⟨x, hx, hp⟩ := exists_nparOf h
  obtain ⟨b, hb, hb'⟩ := isParallel_spec x
  have : b = true := hb'.2 hx.parallel
  subst this
  have key : ∀ q : NPar, q = nparOf x → ∃ y : Perm (Fin q.n), q.toPermutation = .ok (wordOf y) ∧
      isParallelDescendingCycles (wordOf y) = .ok true ∧ (∀ a b, y.SameCycle a b ↔ q.blocks a b) ∧
      NPar.fromPermutation (wordOf y) = .ok q := by
    rintro q rfl
    exact ⟨x, toPermutation_eq x, hb, fun a b => (nparOf_blocks x a b).symm, fromPermutation_ok hx⟩
  exact key p hp

/-- C25: a permutation accepted by `is_parallel_descending_cycles` is the permutation of the noncrossing partition which
`from_permutation` returns; every other permutation is rejected with a ValueError. -/
theorem C25_from_permutation (x : Perm (Fin n)) :
    (isParallelDescendingCycles (wordOf x) = .ok true ∧
      ∃ p, NPar.fromPermutation (wordOf x) = .ok p ∧ p.Ok ∧ p.n = n ∧ p.toPermutation = .ok (wordOf x)) ∨
    (isParallelDescendingCycles (wordOf x) = .ok false ∧ NPar.fromPermutation (wordOf x) = .error .value) := by
  obtain ⟨b, hb, hb'⟩ := isParallel_spec x
  cases b with
  | true =>
    have hx := ncp_of_parallel (hb'.1 rfl)
    exact Or.inl ⟨hb, nparOf x, fromPermutation_ok hx, nparOf_ok.2 hx, rfl, toPermutation_eq x⟩
  | false =>
    exact Or.inr ⟨hb, fromPermutation_bad fun h => by have := hb'.2 h.parallel; simp at this⟩

theorem isBlockList_congr {r s : Setoid (Fin n)} (h : ∀ a b, r a b ↔ s a b) {cs : List (List Nat)} (H : IsBlockList r cs) : IsBlockList s cs :=
  ⟨H.nonempty, H.ascending, H.ordered, H.cover, fun a b => (h a b).symm.trans (H.block a b)⟩

theorem fromComponents_blocks {x : Perm (Fin n)} (hx : NCP x) {cs : List (List Nat)} (H : IsBlockList (Perm.SameCycle.setoid x) cs) :
    NPar.fromComponents n (cs.map fun c => c.map Int.ofNat) = .ok (nparOf x) := by
  have hlt : ∀ c ∈ cs, ∀ k ∈ c, k < n := fun c hc k hk => by
    simpa using H.cover.mem_iff.1 (List.mem_flatten.2 ⟨c, hc, hk⟩)
  have hfl : (cs.map fun c => c.map Int.ofNat).flatten = cs.flatten.map Int.ofNat := by rw [List.map_flatten]
  obtain ⟨y, y1, y2, y3, -⟩ := fromComponents_spec (n := n) (comps := cs.map fun c => c.map Int.ofNat)
    (by rw [hfl]; exact (H.cover.nodup_iff.2 List.nodup_range).map (fun a b h => by simpa using h))
    (by
      rw [hfl]; intro k hk
      obtain ⟨m, hm, rfl⟩ := List.mem_map.1 hk
      obtain ⟨c, hc, hmc⟩ := List.mem_flatten.1 hm
      have := hlt c hc m hmc
      exact ⟨by simp, by simpa using this⟩)
  have e : ∀ k : Fin n, ∀ c : List Nat, (k : Int) ∈ c.map Int.ofNat ↔ (k : Nat) ∈ c := by
    intro k c
    rw [List.mem_map]
    constructor
    · rintro ⟨m, hm, h⟩; rw [show (k : Nat) = m by simpa using h.symm]; exact hm
    · intro h; exact ⟨_, h, rfl⟩
  have hxy : x = y := by
    refine Descending.unique hx.parallel.1 y1 fun a b => ?_
    rw [y2]
    constructor
    · intro h
      obtain ⟨c, hc, ha, hb⟩ := (H.block a b).1 h
      exact Or.inr ⟨_, List.mem_map.2 ⟨c, hc, rfl⟩, (e a c).2 ha, (e b c).2 hb⟩
    · rintro (rfl | ⟨d, hd, ha, hb⟩)
      · exact .refl _ _
      · obtain ⟨c, hc, rfl⟩ := List.mem_map.1 hd
        exact (H.block a b).2 ⟨c, hc, (e a c).1 ha, (e b c).1 hb⟩
  rw [y3 (hxy ▸ hx), hxy]

/-- C25: `components` lists the blocks of a noncrossing partition, and `from_components` rebuilds the partition from them. -/
theorem C25_components (p : NPar) (h : p.Ok) : ∃ cs, p.components = .ok cs ∧ IsBlockList p.blocks cs ∧
    NPar.fromComponents p.n (cs.map fun c => c.map Int.ofNat) = .ok p := by
  obtain ⟨x, hx, hp⟩ := exists_nparOf h
  have key : ∀ q : NPar, q = nparOf x → ∃ cs, q.components = .ok cs ∧ IsBlockList q.blocks cs ∧
      NPar.fromComponents q.n (cs.map fun c => c.map Int.ofNat) = .ok q := by
    rintro q rfl
    obtain ⟨cs, h1, -, h3⟩ := components_spec hx
    exact ⟨cs, h1, isBlockList_congr (fun a b => (nparOf_blocks x a b).symm) h3, fromComponents_blocks hx h3⟩
  exact key p hp

/-- C25: `edges` lists the pairs of distinct points of a common block, smaller point first. -/
theorem C25_edges (p : NPar) (h : p.Ok) : ∃ es, p.edges = .ok es ∧
    ∀ a b : Nat, (a, b) ∈ es ↔ ∃ (ha : a < p.n) (hb : b < p.n), a < b ∧ p.blocks ⟨a, ha⟩ ⟨b, hb⟩ := by
  obtain ⟨x, hx, hp⟩ := exists_nparOf h
  have key : ∀ q : NPar, q = nparOf x → ∃ es, q.edges = .ok es ∧
      ∀ a b : Nat, (a, b) ∈ es ↔ ∃ (ha : a < q.n) (hb : b < q.n), a < b ∧ q.blocks ⟨a, ha⟩ ⟨b, hb⟩ := by
    rintro q rfl
    obtain ⟨es, h1, h2⟩ := edges_spec hx
    refine ⟨es, h1, fun a b => (h2 a b).trans ⟨?_, ?_⟩⟩
    · rintro ⟨ha, hb, h3, h4⟩; exact ⟨ha, hb, h3, (nparOf_blocks x _ _).2 h4⟩
    · rintro ⟨ha, hb, h3, h4⟩; exact ⟨ha, hb, h3, (nparOf_blocks x _ _).1 h4⟩
  exact key p hp

/-- C25: `from_components` accepts exactly the disjoint components in range whose partition is noncrossing; it then returns
the noncrossing partition with these blocks.  Everything else is a ValueError. -/
theorem C25_from_components (n : Nat) (comps : List (List Int)) :
    ((comps.flatten.Nodup ∧ (∀ k ∈ comps.flatten, 0 ≤ k ∧ k < n) ∧ NonCrossing (compRel (n := n) comps)) ∧
      ∃ inv, NPar.fromComponents n comps = .ok ⟨n, inv⟩ ∧ (⟨n, inv⟩ : NPar).Ok ∧
        ∀ a b : Fin n, (⟨n, inv⟩ : NPar).blocks a b ↔ compRel comps a b) ∨
    (¬ (comps.flatten.Nodup ∧ (∀ k ∈ comps.flatten, 0 ≤ k ∧ k < n) ∧ NonCrossing (compRel (n := n) comps)) ∧
      NPar.fromComponents n comps = .error .value) := by
  by_cases h : comps.flatten.Nodup ∧ ∀ k ∈ comps.flatten, 0 ≤ k ∧ k < n
  · obtain ⟨x, x1, x2, x3, x4⟩ := fromComponents_spec h.1 h.2
    have hN : NCP x ↔ NonCrossing (compRel (n := n) comps) := by
      rw [ncp_iff]
      have : (x.SameCycle : Fin n → Fin n → Prop) = compRel comps := by
        funext a b; exact propext (x2 a b)
      unfold ParallelDescending
      rw [this]; exact ⟨fun k => k.2, fun k => ⟨x1, k⟩⟩
    by_cases hx : NCP x
    · exact Or.inl ⟨⟨h.1, h.2, hN.1 hx⟩, _, x3 hx, nparOf_ok.2 hx, fun a b => (nparOf_blocks x a b).trans (x2 a b)⟩
    · exact Or.inr ⟨fun k => hx (hN.2 k.2.2), x4 hx⟩
  · exact Or.inr ⟨fun k => h ⟨k.1, k.2.1⟩, fromComponents_bad h⟩

/-- C25: the blocks of a legal `NPar` do not cross; an `NPar` is determined by its blocks; and every noncrossing partition is
the partition of some `NPar`. -/
theorem C25_partitions (n : Nat) : (∀ inv, (⟨n, inv⟩ : NPar).Ok → NonCrossing fun a b : Fin n => (⟨n, inv⟩ : NPar).blocks a b) ∧
    (∀ inv inv', (⟨n, inv⟩ : NPar).Ok → (⟨n, inv'⟩ : NPar).Ok →
      (∀ a b : Fin n, (⟨n, inv⟩ : NPar).blocks a b ↔ (⟨n, inv'⟩ : NPar).blocks a b) → inv = inv') ∧
    ∀ r : Setoid (Fin n), NonCrossing (fun a b => r a b) → ∃ inv, (⟨n, inv⟩ : NPar).Ok ∧ ∀ a b : Fin n, (⟨n, inv⟩ : NPar).blocks a b ↔ r a b := by
  have rep : ∀ inv, (⟨n, inv⟩ : NPar).Ok → ∃ x : Perm (Fin n), NCP x ∧ inv = (nparOf x).inv ∧ ∀ a b : Fin n, (⟨n, inv⟩ : NPar).blocks a b ↔ x.SameCycle a b := by
    intro inv h
    obtain ⟨x, hx, hp⟩ := exists_nparOf h
    have key : ∀ i', (⟨n, i'⟩ : NPar) = nparOf (n := n) x → ∀ a b : Fin n, (⟨n, i'⟩ : NPar).blocks a b ↔ Perm.SameCycle (α := Fin n) x a b := by
      intro i' h
      have e : i' = (nparOf (n := n) x).inv := congrArg NPar.inv h
      subst e
      exact nparOf_blocks (n := n) x
    exact ⟨x, hx, congrArg NPar.inv hp, key inv hp⟩
  refine ⟨fun inv h => ?_, fun inv inv' h h' hb => ?_, fun r hr => ?_⟩
  · obtain ⟨x, hx, -, hb⟩ := rep inv h
    intro a b c d h1 h2 h3 h4 h5
    exact (hb _ _).2 (hx.cross h1 h2 h3 ((hb _ _).1 h4) ((hb _ _).1 h5))
  · obtain ⟨x, hx, e, k⟩ := rep inv h
    obtain ⟨y, hy, e', k'⟩ := rep inv' h'
    have : x = y := Descending.unique hx.parallel.1 hy.parallel.1 fun a b => by rw [← k, ← k', hb]
    rw [e, e', this]
  · classical
    -- the blocks of `r`, each listed at its least element
    set heads := (List.finRange n).filter fun m => decide (∀ a, r a m → m ≤ a) with hh
    set comps : List (List Int) := heads.map fun m => ((List.finRange n).filter fun a => decide (r m a)).map fun a : Fin n => ((a : Nat) : Int) with hc
    have inj : Function.Injective fun a : Fin n => ((a : Nat) : Int) := fun a b h => Fin.ext (by simpa using h)
    have mem : ∀ (m a : Fin n), ((a : Nat) : Int) ∈ (((List.finRange n).filter fun a => decide (r m a)).map fun a : Fin n => ((a : Nat) : Int)) ↔ r m a := by
      intro m a
      rw [List.mem_map_of_injective inj, List.mem_filter]; simp
    have hnd : comps.flatten.Nodup := by
      rw [List.nodup_flatten]
      refine ⟨fun l hl => ?_, ?_⟩
      · obtain ⟨m, -, rfl⟩ := List.mem_map.1 hl
        exact ((List.nodup_finRange n).filter _).map inj
      · rw [hc, List.pairwise_map]
        refine List.Pairwise.imp_of_mem (fun {m m'} hm hm' hne => ?_) ((List.nodup_finRange n).filter _)
        intro k k1 k2
        obtain ⟨a, ha, rfl⟩ := List.mem_map.1 k1
        have ra : r m a := (mem m a).1 k1
        have ra' : r m' a := (mem m' a).1 k2
        have h1 := of_decide_eq_true (List.mem_filter.1 hm).2
        have h2 := of_decide_eq_true (List.mem_filter.1 hm').2
        have hr' : r m m' := r.trans' ra (r.symm' ra')
        exact hne (le_antisymm (h1 m' (r.symm' hr')) (h2 m hr'))
    have hrange : ∀ k ∈ comps.flatten, 0 ≤ k ∧ k < n := by
      intro k hk
      obtain ⟨l, hl, hk⟩ := List.mem_flatten.1 hk
      obtain ⟨m, -, rfl⟩ := List.mem_map.1 hl
      obtain ⟨a, -, rfl⟩ := List.mem_map.1 hk
      exact ⟨by simp, by simp⟩
    have hrel : ∀ a b : Fin n, compRel comps a b ↔ r a b := by
      intro a b
      constructor
      · rintro (rfl | ⟨l, hl, h1, h2⟩)
        · exact r.refl' a
        · obtain ⟨m, -, rfl⟩ := List.mem_map.1 hl
          exact r.trans' (r.symm' ((mem m a).1 h1)) ((mem m b).1 h2)
      · intro hab
        obtain ⟨m, m1, m2⟩ := Finset.exists_min_image (Finset.univ.filter fun b => r b a) id ⟨a, by simp [r.refl' a]⟩
        simp only [Finset.mem_filter, Finset.mem_univ, true_and, id] at m1 m2
        have hm : m ∈ heads := by
          rw [hh, List.mem_filter]
          exact ⟨List.mem_finRange m, decide_eq_true fun c hc => m2 c (r.trans' hc m1)⟩
        exact Or.inr ⟨_, List.mem_map.2 ⟨m, hm, rfl⟩, (mem m a).2 m1, (mem m b).2 (r.trans' m1 hab)⟩
    have hNC : NonCrossing (compRel (n := n) comps) := by
      intro a b c d h1 h2 h3 h4 h5
      exact (hrel a b).2 (hr a b c d h1 h2 h3 ((hrel a c).1 h4) ((hrel b d).1 h5))
    rcases C25_from_components n comps with ⟨-, inv, -, h2, h3⟩ | ⟨h1, -⟩
    · exact ⟨inv, h2, fun a b => (h3 a b).trans (hrel a b)⟩
    · exact absurd ⟨hnd, hrange, hNC⟩ h1

/-- Witnesses: a partition with a nested block, a rejected crossing one, and a rejected permutation. -/
theorem npar_witness : NPar.fromComponents 5 [[4, 0], [3, 1]] = .ok ⟨5, [9, 8, 7, 6, 5, 4, 3, 2, 1, 0]⟩ := by decide +kernel
example : NPar.fromComponents 4 [[0, 2], [1, 3]] = .error .value := by decide +kernel
example : NPar.fromPermutation [2, 3, 0, 1] = .error .value := by decide +kernel
theorem npar_witness_ok : (⟨5, [9, 8, 7, 6, 5, 4, 3, 2, 1, 0]⟩ : NPar).Ok := by
  rcases C25_from_components 5 [[4, 0], [3, 1]] with ⟨-, inv, h1, h2, -⟩ | ⟨-, h⟩
  · rw [npar_witness] at h1; injection h1 with h1; rw [h1]; exact h2
  · rw [npar_witness] at h; simp at h

/-! ## C26 -/

/-- C26: the complements of a noncrossing partition are noncrossing partitions of the same points, are inverse to each other,
and their permutations multiply with that of the partition to the permutation of the coarsest one. -/
theorem C26_complements (p : NPar) (h : p.Ok) : ∃ l r : NPar, p.leftComplement = .ok l ∧ p.rightComplement = .ok r ∧
    l.Ok ∧ r.Ok ∧ l.n = p.n ∧ r.n = p.n ∧ l.rightComplement = .ok p ∧ r.leftComplement = .ok p ∧
    ∃ w wl wr wd, p.toPermutation = .ok w ∧ l.toPermutation = .ok wl ∧ r.toPermutation = .ok wr ∧
      (NPar.coarsest p.n).toPermutation = .ok wd ∧ Perms.compose wl w = .ok wd ∧ Perms.compose w wr = .ok wd := by
  obtain ⟨x, hx, hp⟩ := exists_nparOf h
  have hP := nparGerm_P.2 hx
  have hl := nparGerm_P.1 ((nparGerm p.n).P_lc hP)
  have hr := nparGerm_P.1 ((nparGerm p.n).P_rc hP)
  have key : ∀ q : NPar, q = nparOf x → ∃ l r : NPar, q.leftComplement = .ok l ∧ q.rightComplement = .ok r ∧
    l.Ok ∧ r.Ok ∧ l.n = q.n ∧ r.n = q.n ∧ l.rightComplement = .ok q ∧ r.leftComplement = .ok q ∧
    ∃ w wl wr wd, q.toPermutation = .ok w ∧ l.toPermutation = .ok wl ∧ r.toPermutation = .ok wr ∧
      (NPar.coarsest q.n).toPermutation = .ok wd ∧ Perms.compose wl w = .ok wd ∧ Perms.compose w wr = .ok wd := by
    rintro q rfl
    refine ⟨_, _, leftComplement_eq x, rightComplement_eq x, nparOf_ok.2 hl, nparOf_ok.2 hr, rfl, rfl, ?_, ?_,
      _, _, _, _, toPermutation_eq _, toPermutation_eq _, toPermutation_eq _, ?_, compose_eq _ _, ?_⟩
    · rw [rightComplement_eq]; congr 2; group
    · rw [leftComplement_eq]; congr 2; group
    · rw [show (nparOf x).n = p.n from rfl, coarsest_eq, toPermutation_eq]; congr 2; group
    · rw [compose_eq]; congr 2; group
  exact key p hp

theorem foldl_left (x : Perm (Fin n)) (k : Nat) :
    (List.range (2 * k)).foldlM (init := nparOf x) (fun q _ => q.leftComplement) = .ok (nparOf ((dcyc n) ^ k * x * ((dcyc n) ^ k)⁻¹)) := by
  induction k with
  | zero => simp; rfl
  | succ k ih =>
    rw [show 2 * (k + 1) = 2 * k + 1 + 1 by omega, List.range_succ, List.range_succ, List.foldlM_append, List.foldlM_append, ih]
    simp only [List.foldlM_cons, List.foldlM_nil, bind_ok]
    rw [leftComplement_eq]
    simp only [pure, Except.pure, bind_ok]
    rw [leftComplement_eq]
    simp only [bind_ok]
    congr 2
    rw [pow_succ']; group

/-- C26: applying `left_complement` `2n` times gives the partition back. -/
theorem C26_rotation (p : NPar) (h : p.Ok) :
    (List.range (2 * p.n)).foldlM (init := p) (fun q _ => q.leftComplement) = .ok p := by
  obtain ⟨x, hx, hp⟩ := exists_nparOf h
  have := foldl_left x p.n
  rw [dcyc_pow, one_mul, _root_.inv_one, mul_one, ← hp] at this
  exact this

/-- C26: applying `left_complement` twice conjugates the permutation by that of the coarsest partition. -/
theorem C26_double (p : NPar) (h : p.Ok) : ∃ l ll, p.leftComplement = .ok l ∧ l.leftComplement = .ok ll ∧
    ∃ x y : Perm (Fin p.n), p.toPermutation = .ok (wordOf x) ∧ ll.toPermutation = .ok (wordOf y) ∧ y = dcyc p.n * x * (dcyc p.n)⁻¹ := by
  obtain ⟨x, hx, hp⟩ := exists_nparOf h
  have key : ∀ q : NPar, q = nparOf x → ∃ l ll, q.leftComplement = .ok l ∧ l.leftComplement = .ok ll ∧
    ∃ x y : Perm (Fin q.n), q.toPermutation = .ok (wordOf x) ∧ ll.toPermutation = .ok (wordOf y) ∧ y = dcyc q.n * x * (dcyc q.n)⁻¹ := by
    rintro q rfl
    refine ⟨_, _, leftComplement_eq x, leftComplement_eq _, x, _, toPermutation_eq x, toPermutation_eq _, ?_⟩
    show dcyc p.n * (dcyc p.n * x⁻¹)⁻¹ = dcyc p.n * x * (dcyc p.n)⁻¹
    group
  exact key p hp

/-- Witness: the nested partition `{0,4},{1,3},{2}`. -/
example := C25_to_permutation _ npar_witness_ok
example := C26_complements _ npar_witness_ok
example : (⟨5, [9, 8, 7, 6, 5, 4, 3, 2, 1, 0]⟩ : NPar).leftComplement = .ok ⟨5, [7, 6, 5, 4, 3, 2, 1, 0, 9, 8]⟩ := by decide +kernel

/-! ## C27 -/

/-- C27: `all_of_size(n)` lists every noncrossing partition of `n` points exactly once, `catalan(n)` in number, the finest and
the coarsest among them. -/
theorem C27_all_of_size (n : Nat) : ∃ l, NPar.allOfSize n = .ok l ∧ l.Nodup ∧ l.length = NPar.catalanNum n ∧
    (∀ p, p ∈ l ↔ p.n = n ∧ p.Ok) ∧ NPar.finest n ∈ l ∧ NPar.coarsest n ∈ l := by
  obtain ⟨l, h1, h2, h3, h4⟩ := generateSequences_spec n
  have hm : ∀ p : NPar, p ∈ l.map (fun s => (⟨n, s⟩ : NPar)) ↔ p.n = n ∧ p.Ok := by
    intro p
    rw [List.mem_map]
    constructor
    · rintro ⟨s, hs, rfl⟩; exact ⟨rfl, (h4 s).1 hs⟩
    · rintro ⟨rfl, hp⟩; exact ⟨p.inv, (h4 _).2 hp, rfl⟩
  refine ⟨l.map fun s => ⟨n, s⟩, ?_, h2.map (fun a b h => by simpa using h), ?_, hm, (hm _).2 ⟨rfl, ?_⟩, (hm _).2 ⟨rfl, ?_⟩⟩
  · rw [NPar.allOfSize, h1, bind_ok]
  · rw [List.length_map, h3, catalanNum_eq]
  · rw [finest_eq]; exact nparOf_ok.2 ncp_one
  · rw [coarsest_eq]; exact nparOf_ok.2 ncp_dcyc

/-- C27: `catalan` satisfies the recursion of the Catalan numbers. -/
theorem C27_catalan : NPar.catalanNum 0 = 1 ∧
    ∀ n, NPar.catalanNum (n + 1) = ∑ i : Fin (n + 1), NPar.catalanNum i * NPar.catalanNum (n - i) := by
  refine ⟨by decide, fun n => ?_⟩
  rw [catalanNum_eq, catalan_succ]
  exact Finset.sum_congr rfl fun i _ => by rw [catalanNum_eq, catalanNum_eq]

/-- C27: `finest` has only singleton blocks, `coarsest` has a single block. -/
theorem C27_extremes (n : Nat) : (∀ a b : Fin n, (NPar.finest n).blocks a b ↔ a = b) ∧ ∀ a b : Fin n, (NPar.coarsest n).blocks a b := by
  have key : ∀ (x : Perm (Fin n)) (q : List Nat), (⟨n, q⟩ : NPar) = nparOf x → ∀ a b : Fin n, (⟨n, q⟩ : NPar).blocks a b ↔ x.SameCycle a b := by
    intro x q h
    have e : q = (nparOf x).inv := congrArg NPar.inv h
    subst e
    exact nparOf_blocks x
  exact ⟨fun a b => (key 1 _ (finest_eq n) a b).trans Perm.sameCycle_one, fun a b => (key (dcyc n) _ (coarsest_eq n) a b).2 (sameCycle_dcyc a b)⟩

/-! ## C30 -/

/-- C30: `bkl_gen_to_artin_word` does not depend on the order of its arguments, is empty on equal arguments, and spells the
band generator in legal letters with exponents `±1`. -/
theorem C30_bkl_gen (n s t : Nat) : NPar.bklGenToArtinWord s t = NPar.bklGenToArtinWord t s ∧ NPar.bklGenToArtinWord s s = [] ∧
    wordBraid n (NPar.bklGenToArtinWord s t) = band n s t ∧
    ∀ se ∈ NPar.bklGenToArtinWord s t, (se.2 = 1 ∨ se.2 = -1) ∧ min s t ≤ se.1 ∧ se.1 < max s t :=
  ⟨bklWord_symm s t, bklWord_self s, bklWord_spec s t⟩

/-- C30: the band generators satisfy the relations of Birman, Ko and Lee in the braid group. -/
theorem C30_relations (n : Nat) :
    (∀ a b c : Nat, a < b → b < c → c < n → band n b c * band n a b = band n a c * band n b c ∧ band n a c * band n b c = band n a b * band n a c) ∧
    (∀ a b c d : Nat, a < b → c < d → b < n → d < n → (b < c ∨ d < a ∨ (a < c ∧ d < b) ∨ (c < a ∧ b < d)) →
      band n a b * band n c d = band n c d * band n a b) := by
  have R := band_rel (n := n)
  constructor
  · intro a b c h1 h2 h3
    exact ⟨R.tri1 ⟨a, by omega⟩ ⟨b, by omega⟩ ⟨c, h3⟩ h1 h2, R.tri2 ⟨a, by omega⟩ ⟨b, by omega⟩ ⟨c, h3⟩ h1 h2⟩
  · intro a b c d h1 h2 h3 h4 h
    rcases h with h | h | ⟨h, h'⟩ | ⟨h, h'⟩
    · exact R.side ⟨a, by omega⟩ ⟨b, h3⟩ ⟨c, by omega⟩ ⟨d, h4⟩ h1 h h2
    · exact (R.side ⟨c, by omega⟩ ⟨d, h4⟩ ⟨a, by omega⟩ ⟨b, h3⟩ h2 h h1).symm
    · exact R.nest ⟨a, by omega⟩ ⟨c, by omega⟩ ⟨d, h4⟩ ⟨b, h3⟩ h h2 h'
    · exact (R.nest ⟨c, by omega⟩ ⟨a, by omega⟩ ⟨b, h3⟩ ⟨d, h4⟩ h h1 h').symm

/-- C30: the word of a component `c_0 < … < c_k` spells `a_{c_{k-1} c_k} ⋯ a_{c_1 c_2} a_{c_0 c_1}`. -/
theorem C30_component (n : Nat) (c : List Nat) (hc : c.Pairwise (· < ·)) : ∃ w, NPar.componentToArtinWord c = .ok w ∧
    wordBraid n w = ((List.zip c (c.drop 1)).reverse.map fun p => band n p.1 p.2).prod := by
  refine ⟨_, componentToArtinWord_eq hc, ?_⟩
  have e : compPairs c = (List.zip c (c.drop 1)).reverse := by
    clear hc
    induction c with
    | nil => rfl
    | cons x c ih =>
      cases c with
      | nil => rfl
      | cons y c => simp only [compPairs, ih, List.drop_succ_cons, List.drop_zero, List.zip_cons_cons, List.reverse_cons]
  rw [e]
  generalize (List.zip c (c.drop 1)).reverse = W
  induction W with
  | nil => simp [wordBraid]
  | cons p W ih => rw [List.flatMap_cons, wordBraid_append, ih, (bklWord_spec _ _).1]; rfl

/-- C30: the Artin word of a noncrossing partition spells the product, along any shortest factorisation of its permutation into
transpositions, of the band generators. -/
theorem C30_npar_word (p : NPar) (h : p.Ok) : ∃ w, p.artinWord = .ok w ∧ (∀ se ∈ w, (se.2 = 1 ∨ se.2 = -1) ∧ se.1 + 1 < p.n) ∧
    ∃ x : Perm (Fin p.n), p.toPermutation = .ok (wordOf x) ∧ wordBraid p.n w = dlift x ∧
      ∀ u, IsMinTransWord u x → wordBraid p.n w = (u.map fun q => band p.n q.1 q.2).prod := by
  obtain ⟨x, hx, hp⟩ := exists_nparOf h
  have key : ∀ q : NPar, q = nparOf x → ∃ w, q.artinWord = .ok w ∧ (∀ se ∈ w, (se.2 = 1 ∨ se.2 = -1) ∧ se.1 + 1 < q.n) ∧
    ∃ x : Perm (Fin q.n), q.toPermutation = .ok (wordOf x) ∧ wordBraid q.n w = dlift x ∧
      ∀ u, IsMinTransWord u x → wordBraid q.n w = (u.map fun t => band q.n t.1 t.2).prod := by
    rintro q rfl
    obtain ⟨w, w1, w2, w3⟩ := npar_artinWord hx
    exact ⟨w, w1, w2, x, toPermutation_eq x, w3, fun u hu => w3.trans (dlift_eq hx hu)⟩
  exact key p hp

/-- Witness: a component with a gap. -/
example : NPar.componentToArtinWord [0, 2] = .ok [(1, 1), (0, 1), (1, -1)] := by decide +kernel
example : (⟨3, [5, 4, 3, 2, 1, 0]⟩ : NPar).artinWord = .ok [(1, 1), (0, 1), (1, -1)] := by decide +kernel

end Peyl
