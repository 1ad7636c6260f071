import Verif.Lemmas.TLFlip
import Verif.Lemmas.TLEnum
/-!
# Properties of `peyl/tl.py` (C45-C51)

`Crossingless`, `Joined`, `closedLoops`, `TLDiag.Ok`, `TLDiag.through`, `TLMor.coef` and `TLMor.WF` are defined in `Spec/TL.lean`.
-/
namespace Peyl
open LaurentPolynomial TL

/-! ### C45 -/

/-- C45: `is_crossingless_matching` never raises and returns `True` exactly for the crossingless perfect matchings. -/
theorem C45_is_crossingless_matching (s : List Int) :
    ∃ b, isCrossinglessMatching s = .ok b ∧ (b = true ↔ ∃ t : List Nat, s = t.map Int.ofNat ∧ Crossingless t) :=
  isCrossinglessMatching_spec s

/-- C45, spelled out on the integers of the sequence. -/
theorem C45_in_words (s : List Int) : ∃ b, isCrossinglessMatching s = .ok b ∧ (b = true ↔
    (∀ i : Nat, i < s.length → 0 ≤ s.getD i 0 ∧ s.getD i 0 < s.length ∧ s.getD i 0 ≠ i ∧ s.getD (s.getD i 0).toNat 0 = i) ∧
    ∀ a b : Nat, a < s.length → b < s.length → ¬ ((a : Int) < b ∧ (b : Int) < s.getD a 0 ∧ s.getD a 0 < s.getD b 0)) := by
  obtain ⟨b, h1, h2⟩ := isCrossinglessMatching_spec s
  have hat : ∀ (t : List Nat) i, (t.map Int.ofNat).getD i 0 = (at_ t i : Int) := by
    intro t i
    by_cases h : i < t.length
    · simp [at_, h]
    · simp [at_, h]
  refine ⟨b, h1, h2.trans ⟨?_, fun ⟨h3, h4⟩ => ?_⟩⟩
  · rintro ⟨t, rfl, ht⟩
    simp only [hat, List.length_map, Int.toNat_natCast]
    refine ⟨fun i hi => ?_, fun a b ha hb h => ?_⟩
    · have := ht.lt i hi; have := ht.nofix i hi; have := ht.invol i hi; omega
    · exact ht.noncross a b ha hb (by omega) (by omega) (by omega)
  · have hs : s = (s.map Int.toNat).map Int.ofNat := by
      rw [List.map_map]
      conv_lhs => rw [← List.map_id s]
      refine List.map_congr_left fun x hx => ?_
      obtain ⟨i, hi, rfl⟩ := List.getElem_of_mem hx
      have := (h3 i hi).1
      simp only [List.getD_eq_getElem?_getD, List.getElem?_eq_getElem hi, Option.getD_some] at this
      simp only [id, Function.comp_apply]
      exact (Int.toNat_of_nonneg this).symm
    refine ⟨s.map Int.toNat, hs, ?_⟩
    generalize s.map Int.toNat = t at hs
    subst hs
    simp only [hat, List.length_map, Int.toNat_natCast] at h3 h4
    refine ⟨fun i hi => ?_, fun i hi => ?_, fun i hi => ?_, fun a b ha hb h1 h2 h3 => ?_⟩
    · have := h3 i hi; omega
    · have := h3 i hi; omega
    · have := h3 i hi; omega
    · exact h4 a b ha hb ⟨by omega, by omega, by omega⟩

example : isCrossinglessMatching [5, 2, 1, 4, 3, 0] = .ok true := by decide +kernel
example : isCrossinglessMatching [2, 3, 0, 1] = .ok false := by decide +kernel
example : isCrossinglessMatching [-1, 7] = .ok false := by decide +kernel

/-! ### C46 -/

/-- C46: for even `n` every crossingless matching of `n` points is generated exactly once, `catalan (n/2)` in number. -/
theorem C46_generate_sequences (m : Nat) : ∃ l, generateSequences (2 * m : Nat) = .ok l ∧ l.Nodup ∧ l.length = catalan m ∧
    ∀ s, s ∈ l ↔ s.length = 2 * m ∧ Crossingless s := generateSequences_spec m

/-- C46: odd or negative `n` raise. -/
theorem C46_rejects (n : Int) (h : n < 0 ∨ n % 2 = 1) : generateSequences n = .error .value := by
  rw [generateSequences, if_pos]
  rcases h with h | h
  · exact .inl h
  · exact .inr (by rw [Int.fmod_eq_emod_of_nonneg _ (by omega)]; exact h)

/-- C46: `tl_basis(top, bot)` lists every diagram of the type `(top, bot)` exactly once, and raises for odd `top + bot`. -/
theorem C46_tl_basis (top bot : Nat) :
    (∀ m, top + bot = 2 * m → ∃ l, tlBasis top bot = .ok l ∧ l.Nodup ∧ l.length = catalan m ∧ ∀ d, d ∈ l ↔ d.top = top ∧ d.bot = bot ∧ d.Ok) ∧
    ((top + bot) % 2 = 1 → tlBasis top bot = .error .assertion) := by
  constructor
  · intro m hm
    obtain ⟨l, l1, l2, l3, l4⟩ := generateSequences_spec m
    have hmap : (l.mapM fun seq => TLDiag.make top bot seq) = .ok (l.map fun s => (⟨top, bot, s⟩ : TLDiag)) := by
      apply mapM_ok
      intro s hs
      have := (l4 s).1 hs
      exact TLDiag.make_ok (by omega) this.2
    refine ⟨l.map fun s => (⟨top, bot, s⟩ : TLDiag), ?_, ?_, by rw [List.length_map, l3], fun d => ?_⟩
    · rw [tlBasis, pyAssert, if_pos (by simp; omega), bind_ok]
      rw [show ((top : Int) + bot) = ((2 * m : Nat) : Int) by omega, l1, bind_ok, hmap]
    · exact l2.map fun s t h => by injection h
    · rw [List.mem_map]
      constructor
      · rintro ⟨s, hs, rfl⟩
        have := (l4 s).1 hs
        exact ⟨rfl, rfl, by dsimp only; omega, this.2⟩
      · rintro ⟨rfl, rfl, h1, h2⟩
        exact ⟨d.seq, (l4 _).2 ⟨by omega, h2⟩, rfl⟩
  · intro h
    rw [tlBasis, pyAssert, if_neg (by simp; omega)]; rfl

example : generateSequences 4 = .ok [[1, 0, 3, 2], [3, 2, 1, 0]] := by decide +kernel

/-! ### C47 -/

/-- C47: `compose` of crossingless matchings terminates without an error (so its assertion does not fire); the result is a
crossingless matching in which `i` and `k` are partners iff they are the two ends of a path through the stacked picture; the
second component is the number of closed loops of the picture. -/
theorem C47_compose {upper lower : List Nat} {mid : Nat} (hu : Crossingless upper) (hl : Crossingless lower) (h1 : mid ≤ lower.length)
    (h2 : mid ≤ upper.length) : ∃ res, compose upper lower mid = .ok (res, (closedLoops upper lower mid).ncard) ∧
    res.length = (lower.length - mid) + (upper.length - mid) ∧ Crossingless res ∧
    ∀ i k, i < (lower.length - mid) + (upper.length - mid) → k < (lower.length - mid) + (upper.length - mid) →
      (at_ res i = k ↔ i ≠ k ∧ Joined upper lower mid (outer lower mid i) (outer lower mid k)) :=
  compose_spec hu hl h1 h2

/-- C47: too many middle points raise AssertionError. -/
theorem C47_compose_rejects (upper lower : List Nat) (mid : Nat) (h : lower.length < mid ∨ upper.length < mid) :
    compose upper lower mid = .error .assertion := by
  rw [compose, pyAssert, if_neg (by simp only [decide_eq_true_eq]; omega)]; rfl

/-- C47: `x * y` of diagrams puts `x` on top of `y`. -/
theorem C47_mul {u l : TLDiag} (hu : u.Ok) (hl : l.Ok) :
    (u.bot = l.top → ∃ d : TLDiag, TLDiag.mul u l = .ok (d, (closedLoops u.seq l.seq u.bot).ncard) ∧ d.top = u.top ∧ d.bot = l.bot ∧ d.Ok ∧
      ∀ i k, i < l.bot + u.top → k < l.bot + u.top →
        (at_ d.seq i = k ↔ i ≠ k ∧ Joined u.seq l.seq u.bot (outer l.seq u.bot i) (outer l.seq u.bot k))) ∧
    (u.bot ≠ l.top → TLDiag.mul u l = .error .value) := by
  constructor
  · intro h
    have e1 := hu.1; have e2 := hl.1
    obtain ⟨res, r1, r2, r3, r4⟩ := compose_spec (mid := u.bot) hu.2 hl.2 (by omega) (by omega)
    refine ⟨⟨u.top, l.bot, res⟩, ?_, rfl, rfl, ⟨by dsimp only; omega, r3⟩, fun i k hi hk => r4 i k (by omega) (by omega)⟩
    rw [TLDiag.mul, if_neg (by simpa using h), r1, bind_ok, TLDiag.make_ok (by omega) r3, bind_ok]
  · intro h; rw [TLDiag.mul, if_pos h]

/-- A picture with a closed loop: a cap on a cup, next to two through strands. -/
example : compose (eSeq 0 4) (eSeq 0 4) 4 = .ok (eSeq 0 4, 1) := by decide +kernel
example : Crossingless (eSeq 0 4) := eSeq_nc (by decide)

/-! ### C48 -/

/-- C48: `id` is a two-sided unit. -/
theorem C48_unit {m : TLMor} (hm : m.WF) : ∃ i j, TLMor.id m.top = .ok i ∧ TLMor.id m.bot = .ok j ∧ TLMor.mul i m = .ok m ∧ TLMor.mul m j = .ok m := by
  obtain ⟨i, i1, i2, i3, i4, i5⟩ := TLMor.id_spec m.top
  obtain ⟨j, j1, j2, j3, j4, j5⟩ := TLMor.id_spec m.bot
  refine ⟨i, j, i1, j1, ?_, ?_⟩
  · obtain ⟨c, c1, c2, c3, c4, c5⟩ := TLMor.mul_coef i2 hm i4
    rw [c1]
    refine congrArg Except.ok (TLMor.WF.ext c2 hm (by rw [c3, i3]) c4 fun d => ?_)
    rw [c5, TLMor.ev_single i5, TLMor.coef_ev, TLMor.ev, TLMor.ev]
    refine congrArg List.sum (List.map_congr_left fun t ht => ?_)
    obtain ⟨e1, e2⟩ := TLMor.prod_id_left (hm.good t ht) (hm.type t ht).1
    rw [e1, e2, pow_zero]
  · obtain ⟨c, c1, c2, c3, c4, c5⟩ := TLMor.mul_coef hm j2 j3.symm
    rw [c1]
    refine congrArg Except.ok (TLMor.WF.ext c2 hm c3 (by rw [c4, j4]) fun d => ?_)
    rw [c5, TLMor.coef_ev, TLMor.ev, TLMor.ev]
    refine congrArg List.sum (List.map_congr_left fun t ht => ?_)
    rw [TLMor.ev_single j5]
    obtain ⟨e1, e2⟩ := TLMor.prod_id_right (hm.good t ht) (hm.type t ht).2
    rw [e1, e2, pow_zero]

theorem eDiag_ok {i n : Nat} (hi : i + 1 < n) : (⟨n, n, eSeq i n⟩ : TLDiag).Ok := ⟨by rw [eSeq_length]; dsimp only; omega, eSeq_nc hi⟩
theorem idDiag_ok (n : Nat) : (⟨n, n, idSeq n⟩ : TLDiag).Ok := ⟨by simp; omega, idSeq_nc n⟩

/-- C48: `e_i e_i = (v + v^-1) e_i`. -/
theorem C48_e_squared {i n : Nat} (hi : i + 1 < n) : ∃ e, TLMor.e i n = .ok e ∧ TLMor.mul e e = TLMor.smul e LPoly.Q2 := by
  obtain ⟨e, e1, e2, e3, e4, e5⟩ := TLMor.e_spec hi
  have ha := act_act (idSeq_nc n) (k := i) (by simp; omega)
  have hp := TLMor.prod_e_right hi (eDiag_ok hi) rfl
  dsimp only at hp
  rw [eSeq_eq hi, ha.1, ha.2, ← eSeq_eq hi] at hp
  obtain ⟨c, c1, c2, c3, c4, c5⟩ := TLMor.mul_single e2 e2 (by rw [e4, e3]) e5 e5 hp.1 hp.2
  obtain ⟨x, x1, x2, x3, x4, x5⟩ := TLMor.smul_spec e2 LPoly.Q2
  refine ⟨e, e1, ?_⟩
  rw [c1, x1]
  refine congrArg Except.ok (TLMor.WF.ext c2 x2 (by rw [c3, x3]) (by rw [c4, x4]) fun d => ?_)
  rw [c5, x5, e5, TLMor.den_Q2]
  split <;> simp

/-- The product of three generators, when no loop appears. -/
theorem mul_three {i j n : Nat} (hi : i + 1 < n) (hj : j + 1 < n) (h1 : actLoops j (eSeq i n) = 0) (h2 : actLoops i (actSeq j (eSeq i n)) = 0)
    (h3 : actSeq i (actSeq j (eSeq i n)) = eSeq i n) :
    ∃ e f ef, TLMor.e i n = .ok e ∧ TLMor.e j n = .ok f ∧ TLMor.mul e f = .ok ef ∧ TLMor.mul ef e = .ok e := by
  obtain ⟨e, e1, e2, e3, e4, e5⟩ := TLMor.e_spec hi
  obtain ⟨f, f1, f2, f3, f4, f5⟩ := TLMor.e_spec hj
  have hp := TLMor.prod_e_right hj (eDiag_ok hi) rfl
  dsimp only at hp
  rw [h1] at hp
  obtain ⟨c, c1, c2, c3, c4, c5⟩ := TLMor.mul_single e2 f2 (by rw [e4, f3]) e5 f5 hp.1 hp.2
  have hok : (⟨n, n, actSeq j (eSeq i n)⟩ : TLDiag).Ok := ⟨by simp [eSeq_length]; omega, act_nc (eSeq_nc hi) (by rw [eSeq_length]; omega)⟩
  have hq := TLMor.prod_e_right hi hok rfl
  dsimp only at hq
  rw [h2, h3] at hq
  obtain ⟨x, x1, x2, x3, x4, x5⟩ := TLMor.mul_single c2 e2 (by rw [c4, f4, e3]) (by simpa using c5) e5 hq.1 hq.2
  refine ⟨e, f, c, e1, f1, c1, ?_⟩
  rw [x1]
  refine congrArg Except.ok (TLMor.WF.ext x2 e2 (by rw [x3, c3, e3]) (by rw [x4, e4]) fun d => ?_)
  rw [x5, e5, pow_zero]

/-- C48: `e_i e_{i+1} e_i = e_i` and `e_{i+1} e_i e_{i+1} = e_{i+1}`. -/
theorem C48_e_neighbours {i n : Nat} (hi : i + 2 < n) :
    (∃ e f ef, TLMor.e i n = .ok e ∧ TLMor.e (i + 1) n = .ok f ∧ TLMor.mul e f = .ok ef ∧ TLMor.mul ef e = .ok e) ∧
    (∃ e f ef, TLMor.e (i + 1) n = .ok e ∧ TLMor.e i n = .ok f ∧ TLMor.mul e f = .ok ef ∧ TLMor.mul ef e = .ok e) := by
  constructor
  · have := act_up (idSeq_nc n) (k := i) (by simp; omega)
    rw [← eSeq_eq (by omega)] at this
    exact mul_three (by omega) (by omega) this.2.1 this.2.2 this.1
  · have := act_down (idSeq_nc n) (k := i) (by simp; omega)
    rw [← eSeq_eq (by omega)] at this
    exact mul_three (by omega) (by omega) this.2.1 this.2.2 this.1

/-- C48: distant generators commute. -/
theorem C48_e_commute {i j n : Nat} (hij : i + 2 ≤ j) (hj : j + 1 < n) :
    ∃ e f, TLMor.e i n = .ok e ∧ TLMor.e j n = .ok f ∧ ∃ ef, TLMor.mul e f = .ok ef ∧ TLMor.mul f e = .ok ef := by
  have hi : i + 1 < n := by omega
  obtain ⟨e, e1, e2, e3, e4, e5⟩ := TLMor.e_spec hi
  obtain ⟨f, f1, f2, f3, f4, f5⟩ := TLMor.e_spec hj
  have hp := TLMor.prod_e_right hj (eDiag_ok hi) rfl
  have hq := TLMor.prod_e_right hi (eDiag_ok hj) rfl
  dsimp only at hp hq
  have hf := act_far (idSeq_nc n) hij (by simp; omega)
  rw [← eSeq_eq hi, ← eSeq_eq hj] at hf
  obtain ⟨c, c1, c2, c3, c4, c5⟩ := TLMor.mul_single e2 f2 (by rw [e4, f3]) e5 f5 hp.1 hp.2
  obtain ⟨x, x1, x2, x3, x4, x5⟩ := TLMor.mul_single f2 e2 (by rw [f4, e3]) f5 e5 hq.1 hq.2
  refine ⟨e, f, e1, f1, c, c1, ?_⟩
  rw [x1]
  have l1 : actLoops j (eSeq i n) = 0 := by
    unfold actLoops
    rw [at_eSeq hi _ (by omega), if_neg]
    split_ifs <;> omega
  have l2 : actLoops i (eSeq j n) = 0 := by
    unfold actLoops
    rw [at_eSeq hj _ (by omega), if_neg]
    split_ifs <;> omega
  refine congrArg Except.ok (TLMor.WF.ext x2 c2 (by rw [x3, c3, e3, f3]) (by rw [x4, c4, e4, f4]) fun d => ?_)
  rw [x5, c5, l1, l2]
  rw [hf.1]

/-- C48: an index out of range raises AssertionError. -/
theorem C48_e_rejects {i n : Nat} (h : n ≤ i + 1) : TLMor.e i n = .error .assertion := by
  rw [TLMor.e, pyAssert, if_neg (by simp only [decide_eq_true_eq]; omega)]; rfl

/-- Reachable morphisms: everything the constructors and operations return is well-formed. -/
theorem C48_closed {a b : TLMor} (ha : a.WF) (hb : b.WF) :
    (a.top = b.top → a.bot = b.bot → ∃ c, TLMor.add a b = .ok c ∧ c.WF ∧ ∀ d, c.coef d = a.coef d + b.coef d) ∧
    (∃ c, TLMor.neg a = .ok c ∧ c.WF ∧ ∀ d, c.coef d = - a.coef d) ∧
    (∀ q : LPoly, ∃ c, TLMor.smul a q = .ok c ∧ c.WF ∧ ∀ d, c.coef d = a.coef d * q.den) ∧
    (a.bot = b.top → ∃ c, TLMor.mul a b = .ok c ∧ c.WF ∧ c.top = a.top ∧ c.bot = b.bot) := by
  refine ⟨fun h1 h2 => ?_, ?_, fun q => ?_, fun h => ?_⟩
  · obtain ⟨c, c1, c2, -, -, c5⟩ := TLMor.add_spec ha hb h1 h2; exact ⟨c, c1, c2, c5⟩
  · obtain ⟨c, c1, c2, -, -, c5⟩ := TLMor.neg_spec ha; exact ⟨c, c1, c2, c5⟩
  · obtain ⟨c, c1, c2, -, -, c5⟩ := TLMor.smul_spec ha q; exact ⟨c, c1, c2, c5⟩
  · obtain ⟨c, c1, c2, c3, c4, -⟩ := TLMor.mul_spec ha hb h; exact ⟨c, c1, c2, c3, c4⟩

example : (do let e ← TLMor.e 0 3; let f ← TLMor.e 1 3; TLMor.mul (← TLMor.mul e f) e) = TLMor.e 0 3 := by decide +kernel
example : (do let e ← TLMor.e 0 3; TLMor.mul e e) = (do let e ← TLMor.e 0 3; TLMor.smul e LPoly.Q2) := by decide +kernel
example : (do let e ← TLMor.e 0 3; let f ← TLMor.e 1 3; TLMor.mul e f) ≠ (do let e ← TLMor.e 0 3; let f ← TLMor.e 1 3; TLMor.mul f e) := by decide +kernel

/-! ### C49 -/

/-- C49 is false as documented: `x * y` puts `y` on top of `x`. -/
theorem C49_refuted : ∃ (x y z : TLExtDiag) (d : TLDiag) (k : Nat), TLExtDiag.e 0 3 = .ok x ∧ TLExtDiag.e 1 3 = .ok y ∧ TLExtDiag.mul x y = .ok z ∧
    TLDiag.mul ⟨x.top, x.bot, x.seq⟩ ⟨y.top, y.bot, y.seq⟩ = .ok (d, k) ∧ z.seq ≠ d.seq := by
  refine ⟨⟨3, 3, [1, 0, 3, 2, 5, 4], 0⟩, ⟨3, 3, [5, 2, 1, 4, 3, 0], 0⟩, ⟨3, 3, [1, 0, 5, 4, 3, 2], 0⟩, ⟨3, 3, [3, 2, 1, 0, 5, 4]⟩, 0, ?_, ?_, ?_, ?_, ?_⟩ <;> decide +kernel

/-- C49, what holds: for diagrams of the type `(n, n)` the product does not raise, bubbles add up, and the picture is that of the
*right* factor on top of the left one.  Missing: the documented order, which is refuted above. -/
theorem C49_mul_partial {a b : TLExtDiag} {n : Nat} (ha : a.top = n ∧ a.bot = n ∧ a.seq.length = 2 * n ∧ Crossingless a.seq)
    (hb : b.top = n ∧ b.bot = n ∧ b.seq.length = 2 * n ∧ Crossingless b.seq) :
    ∃ c, TLExtDiag.mul a b = .ok c ∧ c.top = n ∧ c.bot = n ∧ c.bubbles = a.bubbles + b.bubbles + (closedLoops b.seq a.seq n).ncard ∧
      Crossingless c.seq ∧ TLDiag.mul ⟨n, n, b.seq⟩ ⟨n, n, a.seq⟩ = .ok (⟨n, n, c.seq⟩, (closedLoops b.seq a.seq n).ncard) := by
  obtain ⟨a1, a2, a3, a4⟩ := ha
  obtain ⟨b1, b2, b3, b4⟩ := hb
  obtain ⟨res, r1, r2, r3, r4⟩ := compose_spec (mid := n) b4 a4 (by omega) (by omega)
  refine ⟨⟨n, n, res, a.bubbles + b.bubbles + (closedLoops b.seq a.seq n).ncard⟩, ?_, rfl, rfl, rfl, r3, ?_⟩
  · rw [TLExtDiag.mul, if_neg (by simp; omega), a2, r1, bind_ok, TLExtDiag.make, pyAssert, if_pos (by simp; omega), bind_ok, isCM_true r3, bind_ok, a1, b2]
    rfl
  · rw [TLDiag.mul, if_neg (by simp)]
    dsimp only
    rw [r1, bind_ok, TLDiag.make_ok (by omega) r3, bind_ok]

/-- Diagrams of different types are composed without an error, into a diagram of the expected type, although the picture is not a
stacking of the two. -/
theorem C49_mul_any_partial {a b : TLExtDiag} (ha : a.top + a.bot = a.seq.length ∧ Crossingless a.seq)
    (hb : b.top + b.bot = b.seq.length ∧ Crossingless b.seq) :
    (a.bot = b.top → ∃ c k, TLExtDiag.mul a b = .ok c ∧ c.top = a.top ∧ c.bot = b.bot ∧ c.bubbles = a.bubbles + b.bubbles + (k : Nat) ∧ Crossingless c.seq) ∧
    (a.bot ≠ b.top → TLExtDiag.mul a b = .error .value) := by
  constructor
  · intro h
    obtain ⟨res, r1, r2, r3, r4⟩ := compose_spec (mid := a.bot) hb.2 ha.2 (by omega) (by omega)
    refine ⟨⟨a.top, b.bot, res, a.bubbles + b.bubbles + (closedLoops b.seq a.seq a.bot).ncard⟩, _, ?_, rfl, rfl, rfl, r3⟩
    rw [TLExtDiag.mul, if_neg (by simpa using h), r1, bind_ok, TLExtDiag.make, pyAssert, if_pos (by simp; omega), bind_ok, isCM_true r3, bind_ok]
    rfl
  · intro h; rw [TLExtDiag.mul, if_pos h]

example : (do let x ← TLExtDiag.e 0 3; TLExtDiag.mul (← x.addBubbles 2) x) = (do let x ← TLExtDiag.e 0 3; x.addBubbles 3) := by decide +kernel

/-! ### C50 -/

/-- C50 is false for `twist_v=False`: the coefficients are inverted all the same. -/
theorem C50_refuted : ∃ m m' : TLMor, (do TLMor.smul (← TLMor.e 0 2) LPoly.v) = .ok m ∧ TLMor.flip m false = .ok m' ∧
    m'.terms.map (·.2) ≠ m.terms.map (·.2) ∧ TLMor.flip m false = TLMor.flip m true := by
  refine ⟨⟨2, 2, [(⟨2, 2, [1, 0, 3, 2]⟩, LPoly.v)]⟩, ⟨2, 2, [(⟨2, 2, [1, 0, 3, 2]⟩, ⟨-1, [1]⟩)]⟩, ?_, ?_, ?_, ?_⟩ <;> decide +kernel

/-- C50, what holds: for either value of the flag `flip` succeeds, turns every diagram upside down (`i ↦ N-1-i` on the points) and
inverts `v` in its coefficient.  This is the documented effect for `twist_v=True`; missing is that for `twist_v=False`. -/
theorem C50_flip_partial {m : TLMor} (hm : m.WF) (twist : Bool) : ∃ x, TLMor.flip m twist = .ok x ∧ x.WF ∧ x.top = m.bot ∧ x.bot = m.top ∧
    ∀ d d' : TLDiag, d.Ok → d.flip = .ok d' → x.coef d' = invert (m.coef d) := by
  obtain ⟨x, x1, x2, x3, x4, x5⟩ := TLMor.flip_spec hm twist
  refine ⟨x, x1, x2, x3, x4, fun d d' hd hf => ?_⟩
  rw [TLDiag.flip_ok hd] at hf
  cases hf
  rw [x5 _ (TLDiag.upsideDown_ok hd), TLDiag.upsideDown_upsideDown hd]

/-- C50: `flip` of a diagram turns it upside down. -/
theorem C50_flip_diagram {d : TLDiag} (hd : d.Ok) : ∃ d', d.flip = .ok d' ∧ d'.top = d.bot ∧ d'.bot = d.top ∧ d'.Ok ∧
    (∀ i, i < d.seq.length → at_ d'.seq (d.seq.length - 1 - i) = d.seq.length - 1 - at_ d.seq i) ∧ d'.flip = .ok d := by
  refine ⟨_, TLDiag.flip_ok hd, rfl, rfl, TLDiag.upsideDown_ok hd, fun i hi => ?_, ?_⟩
  · rw [TLDiag.at_upsideDown hd (by omega), show d.seq.length - 1 - (d.seq.length - 1 - i) = i by omega]
  · rw [TLDiag.flip_ok (TLDiag.upsideDown_ok hd), TLDiag.upsideDown_upsideDown hd]

/-- C50: flipping twice (with any flags) is the identity. -/
theorem C50_flip_twice {m : TLMor} (hm : m.WF) (t t' : Bool) : ∃ x, TLMor.flip m t = .ok x ∧ TLMor.flip x t' = .ok m := by
  obtain ⟨x, x1, x2, x3, x4, x5⟩ := TLMor.flip_spec hm t
  obtain ⟨y, y1, y2, y3, y4, y5⟩ := TLMor.flip_spec x2 t'
  refine ⟨x, x1, ?_⟩
  rw [y1]
  refine congrArg Except.ok (TLMor.WF.ext y2 hm (by rw [y3, x4]) (by rw [y4, x3]) fun d => ?_)
  by_cases hd : d.Ok
  · rw [y5 d hd, x5 _ (TLDiag.upsideDown_ok hd), TLDiag.upsideDown_upsideDown hd]
    exact LaurentPolynomial.involutive_invert _
  · have h1 : y.coef d = 0 := by by_contra h; exact hd (TLMor.coef_ne_zero_type y2 h).2.2
    have h2 : m.coef d = 0 := by by_contra h; exact hd (TLMor.coef_ne_zero_type hm h).2.2
    rw [h1, h2]

example : (do TLMor.flip (← TLMor.mul (← TLMor.e 0 3) (← TLMor.e 1 3)) true) = (do TLMor.mul (← TLMor.e 1 3) (← TLMor.e 0 3)) := by decide +kernel

/-! ### C51 -/

/-- C51: `cell_basis(n, r)` lists exactly the diagrams of the type `(n, n-2r)` with `n-2r` through strands, once each and in
increasing order, and their number is `cell_dimension(n, r) = C(n,r) - C(n,r-1)`. -/
theorem C51_cell_basis (n r : Nat) (h : 2 * r ≤ n) : ∃ B, cellBasis n r = .ok B ∧ B.Nodup ∧ B.Pairwise (fun a b => TLDiag.le a b = true) ∧
    (∀ d, d ∈ B ↔ d.top = n ∧ d.bot = n - 2 * r ∧ d.Ok ∧ d.through = n - 2 * r) ∧
    (B.length : Int) = (n.choose r : Int) - (if r = 0 then 0 else (n.choose (r - 1) : Int)) ∧ cellDimension n r = .ok (B.length : Int) := by
  obtain ⟨B, b1, b2, b3, b4, b5⟩ := cellBasis_spec n r h
  refine ⟨B, b1, b2, b3, fun d => ?_, b5, ?_⟩
  · rw [b4]
    constructor
    · rintro ⟨rfl, h2, h3⟩
      have hd : d.Ok := ⟨by rw [h3.len, h2], h3.nc⟩
      rw [← h2] at h3
      exact ⟨rfl, h2, hd, by rw [(cell_iff d hd).1 h3, h2]⟩
    · rintro ⟨rfl, h2, h3, h4⟩
      refine ⟨rfl, h2, ?_⟩
      rw [← h2]
      exact (cell_iff d h3).2 (by rw [h4, h2])
  · rw [cellDimension, pyAssert, if_pos (by simpa using h), bind_ok, b5]; rfl

/-- C51: `tl_tableaux_basis(top, strands)` are the diagrams of type `(top, strands)` all of whose bottom points are on through strands, each once: as a set it is
`cell_basis(top, (top - strands) / 2)`.  Other arguments are refused. -/
theorem C51_tableaux_basis (top strands : Nat) :
    (strands ≤ top → top % 2 = strands % 2 → ∃ l B, tlTableauxBasis top strands = .ok l ∧ cellBasis top ((top - strands) / 2) = .ok B ∧ l.Nodup ∧ l.Perm B ∧
      ∀ d, d ∈ l ↔ d.top = top ∧ d.bot = strands ∧ d.Ok ∧ d.through = strands) ∧
    (¬ (strands ≤ top ∧ top % 2 = strands % 2) → tlTableauxBasis top strands = .error .assertion) := by
  constructor
  · intro h1 h2
    obtain ⟨l, l1, l2, -, l4⟩ := (C46_tl_basis top strands).1 ((top + strands) / 2) (by omega)
    obtain ⟨B, b1, b2, -, b4, -⟩ := C51_cell_basis top ((top - strands) / 2) (by omega)
    have e : top - 2 * ((top - strands) / 2) = strands := by omega
    rw [e] at b4
    have hm : ∀ d, d ∈ l.filter (fun d => throughStrands d == strands) ↔ d.top = top ∧ d.bot = strands ∧ d.Ok ∧ d.through = strands := by
      intro d
      rw [List.mem_filter, l4, through_eq, beq_iff_eq]
      tauto
    refine ⟨_, B, ?_, b1, l2.filter _, ?_, hm⟩
    · rw [tlTableauxBasis, pyAssert, if_pos (by simp [h1, h2]), bind_ok, l1, bind_ok]
    · rw [List.perm_ext_iff_of_nodup (l2.filter _) b2]
      intro d; rw [hm, b4]
  · intro h
    rw [tlTableauxBasis, pyAssert, if_neg (by simpa using h)]; rfl

example : ∃ l, tlTableauxBasis 4 2 = .ok l ∧ l.length = 3 := by
  obtain ⟨l, B, h1, h2, -, h3, -⟩ := (C51_tableaux_basis 4 2).1 (by norm_num) (by norm_num)
  obtain ⟨B', b1, -, -, -, b5, -⟩ := C51_cell_basis 4 1 (by norm_num)
  rw [b1] at h2; cases h2
  exact ⟨l, h1, by rw [h3.length_eq]; have : (Nat.choose 4 1 : Int) - (if 1 = 0 then 0 else (Nat.choose 4 (1 - 1) : Int)) = 3 := by decide
                   omega⟩

/-- C51: beyond the range the basis is empty. -/
theorem C51_empty (n r : Nat) (h : n < 2 * r) : cellBasis n r = .ok [] := cellBasis_of_lt h

example : ∃ B, cellBasis 5 2 = .ok B ∧ B.length = 5 ∧ (⟨5, 1, [1, 0, 3, 2, 5, 4]⟩ : TLDiag) ∈ B := by
  obtain ⟨B, h1, -, -, h4, h5, -⟩ := C51_cell_basis 5 2 (by decide)
  refine ⟨B, h1, ?_, (h4 _).2 ⟨rfl, rfl, ⟨rfl, ?_⟩, by decide +kernel⟩⟩
  · have : (Nat.choose 5 2 : Int) - (if 2 = 0 then 0 else (Nat.choose 5 (2 - 1) : Int)) = 5 := by decide
    omega
  · obtain ⟨b, hb, hi⟩ := isCrossinglessMatching_spec [1, 0, 3, 2, 5, 4]
    have : isCrossinglessMatching [1, 0, 3, 2, 5, 4] = .ok true := by decide +kernel
    rw [this] at hb
    cases hb
    obtain ⟨t, ht, hc⟩ := hi.1 rfl
    have : t = [1, 0, 3, 2, 5, 4] := List.map_injective_iff.2 (fun a b h => by injection h) ht.symm
    rw [← this]; exact hc
example : cellBasis 2 1 = .ok [⟨2, 0, [1, 0]⟩] := by decide +kernel

end Peyl
