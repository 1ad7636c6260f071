import Verif.Lemmas.TLMorFlip
import Verif.Props.TL
/-!
# The Temperley-Lieb category and algebra (C83-C89)
-/
namespace Peyl
open LaurentPolynomial TL

/-! ### C83: composition is associative -/

/-- C83: for diagrams, `(a * b) * c` and `a * (b * c)` exist, are the same diagram, and the same number of loops was removed on either
way. -/
theorem C83_diagrams {a b c : TLDiag} (ha : a.Ok) (hb : b.Ok) (hc : c.Ok) (h1 : a.bot = b.top) (h2 : b.bot = c.top) :
    ∃ ab bc d j k l m, TLDiag.mul a b = .ok (ab, j) ∧ TLDiag.mul ab c = .ok (d, k) ∧ TLDiag.mul b c = .ok (bc, l) ∧ TLDiag.mul a bc = .ok (d, m) ∧ j + k = l + m := by
  obtain ⟨e1, -, t1, t2, o1⟩ := TLDiag.mul_ok ha hb h1
  obtain ⟨e2, -, t3, t4, o2⟩ := TLDiag.mul_ok hb hc h2
  obtain ⟨e3, -⟩ := TLDiag.mul_ok o1 hc (by omega)
  obtain ⟨e4, -⟩ := TLDiag.mul_ok ha o2 (by omega)
  obtain ⟨p1, p2⟩ := TLDiag.prod_assoc ha hb hc h1 h2
  exact ⟨_, _, _, _, _, _, _, e1, e3, e2, by rw [p1]; exact e4, p2⟩

/-- C83: for morphisms, `(a * b) * c == a * (b * c)`. -/
theorem C83_morphisms {a b c : TLMor} (ha : a.WF) (hb : b.WF) (hc : c.WF) (h1 : a.bot = b.top) (h2 : b.bot = c.top) :
    ∃ ab bc x, TLMor.mul a b = .ok ab ∧ TLMor.mul b c = .ok bc ∧ TLMor.mul ab c = .ok x ∧ TLMor.mul a bc = .ok x :=
  TLMor.mul_assoc' ha hb hc h1 h2

/-- C83: what the product of morphisms is: the coefficient of `d` is the sum over all pairs of diagrams with the composite `d` of the
product of their coefficients and of a factor `v + v^-1` for every loop. -/
theorem C83_product {a b : TLMor} (ha : a.WF) (hb : b.WF) (h : a.bot = b.top) : ∃ c, TLMor.mul a b = .ok c ∧ c.WF ∧ c.top = a.top ∧ c.bot = b.bot ∧
    ∀ d, c.coef d = (a.terms.map fun s => (b.terms.map fun t => match TLDiag.mul s.1 t.1 with
      | .ok (e, k) => if e = d then s.2.den * t.2.den * (T 1 + T (-1)) ^ k else 0
      | .error _ => 0).sum).sum := by
  obtain ⟨c, c1, c2, c3, c4, c5⟩ := TLMor.mul_coef ha hb h
  refine ⟨c, c1, c2, c3, c4, fun d => ?_⟩
  rw [c5, TLMor.ev]
  refine congrArg List.sum (List.map_congr_left fun s hs => ?_)
  rw [TLMor.ev, ← List.sum_map_mul_left]
  refine congrArg List.sum (List.map_congr_left fun t ht => ?_)
  rw [(TLDiag.mul_ok (ha.good s hs) (hb.good t ht) (by rw [(ha.type s hs).2, (hb.type t ht).1, h])).1]
  dsimp only
  split <;> ring

/-- C83 for `TLExtDiag` of one type `(n, n)`. -/
theorem C83_ext {a b c : TLExtDiag} {n : Nat} (ha : a.top = n ∧ a.bot = n ∧ a.seq.length = 2 * n ∧ Crossingless a.seq)
    (hb : b.top = n ∧ b.bot = n ∧ b.seq.length = 2 * n ∧ Crossingless b.seq) (hc : c.top = n ∧ c.bot = n ∧ c.seq.length = 2 * n ∧ Crossingless c.seq) :
    ∃ ab bc x, TLExtDiag.mul a b = .ok ab ∧ TLExtDiag.mul b c = .ok bc ∧ TLExtDiag.mul ab c = .ok x ∧ TLExtDiag.mul a bc = .ok x := by
  have ok : ∀ {d : TLExtDiag}, d.top = n ∧ d.bot = n ∧ d.seq.length = 2 * n ∧ Crossingless d.seq → (⟨n, n, d.seq⟩ : TLDiag).Ok :=
    fun h => ⟨by dsimp only; omega, h.2.2.2⟩
  have key : ∀ {u l : TLExtDiag}, (u.top = n ∧ u.bot = n ∧ u.seq.length = 2 * n ∧ Crossingless u.seq) → (l.top = n ∧ l.bot = n ∧ l.seq.length = 2 * n ∧ Crossingless l.seq) →
      TLExtDiag.mul u l = .ok ⟨n, n, (TLDiag.prodD ⟨n, n, l.seq⟩ ⟨n, n, u.seq⟩).seq, u.bubbles + l.bubbles + (TLDiag.prodL ⟨n, n, l.seq⟩ ⟨n, n, u.seq⟩ : Nat)⟩ ∧
      (TLDiag.prodD ⟨n, n, l.seq⟩ ⟨n, n, u.seq⟩).seq.length = 2 * n ∧ Crossingless (TLDiag.prodD ⟨n, n, l.seq⟩ ⟨n, n, u.seq⟩).seq := by
    intro u l hu hl
    obtain ⟨x, x1, x2, x3, x4, x5, x6⟩ := C49_mul_partial hu hl
    have := (TLDiag.mul_ok (ok hl) (ok hu) rfl).1
    rw [x6] at this
    injection this with this
    injection this with e1 e2
    rw [← e1, ← e2, x1, ← x4]
    have := (TLDiag.mul_ok (ok hl) (ok hu) rfl).2.2.2.2.1
    rw [← e1] at this
    dsimp only at this
    refine ⟨?_, by dsimp only; omega, x5⟩
    rw [← x2]
    conv_lhs => rw [show x = ⟨x.top, x.bot, x.seq, x.bubbles⟩ from rfl]
    rw [x3, x2]
  obtain ⟨k1, l1, n1⟩ := key ha hb
  obtain ⟨k2, l2, n2⟩ := key hb hc
  refine ⟨_, _, _, k1, k2, (key ⟨rfl, rfl, l1, n1⟩ hc).1, ?_⟩
  rw [(key ha ⟨rfl, rfl, l2, n2⟩).1]
  obtain ⟨p1, p2⟩ := TLDiag.prod_assoc (ok hc) (ok hb) (ok ha) rfl rfl
  have e1 : (⟨n, n, (TLDiag.prodD ⟨n, n, c.seq⟩ ⟨n, n, b.seq⟩).seq⟩ : TLDiag) = TLDiag.prodD ⟨n, n, c.seq⟩ ⟨n, n, b.seq⟩ := by
    have := TLDiag.mul_ok (ok hc) (ok hb) rfl
    exact TLDiag.ext' this.2.2.1.symm this.2.2.2.1.symm rfl
  have e2 : (⟨n, n, (TLDiag.prodD ⟨n, n, b.seq⟩ ⟨n, n, a.seq⟩).seq⟩ : TLDiag) = TLDiag.prodD ⟨n, n, b.seq⟩ ⟨n, n, a.seq⟩ := by
    have := TLDiag.mul_ok (ok hb) (ok ha) rfl
    exact TLDiag.ext' this.2.2.1.symm this.2.2.2.1.symm rfl
  dsimp only
  rw [e1, e2, p1]
  congr 2
  have : ((TLDiag.prodL ⟨n, n, c.seq⟩ ⟨n, n, b.seq⟩ + TLDiag.prodL (TLDiag.prodD ⟨n, n, c.seq⟩ ⟨n, n, b.seq⟩) ⟨n, n, a.seq⟩ : Nat) : Int) =
      (TLDiag.prodL ⟨n, n, b.seq⟩ ⟨n, n, a.seq⟩ + TLDiag.prodL ⟨n, n, c.seq⟩ (TLDiag.prodD ⟨n, n, b.seq⟩ ⟨n, n, a.seq⟩) : Nat) := by rw [p2]
  push_cast at this
  omega

example : (do let e ← TLMor.e 0 3; let f ← TLMor.e 1 3; TLMor.mul (← TLMor.mul e e) f) = (do let e ← TLMor.e 0 3; let f ← TLMor.e 1 3; TLMor.mul e (← TLMor.mul e f)) := by decide +kernel
/-- Loops may appear at different moments. -/
example : TLDiag.mul ⟨2, 0, [1, 0]⟩ ⟨0, 2, [1, 0]⟩ = .ok (⟨2, 2, [1, 0, 3, 2]⟩, 0) ∧ TLDiag.mul ⟨0, 2, [1, 0]⟩ ⟨2, 0, [1, 0]⟩ = .ok (⟨0, 0, []⟩, 1) := by
  constructor <;> decide +kernel

/-! ### C84: the trace -/

/-- C84: `trace_count` of a crossingless matching of `2n` points does not raise (its assertion does not fire) and counts the closed
loops of the picture in which every point is joined to its mirror image. -/
theorem C84_trace_count {s : List Nat} (hs : Crossingless s) : traceCount s = .ok (closedLoops s (List.range s.length).reverse s.length).ncard := by
  have he := hs.even
  obtain ⟨n, hn⟩ : ∃ n, s.length = 2 * n := ⟨s.length / 2, by omega⟩
  obtain ⟨k, k1, -, k3⟩ := traceCount_W hs hn
  rw [k1, k3, hn, rev_range]

/-- C84: `trace` of a morphism of the type `(n, n)` is the sum of its coefficients times `(v + v^-1)^(number of loops)`. -/
theorem C84_trace {m : TLMor} (hm : m.WF) (h : m.top = m.bot) : ∃ p, TLMor.trace m = .ok p ∧ p.Trimmed ∧
    p.den = (m.terms.map fun t => t.2.den * (T 1 + T (-1)) ^ (closedLoops t.1.seq (List.range t.1.seq.length).reverse t.1.seq.length).ncard).sum := by
  obtain ⟨p, p1, p2, p3⟩ := TLMor.trace_spec hm h
  refine ⟨p, p1, p2, ?_⟩
  rw [p3, TLMor.ev]
  refine congrArg List.sum (List.map_congr_left fun t ht => ?_)
  have := C84_trace_count (hm.good t ht).2
  rw [(TLDiag.trc_spec (n := m.top) (hm.good t ht) (hm.type t ht).1 (by rw [(hm.type t ht).2, h])).1] at this
  injection this with this
  rw [this]

/-- C84: the trace is cyclic: `trace(a * b) == trace(b * a)`, also for morphisms between different objects. -/
theorem C84_cyclic {a b : TLMor} (ha : a.WF) (hb : b.WF) (h1 : a.bot = b.top) (h2 : b.bot = a.top) :
    ∃ ab ba p, TLMor.mul a b = .ok ab ∧ TLMor.mul b a = .ok ba ∧ TLMor.trace ab = .ok p ∧ TLMor.trace ba = .ok p := by
  obtain ⟨ab, ab1, ab2, ab3, ab4, -⟩ := TLMor.mul_coef ha hb h1
  obtain ⟨ba, ba1, ba2, ba3, ba4, -⟩ := TLMor.mul_coef hb ha h2
  obtain ⟨p, p1, p2, p3⟩ := TLMor.trace_spec ab2 (by omega)
  obtain ⟨q, q1, q2, q3⟩ := TLMor.trace_spec ba2 (by omega)
  refine ⟨ab, ba, p, ab1, ba1, p1, ?_⟩
  rw [q1]
  refine congrArg Except.ok (q2.den_inj p2 ?_)
  rw [p3, q3, TLMor.mul_ev ha hb h1 ab1, TLMor.mul_ev hb ha h2 ba1]
  have comm : ∀ G : TLDiag → TLDiag → ℤ[T;T⁻¹], (b.ev fun y => a.ev fun x => G x y) = a.ev fun x => b.ev fun y => G x y := by
    intro G
    simp only [TLMor.ev, ← List.sum_map_mul_left]
    have : ∀ l1 l2 : List (TLDiag × LPoly), (l2.map fun s => (l1.map fun t => s.2.den * (t.2.den * G t.1 s.1)).sum).sum =
        (l1.map fun t => (l2.map fun s => t.2.den * (s.2.den * G t.1 s.1)).sum).sum := by
      intro l1 l2
      induction l1 with
      | nil => simp
      | cons t l1 ih =>
        simp only [List.map_cons, List.sum_cons, List.sum_map_add, ih]
        congr 2
        refine List.map_congr_left fun s _ => by ring
    exact this _ _
  rw [comm fun x y => (T 1 + T (-1)) ^ TLDiag.prodL y x * (T 1 + T (-1)) ^ (TLDiag.prodD y x).trc]
  refine TLMor.ev_congr_fun fun s hs => TLMor.ev_congr_fun fun t ht => ?_
  rw [← pow_add, ← pow_add, TLDiag.trc_cyclic (ha.good s hs) (hb.good t ht) (by rw [(ha.type s hs).2, (hb.type t ht).1, h1]) (by rw [(hb.type t ht).2, (ha.type s hs).1, h2])]

/-- C84: the trace is linear. -/
theorem C84_linear {a b : TLMor} (ha : a.WF) (hb : b.WF) (h : a.top = a.bot) (h1 : a.top = b.top) (h2 : a.bot = b.bot) (c : LPoly) :
    ∃ p q s x, TLMor.trace a = .ok p ∧ TLMor.trace b = .ok q ∧ TLMor.add a b = .ok s ∧ TLMor.trace s = .ok (LPoly.add p q) ∧
      TLMor.smul a c = .ok x ∧ TLMor.trace x = .ok (LPoly.mul p c) := by
  obtain ⟨s, s1, s2, s3, s4, s5⟩ := TLMor.add_spec ha hb h1 h2
  obtain ⟨x, x1, x2, x3, x4, x5⟩ := TLMor.smul_spec ha c
  obtain ⟨p, p1, p2, p3⟩ := TLMor.trace_spec ha h
  obtain ⟨q, q1, q2, q3⟩ := TLMor.trace_spec hb (by omega)
  obtain ⟨u, u1, u2, u3⟩ := TLMor.trace_spec s2 (by omega)
  obtain ⟨w, w1, w2, w3⟩ := TLMor.trace_spec x2 (by omega)
  refine ⟨p, q, s, x, p1, q1, s1, ?_, x1, ?_⟩
  · rw [u1]
    exact congrArg Except.ok (u2.den_inj (TLMor.trimmed_add _ _) (by rw [u3, TLMor.add_ev s5, LPoly.den_add, p3, q3]))
  · rw [w1]
    exact congrArg Except.ok (w2.den_inj (TLMor.trimmed_mul _ _) (by rw [w3, TLMor.smul_ev x5, LPoly.den_mul, p3]))

/-- C84: the identity of `n` strands closes up to `n` loops, a generator `e_i` to `n - 1`. -/
theorem C84_values (n : Nat) : (∃ u p, TLMor.id n = .ok u ∧ TLMor.trace u = .ok p ∧ p.den = (T 1 + T (-1)) ^ n) ∧
    ∀ i, i + 1 < n → ∃ e p, TLMor.e i n = .ok e ∧ TLMor.trace e = .ok p ∧ p.den = (T 1 + T (-1)) ^ (n - 1) := by
  constructor
  · obtain ⟨u, u1, u2, u3, u4, u5⟩ := TLMor.id_spec n
    obtain ⟨p, p1, p2, p3⟩ := TLMor.trace_spec u2 (by omega)
    refine ⟨u, p, u1, p1, ?_⟩
    rw [p3, TLMor.ev_single u5, TLDiag.trc_id]
  · intro i hi
    obtain ⟨u, u1, u2, u3, u4, u5⟩ := TLMor.e_spec hi
    obtain ⟨p, p1, p2, p3⟩ := TLMor.trace_spec u2 (by omega)
    refine ⟨u, p, u1, p1, ?_⟩
    rw [p3, TLMor.ev_single u5]
    obtain ⟨m, rfl⟩ : ∃ m, n = i + 2 + m := ⟨n - i - 2, by omega⟩
    have h2 : (⟨2, 2, [1, 0, 3, 2]⟩ : TLDiag).Ok := ⟨rfl, eSeq_nc (i := 0) (n := 2) (by omega)⟩
    rw [← beside_e, TLDiag.trc_beside (idD_ok i) (TLDiag.beside_ok h2 (idD_ok m)) rfl rfl, TLDiag.trc_beside h2 (idD_ok m) rfl rfl]
    have e1 : (idD i).trc = i := TLDiag.trc_id i
    have e2 : (idD m).trc = m := TLDiag.trc_id m
    have e3 : (⟨2, 2, [1, 0, 3, 2]⟩ : TLDiag).trc = 1 := by decide +kernel
    rw [e1, e2, e3]
    congr 1; omega

example : (do TLMor.trace (← TLMor.mul (← TLMor.e 0 3) (← TLMor.e 1 3))) = .ok LPoly.Q2 := by decide +kernel

/-! ### C85: diagrams side by side -/

/-- C85: `a @ b` never raises; its points are those of `a` with those of `b` drawn to their right, arcs unchanged. -/
theorem C85_hcomp {a b : TLDiag} (ha : a.Ok) (hb : b.Ok) : ∃ d, TLDiag.hcomp a b = .ok d ∧ d.top = a.top + b.top ∧ d.bot = a.bot + b.bot ∧ d.Ok ∧
    (∀ i, i < a.seq.length → at_ d.seq (if i < a.bot then i else i + b.seq.length) = if at_ a.seq i < a.bot then at_ a.seq i else at_ a.seq i + b.seq.length) ∧
    (∀ i, i < b.seq.length → at_ d.seq (a.bot + i) = a.bot + at_ b.seq i) := by
  have h1 := ha.1
  refine ⟨_, TLDiag.hcomp_ok ha hb, rfl, rfl, TLDiag.beside_ok ha hb, fun i hi => ?_, fun i hi => ?_⟩
  · show at_ (insSeq a.seq b.seq a.bot) _ = _
    by_cases c : i < a.bot
    · rw [if_pos c, at_ins (by omega) _ (by omega), if_pos c]
    · rw [if_neg c, at_ins (by omega) _ (by omega), if_neg (by omega), if_neg (by omega), Nat.add_sub_cancel]
  · show at_ (insSeq a.seq b.seq a.bot) _ = _
    rw [at_ins (by omega) _ (by omega), if_neg (by omega), if_pos (by omega), Nat.add_sub_cancel_left, Nat.add_comm]

/-- C85: `@` is associative, the empty diagram is its unit, and identities are put together to identities. -/
theorem C85_monoid {a b c : TLDiag} (ha : a.Ok) (hb : b.Ok) (hc : c.Ok) :
    (∃ ab bc d, TLDiag.hcomp a b = .ok ab ∧ TLDiag.hcomp b c = .ok bc ∧ TLDiag.hcomp ab c = .ok d ∧ TLDiag.hcomp a bc = .ok d) ∧
    (∃ u, TLDiag.id 0 = .ok u ∧ TLDiag.hcomp a u = .ok a ∧ TLDiag.hcomp u a = .ok a) := by
  constructor
  · refine ⟨_, _, _, TLDiag.hcomp_ok ha hb, TLDiag.hcomp_ok hb hc, TLDiag.hcomp_ok (TLDiag.beside_ok ha hb) hc, ?_⟩
    rw [TLDiag.hcomp_ok ha (TLDiag.beside_ok hb hc), TLDiag.beside_assoc ha hb hc]
  · have h0 : (⟨0, 0, []⟩ : TLDiag).Ok := idD_ok 0
    refine ⟨⟨0, 0, []⟩, TLDiag.id_ok 0, ?_, ?_⟩
    · rw [TLDiag.hcomp_ok ha h0, TLDiag.beside_empty_right ha]
    · rw [TLDiag.hcomp_ok h0 ha, TLDiag.beside_empty_left]

theorem C85_id (n m : Nat) : ∃ u w x, TLDiag.id n = .ok u ∧ TLDiag.id m = .ok w ∧ TLDiag.id (n + m) = .ok x ∧ TLDiag.hcomp u w = .ok x :=
  ⟨_, _, _, TLDiag.id_ok n, TLDiag.id_ok m, TLDiag.id_ok (n + m), (TLDiag.hcomp_ok (a := ⟨n, n, idSeq n⟩) (b := ⟨m, m, idSeq m⟩) (idD_ok n) (idD_ok m)).trans (congrArg Except.ok (TLDiag.beside_id n m))⟩

/-- C85, the interchange law: `(a @ b) * (c @ d) = (a * c) @ (b * d)`, and the loops of the left-hand side are those of the two
products of the right-hand side together. -/
theorem C85_interchange {a b c d : TLDiag} (ha : a.Ok) (hb : b.Ok) (hc : c.Ok) (hd : d.Ok) (h1 : a.bot = c.top) (h2 : b.bot = d.top) :
    ∃ ab cd ac bd x j k, TLDiag.hcomp a b = .ok ab ∧ TLDiag.hcomp c d = .ok cd ∧ TLDiag.mul a c = .ok (ac, j) ∧ TLDiag.mul b d = .ok (bd, k) ∧
      TLDiag.mul ab cd = .ok (x, j + k) ∧ TLDiag.hcomp ac bd = .ok x := by
  obtain ⟨e1, -, -, -, o1⟩ := TLDiag.mul_ok ha hc h1
  obtain ⟨e2, -, -, -, o2⟩ := TLDiag.mul_ok hb hd h2
  obtain ⟨e3, -⟩ := TLDiag.mul_ok (TLDiag.beside_ok ha hb) (TLDiag.beside_ok hc hd) (by show a.bot + b.bot = c.top + d.top; omega)
  obtain ⟨i1, i2⟩ := TLDiag.interchange ha hb hc hd h1 h2
  rw [i1, i2] at e3
  exact ⟨_, _, _, _, _, _, _, TLDiag.hcomp_ok ha hb, TLDiag.hcomp_ok hc hd, e1, e2, e3, TLDiag.hcomp_ok o1 o2⟩

/-- C85: closing up diagrams side by side adds the numbers of loops. -/
theorem C85_trace {a b : TLDiag} (ha : a.Ok) (hb : b.Ok) (h1 : a.top = a.bot) (h2 : b.top = b.bot) :
    ∃ d j k, TLDiag.hcomp a b = .ok d ∧ traceCount a.seq = .ok j ∧ traceCount b.seq = .ok k ∧ traceCount d.seq = .ok (j + k) := by
  refine ⟨_, _, _, TLDiag.hcomp_ok ha hb, (TLDiag.trc_spec ha rfl h1.symm).1, (TLDiag.trc_spec hb rfl h2.symm).1, ?_⟩
  rw [(TLDiag.trc_spec (n := a.top + b.top) (TLDiag.beside_ok ha hb) rfl (by show a.bot + b.bot = _; omega)).1, TLDiag.trc_beside ha hb h1 h2]

/-- C85 for `TLExtDiag`: the same picture, and the bubbles add up; `add_bubbles` and `split_bubbles` change the number of bubbles
only. -/
theorem C85_ext {a b : TLExtDiag} (ha : a.top + a.bot = a.seq.length ∧ Crossingless a.seq) (hb : b.top + b.bot = b.seq.length ∧ Crossingless b.seq) (k : Int) :
    (∃ d, TLDiag.hcomp ⟨a.top, a.bot, a.seq⟩ ⟨b.top, b.bot, b.seq⟩ = .ok d ∧ TLExtDiag.hcomp a b = .ok ⟨d.top, d.bot, d.seq, a.bubbles + b.bubbles⟩) ∧
    TLExtDiag.addBubbles a k = .ok { a with bubbles := a.bubbles + k } ∧ TLExtDiag.splitBubbles a = .ok ({ a with bubbles := 0 }, a.bubbles) := by
  have mk : ∀ {t b : Nat} {s : List Nat} (q : Int), t + b = s.length → Crossingless s → TLExtDiag.make t b s q = .ok ⟨t, b, s, q⟩ := by
    intro t b s q h1 h2
    rw [TLExtDiag.make, pyAssert, if_pos (by simpa using h1), bind_ok, isCM_true h2, bind_ok]; rfl
  have ho := TLDiag.beside_ok (a := ⟨a.top, a.bot, a.seq⟩) (b := ⟨b.top, b.bot, b.seq⟩) ha hb
  refine ⟨⟨_, TLDiag.hcomp_ok (a := ⟨a.top, a.bot, a.seq⟩) (b := ⟨b.top, b.bot, b.seq⟩) ha hb, ?_⟩, ?_, ?_⟩
  · rw [TLExtDiag.hcomp, insert_ins (by omega), bind_ok]
    exact mk _ ho.1 ho.2
  · exact mk _ ha.1 ha.2
  · rw [TLExtDiag.splitBubbles, mk _ ha.1 ha.2, bind_ok]

example : TLDiag.hcomp ⟨2, 0, [1, 0]⟩ ⟨1, 1, [1, 0]⟩ = .ok ⟨3, 1, [3, 2, 1, 0]⟩ → False := by decide +kernel
example : TLDiag.hcomp ⟨2, 0, [1, 0]⟩ ⟨1, 1, [1, 0]⟩ = .ok ⟨3, 1, [1, 0, 3, 2]⟩ := by decide +kernel

/-! ### C86: algebra laws -/

/-- C86: the product is bilinear. -/
theorem C86_bilinear {a b c : TLMor} (ha : a.WF) (hb : b.WF) (hc : c.WF) :
    (a.top = b.top → a.bot = b.bot → a.bot = c.top → ∃ s x y z, TLMor.add a b = .ok s ∧ TLMor.mul s c = .ok z ∧ TLMor.mul a c = .ok x ∧ TLMor.mul b c = .ok y ∧ TLMor.add x y = .ok z) ∧
    (b.top = c.top → b.bot = c.bot → a.bot = b.top → ∃ s x y z, TLMor.add b c = .ok s ∧ TLMor.mul a s = .ok z ∧ TLMor.mul a b = .ok x ∧ TLMor.mul a c = .ok y ∧ TLMor.add x y = .ok z) ∧
    (a.bot = b.top → ∀ q, ∃ x y ab z, TLMor.smul a q = .ok x ∧ TLMor.smul b q = .ok y ∧ TLMor.mul a b = .ok ab ∧ TLMor.smul ab q = .ok z ∧ TLMor.mul x b = .ok z ∧ TLMor.mul a y = .ok z) :=
  ⟨TLMor.add_mul' ha hb hc, TLMor.mul_add' ha hb hc, TLMor.smul_mul' ha hb⟩

/-- C86: differences, and sums and differences with scalars (which stand for multiples of the identity). -/
theorem C86_sub {a b : TLMor} (ha : a.WF) (hb : b.WF) (h1 : a.top = b.top) (h2 : a.bot = b.bot) :
    (∃ c, TLMor.sub a b = .ok c ∧ c.WF ∧ c.top = a.top ∧ c.bot = a.bot ∧ (∀ d, c.coef d = a.coef d - b.coef d) ∧ TLMor.add c b = .ok a) ∧
    (∃ z, TLMor.sub a a = .ok z ∧ TLMor.isZero z = true) ∧
    (a.top = a.bot → ∀ q, ∃ u qu s t, TLMor.id a.top = .ok u ∧ TLMor.smul u q = .ok qu ∧ TLMor.add a qu = .ok s ∧ TLMor.addScalar a q = .ok s ∧
      TLMor.sub a qu = .ok t ∧ TLMor.subScalar a q = .ok t) ∧
    (a.top ≠ a.bot → ∀ q, TLMor.addScalar a q = .error .value ∧ TLMor.subScalar a q = .error .value) := by
  refine ⟨?_, ?_, fun h q => ?_, fun h q => ?_⟩
  · obtain ⟨c, c1, c2, c3, c4, c5⟩ := TLMor.sub_spec ha hb h1 h2
    obtain ⟨s, s1, s2, s3, s4, s5⟩ := TLMor.add_spec c2 hb (by omega) (by omega)
    refine ⟨c, c1, c2, c3, c4, c5, ?_⟩
    rw [s1]
    exact congrArg Except.ok (TLMor.WF.ext s2 ha (by omega) (by omega) fun d => by rw [s5, c5]; ring)
  · obtain ⟨c, c1, c2, c3, c4, c5⟩ := TLMor.sub_spec ha ha rfl rfl
    refine ⟨c, c1, ?_⟩
    rw [TLMor.isZero, beq_iff_eq, List.length_eq_zero_iff]
    by_contra hne
    obtain ⟨t, ht⟩ := List.exists_mem_of_ne_nil _ hne
    refine (c2.coeff t ht).2 ?_
    rw [← TLMor.coefIn_mem c2.nodup ht]
    have := c5 t.1
    rw [sub_self] at this
    exact this
  · obtain ⟨u, u1, u2, u3, u4, u5⟩ := TLMor.id_spec a.top
    obtain ⟨w, w1, w2, w3, w4, w5⟩ := TLMor.smul_spec u2 q
    obtain ⟨s, s1, s2, s3, s4, s5⟩ := TLMor.add_spec ha w2 (by omega) (by omega)
    obtain ⟨t, t1, t2, t3, t4, t5⟩ := TLMor.sub_spec ha w2 (by omega) (by omega)
    obtain ⟨x, x1, x2, x3, x4, x5⟩ := TLMor.addScalar_spec ha h.symm (LPoly.neg q)
    refine ⟨u, w, s, t, u1, w1, s1, ?_, t1, ?_⟩
    · rw [TLMor.addScalar, if_pos h.symm, ← h, u1, bind_ok, w1, bind_ok, s1]
    · rw [TLMor.subScalar, x1]
      refine congrArg Except.ok (TLMor.WF.ext x2 t2 (by omega) (by omega) fun d => ?_)
      rw [x5, t5, w5, u5, LPoly.den_neg]
      split <;> ring
  · rw [TLMor.subScalar, TLMor.addScalar, TLMor.addScalar, if_neg (fun e => h e.symm), if_neg (fun e => h e.symm)]
    exact ⟨rfl, rfl⟩

/-- C86: `m ** k` is the `k`-fold product. -/
theorem C86_pow {m : TLMor} (hm : m.WF) (h : m.top = m.bot) :
    (∃ u, TLMor.id m.top = .ok u ∧ TLMor.pow m 0 = .ok u) ∧
    (∀ k : Nat, ∃ x y, TLMor.pow m k = .ok x ∧ x.WF ∧ TLMor.mul x m = .ok y ∧ TLMor.pow m (k + 1 : Nat) = .ok y) ∧
    ∀ k : Int, k < 0 → TLMor.pow m k = .error .value := by
  let x : TLMor.Sq m.top := ⟨m, hm, rfl, h.symm⟩
  have hp := TLMor.pow_sq x
  refine ⟨⟨_, TLMor.sq_one_eq m.top, ?_⟩, fun k => ⟨(x ^ k).1, (x ^ (k + 1)).1, hp k, (x ^ k).2.1, ?_, hp (k + 1)⟩, fun k hk => ?_⟩
  · have := hp 0
    rwa [pow_zero] at this
  · rw [pow_succ]; exact TLMor.sq_mul_eq (x ^ k) x
  · rw [TLMor.pow, if_neg (by simpa using h), if_pos hk]

theorem C86_pow_rejects {m : TLMor} (h : m.top ≠ m.bot) (k : Int) : TLMor.pow m k = .error .value := by
  rw [TLMor.pow, if_pos h]

example : (do TLMor.pow (← TLMor.e 0 3) 3) = (do TLMor.smul (← TLMor.e 0 3) (LPoly.powNat LPoly.Q2 2)) := by decide +kernel

/-! ### C87: cell modules and the Markov trace -/

/-- C87: `TLCell(n, r).project_leftmult_matrix` is the matrix `cell_matrix`, and it turns products into products and the identity into
the identity matrix. -/
theorem C87_homomorphism {a b : TLMor} (ha : a.WF) (hb : b.WF) {n r : Nat} (a1 : a.top = n) (a2 : a.bot = n) (b1 : b.top = n) (b2 : b.bot = n) (h : 2 * r ≤ n) :
    ∃ (c : TLCell) (d : Nat) (ab : TLMor) (A B C : Matrix), TLCell.make n r = .ok c ∧ c.dim = .ok (d : Int) ∧ TLMor.mul a b = .ok ab ∧
      c.projectLeftmultMatrix a = .ok A ∧ c.projectLeftmultMatrix b = .ok B ∧ c.projectLeftmultMatrix ab = .ok C ∧ A.Shape d d ∧ B.Shape d d ∧ C.Shape d d ∧
      C.den d d = A.den d d * B.den d d ∧ Jones.cellMatrix a r = .ok A := by
  obtain ⟨ab, ab1, ab2, ab3, ab4, -⟩ := TLMor.mul_coef ha hb (by omega)
  obtain ⟨L, A, B, C, l1, A1, B1, C1, A2, B2, C2, e⟩ := Jones.cellMatrix_mul ha hb a1 a2 b1 b2 h ab1
  refine ⟨⟨n, r⟩, L.length, ab, A, B, C, ?_, ?_, ab1, ?_, ?_, ?_, A2, B2, C2, e, A1⟩
  · rw [TLCell.make, pyAssert, if_pos (by simp; omega)]; rfl
  · obtain ⟨L', l1', -, -, -, -, l6⟩ := C51_cell_basis n r h
    rw [l1] at l1'; cases l1'
    rw [TLCell.dim]
    dsimp only
    rw [Int.toNat_natCast, Int.toNat_natCast, l6]
  · rw [TLCell.project_eq ha a1 a2 h, A1]
  · rw [TLCell.project_eq hb b1 b2 h, B1]
  · rw [TLCell.project_eq ab2 (by omega) (by omega) h, C1]

theorem C87_id {n r : Nat} (h : 2 * r ≤ n) : ∃ (c : TLCell) (d : Nat) (u : TLMor) (M : Matrix), TLCell.make n r = .ok c ∧ c.dim = .ok (d : Int) ∧
    TLMor.id n = .ok u ∧ c.projectLeftmultMatrix u = .ok M ∧ M.Shape d d ∧ M.den d d = 1 := by
  classical
  obtain ⟨u, u1, u2, u3, u4, u5⟩ := TLMor.id_spec n
  obtain ⟨B, b1, b2, b3, b4, b5⟩ := cellBasis_spec n r h
  obtain ⟨M, m1, m2, m3, m4⟩ := Jones.cellMatrix_spec u2 u3 u4 b1 (fun d hd => (b4 d).1 hd) (Jones.dimension_pos h b4)
  refine ⟨⟨n, r⟩, B.length, u, M, ?_, ?_, u1, ?_, m2, ?_⟩
  · rw [TLCell.make, pyAssert, if_pos (by simp; omega)]; rfl
  · obtain ⟨L', l1', -, -, -, -, l6⟩ := C51_cell_basis n r h
    rw [b1] at l1'; cases l1'
    rw [TLCell.dim]
    dsimp only
    rw [Int.toNat_natCast, Int.toNat_natCast, l6]
  · rw [TLCell.project_eq u2 u3 u4 h, m1]
  · refine Matrix.ext fun i j => ?_
    rw [m4, Matrix.one_apply, Jones.coeffOn, TLMor.ev_single u5]
    obtain ⟨h1, h2, h3⟩ := (b4 B[j]).1 (List.getElem_mem _)
    obtain ⟨e1, e2⟩ := TLMor.prod_id_left (n := n) (d := B[j]) ⟨by rw [h3.len, h1, h2], h3.nc⟩ h1
    rw [e1, e2, pow_zero]
    refine if_congr ⟨fun e => ?_, fun e => by rw [e]⟩ rfl rfl
    exact (Fin.ext ((List.Nodup.getElem_inj_iff b2).1 e)).symm

/-- C87, the formula behind `trace_scalar`: the trace of a morphism is the sum over all cell modules `TLCell(n, r)`, `0 ≤ 2r ≤ n`, of
the trace of its matrix times the quantum integer `trace_scalar() = [n - 2r + 1]`. -/
theorem C87_trace_formula {m : TLMor} (hm : m.WF) {n : Nat} (h1 : m.top = n) (h2 : m.bot = n) :
    ∃ (p : LPoly) (cells : Nat → TLCell) (d : Nat → Nat) (M : Nat → Matrix), TLMor.trace m = .ok p ∧
      (∀ r, 2 * r ≤ n → TLCell.make n r = .ok (cells r) ∧ (cells r).dim = .ok (d r : Int) ∧ (cells r).projectLeftmultMatrix m = .ok (M r) ∧ (M r).Shape (d r) (d r)) ∧
      p.den = ∑ r ∈ Finset.range (n / 2 + 1), (cells r).traceScalar.den * ((M r).den (d r) (d r)).trace := by
  obtain ⟨p, p1, p2, p3⟩ := TLMor.trace_spec hm (by omega)
  have key : ∀ r, ∃ (d : Nat) (M : Matrix), 2 * r ≤ n → (TLCell.dim ⟨n, r⟩ = .ok (d : Int) ∧ TLCell.projectLeftmultMatrix ⟨n, r⟩ m = .ok M ∧ M.Shape d d ∧
      (M.den d d).trace = m.ev fun d => (act (n - 2 * r) n n d).trace) := by
    intro r
    by_cases h : 2 * r ≤ n
    swap
    · exact ⟨0, ⟨0, 0, []⟩, fun e => absurd e h⟩
    obtain ⟨B, b1, b2, b3, b4, b5, b6⟩ := C51_cell_basis n r h
    obtain ⟨B', b1', b2', b3', b4', b5'⟩ := cellBasis_spec n r h
    rw [b1] at b1'; cases b1'
    obtain ⟨M, m1, m2, -⟩ := Jones.cellMatrix_spec hm h1 h2 b1 (fun d hd => (b4' d).1 hd) (Jones.dimension_pos h b4')
    refine ⟨B.length, M, fun _ => ⟨?_, ?_, m2, Jones.cellMatrix_trace hm h1 h2 h b1 m1⟩⟩
    · rw [TLCell.dim]
      dsimp only
      rw [Int.toNat_natCast, Int.toNat_natCast, b6]
    · rw [TLCell.project_eq hm h1 h2 h, m1]
  choose d M hk using key
  refine ⟨p, fun r => ⟨n, r⟩, d, M, p1, fun r hr => ⟨?_, (hk r hr).1, (hk r hr).2.1, (hk r hr).2.2.1⟩, ?_⟩
  · rw [TLCell.make, pyAssert, if_pos (by simp; omega)]; rfl
  · rw [Jones.trace_formula hm h1 h2 p1]
    refine Finset.sum_congr rfl fun r hr => ?_
    have hr : 2 * r ≤ n := by have := Finset.mem_range.1 hr; omega
    rw [(hk r hr).2.2.2, qint, TLCell.traceScalar]
    have : ((n - 2 * r + 1 : Nat) : Int) = (n : Int) - 2 * (r : Int) + 1 := by omega
    rw [this]

/-- C87: parameters out of range are rejected. -/
theorem C87_rejects (n r : Int) : (TLCell.make n r = .ok ⟨n, r⟩ ↔ 0 ≤ n ∧ 0 ≤ r ∧ 2 * r ≤ n) ∧ (¬ (0 ≤ n ∧ 0 ≤ r ∧ 2 * r ≤ n) → TLCell.make n r = .error .assertion) := by
  by_cases h : 0 ≤ n ∧ 0 ≤ r ∧ 0 ≤ n - 2 * r
  · rw [TLCell.make, pyAssert, if_pos (by simpa using h)]
    exact ⟨⟨fun _ => by omega, fun _ => rfl⟩, fun hn => absurd (by omega) hn⟩
  · rw [TLCell.make, pyAssert, if_neg (by simpa using h)]
    exact ⟨⟨(by intro e; cases e), fun e => absurd (by omega) h⟩, fun _ => rfl⟩

/-- A generator of `TL(3, 3)`: trace `δ² = [4] · 0 + [2] · δ`. -/
example : (do TLMor.trace (← TLMor.e 0 3)) = .ok (LPoly.mul LPoly.Q2 LPoly.Q2) ∧ (TLCell.mk 3 1).traceScalar = LPoly.Q2 := by
  refine ⟨?_, ?_⟩ <;> decide +kernel

/-! ### C88: the list of all cell modules -/

/-- C88 is false for every `n`: `JonesRep(n)` leaves out the last cell module `TLCell(n, n//2)`. -/
theorem C88_refuted (n : Nat) : ∃ cells c, jonesRepCells n = .ok cells ∧ TLCell.make n (n / 2 : Nat) = .ok c ∧ c ∉ cells := by
  have hmap : ((List.range (n / 2)).mapM fun r : Nat => TLCell.make (n : Int) (r : Int)) = .ok ((List.range (n / 2)).map fun r : Nat => (⟨n, r⟩ : TLCell)) := by
    apply mapM_ok
    intro r hr
    have := List.mem_range.1 hr
    exact (C87_rejects n r).1.2 (by omega)
  refine ⟨(List.range (n / 2)).map fun r : Nat => (⟨n, r⟩ : TLCell), ⟨n, (n / 2 : Nat)⟩, ?_, (C87_rejects _ _).1.2 (by omega), ?_⟩
  · rw [jonesRepCells, pyAssert, if_pos (by simp), bind_ok, show ((n : Int) / 2).toNat = n / 2 by omega, hmap]
  · intro hm
    obtain ⟨r, hr, e⟩ := List.mem_map.1 hm
    injection e with _ e
    have := List.mem_range.1 hr
    omega

/-- C88, what holds: the list has the cell modules with `r < n//2`, in order.  Missing: the one with `r = n//2`. -/
theorem C88_cells_partial (n : Nat) : ∃ cells, jonesRepCells n = .ok cells ∧ cells = (List.range (n / 2)).map fun r : Nat => (⟨n, r⟩ : TLCell) := by
  have hmap : ((List.range (n / 2)).mapM fun r : Nat => TLCell.make (n : Int) (r : Int)) = .ok ((List.range (n / 2)).map fun r : Nat => (⟨n, r⟩ : TLCell)) := by
    apply mapM_ok
    intro r hr
    have := List.mem_range.1 hr
    exact (C87_rejects n r).1.2 (by omega)
  refine ⟨(List.range (n / 2)).map fun r : Nat => (⟨n, r⟩ : TLCell), ?_, rfl⟩
  rw [jonesRepCells, pyAssert, if_pos (by simp), bind_ok, show ((n : Int) / 2).toNat = n / 2 by omega, hmap]

/-! ### C89: flips -/

/-- C89: turning upside down reverses products of diagrams and keeps the number of loops. -/
theorem C89_diagrams {a b : TLDiag} (ha : a.Ok) (hb : b.Ok) (h : a.bot = b.top) : ∃ ab k fa fb x, TLDiag.mul a b = .ok (ab, k) ∧ a.flip = .ok fa ∧ b.flip = .ok fb ∧
    ab.flip = .ok x ∧ TLDiag.mul fb fa = .ok (x, k) := by
  obtain ⟨e1, -, -, -, o1⟩ := TLDiag.mul_ok ha hb h
  obtain ⟨p1, p2⟩ := TLDiag.prod_upsideDown ha hb h
  obtain ⟨e2, -⟩ := TLDiag.mul_ok (TLDiag.upsideDown_ok hb) (TLDiag.upsideDown_ok ha) (by show b.top = a.bot; omega)
  rw [← p1, ← p2] at e2
  exact ⟨_, _, _, _, _, e1, TLDiag.flip_ok ha, TLDiag.flip_ok hb, TLDiag.flip_ok o1, e2⟩

/-- C89: `(a * b).flip() == b.flip() * a.flip()`. -/
theorem C89_morphisms {a b : TLMor} (ha : a.WF) (hb : b.WF) (h : a.bot = b.top) (f : Bool) : ∃ ab fa fb x, TLMor.mul a b = .ok ab ∧ TLMor.flip a f = .ok fa ∧
    TLMor.flip b f = .ok fb ∧ TLMor.flip ab f = .ok x ∧ TLMor.mul fb fa = .ok x := TLMor.flip_mul ha hb h f

/-- C89: the trace of the flipped morphism is the trace with `v` inverted. -/
theorem C89_trace {m : TLMor} (hm : m.WF) (h : m.top = m.bot) (f : Bool) : ∃ x p q, TLMor.flip m f = .ok x ∧ TLMor.trace m = .ok p ∧ TLMor.trace x = .ok q ∧
    q.den = invert p.den := TLMor.flip_trace hm h f

example : (do TLMor.flip (← TLMor.mul (← TLMor.e 0 3) (← TLMor.e 1 3)) true) = (do TLMor.mul (← TLMor.flip (← TLMor.e 1 3) true) (← TLMor.flip (← TLMor.e 0 3) true)) := by decide +kernel

end Peyl
