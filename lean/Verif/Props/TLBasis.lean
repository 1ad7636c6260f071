import Verif.Model.TLBasis
import Verif.Lemmas.JonesCell
import Verif.Props.TL
/-!
# C109: `TLMor.basis` is a basis, and `pairs` takes a morphism apart
-/
namespace Peyl
open LaurentPolynomial
namespace TLMor

/-- `sum((c * b for c, b in ps), TLMor(top, bot, {}))`. -/
def linComb (top bot : Nat) (ps : List (LPoly × TLMor)) : Except Err TLMor := do
  let z ← make top bot []
  ps.foldlM (fun acc p => do add acc (← rmul p.1 p.2)) z

theorem linComb_loop {top bot : Nat} (ps : List (LPoly × TLMor)) (hb : ∀ p ∈ ps, p.2.WF ∧ p.2.top = top ∧ p.2.bot = bot)
    (acc : TLMor) (ha : acc.WF) (h1 : acc.top = top) (h2 : acc.bot = bot) :
    ∃ m, ps.foldlM (fun acc p => do add acc (← rmul p.1 p.2)) acc = .ok m ∧ m.WF ∧ m.top = top ∧ m.bot = bot ∧
      ∀ d, m.coef d = acc.coef d + (ps.map fun p => p.2.coef d * p.1.den).sum := by
  induction ps generalizing acc with
  | nil => exact ⟨acc, rfl, ha, h1, h2, by simp⟩
  | cons p ps ih =>
    obtain ⟨b1, b2, b3⟩ := hb p (by simp)
    obtain ⟨x, x1, x2, x3, x4, x5⟩ := smul_spec b1 p.1
    obtain ⟨y, y1, y2, y3, y4, y5⟩ := add_spec ha x2 (by rw [h1, x3, b2]) (by rw [h2, x4, b3])
    obtain ⟨m, m1, m2, m3, m4, m5⟩ := ih (fun q hq => hb q (by simp [hq])) y y2 (by rw [y3, h1]) (by rw [y4, h2])
    refine ⟨m, ?_, m2, m3, m4, fun d => ?_⟩
    · rw [List.foldlM_cons, rmul, x1, bind_ok, y1, bind_ok]; exact m1
    · rw [m5, y5, x5, List.map_cons, List.sum_cons]; ring

theorem linComb_spec {top bot : Nat} (ps : List (LPoly × TLMor)) (hb : ∀ p ∈ ps, p.2.WF ∧ p.2.top = top ∧ p.2.bot = bot) :
    ∃ m, linComb top bot ps = .ok m ∧ m.WF ∧ m.top = top ∧ m.bot = bot ∧ ∀ d, m.coef d = (ps.map fun p => p.2.coef d * p.1.den).sum := by
  obtain ⟨z, z1, z2, z3, z4, z5⟩ := make_spec (top := top) (bot := bot) (ts := []) (by simp) (by simp)
  obtain ⟨m, m1, m2, m3, m4, m5⟩ := linComb_loop ps hb z z2 z3 z4
  exact ⟨m, by rw [linComb, z1, bind_ok]; exact m1, m2, m3, m4, fun d => by rw [m5, z5, coefIn_nil, zero_add]⟩

/-- The coefficient of a combination of distinct diagrams. -/
theorem zip_sum {ds : List TLDiag} (hn : ds.Nodup) (f : TLDiag → TLMor) (hf : ∀ d ∈ ds, ∀ x, (f d).coef x = if d = x then 1 else 0)
    (cs : List LPoly) (hl : cs.length = ds.length) (i : Nat) (hi : i < ds.length) :
    ((cs.zip (ds.map f)).map fun p => p.2.coef ds[i] * p.1.den).sum = (cs[i]'(by omega)).den := by
  induction ds generalizing cs i with
  | nil => simp at hi
  | cons d ds ih =>
    cases cs with
    | nil => simp at hl
    | cons c cs =>
      rw [List.nodup_cons] at hn
      simp only [List.map_cons, List.zip_cons_cons, List.sum_cons]
      cases i with
      | zero =>
        have h0 : ((cs.zip (ds.map f)).map fun p => p.2.coef d * p.1.den).sum = 0 := by
          apply List.sum_eq_zero
          intro x hx
          obtain ⟨p, hp, rfl⟩ := List.mem_map.1 hx
          obtain ⟨d', hd', e⟩ := List.mem_map.1 (List.of_mem_zip hp).2
          rw [← e, hf d' (by simp [hd']), if_neg (show ¬ d' = d from fun q => hn.1 (q ▸ hd')), zero_mul]
        simp only [List.getElem_cons_zero]
        rw [h0, hf d (by simp), if_pos rfl]; simp
      | succ i =>
        simp only [List.getElem_cons_succ]
        have hi' : i < ds.length := by simpa using hi
        rw [ih hn.2 (fun d' h' => hf d' (by simp [h'])) cs (by simpa using hl) i hi',
          hf d (by simp), if_neg (show ¬ d = ds[i] from fun q => hn.1 (q ▸ List.getElem_mem hi')), zero_mul, zero_add]

/-- C109: `TLMor.basis(top, bot)` has Catalan many elements, and every morphism of the type is a combination of them in exactly one
way (with coefficients in normal form); the coefficients are those which `coefficient` returns for the diagrams of `tl_basis`. -/
theorem C109_basis (top bot k : Nat) (h : top + bot = 2 * k) : ∃ (B : List TLMor) (ds : List TLDiag), basis top bot = .ok B ∧
    TL.tlBasis top bot = .ok ds ∧ B.length = catalan k ∧ (∀ b ∈ B, b.WF ∧ b.top = top ∧ b.bot = bot) ∧
    ∀ m : TLMor, m.WF → m.top = top → m.bot = bot → ∃ cs : List LPoly, ds.mapM (coefficient m) = .ok cs ∧ linComb top bot (cs.zip B) = .ok m ∧
      ∀ cs' : List LPoly, cs'.length = B.length → (∀ c ∈ cs', c.Trimmed) → linComb top bot (cs'.zip B) = .ok m → cs' = cs := by
  obtain ⟨ds, d1, d2, d3, d4⟩ := (C46_tl_basis top bot).1 k h
  have hex : ∀ d : TLDiag, ∃ m : TLMor, d ∈ ds → make top bot [(d, one)] = .ok m ∧ m.WF ∧ m.top = top ∧ m.bot = bot ∧ ∀ x, m.coef x = if d = x then 1 else 0 := by
    intro d
    by_cases hd : d ∈ ds
    · obtain ⟨e1, e2, e3⟩ := (d4 d).1 hd
      obtain ⟨m, m1, m2, m3, m4, m5⟩ := fromDiag_spec e3
      rw [e1, e2] at m1
      exact ⟨m, fun _ => ⟨m1, m2, by rw [m3, e1], by rw [m4, e2], m5⟩⟩
    · exact ⟨⟨0, 0, []⟩, fun q => absurd q hd⟩
  choose f hf using hex
  have hB : ∀ b ∈ ds.map f, b.WF ∧ b.top = top ∧ b.bot = bot := by
    intro b hb
    obtain ⟨d, hd, rfl⟩ := List.mem_map.1 hb
    exact ⟨(hf d hd).2.1, (hf d hd).2.2.1, (hf d hd).2.2.2.1⟩
  refine ⟨ds.map f, ds, ?_, d1, by rw [List.length_map, d3], hB, ?_⟩
  · rw [basis, d1, bind_ok]
    exact TL.mapM_ok _ _ _ fun d hd => (hf d hd).1
  · intro m hm h1 h2
    have hcf : ∀ d : TLDiag, ∃ q : LPoly, d ∈ ds → coefficient m d = .ok q ∧ q.Trimmed ∧ q.den = m.coef d := by
      intro d
      by_cases hd : d ∈ ds
      · obtain ⟨e1, e2, e3⟩ := (d4 d).1 hd
        obtain ⟨q, hq⟩ := coefficient_spec (d := d) hm (by rw [h1, e1]) (by rw [h2, e2])
        exact ⟨q, fun _ => hq⟩
      · exact ⟨LPoly.make 0 [], fun q => absurd q hd⟩
    choose g hg using hcf
    have hzip : ∀ (cs : List LPoly), ∀ p ∈ cs.zip (ds.map f), p.2.WF ∧ p.2.top = top ∧ p.2.bot = bot := by
      intro cs p hp
      exact hB p.2 (List.of_mem_zip hp).2
    have hcoef : ∀ (cs : List LPoly) (_ : cs.length = ds.length) (m' : TLMor), linComb top bot (cs.zip (ds.map f)) = .ok m' →
        ∀ i (hi : i < ds.length) (hi' : i < cs.length), m'.coef ds[i] = (cs[i]).den := by
      intro cs hl m' hm' i hi hi'
      obtain ⟨m'', k1, -, -, -, k5⟩ := linComb_spec _ (hzip cs)
      rw [hm'] at k1
      rw [Except.ok.inj k1, k5, zip_sum d2 f (fun d hd => (hf d hd).2.2.2.2) cs hl i hi]
    refine ⟨ds.map g, TL.mapM_ok _ _ _ fun d hd => (hg d hd).1, ?_, ?_⟩
    · obtain ⟨m', k1, k2, k3, k4, k5⟩ := linComb_spec _ (hzip (ds.map g))
      rw [k1]
      congr 1
      refine WF.ext k2 hm (by rw [k3, h1]) (by rw [k4, h2]) fun d => ?_
      by_cases hd : d ∈ ds
      · obtain ⟨i, hi, rfl⟩ := List.mem_iff_getElem.1 hd
        rw [hcoef _ (by simp) m' k1 i hi (by simpa using hi), List.getElem_map, (hg _ (List.getElem_mem hi)).2.2]
      · have a1 : m'.coef d = 0 := by
          by_contra hne
          obtain ⟨t1, t2, t3⟩ := coef_ne_zero_type k2 hne
          exact hd ((d4 d).2 ⟨by rw [t1, k3], by rw [t2, k4], t3⟩)
        have a2 : m.coef d = 0 := by
          by_contra hne
          obtain ⟨t1, t2, t3⟩ := coef_ne_zero_type hm hne
          exact hd ((d4 d).2 ⟨by rw [t1, h1], by rw [t2, h2], t3⟩)
        rw [a1, a2]
    · intro cs' hl ht hm'
      rw [List.length_map] at hl
      apply List.ext_getElem (by simpa using hl)
      intro i hi hi'
      have hi2 : i < ds.length := by omega
      apply (ht _ (List.getElem_mem hi)).den_inj
      · rw [List.getElem_map]; exact (hg _ (List.getElem_mem hi2)).2.1
      · rw [← hcoef cs' hl m hm' i hi2 hi, List.getElem_map, (hg _ (List.getElem_mem hi2)).2.2]

/-- C109: there are no morphisms between an odd number of points: `basis` raises. -/
theorem C109_odd (top bot : Nat) (h : (top + bot) % 2 = 1) : basis top bot = .error .assertion := by
  rw [basis, (C46_tl_basis top bot).2 h]; rfl

theorem pairs_sum {ts : List (TLDiag × LPoly)} (f : TLDiag → TLMor) (hf : ∀ t ∈ ts, ∀ x, (f t.1).coef x = if t.1 = x then 1 else 0) (d : TLDiag) :
    ((ts.map fun t => (t.2, f t.1)).map fun p => p.2.coef d * p.1.den).sum = coefIn ts d := by
  induction ts with
  | nil => rfl
  | cons t ts ih =>
    rw [List.map_cons, List.map_cons, List.sum_cons, ih fun t' h' => hf t' (by simp [h']), coefIn_cons, hf t (by simp)]
    split <;> simp

/-- C109: `pairs()` lists each diagram of `support()` once, with its coefficient, which is not zero; a diagram of the type is in the
support iff `coefficient` of it is not zero; and the sum of the pairs is the morphism. -/
theorem C109_pairs (m : TLMor) (hm : m.WF) : (support m).Nodup ∧ (pairs m).map Prod.fst = support m ∧
    (∀ t ∈ pairs m, coefficient m t.1 = .ok t.2 ∧ t.2.isZero = false) ∧
    (∀ d : TLDiag, d.top = m.top → d.bot = m.bot → (d ∈ support m ↔ ∃ q, coefficient m d = .ok q ∧ q.isZero = false)) ∧
    ∃ bs : List TLMor, (support m).mapM fromDiag = .ok bs ∧ linComb m.top m.bot (((pairs m).map Prod.snd).zip bs) = .ok m := by
  have hco : ∀ t ∈ m.terms, coefficient m t.1 = .ok t.2 := by
    intro t ht
    obtain ⟨t1, t2⟩ := hm.type t ht
    obtain ⟨q, q1, q2, q3⟩ := coefficient_spec (d := t.1) hm t1.symm t2.symm
    rw [q1]; congr 1
    have := (hm.mem_iff t.1 t.2).1 ht
    exact q2.den_inj this.1 (by rw [q3, this.2.2])
  have hnz : ∀ t ∈ m.terms, t.2.isZero = false := by
    intro t ht
    obtain ⟨a1, a2, -⟩ := (hm.mem_iff t.1 t.2).1 ht
    by_contra hz
    refine a2 ((LPoly.den_eq_zero_iff a1).2 ?_)
    simpa [LPoly.isZero] using hz
  refine ⟨hm.nodup, rfl, fun t ht => ⟨hco t ht, hnz t ht⟩, fun d h1 h2 => ⟨?_, ?_⟩, ?_⟩
  · intro hd
    obtain ⟨t, ht, rfl⟩ := List.mem_map.1 hd
    exact ⟨t.2, hco t ht, hnz t ht⟩
  · rintro ⟨q, q1, q2⟩
    obtain ⟨q', r1, r2, r3⟩ := coefficient_spec (d := d) hm h1.symm h2.symm
    rw [q1] at r1
    obtain rfl := Except.ok.inj r1
    have hne : q.den ≠ 0 := by
      intro e
      rw [LPoly.den_eq_zero_iff r2] at e
      simp [LPoly.isZero, e] at q2
    exact List.mem_map.2 ⟨(d, q), (hm.mem_iff d q).2 ⟨r2, hne, r3.symm⟩, rfl⟩
  · have hex : ∀ d : TLDiag, ∃ x : TLMor, d ∈ support m → fromDiag d = .ok x ∧ x.WF ∧ x.top = m.top ∧ x.bot = m.bot ∧ ∀ y, x.coef y = if d = y then 1 else 0 := by
      intro d
      by_cases hd : d ∈ support m
      · obtain ⟨t, ht, rfl⟩ := List.mem_map.1 hd
        obtain ⟨x, x1, x2, x3, x4, x5⟩ := fromDiag_spec (hm.good t ht)
        obtain ⟨t1, t2⟩ := hm.type t ht
        exact ⟨x, fun _ => ⟨x1, x2, by rw [x3, t1], by rw [x4, t2], x5⟩⟩
      · exact ⟨m, fun q => absurd q hd⟩
    choose f hf using hex
    refine ⟨(support m).map f, TL.mapM_ok _ _ _ fun d hd => (hf d hd).1, ?_⟩
    have e : ((pairs m).map Prod.snd).zip ((support m).map f) = m.terms.map fun t => (t.2, f t.1) := by
      rw [pairs, support, List.map_map]
      induction m.terms with
      | nil => rfl
      | cons t ts ih => simp [ih]
    rw [e]
    have hmem : ∀ t ∈ m.terms, t.1 ∈ support m := fun t ht => List.mem_map.2 ⟨t, ht, rfl⟩
    obtain ⟨x, x1, x2, x3, x4, x5⟩ := linComb_spec (top := m.top) (bot := m.bot) (m.terms.map fun t => (t.2, f t.1)) (by
      intro p hp
      obtain ⟨t, ht, rfl⟩ := List.mem_map.1 hp
      obtain ⟨-, b2, b3, b4, -⟩ := hf t.1 (hmem t ht)
      exact ⟨b2, b3, b4⟩)
    rw [x1]; congr 1
    refine WF.ext x2 hm x3 x4 fun d => ?_
    rw [x5, pairs_sum f (fun t ht => (hf t.1 (hmem t ht)).2.2.2.2) d]; rfl

/-- Cases: the two diagrams on two strands; the identity minus a generator on three strands is a morphism of two terms. -/
example : ((basis 2 2).map fun B => B.map fun b => b.terms.map fun t => t.1.seq) = .ok [[[1, 0, 3, 2]], [[3, 2, 1, 0]]] := by decide +kernel
example : ∃ a b m, TLMor.id 3 = .ok a ∧ TLMor.e 0 3 = .ok b ∧ sub a b = .ok m ∧ m.WF ∧ (⟨3, 3, TL.idSeq 3⟩ : TLDiag) ∈ support m := by
  obtain ⟨a, a1, a2, a3, a4, a5⟩ := id_spec 3
  obtain ⟨b, b1, b2, b3, b4, b5⟩ := e_spec (i := 0) (n := 3) (by norm_num)
  obtain ⟨m, m1, m2, m3, m4, m5⟩ := sub_spec a2 b2 (by rw [a3, b3]) (by rw [a4, b4])
  refine ⟨a, b, m, a1, b1, m1, m2, ?_⟩
  by_contra hne
  have h0 : m.coef ⟨3, 3, TL.idSeq 3⟩ = 0 := coefIn_not_mem hne
  rw [m5, a5, b5, if_pos rfl, if_neg (by decide)] at h0
  simp at h0

end TLMor
end Peyl
