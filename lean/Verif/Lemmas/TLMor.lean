import Verif.Lemmas.TLRel
import Verif.Lemmas.LPoly
/-!
# Morphisms of the Temperley–Lieb category
-/
namespace Peyl
open LaurentPolynomial

/-! ### Diagrams -/
namespace TLDiag
variable {d u l : TLDiag}

theorem make_ok {top bot : Nat} {seq : List Nat} (h1 : top + bot = seq.length) (h2 : TL.Crossingless seq) :
    make top bot seq = .ok ⟨top, bot, seq⟩ := by
  rw [make, pyAssert, if_pos (by simpa using h1), bind_ok, TL.isCM_true h2, bind_ok]; rfl

theorem id_ok (n : Nat) : TLDiag.id n = .ok ⟨n, n, TL.idSeq n⟩ := make_ok (by simp; omega) (TL.idSeq_nc n)

/-- The product of two diagrams, and its number of loops. -/
def prodD (u l : TLDiag) : TLDiag := match TLDiag.mul u l with | .ok z => z.1 | .error _ => u
def prodL (u l : TLDiag) : Nat := match TLDiag.mul u l with | .ok z => z.2 | .error _ => 0

theorem compose_ok (hu : u.Ok) (hl : l.Ok) (h : u.bot = l.top) :
    ∃ s k, TL.compose u.seq l.seq u.bot = .ok (s, k) ∧ u.top + l.bot = s.length ∧ TL.Crossingless s := by
  have h1 := hu.1; have h2 := hl.1
  obtain ⟨res, r1, r2, r3, -⟩ := TL.compose_spec (mid := u.bot) hu.2 hl.2 (by omega) (by omega)
  exact ⟨res, _, r1, by omega, r3⟩

theorem mul_ok (hu : u.Ok) (hl : l.Ok) (h : u.bot = l.top) : TLDiag.mul u l = .ok (prodD u l, prodL u l) ∧
    TL.compose u.seq l.seq u.bot = .ok ((prodD u l).seq, prodL u l) ∧ (prodD u l).top = u.top ∧ (prodD u l).bot = l.bot ∧ (prodD u l).Ok := by
  obtain ⟨s, k, h1, h2, h3⟩ := compose_ok hu hl h
  have e : TLDiag.mul u l = .ok (⟨u.top, l.bot, s⟩, k) := by
    rw [mul, if_neg (by simpa using h), h1, bind_ok, make_ok h2 h3, bind_ok]
  rw [prodD, prodL, e]
  exact ⟨rfl, h1, rfl, rfl, h2, h3⟩

theorem ext' {a b : TLDiag} (h1 : a.top = b.top) (h2 : a.bot = b.bot) (h3 : a.seq = b.seq) : a = b := by
  cases a; cases b; simp_all

theorem le_trans' (a b c : TLDiag) (h1 : le a b = true) (h2 : le b c = true) : le a c = true := by
  simp only [le, decide_eq_true_eq] at *
  exact List.le_trans h1 h2

theorem le_total' (a b : TLDiag) : (le a b || le b a) = true := by
  simp only [le, Bool.or_eq_true, decide_eq_true_eq]
  exact List.le_total _ _

theorem le_antisymm' (a b : TLDiag) (h1 : le a b = true) (h2 : le b a = true) : a = b := by
  simp only [le, decide_eq_true_eq] at *
  have := List.le_antisymm h1 h2
  simp only [List.cons.injEq] at this
  exact ext' this.1 this.2.1 this.2.2

end TLDiag

namespace TLMor

/-! ### Coefficients -/

theorem coefIn_nil (d : TLDiag) : coefIn [] d = 0 := rfl
theorem coefIn_cons (t : TLDiag × LPoly) (ts) (d : TLDiag) : coefIn (t :: ts) d = (if t.1 = d then t.2.den else 0) + coefIn ts d := by
  simp [coefIn]
theorem coefIn_append (ts us) (d : TLDiag) : coefIn (ts ++ us) d = coefIn ts d + coefIn us d := by simp [coefIn]

theorem coefIn_perm {ts us : List (TLDiag × LPoly)} (h : ts.Perm us) (d : TLDiag) : coefIn ts d = coefIn us d :=
  (h.map _).sum_eq

theorem coefIn_not_mem {ts : List (TLDiag × LPoly)} {d : TLDiag} (h : d ∉ ts.map (·.1)) : coefIn ts d = 0 := by
  apply List.sum_eq_zero
  intro x hx
  obtain ⟨t, ht, rfl⟩ := List.mem_map.1 hx
  rw [if_neg]
  rintro rfl
  exact h (List.mem_map_of_mem ht)

theorem coefIn_mem {ts : List (TLDiag × LPoly)} (hk : (ts.map (·.1)).Nodup) {t : TLDiag × LPoly} (h : t ∈ ts) : coefIn ts t.1 = t.2.den := by
  induction ts with
  | nil => cases h
  | cons s ts ih =>
    rw [List.map_cons, List.nodup_cons] at hk
    rw [coefIn_cons]
    rcases List.mem_cons.1 h with rfl | h
    · rw [if_pos rfl, coefIn_not_mem hk.1, add_zero]
    · rw [if_neg, ih hk.2 h, zero_add]
      rintro e
      exact hk.1 (e ▸ List.mem_map_of_mem h)

theorem coefIn_filter_nonzero (ts : List (TLDiag × LPoly)) (d : TLDiag) :
    coefIn (ts.filter fun t => !t.2.isZero) d = coefIn ts d := by
  induction ts with
  | nil => rfl
  | cons t ts ih =>
    rw [List.filter_cons, coefIn_cons]
    split
    · rw [coefIn_cons, ih]
    · next h =>
      have : t.2.den = 0 := by
        simp only [LPoly.isZero, Bool.not_eq_true, Bool.not_eq_false', beq_iff_eq, List.length_eq_zero_iff] at h
        simp [LPoly.den, h, listPoly]
      rw [ih, this, ite_self, zero_add]

/-- What the constructor returns. -/
theorem make_spec {top bot : Nat} {ts : List (TLDiag × LPoly)} (hk : (ts.map (·.1)).Nodup)
    (ht : ∀ t ∈ ts, t.1.top = top ∧ t.1.bot = bot ∧ t.1.Ok ∧ t.2.Trimmed) :
    ∃ m, make top bot ts = .ok m ∧ m.WF ∧ m.top = top ∧ m.bot = bot ∧ ∀ d, m.coef d = coefIn ts d := by
  have hp := List.mergeSort_perm ts (fun a b => TLDiag.le a.1 b.1)
  refine ⟨⟨top, bot, (ts.mergeSort fun a b => TLDiag.le a.1 b.1).filter fun t => !t.2.isZero⟩, ?_, ⟨?_, ?_, ?_, ?_, ?_⟩, rfl, rfl, ?_⟩
  · rw [make, if_pos]
    rw [List.all_eq_true]
    intro t h
    simp [(ht t h).1, (ht t h).2.1]
  · exact ((hp.map _).nodup_iff.2 hk).sublist (List.filter_sublist.map _)
  · exact List.Pairwise.filter _ (List.pairwise_mergeSort (fun a b c => TLDiag.le_trans' a.1 b.1 c.1) (fun a b => TLDiag.le_total' a.1 b.1) ts)
  · intro t h
    have := ht t (hp.mem_iff.1 (List.mem_filter.1 h).1)
    exact ⟨this.1, this.2.1⟩
  · intro t h
    exact (ht t (hp.mem_iff.1 (List.mem_filter.1 h).1)).2.2.1
  · intro t h
    obtain ⟨h1, h2⟩ := List.mem_filter.1 h
    have := (ht t (hp.mem_iff.1 h1)).2.2.2
    refine ⟨this, fun e => ?_⟩
    rw [LPoly.den_eq_zero_iff this] at e
    simp [LPoly.isZero, e] at h2
  · intro d
    rw [coef, coefIn_filter_nonzero, coefIn_perm hp]

theorem make_error {top bot : Nat} {ts : List (TLDiag × LPoly)} (h : ∃ t ∈ ts, t.1.top ≠ top ∨ t.1.bot ≠ bot) : make top bot ts = .error .value := by
  rw [make, if_neg]
  rw [List.all_eq_true]
  obtain ⟨t, h1, h2⟩ := h
  intro q
  have := q t h1
  simp at this; omega

variable {m a b : TLMor}

theorem WF.mem_iff (hm : m.WF) (d : TLDiag) (q : LPoly) : (d, q) ∈ m.terms ↔ q.Trimmed ∧ q.den ≠ 0 ∧ m.coef d = q.den := by
  constructor
  · intro h
    exact ⟨(hm.coeff _ h).1, (hm.coeff _ h).2, coefIn_mem hm.nodup h⟩
  · rintro ⟨h1, h2, h3⟩
    by_cases hd : d ∈ m.terms.map (·.1)
    · obtain ⟨t, ht, rfl⟩ := List.mem_map.1 hd
      have e := coefIn_mem hm.nodup ht
      rw [coef, e] at h3
      rw [← (hm.coeff t ht).1.den_inj h1 h3]
      exact ht
    · rw [coef, coefIn_not_mem hd] at h3
      exact absurd h3.symm h2

/-- Morphisms of the same type with the same coefficients are equal objects. -/
theorem WF.ext (ha : a.WF) (hb : b.WF) (h1 : a.top = b.top) (h2 : a.bot = b.bot) (h : ∀ d, a.coef d = b.coef d) : a = b := by
  have hp : a.terms.Perm b.terms := by
    refine (List.perm_ext_iff_of_nodup (List.Nodup.of_map _ ha.nodup) (List.Nodup.of_map _ hb.nodup)).2 ?_
    rintro ⟨d, q⟩
    rw [ha.mem_iff, hb.mem_iff, h]
  have : a.terms = b.terms := by
    refine hp.eq_of_pairwise ?_ ha.sorted hb.sorted
    intro s t hs ht l1 l2
    have e := TLDiag.le_antisymm' _ _ l1 l2
    have e1 := coefIn_mem ha.nodup hs
    have e2 := coefIn_mem hb.nodup ht
    have := h s.1
    rw [coef, coef, e1, e, e2] at this
    exact Prod.ext e ((ha.coeff s hs).1.den_inj (hb.coeff t ht).1 this)
  cases a; cases b; simp_all

theorem coef_ne_zero_type (hm : m.WF) {d : TLDiag} (h : m.coef d ≠ 0) : d.top = m.top ∧ d.bot = m.bot ∧ d.Ok := by
  have : d ∈ m.terms.map (·.1) := by
    by_contra hd
    exact h (coefIn_not_mem hd)
  obtain ⟨t, ht, rfl⟩ := List.mem_map.1 this
  exact ⟨(hm.type t ht).1, (hm.type t ht).2, hm.good t ht⟩

theorem trimmed_add (p q : LPoly) : (LPoly.add p q).Trimmed := LPoly.trimmed_make _ _
theorem trimmed_mul (p q : LPoly) : (LPoly.mul p q).Trimmed := LPoly.trimmed_make _ _
theorem trimmed_neg (p : LPoly) : (LPoly.neg p).Trimmed := LPoly.trimmed_make _ _

theorem one_trimmed : one.Trimmed := LPoly.trimmed_make _ _
theorem den_one : one.den = 1 := by rw [one, LPoly.den_int]; simp

/-- A single diagram. -/
theorem fromDiag_spec {d : TLDiag} (hd : d.Ok) : ∃ m, make d.top d.bot [(d, one)] = .ok m ∧ m.WF ∧ m.top = d.top ∧ m.bot = d.bot ∧
    ∀ x, m.coef x = if d = x then 1 else 0 := by
  obtain ⟨m, h1, h2, h3, h4, h5⟩ := make_spec (top := d.top) (bot := d.bot) (ts := [(d, one)]) (by simp)
    (by rintro t ht; rw [List.mem_singleton] at ht; subst ht; exact ⟨rfl, rfl, hd, one_trimmed⟩)
  refine ⟨m, h1, h2, h3, h4, fun x => ?_⟩
  rw [h5, coefIn_cons, coefIn_nil, add_zero, den_one]

/-! ### Sums -/

theorem addTerm_coef (ts) (d : TLDiag) (c : LPoly) (x : TLDiag) : coefIn (addTerm ts d c) x = coefIn ts x + if d = x then c.den else 0 := by
  induction ts with
  | nil => simp [addTerm, coefIn, LPoly.den_add, LPoly.den_make, listPoly]
  | cons t ts ih =>
    rw [addTerm.eq_def]; dsimp only
    split
    · next h => rw [coefIn_cons, coefIn_cons, LPoly.den_add, h]; dsimp only; split <;> ring
    · rw [coefIn_cons, coefIn_cons, ih]; ring

theorem addTerm_keys (ts) (d : TLDiag) (c : LPoly) :
    (addTerm ts d c).map (·.1) = if d ∈ ts.map (·.1) then ts.map (·.1) else ts.map (·.1) ++ [d] := by
  induction ts with
  | nil => simp [addTerm]
  | cons t ts ih =>
    rw [addTerm.eq_def]; dsimp only
    split
    · next h => simp [h]
    · next h =>
      rw [List.map_cons, ih, List.map_cons]
      have : d ≠ t.1 := fun e => h e.symm
      simp only [List.mem_cons, this, false_or]
      split <;> simp

theorem addTerm_forall (P : TLDiag × LPoly → Prop) (ts) (d : TLDiag) (c : LPoly) (h : ∀ t ∈ ts, P t) (hd : ∀ q : LPoly, q.Trimmed → P (d, q)) :
    ∀ t ∈ addTerm ts d c, P t := by
  induction ts with
  | nil => simpa [addTerm] using hd _ (trimmed_add _ _)
  | cons t ts ih =>
    rw [addTerm.eq_def]; dsimp only
    split
    · intro s hs
      rcases List.mem_cons.1 hs with rfl | hs
      · exact hd _ (trimmed_add _ _)
      · exact h s (List.mem_cons_of_mem _ hs)
    · intro s hs
      rcases List.mem_cons.1 hs with rfl | hs
      · exact h _ (List.mem_cons_self ..)
      · exact ih (fun t ht => h t (List.mem_cons_of_mem _ ht)) s hs

theorem insertTerm_coef (ts) (d : TLDiag) (c : LPoly) (x : TLDiag) : coefIn (insertTerm ts d c) x = coefIn ts x + if d = x then c.den else 0 := by
  induction ts with
  | nil => simp [insertTerm, coefIn]
  | cons t ts ih =>
    rw [insertTerm.eq_def]; dsimp only
    split
    · next h => rw [coefIn_cons, coefIn_cons, LPoly.den_add, h]; dsimp only; split <;> ring
    · rw [coefIn_cons, coefIn_cons, ih]; ring

theorem insertTerm_keys (ts) (d : TLDiag) (c : LPoly) :
    (insertTerm ts d c).map (·.1) = if d ∈ ts.map (·.1) then ts.map (·.1) else ts.map (·.1) ++ [d] := by
  induction ts with
  | nil => simp [insertTerm]
  | cons t ts ih =>
    rw [insertTerm.eq_def]; dsimp only
    split
    · next h => simp [h]
    · next h =>
      rw [List.map_cons, ih, List.map_cons]
      have : d ≠ t.1 := fun e => h e.symm
      simp only [List.mem_cons, this, false_or]
      split <;> simp

theorem insertTerm_forall (P : TLDiag × LPoly → Prop) (ts) (d : TLDiag) (c : LPoly) (h : ∀ t ∈ ts, P t) (hc : c.Trimmed) (hd : ∀ q : LPoly, q.Trimmed → P (d, q)) :
    ∀ t ∈ insertTerm ts d c, P t := by
  induction ts with
  | nil => simpa [insertTerm] using hd _ hc
  | cons t ts ih =>
    rw [insertTerm.eq_def]; dsimp only
    split
    · intro s hs
      rcases List.mem_cons.1 hs with rfl | hs
      · exact hd _ (trimmed_add _ _)
      · exact h s (List.mem_cons_of_mem _ hs)
    · intro s hs
      rcases List.mem_cons.1 hs with rfl | hs
      · exact h _ (List.mem_cons_self ..)
      · exact ih (fun t ht => h t (List.mem_cons_of_mem _ ht)) s hs

theorem nodup_of_keys {ks : List TLDiag} {d : TLDiag} (h : ks.Nodup) : (if d ∈ ks then ks else ks ++ [d]).Nodup := by
  split
  · exact h
  · next hd =>
    rw [List.nodup_append]
    refine ⟨h, by simp, ?_⟩
    intro x hx y hy
    rw [List.mem_singleton] at hy
    rintro rfl
    exact hd (hy ▸ hx)

/-- The dictionaries built by sums and products are good. -/
def Good (top bot : Nat) (ts : List (TLDiag × LPoly)) : Prop :=
  (ts.map (·.1)).Nodup ∧ ∀ t ∈ ts, t.1.top = top ∧ t.1.bot = bot ∧ t.1.Ok ∧ t.2.Trimmed

theorem WF.Good (h : m.WF) : TLMor.Good m.top m.bot m.terms :=
  ⟨h.nodup, fun t ht => ⟨(h.type t ht).1, (h.type t ht).2, h.good t ht, (h.coeff t ht).1⟩⟩

theorem Good.addTerm {top bot : Nat} {ts} (h : TLMor.Good top bot ts) {d : TLDiag} (hd : d.top = top ∧ d.bot = bot ∧ d.Ok) (c : LPoly) :
    TLMor.Good top bot (TLMor.addTerm ts d c) :=
  ⟨by rw [addTerm_keys]; exact nodup_of_keys h.1, addTerm_forall _ ts d c h.2 fun _ hq => ⟨hd.1, hd.2.1, hd.2.2, hq⟩⟩

theorem Good.insertTerm {top bot : Nat} {ts} (h : TLMor.Good top bot ts) {d : TLDiag} (hd : d.top = top ∧ d.bot = bot ∧ d.Ok) {c : LPoly} (hc : c.Trimmed) :
    TLMor.Good top bot (TLMor.insertTerm ts d c) :=
  ⟨by rw [insertTerm_keys]; exact nodup_of_keys h.1, insertTerm_forall _ ts d c h.2 hc fun _ hq => ⟨hd.1, hd.2.1, hd.2.2, hq⟩⟩

theorem add_spec (ha : a.WF) (hb : b.WF) (h1 : a.top = b.top) (h2 : a.bot = b.bot) :
    ∃ c, add a b = .ok c ∧ c.WF ∧ c.top = a.top ∧ c.bot = a.bot ∧ ∀ d, c.coef d = a.coef d + b.coef d := by
  have key : ∀ (us ts : List (TLDiag × LPoly)), TLMor.Good a.top a.bot ts → (∀ t ∈ us, t ∈ b.terms) →
      TLMor.Good a.top a.bot (us.foldl (fun acc t => insertTerm acc t.1 t.2) ts) ∧
      ∀ d, coefIn (us.foldl (fun acc t => insertTerm acc t.1 t.2) ts) d = coefIn ts d + coefIn us d := by
    intro us
    induction us with
    | nil => intro ts ht _; exact ⟨ht, fun d => by simp [coefIn_nil]⟩
    | cons u us ih =>
      intro ts ht hus
      have hu := hus u (List.mem_cons_self ..)
      obtain ⟨k1, k2⟩ := ih (insertTerm ts u.1 u.2) (ht.insertTerm ⟨by rw [h1]; exact (hb.type u hu).1, by rw [h2]; exact (hb.type u hu).2,
        hb.good u hu⟩ (hb.coeff u hu).1) fun t h => hus t (List.mem_cons_of_mem _ h)
      refine ⟨k1, fun d => ?_⟩
      rw [List.foldl_cons, k2, insertTerm_coef, coefIn_cons]; ring
  obtain ⟨k1, k2⟩ := key b.terms a.terms ha.Good fun _ h => h
  obtain ⟨c, c1, c2, c3, c4, c5⟩ := make_spec k1.1 k1.2
  exact ⟨c, by rw [add, if_neg (by simp [h1, h2]), c1], c2, c3, c4, fun d => by rw [c5, k2]; rfl⟩

theorem coefIn_map (f : LPoly → LPoly) (g : ℤ[T;T⁻¹] → ℤ[T;T⁻¹]) (hg : g 0 = 0) (hadd : ∀ x y, g (x + y) = g x + g y)
    (hf : ∀ q, (f q).den = g q.den) (ts : List (TLDiag × LPoly)) (d) :
    coefIn (ts.map fun t => (t.1, f t.2)) d = g (coefIn ts d) := by
  induction ts with
  | nil => simp [coefIn_nil, hg]
  | cons t ts ih =>
    rw [List.map_cons, coefIn_cons, coefIn_cons, ih, hadd, hf]
    dsimp only
    split
    · rfl
    · rw [hg]

theorem Good.map {top bot : Nat} {ts} (h : TLMor.Good top bot ts) (f : LPoly → LPoly) (hf : ∀ q, (f q).Trimmed) :
    TLMor.Good top bot (ts.map fun t => (t.1, f t.2)) := by
  refine ⟨by rw [List.map_map]; exact h.1, fun t ht => ?_⟩
  obtain ⟨s, hs, rfl⟩ := List.mem_map.1 ht
  have := h.2 s hs
  exact ⟨this.1, this.2.1, this.2.2.1, hf _⟩

theorem smul_spec (hm : m.WF) (c : LPoly) : ∃ x, smul m c = .ok x ∧ x.WF ∧ x.top = m.top ∧ x.bot = m.bot ∧ ∀ d, x.coef d = m.coef d * c.den := by
  have h := hm.Good.map (fun q => LPoly.mul q c) fun q => trimmed_mul _ _
  obtain ⟨x, x1, x2, x3, x4, x5⟩ := make_spec h.1 h.2
  exact ⟨x, x1, x2, x3, x4, fun d => by
    rw [x5, coefIn_map (fun q => LPoly.mul q c) (fun y => y * c.den) (zero_mul _) (fun _ _ => add_mul _ _ _) fun q => LPoly.den_mul _ _]; rfl⟩

theorem neg_spec (hm : m.WF) : ∃ x, neg m = .ok x ∧ x.WF ∧ x.top = m.top ∧ x.bot = m.bot ∧ ∀ d, x.coef d = - m.coef d := by
  have h := hm.Good.map (fun q => LPoly.neg q) fun q => trimmed_neg _
  obtain ⟨x, x1, x2, x3, x4, x5⟩ := make_spec h.1 h.2
  exact ⟨x, x1, x2, x3, x4, fun d => by
    rw [x5, coefIn_map (fun q => LPoly.neg q) (fun y => - y) neg_zero (fun _ _ => by ring) fun q => LPoly.den_neg _]; rfl⟩

theorem sub_spec (ha : a.WF) (hb : b.WF) (h1 : a.top = b.top) (h2 : a.bot = b.bot) :
    ∃ c, sub a b = .ok c ∧ c.WF ∧ c.top = a.top ∧ c.bot = a.bot ∧ ∀ d, c.coef d = a.coef d - b.coef d := by
  obtain ⟨x, x1, x2, x3, x4, x5⟩ := neg_spec hb
  obtain ⟨c, c1, c2, c3, c4, c5⟩ := add_spec ha x2 (by rw [h1, x3]) (by rw [h2, x4])
  exact ⟨c, by rw [sub, x1, bind_ok, c1], c2, c3, c4, fun d => by rw [c5, x5]; ring⟩

theorem id_spec (n : Nat) : ∃ m, TLMor.id n = .ok m ∧ m.WF ∧ m.top = n ∧ m.bot = n ∧ ∀ x, m.coef x = if (⟨n, n, TL.idSeq n⟩ : TLDiag) = x then 1 else 0 := by
  obtain ⟨m, h1, h2, h3, h4, h5⟩ := fromDiag_spec (d := ⟨n, n, TL.idSeq n⟩) ⟨by simp; omega, TL.idSeq_nc n⟩
  exact ⟨m, by rw [TLMor.id, TLDiag.id_ok, bind_ok, h1], h2, h3, h4, h5⟩

theorem e_spec {i n : Nat} (h : i + 1 < n) : ∃ m, TLMor.e i n = .ok m ∧ m.WF ∧ m.top = n ∧ m.bot = n ∧
    ∀ x, m.coef x = if (⟨n, n, TL.eSeq i n⟩ : TLDiag) = x then 1 else 0 := by
  have ok : (⟨n, n, TL.eSeq i n⟩ : TLDiag).Ok := ⟨by rw [TL.eSeq_length]; dsimp only; omega, TL.eSeq_nc h⟩
  obtain ⟨m, h1, h2, h3, h4, h5⟩ := fromDiag_spec ok
  exact ⟨m, by rw [TLMor.e, pyAssert, if_pos (by simpa using h), bind_ok, TLDiag.make_ok ok.1 ok.2, bind_ok, h1], h2, h3, h4, h5⟩

theorem addScalar_spec (ha : a.WF) (h : a.bot = a.top) (c : LPoly) : ∃ x, addScalar a c = .ok x ∧ x.WF ∧ x.top = a.top ∧ x.bot = a.bot ∧
    ∀ d, x.coef d = a.coef d + if (⟨a.top, a.top, TL.idSeq a.top⟩ : TLDiag) = d then c.den else 0 := by
  obtain ⟨i, i1, i2, i3, i4, i5⟩ := id_spec a.bot
  obtain ⟨s, s1, s2, s3, s4, s5⟩ := smul_spec i2 c
  obtain ⟨x, x1, x2, x3, x4, x5⟩ := add_spec ha s2 (by omega) (by omega)
  refine ⟨x, by rw [addScalar, if_pos h, i1, bind_ok, s1, bind_ok, x1], x2, x3, x4, fun d => ?_⟩
  rw [x5, s5, i5, h]
  split <;> simp

/-! ### Products -/

theorem den_Q2 : LPoly.Q2.den = T 1 + T (-1) := by
  rw [LPoly.Q2, LPoly.den_make]
  have : listPoly [1, 0, 1] = 1 + Polynomial.X ^ 2 := by simp only [listPoly, map_one, map_zero]; ring
  rw [this, map_add, map_one, Polynomial.toLaurent_X_pow, mul_add, mul_one, ← T_add]
  norm_num
  ring

/-- The contribution of a pair of terms to the coefficient of `d` in the product. -/
noncomputable def contrib (d : TLDiag) (tu tl : TLDiag × LPoly) : ℤ[T;T⁻¹] :=
  if TLDiag.prodD tu.1 tl.1 = d then (T 1 + T (-1)) ^ TLDiag.prodL tu.1 tl.1 * tu.2.den * tl.2.den else 0

theorem mulTerm_spec (ha : a.WF) (hb : b.WF) (h : a.bot = b.top) {acc} (hacc : TLMor.Good a.top b.bot acc) {tu tl : TLDiag × LPoly}
    (hu : tu ∈ a.terms) (hl : tl ∈ b.terms) : ∃ acc', mulTerm a b acc tu tl = .ok acc' ∧ TLMor.Good a.top b.bot acc' ∧
      ∀ d, coefIn acc' d = coefIn acc d + contrib d tu tl := by
  have tua := ha.type tu hu; have tlb := hb.type tl hl
  obtain ⟨h1, h2, h3, h4, h5⟩ := TLDiag.mul_ok (ha.good tu hu) (hb.good tl hl) (by rw [tua.2, tlb.1, h])
  have e : (⟨a.top, b.bot, (TLDiag.prodD tu.1 tl.1).seq⟩ : TLDiag) = TLDiag.prodD tu.1 tl.1 :=
    TLDiag.ext' (by rw [h3, tua.1]) (by rw [h4, tlb.2]) rfl
  have ok := h5.1
  refine ⟨addTerm acc (TLDiag.prodD tu.1 tl.1) (LPoly.mul (LPoly.mul (LPoly.powNat LPoly.Q2 (TLDiag.prodL tu.1 tl.1)) tu.2) tl.2), ?_,
    hacc.addTerm (d := TLDiag.prodD tu.1 tl.1) ⟨by rw [h3, tua.1], by rw [h4, tlb.2], h5⟩ _, fun d => (addTerm_coef ..).trans ?_⟩
  · rw [tua.2] at h2
    rw [mulTerm, h2, bind_ok, TLDiag.make_ok (by rw [← h5.1, h3, h4, tua.1, tlb.2]) h5.2, bind_ok, e]
  · rw [LPoly.den_mul, LPoly.den_mul, LPoly.den_powNat, den_Q2]; rfl

theorem mul_inner (ha : a.WF) (hb : b.WF) (h : a.bot = b.top) {tu : TLDiag × LPoly} (hu : tu ∈ a.terms) (us : List (TLDiag × LPoly)) :
    ∀ acc, TLMor.Good a.top b.bot acc → (∀ t ∈ us, t ∈ b.terms) →
      ∃ acc', us.foldlM (fun acc tl => mulTerm a b acc tu tl) acc = .ok acc' ∧ TLMor.Good a.top b.bot acc' ∧
        ∀ d, coefIn acc' d = coefIn acc d + (us.map (contrib d tu)).sum := by
  induction us with
  | nil => intro acc hacc _; exact ⟨acc, rfl, hacc, fun d => by simp⟩
  | cons t us ih =>
    intro acc hacc hus
    obtain ⟨a1, h1, h2, h3⟩ := mulTerm_spec ha hb h hacc hu (hus t (List.mem_cons_self ..))
    obtain ⟨a2, h4, h5, h6⟩ := ih a1 h2 fun t ht => hus t (List.mem_cons_of_mem _ ht)
    refine ⟨a2, by rw [List.foldlM_cons, h1, bind_ok, h4], h5, fun d => ?_⟩
    rw [h6, h3, List.map_cons, List.sum_cons]; ring

/-- The product is the bilinear extension of the composition of diagrams. -/
theorem mul_spec (ha : a.WF) (hb : b.WF) (h : a.bot = b.top) : ∃ c, mul a b = .ok c ∧ c.WF ∧ c.top = a.top ∧ c.bot = b.bot ∧
    ∀ d, c.coef d = (a.terms.map fun tu => (b.terms.map (contrib d tu)).sum).sum := by
  have key : ∀ (us : List (TLDiag × LPoly)) acc, TLMor.Good a.top b.bot acc → (∀ t ∈ us, t ∈ a.terms) →
      ∃ acc', us.foldlM (fun acc tu => b.terms.foldlM (fun acc tl => mulTerm a b acc tu tl) acc) acc = .ok acc' ∧ TLMor.Good a.top b.bot acc' ∧
        ∀ d, coefIn acc' d = coefIn acc d + (us.map fun tu => (b.terms.map (contrib d tu)).sum).sum := by
    intro us
    induction us with
    | nil => intro acc hacc _; exact ⟨acc, rfl, hacc, fun d => by simp⟩
    | cons t us ih =>
      intro acc hacc hus
      obtain ⟨a1, h1, h2, h3⟩ := mul_inner ha hb h (hus t (List.mem_cons_self ..)) b.terms acc hacc fun _ h => h
      obtain ⟨a2, h4, h5, h6⟩ := ih a1 h2 fun t ht => hus t (List.mem_cons_of_mem _ ht)
      refine ⟨a2, by rw [List.foldlM_cons, h1, bind_ok, h4], h5, fun d => ?_⟩
      rw [h6, h3, List.map_cons, List.sum_cons]; ring
  obtain ⟨acc, k1, k2, k3⟩ := key a.terms [] ⟨by simp, by simp⟩ fun _ h => h
  obtain ⟨c, c1, c2, c3, c4, c5⟩ := make_spec k2.1 k2.2
  refine ⟨c, ?_, c2, c3, c4, fun d => ?_⟩
  · rw [mul, if_neg (by simpa using h), k1, bind_ok, c1]
  · rw [c5, k3, coefIn_nil, zero_add]

/-- Sums over the terms of a morphism, in terms of its coefficients. -/
theorem WF.sum_single (hm : m.WF) {d : TLDiag} (h : ∀ x, m.coef x = if d = x then 1 else 0) : ∃ q : LPoly, q.den = 1 ∧ m.terms = [(d, q)] := by
  have h1 : ∀ t ∈ m.terms, t.1 = d ∧ t.2.den = 1 := by
    intro t ht
    have e := (hm.mem_iff t.1 t.2).1 ht
    have := h t.1
    rw [e.2.2] at this
    split at this
    · next hd => exact ⟨hd.symm, this⟩
    · exact absurd this e.2.1
  have h2 : d ∈ m.terms.map (·.1) := by
    by_contra hd
    have := h d
    rw [coef, coefIn_not_mem hd, if_pos rfl] at this
    exact zero_ne_one this
  obtain ⟨t, ht, e⟩ := List.mem_map.1 h2
  have hnd := hm.nodup
  refine ⟨t.2, (h1 t ht).2, ?_⟩
  match hts : m.terms with
  | [] => rw [hts] at ht; cases ht
  | [x] => rw [hts, List.mem_singleton] at ht; rw [← ht, ← e]
  | x :: y :: zs =>
    rw [hts] at hnd h1
    have e1 := (h1 x (by simp)).1
    have e2 := (h1 y (by simp)).1
    simp [e1, e2] at hnd

end TLMor
end Peyl
