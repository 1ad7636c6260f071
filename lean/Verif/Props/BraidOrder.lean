import Verif.Model.BraidOrder
import Verif.Lemmas.Bucketing
import Verif.Lemmas.BucketStats
import Verif.Props.Braid
import Verif.Lemmas.PosWords
import Verif.Props.DGNF
import Mathlib.Data.List.Sort
/-!
# C142: braids can be compared, sorted and used as keys
-/
namespace Peyl
open AnyBraid LaurentPolynomial

/-- The specification of the order on normal forms: first the number of strands, then the power of the Garside element, then the
factors in dictionary order (the order `<` on lists). -/
def NF.Before (x y : NF) : Prop :=
  x.n < y.n ∨ x.n = y.n ∧ (x.power < y.power ∨ x.power = y.power ∧ x.factors < y.factors)

theorem cmpInts_lt (l l' : List Nat) : cmpInts l l' = .lt ↔ l < l' := by
  induction l generalizing l' with
  | nil => cases l' <;> simp [cmpInts]
  | cons a l ih =>
    cases l' with
    | nil => simp [cmpInts]
    | cons b l' =>
      rw [cmpInts, List.cons_lt_cons_iff]
      rcases lt_trichotomy a b with h | rfl | h
      · simp [h.ne, h]
      · simp [ih]
      · simp [h.ne', h.not_gt]

theorem cmpInts_eq (l l' : List Nat) : cmpInts l l' = .eq ↔ l = l' := by
  induction l generalizing l' with
  | nil => cases l' <;> simp [cmpInts]
  | cons a l ih =>
    cases l' with
    | nil => simp [cmpInts]
    | cons b l' =>
      rw [cmpInts]
      rcases lt_trichotomy a b with h | rfl | h
      · simp [h.ne, h]
      · simp [ih]
      · simp [h.ne', h.not_gt]

theorem cmpInts_swap (l l' : List Nat) : (cmpInts l l').swap = cmpInts l' l := by
  induction l generalizing l' with
  | nil => cases l' <;> rfl
  | cons a l ih =>
    cases l' with
    | nil => rfl
    | cons b l' =>
      rw [cmpInts, cmpInts]
      rcases lt_trichotomy a b with h | rfl | h
      · simp [h.ne, h.ne', h, h.not_gt]
      · simp [ih]
      · simp [h.ne, h.ne', h, h.not_gt]

theorem cmpFields_lt (x y : NF) : cmpFields x y = .lt ↔ x.Before y := by
  rw [cmpFields, NF.Before]
  by_cases h : x.n = y.n
  · rw [if_pos h]
    by_cases h' : x.power = y.power
    · rw [if_pos h', cmpInts_lt]; simp [h, h']
    · rw [if_neg h']
      by_cases h'' : x.power < y.power <;> simp [h, h', h'']
  · rw [if_neg h]
    by_cases h' : x.n < y.n <;> simp [h, h']

theorem cmpFields_eq (x y : NF) : cmpFields x y = .eq ↔ x = y := by
  obtain ⟨n, p, f⟩ := x
  obtain ⟨n', p', f'⟩ := y
  rw [cmpFields]
  simp only [NF.mk.injEq]
  by_cases h : n = n'
  · rw [if_pos h]
    by_cases h' : p = p'
    · rw [if_pos h', cmpInts_eq]; simp [h, h']
    · rw [if_neg h']
      by_cases h'' : p < p' <;> simp [h', h'']
  · rw [if_neg h]
    by_cases h' : n < n' <;> simp [h, h']

theorem cmpFields_swap (x y : NF) : (cmpFields x y).swap = cmpFields y x := by
  rw [cmpFields, cmpFields]
  rcases lt_trichotomy x.n y.n with h | h | h
  · simp [h.ne, h.ne', h, h.not_gt]
  · rw [if_pos h, if_pos h.symm]
    rcases lt_trichotomy x.power y.power with h' | h' | h'
    · simp [h'.ne, h'.ne', h', h'.not_gt]
    · rw [if_pos h', if_pos h'.symm, cmpInts_swap]
    · simp [h'.ne, h'.ne', h', h'.not_gt]
  · simp [h.ne, h.ne', h, h.not_gt]

theorem cmpFields_gt (x y : NF) : cmpFields x y = .gt ↔ y.Before x := by
  rw [← cmpFields_lt, ← cmpFields_swap x y]
  cases cmpFields x y <;> simp [Ordering.swap]

theorem before_irrefl (x : NF) : ¬x.Before x := by
  rw [← cmpFields_lt, (cmpFields_eq x x).2 rfl]; simp

theorem before_trans {x y z : NF} (h1 : x.Before y) (h2 : y.Before z) : x.Before z := by
  rcases h1 with h1 | ⟨e1, h1⟩ <;> rcases h2 with h2 | ⟨e2, h2⟩
  · exact .inl (h1.trans h2)
  · exact .inl (e2 ▸ h1)
  · exact .inl (e1 ▸ h2)
  · refine .inr ⟨e1.trans e2, ?_⟩
    rcases h1 with h1 | ⟨f1, h1⟩ <;> rcases h2 with h2 | ⟨f2, h2⟩
    · exact .inl (h1.trans h2)
    · exact .inl (f2 ▸ h1)
    · exact .inl (f1 ▸ h2)
    · exact .inr ⟨f1.trans f2, List.lt_trans h1 h2⟩

theorem before_total (x y : NF) : x.Before y ∨ x = y ∨ y.Before x := by
  rw [← cmpFields_lt, ← cmpFields_eq, ← cmpFields_gt]
  cases cmpFields x y <;> simp

/-- C142: the operators `<`, `<=`, `>`, `>=` and `==` between two normal forms of the same class compare the numbers of strands, then
the powers, then the factors in dictionary order, and `==` is equality of all three. -/
theorem C142_operators (x y : NF) (c : NF → AnyBraid) (hc : c = .gnf ∨ c = .dgnf) :
    (∃ b, AnyBraid.lt (c x) (c y) = .ok b ∧ (b = true ↔ x.Before y)) ∧ (∃ b, AnyBraid.le (c x) (c y) = .ok b ∧ (b = true ↔ x.Before y ∨ x = y)) ∧
    (∃ b, AnyBraid.gt (c x) (c y) = .ok b ∧ (b = true ↔ y.Before x)) ∧ (∃ b, AnyBraid.ge (c x) (c y) = .ok b ∧ (b = true ↔ y.Before x ∨ x = y)) ∧
    (AnyBraid.eq (c x) (c y) = true ↔ x = y) := by
  have h : cmp (c x) (c y) = .ok (cmpFields x y) := by rcases hc with rfl | rfl <;> rfl
  have he : AnyBraid.eq (c x) (c y) = (x.n = y.n && x.power = y.power && x.factors = y.factors) := by rcases hc with rfl | rfl <;> rfl
  have hgt := cmpFields_gt x y
  refine ⟨⟨_, by rw [AnyBraid.lt, h]; rfl, ?_⟩, ⟨_, by rw [AnyBraid.le, h]; rfl, ?_⟩, ⟨_, by rw [AnyBraid.gt, h]; rfl, ?_⟩,
    ⟨_, by rw [AnyBraid.ge, h]; rfl, ?_⟩, ?_⟩
  · rw [← cmpFields_lt]; simp
  · rw [← cmpFields_lt, ← cmpFields_eq]; cases cmpFields x y <;> simp
  · rw [← hgt]; simp
  · rw [← hgt, ← cmpFields_eq]; cases cmpFields x y <;> simp
  · rw [he]
    obtain ⟨n, p, f⟩ := x
    obtain ⟨n', p', f'⟩ := y
    simp [and_assoc]

example := C142_operators ⟨3, -2, [3, 4, 2]⟩ ⟨3, 1, [4, 2, 2]⟩ .gnf (.inl rfl)

/-- C142: comparing a `GNF` with a `DGNF` raises TypeError, and the two are never equal, not even if they are the same braid. -/
theorem C142_classes (x y : NF) :
    AnyBraid.lt (.gnf x) (.dgnf y) = .error .type ∧ AnyBraid.lt (.dgnf x) (.gnf y) = .error .type ∧
    AnyBraid.le (.gnf x) (.dgnf y) = .error .type ∧ AnyBraid.le (.dgnf x) (.gnf y) = .error .type ∧
    AnyBraid.gt (.gnf x) (.dgnf y) = .error .type ∧ AnyBraid.gt (.dgnf x) (.gnf y) = .error .type ∧
    AnyBraid.ge (.gnf x) (.dgnf y) = .error .type ∧ AnyBraid.ge (.dgnf x) (.gnf y) = .error .type ∧
    AnyBraid.eq (.gnf x) (.dgnf y) = false ∧ AnyBraid.eq (.dgnf x) (.gnf y) = false :=
  ⟨rfl, rfl, rfl, rfl, rfl, rfl, rfl, rfl, rfl, rfl⟩

variable {lim limD n : Nat} {ω : List Nat → List Nat → Nat → Nat} {ωD : NPar → NPar → Nat → Nat}

theorem make_n {T : Type} {tbl : Nat → Except Err (NFTable T)} {m : Nat} {p : ℤ} {fs : List Nat} {x : NF} (h : NF.make tbl m p fs = .ok x) : x.n = m := by
  rw [NF.make] at h
  obtain ⟨_, -, h⟩ := bind_eq_ok.1 h
  obtain ⟨_, -, h⟩ := bind_eq_ok.1 h
  obtain ⟨_, -, h⟩ := bind_eq_ok.1 h
  rw [← Except.ok.inj h]

theorem lt_class {c : NF → AnyBraid} (hc : c = .gnf ∨ c = .dgnf) (x y : NF) :
    (AnyBraid.lt (c x) (c y) = .ok true ↔ x.Before y) ∧ (AnyBraid.lt (c x) (c y) = .ok false ↔ ¬x.Before y) := by
  obtain ⟨⟨b, hb, hb'⟩, -⟩ := C142_operators x y c hc
  rw [hb, ← hb']
  cases b <;> simp

theorem order_class {c : NF → AnyBraid} (hc : c = .gnf ∨ c = .dgnf) {G : Type} (f : NF → G) (x y z : NF) (hf : x = y ↔ f x = f y) (hn : x.n = y.n) :
    ((AnyBraid.lt (c x) (c y) = .ok true ∧ f x ≠ f y ∧ AnyBraid.lt (c y) (c x) = .ok false) ∨
     (AnyBraid.lt (c x) (c y) = .ok false ∧ f x = f y ∧ AnyBraid.lt (c y) (c x) = .ok false) ∨
     (AnyBraid.lt (c x) (c y) = .ok false ∧ f x ≠ f y ∧ AnyBraid.lt (c y) (c x) = .ok true)) ∧
    (AnyBraid.lt (c x) (c y) = .ok true → AnyBraid.lt (c y) (c z) = .ok true → AnyBraid.lt (c x) (c z) = .ok true) ∧
    (NF.inf x < NF.inf y → AnyBraid.lt (c x) (c y) = .ok true) := by
  simp only [(lt_class hc _ _).1, (lt_class hc _ _).2, ne_eq, ← hf]
  refine ⟨?_, fun h1 h2 => before_trans h1 h2, fun h => .inr ⟨hn, .inl h⟩⟩
  rcases before_total x y with h | rfl | h
  · exact .inl ⟨h, fun e => before_irrefl _ (e ▸ h), fun h' => before_irrefl _ (before_trans h h')⟩
  · exact .inr (.inl ⟨before_irrefl _, rfl, before_irrefl _⟩)
  · exact .inr (.inr ⟨fun h' => before_irrefl _ (before_trans h h'), fun e => before_irrefl _ (e ▸ h), h⟩)

/-- C142: for braids on `n` strands in Garside normal form, exactly one of `x < y`, `x` and `y` are the same element of the braid group,
and `y < x` holds; `<` is transitive; and a smaller Garside infimum comes first. -/
theorem C142_gnf_order (hn : 2 ≤ n) (hl : n < lim) (x y z : NF) (hx : IsGNF lim ω n x) (hy : IsGNF lim ω n y) :
    ((AnyBraid.lt (.gnf x) (.gnf y) = .ok true ∧ gnfBraid n x ≠ gnfBraid n y ∧ AnyBraid.lt (.gnf y) (.gnf x) = .ok false) ∨
     (AnyBraid.lt (.gnf x) (.gnf y) = .ok false ∧ gnfBraid n x = gnfBraid n y ∧ AnyBraid.lt (.gnf y) (.gnf x) = .ok false) ∨
     (AnyBraid.lt (.gnf x) (.gnf y) = .ok false ∧ gnfBraid n x ≠ gnfBraid n y ∧ AnyBraid.lt (.gnf y) (.gnf x) = .ok true)) ∧
    (AnyBraid.lt (.gnf x) (.gnf y) = .ok true → AnyBraid.lt (.gnf y) (.gnf z) = .ok true → AnyBraid.lt (.gnf x) (.gnf z) = .ok true) ∧
    (NF.inf x < NF.inf y → AnyBraid.lt (.gnf x) (.gnf y) = .ok true) := by
  exact order_class (.inl rfl) (gnfBraid n) x y z (C15_unique hn hl x y hx hy) ((make_n hx.2).trans (make_n hy.2).symm)

example := C142_gnf_order (by decide) (by decide) _ _ ⟨3, 5, []⟩ gnfA gnfB

/-- C142: the same for dual normal forms, with the infimum for δ. -/
theorem C142_dgnf_order (hn : 2 ≤ n) (hl : NPar.catalanNum n < limD) (x y z : NF) (hx : IsDGNF limD ωD n x) (hy : IsDGNF limD ωD n y) :
    ((AnyBraid.lt (.dgnf x) (.dgnf y) = .ok true ∧ dgnfBraid n x ≠ dgnfBraid n y ∧ AnyBraid.lt (.dgnf y) (.dgnf x) = .ok false) ∨
     (AnyBraid.lt (.dgnf x) (.dgnf y) = .ok false ∧ dgnfBraid n x = dgnfBraid n y ∧ AnyBraid.lt (.dgnf y) (.dgnf x) = .ok false) ∨
     (AnyBraid.lt (.dgnf x) (.dgnf y) = .ok false ∧ dgnfBraid n x ≠ dgnfBraid n y ∧ AnyBraid.lt (.dgnf y) (.dgnf x) = .ok true)) ∧
    (AnyBraid.lt (.dgnf x) (.dgnf y) = .ok true → AnyBraid.lt (.dgnf y) (.dgnf z) = .ok true → AnyBraid.lt (.dgnf x) (.dgnf z) = .ok true) ∧
    (NF.inf x < NF.inf y → AnyBraid.lt (.dgnf x) (.dgnf y) = .ok true) :=
  order_class (.inr rfl) (dgnfBraid n) x y z (C29_unique hn hl x y hx hy) ((make_n hx.2).trans (make_n hy.2).symm)

example := C142_dgnf_order (by decide) (by decide) _ _ ⟨3, 5, []⟩ dgnfA dgnfB

/-! ### Sorting -/

theorem insertSorted_class {c : NF → AnyBraid} (hc : c = .gnf ∨ c = .dgnf) (x : NF) (l : List NF) (hl : l.Pairwise fun a b => ¬b.Before a) :
    ∃ l' : List NF, insertSorted (c x) (l.map c) = .ok (l'.map c) ∧ l'.Perm (x :: l) ∧ l'.Pairwise fun a b => ¬b.Before a := by
  induction l with
  | nil => exact ⟨[x], rfl, .refl _, List.pairwise_singleton _ _⟩
  | cons y l ih =>
    rw [List.pairwise_cons] at hl
    obtain ⟨l', h1, h2, h3⟩ := ih hl.2
    rw [List.map_cons, insertSorted]
    by_cases h : x.Before y
    · rw [(lt_class hc x y).1.2 h, bind_ok, if_pos rfl]
      refine ⟨x :: y :: l, rfl, .refl _, ?_⟩
      rw [List.pairwise_cons, List.pairwise_cons]
      refine ⟨fun z hz hzx => ?_, hl⟩
      rcases List.mem_cons.1 hz with rfl | hz
      · exact before_irrefl _ (before_trans h hzx)
      · exact hl.1 z hz (before_trans hzx h)
    · rw [(lt_class hc x y).2.2 h, bind_ok, if_neg (by simp), h1, bind_ok]
      refine ⟨y :: l', rfl, (h2.cons y).trans (.swap ..), ?_⟩
      rw [List.pairwise_cons]
      refine ⟨fun z hz => ?_, h3⟩
      rcases List.mem_cons.1 (h2.mem_iff.1 hz) with rfl | hz
      · exact h
      · exact hl.1 z hz

theorem sorted_class {c : NF → AnyBraid} (hc : c = .gnf ∨ c = .dgnf) (l : List NF) :
    ∃ l' : List NF, AnyBraid.sorted (l.map c) = .ok (l'.map c) ∧ l'.Perm l ∧ l'.Pairwise fun a b => ¬b.Before a := by
  suffices ∀ acc : List NF, (acc.Pairwise fun a b => ¬b.Before a) → ∃ l' : List NF, (l.map c).foldlM (fun acc x => insertSorted x acc) (acc.map c) = .ok (l'.map c) ∧
      l'.Perm (acc ++ l) ∧ l'.Pairwise fun a b => ¬b.Before a by
    obtain ⟨l', h1, h2, h3⟩ := this [] .nil
    exact ⟨l', h1, h2, h3⟩
  induction l with
  | nil => exact fun acc h => ⟨acc, rfl, by simp, h⟩
  | cons x l ih =>
    intro acc h
    obtain ⟨a1, h1, h2, h3⟩ := insertSorted_class hc x acc h
    obtain ⟨l', i1, i2, i3⟩ := ih a1 h3
    refine ⟨l', ?_, i2.trans ?_, i3⟩
    · rw [List.map_cons, List.foldlM_cons, h1]; exact i1
    · exact (h2.append_right l).trans List.perm_middle.symm

theorem asc_unique {l l' : List NF} (h : l.Perm l') (hl : l.Pairwise fun a b => ¬b.Before a) (hl' : l'.Pairwise fun a b => ¬b.Before a) : l = l' := by
  refine h.eq_of_pairwise (fun a b _ _ h1 h2 => ?_) hl hl'
  rcases before_total a b with h | h | h
  · exact absurd h h2
  · exact h
  · exact absurd h h1

theorem perm_of_map {G : Type} {P : NF → Prop} (f : NF → G) (hf : ∀ x y, P x → P y → f x = f y → x = y) {l l' : List NF} (hl : ∀ x ∈ l, P x)
    (hl' : ∀ x ∈ l', P x) (h : (l.map f).Perm (l'.map f)) : l.Perm l' := by
  have e : ∀ m : List NF, (hm : ∀ x ∈ m, P x) → (m.attachWith P hm).map (fun s => f s.1) = m.map f := by
    intro m hm
    rw [List.map_attachWith]
    simp
  rw [← e l hl, ← e l' hl'] at h
  have := (List.map_perm_map_iff (f := fun s : {x // P x} => f s.1) (fun a b h => Subtype.ext (hf _ _ a.2 b.2 h))).1 h
  have := this.map Subtype.val
  simpa using this

theorem sorted_braids {c : NF → AnyBraid} (hc : c = .gnf ∨ c = .dgnf) {G : Type} {P : NF → Prop} (f : NF → G)
    (hf : ∀ x y, P x → P y → f x = f y → x = y) (l : List NF) (hl : ∀ x ∈ l, P x) :
    ∃ l' : List NF, AnyBraid.sorted (l.map c) = .ok (l'.map c) ∧ l'.Perm l ∧ (l'.Pairwise fun x y => AnyBraid.lt (c y) (c x) = .ok false) ∧
      ∀ l2 : List NF, (∀ x ∈ l2, P x) → (l2.map f).Perm (l.map f) → AnyBraid.sorted (l2.map c) = .ok (l'.map c) := by
  obtain ⟨l', h1, h2, h3⟩ := sorted_class hc l
  refine ⟨l', h1, h2, h3.imp fun h => (lt_class hc _ _).2.2 h, fun l2 hl2 hp => ?_⟩
  obtain ⟨l'', i1, i2, i3⟩ := sorted_class hc l2
  rw [i1, asc_unique ((i2.trans (perm_of_map f hf hl2 hl hp)).trans h2.symm) i3 h3]

/-- C142: `sorted` on a list of braids in Garside normal form on `n` strands gives a rearrangement in which no braid is smaller than an
earlier one, and the result depends only on which elements of the braid group are in the list and how often, not on the order in which
they are given (`sorted(set(...))`, for instance, is the same list in every run). -/
theorem C142_gnf_sorted (hn : 2 ≤ n) (hl : n < lim) (l : List NF) (hx : ∀ x ∈ l, IsGNF lim ω n x) :
    ∃ l' : List NF, AnyBraid.sorted (l.map .gnf) = .ok (l'.map .gnf) ∧ l'.Perm l ∧ (l'.Pairwise fun x y => AnyBraid.lt (.gnf y) (.gnf x) = .ok false) ∧
      ∀ l2 : List NF, (∀ x ∈ l2, IsGNF lim ω n x) → (l2.map (gnfBraid n)).Perm (l.map (gnfBraid n)) → AnyBraid.sorted (l2.map .gnf) = .ok (l'.map .gnf) :=
  sorted_braids (.inl rfl) (gnfBraid n) (fun x y h1 h2 h => (C15_unique hn hl x y h1 h2).2 h) l hx

example := C142_gnf_sorted (n := 3) (lim := 7) (ω := pop0) (by decide) (by decide) [⟨3, 1, [4, 2, 2]⟩, ⟨3, -2, [3, 4, 2]⟩] (by
  intro x hx
  rcases List.mem_cons.1 hx with rfl | hx
  · exact gnfB
  · rw [List.mem_singleton.1 hx]; exact gnfA)

/-- C142: the same for dual normal forms. -/
theorem C142_dgnf_sorted (hn : 2 ≤ n) (hl : NPar.catalanNum n < limD) (l : List NF) (hx : ∀ x ∈ l, IsDGNF limD ωD n x) :
    ∃ l' : List NF, AnyBraid.sorted (l.map .dgnf) = .ok (l'.map .dgnf) ∧ l'.Perm l ∧ (l'.Pairwise fun x y => AnyBraid.lt (.dgnf y) (.dgnf x) = .ok false) ∧
      ∀ l2 : List NF, (∀ x ∈ l2, IsDGNF limD ωD n x) → (l2.map (dgnfBraid n)).Perm (l.map (dgnfBraid n)) →
        AnyBraid.sorted (l2.map .dgnf) = .ok (l'.map .dgnf) :=
  sorted_braids (.inr rfl) (dgnfBraid n) (fun x y h1 h2 h => (C29_unique hn hl x y h1 h2).2 h) l hx

example := C142_dgnf_sorted (n := 3) (limD := 5000) (ωD := dpop0) (by decide) (by decide) [⟨3, 0, [2]⟩, ⟨3, -2, [1, 1, 1]⟩] (by
  intro x hx
  rcases List.mem_cons.1 hx with rfl | hx
  · exact dgnfB
  · rw [List.mem_singleton.1 hx]; exact dgnfA)

/-! ### Keys -/

theorem eq_iff (a b : AnyBraid) : AnyBraid.eq a b = decide (a = b) := by
  rw [Bool.eq_iff_iff, decide_eq_true_iff]
  cases a <;> cases b
  · rw [(C142_operators _ _ .gnf (.inl rfl)).2.2.2.2]; simp
  · simp [AnyBraid.eq]
  · simp [AnyBraid.eq]
  · rw [(C142_operators _ _ .dgnf (.inr rfl)).2.2.2.2]; simp

variable {υ : Type}

theorem getKey_eq (d : List (AnyBraid × υ)) (k : AnyBraid) : getKey d k = Dict.get? d k := by
  simp only [getKey, Dict.get?, eq_iff]

theorem popKey_eq (d : List (AnyBraid × υ)) (k : AnyBraid) : popKey d k = Dict.del d k := by
  simp only [popKey, Dict.del, eq_iff]

theorem setKey_eq (d : List (AnyBraid × υ)) (k : AnyBraid) (v : υ) : setKey d k v = Dict.set d k v := by
  simp only [setKey, Dict.set, Dict.has, eq_iff, decide_eq_true_eq]
  congr 1
  apply List.map_congr_left
  intro kv _
  split
  · next h => rw [h]
  · rfl

/-- A legal key: a braid on `n` strands in one of the two normal forms. -/
def IsKey (lim : Nat) (ω : List Nat → List Nat → Nat → Nat) (limD : Nat) (ωD : NPar → NPar → Nat → Nat) (n : Nat) : AnyBraid → Prop
  | .gnf x => IsGNF lim ω n x
  | .dgnf x => IsDGNF limD ωD n x

/-- What a key stands for: its class (`true` for `DGNF`) and the element of the braid group. -/
noncomputable def keyBraid (n : Nat) : AnyBraid → Bool × Braid n
  | .gnf x => (false, gnfBraid n x)
  | .dgnf x => (true, dgnfBraid n x)

/-- The key of an operation. -/
def AnyBraid.DictOp.key : DictOp υ → AnyBraid
  | .set k _ => k
  | .pop k => k

/-- The value after an operation. -/
def AnyBraid.DictOp.result : DictOp υ → Option υ
  | .set _ v => some v
  | .pop _ => none

open Classical in
/-- The specification: a dictionary is a function which is changed at one element of the group at a time. -/
noncomputable def groupDict (n : Nat) (ops : List (DictOp υ)) : Bool × Braid n → Option υ :=
  ops.foldl (fun f op => Function.update f (keyBraid n op.key) op.result) fun _ => none

theorem keyBraid_inj (hn : 2 ≤ n) (hl : n < lim) (hD : NPar.catalanNum n < limD) {a b : AnyBraid} (ha : IsKey lim ω limD ωD n a)
    (hb : IsKey lim ω limD ωD n b) : keyBraid n a = keyBraid n b ↔ a = b := by
  cases a <;> cases b <;> simp only [keyBraid, Prod.mk.injEq, AnyBraid.gnf.injEq, AnyBraid.dgnf.injEq, true_and, reduceCtorEq, false_and, Bool.false_eq_true]
  · exact (C15_unique hn hl _ _ ha hb).symm
  · exact (C29_unique hn hD _ _ ha hb).symm

/-- C142: a dictionary whose keys are braids is a map on the braid group: after any history of assignments and removals, looking up a
braid finds the value that was last assigned to the same element of the group (in the same class), if it was not removed since,
whatever expressions the keys were computed by; and no element of the group has two entries. -/
theorem C142_keys (hn : 2 ≤ n) (hl : n < lim) (hD : NPar.catalanNum n < limD) (ops : List (DictOp υ)) (ho : ∀ op ∈ ops, IsKey lim ω limD ωD n op.key) :
    (∀ k, IsKey lim ω limD ωD n k → getKey (runDict ops) k = groupDict n ops (keyBraid n k)) ∧
    ((runDict ops).map fun kv => keyBraid n kv.1).Nodup := by
  have step : ∀ ops : List (DictOp υ), (∀ op ∈ ops, IsKey lim ω limD ωD n op.key) →
      (∀ k, IsKey lim ω limD ωD n k → getKey (runDict ops) k = groupDict n ops (keyBraid n k)) ∧
      ((runDict ops).map Prod.fst).Nodup ∧ ∀ kv ∈ runDict ops, IsKey lim ω limD ωD n kv.1 := by
    intro ops
    induction ops using List.reverseRecOn with
    | nil => intro _; exact ⟨fun _ _ => rfl, List.nodup_nil, by simp [runDict]⟩
    | append_singleton ops op ih =>
      intro ho
      obtain ⟨i1, i2, i3⟩ := ih fun o h => ho o (by simp [h])
      have hop := ho op (by simp)
      have e1 : runDict (ops ++ [op]) = applyOp (runDict ops) op := by
        rw [runDict, List.foldl_append]; rfl
      have e2 : ∀ k, IsKey lim ω limD ωD n k → groupDict n (ops ++ [op]) (keyBraid n k) =
          if op.key = k then op.result else groupDict n ops (keyBraid n k) := by
        intro k hk
        classical
        rw [groupDict, List.foldl_append]
        show Function.update (groupDict n ops) _ _ _ = _
        rw [Function.update_apply]
        simp only [keyBraid_inj hn hl hD hk hop, eq_comm (a := k)]
      cases op with
      | set k v =>
        refine ⟨fun k' hk' => ?_, ?_, ?_⟩
        · rw [e1, e2 k' hk', getKey_eq, applyOp, setKey_eq, Dict.get?_set, ← getKey_eq, i1 k' hk']
          rfl
        · rw [e1, applyOp, setKey_eq]; exact Dict.nodup_set _ _ i2
        · intro kv hkv
          rw [e1, applyOp, setKey_eq] at hkv
          rcases Bucketing.mem_set hkv with h | rfl
          · exact i3 kv h
          · exact hop
      | pop k =>
        refine ⟨fun k' hk' => ?_, ?_, ?_⟩
        · rw [e1, e2 k' hk', getKey_eq, applyOp, popKey_eq, Dict.get?_del, ← getKey_eq, i1 k' hk']
          rfl
        · rw [e1, applyOp, popKey_eq]
          exact i2.sublist ((List.filter_sublist).map _)
        · intro kv hkv
          rw [e1, applyOp, popKey_eq] at hkv
          exact i3 kv (List.mem_of_mem_filter hkv)
  obtain ⟨h1, h2, h3⟩ := step ops ho
  refine ⟨h1, ?_⟩
  rw [List.Nodup, List.pairwise_map] at h2 ⊢
  exact h2.imp_of_mem fun ha hb hne e => hne ((keyBraid_inj hn hl hD (h3 _ ha) (h3 _ hb)).1 e)

open Classical in
/-- C142: a set of braids contains every element of the group at most once: the length of `set(xs)` is the number of different
elements of the group in `xs` (counted in each class), and they are the same elements. -/
theorem C142_set (hn : 2 ≤ n) (hl : n < lim) (hD : NPar.catalanNum n < limD) (xs : List AnyBraid) (hx : ∀ x ∈ xs, IsKey lim ω limD ωD n x) :
    (pySet xs).length = (xs.map (keyBraid n)).toFinset.card ∧ ((pySet xs).map (keyBraid n)).toFinset = (xs.map (keyBraid n)).toFinset := by
  have hops : ∀ op ∈ xs.map fun x => DictOp.set x (), IsKey lim ω limD ωD n op.key := by
    intro op hop
    obtain ⟨x, h, rfl⟩ := List.mem_map.1 hop
    exact hx x h
  obtain ⟨h1, h2⟩ := C142_keys hn hl hD _ hops
  have hmem : ∀ a, a ∈ pySet xs ↔ a ∈ xs := by
    intro a
    suffices ∀ ys : List AnyBraid, ∀ d : List (AnyBraid × Unit), a ∈ ((ys.map fun x => DictOp.set x ()).foldl applyOp d).map Prod.fst ↔ a ∈ ys ∨ a ∈ d.map Prod.fst by
      have := this xs []
      rw [pySet, runDict]
      simpa only [List.map_nil, List.not_mem_nil, or_false] using this
    intro ys
    induction ys with
    | nil => simp
    | cons y ys ih =>
      intro d
      rw [List.map_cons, List.foldl_cons, ih]
      show _ ∨ a ∈ (setKey d y ()).map Prod.fst ↔ _
      rw [setKey_eq]
      have : a ∈ (Dict.set d y ()).map Prod.fst ↔ a = y ∨ a ∈ d.map Prod.fst := by
        rw [Dict.set]
        by_cases h : Dict.has d y = true
        · rw [if_pos h]
          have h' : y ∈ d.map Prod.fst := by
            simp only [Dict.has, List.any_eq_true, decide_eq_true_eq] at h
            obtain ⟨kv, h, rfl⟩ := h
            exact List.mem_map.2 ⟨kv, h, rfl⟩
          have e : (d.map fun kv => if kv.1 = y then (y, ()) else kv).map Prod.fst = d.map Prod.fst := by
            rw [List.map_map]
            apply List.map_congr_left
            intro kv _
            by_cases hk : kv.1 = y <;> simp [hk]
          rw [e]
          constructor
          · exact .inr
          · rintro (rfl | h)
            · exact h'
            · exact h
        · rw [if_neg h]; simp [or_comm]
      rw [this, List.mem_cons]; tauto
  have hset : ((pySet xs).map (keyBraid n)).toFinset = (xs.map (keyBraid n)).toFinset := by
    ext b; simp [hmem]
  refine ⟨?_, hset⟩
  rw [← hset, List.toFinset_card_of_nodup, List.length_map]
  rw [pySet, List.map_map]
  exact h2

theorem keyAB : ∀ x ∈ [AnyBraid.gnf ⟨3, -2, [3, 4, 2]⟩, .dgnf ⟨3, -2, [1, 1, 1]⟩, .gnf ⟨3, -2, [3, 4, 2]⟩], IsKey 7 pop0 5000 dpop0 3 x := by
  intro x hx
  simp only [List.mem_cons, List.not_mem_nil, or_false] at hx
  rcases hx with rfl | rfl | rfl
  · exact gnfA
  · exact dgnfA
  · exact gnfA

example := C142_set (n := 3) (lim := 7) (limD := 5000) (ω := pop0) (ωD := dpop0) (by decide) (by decide) (by decide) _ keyAB

example := C142_keys (υ := Nat) (n := 3) (lim := 7) (limD := 5000) (ω := pop0) (ωD := dpop0) (by decide) (by decide) (by decide) [.set (.gnf ⟨3, -2, [3, 4, 2]⟩) 5, .pop (.dgnf ⟨3, -2, [1, 1, 1]⟩), .set (.gnf ⟨3, -2, [3, 4, 2]⟩) 6] (by
  intro op hop
  apply keyAB
  simp only [List.mem_cons, List.not_mem_nil, or_false] at hop
  rcases hop with rfl | rfl | rfl <;> simp [DictOp.key])

theorem mixed_loop (c c' : NF → AnyBraid) (hc : c = .gnf ∧ c' = .dgnf ∨ c = .dgnf ∧ c' = .gnf) (l : List AnyBraid) (y : NF) (hy : c' y ∈ l)
    (acc : List NF) (ha : acc ≠ []) (hp : acc.Pairwise fun a b => ¬b.Before a) :
    l.foldlM (fun acc x => insertSorted x acc) (acc.map c) = .error .type := by
  induction l generalizing acc with
  | nil => simp at hy
  | cons x l ih =>
    rw [List.foldlM_cons]
    have hx : (∃ v, x = c v) ∨ ∃ v, x = c' v := by
      rcases hc with ⟨rfl, rfl⟩ | ⟨rfl, rfl⟩ <;> cases x <;> simp
    rcases hx with ⟨v, rfl⟩ | ⟨v, rfl⟩
    · obtain ⟨a1, h1, h2, h3⟩ := insertSorted_class (c := c) (by tauto) v acc hp
      rw [h1]
      refine ih ?_ a1 (fun e => by rw [e] at h2; simpa using h2.length_eq) h3
      rcases List.mem_cons.1 hy with h | h
      · rcases hc with ⟨rfl, rfl⟩ | ⟨rfl, rfl⟩ <;> cases h
      · exact h
    · obtain ⟨a, acc, rfl⟩ := List.exists_cons_of_ne_nil ha
      have : AnyBraid.lt (c' v) (c a) = .error .type := by rcases hc with ⟨rfl, rfl⟩ | ⟨rfl, rfl⟩ <;> rfl
      rw [List.map_cons, insertSorted, this]
      rfl

/-- C142: a list which contains braids of both classes cannot be sorted: TypeError. -/
theorem C142_mixed (l : List AnyBraid) (x y : NF) (hx : .gnf x ∈ l) (hy : .dgnf y ∈ l) : AnyBraid.sorted l = .error .type := by
  cases l with
  | nil => simp at hx
  | cons z l =>
    rw [AnyBraid.sorted, List.foldlM_cons]
    cases z with
    | gnf v =>
      refine mixed_loop .gnf .dgnf (.inl ⟨rfl, rfl⟩) l y ?_ [v] (by simp) (List.pairwise_singleton _ _)
      simpa using hy
    | dgnf v =>
      refine mixed_loop .dgnf .gnf (.inr ⟨rfl, rfl⟩) l x ?_ [v] (by simp) (List.pairwise_singleton _ _)
      simpa using hx

example := C142_mixed [.gnf ⟨3, 0, []⟩, .gnf ⟨3, -2, [3, 4, 2]⟩, .dgnf ⟨3, 0, []⟩] ⟨3, 0, []⟩ ⟨3, 0, []⟩ (by simp) (by simp)

end Peyl
