import Verif.Props.Display
import Verif.Props.Braid
import Verif.Props.DGNF
import Verif.Props.Adapter
import Verif.Lemmas.SummandEval
/-!
# Canonical factors and the printed form of braids (C94)
-/
namespace Peyl
open Adapter Display Perms Equiv

namespace Display

/-- Names and the equals sign removed. -/
def nameless (s : List Char) : List Char := s.filter fun c => !(c.isAlpha || c == '=')

theorem nameless_append (a b : List Char) : nameless (a ++ b) = nameless a ++ nameless b := List.filter_append ..

theorem nameless_nat (k : Nat) : nameless (reprNat k) = reprNat k :=
  List.filter_eq_self.2 fun c hc => by
    have h := reprNat_digits k c hc
    have hd : 48 ≤ c.toNat ∧ c.toNat ≤ 57 := by simpa [isDig] using h
    have h1 : c.isAlpha = false := by
      have e : c = Char.ofNat c.toNat := (Char.ofNat_toNat c).symm
      obtain ⟨d1, d2⟩ := hd
      rw [e]
      generalize c.toNat = k at d1 d2 ⊢
      interval_cases k <;> decide
    have h2 : c ≠ '=' := by rintro rfl; revert hd; decide
    simp [h1, h2]

theorem nameless_int (z : Int) : nameless (reprInt z) = reprInt z := by
  cases z with
  | ofNat k => exact nameless_nat k
  | negSucc k => rw [reprInt, nameless, List.filter_cons_of_pos (by decide)]; exact congrArg _ (nameless_nat _)

theorem nameless_join (l : List (List Char)) : nameless (joinItems l) = joinItems (l.map nameless) := by
  match l with
  | [] => rfl
  | [a] => rfl
  | a :: b :: l =>
    rw [joinItems, nameless_append, nameless_append, nameless_join (b :: l)]
    rfl

theorem nameless_tuple (l : List (List Char)) : nameless (Adapter.reprTuple l) = Adapter.reprTuple (l.map nameless) := by
  match l with
  | [] => rfl
  | [a] => simp only [Adapter.reprTuple, nameless_append, List.map_cons, List.map_nil]; rfl
  | a :: b :: l =>
    simp only [Adapter.reprTuple, nameless_append, nameless_join, List.map_cons]
    rfl

theorem parses_paren {s : List Char} {v : PyVal} (h : Parses s v) : Parses ('(' :: s ++ [')']) v := by
  obtain ⟨⟨c, q, hc, c1, c2, c3⟩, hp⟩ := h
  refine ⟨⟨'(', _, rfl, by decide, by decide, by decide⟩, fun fuel r hf _ => ?_⟩
  simp only [List.cons_append, List.length_cons, List.length_append, List.length_nil] at hf
  obtain ⟨fuel, rfl⟩ : ∃ f, fuel = f + 1 := ⟨fuel - 1, by omega⟩
  have h1 := hp fuel (')' :: r) (by omega) (noDig_paren _)
  rw [show ('(' :: s ++ [')']) ++ r = '(' :: (s ++ ')' :: r) by simp]
  unfold parseExpr
  rw [skipWs_cons _ (by decide) (by decide)]
  simp only
  rw [hc, List.cons_append] at h1 ⊢
  rw [skipWs_cons _ c1 c2]
  split
  · rename_i e; exact absurd (List.cons.inj e).1 c3
  · rw [h1]
    simp only [Option.bind_eq_bind, Option.bind_some]
    rw [skipWs_cons _ (by decide) (by decide)]
    rfl

/-- A tuple of integers. -/
def wordVal (w : List Nat) : PyVal := .tuple (w.map fun (f : Nat) => .int f)

theorem parses_perm (w : List Nat) : Parses (nameless (Perms.repr w)) (wordVal w) := by
  have h := parses_tuple (w.map fun (f : Nat) => (reprInt f, PyVal.int f)) (by
    intro p hp; obtain ⟨f, -, rfl⟩ := List.mem_map.1 hp; exact parses_int f)
  rw [List.map_map, List.map_map] at h
  have h2 := parses_paren h
  have e : nameless (Perms.repr w) = '(' :: (Adapter.reprTuple (w.map fun (f : Nat) => reprInt f)) ++ [')'] := by
    rw [Perms.repr, nameless_append, nameless_append, nameless_tuple, List.map_map]
    have e1 : nameless ['P', 'e', 'r', 'm', 'u', 't', 'a', 't', 'i', 'o', 'n', '(', 'w', 'o', 'r', 'd', '='] = ['('] := by decide
    have e2 : nameless [')'] = [')'] := by decide
    rw [e1, e2]
    have e3 : (nameless ∘ fun (f : Nat) => reprInt f) = fun (f : Nat) => reprInt f := funext fun f => nameless_int f
    rw [e3]; rfl
  rw [e]; exact h2

end Display

variable {n lim : Nat} {ω : List Nat → List Nat → Nat → Nat}

/-! ## C94 -/

/-- C94: the canonical decomposition of a GNF is its power and the words of its factors; indices count from either end and
out-of-range ones raise IndexError. -/
theorem C94_canonical (hn : 2 ≤ n) (hl : n < lim) (x : NF) (hx : IsGNF lim ω n x) :
    ∃ ws : List (List Nat), ws = x.factors.map (fun f => wordOf (permAt n f)) ∧ NF.canonicalFactors (GNF.tbl lim ω) x = .ok ws ∧
      NF.canonicalDecomposition (GNF.tbl lim ω) x = .ok (x.power, ws) ∧
      (∀ i (h : i < ws.length), NF.canonicalFactor (GNF.tbl lim ω) x i = .ok ws[i] ∧ NF.canonicalFactor (GNF.tbl lim ω) x (i - ws.length : ℤ) = .ok ws[i]) ∧
      (∀ i : ℤ, (i < -ws.length ∨ (ws.length : ℤ) ≤ i) → NF.canonicalFactor (GNF.tbl lim ω) x i = .error .index) := by
  obtain ⟨t, R⟩ := exists_greal lim ω hn hl
  have hv := R.isGNF_iff.1 hx
  have hcf := BraidSearch.canonicalFactors_spec hn hl hx
  have htbl : GNF.tbl lim ω x.n = .ok t := by rw [hv.n_eq]; exact R.1.ok
  have hlk : ∀ k (h : k < x.factors.length), (do lookup t.divs (← lookup x.factors k)) = .ok (wordOf (permAt n x.factors[k])) := by
    intro k h
    have hf : x.factors[k] < (elements n).length := by rw [elements_length, ← R.2.1]; exact hv.inR _ (List.getElem_mem h)
    rw [lookup_lt h, bind_ok, R.2.2.1, lookup_lt hf, permAt_spec hf]
  refine ⟨_, rfl, hcf, by rw [NF.canonicalDecomposition, hcf, bind_ok], ?_, ?_⟩
  · intro i h
    have h' : i < x.factors.length := by simpa using h
    constructor
    · rw [NF.canonicalFactor, htbl, bind_ok]
      simp only [if_neg (by omega : ¬ (i : ℤ) < 0), Int.toNat_natCast]
      rw [hlk i h', List.getElem_map]
    · rw [NF.canonicalFactor, htbl, bind_ok]
      have h1 : ((i : ℤ) - (x.factors.length : ℤ)) < 0 := by omega
      simp only [List.length_map, if_pos h1, List.length_map, sub_add_cancel, if_neg (by omega : ¬ (i : ℤ) < 0), Int.toNat_natCast]
      rw [hlk i h', List.getElem_map]
  · intro i h
    rw [NF.canonicalFactor, htbl, bind_ok]
    rw [List.length_map] at h
    rcases h with h | h
    · simp only [if_pos (by omega : i < 0), if_pos (by omega : i + (x.factors.length : ℤ) < 0)]
    · simp only [if_neg (by omega : ¬ i < 0)]
      have : lookup x.factors i.toNat = .error .index := by
        rw [lookup, List.getElem?_eq_none (by omega)]
      rw [this]; rfl

/-- C94: the printed form of a GNF, with the names removed, is a literal of its power and the words of its factors. -/
theorem C94_repr (hn : 2 ≤ n) (hl : n < lim) (x : NF) (hx : IsGNF lim ω n x) :
    ∃ s, GNF.repr (GNF.tbl lim ω) x = .ok (['G', 'N', 'F'] ++ s) ∧
      literalEval (nameless s) = some (.tuple [.int x.power, .tuple (x.factors.map fun f => .tuple ((wordOf (permAt n f)).map fun (k : Nat) => .int k))]) := by
  obtain ⟨ws, hws, -, hcd, -⟩ := C94_canonical hn hl x hx
  refine ⟨_, by rw [GNF.repr, hcd, bind_ok], ?_⟩
  rw [nameless_tuple, List.map_cons, List.map_cons, List.map_nil, nameless_int, nameless_tuple, List.map_map]
  have h := parses_tuple (ws.map fun w => (nameless (Perms.repr w), wordVal w)) (by
    intro p hp; obtain ⟨w, -, rfl⟩ := List.mem_map.1 hp; exact parses_perm w)
  rw [List.map_map, List.map_map] at h
  have h2 := parses_tuple [(reprInt x.power, PyVal.int x.power), (_, _)] (by
    intro p hp
    rcases List.mem_cons.1 hp with rfl | hp
    · exact parses_int _
    · rw [List.mem_singleton] at hp; subst hp; exact h)
  refine (literalEval_of_parses h2).trans ?_
  subst hws
  simp only [List.map_cons, List.map_nil, List.map_map]; rfl

/-- C94: GNFs on the same number of strands print alike only if they are equal. -/
theorem C94_injective (hn : 2 ≤ n) (hl : n < lim) (x y : NF) (hx : IsGNF lim ω n x) (hy : IsGNF lim ω n y) :
    GNF.repr (GNF.tbl lim ω) x = GNF.repr (GNF.tbl lim ω) y ↔ x = y := by
  refine ⟨fun h => ?_, fun h => by rw [h]⟩
  obtain ⟨s, s1, s2⟩ := C94_repr hn hl x hx
  obtain ⟨u, u1, u2⟩ := C94_repr hn hl y hy
  rw [s1, u1] at h
  have e : s = u := List.append_cancel_left (Except.ok.inj h)
  rw [e, u2] at s2
  simp only [Option.some.injEq, PyVal.tuple.injEq, List.cons.injEq, PyVal.int.injEq, and_true] at s2
  obtain ⟨t, R⟩ := exists_greal lim ω hn hl
  have hx' := R.isGNF_iff.1 hx
  have hy' := R.isGNF_iff.1 hy
  have hf : y.factors.map (permAt n) = x.factors.map (permAt n) := by
    have inj : Function.Injective fun π : Perm (Fin n) => PyVal.tuple ((wordOf π).map fun (k : Nat) => PyVal.int k) := by
      intro π σ h
      have := PyVal.tuple.inj h
      refine wordOf_injective (List.map_injective_iff.2 (fun a b h => ?_) this)
      simpa using PyVal.int.inj h
    have := s2.2
    have h3 : (y.factors.map (permAt n)).map (fun π : Perm (Fin n) => PyVal.tuple ((wordOf π).map fun (k : Nat) => PyVal.int k)) =
      (x.factors.map (permAt n)).map (fun π : Perm (Fin n) => PyVal.tuple ((wordOf π).map fun (k : Nat) => PyVal.int k)) := by
      simpa [List.map_map, Function.comp_def] using this
    exact List.map_injective_iff.2 inj h3
  have hp : ∀ z : NF, gnfBraid n z = halfTwist n ^ z.power * ((z.factors.map (permAt n)).map lift).prod := by
    intro z; rw [gnfBraid, List.map_map]; rfl
  exact R.1.den_inj hx' hy' (by rw [R.den_eq, R.den_eq, hp, hp, hf, s2.1])

/-- A braid and its printed form. -/
example : IsGNF 7 (fun _ _ _ => 0) 3 ⟨3, -1, [1]⟩ ∧
    GNF.repr (GNF.tbl 7 fun _ _ _ => 0) ⟨3, -1, [1]⟩ = .ok "GNF(-1, (Permutation(word=(0, 2, 1)),))".toList := by decide +kernel

end Peyl
