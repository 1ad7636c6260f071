import Verif.Lemmas.Adapter
import Verif.Lemmas.Table
import Verif.Spec.BraidNF
import Verif.Spec.DGNF

/-!
# C24: the SQLite adapter and converter (peyl/braid.py:796-819)
-/

namespace Peyl
open Adapter

variable {limG : Nat} {ωG : List Nat → List Nat → Nat → Nat} {limD : Nat} {ωD : NPar → NPar → Nat → Nat}

/-- C24: every `GNF` object the constructor accepts is read back unchanged, as a `GNF`. -/
theorem C24_gnf (x : NF) (h : NF.make (GNF.tbl limG ωG) x.n x.power x.factors = .ok x) :
    convertBraid limG ωG limD ωD (adaptBraid .gnf x) = .ok (.gnf, x) := by
  have hp := literalEval_of_parses (parses_astuple x)
  unfold convertBraid adaptBraid className
  rw [if_pos (by simp [List.isPrefixOf])]
  rw [List.drop_left' (by rfl), hp]
  simp only [construct_tupleVal, h]
  rfl

/-- C24: every `DGNF` object the constructor accepts is read back unchanged, as a `DGNF`. -/
theorem C24_dgnf (x : NF) (h : NF.make (DGNF.tbl limD ωD) x.n x.power x.factors = .ok x) :
    convertBraid limG ωG limD ωD (adaptBraid .dgnf x) = .ok (.dgnf, x) := by
  have hp := literalEval_of_parses (parses_astuple x)
  unfold convertBraid adaptBraid className
  rw [if_neg (by simp [List.isPrefixOf]), if_pos (by simp [List.isPrefixOf])]
  rw [List.drop_left' (by rfl), hp]
  simp only [construct_tupleVal, h]
  rfl

/-- C24: the stored text determines the kind and the braid. -/
theorem C24_injective (k k' : NFKind) (x y : NF) (h : adaptBraid k x = adaptBraid k' y) : k = k' ∧ x = y := by
  have hk : k = k' := by
    cases k <;> cases k' <;> first | rfl | (simp [adaptBraid, className] at h)
  subst hk
  refine ⟨rfl, ?_⟩
  have e := List.append_cancel_left h
  have e1 := literalEval_of_parses (parses_astuple x)
  rw [e, literalEval_of_parses (parses_astuple y)] at e1
  have e2 := Option.some.inj e1
  simp only [tupleVal, PyVal.tuple.injEq, List.cons.injEq, PyVal.int.injEq, and_true] at e2
  obtain ⟨a, b, c⟩ := e2
  have c' : y.factors = x.factors := by
    have := congrArg natList c
    rw [natList_map, natList_map] at this
    exact Option.some.inj this
  cases x; cases y
  simp only [Nat.cast_inj] at a b c'
  subst a b c'
  rfl

/-- C24: text that starts with neither class name raises ValueError. -/
theorem C24_bad_prefix (data : List Char) (h1 : ¬ ['G', 'N', 'F'] <+: data) (h2 : ¬ ['D', 'G', 'N', 'F'] <+: data) :
    convertBraid limG ωG limD ωD data = .error .value := by
  unfold convertBraid
  rw [if_neg fun h => h1 (List.isPrefixOf_iff_prefix.1 h), if_neg fun h => h2 (List.isPrefixOf_iff_prefix.1 h)]

/-- C24: whatever the text, what `convert_braid` returns went through the constructor of the class named by the prefix, so
corrupted rows are rejected rather than turned into a braid that is not in normal form. -/
theorem C24_validated (data : List Char) (k : NFKind) (x : NF) (h : convertBraid limG ωG limD ωD data = .ok (k, x)) :
    (k = .gnf ∧ ['G', 'N', 'F'] <+: data ∧ NF.make (GNF.tbl limG ωG) x.n x.power x.factors = .ok x) ∨
    (k = .dgnf ∧ ['D', 'G', 'N', 'F'] <+: data ∧ NF.make (DGNF.tbl limD ωD) x.n x.power x.factors = .ok x) := by
  have hmake : ∀ {T : Type} (tbl : Nat → Except Err (NFTable T)) (v : PyVal), construct tbl v = .ok x → NF.make tbl x.n x.power x.factors = .ok x := by
    intro T tbl v hv
    unfold construct at hv
    split at hv
    · split at hv
      · rename_i n fs _
        have hv' := hv
        unfold NF.make at hv'
        cases ht : tbl n with
        | error e => rw [ht] at hv'; exact absurd hv' (by intro h; cases h)
        | ok t =>
          rw [ht, bind_ok] at hv'
          cases hb : t.isFactorsNormalised fs with
          | error e => rw [hb] at hv'; exact absurd hv' (by intro h; cases h)
          | ok b =>
            rw [hb, bind_ok] at hv'
            cases b with
            | false => exact absurd hv' (by intro h; cases h)
            | true =>
              have : (⟨n, _, fs⟩ : NF) = x := Except.ok.inj hv'
              rw [← this] at hv ⊢; exact hv
      · cases hv
      · cases hv
    · cases hv
  unfold convertBraid at h
  split at h
  · rename_i hp
    split at h
    · cases h
    · rename_i v hv
      cases hc : construct (GNF.tbl limG ωG) v with
      | error e => rw [hc] at h; cases h
      | ok y =>
        rw [hc] at h
        have := Except.ok.inj h
        simp only [Prod.mk.injEq] at this
        obtain ⟨rfl, rfl⟩ := this
        exact .inl ⟨rfl, List.isPrefixOf_iff_prefix.1 hp, hmake _ _ hc⟩
  · split at h
    · rename_i hp
      split at h
      · cases h
      · rename_i v hv
        cases hc : construct (DGNF.tbl limD ωD) v with
        | error e => rw [hc] at h; cases h
        | ok y =>
          rw [hc] at h
          have := Except.ok.inj h
          simp only [Prod.mk.injEq] at this
          obtain ⟨rfl, rfl⟩ := this
          exact .inr ⟨rfl, List.isPrefixOf_iff_prefix.1 hp, hmake _ _ hc⟩
    · cases h

/-! ## Concrete instances -/

/-- The example of the doc string: `GNF(4, 1, (2, 3, 4))`. -/
example : String.ofList (adaptBraid .gnf ⟨4, 1, [2, 3, 4]⟩) = "GNF(4, 1, (2, 3, 4))" := by decide +kernel

/-- A negative power and a one-element tuple, whose `repr` has a trailing comma. -/
example : String.ofList (adaptBraid .dgnf ⟨3, -12, [1]⟩) = "DGNF(3, -12, (1,))" := by decide +kernel

/-- The constructor accepts that braid, so it is read back. -/
example : convertBraid 10 (fun _ _ _ => 0) 5000 (fun _ _ _ => 0) "DGNF(3, -12, (1,))".toList = .ok (.dgnf, ⟨3, -12, [1]⟩) :=
  C24_dgnf (x := ⟨3, -12, [1]⟩) (by decide +kernel)

/-- A row with non-normalised factors is rejected. -/
example : (convertBraid 10 (fun _ _ _ => 0) 5000 (fun _ _ _ => 0) "GNF(3, 0, (0, 1))".toList) = .error .assertion := by decide +kernel

end Peyl
