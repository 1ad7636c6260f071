import Verif.Lemmas.HeapSearch
import Verif.Model.Jones
import Verif.Model.NPar
import Verif.Model.LKB
/-!
# C132: what a caller does with the arrays it has been given does not change later results
-/
namespace Peyl
open Polymat

namespace RepBase
namespace Mem
variable {d : Nat} {T : Cls → Type}

/-- C132: any program that does not write into the arrays returned by `polymat_artin_gens_invs()` sees, in every call, the value that is determined by the arguments: neither the
caches nor its own writes into arrays that evaluation calls have returned have an effect on a later call. -/
theorem C132_rep_partial (rep : RepBase d) (tbl : (c : Cls) → Nat → Except Err (NFTable (T c))) (es : List (Event d)) (h : SparesGens es) :
    (Session.run rep tbl es).seen = (callsOf es).map (Call.value rep tbl) :=
  (inv_run es h).seen

/-! ### The tables of the library, a program that meets the hypothesis, and one that does not -/

/-- The types of the factors of the two kinds of normal forms. -/
def facT : Cls → Type
  | .gnf => List Nat
  | .dgnf => NPar

/-- `GNF._nf_table` and `DGNF._nf_table`. -/
def libTbl : (c : Cls) → Nat → Except Err (NFTable (facT c))
  | .gnf => GNF.tbl 7 fun _ _ _ => 0
  | .dgnf => DGNF.tbl 100 fun _ _ _ => 0

/-- A program that evaluates `Δ`, overwrites the result, and evaluates `Δ` again. -/
def harmless : List (Event (Jones.dimension 2 1)) :=
  [.call (.evalOne .gnf ⟨2, 1, []⟩), .write 0 0 (.img [fun _ _ _ => 7]), .call (.evalOne .gnf ⟨2, 1, []⟩), .call (.evalOne .dgnf ⟨2, 1, []⟩), .write 1 0 (.img []), .call .gensInvs]

theorem harmless_ok : SparesGens harmless := by
  intro j i A h
  simp only [harmless, List.mem_cons, List.not_mem_nil, or_false, reduceCtorEq, false_or, Event.write.injEq] at h
  rcases h with ⟨rfl, -, -⟩ | ⟨rfl, -, -⟩ <;> simp [harmless, callsOf]

/-- It sees the same array three times. -/
example (rep : RepBase (Jones.dimension 2 1)) : ∃ x y z, (Session.run rep libTbl harmless).seen = [x, x, y, z] ∧ x = Call.value rep libTbl (.evalOne .gnf ⟨2, 1, []⟩) :=
  ⟨_, _, _, C132_rep_partial rep libTbl harmless harmless_ok, rfl⟩

/-- In `JonesCellRep(2, 1)` this array is the matrix with the entry -1 (and `polymat_artin_gens_invs` raises, see C104). -/
example : (match Jones.cellRep 2 1 0 with
    | .ok rep => (Session.run rep libTbl harmless).seen.map fun x => match x with
      | .ok [.img [S]] => some (S () ⟨0, by decide⟩ ⟨0, by decide⟩)
      | _ => none
    | .error _ => []) = [some (-1), some (-1), some (-1), none] := by decide_cbv

/-- The entry of an array of size 1. -/
def entry (x : Except Err (List (Arr (LKB.dimension 2)))) : Option ℤ :=
  match x with
  | .ok [.img [S]] => some (S () ⟨0, by decide⟩ ⟨0, by decide⟩)
  | _ => none

/-- C132: `polymat_artin_gens_invs()` hands out the cached arrays: after `gens[0] = 7`, `polymat_evaluate_artin_word(σ_0)` in `LKBRep(2, 0, v, v)` returns 7 instead of 1. -/
theorem C132_gens_refuted : ∃ rep : RepBase (LKB.dimension 2), LKB.rep 2 0 LPoly.v LPoly.v = .ok rep ∧
    (Session.run rep libTbl [.call (.evalWord [(0, 1)]), .call .gensInvs, .write 1 0 (.batch 1 [fun _ _ _ => 7]), .call (.evalWord [(0, 1)])]).seen.map entry =
      [some 1, none, some 7] := by
  have h : (match LKB.rep 2 0 LPoly.v LPoly.v with
    | .ok rep => (Session.run rep libTbl [.call (.evalWord [(0, 1)]), .call .gensInvs, .write 1 0 (.batch 1 [fun _ _ _ => 7]), .call (.evalWord [(0, 1)])]).seen.map entry ==
      [some 1, none, some 7]
    | .error _ => false) = true := by decide_cbv
  split at h
  · rename_i rep e
    exact ⟨rep, e, by simpa using h⟩
  · cases h

end Mem
end RepBase

namespace BraidSearch
namespace Mem
variable {d : Nat}

/-- C132: any program that writes only into results of the bulk evaluators of `braidsearch` and of `evaluate_braid_factors` for braids that are not powers of `Δ` sees, in every call,
the value that is determined by the arguments. -/
theorem C132_search_partial (rep : Summand d) (tbl : Nat → Except Err (NFTable (List Nat))) (es : List (Event d)) (h : WritesOwn es) :
    (Session.run rep tbl es).seen = (callsOf es).map (Call.value rep tbl) :=
  (inv_run es h).seen

/-- A program that evaluates a generator of `B_3` and the prefixes of another braid, overwrites the results, and evaluates again. -/
def harmless : List (Event (Jones.dimension 3 1)) :=
  [.call (.evalFactors ⟨3, 0, [1]⟩), .write 0 0 (.img [fun _ _ _ => 7]), .call (.evalPrefixes [⟨3, 5, [1, 1]⟩]), .write 1 2 (.img []), .call (.evalFactors ⟨3, 0, [1]⟩), .call .table]

theorem harmless_ok : WritesOwn harmless := by
  intro j i A c h hc
  simp only [harmless, List.mem_cons, List.not_mem_nil, or_false, reduceCtorEq, false_or, Event.write.injEq] at h
  rcases h with ⟨rfl, -, -⟩ | ⟨rfl, -, -⟩ <;> simp [harmless, callsOf] at hc <;> subst hc <;> simp [Call.OwnResult]

/-- It sees the same array before and after. -/
example (rep : Summand (Jones.dimension 3 1)) : ∃ x y z, (Session.run rep (GNF.tbl 7 fun _ _ _ => 0) harmless).seen = [x, y, x, z] ∧
    x = Call.value rep (GNF.tbl 7 fun _ _ _ => 0) (.evalFactors ⟨3, 0, [1]⟩) :=
  ⟨_, _, _, C132_search_partial rep _ harmless harmless_ok, rfl⟩

/-- The entry of an array of size 1, with or without a batch axis of length 1. -/
def entry (x : Except Err (List (Arr (Jones.dimension 2 1)))) : Option ℤ :=
  match x with
  | .ok [.img [S]] => some (S () ⟨0, by decide⟩ ⟨0, by decide⟩)
  | .ok [.batch 1 [S]] => some (S ⟨0, by decide⟩ ⟨0, by decide⟩ ⟨0, by decide⟩)
  | _ => none

/-- C132: `evaluate_braid_factors` of the identity returns the cached identity matrix itself: after `image *= 7`, `evaluate_braids_of_same_length` gives 7 for the identity and for
`Δ²` in `JonesSummand(2, 1)`, where it gave 1 before. -/
theorem C132_factors_refuted : ∃ rep : Summand (Jones.dimension 2 1), Jones.summand 2 1 0 = .ok rep ∧
    (Session.run rep (GNF.tbl 7 fun _ _ _ => 0) [.call (.evalSame [⟨2, 0, []⟩]), .call (.evalSame [⟨2, 2, []⟩]), .call (.evalFactors ⟨2, 0, []⟩), .write 2 0 (.img [fun _ _ _ => 7]),
      .call (.evalSame [⟨2, 0, []⟩]), .call (.evalSame [⟨2, 2, []⟩])]).seen.map entry = [some 1, some 1, some 1, some 7, some 7] := by
  have h : (match Jones.summand 2 1 0 with
    | .ok rep => (Session.run rep (GNF.tbl 7 fun _ _ _ => 0) [.call (.evalSame [⟨2, 0, []⟩]), .call (.evalSame [⟨2, 2, []⟩]), .call (.evalFactors ⟨2, 0, []⟩), .write 2 0 (.img [fun _ _ _ => 7]),
      .call (.evalSame [⟨2, 0, []⟩]), .call (.evalSame [⟨2, 2, []⟩])]).seen.map entry == [some 1, some 1, some 1, some 7, some 7]
    | .error _ => false) = true := by decide_cbv
  split at h
  · rename_i rep e
    exact ⟨rep, e, by simpa using h⟩
  · cases h

end Mem
end BraidSearch
end Peyl
