import Verif.Model.SearchProgram
import Verif.Lemmas.Descend
import Verif.Lemmas.PosWords
import Verif.Lemmas.MachineRep
import Verif.Props.Permutations
import Verif.Props.Bucketing
import Verif.Props.Braid
/-!
Over `F_1` nothing can be evaluated: every product is zero.
-/
namespace Peyl
open BraidSearch Search Polymat
variable {d : Nat}

theorem mul1_one (rep : Summand d) (h1 : rep.p = 1) (A B C : Img d) : rep.mul1 A B ≠ .ok C := by
  intro h
  rw [Summand.mul1, polymatMul] at h
  obtain ⟨D, -, h⟩ := bind_eq_ok.1 h
  rw [h1, if_pos (by decide), projectivise, if_neg] at h
  · cases h
  · intro hh
    have := hh ()
    rw [nonzeroAt, List.any_eq_true] at this
    obtain ⟨S, hS, hz⟩ := this
    rw [modp, List.mem_map] at hS
    obtain ⟨S', -, rfl⟩ := hS
    rw [nzAt, decide_eq_true_iff] at hz
    obtain ⟨i, j, hz⟩ := hz
    exact hz (Int.fmod_one _)

theorem table_one (rep : Summand d) (h1 : rep.p = 1) (hn : 2 ≤ rep.n) (tab : List (List Nat × Img d)) : rep.table ≠ .ok tab := by
  intro h
  rw [Summand.table] at h
  obtain ⟨tab', h, -⟩ := bind_eq_ok.1 h
  have hw : wordOf (w0 rep.n) ∈ Perms.elements rep.n := elements_mem _ |>.2 ⟨_, rfl⟩
  obtain ⟨y, hy⟩ : ∃ y, (do .ok (wordOf (w0 rep.n), ← rep.permImage (wordOf (w0 rep.n))) : Except Err (List Nat × Img d)) = .ok y := by
    clear hn
    generalize Perms.elements rep.n = l at h hw
    induction l generalizing tab' with
    | nil => cases hw
    | cons x l ih =>
      rw [List.mapM_cons] at h
      obtain ⟨y, hy, h⟩ := bind_eq_ok.1 h
      obtain ⟨ys, hys, -⟩ := bind_eq_ok.1 h
      rcases List.mem_cons.1 hw with e | hw
      · exact ⟨y, by rw [e]; exact hy⟩
      · exact ih ys hys hw
  obtain ⟨A, hA, -⟩ := bind_eq_ok.1 hy
  rw [Summand.permImage] at hA
  obtain ⟨u, u1, hA⟩ := bind_eq_ok.1 hA
  obtain ⟨ms, m1, hA⟩ := bind_eq_ok.1 hA
  obtain ⟨B, hB, -⟩ := bind_eq_ok.1 hA
  obtain ⟨u', u1', u2', -⟩ := C03_shortlex (wordOf (w0 rep.n)) (isPermWord_wordOf _)
  rw [u1] at u1'; cases u1'
  have hu : u ≠ [] := by
    rintro rfl
    rw [length_wordOf, fromCox_eq [] (by simp)] at u2'
    have e := wordOf_injective (Except.ok.inj u2')
    have e0 := congrArg (fun π : Equiv.Perm (Fin rep.n) => (π ⟨0, by omega⟩).val) e
    simp only [coxProd_nil, Equiv.Perm.one_apply, w0, Fin.revPerm_apply, Fin.val_rev] at e0
    omega
  cases u with
  | nil => exact hu rfl
  | cons s u =>
    rw [List.mapM_cons] at m1
    obtain ⟨m, -, m1⟩ := bind_eq_ok.1 m1
    obtain ⟨ms', -, m1⟩ := bind_eq_ok.1 m1
    cases m1
    rw [List.foldlM_cons] at hB
    obtain ⟨C, hC, -⟩ := bind_eq_ok.1 hB
    exact mul1_one rep h1 _ _ _ hC

theorem evalSame_one (tbl : Nat → Except Err (NFTable (List Nat))) (rep : Summand d) (h1 : rep.p = 1) (hn : 2 ≤ rep.n) (xs : List NF) (A : _) :
    evalSame tbl rep xs ≠ .ok A := by
  intro h
  rw [evalSame] at h
  obtain ⟨B, hB, -⟩ := bind_eq_ok.1 h
  rw [evalStart] at hB
  obtain ⟨x0, -, hB⟩ := bind_eq_ok.1 hB
  obtain ⟨_, -, hB⟩ := bind_eq_ok.1 hB
  obtain ⟨fs, -, hB⟩ := bind_eq_ok.1 hB
  obtain ⟨tab, ht, -⟩ := bind_eq_ok.1 hB
  exact table_one rep h1 hn tab ht

theorem bootstrap_one {S : Type} {lim : Nat} {ω : List Nat → List Nat → Nat → Nat} (rep : Summand d) (h1 : rep.p = 1) (hn : 3 ≤ rep.n) (hl : rep.n < lim)
    (c : Config S NF d) (st : State S NF d) (L : Nat) (hL : 1 ≤ L) (st' : State S NF d) : bootstrapExhaustive (GNF.tbl lim ω) rep c st L ≠ .ok st' := by
  intro h
  obtain ⟨L, rfl⟩ : ∃ k, L = k + 1 := ⟨L - 1, by omega⟩
  rw [bootstrapExhaustive, List.range_succ_eq_map, List.foldlM_cons] at h
  obtain ⟨st1, h, -⟩ := bind_eq_ok.1 h
  obtain ⟨all, ha, h⟩ := bind_eq_ok.1 h
  obtain ⟨chunks, hc, h⟩ := bind_eq_ok.1 h
  obtain ⟨xs, x1, -, x3, -⟩ := C16_all_of_length (ω := ω) (by omega : 2 ≤ rep.n) hl 1 0
  obtain ⟨y, -, y1, y2, y3⟩ := (C17_sample (ω := ω) hn hl 1).1 fun _ => 0
  rw [ha] at x1; cases x1
  obtain ⟨cs, c1, c2, c3, -⟩ := C73_batched all 10000 (by decide)
  rw [hc] at c1; cases c1
  cases chunks with
  | nil =>
    have := (x3 y).2 ⟨y1, y2, y3⟩
    rw [← c2] at this; cases this
  | cons c0 cs =>
    rw [List.foldlM_cons] at h
    obtain ⟨st2, h, -⟩ := bind_eq_ok.1 h
    obtain ⟨A, hA, -⟩ := bind_eq_ok.1 h
    exact evalSame_one _ rep h1 (by omega) c0 A hA

/-- Nothing can be put into a bucket of size zero. -/
theorem addBraids_zero {S β : Type} [DecidableEq β] (c : Config S β d) (hc : c.size = 0) (seed : S) (b : Bucketing.Batch β d) (hb : 0 < b.len)
    (hk : ∀ stats i, braidImageStats c b = .ok stats → c.criterion b.len stats i = true) (st' : State S β d) :
    addBraidsImages c ⟨[], [], seed⟩ b ≠ .ok st' := by
  intro h
  rw [addBraidsImages] at h
  obtain ⟨stats, hs, h⟩ := bind_eq_ok.1 h
  obtain ⟨pl, -, h⟩ := bind_eq_ok.1 h
  rw [List.filter_eq_self.2 fun i _ => hk stats i hs] at h
  have hne : List.finRange b.len ≠ [] := by
    intro e
    have := congrArg List.length e
    rw [List.length_finRange] at this
    exact hb.ne' this
  obtain ⟨i, l, hl⟩ := List.exists_cons_of_ne_nil hne
  rw [hl, List.foldlM_cons] at h
  obtain ⟨st1, h, -⟩ := bind_eq_ok.1 h
  rw [step] at h
  simp only [Dict.get?, List.lookup, List.find?] at h
  obtain ⟨im, -, h⟩ := bind_eq_ok.1 h
  rw [if_pos hc] at h
  cases h

theorem bootstrap_zero {S : Type} {lim : Nat} {ω : List Nat → List Nat → Nat → Nat} (rep : Summand d) (hn : 3 ≤ rep.n) (hl : rep.n < lim)
    (rank : (Fin d → Fin d → ℤ) → Nat) (g : Option (Rng S)) (seed : S) (L : Nat) (hL : 1 ≤ L) (st' : State S NF d) :
    bootstrapExhaustive (GNF.tbl lim ω) rep { size := 0, length := NF.canonicalLength, criterion := fun _ rows i => decide (1 ≤ (rows i).length), rank := rank, rand := g }
      ⟨[], [], seed⟩ L ≠ .ok st' := by
  intro h
  obtain ⟨L, rfl⟩ : ∃ k, L = k + 1 := ⟨L - 1, by omega⟩
  rw [bootstrapExhaustive, List.range_succ_eq_map, List.foldlM_cons] at h
  obtain ⟨st1, h, -⟩ := bind_eq_ok.1 h
  obtain ⟨all, ha, h⟩ := bind_eq_ok.1 h
  obtain ⟨chunks, hc, h⟩ := bind_eq_ok.1 h
  obtain ⟨xs, x1, -, x3, -⟩ := C16_all_of_length (ω := ω) (by omega : 2 ≤ rep.n) hl 1 0
  obtain ⟨y, -, y1, y2, y3⟩ := (C17_sample (ω := ω) hn hl 1).1 fun _ => 0
  rw [ha] at x1; cases x1
  obtain ⟨cs, c1, c2, c3, -⟩ := C73_batched all 10000 (by decide)
  rw [hc] at c1; cases c1
  cases chunks with
  | nil =>
    have := (x3 y).2 ⟨y1, y2, y3⟩
    rw [← c2] at this; cases this
  | cons c0 cs =>
    rw [List.foldlM_cons] at h
    obtain ⟨st2, h, -⟩ := bind_eq_ok.1 h
    obtain ⟨A, hA, h⟩ := bind_eq_ok.1 h
    refine addBraids_zero _ rfl seed _ ?_ ?_ _ h
    · exact (c3 c0 (List.mem_cons_self ..)).1
    · intro stats i hs
      rw [braidImageStats] at hs
      obtain ⟨_, -, hs⟩ := bind_eq_ok.1 hs
      obtain ⟨_, -, hs⟩ := bind_eq_ok.1 hs
      obtain ⟨_, -, hs⟩ := bind_eq_ok.1 hs
      obtain ⟨_, -, hs⟩ := bind_eq_ok.1 hs
      obtain ⟨_, -, hs⟩ := bind_eq_ok.1 hs
      cases hs
      have hm : c0[i] ∈ all := by
        rw [← c2, List.flatten_cons]
        exact List.mem_append_left _ (List.getElem_mem _)
      have := ((x3 _).1 hm).2.2
      show decide (1 ≤ c0[i].factors.length) = true
      rw [this]; decide

end Peyl
