import Verif.Lemmas.MachineGens
/-!
# The evaluators of `braidsearch.py` with machine integers, modulo `p`
-/
namespace Peyl
open Polymat Polynomial LaurentPolynomial Jones
namespace BraidSearch
variable {d : Nat} {rep : Summand d} {tbl : Nat → Except Err (NFTable (List Nat))} {w W : Nat}

/-- What is known about the entries of a table. -/
def TabBd (b W : Nat) (tab : List (List Nat × Img d)) : Prop := ∀ x ∈ tab, Bd b x.2 ∧ x.2.length ≤ W

theorem dictGet_mem {tab : List (List Nat × Img d)} {k : List Nat} {A : Img d} (h : Dict.get tab k = .ok A) : (k, A) ∈ tab := by
  rw [Dict.get] at h
  cases hg : Dict.get? tab k with
  | none => rw [hg] at h; cases h
  | some B => rw [hg] at h; cases h; exact Dict.mem_of_get? hg

theorem bd_eye (d : Nat) : Bd 1 (eye d) := by
  intro S hS a i j
  rw [eye, List.mem_singleton] at hS
  subst hS
  dsimp only
  split <;> simp

theorem packL_bd {L b W : Nat} {As : List (Img d)} {P} (h : packL L As = .ok P) (hA : ∀ A ∈ As, Bd b A ∧ A.length ≤ W) : Bd b P ∧ P.length ≤ W :=
  RepBase.packN_bd h hA

theorem stepW (hw : 1 ≤ w) (hp : 2 ≤ rep.p) {tab : List (List Nat × Img d)} (hT : TabBd (rep.p - 1) W tab) (hb : d * W * (rep.p - 1) * (rep.p - 1) < 2 ^ (w - 1))
    {L : Nat} (hL : 0 < L) (factors : List (List (List Nat))) {A : PArr (Fin L) d d} (hA : Bd (rep.p - 1) A) (k : Nat) :
    evalStepW w rep tab L factors A k = evalStep rep tab L factors A k ∧ ∀ C, evalStep rep tab L factors A k = .ok C → Bd (rep.p - 1) C := by
  haveI : Nonempty (Fin L) := ⟨⟨0, hL⟩⟩
  have key : ∀ ms, (factors.mapM fun fs => (do Dict.get tab (← lookup fs k) : Except Err (Img d))) = .ok ms → ∀ B, packL L ms = .ok B →
      polymatMulW w rep.p (fun i : Fin L => i) (fun i => i) A B = rep.mulL A B ∧ ∀ C, rep.mulL A B = .ok C → Bd (rep.p - 1) C := by
    intro ms hm B hq
    obtain ⟨b1, b2⟩ := packL_bd (b := rep.p - 1) (W := W) hq fun X hX => by
      obtain ⟨fs, -, hfs⟩ := mapM_mem_ok hm X hX
      obtain ⟨f, -, hf⟩ := RepBase.bind_eq_ok hfs
      exact hT _ (dictGet_mem hf)
    exact polymatMulW_mod hw (by omega) hA b1 b2 hb
  constructor
  · rw [evalStepW, evalStep]
    exact bind_congr_ok fun ms hm => bind_congr_ok fun B hq => (key ms hm B hq).1
  · intro C hC
    rw [evalStep] at hC
    obtain ⟨ms, hm, hC⟩ := RepBase.bind_eq_ok hC
    obtain ⟨B, hq, hC⟩ := RepBase.bind_eq_ok hC
    exact (key ms hm B hq).2 C hC

theorem prefixW (hw : 1 ≤ w) (hp : 2 ≤ rep.p) {tab : List (List Nat × Img d)} (hT : TabBd (rep.p - 1) W tab) (hb : d * W * (rep.p - 1) * (rep.p - 1) < 2 ^ (w - 1))
    {L : Nat} (hL : 0 < L) (factors : List (List (List Nat))) : ∀ (ls : List Nat) {A : PArr (Fin L) d d}, Bd (rep.p - 1) A →
    prefixLoopW w rep tab L factors ls A = prefixLoop rep tab L factors ls A
  | [], A, _ => rfl
  | l :: ls, A, hA => by
    obtain ⟨s1, s2⟩ := stepW hw hp hT hb hL factors hA l
    rw [prefixLoopW, prefixLoop, s1]
    exact bind_congr_ok fun C hC => by rw [prefixW hw hp hT hb hL factors ls (s2 C hC)]

theorem mul1W (hw : 1 ≤ w) (hp : 2 ≤ rep.p) {A B : Img d} {b : Nat} (hA : Bd (rep.p - 1) A) (hB : Bd b B) (hW : B.length ≤ W)
    (hb : d * W * (rep.p - 1) * b < 2 ^ (w - 1)) : rep.mul1W w A B = rep.mul1 A B ∧ ∀ C, rep.mul1 A B = .ok C → Bd (rep.p - 1) C :=
  polymatMulW_mod hw (by omega) hA hB hW hb

theorem foldW (hw : 1 ≤ w) (hp : 2 ≤ rep.p) {b : Nat} (ms : List (Img d)) (hm : ∀ B ∈ ms, Bd b B ∧ B.length ≤ W) (hb : d * W * (rep.p - 1) * b < 2 ^ (w - 1))
    {A : Img d} (hA : Bd (rep.p - 1) A) : ms.foldlM (rep.mul1W w) A = ms.foldlM rep.mul1 A :=
  foldlM_congr _ _ (Bd (rep.p - 1)) ms (fun s hs x hx => mul1W hw hp hs (hm x hx).1 (hm x hx).2 hb) A hA

theorem permImageW_eq (hw : 1 ≤ w) (hp : 2 ≤ rep.p) (hg : ∀ g ∈ rep.gens, Bd 2 g ∧ g.length ≤ 3) (hb : d * 3 * (rep.p - 1) * 2 < 2 ^ (w - 1)) (x : List Nat) :
    rep.permImageW w x = rep.permImage x := by
  rw [Summand.permImageW, Summand.permImage]
  refine bind_congr_ok fun word _ => bind_congr_ok fun ms hm => ?_
  rw [foldW hw hp ms (fun B hB => ?_) hb ((bd_eye d).mono (by omega))]
  obtain ⟨s, -, hs⟩ := mapM_mem_ok hm B hB
  exact hg B (RepBase.lookup_mem hs)

/-- The entries of the table before the final assertion. -/
theorem tab_entries {tab : List (List Nat × Img d)} {xs : List (List Nat)}
    (h : (xs.mapM fun x => (do .ok (x, ← rep.permImage x) : Except Err (List Nat × Img d))) = .ok tab) : ∀ y ∈ tab, y.1 ∈ xs ∧ rep.permImage y.1 = .ok y.2 := by
  intro y hy
  obtain ⟨x, hx, he⟩ := mapM_mem_ok h y hy
  obtain ⟨A, h1, h2⟩ := RepBase.bind_eq_ok he
  cases h2; exact ⟨hx, h1⟩

theorem tableW_eq (hw : 1 ≤ w) (hp : 2 ≤ rep.p) (hg : ∀ g ∈ rep.gens, Bd 2 g ∧ g.length ≤ 3) (hb3 : d * 3 * (rep.p - 1) * 2 < 2 ^ (w - 1))
    (hb : d * W * (rep.p - 1) * (rep.p - 1) < 2 ^ (w - 1)) (hI : ∀ x ∈ Perms.elements rep.n, ∀ A, rep.permImage x = .ok A → Bd (rep.p - 1) A ∧ A.length ≤ W) :
    rep.tableW w = rep.table ∧ ∀ tab, rep.table = .ok tab → TabBd (rep.p - 1) W tab := by
  have hT : ∀ tab, ((Perms.elements rep.n).mapM fun x => (do .ok (x, ← rep.permImage x) : Except Err (List Nat × Img d))) = .ok tab → TabBd (rep.p - 1) W tab :=
    fun tab h y hy => hI _ (tab_entries h y hy).1 _ (tab_entries h y hy).2
  constructor
  · rw [Summand.tableW, Summand.table]
    simp only [permImageW_eq hw hp hg hb3]
    refine bind_congr_ok fun tab htab => bind_congr_ok fun x hx => ?_
    obtain ⟨x1, x2⟩ := hT tab htab _ (dictGet_mem hx)
    rw [(mul1W hw hp x1 x1 x2 hb).1]
  · intro tab h
    rw [Summand.table] at h
    obtain ⟨tab', h1, h⟩ := RepBase.bind_eq_ok h
    obtain ⟨_, -, h⟩ := RepBase.bind_eq_ok h
    obtain ⟨_, -, h⟩ := RepBase.bind_eq_ok h
    obtain ⟨_, -, h⟩ := RepBase.bind_eq_ok h
    obtain ⟨_, -, h⟩ := RepBase.bind_eq_ok h
    cases h; exact hT _ h1

section
variable (hw : 1 ≤ w) (hp : 2 ≤ rep.p) (hb : d * W * (rep.p - 1) * (rep.p - 1) < 2 ^ (w - 1)) (hT : rep.tableW w = rep.table)
  (hT' : ∀ tab, rep.table = .ok tab → TabBd (rep.p - 1) W tab) (hW : 1 ≤ W)
include hT

theorem evalStartW_eq (xs : List NF) : evalStartW w tbl rep xs = evalStart tbl rep xs := by
  rw [evalStartW, evalStart, hT]

omit hT in
include hT' hp hW in
theorem evalStart_bd {xs : List NF} {y : Nat × List (List (List Nat)) × List (List Nat × Img d) × PArr (Fin xs.length) d d} (h : evalStart tbl rep xs = .ok y) :
    0 < xs.length ∧ TabBd (rep.p - 1) W y.2.2.1 ∧ Bd (rep.p - 1) y.2.2.2 := by
  rw [evalStart] at h
  obtain ⟨x0, h0, h⟩ := RepBase.bind_eq_ok h
  obtain ⟨_, -, h⟩ := RepBase.bind_eq_ok h
  obtain ⟨_, -, h⟩ := RepBase.bind_eq_ok h
  obtain ⟨tab, ht, h⟩ := RepBase.bind_eq_ok h
  obtain ⟨anti, ha, h⟩ := RepBase.bind_eq_ok h
  obtain ⟨A, hA, h⟩ := RepBase.bind_eq_ok h
  cases h
  refine ⟨RepBase.lookup_pos h0, hT' tab ht, (packL_bd (W := W) hA fun X hX => ?_).1⟩
  obtain ⟨x, -, rfl⟩ := List.mem_map.1 hX
  split
  · exact ⟨(bd_eye d).mono (by omega), by simpa [eye] using hW⟩
  · exact hT' tab ht _ (dictGet_mem ha)

include hw hp hb hT' hW

theorem evalSameW_eq (xs : List NF) : evalSameW w tbl rep xs = evalSame tbl rep xs := by
  rw [evalSameW, evalSame, evalStartW_eq hT]
  refine bind_congr_ok fun y hy => ?_
  obtain ⟨hL, y1, y2⟩ := evalStart_bd hp hT' hW hy
  exact foldlM_congr _ _ (Bd (rep.p - 1)) _ (fun s hs k _ => stepW hw hp y1 hb hL _ hs k) _ y2

theorem evalPrefixesW_eq (xs : List NF) : evalPrefixesW w tbl rep xs = evalPrefixes tbl rep xs := by
  rw [evalPrefixesW, evalPrefixes, evalStartW_eq hT]
  refine bind_congr_ok fun y hy => ?_
  obtain ⟨hL, y1, y2⟩ := evalStart_bd hp hT' hW hy
  exact prefixW hw hp y1 hb hL _ _ y2

theorem evaluateBraidsW_eq (xs : List NF) : evaluateBraidsW w tbl rep xs = evaluateBraids tbl rep xs := by
  rw [evaluateBraidsW, evaluateBraids]
  simp only [evalSameW_eq hw hp hb hT hT' hW]

theorem evaluateBraidFactorsW_eq (x : NF) : evaluateBraidFactorsW w tbl rep x = evaluateBraidFactors tbl rep x := by
  rw [evaluateBraidFactorsW, evaluateBraidFactors, hT]
  refine bind_congr_ok fun factors _ => bind_congr_ok fun tab ht => ?_
  have key : ∀ S : Img d, Bd (rep.p - 1) S → (do let ms ← factors.mapM (Dict.get tab); projectivise (← ms.foldlM (rep.mul1W w) S) : Except Err (Img d)) =
      (do let ms ← factors.mapM (Dict.get tab); projectivise (← ms.foldlM rep.mul1 S) : Except Err (Img d)) := by
    intro S hS
    refine bind_congr_ok fun ms hm => ?_
    rw [foldW hw hp ms (fun B hB => ?_) hb hS]
    obtain ⟨f, -, hf⟩ := mapM_mem_ok hm B hB
    exact hT' tab ht _ (dictGet_mem hf)
  dsimp only
  split
  · exact bind_congr_ok fun S hS => key S (by cases hS; exact (bd_eye d).mono (by omega))
  · exact bind_congr_ok fun S hS => key S (hT' tab ht _ (dictGet_mem hS)).1
end

end BraidSearch

open BraidSearch in
/-- Everything the evaluators of `braidsearch.py` compute with machine integers is right modulo a small `p`. -/
theorem summand_mod {n r p w : Nat} (hn : 2 ≤ n) (h : 2 * r ≤ n) (hp : 2 ≤ p) (hw : 4 ≤ w)
    (hb : dimension n r * (n * (n - 1) + 1) * (p - 1) ^ 2 < 2 ^ (w - 1)) {gs : List (Img (dimension n r))} (hs : summand n r p = .ok ⟨n, p, gs⟩) :
    (⟨n, p, gs⟩ : Summand (dimension n r)).tableW w = (⟨n, p, gs⟩ : Summand (dimension n r)).table ∧
    ∀ tab, (⟨n, p, gs⟩ : Summand (dimension n r)).table = .ok tab → TabBd (p - 1) (n * (n - 1) + 1) tab := by
  obtain ⟨ρ, G, I, gs', g1, g2, g3, g4, hF, hd⟩ := C54_hypotheses n r p hn h
  obtain rfl : gs = gs' := by rw [hs] at g3; injection g3 with g3; injection g3
  obtain ⟨a1, a2⟩ := mod_arith hd (by omega) hp hb
  refine tableW_eq (rep := (⟨n, p, gs⟩ : Summand (dimension n r))) (by omega) hp (summand_gens hn h hs) ?_ a2 fun x hx A hA => ?_
  · show dimension n r * 3 * (p - 1) * 2 < 2 ^ (w - 1)
    by_cases h3 : 3 ≤ n
    · have e1 : 7 ≤ n * (n - 1) + 1 := by
        have : 3 * 2 ≤ n * (n - 1) := Nat.mul_le_mul h3 (by omega)
        omega
      have e2 : p - 1 ≤ (p - 1) ^ 2 := Nat.le_self_pow (by norm_num) _
      calc dimension n r * 3 * (p - 1) * 2 = dimension n r * 6 * (p - 1) := by ring
        _ ≤ dimension n r * (n * (n - 1) + 1) * (p - 1) ^ 2 := Nat.mul_le_mul (Nat.mul_le_mul le_rfl (by omega)) e2
        _ < _ := hb
    · obtain rfl : n = 2 := by omega
      have hd1 : dimension 2 r = 1 := by
        have : r = 0 ∨ r = 1 := by omega
        rcases this with rfl | rfl <;> decide
      rw [hd1] at hb ⊢
      by_cases hp2 : p = 2
      · subst hp2
        calc 1 * 3 * (2 - 1) * 2 < 2 ^ 3 := by norm_num
          _ ≤ 2 ^ (w - 1) := Nat.pow_le_pow_right (by norm_num) (by omega)
      · obtain ⟨q, rfl⟩ : ∃ q, p = q + 3 := ⟨p - 3, by omega⟩
        have : q + 3 - 1 = q + 2 := by omega
        rw [this] at hb ⊢
        nlinarith
  · obtain ⟨π, rfl⟩ := (elements_mem x).1 hx
    obtain ⟨B, b1, b2⟩ := permImage_spec (rep := (⟨n, p, gs⟩ : Summand (dimension n r))) g4 hd (show p ≠ 1 by omega) π
    rw [b1] at hA; cases hA
    obtain ⟨u, u1, u2, u3, u4⟩ := lift_word (n := n) π
    obtain ⟨N, n1, n2⟩ := jones_small (by omega) h g1 g2 u u1
    have b3 : IsProjImage p A fun _ => ρ (lift π) := b2
    rw [u3, n2] at b3
    have := width_le n1 b3
    exact ⟨bd_of_reduced (by show p ≠ 0; omega) b2.reduced, by omega⟩

end Peyl
