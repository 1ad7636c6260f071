import Verif.Lemmas.Printing
import Verif.Props.Permutations
import Verif.Props.Braid
import Verif.Props.DisplayNF
/-!
# The printed forms of permutations and of Garside normal forms in notebooks (C110, C111)

Vocabulary (Spec/Printing.lean): `Text.cut c s` are the pieces of `s` between the characters `c`, `Text.numbers s` the numbers
in `s`, `Text.signed s` the first number with its sign, `Text.lists c s` the numbers in each of the pieces.
-/
namespace Peyl
open Equiv Perms Adapter Text
variable {n lim : Nat} {ω : List Nat → List Nat → Nat → Nat}

namespace Text

/-- What is between the dollar signs of the printed form of a permutation. -/
theorem perm_latex (π : Perm (Fin n)) : ∃ b u, Perms.latex (wordOf π) = .ok (['$'] ++ b ++ ['$']) ∧ MinWord π⁻¹ u ∧ shortlex (wordOf π) = .ok u ∧
    (∀ c ∈ ['$', ';', ','], c ∉ b) ∧ ∀ A Z, ND A → ND Z → numbers (A ++ b ++ Z) = u := by
  obtain ⟨u, u1, u2⟩ := shortlex_spec π
  by_cases h : π = 1
  · have hi := (isIdentity_iff π).2 h
    refine ⟨['\\', 'm', 'a', 't', 'h', 'r', 'm', '{', 'i', 'd', '}'], u, ?_, u1, u2, by decide, fun A Z hA hZ => ?_⟩
    · rw [Perms.latex, if_pos hi]; rfl
    · rw [numbers_pad hA hZ]
      obtain ⟨-, h4, -⟩ := u1.prod
      have : u.length = 0 := by
        rw [h4, inv_inv, h]; exact inv_one
      rw [List.length_eq_zero_iff.1 this]
      decide
  · have hi : ¬ isIdentity (wordOf π) = true := fun e => h ((isIdentity_iff π).1 e)
    refine ⟨_, u, by rw [Perms.latex, if_neg hi, u2, bind_ok], u1, u2, ?_, fun A Z hA hZ => ?_⟩
    · intro c hc
      refine mem_join (by revert hc; revert c; decide) fun l hl => ?_
      obtain ⟨k, -, rfl⟩ := List.mem_map.1 hl
      have hd : isDig c = false := by revert hc; revert c; decide
      have := not_mem_reprNat hd k
      simp only [List.mem_cons, List.not_mem_nil, or_false] at hc
      rcases hc with rfl | rfl | rfl <;> simp [this]
    · rw [numbers_pad hA hZ]
      refine numbers_join (by decide) (by decide) u _ fun k => ?_
      rw [numbers_pad (by decide) (by decide), numbers_repr]

end Text

/-! ## C110 -/

/-- C110: the notebook form of a permutation is between dollar signs, and the numbers in it are its shortlex word, from which
`from_cox` gets the permutation back. -/
theorem C110_latex (w : List Nat) (hw : IsPermWord w) :
    ∃ b, Perms.latex w = .ok (['$'] ++ b ++ ['$']) ∧ '$' ∉ b ∧ shortlex w = .ok (numbers b) ∧ fromCox w.length (numbers b) = .ok w := by
  obtain ⟨π, hp⟩ := exists_wordOf hw rfl
  obtain ⟨b, u, h1, -, h3, h4, h5⟩ := perm_latex π
  rw [hp] at h1 h3
  have e : numbers b = u := by simpa using h5 [] [] (by simp [ND]) (by simp [ND])
  obtain ⟨u', v1, v2, -⟩ := C03_shortlex w hw
  rw [h3] at v1
  refine ⟨b, h1, h4 _ (by simp), ?_⟩
  rw [e]
  exact ⟨h3, by rw [Except.ok.inj v1]; exact v2⟩

/-- C110: permutations of the same number of points that print the same are equal. -/
theorem C110_injective (w w' : List Nat) (hw : IsPermWord w) (hw' : IsPermWord w') (hl : w.length = w'.length) (h : Perms.latex w = Perms.latex w') :
    w = w' := by
  obtain ⟨b, h1, -, -, h4⟩ := C110_latex w hw
  obtain ⟨b', h1', -, -, h4'⟩ := C110_latex w' hw'
  rw [h1, h1'] at h
  have : b = b' := by simpa using Except.ok.inj h
  subst this
  rw [hl] at h4
  exact Except.ok.inj (h4.symm.trans h4')

example : Perms.latex [2, 0, 1] = .ok "$s_{1} s_{0}$".toList ∧ numbers "$s_{1} s_{0}$".toList = [1, 0] ∧ fromCox 3 [1, 0] = .ok [2, 0, 1] := by decide

/-! ## C111 -/

namespace Text

theorem gnf_parts (πs : List (Perm (Fin n))) : ∃ (bs : List (List Char)) (us : List (List Nat)),
    (πs.map wordOf).mapM (fun w => do .ok (stripDollar (← Perms.latex w))) = (.ok bs : Except Err (List (List Char))) ∧
      List.Forall₂ (fun π u => MinWord π⁻¹ u) πs us ∧
      List.Forall₂ (fun b u => (∀ c ∈ ['$', ';', ','], c ∉ b) ∧ ∀ A Z, ND A → ND Z → numbers (A ++ b ++ Z) = u) bs us := by
  induction πs with
  | nil => exact ⟨[], [], rfl, .nil, .nil⟩
  | cons π πs ih =>
    obtain ⟨bs, us, h1, h2, h3⟩ := ih
    obtain ⟨b, u, k1, k2, -, k4, k5⟩ := perm_latex π
    refine ⟨b :: bs, u :: us, ?_, .cons k2 h2, .cons ⟨k4, k5⟩ h3⟩
    rw [List.map_cons, List.mapM_cons, k1, bind_ok, strip_pad (k4 _ (by simp)), bind_ok, h1, bind_ok]
    rfl

end Text

/-- C111: the notebook form of a braid has one semicolon; before it is the power of the half twist, after it, separated by
commas, are reduced words of the factors, so that the text spells the braid. -/
theorem C111_latex (hn : 2 ≤ n) (hl : n < lim) (x : NF) (hx : IsGNF lim ω n x) :
    ∃ s a b, GNF.latex (GNF.tbl lim ω) x = .ok s ∧ cut ';' s = [a, b] ∧ signed a = x.power ∧
      halfTwist n ^ signed a * ((lists ',' b).map (posWord n)).prod = gnfBraid n x ∧
      (x.factors ≠ [] → (lists ',' b).map (fromCox n) = x.factors.map fun f => .ok (wordOf (permAt n f))) ∧
      (x.factors = [] → lists ',' b = [[]]) := by
  obtain ⟨ws, hws, -, hcd, -⟩ := C94_canonical hn hl x hx
  obtain ⟨bs, us, h1, h2, h3⟩ := gnf_parts (x.factors.map (permAt n))
  rw [List.map_map] at h1
  have e1 : x.factors.map (wordOf ∘ permAt n) = ws := hws.symm
  rw [e1] at h1
  have hmem : ∀ c ∈ ['$', ';', ','], ∀ b ∈ bs, c ∉ b := by
    intro c hc b hb
    obtain ⟨i, hi, rfl⟩ := List.getElem_of_mem hb
    exact (List.forall₂_iff_get.1 h3 |>.2 i hi (by rw [← h3.length_eq]; exact hi)).1 c hc
  have hsplit : ∀ B : List Char, ';' ∉ B → cut ';' (['$', '(', '\\', 'D', 'e', 'l', 't', 'a', '^', '{'] ++ reprInt x.power ++ ['}', ';'] ++ B ++ [')', '$']) =
      [['$', '(', '\\', 'D', 'e', 'l', 't', 'a', '^', '{'] ++ reprInt x.power ++ ['}'], B ++ [')', '$']] := by
    intro B hB
    have e : ['$', '(', '\\', 'D', 'e', 'l', 't', 'a', '^', '{'] ++ reprInt x.power ++ ['}', ';'] ++ B ++ [')', '$'] =
        (['$', '(', '\\', 'D', 'e', 'l', 't', 'a', '^', '{'] ++ reprInt x.power ++ ['}']) ++ ';' :: (B ++ [')', '$']) := by simp
    rw [e, cut_first, cut_of_not_mem]
    · simp [hB]
    · have := not_mem_reprInt (c := ';') (by decide) (by decide) x.power
      simp [this]
  have hsig : signed (['$', '(', '\\', 'D', 'e', 'l', 't', 'a', '^', '{'] ++ reprInt x.power ++ ['}']) = x.power :=
    signed_pad (by decide) (by decide) (by decide) (by decide) _
  refine ⟨_, _, _, by rw [GNF.latex, hcd, bind_ok]; simp only [h1, bind_ok]; rfl,
    hsplit _ (mem_join (by decide) (hmem _ (by simp))), hsig, ?_⟩
  have hlists : bs ≠ [] → lists ',' (joinWith [',', ' '] bs ++ [')', '$']) = us := by
    intro hne
    have := cut_join ',' [] [' '] (by decide) numbers numbers [')', '$'] (by decide) bs hne (hmem _ (by simp)) [] (by decide) (by decide) (by
      intro l hl A hA Z hZ
      obtain ⟨i, hi, rfl⟩ := List.getElem_of_mem hl
      have hq := (List.forall₂_iff_get.1 h3 |>.2 i hi (by rw [← h3.length_eq]; exact hi)).2
      have q1 := hq A Z (by rcases hA with rfl | rfl <;> decide) (by rcases hZ with rfl | rfl <;> decide)
      have q2 := hq [] [] (by decide) (by decide)
      rw [List.nil_append, List.append_nil] at q2
      exact q1.trans q2.symm)
    rw [List.nil_append] at this
    rw [lists]
    refine Eq.trans this ?_
    refine List.ext_getElem (by rw [List.length_map, h3.length_eq]) fun i hi hi' => ?_
    rw [List.getElem_map]
    have q2 := (List.forall₂_iff_get.1 h3 |>.2 i (by simpa using hi) hi').2 [] [] (by decide) (by decide)
    simpa using q2
  have hbl : bs.length = x.factors.length := by rw [h3.length_eq, ← h2.length_eq, List.length_map]
  by_cases hf : x.factors = []
  · have hbs : bs = [] := by rw [← List.length_eq_zero_iff, hbl, hf]; rfl
    have e : lists ',' (joinWith [',', ' '] bs ++ [')', '$']) = [[]] := by rw [hbs]; decide
    refine ⟨?_, fun h => absurd hf h, fun _ => e⟩
    rw [e, gnfBraid, hsig, hf]
    simp [posWord]
  · have hbs : bs ≠ [] := fun h => hf (by rw [← List.length_eq_zero_iff, ← hbl, h]; rfl)
    rw [hlists hbs]
    have hget : ∀ i (hi : i < us.length), ∃ hi' : i < x.factors.length, MinWord (permAt n x.factors[i])⁻¹ us[i] := by
      intro i hi
      have hi' : i < x.factors.length := by rw [← hbl, h3.length_eq]; exact hi
      have := List.forall₂_iff_get.1 h2 |>.2 i (by simpa using hi') hi
      exact ⟨hi', by simpa using this⟩
    have hul : us.length = x.factors.length := by rw [← h3.length_eq, hbl]
    refine ⟨?_, fun _ => ?_, fun h => absurd h hf⟩
    · rw [gnfBraid, hsig]
      congr 2
      refine List.ext_getElem (by simp [hul]) fun i hi _ => ?_
      rw [List.getElem_map, List.getElem_map]
      obtain ⟨hi', hm⟩ := hget i (by simpa using hi)
      obtain ⟨m1, m2, m3⟩ := hm.prod
      rw [_root_.inv_inv] at m1
      rw [inv_inv] at m2
      exact (lift_eq_posWord ⟨m3, m1, m2⟩).symm
    · refine List.ext_getElem (by simp [hul]) fun i hi _ => ?_
      rw [List.getElem_map, List.getElem_map]
      obtain ⟨hi', hm⟩ := hget i (by simpa using hi)
      obtain ⟨m1, m2, m3⟩ := hm.prod
      rw [_root_.inv_inv] at m1
      rw [fromCox_eq _ m3, m1]

/-- C111: braids on the same number of strands that print the same are equal. -/
theorem C111_injective (hn : 2 ≤ n) (hl : n < lim) (x y : NF) (hx : IsGNF lim ω n x) (hy : IsGNF lim ω n y)
    (h : GNF.latex (GNF.tbl lim ω) x = GNF.latex (GNF.tbl lim ω) y) : x = y := by
  obtain ⟨s, a, b, h1, h2, -, h4, -⟩ := C111_latex hn hl x hx
  obtain ⟨s', a', b', h1', h2', -, h4', -⟩ := C111_latex hn hl y hy
  rw [h1, h1'] at h
  cases h
  rw [h2] at h2'
  obtain ⟨rfl, rfl⟩ : a = a' ∧ b = b' := by simpa using h2'
  rw [h4] at h4'
  exact (C15_unique hn hl x y hx hy).2 h4'

example : IsGNF 7 (fun _ _ _ => 0) 3 ⟨3, -2, [4, 3, 1]⟩ ∧
    GNF.latex (GNF.tbl 7 (fun _ _ _ => 0)) ⟨3, -2, [4, 3, 1]⟩ = .ok "$(\\Delta^{-2};s_{1} s_{0}, s_{0} s_{1}, s_{1})$".toList := by decide +kernel

end Peyl
