import Verif.Lemmas.MachineLKB
import Verif.Props.MachineEval
/-!
# The bulk evaluators of `LKBRep` with machine integers (C135)
-/
namespace Peyl
open Polymat LaurentPolynomial
variable {lim : Nat} {ω : List Nat → List Nat → Nat → Nat} {n p : Nat} {q t : LPoly} {rep : RepBase (LKB.dimension n)}

/-- C135: modulo `p`, as long as `dim * (n (n - 1) / 2 * (|deg t| + n |deg q|) + 1) * (p - 1)^2 < 2^63`, where `dim = n (n - 1) / 2`, the evaluators of
`LKBRep(n, p, q, t)` never overflow on GNFs, however long the braids are: they return the projectivised matrices of the braids, and nothing
differs from exact integers. -/
theorem C135_lkb_mod_p {ρ : Braid n →* LMat p (LKB.dimension n)} (hq : q.Trimmed) (ht : t.Trimmed) (hqu : q.isUnit = true) (htu : t.isUnit = true)
    (hn : 2 ≤ n) (hl : n < lim) (hp : 2 ≤ p) (H : IsLKB n p q t rep ρ)
    (hb : n * (n - 1) / 2 * (n * (n - 1) / 2 * (t.val.natAbs + n * q.val.natAbs) + 1) * (p - 1) ^ 2 < 2 ^ 63) :
    (∀ (xs : List NF) (len : Nat), xs ≠ [] → (∀ x ∈ xs, IsGNF lim ω n x ∧ NF.canonicalLength x = len) →
      ∃ A, rep.evalSameW 64 (GNF.tbl lim ω) xs = .ok A ∧ IsProjImage p A fun i => ρ (gnfBraid n xs[i])) ∧
    (∀ xs : List NF, (∀ x ∈ xs, IsGNF lim ω n x) → rep.evalSameW 64 (GNF.tbl lim ω) xs = rep.evalSame (GNF.tbl lim ω) xs) ∧
    (∀ x : NF, IsGNF lim ω n x → rep.evalOneW 64 (GNF.tbl lim ω) x = rep.evalOne (GNF.tbl lim ω) x) ∧
    (∀ seqs : List (List Nat), rep.evalIntegersW 64 (GNF.tbl lim ω) seqs = rep.evalIntegers (GNF.tbl lim ω) seqs) := by
  have H0 := H
  obtain ⟨G, I, rfl, h2, -, h4, -⟩ := H.main hq ht hqu htu hn
  obtain ⟨tb, R⟩ := exists_greal lim ω hn hl
  have hpos : ∀ w ∈ tb.artinWord, ∀ ie ∈ w, 0 ≤ ie.2 := fun w hw ie hie => by rw [gnf_words R.1.ok w hw ie hie]; omega
  have hdim : n * (n - 1) / 2 = LKB.dimension n := (Nat.choose_two_right n).symm
  obtain ⟨c1, c2⟩ := gnf_mod (lim := lim) (ω := ω) (w := 64) hn hl hp h2 (dimension_pos hn) (by norm_num) (H0.size hq ht hqu htu) (by
    rw [← hdim]; exact hb)
  have k1 : ∀ xs : List NF, (∀ x ∈ xs, IsGNF lim ω n x) → (⟨n, p, G, G⟩ : RepBase (LKB.dimension n)).evalSameW 64 (GNF.tbl lim ω) xs =
      (⟨n, p, G, G⟩ : RepBase (LKB.dimension n)).evalSame (GNF.tbl lim ω) xs := fun xs hx => by
    rw [RepBase.evalSameW_pos (I := I) R.1.ok hpos, RepBase.evalSame_pos (I := I) R.1.ok hpos]; exact c1 xs hx
  refine ⟨fun xs len hne hx => ?_, k1, fun x hx => RepBase.evalOneW_eq (k1 [x] (by simpa using hx)), fun seqs => ?_⟩
  · obtain ⟨A, a1, a2⟩ := C105_same_length hq ht hqu htu hn hl (by omega) H0 xs hne len hx
    exact ⟨A, by rw [k1 xs fun x hm => (hx x hm).1]; exact a1, a2⟩
  · rw [RepBase.evalIntegersW_pos (I := I) R.1.ok hpos, RepBase.evalIntegers_pos (I := I) R.1.ok hpos]; exact c2 seqs

/-- `LKBRep(4, p, v^7, v^5)`, the degrees of the project's test, is safe for all `p` up to 87000000. -/
example : 4 * 3 / 2 * (4 * 3 / 2 * ((5 : ℤ).natAbs + 4 * (7 : ℤ).natAbs) + 1) * (87000000 - 1) ^ 2 < 2 ^ 63 := by decide +kernel
example := (C135_lkb_mod_p (lim := 7) (ω := pop0) (by decide) (by decide) (by decide) (by decide) (by decide) (by decide) (by decide) (C105_exists (n := 3) (q := ⟨7, [1]⟩) (t := ⟨5, [-1]⟩) (by decide) (by decide) (by decide) (by decide) (by decide) 13).choose_spec.choose_spec (by decide +kernel)).1 _ 3 (by decide) gnfAB

theorem lkb_wordsBd {G : List Matrix} {ρ : Braid n →* LMat 0 (LKB.dimension n)} (hq : q.Trimmed) (ht : t.Trimmed) (hqu : q.isUnit = true) (htu : t.isUnit = true)
    (H : IsLKB n 0 q t ⟨n, 0, G, G⟩ ρ) : WordsBd ρ 27 (5 ^ 27) := fun {α A b} hA hb => by
  refine bd_size (ρ := ρ) (b := b) (D := 27 * LKB.degSpan n q t) hA fun a => ?_
  obtain ⟨u, u1, u2, u3⟩ := hb a
  rw [u3]
  exact (SizeB.word (H.size hq ht hqu htu) u u1).mono (Nat.mul_le_mul_right _ u2) (Nat.pow_le_pow_right (by norm_num) u2)

/-- C135: over the integers (`p = 0`) the evaluators of `LKBRep` do not overflow on GNFs with at most 27 crossings (the half twist counts once if its
exponent is odd). -/
theorem C135_lkb_integers {ρ : Braid n →* LMat 0 (LKB.dimension n)} (hq : q.Trimmed) (ht : t.Trimmed) (hqu : q.isUnit = true) (htu : t.isUnit = true)
    (hn : 2 ≤ n) (hl : n < lim) (H : IsLKB n 0 q t rep ρ) :
    (∀ (xs : List NF) (len : Nat), xs ≠ [] → (∀ x ∈ xs, IsGNF lim ω n x ∧ NF.canonicalLength x = len ∧
        (x.power % 2).toNat * (n * (n - 1) / 2) + (x.factors.map fun f => inv (permAt n f)).sum ≤ 27) →
      ∃ A, rep.evalSameW 64 (GNF.tbl lim ω) xs = .ok A ∧ rep.evalSame (GNF.tbl lim ω) xs = .ok A ∧ IsProjImage 0 A fun i => ρ (gnfBraid n xs[i])) ∧
    (∀ seqs : List (List Nat), (∀ fs ∈ seqs, (fs.map fun f => inv (permAt n f)).sum ≤ 27) →
      rep.evalIntegersW 64 (GNF.tbl lim ω) seqs = rep.evalIntegers (GNF.tbl lim ω) seqs) := by
  have H0 := H
  obtain ⟨G, I, rfl, h2, -, h4, -⟩ := H.main hq ht hqu htu hn
  obtain ⟨tb, R⟩ := exists_greal lim ω hn hl
  have hpos : ∀ w ∈ tb.artinWord, ∀ ie ∈ w, 0 ≤ ie.2 := fun w hw ie hie => by rw [gnf_words R.1.ok w hw ie hie]; omega
  have hW : WordsBd ρ 27 (5 ^ 27) := lkb_wordsBd hq ht hqu htu H0
  constructor
  · intro xs len hne hx
    obtain ⟨A, a1, a2⟩ := C105_same_length hq ht hqu htu hn hl (by norm_num) H0 xs hne len fun x hm => ⟨(hx x hm).1, (hx x hm).2.1⟩
    refine ⟨A, ?_, a1, a2⟩
    rw [RepBase.evalSameW_pos (I := I) R.1.ok hpos, gnf_int_same (w := 64) hn hl hW (by norm_num) h2 (dimension_pos hn) (by norm_num) xs fun x hm => ⟨(hx x hm).1, (hx x hm).2.2⟩,
      ← RepBase.evalSame_pos (I := I) R.1.ok hpos]
    exact a1
  · intro seqs hs
    rw [RepBase.evalIntegersW_pos (I := I) R.1.ok hpos, RepBase.evalIntegers_pos (I := I) R.1.ok hpos]
    exact gnf_int_integers (w := 64) hn hl hW (by norm_num) h2 (dimension_pos hn) (by norm_num) seqs hs

theorem shortBraids27 : ∀ x ∈ ([⟨3, -2, [3, 4, 2]⟩, ⟨3, 1, [4, 2, 2]⟩] : List NF), IsGNF 7 pop0 3 x ∧ NF.canonicalLength x = 3 ∧
    (x.power % 2).toNat * (3 * (3 - 1) / 2) + (x.factors.map fun f => inv (permAt 3 f)).sum ≤ 27 := by
  intro x hx
  obtain ⟨h1, h2⟩ := gnfAB x hx
  have hinv : ∀ f, inv (permAt 3 f) ≤ 3 := fun f => by
    obtain ⟨u, -, u2, -, u4⟩ := lift_word (permAt 3 f)
    omega
  refine ⟨h1, h2, ?_⟩
  rw [NF.canonicalLength] at h2
  have h3 : (x.factors.map fun f => inv (permAt 3 f)).sum ≤ (x.factors.map fun f => inv (permAt 3 f)).length * 3 :=
    List.sum_le_card_nsmul _ 3 fun y hy => by obtain ⟨f, -, rfl⟩ := List.mem_map.1 hy; exact hinv f
  rw [List.length_map, h2] at h3
  have : (x.power % 2).toNat ≤ 1 := by omega
  omega

example := (C135_lkb_integers (lim := 7) (ω := pop0) (by decide) (by decide) (by decide) (by decide) (by decide) (by decide) (C105_exists (n := 3) (q := ⟨7, [1]⟩) (t := ⟨5, [-1]⟩) (by decide) (by decide) (by decide) (by decide) (by decide) 0).choose_spec.choose_spec).1 _ 3 (by decide) shortBraids27

end Peyl
