import Verif.Props.GnfPair
import Verif.Lemmas.PosWords
import Verif.Lemmas.FullTwist
import Verif.Props.Permutations
/-!
# The word `artin_word` returns (C14)
-/
namespace Peyl
open Perms
variable {lim : Nat} {ω : List Nat → List Nat → Nat → Nat} {n : Nat}

namespace WordForm
theorem mapM_get {α γ : Type} {f : α → Except Err γ} : ∀ {l : List α} {bs : List γ}, l.mapM f = .ok bs → bs.length = l.length ∧ ∀ i (h : i < l.length) (h' : i < bs.length), f l[i] = .ok bs[i]
  | [], bs, h => by
    rw [List.mapM_nil] at h
    cases h
    exact ⟨rfl, fun i h => absurd h (by simp)⟩
  | a :: l, bs, h => by
    rw [List.mapM_cons, bind_eq_ok] at h
    obtain ⟨c, hc, h⟩ := h
    rw [bind_eq_ok] at h
    obtain ⟨cs, hcs, h⟩ := h
    cases h
    obtain ⟨h1, h2⟩ := mapM_get hcs
    refine ⟨by simp [h1], fun i hi hi' => ?_⟩
    cases i with
    | zero => exact hc
    | succ i => exact h2 i (by simpa using hi) (by simpa using hi')

theorem entry {t : NFTable (List Nat)} (h : GNF.tbl lim ω n = .ok t) {i : Nat} (hi : i < (elements n).length) :
    ∃ u, shortlex (elements n)[i] = .ok u ∧ lookup t.artinWord i = .ok (u.map fun s => (s, (1 : ℤ))) := by
  rw [GNF.tbl, PermTable.create] at h
  split at h
  · cases h
  · simp only [PermTable.build, bind_eq_ok] at h
    obtain ⟨_, _, _, _, _, _, _, _, _, _, _, _, _, _, _, _, aw, haw, h⟩ := h
    cases h
    obtain ⟨h1, h2⟩ := mapM_get haw
    have h3 := h2 i hi (by rw [h1]; exact hi)
    rw [bind_eq_ok] at h3
    obtain ⟨u, hu, h3⟩ := h3
    injection h3 with h3
    exact ⟨u, hu, by rw [lookup_lt (by rw [h1]; exact hi), ← h3]⟩
theorem range_rev (n : Nat) : (List.range n).reverse = longestElement n := by
  refine List.ext_getElem (by simp [longestElement]) fun i h1 h2 => ?_
  simp only [List.getElem_reverse, List.getElem_range, longestElement, List.getElem_map, List.length_range]
  omega
end WordForm
open WordForm

/-- C14: the word `x.artin_word()` returns is the shortlex word of the half twist (reversed, with exponents -1, when the infimum is
negative) as often as the infimum says, followed by the shortlex words of the canonical factors in order, with exponents 1. -/
theorem C14_artin_word_form (hn : 2 ≤ n) (hl : n < lim) (x : NF) (hx : IsGNF lim ω n x) : ∃ ds fs us,
    shortlex (List.range n).reverse = .ok ds ∧ NF.canonicalFactors (GNF.tbl lim ω) x = .ok fs ∧ fs.mapM shortlex = .ok us ∧
    NF.artinWord (GNF.tbl lim ω) x = .ok ((List.replicate (NF.inf x).natAbs (if NF.inf x < 0 then ds.reverse.map fun s => (s, (-1 : ℤ)) else ds.map fun s => (s, (1 : ℤ)))).flatten ++
      us.flatten.map fun s => (s, (1 : ℤ))) := by
  obtain ⟨t, R⟩ := exists_greal lim ω hn hl
  have hx' := R.isGNF_iff.1 hx
  have hD : t.D < (elements n).length := by rw [elements_length, ← R.2.1]; exact R.1.spec.D_lt
  obtain ⟨ds, d1, d2⟩ := entry R.1.ok hD
  have hDv : permAt n t.D = w0 n := R.1.spec.v_D
  rw [permAt_spec hD, hDv, ← longestElement_eq] at d1
  have key : ∀ fs : List Nat, TableSpec.InR t fs → ∃ us, (fs.map fun f => wordOf (permAt n f)).mapM shortlex = .ok us ∧ fs.mapM (lookup t.divs) = .ok (fs.map fun f => wordOf (permAt n f)) ∧
      fs.mapM (lookup t.artinWord) = .ok (us.map fun u => u.map fun s => (s, (1 : ℤ))) := by
    intro fs
    induction fs with
    | nil => intro _; exact ⟨[], rfl, rfl, rfl⟩
    | cons f fs ih =>
      intro h
      simp only [TableSpec.InR_cons, R.2.1] at h
      rw [← elements_length] at h
      obtain ⟨us, u1, u2, u3⟩ := ih h.2
      obtain ⟨u, v1, v2⟩ := entry R.1.ok h.1
      rw [permAt_spec h.1] at v1
      refine ⟨u :: us, ?_, ?_, ?_⟩
      · rw [List.map_cons, List.mapM_cons, v1, bind_ok, u1, bind_ok]; rfl
      · have e : lookup t.divs f = .ok (wordOf (permAt n f)) := by rw [R.2.2.1, lookup_lt h.1, permAt_spec h.1]
        rw [List.mapM_cons, e, bind_ok, u2, bind_ok]; rfl
      · rw [List.mapM_cons, v2, bind_ok, u3, bind_ok]; rfl
  obtain ⟨us, u1, u2, u3⟩ := key _ hx'.inR
  refine ⟨ds, _, us, by rw [range_rev]; exact d1, ?_, u1, ?_⟩
  · rw [NF.canonicalFactors, hx'.n_eq, R.1.ok, bind_ok, u2]
  · rw [NF.artinWord, hx'.n_eq, R.1.ok, bind_ok, d2, bind_ok, u3, bind_ok]
    rw [NF.inf]
    congr 2
    · split
      · rw [← List.map_reverse, List.map_map]; rfl
      · rfl
    · rw [List.map_flatten]

/-- C14: the number of letters. -/
theorem C14_word_length (hn : 2 ≤ n) (hl : n < lim) (x : NF) (hx : IsGNF lim ω n x) : ∃ w fs, NF.artinWord (GNF.tbl lim ω) x = .ok w ∧ NF.canonicalFactors (GNF.tbl lim ω) x = .ok fs ∧
    w.length = (NF.inf x).natAbs * (n * (n - 1) / 2) + (fs.map Perms.length).sum := by
  obtain ⟨ds, fs, us, d1, f1, u1, w1⟩ := C14_artin_word_form hn hl x hx
  have hw : ∀ π : Equiv.Perm (Fin n), ∀ u, shortlex (wordOf π) = .ok u → u.length = Perms.length (wordOf π) := by
    intro π u hu
    obtain ⟨u', h1, -, h3, -⟩ := C03_shortlex (wordOf π) (isPermWord_wordOf π)
    rw [hu] at h1; cases h1; exact h3
  have hd : ds.length = n * (n - 1) / 2 := by
    have := hw (w0 n) ds (by rw [← longestElement_eq, ← range_rev]; exact d1)
    rw [this, length_eq, inv_w0_eq, Finset.sum_range_id]
  have hfs : ∀ f ∈ fs, ∃ π : Equiv.Perm (Fin n), f = wordOf π := by
    obtain ⟨t, R⟩ := exists_greal lim ω hn hl
    have hx' := R.isGNF_iff.1 hx
    rw [NF.canonicalFactors, hx'.n_eq, R.1.ok, bind_ok, R.2.2.1] at f1
    intro f hf
    obtain ⟨i, -, hi⟩ := mem_mapM_ok f1 f hf
    rw [lookup_ok] at hi
    exact (elements_mem f).1 (List.mem_of_getElem? hi)
  have hus : ∀ (fs us : List (List Nat)), (∀ f ∈ fs, ∃ π : Equiv.Perm (Fin n), f = wordOf π) → fs.mapM shortlex = .ok us → us.flatten.length = (fs.map Perms.length).sum := by
    intro fs
    induction fs with
    | nil => intro us _ h; rw [List.mapM_nil] at h; cases h; rfl
    | cons f fs ih =>
      intro us hf h
      rw [List.mapM_cons, bind_eq_ok] at h
      obtain ⟨c, hc, h⟩ := h
      rw [bind_eq_ok] at h
      obtain ⟨cs, hcs, h⟩ := h
      cases h
      obtain ⟨π, rfl⟩ := hf f (by simp)
      rw [List.flatten_cons, List.length_append, ih cs (fun g hg => hf g (by simp [hg])) hcs, hw π c hc]
      simp
  refine ⟨_, fs, w1, f1, ?_⟩
  rw [List.length_append, List.length_map, hus fs us hfs u1, List.length_flatten, List.map_replicate, List.sum_replicate, ← hd]
  congr 1
  split <;> simp

/-- C14: `magma_artin_word` lists the same letters counted from 1, signed: first the half twists, then the factors. -/
theorem C14_magma_form (hn : 2 ≤ n) (hl : n < lim) (x : NF) (hx : IsGNF lim ω n x) : ∃ ds fs us,
    shortlex (List.range n).reverse = .ok ds ∧ NF.canonicalFactors (GNF.tbl lim ω) x = .ok fs ∧ fs.mapM shortlex = .ok us ∧
    NF.magmaArtinWord (GNF.tbl lim ω) x = .ok ((List.replicate (NF.inf x).natAbs (if NF.inf x < 0 then ds.reverse.map fun s : Nat => -((s : ℤ) + 1) else ds.map fun s : Nat => (s : ℤ) + 1)).flatten ++
      us.flatten.map fun s : Nat => (s : ℤ) + 1) := by
  obtain ⟨ds, fs, us, d1, f1, u1, w1⟩ := C14_artin_word_form hn hl x hx
  refine ⟨ds, fs, us, d1, f1, u1, ?_⟩
  rw [NF.magmaArtinWord, w1, bind_ok, pyAssert, if_pos, bind_ok]
  · congr 1
    rw [List.map_append, List.map_flatten, List.map_replicate, List.map_map]
    congr 2
    · congr 1
      split <;> simp [List.map_map, Function.comp_def]
    · simp [Function.comp_def]
  · simp only [List.all_append, Bool.and_eq_true, List.all_eq_true]
    refine ⟨fun se hse => ?_, fun se hse => ?_⟩
    · obtain ⟨l, hl, hse⟩ := List.mem_flatten.1 hse
      rw [List.eq_of_mem_replicate hl] at hse
      split at hse
      · obtain ⟨s, -, rfl⟩ := List.mem_map.1 hse; rfl
      · obtain ⟨s, -, rfl⟩ := List.mem_map.1 hse; rfl
    · obtain ⟨s, -, rfl⟩ := List.mem_map.1 hse; rfl

/-- The hypotheses are met: a braid with negative infimum and one factor. -/
example : IsGNF 7 (fun _ _ _ => 0) 3 ⟨3, -2, [1]⟩ ∧ NF.artinWord (GNF.tbl 7 fun _ _ _ => 0) ⟨3, -2, [1]⟩ =
    .ok [(0, -1), (1, -1), (0, -1), (0, -1), (1, -1), (0, -1), (1, 1)] := by
  refine ⟨⟨by decide, by decide +kernel⟩, by decide +kernel⟩

end Peyl
