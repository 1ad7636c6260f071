import Verif.Lemmas.NParDesc
import Mathlib.GroupTheory.Perm.List
/-!
# Artin words of band generators and noncrossing partitions
-/
namespace Peyl
open Equiv Perms TL
variable {n : Nat}

theorem wordBraid_append (u v : List (Nat × Int)) : wordBraid n (u ++ v) = wordBraid n u * wordBraid n v := by
  simp [wordBraid]

theorem bklWord_succ (s k : Nat) : NPar.bklGenToArtinWord s (s + k + 1 + 1) =
    (s + k + 1, 1) :: NPar.bklGenToArtinWord s (s + k + 1) ++ [(s + k + 1, -1)] := by
  unfold NPar.bklGenToArtinWord
  rw [if_neg (by omega), if_neg (by omega), if_neg (by omega), if_neg (by omega)]
  simp only
  rw [show s + k + 1 + 1 - 1 - s = k + 1 by omega, show s + k + 1 + 1 - (s + 1) = k + 1 by omega,
    show s + k + 1 - 1 - s = k by omega, show s + k + 1 - (s + 1) = k by omega, List.range'_1_concat]
  simp [add_comm, add_left_comm]
  omega

theorem bklWord_up (s k : Nat) : wordBraid n (NPar.bklGenToArtinWord s (s + k + 1)) = bandUp n s k ∧
    ∀ se ∈ NPar.bklGenToArtinWord s (s + k + 1), (se.2 = 1 ∨ se.2 = -1) ∧ se.1 < s + k + 1 := by
  induction k with
  | zero =>
    have : NPar.bklGenToArtinWord s (s + 0 + 1) = [(s, 1)] := by
      unfold NPar.bklGenToArtinWord
      rw [if_neg (by omega), if_neg (by omega)]
      simp
    rw [this]; simp [wordBraid, bandUp]
  | succ k ih =>
    rw [show s + (k + 1) + 1 = s + k + 1 + 1 by omega, bklWord_succ]
    constructor
    · rw [wordBraid_append, show (s + k + 1, (1 : Int)) :: NPar.bklGenToArtinWord s (s + k + 1) = [(s + k + 1, (1 : Int))] ++ NPar.bklGenToArtinWord s (s + k + 1) from rfl,
        wordBraid_append, ih.1, bandUp]
      simp [wordBraid]
    · intro se hse
      rw [List.cons_append, List.mem_cons, List.mem_append, List.mem_singleton] at hse
      rcases hse with rfl | h | rfl
      · simp
      · have := ih.2 se h; exact ⟨this.1, by omega⟩
      · simp

theorem bklWord_symm (s t : Nat) : NPar.bklGenToArtinWord s t = NPar.bklGenToArtinWord t s := by
  unfold NPar.bklGenToArtinWord
  by_cases h : s = t
  · rw [if_pos h, if_pos h.symm]
  · rw [if_neg h, if_neg (Ne.symm h)]
    rcases lt_or_gt_of_ne h with h | h
    · rw [if_neg (by omega), if_pos h]
    · rw [if_pos h, if_neg (by omega)]

theorem bklWord_self (s : Nat) : NPar.bklGenToArtinWord s s = [] := by simp [NPar.bklGenToArtinWord]

theorem bklWord_spec (s t : Nat) : wordBraid n (NPar.bklGenToArtinWord s t) = band n s t ∧
    ∀ se ∈ NPar.bklGenToArtinWord s t, (se.2 = 1 ∨ se.2 = -1) ∧ min s t ≤ se.1 ∧ se.1 < max s t := by
  have lo : ∀ s k se, se ∈ NPar.bklGenToArtinWord s (s + k + 1) → s ≤ se.1 := by
    intro s k se h
    unfold NPar.bklGenToArtinWord at h
    rw [if_neg (by omega), if_neg (by omega)] at h
    simp only [List.mem_append, List.mem_map, List.mem_reverse, List.mem_singleton, List.mem_range'_1] at h
    rcases h with (⟨i, hi, rfl⟩ | rfl) | ⟨i, hi, rfl⟩
    · simp only; omega
    · exact le_rfl
    · simp only; omega
  have main : ∀ s t, s < t → wordBraid n (NPar.bklGenToArtinWord s t) = band n s t ∧
    ∀ se ∈ NPar.bklGenToArtinWord s t, (se.2 = 1 ∨ se.2 = -1) ∧ s ≤ se.1 ∧ se.1 < t := by
    intro s t h
    obtain ⟨k, rfl⟩ : ∃ k, t = s + k + 1 := ⟨t - s - 1, by omega⟩
    refine ⟨?_, fun se hse => ⟨((bklWord_up (n := n) s k).2 se hse).1, lo s k se hse, ((bklWord_up (n := n) s k).2 se hse).2⟩⟩
    rw [(bklWord_up s k).1, band, if_neg (by omega), min_eq_left (by omega), max_eq_right (by omega), show s + k + 1 - s - 1 = k by omega]
  rcases lt_trichotomy s t with h | rfl | h
  · rw [min_eq_left h.le, max_eq_right h.le]; exact main s t h
  · rw [bklWord_self]; simp [wordBraid, band]
  · rw [bklWord_symm, min_eq_right h.le, max_eq_left h.le]
    have e : band n s t = band n t s := by
      unfold band; rw [if_neg (by omega), if_neg (by omega), min_comm, max_comm]
    rw [e]; exact main t s h

/-- The transpositions of a block, last one first. -/
def compPairs {α : Type} : List α → List (α × α)
  | [] => []
  | [_] => []
  | x :: y :: l => compPairs (y :: l) ++ [(x, y)]

theorem compPairs_length {α : Type} (l : List α) : (compPairs l).length = l.length - 1 := by
  induction l with
  | nil => rfl
  | cons x l ih =>
    cases l with
    | nil => rfl
    | cons y l => simp only [compPairs, List.length_append, ih, List.length_cons, List.length_nil]; omega

theorem compPairs_map {α β : Type} (f : α → β) (l : List α) : compPairs (l.map f) = (compPairs l).map fun p => (f p.1, f p.2) := by
  induction l with
  | nil => rfl
  | cons x l ih =>
    cases l with
    | nil => rfl
    | cons y l => simp only [List.map_cons, compPairs, List.map_append] at ih ⊢; rw [ih]; rfl

theorem compPairs_lt {α : Type} [LT α] (l : List α) (h : l.Pairwise (· < ·)) : ∀ p ∈ compPairs l, p.1 < p.2 := by
  induction l with
  | nil => simp [compPairs]
  | cons x l ih =>
    cases l with
    | nil => simp [compPairs]
    | cons y l =>
      rw [List.pairwise_cons] at h
      intro p hp
      simp only [compPairs, List.mem_append, List.mem_singleton] at hp
      rcases hp with hp | rfl
      · exact ih h.2 p hp
      · exact h.1 y (by simp)

theorem compPairs_prod (l : List (Fin n)) : ((compPairs l).map tr).prod = (l.formPerm)⁻¹ := by
  induction l with
  | nil => simp [compPairs]
  | cons x l ih =>
    cases l with
    | nil => simp [compPairs]
    | cons y l =>
      rw [compPairs, List.map_append, List.prod_append, ih, List.formPerm_cons_cons, mul_inv_rev, swap_inv]
      simp [tr]

theorem componentToArtinWord_eq {c : List Nat} (h : c.Pairwise (· < ·)) :
    NPar.componentToArtinWord c = .ok ((compPairs c).flatMap fun p => NPar.bklGenToArtinWord p.1 p.2) := by
  have hs : c.insertionSort (· ≤ ·) = c := List.Pairwise.insertionSort_eq (h.imp fun h => h.le)
  have hn : c.Nodup := h.imp fun h => h.ne
  unfold NPar.componentToArtinWord
  simp only [hs, hn, decide_true, pyAssert, if_true]
  show Except.ok _ = _
  congr 1
  clear hs hn h
  induction c with
  | nil => rfl
  | cons x c ih =>
    cases c with
    | nil => rfl
    | cons y c =>
      rw [compPairs, List.flatMap_append, ← ih]
      rw [show (x :: y :: c).length - 1 = (c.length + 1) by simp, List.range_succ_eq_map, List.reverse_cons, List.flatMap_append,
        show (y :: c).length - 1 = c.length by simp, ← List.map_reverse, List.flatMap_map]
      rfl

theorem formPerm_prod_fix (cs : List (List (Fin n))) (b : Fin n) (hb : b ∉ cs.flatten) : (cs.map fun c => (c.formPerm)⁻¹).prod b = b := by
  induction cs with
  | nil => rfl
  | cons c cs ih =>
    simp only [List.flatten_cons, List.mem_append, not_or] at hb
    rw [List.map_cons, List.prod_cons, Perm.mul_apply, ih hb.2, Perm.inv_eq_iff_eq]
    exact (List.formPerm_apply_of_notMem hb.1).symm

theorem formPerm_prod_apply (cs : List (List (Fin n))) (hnd : cs.flatten.Nodup) {c : List (Fin n)} (hc : c ∈ cs) {b : Fin n} (hb : b ∈ c) :
    (cs.map fun c => (c.formPerm)⁻¹).prod b = (c.formPerm)⁻¹ b := by
  induction cs with
  | nil => simp at hc
  | cons d cs ih =>
    rw [List.flatten_cons, List.nodup_append] at hnd
    rw [List.map_cons, List.prod_cons, Perm.mul_apply]
    rcases List.mem_cons.1 hc with rfl | hc
    · rw [formPerm_prod_fix cs b (fun h => hnd.2.2 b hb b h rfl)]
    · rw [ih hnd.2.1 hc, Perm.inv_eq_iff_eq]
      have hm : (c.formPerm)⁻¹ b ∈ c := by
        apply List.mem_of_formPerm_apply_mem
        rw [inv_apply]; exact hb
      exact (List.formPerm_apply_of_notMem (fun h => hnd.2.2 _ h _ (List.mem_flatten.2 ⟨c, hc, hm⟩) rfl)).symm

/-- The Artin word of a noncrossing partition spells its dual lift. -/
theorem npar_artinWord {x : Perm (Fin n)} (hx : NCP x) : ∃ w, (nparOf x).artinWord = .ok w ∧
    (∀ se ∈ w, (se.2 = 1 ∨ se.2 = -1) ∧ se.1 + 1 < n) ∧ wordBraid n w = dlift x := by
  obtain ⟨cs, h1, h2, h3⟩ := components_spec hx
  have hlt : ∀ c ∈ cs, ∀ k ∈ c, k < n := fun c hc k hk => decomp_lt h2 hc hk
  -- the blocks as lists of `Fin n`
  obtain ⟨fs, hfs⟩ : ∃ fs : List (List (Fin n)), fs.map (fun c => c.map Fin.val) = cs := by
    have one : ∀ c : List Nat, (∀ k ∈ c, k < n) → ∃ f : List (Fin n), f.map Fin.val = c := by
      intro c
      induction c with
      | nil => intro _; exact ⟨[], rfl⟩
      | cons k c ih =>
        intro h
        obtain ⟨f, hf⟩ := ih (fun j hj => h j (by simp [hj]))
        exact ⟨⟨k, h k (by simp)⟩ :: f, by simp [hf]⟩
    clear h1 h2 h3
    induction cs with
    | nil => exact ⟨[], rfl⟩
    | cons c cs ih =>
      obtain ⟨f, hf⟩ := one c (hlt c (by simp))
      obtain ⟨fs, hfs⟩ := ih (fun d hd => hlt d (by simp [hd]))
      exact ⟨f :: fs, by simp [hf, hfs]⟩
  subst hfs
  have hcs : ∀ f ∈ fs, f.map Fin.val ∈ fs.map (fun c => c.map Fin.val) := fun f hf => List.mem_map.2 ⟨f, hf, rfl⟩
  have hmv : ∀ (f : List (Fin n)) (k : Fin n), (k : Nat) ∈ f.map Fin.val ↔ k ∈ f := by
    intro f k
    rw [List.mem_map]
    constructor
    · rintro ⟨j, hj, e⟩; rw [← Fin.ext e]; exact hj
    · intro h; exact ⟨k, h, rfl⟩
  have hfl : (fs.map (fun c => c.map Fin.val)).flatten = fs.flatten.map Fin.val := by rw [List.map_flatten]
  have hnd : fs.flatten.Nodup := by
    have := decomp_nodup h2
    rw [hfl] at this; exact List.Nodup.of_map _ this
  set W : List (Fin n × Fin n) := fs.flatMap compPairs with hW
  refine ⟨W.flatMap fun p => NPar.bklGenToArtinWord p.1 p.2, ?_, ?_, ?_⟩
  · rw [NPar.artinWord, h1, bind_ok, TL.mapM_ok (g := fun c => (compPairs c).flatMap fun p => NPar.bklGenToArtinWord p.1 p.2) _ _
      (fun c hc => componentToArtinWord_eq (h3.ascending c hc)), bind_ok]
    congr 1
    rw [List.map_map, hW, List.flatMap_assoc, ← List.flatMap_def]
    congr 1
    funext f
    simp only [Function.comp, compPairs_map, List.flatMap_map]
  · intro se hse
    obtain ⟨p, hp, hse⟩ := List.mem_flatMap.1 hse
    have := (bklWord_spec (n := n) p.1 p.2).2 se hse
    refine ⟨this.1, ?_⟩
    have h1 := p.1.2; have h2 := p.2.2
    omega
  · have hwb : wordBraid n (W.flatMap fun p => NPar.bklGenToArtinWord p.1 p.2) = (W.map fun p => band n p.1 p.2).prod := by
      clear hW
      clear_value W
      induction W with
      | nil => simp [wordBraid]
      | cons p W ih => rw [List.flatMap_cons, wordBraid_append, ih, (bklWord_spec _ _).1]; rfl
    rw [hwb, dlift_eq hx]
    rw [← red_iff_min]
    refine ⟨fun p hp => ?_, ?_, ?_⟩
    · obtain ⟨f, hf, hp⟩ := List.mem_flatMap.1 hp
      refine compPairs_lt f ?_ p hp
      have := h3.ascending _ (hcs f hf)
      rw [List.pairwise_map] at this
      exact this
    · have hprod : (W.map tr).prod = (fs.map fun c => (c.formPerm)⁻¹).prod := by
        rw [hW]
        clear hW hwb
        clear h1 h2 h3 hlt hcs hfl hnd W
        induction fs with
        | nil => rfl
        | cons f fs ih => rw [List.flatMap_cons, List.map_append, List.prod_append, ih, compPairs_prod, List.map_cons, List.prod_cons]
      rw [hprod]
      apply Equiv.ext
      intro b
      obtain ⟨c, hc, hbc, -⟩ := (h3.block b b).1 (Setoid.refl' _ b)
      obtain ⟨f, hf, rfl⟩ := List.mem_map.1 hc
      have hxb : ((x b : Fin n) : Nat) ∈ f.map Fin.val := by
        obtain ⟨d, hd, k1, k2⟩ := (h3.block b (x b)).1 (Perm.sameCycle_apply_right.2 (.refl _ _))
        obtain ⟨i, hi, e1⟩ := List.mem_iff_getElem.1 hc
        obtain ⟨j, hj, e2⟩ := List.mem_iff_getElem.1 hd
        have := decomp_index h2 hi hj (x := (b : Nat)) (by rw [e1]; exact hbc) (by rw [e2]; exact k1)
        subst this
        rw [← e1, e2]; exact k2
      rw [formPerm_prod_apply fs hnd hf ((hmv f b).1 hbc), Perm.inv_eq_iff_eq]
      obtain ⟨i, hi, e⟩ := List.mem_iff_getElem.1 ((hmv f _).1 hxb)
      have hfn : f.Nodup := (List.nodup_flatten.1 hnd).1 f hf
      have hcyc := h2.cycle _ hc
      have hlt' : ∀ k ∈ f.map Fin.val, k < n := hlt _ hc
      have key : x⁻¹ (x b) = f.formPerm (x b) := by
        rw [← e, List.formPerm_apply_getElem _ hfn i hi]
        apply Fin.ext
        by_cases hl : i + 1 < f.length
        · have st := cycle_step hcyc hlt' (i := i) (by simpa using hl)
          simp only [List.getElem_map, Fin.eta] at st
          simp only [Nat.mod_eq_of_lt hl]
          exact st
        · have st := cycle_last hcyc hlt' (i := i) (by simp; omega)
          simp only [List.getElem_map, Fin.eta] at st
          simp only [show i + 1 = f.length by omega, Nat.mod_self]
          exact st
      rw [apply_inv] at key
      exact key
    · show W.length = rlen x
      have hsum : ∀ fs : List (List (Fin n)), (∀ f ∈ fs, f ≠ []) → (fs.flatMap compPairs).length + fs.length = fs.flatten.length := by
        intro fs
        induction fs with
        | nil => intro _; rfl
        | cons f fs ih =>
          intro h
          have := ih (fun g hg => h g (by simp [hg]))
          have hp : 0 < f.length := List.length_pos_iff.2 (h f (by simp))
          simp only [List.flatMap_cons, List.length_append, List.length_cons, List.flatten_cons, compPairs_length]
          omega
      have e1 := hsum fs (fun f hf e => h3.nonempty _ (hcs f hf) (by rw [e]; rfl))
      have e2 := h3.cover.length_eq
      rw [hfl, List.length_map, List.length_range] at e2
      have e3 := rlen_add x⁻¹
      rw [decomp_finrank h2, rlen_inv, List.length_map] at e3
      rw [hW]; omega

end Peyl
