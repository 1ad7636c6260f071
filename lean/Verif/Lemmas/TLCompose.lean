import Verif.Spec.TL
import Mathlib.Order.Interval.Finset.Nat
/-!
# Stacking crossingless matchings
-/
namespace Peyl
namespace TL

/-- Following a strand from `x`: along the matching, and while the point reached is in the glued block `[L-j, L+j)`, jump to the
mirror image and go on. -/
inductive Path (M : Nat → Nat) (L j : Nat) : Nat → Nat → List Nat → Prop
  | done {x : Nat} : ¬ (L - j ≤ M x ∧ M x < L + j) → Path M L j x (M x) []
  | step {x y : Nat} {ms : List Nat} : (L - j ≤ M x ∧ M x < L + j) → Path M L j (2 * L - 1 - M x) y ms →
      Path M L j x y (M x :: ms)

variable {M : Nat → Nat} {L j N : Nat}

theorem Path.det {x y y' : Nat} {ms ms' : List Nat} (h : Path M L j x y ms) (h' : Path M L j x y' ms') : y = y' ∧ ms = ms' := by
  induction h generalizing y' ms' with
  | done hx => cases h' with
    | done => exact ⟨rfl, rfl⟩
    | step hx' => exact absurd hx' hx
  | step hx _ ih => cases h' with
    | done hx' => exact absurd hx hx'
    | step _ h2 => obtain ⟨rfl, rfl⟩ := ih h2; exact ⟨rfl, rfl⟩

theorem Path.end_out {x y : Nat} {ms : List Nat} (h : Path M L j x y ms) : ¬ (L - j ≤ y ∧ y < L + j) := by
  induction h with
  | done hx => exact hx
  | step _ _ ih => exact ih

theorem Path.mem {x y : Nat} {ms : List Nat} (h : Path M L j x y ms) : ∀ q ∈ ms, L - j ≤ q ∧ q < L + j := by
  induction h with
  | done hx => simp
  | step hx _ ih => intro q hq; rcases List.mem_cons.1 hq with rfl | hq; exacts [hx, ih q hq]

theorem Path.nodup_aux {x y : Nat} {ms : List Nat} (h : Path M L j x y ms) :
    ms.Nodup ∧ ∀ q ∈ ms, ∃ ms', ms'.length < ms.length ∧ Path M L j (2 * L - 1 - q) y ms' := by
  induction h with
  | done hx => simp
  | @step x y ms hx hp ih =>
    refine ⟨List.nodup_cons.2 ⟨fun hm => ?_, ih.1⟩, fun q hq => ?_⟩
    · obtain ⟨ms', hl, hp'⟩ := ih.2 _ hm
      rw [(hp.det hp').2] at hl; omega
    · rcases List.mem_cons.1 hq with rfl | hq
      · exact ⟨ms, by simp, hp⟩
      · obtain ⟨ms', hl, hp'⟩ := ih.2 _ hq
        exact ⟨ms', by simp; omega, hp'⟩

theorem Path.length_le {x y : Nat} {ms : List Nat} (h : Path M L j x y ms) : ms.length ≤ 2 * j := by
  have h1 : ms.toFinset ⊆ Finset.Ico (L - j) (L + j) := fun q hq => by
    rw [List.mem_toFinset] at hq; simpa using h.mem q hq
  have h2 := Finset.card_le_card h1
  rw [List.toFinset_card_of_nodup h.nodup_aux.1, Nat.card_Ico] at h2
  omega

theorem Path.mono {x y : Nat} {ms : List Nat} (h : Path M L j x y ms) (hy : ¬ (L - (j + 1) ≤ y ∧ y < L + (j + 1))) :
    ∃ ms', Path M L (j + 1) x y ms' := by
  induction h with
  | done hx => exact ⟨[], .done hy⟩
  | step hx _ ih => obtain ⟨ms', h'⟩ := ih hy; exact ⟨_, .step (by omega) h'⟩

theorem Path.splice {x y z : Nat} {ms ms2 : List Nat} (h : Path M L j x y ms) (hy : L - (j + 1) ≤ y ∧ y < L + (j + 1))
    (h2 : Path M L (j + 1) (2 * L - 1 - y) z ms2) : ∃ ms', Path M L (j + 1) x z ms' := by
  induction h with
  | done hx => exact ⟨_, .step hy h2⟩
  | step hx _ ih => obtain ⟨ms', h'⟩ := ih hy h2; exact ⟨_, .step (by omega) h'⟩

/-- What is left outside the glued block is matched without crossings by following strands. -/
structure Reduced (M : Nat → Nat) (L j N : Nat) (R : Nat → Nat) : Prop where
  lt : ∀ x, x < N → ¬ (L - j ≤ x ∧ x < L + j) → R x < N
  out : ∀ x, x < N → ¬ (L - j ≤ x ∧ x < L + j) → ¬ (L - j ≤ R x ∧ R x < L + j)
  nofix : ∀ x, x < N → ¬ (L - j ≤ x ∧ x < L + j) → R x ≠ x
  invol : ∀ x, x < N → ¬ (L - j ≤ x ∧ x < L + j) → R (R x) = x
  noncross : ∀ a b, a < N → b < N → ¬ (L - j ≤ a ∧ a < L + j) → ¬ (L - j ≤ b ∧ b < L + j) → a < b → b < R a → R a < R b → False
  path : ∀ x, x < N → ¬ (L - j ≤ x ∧ x < L + j) → ∃ ms, Path M L j x (R x) ms

theorem Reduced.zero (h : NCMatching N M) : Reduced M L 0 N M where
  lt x hx _ := h.lt x hx
  out x hx _ := by omega
  nofix x hx _ := h.nofix x hx
  invol x hx _ := h.invol x hx
  noncross a b ha hb _ _ := h.noncross a b ha hb
  path x hx _ := ⟨[], .done (by omega)⟩

/-- `x` lies strictly between the ends `w`, `w'` of an arc. -/
def In (w w' x : Nat) : Prop := (w < x ∧ x < w') ∨ (w' < x ∧ x < w)

theorem Reduced.side {R : Nat → Nat} (h : Reduced M L j N R) (w x : Nat) (hw : w < N) (hw' : ¬ (L - j ≤ w ∧ w < L + j))
    (hx : x < N) (hx' : ¬ (L - j ≤ x ∧ x < L + j)) (h1 : x ≠ w) (h2 : x ≠ R w) (hi : In w (R w) x) : In w (R w) (R x) := by
  have iw := h.invol w hw hw'
  have ix := h.invol x hx hx'
  have lw := h.lt w hw hw'
  have lx := h.lt x hx hx'
  have ow := h.out w hw hw'
  have ox := h.out x hx hx'
  have n1 : R x ≠ w := fun e => h2 (by rw [← e, ix])
  have n2 : R x ≠ R w := fun e => h1 (by rw [← ix, e, iw])
  have q1 := h.noncross w x hw hx hw' hx'
  have q2 := h.noncross (R x) w lx hw ox hw'
  have q3 := h.noncross (R x) (R w) lx lw ox ow
  have q4 := h.noncross (R w) x lw hx ow hx'
  rw [ix] at q2 q3
  rw [iw] at q3 q4
  unfold In at hi ⊢
  rcases hi with ⟨a, b⟩ | ⟨a, b⟩
  · have := q1 a b
    by_contra hc
    by_cases hlt : R x < w
    · exact q2 hlt a b
    · exact this (by omega)
  · have := q4 a b
    by_contra hc
    by_cases hlt : R x < R w
    · exact q3 hlt a b
    · exact this (by omega)

theorem Reduced.side_iff {R : Nat → Nat} (h : Reduced M L j N R) (w x : Nat) (hw : w < N) (hw' : ¬ (L - j ≤ w ∧ w < L + j))
    (hx : x < N) (hx' : ¬ (L - j ≤ x ∧ x < L + j)) (h1 : x ≠ w) (h2 : x ≠ R w) : In w (R w) x ↔ In w (R w) (R x) := by
  refine ⟨h.side w x hw hw' hx hx' h1 h2, fun hi => ?_⟩
  have := h.side w (R x) hw hw' (h.lt x hx hx') (h.out x hx hx') (fun e => h2 (by rw [← e, h.invol x hx hx']))
    (fun e => h1 (by rw [← h.invol x hx hx', e, h.invol w hw hw'])) hi
  rwa [h.invol x hx hx'] at this

theorem Reduced.adj {R : Nat → Nat} (h : Reduced M L j N R) (hjL : j + 1 ≤ L) (hjN : L + (j + 1) ≤ N) (w : Nat) (hw : w < N)
    (hw' : ¬ (L - (j + 1) ≤ w ∧ w < L + (j + 1))) (h1 : R w ≠ L - j - 1) (h2 : R w ≠ L + j) :
    In w (R w) (R (L - j - 1)) ↔ In w (R w) (R (L + j)) := by
  have ow := h.out w hw (by omega)
  rw [← h.side_iff w (L - j - 1) hw (by omega) (by omega) (by omega) (by omega) (by omega),
    ← h.side_iff w (L + j) hw (by omega) (by omega) (by omega) (by omega) (by omega)]
  unfold In
  omega

theorem Reduced.succ {R : Nat → Nat} (h : Reduced M L j N R) (hjL : j + 1 ≤ L) (hjN : L + (j + 1) ≤ N) :
    ∃ R', Reduced M L (j + 1) N R' := by
  have hk : L - j - 1 < N ∧ ¬ (L - j ≤ L - j - 1 ∧ L - j - 1 < L + j) := by omega
  have hk' : L + j < N ∧ ¬ (L - j ≤ L + j ∧ L + j < L + j) := by omega
  generalize hkk : L - j - 1 = k at hk
  generalize hkk' : L + j = k' at hk'
  have e1 : 2 * L - 1 - k = k' := by omega
  have e2 : 2 * L - 1 - k' = k := by omega
  have inv_ne : ∀ x y, x < N → ¬ (L - j ≤ x ∧ x < L + j) → y < N → ¬ (L - j ≤ y ∧ y < L + j) → R x = y → R y = x :=
    fun x y hx hx' _ _ e => e ▸ h.invol x hx hx'
  have o1 := h.out k hk.1 (by omega)
  have o2 := h.out k' hk'.1 (by omega)
  have f1 := h.nofix k hk.1 (by omega)
  have f2 := h.nofix k' hk'.1 (by omega)
  have i1 := h.invol k hk.1 (by omega)
  have i2 := h.invol k' hk'.1 (by omega)
  have l1 := h.lt k hk.1 (by omega)
  have l2 := h.lt k' hk'.1 (by omega)
  -- chords never cross, in symmetric form
  have nc : ∀ a b, a < N → b < N → ¬ (L - j ≤ a ∧ a < L + j) → ¬ (L - j ≤ b ∧ b < L + j) →
      ¬ (a < b ∧ b < R a ∧ R a < R b) := fun a b h1 h2 h3 h4 h5 => h.noncross a b h1 h2 h3 h4 h5.1 h5.2.1 h5.2.2
  refine ⟨fun x => if R x = k then R k' else if R x = k' then R k else R x, ?_, ?_, ?_, ?_, ?_, ?_⟩
  · intro x hx hx'
    have := h.lt x hx (by omega)
    split_ifs <;> assumption
  · intro x hx hx'
    have hxo := h.out x hx (by omega)
    have hxi := h.invol x hx (by omega)
    split_ifs with c1 c2
    · rw [c1] at hxi
      intro hc
      have : R k' = k ∨ R k' = k' := by omega
      rcases this with hc | hc
      · rw [hc] at i2; omega
      · exact f2 hc
    · rw [c2] at hxi
      intro hc
      have : R k = k ∨ R k = k' := by omega
      rcases this with hc | hc
      · exact f1 hc
      · rw [hc] at i1; omega
    · omega
  · intro x hx hx'
    have hxi := h.invol x hx (by omega)
    have hxf := h.nofix x hx (by omega)
    split_ifs with c1 c2
    · intro hc; rw [c1] at hxi; rw [hc] at i2; omega
    · intro hc; rw [c2] at hxi; rw [hc] at i1; omega
    · exact hxf
  · intro x hx hx'
    have hxi := h.invol x hx (by omega)
    have hxf := h.nofix x hx (by omega)
    by_cases c1 : R x = k
    · rw [c1] at hxi
      rw [if_pos c1, i2, if_neg (by omega), if_pos rfl, hxi]
    · by_cases c2 : R x = k'
      · rw [c2] at hxi
        rw [if_neg c1, if_pos c2, i1, if_pos rfl, hxi]
      · rw [if_neg c1, if_neg c2, hxi, if_neg (by omega), if_neg (by omega)]
  · intro a b ha hb ha' hb' hab hbra hrr
    have ha2 : ¬ (L - j ≤ a ∧ a < L + j) := by omega
    have hb2 : ¬ (L - j ≤ b ∧ b < L + j) := by omega
    have la := h.lt a ha ha2
    have lb := h.lt b hb (by omega)
    have oa := h.out a ha (by omega)
    have ob := h.out b hb (by omega)
    have ia := h.invol a ha (by omega)
    have ib := h.invol b hb (by omega)

    have hA : ∀ w, w < N → ¬ (L - (j + 1) ≤ w ∧ w < L + (j + 1)) → R w ≠ k → R w ≠ k' → (In w (R w) (R k) ↔ In w (R w) (R k')) := by
      intro w w1 w2 w3 w4
      subst hkk hkk'
      exact h.adj hjL hjN w w1 w2 w3 w4
    have A1 := hA a ha ha'
    have A2 := hA b hb hb'
    clear hA
    unfold In at A1 A2
    by_cases c1 : R a = k
    · rw [if_pos c1] at hbra hrr
      rw [c1] at ia
      by_cases d1 : R b = k
      · rw [d1] at ib; omega
      · by_cases d2 : R b = k'
        · rw [d2] at ib; omega
        · rw [if_neg d1, if_neg d2] at hrr
          have := A2 d1 d2
          clear A1 A2 nc inv_ne
          omega
    · by_cases c2 : R a = k'
      · rw [if_neg c1, if_pos c2] at hbra hrr
        rw [c2] at ia
        by_cases d1 : R b = k
        · rw [d1] at ib; omega
        · by_cases d2 : R b = k'
          · rw [d2] at ib; omega
          · rw [if_neg d1, if_neg d2] at hrr
            have := A2 d1 d2
            clear A1 A2 nc inv_ne
            omega
      · rw [if_neg c1, if_neg c2] at hbra hrr
        have := A1 c1 c2
        clear A1 A2
        by_cases d1 : R b = k
        · rw [if_pos d1] at hrr
          rw [d1] at ib
          omega
        · by_cases d2 : R b = k'
          · rw [if_neg d1, if_pos d2] at hrr
            rw [d2] at ib
            omega
          · rw [if_neg d1, if_neg d2] at hrr
            exact nc a b ha hb ha2 hb2 ⟨hab, hbra, hrr⟩
  · intro x hx hx'
    obtain ⟨ms, hp⟩ := h.path x hx (by omega)
    have hxi := h.invol x hx (by omega)
    by_cases c1 : R x = k
    · rw [if_pos c1]
      rw [c1] at hp hxi
      obtain ⟨ms2, hp2⟩ := h.path k' hk'.1 (by omega)
      have hne : R k' ≠ k := fun e => by rw [e] at i2; omega
      obtain ⟨ms3, hp3⟩ := hp2.mono (by omega)
      exact hp.splice (ms2 := ms3) (by omega) (by rw [e1]; exact hp3)
    · by_cases c2 : R x = k'
      · rw [if_neg c1, if_pos c2]
        rw [c2] at hp hxi
        obtain ⟨ms2, hp2⟩ := h.path k hk.1 (by omega)
        have hne : R k ≠ k' := fun e => by rw [e] at i1; omega
        obtain ⟨ms3, hp3⟩ := hp2.mono (by omega)
        exact hp.splice (ms2 := ms3) (by omega) (by rw [e2]; exact hp3)
      · rw [if_neg c1, if_neg c2]
        have := h.out x hx (by omega)
        exact hp.mono (by omega)

theorem exists_reduced (h : NCMatching N M) (hL : j ≤ L) (hN : L + j ≤ N) : ∃ R, Reduced M L j N R := by
  induction j with
  | zero => exact ⟨M, .zero h⟩
  | succ j ih => obtain ⟨R, hR⟩ := ih (by omega) (by omega); exact hR.succ hL hN

end TL
end Peyl
