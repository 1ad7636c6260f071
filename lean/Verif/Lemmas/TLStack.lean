import Verif.Lemmas.TLCompose
import Verif.Lemmas.TLMatch
import Verif.Lemmas.RepEval
/-!
# `compose` follows strands and counts loops
-/
namespace Peyl
namespace TL

variable {M : Nat → Nat} {L j N : Nat}

theorem Path.closed (hM : NCMatching N M) (hL : j ≤ L) (hN : L + j ≤ N) {x y : Nat} {ms : List Nat} (hx : x < N)
    (h : Path M L j x y ms) : y < N ∧ (M x = y ∨ M x ∈ ms) ∧ (M y = x ∨ ∃ q ∈ ms, M y = 2 * L - 1 - q) ∧
      ∀ q ∈ ms, (M q = x ∨ ∃ q' ∈ ms, M q = 2 * L - 1 - q') ∧ (M (2 * L - 1 - q) = y ∨ M (2 * L - 1 - q) ∈ ms) := by
  induction h with
  | @done x hx' => exact ⟨hM.lt x hx, Or.inl rfl, Or.inl (hM.invol x hx), by simp⟩
  | @step x y ms hx' hp ih =>
    obtain ⟨h1, h2, h3, h4⟩ := ih (by omega)
    refine ⟨h1, Or.inr (by simp), ?_, ?_⟩
    · right
      rcases h3 with h3 | ⟨q, hq, h3⟩
      · exact ⟨M x, by simp, h3⟩
      · exact ⟨q, by simp [hq], h3⟩
    · intro q hq
      rcases List.mem_cons.1 hq with rfl | hq
      · refine ⟨Or.inl (hM.invol x hx), ?_⟩
        rcases h2 with h2 | h2
        · exact Or.inl h2
        · exact Or.inr (by simp [h2])
      · obtain ⟨a, b⟩ := h4 q hq
        constructor
        · right
          rcases a with a | ⟨q', hq', a⟩
          · exact ⟨M x, by simp, a⟩
          · exact ⟨q', by simp [hq'], a⟩
        · rcases b with b | b
          · exact Or.inl b
          · exact Or.inr (by simp [b])

/-- One step in the folded picture. -/
def JStep (M : Nat → Nat) (L j N : Nat) (x y : Nat) : Prop :=
  (x < N ∧ y = M x) ∨ ((L - j ≤ x ∧ x < L + j) ∧ y = 2 * L - 1 - x)

/-- Joined in the folded picture. -/
def Jn (M : Nat → Nat) (L j N : Nat) : Nat → Nat → Prop := Relation.EqvGen (JStep M L j N)

theorem Jn.closed (hM : NCMatching N M) (hL : j ≤ L) (X : Nat → Prop) (h1 : ∀ x, x < N → X x → X (M x))
    (h2 : ∀ x, (L - j ≤ x ∧ x < L + j) → X x → X (2 * L - 1 - x)) {x y : Nat} (h : Jn M L j N x y) : X x ↔ X y := by
  induction h with
  | rel x y h =>
    rcases h with ⟨hx, rfl⟩ | ⟨hx, rfl⟩
    · exact ⟨h1 x hx, fun h => by have := h1 _ (hM.lt x hx) h; rwa [hM.invol x hx] at this⟩
    · refine ⟨h2 x hx, fun h => ?_⟩
      have := h2 _ (by omega) h
      rwa [show 2 * L - 1 - (2 * L - 1 - x) = x by omega] at this
  | refl => exact Iff.rfl
  | symm _ _ _ ih => exact ih.symm
  | trans _ _ _ _ _ ih1 ih2 => exact ih1.trans ih2

theorem Jn.arc {x : Nat} (hx : x < N) : Jn M L j N x (M x) := .rel _ _ (Or.inl ⟨hx, rfl⟩)

theorem Jn.cap {x : Nat} (hx : L - j ≤ x ∧ x < L + j) : Jn M L j N x (2 * L - 1 - x) := .rel _ _ (Or.inr ⟨hx, rfl⟩)

theorem Jn.refl (x : Nat) : Jn M L j N x x := Relation.EqvGen.refl _

theorem Jn.symm {x y : Nat} (h : Jn M L j N x y) : Jn M L j N y x := Relation.EqvGen.symm _ _ h

theorem Jn.trans {x y z : Nat} (h : Jn M L j N x y) (h' : Jn M L j N y z) : Jn M L j N x z := Relation.EqvGen.trans _ _ _ h h'

theorem Path.joined (hN : L + j ≤ N) (hL : j ≤ L) {x y : Nat} {ms : List Nat} (hx : x < N) (h : Path M L j x y ms) :
    Jn M L j N x y ∧ ∀ q ∈ ms, Jn M L j N x q := by
  induction h with
  | done h => exact ⟨Jn.arc hx, by simp⟩
  | @step x y ms hx' hp ih =>
    obtain ⟨h1, h2⟩ := ih (by omega)
    have h0 := (Jn.arc (M := M) (L := L) (j := j) hx)
    have h3 := h0.trans (Jn.cap hx')
    refine ⟨h3.trans h1, fun q hq => ?_⟩
    rcases List.mem_cons.1 hq with rfl | hq
    · exact h0
    · exact h3.trans (h2 q hq)

/-- Everything joined to `x` is on the strand from `x`. -/
theorem Path.reach (hM : NCMatching N M) (hL : j ≤ L) (hN : L + j ≤ N) {x y z : Nat} {ms : List Nat} (hx : x < N)
    (h : Path M L j x y ms) (hxo : ¬ (L - j ≤ x ∧ x < L + j)) (hj : Jn M L j N x z) :
    z = x ∨ z = y ∨ z ∈ ms ∨ ∃ q ∈ ms, z = 2 * L - 1 - q := by
  obtain ⟨h1, h2, h3, h4⟩ := h.closed hM hL hN hx
  have hm := h.mem
  have hyo := h.end_out
  have key := Jn.closed hM hL (fun w => w = x ∨ w = y ∨ w ∈ ms ∨ ∃ q ∈ ms, w = 2 * L - 1 - q) (x := x) (y := z) ?_ ?_ hj
  · exact key.1 (Or.inl rfl)
  · rintro w hw (rfl | rfl | h | ⟨q, hq, rfl⟩)
    · rcases h2 with h2 | h2
      · exact Or.inr (Or.inl h2)
      · exact Or.inr (Or.inr (Or.inl h2))
    · rcases h3 with h3 | h3
      · exact Or.inl h3
      · exact Or.inr (Or.inr (Or.inr h3))
    · rcases (h4 w h).1 with h | h
      · exact Or.inl h
      · exact Or.inr (Or.inr (Or.inr h))
    · rcases (h4 q hq).2 with h | h
      · exact Or.inr (Or.inl h)
      · exact Or.inr (Or.inr (Or.inl h))
  · rintro w hw (rfl | rfl | h | ⟨q, hq, rfl⟩)
    · exact absurd hw hxo
    · exact absurd hw hyo
    · exact Or.inr (Or.inr (Or.inr ⟨w, h, rfl⟩))
    · have := hm q hq
      rw [show 2 * L - 1 - (2 * L - 1 - q) = q by omega]
      exact Or.inr (Or.inr (Or.inl hq))

/-- An outer point joined to `x` is `x` itself or the end of the strand from `x`. -/
theorem Path.unique (hM : NCMatching N M) (hL : j ≤ L) (hN : L + j ≤ N) {x y z : Nat} {ms : List Nat} (hx : x < N)
    (h : Path M L j x y ms) (hxo : ¬ (L - j ≤ x ∧ x < L + j)) (hz : ¬ (L - j ≤ z ∧ z < L + j)) (hj : Jn M L j N x z) : z = x ∨ z = y := by
  have hm := h.mem
  rcases h.reach hM hL hN hx hxo hj with h | h | h | ⟨q, hq, h⟩
  · exact Or.inl h
  · exact Or.inr h
  · exact absurd (hm z h) hz
  · have := hm q hq; omega

/-! ### The two diagrams on one line -/

/-- The lower points followed by the upper points. -/
def fold (upper lower : List Nat) (x : Nat) : Nat :=
  if x < lower.length then at_ lower x else lower.length + at_ upper (x - lower.length)

theorem fold_nc {upper lower : List Nat} (hu : Crossingless upper) (hl : Crossingless lower) :
    NCMatching (lower.length + upper.length) (fold upper lower) := by
  unfold fold
  refine ⟨fun i hi => ?_, fun i hi => ?_, fun i hi => ?_, fun a b ha hb h1 h2 h3 => ?_⟩
  · split
    · next h => have := hl.lt i h; omega
    · have := hu.lt (i - lower.length) (by omega); omega
  · split
    · next h => exact hl.nofix i h
    · have := hu.nofix (i - lower.length) (by omega); omega
  · by_cases h : i < lower.length
    · rw [if_pos h, if_pos (hl.lt i h), hl.invol i h]
    · rw [if_neg h, if_neg (by omega), Nat.add_sub_cancel_left, hu.invol _ (by omega)]; omega
  · by_cases h : a < lower.length
    · rw [if_pos h] at h2 h3
      have := hl.lt a h
      rw [if_pos (by omega)] at h3
      exact hl.noncross a b h (by omega) h1 h2 h3
    · rw [if_neg h] at h2 h3
      rw [if_neg (by omega)] at h3
      exact hu.noncross (a - lower.length) (b - lower.length) (by omega) (by omega) (by omega) (by omega) (by omega)

/-- The middle point a glued position belongs to, in the numbering of the upper diagram. -/
def midIdx (L q : Nat) : Nat := if q < L then L - q - 1 else q - L

/-- The positions recorded while following a strand. -/
def markAll (L : Nat) (vis : List Bool) (ms : List Nat) : List Bool := ms.foldl (fun vis q => vis.set (midIdx L q) true) vis

theorem markAll_length (L : Nat) (vis : List Bool) (ms : List Nat) : (markAll L vis ms).length = vis.length := by
  unfold markAll
  induction ms generalizing vis with
  | nil => rfl
  | cons q ms ih => rw [List.foldl_cons, ih]; simp

theorem getD_set_true (vis : List Bool) (k v : Nat) (hv : v < vis.length) :
    (vis.set k true).getD v false = true ↔ vis.getD v false = true ∨ k = v := by
  simp only [List.getD_eq_getElem?_getD, List.getElem?_set]
  by_cases h : k = v
  · subst h; simp [hv]
  · simp [h]

theorem markAll_iff (L : Nat) (vis : List Bool) (ms : List Nat) (v : Nat) (hv : v < vis.length) :
    (markAll L vis ms).getD v false = true ↔ vis.getD v false = true ∨ ∃ q ∈ ms, midIdx L q = v := by
  unfold markAll
  induction ms generalizing vis with
  | nil => simp
  | cons q ms ih =>
    rw [List.foldl_cons, ih _ (by simpa using hv), getD_set_true _ _ _ hv]
    simp [or_assoc]

/-- The number in the result of an outer position. -/
def resIdx (L mid y : Nat) : Nat := if y < L - mid then y else y - 2 * mid

theorem follow_spec {upper lower : List Nat} {mid : Nat} (hu : Crossingless upper) (hl : Crossingless lower)
    (h1 : mid ≤ lower.length) (h2 : mid ≤ upper.length) {x y : Nat} {ms : List Nat}
    (h : Path (fold upper lower) lower.length mid x y ms) (hx : x < lower.length + upper.length) (fuel : Nat) (hf : ms.length < fuel) (vis : List Bool) :
    (if x < lower.length then follow upper lower mid fuel x false vis else follow upper lower mid fuel (x - lower.length) true vis) =
      .ok (resIdx lower.length mid y, markAll lower.length vis ms) := by
  have hM := fold_nc hu hl
  induction h generalizing fuel vis with
  | @done x hx' =>
    obtain ⟨fuel, rfl⟩ : ∃ f, fuel = f + 1 := ⟨fuel - 1, by omega⟩
    by_cases hxl : x < lower.length
    · rw [if_pos hxl, follow, lookup_at lower x hxl, bind_ok]
      have e : fold upper lower x = at_ lower x := by simp [fold, hxl]
      rw [e] at hx' ⊢
      have := hl.lt x hxl
      rw [if_pos (by omega), resIdx, if_pos (by omega)]; rfl
    · rw [if_neg hxl, follow, lookup_at upper _ (by omega), bind_ok]
      have e : fold upper lower x = lower.length + at_ upper (x - lower.length) := by simp [fold, hxl]
      rw [e] at hx' ⊢
      rw [if_pos (by omega), resIdx, if_neg (by omega)]
      congr 2
      omega
  | @step x y ms hx' hp ih =>
    obtain ⟨fuel, rfl⟩ : ∃ f, fuel = f + 1 := ⟨fuel - 1, by omega⟩
    rw [List.length_cons] at hf
    have ih' := ih (by omega) fuel (by omega)
    by_cases hxl : x < lower.length
    · rw [if_pos hxl, follow, lookup_at lower x hxl, bind_ok]
      have e : fold upper lower x = at_ lower x := by simp [fold, hxl]
      have hlt := hl.lt x hxl
      rw [e] at hx' ih' ⊢
      rw [if_neg (by omega)]
      have := ih' (vis.set (lower.length - at_ lower x - 1) true)
      rw [if_neg (by omega), show 2 * lower.length - 1 - at_ lower x - lower.length = lower.length - at_ lower x - 1 by omega] at this
      rw [this, markAll, markAll, List.foldl_cons, midIdx, if_pos hlt]
    · rw [if_neg hxl, follow, lookup_at upper _ (by omega), bind_ok]
      have e : fold upper lower x = lower.length + at_ upper (x - lower.length) := by simp [fold, hxl]
      rw [e] at hx' ih' ⊢
      rw [if_neg (by omega)]
      have := ih' (vis.set (at_ upper (x - lower.length)) true)
      rw [if_pos (by omega), show 2 * lower.length - 1 - (lower.length + at_ upper (x - lower.length)) =
        lower.length - at_ upper (x - lower.length) - 1 by omega] at this
      rw [this, markAll, markAll, List.foldl_cons, midIdx, if_neg (by omega), Nat.add_sub_cancel_left]

/-! ### Running round a loop -/

/-- The loop of the code on a component that is closed under `u` and `ψ`. -/
theorem bubbleLoop_spec {upper lower : List Nat} {mid i : Nat} {Z : Nat → Prop} {u ψ : Nat → Nat} (hZ : ∀ w, Z w → w < mid)
    (hu : ∀ w, Z w → Z (u w) ∧ u (u w) = w ∧ u w ≠ w) (hψ : ∀ w, Z w → Z (ψ w) ∧ ψ (ψ w) = w ∧ ψ w ≠ w)
    (lu : ∀ w, Z w → lookup upper w = .ok (u w))
    (ll : ∀ w, Z w → ∃ x, lookup lower (lower.length - w - 1) = .ok x ∧ lower.length - x - 1 = ψ w)
    (vis0 : List Bool) (hlen : vis0.length = mid) (h0 : ∀ w, Z w → vis0.getD w false = false) (fuel : Nat) :
    ∀ (K : List Nat) (v : Nat) (vis : List Bool), mid + 1 ≤ fuel + K.length → vis.length = mid → K.Nodup → (∀ k ∈ K, Z k) → Z v →
      (∀ w, w < mid → (vis.getD w false = true ↔ vis0.getD w false = true ∨ w ∈ K ∨ ∃ k ∈ K, w = u k)) →
      (K = [] ∧ v = i ∨ i ∈ K ∧ (ψ v ∈ K ∨ ∃ k ∈ K, ψ v = u k)) → vis.getD v false = false →
      (∀ w, w ∈ K ∨ (∃ k ∈ K, w = u k) → w = i ∨ ψ w = v ∨ ψ w ∈ K ∨ ∃ k ∈ K, ψ w = u k) →
      ∃ (vis' : List Bool) (K' : List Nat), bubbleLoop upper lower fuel v vis = .ok vis' ∧ vis'.length = mid ∧ i ∈ K' ∧ (∀ k ∈ K', Z k) ∧
        (∀ w, w < mid → (vis'.getD w false = true ↔ vis0.getD w false = true ∨ w ∈ K' ∨ ∃ k ∈ K', w = u k)) ∧
        ∀ w, w ∈ K' ∨ (∃ k ∈ K', w = u k) → ψ w ∈ K' ∨ ∃ k ∈ K', ψ w = u k := by
  induction fuel with
  | zero =>
    intro K v vis hf hl hnd hK hv
    exfalso
    have h1 : K.toFinset ⊆ Finset.range mid := fun k hk => by simpa using hZ k (hK k (by simpa using hk))
    have h2 := Finset.card_le_card h1
    rw [List.toFinset_card_of_nodup hnd, Finset.card_range] at h2
    omega
  | succ fuel ih =>
    intro K v vis hf hl hnd hK hv hvis hstart hnv hcl
    obtain ⟨x, hx1, hx2⟩ := ll (u v) (hu v hv).1
    have hvK : v ∉ K := fun h => by
      have := (hvis v (hZ v hv)).2 (Or.inr (Or.inl h)); rw [hnv] at this; cases this
    have hvuK : ∀ k ∈ K, v ≠ u k := fun k hk h => by
      have := (hvis v (hZ v hv)).2 (Or.inr (Or.inr ⟨k, hk, h⟩)); rw [hnv] at this; cases this
    have huvK : u v ∉ K := fun h => hvuK _ h (hu v hv).2.1.symm
    have huvuK : ∀ k ∈ K, u v ≠ u k := fun k hk h => hvK (by rw [← (hu v hv).2.1, h, (hu k (hK k hk)).2.1]; exact hk)
    have hZv' := (hψ (u v) (hu v hv).1).1
    have hvis' : ∀ w, w < mid → (((vis.set v true).set (u v) true).getD w false = true ↔
        vis0.getD w false = true ∨ w ∈ K ++ [v] ∨ ∃ k ∈ K ++ [v], w = u k) := by
      intro w hw
      rw [getD_set_true _ _ _ (by simpa [hl] using hw), getD_set_true _ _ _ (by simpa [hl] using hw), hvis w hw]
      simp only [List.mem_append, List.mem_singleton]
      constructor
      · rintro (((h | h | ⟨k, hk, h⟩) | h) | h)
        · exact Or.inl h
        · exact Or.inr (Or.inl (Or.inl h))
        · exact Or.inr (Or.inr ⟨k, Or.inl hk, h⟩)
        · exact Or.inr (Or.inl (Or.inr h.symm))
        · exact Or.inr (Or.inr ⟨v, Or.inr rfl, h.symm⟩)
      · rintro (h | (h | h) | ⟨k, hk | hk, h⟩)
        · exact Or.inl (Or.inl (Or.inl h))
        · exact Or.inl (Or.inl (Or.inr (Or.inl h)))
        · exact Or.inl (Or.inr h.symm)
        · exact Or.inl (Or.inl (Or.inr (Or.inr ⟨k, hk, h⟩)))
        · exact Or.inr (by rw [h, hk])
    have hK' : ∀ k ∈ K ++ [v], Z k := by
      intro k hk
      rcases List.mem_append.1 hk with hk | hk
      · exact hK k hk
      · rw [List.mem_singleton.1 hk]; exact hv
    have hiK' : i ∈ K ++ [v] := by
      rcases hstart with ⟨_, h⟩ | ⟨h, _⟩
      · simp [h]
      · simp [h]
    -- one step further in the closure property
    have hcl' : ∀ w, w ∈ K ++ [v] ∨ (∃ k ∈ K ++ [v], w = u k) → w = i ∨ ψ w = ψ (u v) ∨ ψ w ∈ K ++ [v] ∨ ∃ k ∈ K ++ [v], ψ w = u k := by
      intro w hw
      have up : (ψ w ∈ K ∨ ∃ k ∈ K, ψ w = u k) → ψ w ∈ K ++ [v] ∨ ∃ k ∈ K ++ [v], ψ w = u k := by
        rintro (h | ⟨k, hk, h⟩)
        · exact Or.inl (by simp [h])
        · exact Or.inr ⟨k, by simp [hk], h⟩
      have old : w ∈ K ∨ (∃ k ∈ K, w = u k) → w = i ∨ ψ w = ψ (u v) ∨ ψ w ∈ K ++ [v] ∨ ∃ k ∈ K ++ [v], ψ w = u k := by
        intro h
        rcases hcl w h with h | h | h
        · exact Or.inl h
        · exact Or.inr (Or.inr (Or.inl (by simp [h])))
        · exact Or.inr (Or.inr (up h))
      rcases hw with hw | ⟨k, hk, hw⟩
      · rcases List.mem_append.1 hw with hw | hw
        · exact old (Or.inl hw)
        · rw [List.mem_singleton] at hw
          subst hw
          rcases hstart with ⟨_, h⟩ | ⟨_, h⟩
          · exact Or.inl h
          · exact Or.inr (Or.inr (up h))
      · rcases List.mem_append.1 hk with hk | hk
        · exact old (Or.inr ⟨k, hk, hw⟩)
        · rw [List.mem_singleton] at hk
          subst hk
          exact Or.inr (Or.inl (by rw [hw]))
    rw [bubbleLoop, lu v hv, bind_ok, hx1, bind_ok, hx2]
    have hlk : lookup ((vis.set v true).set (u v) true) (ψ (u v)) = .ok (((vis.set v true).set (u v) true).getD (ψ (u v)) false) := by
      rw [lookup_lt _ _ (by simpa [hl] using hZ _ hZv')]
      have hlt : ψ (u v) < ((vis.set v true).set (u v) true).length := by simpa [hl] using hZ _ hZv'
      rw [List.getD_eq_getElem?_getD, List.getElem?_eq_getElem hlt, Option.getD_some]
    dsimp only
    rw [hlk, bind_ok]
    by_cases hstop : ((vis.set v true).set (u v) true).getD (ψ (u v)) false = true
    · rw [if_pos hstop]
      refine ⟨_, K ++ [v], rfl, by simpa using hl, hiK', hK', hvis', fun w hw => ?_⟩
      -- the loop has come back to its start
      have hmem : ψ (u v) ∈ K ++ [v] ∨ ∃ k ∈ K ++ [v], ψ (u v) = u k := by
        rcases (hvis' _ (hZ _ hZv')).1 hstop with h | h
        · rw [h0 _ hZv'] at h; cases h
        · exact h
      have hback : ψ (u v) = i := by
        by_contra hne
        have hpp := (hψ (u v) (hu v hv).1).2.1
        have bad : u v ∈ K ∨ (∃ k ∈ K, u v = u k) → False := by
          rintro (h | ⟨k, hk, h⟩)
          · exact huvK h
          · exact huvuK k hk h
        have old : ψ (u v) ∈ K ∨ (∃ k ∈ K, ψ (u v) = u k) → False := by
          intro h
          rcases hcl _ h with h | h | h
          · exact hne h
          · rw [hpp] at h; exact (hu v hv).2.2 h
          · rw [hpp] at h; exact bad h
        rcases hmem with hm | ⟨k, hk, hm⟩
        · rcases List.mem_append.1 hm with hm | hm
          · exact old (Or.inl hm)
          · rw [List.mem_singleton] at hm
            rcases hstart with ⟨_, h⟩ | ⟨_, h⟩
            · exact hne (hm.trans h)
            · rw [← hm, hpp] at h; exact bad h
        · rcases List.mem_append.1 hk with hk | hk
          · exact old (Or.inr ⟨k, hk, hm⟩)
          · rw [List.mem_singleton] at hk
            subst hk
            exact (hψ (u k) (hu k hv).1).2.2 hm
      rcases hcl' w hw with h | h | h
      · right
        refine ⟨v, by simp, ?_⟩
        rw [h, ← hback, (hψ (u v) (hu v hv).1).2.1]
      · rw [h]; exact hmem
      · exact h
    · rw [if_neg hstop]
      refine ih (K ++ [v]) (ψ (u v)) _ (by simp; omega) (by simpa using hl) ?_ hK' hZv' hvis' (Or.inr ⟨hiK', ?_⟩) (by simpa using hstop) hcl'
      · rw [List.nodup_append]
        refine ⟨hnd, by simp, ?_⟩
        intro a ha b hb
        rw [List.mem_singleton] at hb
        rintro rfl
        exact hvK (hb ▸ ha)
      · rw [(hψ (u v) (hu v hv).1).2.1]
        exact Or.inr ⟨v, by simp, rfl⟩

end TL
end Peyl
