import Verif.Lemmas.SearchChance
import Verif.Props.BraidSearch
/-!
# C68: the chances of the reservoirs of `braidsearch.Tracker`, for every history
-/
namespace Peyl
namespace BraidSearch
open Bucketing (ex idealAcc Occurs ex_snoc ex_const ex_congr ex_ideal ex_sum)
variable {β : Type} [DecidableEq β] {d : Nat}

/-- The number of sets of a given size that contain a given element. -/
theorem card_with {U : Finset β} {x : β} (hx : x ∈ U) (m : Nat) : ((Finset.powersetCard (m + 1) U).filter fun A => x ∈ A).card = (U.card - 1).choose m := by
  have e : (Finset.powersetCard (m + 1) U).filter (fun A => x ∈ A) = (Finset.powersetCard m (U.erase x)).image (insert x) := by
    ext A
    simp only [Finset.mem_filter, Finset.mem_powersetCard, Finset.mem_image]
    constructor
    · rintro ⟨⟨h1, h2⟩, h3⟩
      exact ⟨A.erase x, ⟨Finset.erase_subset_erase _ h1, by rw [Finset.card_erase_of_mem h3, h2]; rfl⟩, Finset.insert_erase h3⟩
    · rintro ⟨B, ⟨h1, h2⟩, rfl⟩
      have hxB : x ∉ B := fun h => by simpa using h1 h
      refine ⟨⟨Finset.insert_subset hx (h1.trans (Finset.erase_subset _ _)), by rw [Finset.card_insert_of_notMem hxB, h2]⟩, by simp⟩
  rw [e, Finset.card_image_of_injOn, Finset.card_powersetCard, Finset.card_erase_of_mem hx]
  intro A hA B hB h
  have hA' : x ∉ A := fun h' => by simpa using (Finset.mem_powersetCard.1 hA).1 h'
  have hB' : x ∉ B := fun h' => by simpa using (Finset.mem_powersetCard.1 hB).1 h'
  have h2 : (insert x A).erase x = (insert x B).erase x := by rw [h]
  rwa [Finset.erase_insert hA', Finset.erase_insert hB'] at h2

/-- C68 for every history: after any sequence of batches (with any tags) and discarded buckets, the set of braids in a bucket is an exactly uniform sample of the `N`
different braids that were offered to it since it was last discarded: for every family of sets of `min N K` offered braids, the chance that the bucket holds one of them is
the size of the family over the number of all such sets. -/
theorem C68_sample (c : Config (List Nat) β d) (hs : 1 ≤ c.size) (hr : c.rand = some tapeRng) (ops : List (Op β d)) (hv : ∀ b, Op.add b ∈ ops → Valid b)
    (L : Nat) (hL : 1 ≤ L) (hB : ∀ k, 1 ≤ k → k ≤ keptCount c ops → k ∣ L) (T : Nat) (hT : keptCount c ops ≤ T)
    (t : Tag) (ho : offered c ops t ≠ []) (hn : ((offered c ops t).map Offer.braid).Nodup)
    (𝒜 : Finset (Finset β)) (h𝒜 : ∀ A ∈ 𝒜, A ⊆ ((offered c ops t).map Offer.braid).toFinset ∧ A.card = min (offered c ops t).length c.size) :
    tapeChance L T (ContentsIn c ops t 𝒜) = 𝒜.card / ((offered c ops t).length.choose (min (offered c ops t).length c.size) : ℚ) := by
  have h1 := tapeChance_run hs hr hL ops hB hv t T hT ho hn (fun l => l.toFinset ∈ 𝒜)
  have h2 : tapeChance L T (ContentsIn c ops t 𝒜) = _ := h1
  rw [h2]
  have hb : ((offered c ops t).map fun o => (⟨o.braid, o.image, 1⟩ : Bucketing.Offer β d)).map Bucketing.Offer.braid = (offered c ops t).map Offer.braid := by
    rw [List.map_map]; rfl
  have e : (fun l : List β => if l.toFinset ∈ 𝒜 then (1 : ℚ) else 0) = fun l => ∑ A ∈ 𝒜, if l.toFinset = A then (1 : ℚ) else 0 := by
    funext l; rw [Finset.sum_ite_eq]
  rw [e, ex_sum, Finset.sum_congr rfl fun A hA => ex_ideal hs _ (by rw [hb]; exact hn) A (by rw [hb]; exact (h𝒜 A hA).1) (by rw [List.length_map]; exact (h𝒜 A hA).2),
    Finset.sum_const, nsmul_eq_mul, List.length_map]
  ring

/-- C68 for every history, one item: each of the `N` braids offered to a bucket since it was last discarded is in it with chance exactly `min 1 (K / N)`. -/
theorem C68_item (c : Config (List Nat) β d) (hs : 1 ≤ c.size) (hr : c.rand = some tapeRng) (ops : List (Op β d)) (hv : ∀ b, Op.add b ∈ ops → Valid b)
    (L : Nat) (hL : 1 ≤ L) (hB : ∀ k, 1 ≤ k → k ≤ keptCount c ops → k ∣ L) (T : Nat) (hT : keptCount c ops ≤ T)
    (t : Tag) (hn : ((offered c ops t).map Offer.braid).Nodup) (x : β) (hx : x ∈ (offered c ops t).map Offer.braid) :
    tapeChance L T (Retained c ops t x) = min 1 (c.size / (offered c ops t).length : ℚ) := by
  have ho : offered c ops t ≠ [] := by intro e; rw [e] at hx; cases hx
  have h1 := tapeChance_run hs hr hL ops hB hv t T hT ho hn (fun l => x ∈ l)
  have h2 : tapeChance L T (Retained c ops t x) = _ := h1
  rw [h2]
  have hb : ((offered c ops t).map fun o => (⟨o.braid, o.image, 1⟩ : Bucketing.Offer β d)).map Bucketing.Offer.braid = (offered c ops t).map Offer.braid := by
    rw [List.map_map]; rfl
  have hU : ((offered c ops t).map Offer.braid).toFinset.card = (offered c ops t).length := by rw [List.toFinset_card_of_nodup hn, List.length_map]
  have hN : 1 ≤ (offered c ops t).length := List.length_pos_iff.2 ho
  obtain ⟨m, hm⟩ : ∃ m, min (offered c ops t).length c.size = m + 1 := ⟨min (offered c ops t).length c.size - 1, by omega⟩
  rw [ex_congr (idealAcc c.size) (G := fun l => ∑ A ∈ (Finset.powersetCard (m + 1) ((offered c ops t).map Offer.braid).toFinset).filter (fun A => x ∈ A),
      if l.toFinset = A then (1 : ℚ) else 0) _ [] [] ⟨by simp, by simp, by simp⟩ (by rw [List.nil_append, hb]; exact hn), ex_sum,
    Finset.sum_congr rfl fun A hA => ex_ideal hs _ (by rw [hb]; exact hn) A ?_ ?_, Finset.sum_const, card_with (List.mem_toFinset.2 hx), nsmul_eq_mul, List.length_map, hm, hU]
  · have hc := Nat.add_one_mul_choose_eq ((offered c ops t).length - 1) m
    rw [Nat.sub_add_cancel hN] at hc
    have hc' : ((offered c ops t).length : ℚ) * (((offered c ops t).length - 1).choose m : ℚ) = ((offered c ops t).length.choose (m + 1) : ℚ) * (m + 1) := by exact_mod_cast hc
    have hp : (0 : ℚ) < ((offered c ops t).length.choose (m + 1) : ℚ) := by exact_mod_cast Nat.choose_pos (by omega)
    have hN0 : (0 : ℚ) < (offered c ops t).length := by exact_mod_cast hN
    have : min 1 (c.size / (offered c ops t).length : ℚ) = (m + 1) / (offered c ops t).length := by
      rcases le_total (offered c ops t).length c.size with h | h
      · rw [min_eq_left h] at hm
        rw [min_eq_left (by rw [one_le_div hN0]; exact_mod_cast h)]
        have : ((offered c ops t).length : ℚ) = m + 1 := by exact_mod_cast hm
        rw [← this, div_self hN0.ne']
      · rw [min_eq_right h] at hm
        rw [min_eq_right (by rw [div_le_one hN0]; exact_mod_cast h), hm]
        push_cast; rfl
    rw [this]
    field_simp
    linarith
  · rw [hb]; exact (Finset.mem_powersetCard.1 (Finset.mem_filter.1 hA).1).1
  · rw [List.length_map, hm]; exact (Finset.mem_powersetCard.1 (Finset.mem_filter.1 hA).1).2
  · intro l' hl'
    rw [List.nil_append] at hl'
    show (if x ∈ l' then (1 : ℚ) else 0) = _
    rw [Finset.sum_ite_eq]
    refine if_congr ?_ rfl rfl
    rw [Finset.mem_filter, Finset.mem_powersetCard, List.mem_toFinset]
    have hcard := hl'.card
    rw [List.length_map, hm] at hcard
    constructor
    · intro h
      refine ⟨⟨fun y hy => ?_, hcard⟩, h⟩
      have := hl'.sub y (List.mem_toFinset.1 hy)
      rw [hb] at this
      exact List.mem_toFinset.2 this
    · exact fun h => h.2

/-! ### A concrete case: three braids are offered to a bucket of capacity 2, after the bucket was discarded once; a fourth one goes to another bucket -/

def sampleBatch : Bucketing.Batch Nat 1 := ⟨4, ![13, 11, 27, 12], [fun _ _ _ => 2]⟩
def sampleOps : List (Op Nat 1) := [.add sampleBatch, .discard (1, 1), .add sampleBatch]

theorem sample_valid : ∀ b, Op.add b ∈ sampleOps → Valid b := by
  have : Valid sampleBatch := ⟨by simp [sampleBatch], fun i => ⟨0, 0, by simp only [sampleBatch, Polymat.slice]; show (2 : ℤ) ≠ 0; decide⟩⟩
  intro b hb
  simp only [sampleOps, List.mem_cons, List.not_mem_nil, or_false, Op.add.injEq, reduceCtorEq, false_or] at hb
  rcases hb with rfl | rfl <;> exact this

theorem sample_offers : (offered (exConfig (some tapeRng) 2) sampleOps (1, 1)).map Offer.braid = [13, 11, 12] ∧ keptCount (exConfig (some tapeRng) 2) sampleOps = 8 := by
  decide +kernel

/-- The sets {13, 11} and {13, 12} together have chance 2/3, and the braid 12 has chance 2/3. -/
example : tapeChance (Nat.factorial 8) 8 (ContentsIn (exConfig (some tapeRng) 2) sampleOps (1, 1) {{13, 11}, {13, 12}}) = 2 / 3 ∧
    tapeChance (Nat.factorial 8) 8 (Retained (exConfig (some tapeRng) 2) sampleOps (1, 1) 12) = 2 / 3 := by
  obtain ⟨h1, h2⟩ := sample_offers
  have hlen : (offered (exConfig (some tapeRng) 2) sampleOps (1, 1)).length = 3 := by rw [← List.length_map (f := Offer.braid), h1]; rfl
  have hn : ((offered (exConfig (some tapeRng) 2) sampleOps (1, 1)).map Offer.braid).Nodup := by rw [h1]; decide
  have hB : ∀ k, 1 ≤ k → k ≤ keptCount (exConfig (some tapeRng) 2) sampleOps → k ∣ Nat.factorial 8 := fun k a b => Nat.dvd_factorial a (by rw [h2] at b; exact b)
  constructor
  · rw [C68_sample (exConfig (some tapeRng) 2) (by decide) rfl sampleOps sample_valid (Nat.factorial 8) (by decide) hB 8 (by rw [h2]) (1, 1)
      (fun e => by rw [e] at h1; cases h1) hn {{13, 11}, {13, 12}} (by rw [h1, hlen]; decide), hlen]
    have : ({{13, 11}, {13, 12}} : Finset (Finset Nat)).card = 2 := by decide
    rw [this, show (exConfig (some tapeRng) 2).size = 2 from rfl, show Nat.choose 3 (min 3 2) = 3 from rfl]
    norm_num
  · rw [C68_item (exConfig (some tapeRng) 2) (by decide) rfl sampleOps sample_valid (Nat.factorial 8) (by decide) hB 8 (by rw [h2]) (1, 1) hn 12 (by rw [h1]; decide), hlen,
      show (exConfig (some tapeRng) 2).size = 2 from rfl, min_eq_right] <;> norm_num

end BraidSearch
end Peyl
