import Verif.Lemmas.ReservoirJoint
import Verif.Props.Bucketing
/-!
# C130, C131: the chances of the reservoirs of `bucketing.Tracker`

`random.random()` takes `M` equally likely values `0, 1/M, ..., (M-1)/M` (in Python `M = 2^53`), see `Spec/ReservoirChance.lean`.
-/
namespace Peyl
namespace Bucketing
variable {β : Type} {d : Nat} [DecidableEq β]

/-! ### Closeness -/

theorem mul_close {a b A B e E : ℚ} (hA : 0 ≤ A ∧ A ≤ 1) (hb : 0 ≤ b ∧ b ≤ 1) (h1 : |a - b| ≤ e) (h2 : |A - B| ≤ E) : |a * A - b * B| ≤ e + E := by
  have : a * A - b * B = (a - b) * A + b * (A - B) := by ring
  rw [this]
  refine le_trans (abs_add_le _ _) (add_le_add ?_ ?_)
  · rw [abs_mul, abs_of_nonneg hA.1]
    calc |a - b| * A ≤ |a - b| * 1 := mul_le_mul_of_nonneg_left hA.2 (abs_nonneg _)
      _ ≤ e := by rw [mul_one]; exact h1
  · rw [abs_mul, abs_of_nonneg hb.1]
    calc b * |A - B| ≤ 1 * |A - B| := mul_le_mul_of_nonneg_right hb.2 (abs_nonneg _)
      _ ≤ E := by rw [one_mul]; exact h2

theorem survive_range {c : Config β d} (hc : 1 ≤ c.capacity) {M : Nat} (hM : 1 ≤ M) (log : List (Offer β d)) (o : Offer β d) : 0 ≤ survive c M log o ∧ survive c M log o ≤ 1 := by
  rw [survive]
  split
  · norm_num
  · have h1 := realAcc_range (c := c) log o hM
    rw [realAcc] at h1
    have hK : (1 : ℚ) ≤ c.capacity := by exact_mod_cast hc
    have h2 : (below M (threshold c log o) : ℚ) / M / c.capacity ≤ 1 := by rw [div_le_one (by linarith)]; linarith
    have h3 : 0 ≤ (below M (threshold c log o) : ℚ) / M / c.capacity := by positivity
    constructor <;> linarith

theorem surv_range {c : Config β d} (hc : 1 ≤ c.capacity) {M : Nat} (hM : 1 ≤ M) : ∀ (os log : List (Offer β d)), 0 ≤ surv c M log os ∧ surv c M log os ≤ 1
  | [], _ => by simp [surv]
  | o :: os, log => by
    rw [surv]
    obtain ⟨h1, h2⟩ := survive_range hc hM log o
    obtain ⟨h3, h4⟩ := surv_range hc hM os (log ++ [o])
    exact ⟨mul_nonneg h1 h3, mul_le_one₀ h2 h3 h4⟩

theorem surv_close {c : Config β d} (hc : 1 ≤ c.capacity) {M : Nat} (hM : 1 ≤ M) (Q : Offer β d → Prop) (J : List (Offer β d) → ℚ)
    (hpos : ∀ log, log ≠ [] → (∀ o ∈ log, Q o) → 0 < J log) (hdec : ∀ log o, log ≠ [] → (∀ o ∈ log, Q o) → Q o → J (log ++ [o]) ≤ J log)
    (hs : ∀ log o, log ≠ [] → (∀ o ∈ log, Q o) → Q o → |survive c M log o - J (log ++ [o]) / J log| ≤ 1 / M) :
    ∀ (os log : List (Offer β d)), log ≠ [] → (∀ o ∈ log ++ os, Q o) → |surv c M log os - J (log ++ os) / J log| ≤ os.length / M
  | [], log, hl, hq => by
    have := hpos log hl (by simpa using hq)
    simp [surv, div_self this.ne']
  | o :: os, log, hl, hq => by
    have hq1 : ∀ o ∈ log, Q o := fun o' h => hq o' (List.mem_append_left _ h)
    have hqo : Q o := hq o (by simp)
    have h0 := hpos log hl hq1
    have h1 := hpos (log ++ [o]) (by simp) (fun o' h => hq o' (by simp at h ⊢; tauto))
    have ih := surv_close hc hM Q J hpos hdec hs os (log ++ [o]) (by simp) (by simpa using hq)
    have hd := hdec log o hl hq1 hqo
    rw [surv, List.length_cons]
    have e1 : log ++ o :: os = (log ++ [o]) ++ os := by simp
    have e2 : J ((log ++ [o]) ++ os) / J log = J (log ++ [o]) / J log * (J ((log ++ [o]) ++ os) / J (log ++ [o])) := by field_simp
    rw [e1, e2]
    refine le_trans (mul_close (surv_range hc hM os _) ⟨by positivity, by rw [div_le_one h0]; exact hd⟩ (hs log o hl hq1 hqo) ih) ?_
    push_cast
    rw [← add_div]
    exact le_of_eq (by ring)

theorem exists_split {o : Offer β d} {l : List (Offer β d)} (h : o ∈ l) : ∃ pre post, l = pre ++ o :: post := by
  obtain ⟨a, b, e⟩ := List.append_of_mem h; exact ⟨a, b, e⟩

/-! ### 'Uniform' -/

/-- C130: with the method 'Uniform', after any history of batches and discarded buckets, the set of braids in a bucket is a uniform sample of the `N` different braids
that were offered to it since it was last discarded: for every family of sets of `min N K` offered braids, the chance that the bucket holds one of them is the size of the
family over the number of all such sets, up to `N / M`. -/
theorem C130_uniform_sample (c : Config β d) (hm : c.method = .uniform) (hc : 1 ≤ c.capacity) (M : Nat) (hM : 1 ≤ M) (ops : List (Op β d))
    (hv : ∀ b, Op.add b ∈ ops → Valid c b) (t : Tag) (ho : offered c ops t ≠ []) (hn : ((offered c ops t).map Offer.braid).Nodup) (T : Nat) (hT : offerCount c ops ≤ T)
    (𝒜 : Finset (Finset β)) (h𝒜 : ∀ A ∈ 𝒜, A ⊆ ((offered c ops t).map Offer.braid).toFinset ∧ A.card = min (offered c ops t).length c.capacity) :
    |coinChance M c.capacity T (ContentsIn M c ops t 𝒜) - 𝒜.card / ((offered c ops t).length.choose (min (offered c ops t).length c.capacity) : ℚ)| ≤ (offered c ops t).length / M := by
  have h1 := coinChance_run (Or.inl hm) hc hM ops hv (fun e => by rw [hm] at e; cases e) t T hT ho (fun l => l.toFinset ∈ 𝒜)
  have h2 := uniform_close hm hc hM (F := fun l => if l.toFinset ∈ 𝒜 then 1 else 0) (fun l => by split <;> norm_num) (offered c ops t) [] []
  have h3 : ex c.capacity (idealAcc c.capacity) (fun l => if l.toFinset ∈ 𝒜 then 1 else 0) [] [] (offered c ops t) =
      𝒜.card / ((offered c ops t).length.choose (min (offered c ops t).length c.capacity) : ℚ) := by
    have e : (fun l : List β => if l.toFinset ∈ 𝒜 then (1 : ℚ) else 0) = fun l => ∑ A ∈ 𝒜, if l.toFinset = A then (1 : ℚ) else 0 := by
      funext l; rw [Finset.sum_ite_eq]
    rw [e, ex_sum, Finset.sum_congr rfl fun A hA => ex_ideal hc _ hn A (h𝒜 A hA).1 (h𝒜 A hA).2, Finset.sum_const, nsmul_eq_mul]
    ring
  rw [h3] at h2
  have h4 : coinChance M c.capacity T (ContentsIn M c ops t 𝒜) = _ := h1
  rw [h4]; exact h2

/-- C130, one item: each of the `N` offered braids is in its bucket with chance `min 1 (K / N)`, up to `N / M`. -/
theorem C130_uniform_item (c : Config β d) (hm : c.method = .uniform) (hc : 1 ≤ c.capacity) (M : Nat) (hM : 1 ≤ M) (ops : List (Op β d))
    (hv : ∀ b, Op.add b ∈ ops → Valid c b) (t : Tag) (o : Offer β d) (ho : o ∈ offered c ops t) (hn : ((offered c ops t).map Offer.braid).Nodup) (T : Nat)
    (hT : offerCount c ops ≤ T) :
    |coinChance M c.capacity T (Retained M c ops t o.braid) - min 1 (c.capacity / (offered c ops t).length : ℚ)| ≤ (offered c ops t).length / M := by
  obtain ⟨pre, post, e⟩ := exists_split ho
  rw [coinChance_item (Or.inl hm) hc hM ops hv (fun e => by rw [hm] at e; cases e) t pre post o e hn T hT, e]
  have hK : (0 : ℚ) < c.capacity := by positivity
  have hM0 : (0 : ℚ) < M := by positivity
  let J : List (Offer β d) → ℚ := fun l => min 1 (c.capacity / l.length)
  have hpos : ∀ log : List (Offer β d), log ≠ [] → (∀ o ∈ log, True) → 0 < J log := fun log hl _ => by
    have : (0 : ℚ) < log.length := by exact_mod_cast List.length_pos_iff.2 hl
    exact lt_min one_pos (by positivity)
  have hJ : ∀ (log : List (Offer β d)) (o : Offer β d), J (log ++ [o]) = if log.length < c.capacity then 1 else (c.capacity : ℚ) / (log.length + 1) := fun log o => by
    show min (1 : ℚ) (c.capacity / (log ++ [o]).length) = _
    rw [List.length_append, List.length_singleton]
    push_cast
    split
    · next h =>
      refine min_eq_left ?_
      rw [one_le_div (by positivity)]; exact_mod_cast h
    · next h =>
      refine min_eq_right ?_
      rw [div_le_one (by positivity)]; exact_mod_cast (by omega)
  have hacc : ∀ (log : List (Offer β d)) (o : Offer β d), ¬ log.length < c.capacity → (c.capacity : ℚ) / (log.length + 1) ≤ below M (threshold c log o) / M ∧
      (below M (threshold c log o) : ℚ) / M ≤ c.capacity / (log.length + 1) + 1 / M := fun log o hl => by
    have := realAcc_uniform hm hM log o (by omega)
    rw [realAcc, idealAcc] at this
    push_cast at this; exact this
  have hclose := surv_close hc hM (fun _ => True) J hpos
    (fun log o hl _ _ => by
      rw [hJ]
      show _ ≤ min (1 : ℚ) (c.capacity / log.length)
      have hp : (0 : ℚ) < log.length := by exact_mod_cast List.length_pos_iff.2 hl
      split
      · next h => exact le_min le_rfl (by rw [one_le_div hp]; exact_mod_cast h.le)
      · next h =>
        refine le_min (by rw [div_le_one (by positivity)]; exact_mod_cast (by omega)) ?_
        exact div_le_div_of_nonneg_left hK.le hp (by linarith))
    (fun log o hl _ _ => by
      have hp : (0 : ℚ) < log.length := by exact_mod_cast List.length_pos_iff.2 hl
      rw [hJ, survive]
      by_cases h : log.length < c.capacity
      · rw [if_pos h, if_pos h]
        have : J log = 1 := min_eq_left (by rw [one_le_div hp]; exact_mod_cast h.le)
        rw [this]; simp
      · rw [if_neg h, if_neg h]
        have : J log = c.capacity / log.length := min_eq_right (by rw [div_le_one hp]; exact_mod_cast (by omega))
        rw [this]
        obtain ⟨a1, a2⟩ := hacc log o h
        have e1 : (c.capacity : ℚ) / (log.length + 1) / (c.capacity / log.length) = 1 - c.capacity / (log.length + 1) / c.capacity := by field_simp; ring
        rw [e1]
        have e2 : 1 - (below M (threshold c log o) : ℚ) / M / c.capacity - (1 - c.capacity / (log.length + 1) / c.capacity) =
          (c.capacity / (log.length + 1) - (below M (threshold c log o) : ℚ) / M) / c.capacity := by ring
        rw [e2, abs_div, abs_of_pos hK, abs_of_nonpos (by linarith), div_le_iff₀ hK]
        have h1 : (1 : ℚ) ≤ c.capacity := by exact_mod_cast hc
        have h2 : (1 : ℚ) / M ≤ 1 / M * c.capacity := le_mul_of_one_le_right (by positivity) h1
        linarith)
    post (pre ++ [o]) (by simp) (fun _ _ => trivial)
  have e1 : pre ++ o :: post = (pre ++ [o]) ++ post := by simp
  have hp := hpos (pre ++ [o]) (by simp) fun _ _ => trivial
  have e2 : J ((pre ++ [o]) ++ post) = J (pre ++ [o]) * (J ((pre ++ [o]) ++ post) / J (pre ++ [o])) := by field_simp
  show |_ - J (pre ++ o :: post)| ≤ _
  rw [e1, e2]
  have ha : |accept c M pre o - J (pre ++ [o])| ≤ 1 / M := by
    rw [hJ, accept]
    by_cases h : pre.length < c.capacity
    · rw [if_pos h, if_pos h]; simp
    · rw [if_neg h, if_neg h]
      obtain ⟨a1, a2⟩ := hacc pre o h
      rw [abs_of_nonneg (by linarith)]; linarith
  refine le_trans (mul_close (surv_range hc hM _ _) ⟨hp.le, min_le_left _ _⟩ ha hclose) ?_
  rw [← add_div]
  refine div_le_div_of_nonneg_right ?_ hM0.le
  simp only [List.length_append, List.length_singleton]
  push_cast
  linarith [show (0 : ℚ) ≤ pre.length by positivity]

theorem below_gt {M : Nat} (hM : 1 ≤ M) {q : ℚ} (h0 : 0 ≤ q) (h1 : q < 1) : q < below M q / M := by
  have hM0 : (0 : ℚ) < M := by positivity
  rw [lt_div_iff₀ hM0]
  have hle : Nat.floor (q * M) + 1 ≤ M := by
    have : Nat.floor (q * M) < M := (Nat.floor_lt (by positivity)).2 (by nlinarith)
    omega
  have : Nat.floor (q * M) + 1 ≤ below M q := by
    rw [below]
    have hc : (Finset.univ.map (Fin.castLEEmb hle)).card = Nat.floor (q * M) + 1 := by simp
    rw [← hc]
    refine Finset.card_le_card fun k hk => ?_
    obtain ⟨j, -, rfl⟩ := Finset.mem_map.1 hk
    rw [Finset.mem_filter]
    refine ⟨Finset.mem_univ _, ?_⟩
    rw [div_le_iff₀ hM0]
    have := (Nat.le_floor_iff (by positivity)).1 (Nat.lt_succ_iff.1 j.isLt)
    simpa using this
  have h2 := Nat.lt_floor_add_one (q * M)
  have h3 : ((Nat.floor (q * M) + 1 : Nat) : ℚ) ≤ below M q := by exact_mod_cast this
  push_cast at h3
  linarith

/-- C130, the bound cannot be dropped: the comparison with `<=` favours the last braid offered to a full bucket, its chance is strictly above `K / N`. -/
theorem C130_last_favoured (c : Config β d) (hm : c.method = .uniform) (hc : 1 ≤ c.capacity) (M : Nat) (hM : 1 ≤ M) (ops : List (Op β d))
    (hv : ∀ b, Op.add b ∈ ops → Valid c b) (t : Tag) (pre : List (Offer β d)) (o : Offer β d) (ho : offered c ops t = pre ++ [o])
    (hfull : c.capacity < (offered c ops t).length) (hn : ((offered c ops t).map Offer.braid).Nodup) (T : Nat) (hT : offerCount c ops ≤ T) :
    (c.capacity / (offered c ops t).length : ℚ) < coinChance M c.capacity T (Retained M c ops t o.braid) := by
  rw [coinChance_item (Or.inl hm) hc hM ops hv (fun e => by rw [hm] at e; cases e) t pre [] o ho hn T hT, ho, surv, mul_one, accept]
  rw [ho, List.length_append, List.length_singleton] at hfull
  rw [if_neg (by omega)]
  have ht : threshold c pre o = (c.capacity / (pre ++ [o]).length : ℚ) := by rw [threshold, hm, if_neg (by decide)]; simp
  rw [ht]
  refine below_gt hM (by positivity) ?_
  rw [div_lt_one (by simp; positivity), List.length_append, List.length_singleton]
  exact_mod_cast hfull

/-! ### 'AChao' -/

theorem total_pos {l : List (Offer β d)} (hl : l ≠ []) (h : ∀ o ∈ l, 0 < o.weight) : 0 < totalWeight l := by
  rw [totalWeight]
  refine List.sum_pos _ ?_ (by simpa using hl)
  intro y hy
  obtain ⟨o, ho, rfl⟩ := List.mem_map.1 hy
  exact h o ho

theorem total_nonneg {l : List (Offer β d)} (h : ∀ o ∈ l, 0 < o.weight) : 0 ≤ totalWeight l := by
  rw [totalWeight]
  refine List.sum_nonneg ?_
  intro y hy
  obtain ⟨o, ho, rfl⟩ := List.mem_map.1 hy
  exact (h o ho).le

theorem total_append (l l' : List (Offer β d)) : totalWeight (l ++ l') = totalWeight l + totalWeight l' := by simp [totalWeight]

theorem total_single (o : Offer β d) : totalWeight [o] = o.weight := by simp [totalWeight]

theorem threshold_achao {c : Config β d} (hm : c.method = .aChao) (log : List (Offer β d)) (o : Offer β d) : threshold c log o = o.weight / (totalWeight log + o.weight) := by
  rw [threshold, if_pos hm, totalWeight]

theorem offered_mem (c : Config β d) (t : Tag) : ∀ (ops : List (Op β d)) (acc : List (Offer β d)) (o : Offer β d), o ∈ offeredSince c t acc ops →
    o ∈ acc ∨ ∃ b, Op.add b ∈ ops ∧ (t, o) ∈ offersOf c b
  | [], acc, o, h => Or.inl h
  | .add b :: ops, acc, o, h => by
    rw [offeredSince] at h
    rcases offered_mem c t ops _ o h with h | ⟨b', h1, h2⟩
    · rcases List.mem_append.1 h with h | h
      · exact Or.inl h
      · obtain ⟨p, hp, e⟩ := List.mem_filterMap.1 h
        split at e
        · next ht => cases e; exact Or.inr ⟨b, List.mem_cons_self, by rw [← ht]; exact hp⟩
        · cases e
    · exact Or.inr ⟨b', List.mem_cons_of_mem _ h1, h2⟩
  | .discard t' :: ops, acc, o, h => by
    rw [offeredSince] at h
    rcases offered_mem c t ops _ o h with h | ⟨b', h1, h2⟩
    · split at h
      · cases h
      · exact Or.inl h
    · exact Or.inr ⟨b', List.mem_cons_of_mem _ h1, h2⟩

theorem offered_pos {c : Config β d} {ops : List (Op β d)} (hp : ∀ b, Op.add b ∈ ops → ∀ o ∈ offersOf c b, 0 < o.2.weight) (t : Tag) : ∀ o ∈ offered c ops t, 0 < o.weight := by
  intro o ho
  rcases offered_mem c t ops [] o ho with h | ⟨b, h1, h2⟩
  · cases h
  · exact hp b h1 _ h2

/-- C131, capacity 1: with the method 'AChao' and positive weights a bucket of capacity 1 holds each offered braid with a chance proportional to its weight, up to `N / M`. -/
theorem C131_capacity_one_partial (c : Config β d) (hm : c.method = .aChao) (hc : c.capacity = 1) (M : Nat) (hM : 1 ≤ M) (ops : List (Op β d))
    (hv : ∀ b, Op.add b ∈ ops → Valid c b) (hp : ∀ b, Op.add b ∈ ops → ∀ o ∈ offersOf c b, 0 < o.2.weight) (t : Tag) (o : Offer β d) (ho : o ∈ offered c ops t)
    (hn : ((offered c ops t).map Offer.braid).Nodup) (T : Nat) (hT : offerCount c ops ≤ T) :
    |coinChance M c.capacity T (Retained M c ops t o.braid) - o.weight / totalWeight (offered c ops t)| ≤ (offered c ops t).length / M := by
  obtain ⟨pre, post, e⟩ := exists_split ho
  have hall := offered_pos hp t
  have hc1 : 1 ≤ c.capacity := by omega
  rw [coinChance_item (Or.inr hm) hc1 hM ops hv (fun _ => hp) t pre post o e hn T hT, e]
  rw [e] at hall
  have hM0 : (0 : ℚ) < M := by positivity
  have hacc : ∀ (log : List (Offer β d)) (o : Offer β d), (∀ o ∈ log, 0 < o.weight) → 0 < o.weight →
      o.weight / (totalWeight log + o.weight) ≤ below M (threshold c log o) / M ∧
      (below M (threshold c log o) : ℚ) / M ≤ o.weight / (totalWeight log + o.weight) + 1 / M := fun log o hl ho => by
    rw [threshold_achao hm]
    have := total_nonneg hl
    exact ⟨below_ge hM (by rw [div_le_one (by linarith)]; linarith), below_le hM (by positivity)⟩
  let J : List (Offer β d) → ℚ := fun l => 1 / totalWeight l
  have hpos : ∀ log : List (Offer β d), log ≠ [] → (∀ o ∈ log, 0 < o.weight) → 0 < J log := fun log hl h => one_div_pos.2 (total_pos hl h)
  have hJ : ∀ (log : List (Offer β d)) (o : Offer β d), J (log ++ [o]) = 1 / (totalWeight log + o.weight) := fun log o => by
    show 1 / totalWeight (log ++ [o]) = _; rw [total_append, total_single]
  have hclose := surv_close hc1 hM (fun o => 0 < o.weight) J hpos
    (fun log o hl h h' => by
      rw [hJ]
      exact one_div_le_one_div_of_le (total_pos hl h) (by linarith))
    (fun log o hl h h' => by
      have h0 := total_pos hl h
      have hl' : ¬ log.length < c.capacity := by have := List.length_pos_iff.2 hl; omega
      obtain ⟨a1, a2⟩ := hacc log o h h'
      rw [hJ, survive, if_neg hl', hc]
      have e1 : 1 / (totalWeight log + o.weight) / J log = 1 - o.weight / (totalWeight log + o.weight) := by
        show 1 / (totalWeight log + o.weight) / (1 / totalWeight log) = _
        have : totalWeight log + o.weight ≠ 0 := by positivity
        field_simp; ring
      rw [e1, abs_le]
      push_cast
      rw [div_one]
      constructor <;> linarith)
    post (pre ++ [o]) (by simp) (fun o' h => hall o' (by simpa using h))
  have e1 : pre ++ o :: post = (pre ++ [o]) ++ post := by simp
  have hpre : ∀ o ∈ pre, 0 < o.weight := fun o' h => hall o' (by simp [h])
  have how : 0 < o.weight := hall o (by simp)
  have hps := hpos (pre ++ [o]) (by simp) (fun o' h => hall o' (by simp at h ⊢; tauto))
  have hpn := total_nonneg hpre
  have e2 : o.weight / totalWeight ((pre ++ [o]) ++ post) = o.weight * J (pre ++ [o]) * (J ((pre ++ [o]) ++ post) / J (pre ++ [o])) := by
    have : J ((pre ++ [o]) ++ post) = 1 / totalWeight ((pre ++ [o]) ++ post) := rfl
    rw [div_eq_mul_one_div, ← this]
    field_simp
  rw [e1, e2]
  have hr : o.weight * J (pre ++ [o]) = o.weight / (totalWeight pre + o.weight) := by rw [hJ]; ring
  have ha : |accept c M pre o - o.weight * J (pre ++ [o])| ≤ 1 / M := by
    rw [hr, accept]
    by_cases h : pre.length < c.capacity
    · have : pre = [] := List.length_eq_zero_iff.1 (by omega)
      subst this
      rw [if_pos h]
      have : totalWeight ([] : List (Offer β d)) = 0 := by simp [totalWeight]
      rw [this, zero_add, div_self how.ne']
      simp
    · rw [if_neg h]
      obtain ⟨a1, a2⟩ := hacc pre o hpre how
      rw [abs_of_nonneg (by linarith)]; linarith
  refine le_trans (mul_close (surv_range hc1 hM _ _) ⟨by positivity, ?_⟩ ha hclose) ?_
  · rw [hr, div_le_one (by linarith)]; linarith
  rw [← add_div]
  refine div_le_div_of_nonneg_right ?_ hM0.le
  simp only [List.length_append, List.length_singleton]
  push_cast
  linarith [show (0 : ℚ) ≤ pre.length by positivity]

theorem surv_mono {c c' : Config β d} (hm : c.method = .aChao) (hm' : c'.method = .aChao) (hcc : c'.capacity = c.capacity) (M : Nat) (hc : 1 ≤ c.capacity) (hM : 1 ≤ M) :
    ∀ (post log log' : List (Offer β d)), log'.length = log.length → 0 ≤ totalWeight log → totalWeight log ≤ totalWeight log' → (∀ o ∈ post, 0 < o.weight) →
      surv c M log post ≤ surv c' M log' post
  | [], _, _, _, _, _, _ => le_rfl
  | o :: post, log, log', hl, h0, h, hp => by
    have hw := hp o List.mem_cons_self
    rw [surv, surv]
    refine mul_le_mul ?_ (surv_mono hm hm' hcc M hc hM post (log ++ [o]) (log' ++ [o]) (by simp [hl]) ?_ ?_ fun o' h' => hp o' (List.mem_cons_of_mem _ h'))
      (surv_range hc hM _ _).1 (survive_range (by omega) hM _ _).1
    · rw [survive, survive, hl, hcc]
      split
      · exact le_rfl
      · have h1 : threshold c' log' o ≤ threshold c log o := by
          rw [threshold_achao hm, threshold_achao hm']
          exact div_le_div_of_nonneg_left hw.le (by linarith) (by linarith)
        have h2 : (below M (threshold c' log' o) : ℚ) / M / c.capacity ≤ below M (threshold c log o) / M / c.capacity := by
          have : (below M (threshold c' log' o) : ℚ) ≤ below M (threshold c log o) := by exact_mod_cast below_mono h1
          gcongr
        linarith
    · rw [total_append, total_single]; linarith
    · rw [total_append, total_append]; linarith

/-- C131, the item's own weight: for two histories which offer the same triples to a bucket, except that one braid has a larger weight in the second one, the chance of
that braid is at least as large in the second one. -/
theorem C131_own_weight_partial (c c' : Config β d) (hm : c.method = .aChao) (hm' : c'.method = .aChao) (hc : 1 ≤ c.capacity) (hcc : c'.capacity = c.capacity)
    (M : Nat) (hM : 1 ≤ M) (ops ops' : List (Op β d)) (hv : ∀ b, Op.add b ∈ ops → Valid c b) (hv' : ∀ b, Op.add b ∈ ops' → Valid c' b)
    (hp : ∀ b, Op.add b ∈ ops → ∀ o ∈ offersOf c b, 0 < o.2.weight) (hp' : ∀ b, Op.add b ∈ ops' → ∀ o ∈ offersOf c' b, 0 < o.2.weight) (t : Tag)
    (pre post : List (Offer β d)) (o o' : Offer β d) (ho : offered c ops t = pre ++ o :: post) (ho' : offered c' ops' t = pre ++ o' :: post)
    (hb : o'.braid = o.braid) (hw : o.weight ≤ o'.weight) (hn : ((offered c ops t).map Offer.braid).Nodup) (T : Nat) (hT : offerCount c ops ≤ T) (hT' : offerCount c' ops' ≤ T) :
    coinChance M c.capacity T (Retained M c ops t o.braid) ≤ coinChance M c'.capacity T (Retained M c' ops' t o.braid) := by
  have hall := offered_pos hp t
  have hall' := offered_pos hp' t
  rw [ho] at hall; rw [ho'] at hall'
  have hpre : ∀ o ∈ pre, 0 < o.weight := fun o' h => hall o' (by simp [h])
  have how : 0 < o.weight := hall o (by simp)
  rw [coinChance_item (Or.inr hm) hc hM ops hv (fun _ => hp) t pre post o ho hn T hT, ← hb,
    coinChance_item (Or.inr hm') (by omega) hM ops' hv' (fun _ => hp') t pre post o' ho' (by rw [ho']; rw [ho] at hn; simpa [hb] using hn) T hT']
  have hpn := total_nonneg hpre
  refine mul_le_mul ?_ (surv_mono hm hm' hcc M hc hM post _ _ (by simp) ?_ ?_ fun a h => hall a (by simp [h])) (surv_range hc hM _ _).1 ?_
  · rw [accept, accept, hcc]
    split
    · exact le_rfl
    · have : threshold c pre o ≤ threshold c' pre o' := by
        rw [threshold_achao hm, threshold_achao hm', div_le_div_iff₀ (by linarith) (by linarith)]
        nlinarith
      have h1 : (below M (threshold c pre o) : ℚ) ≤ below M (threshold c' pre o') := by exact_mod_cast below_mono this
      gcongr
  · rw [total_append, total_single]; linarith
  · rw [total_append, total_append, total_single, total_single]; linarith
  · rw [accept]
    split
    · norm_num
    · positivity

/-- C131 fails for capacities above 1: when a bucket of capacity `K ≥ 2` was filled with braids of weight `v` and then a braid with a weight `w` between `v` and `2 v` is
offered, the heavier (and later) braid is strictly less likely to be in the bucket than each of the lighter ones.  (The code compares with `w / W`; Chao's method, and
'Uniform', use `K * w / W`.) -/
theorem C131_light_favoured (c : Config β d) (hm : c.method = .aChao) (hc : 2 ≤ c.capacity) (M : Nat) (hM : 7 ≤ M) (ops : List (Op β d))
    (hv : ∀ b, Op.add b ∈ ops → Valid c b) (hp : ∀ b, Op.add b ∈ ops → ∀ o ∈ offersOf c b, 0 < o.2.weight) (t : Tag) (pre : List (Offer β d)) (o : Offer β d)
    (ho : offered c ops t = pre ++ [o]) (hfull : pre.length = c.capacity) (v : ℚ) (hpre : ∀ p ∈ pre, p.weight = v) (hw1 : v ≤ o.weight) (hw2 : o.weight ≤ 2 * v)
    (hn : ((offered c ops t).map Offer.braid).Nodup) (T : Nat) (hT : offerCount c ops ≤ T) (p : Offer β d) (hpm : p ∈ pre) :
    coinChance M c.capacity T (Retained M c ops t o.braid) < coinChance M c.capacity T (Retained M c ops t p.braid) := by
  obtain ⟨l, l', e⟩ := exists_split hpm
  have hM1 : 1 ≤ M := by omega
  have hlen : l.length < c.capacity := by rw [e] at hfull; simp at hfull; omega
  rw [coinChance_item (Or.inr hm) (by omega) hM1 ops hv (fun _ => hp) t pre [] o ho hn T hT,
    coinChance_item (Or.inr hm) (by omega) hM1 ops hv (fun _ => hp) t l (l' ++ [o]) p (by rw [ho, e]; simp) hn T hT]
  have hsplit : ∀ (os log : List (Offer β d)), surv c M log (os ++ [o]) = surv c M log os * survive c M (log ++ os) o := by
    intro os
    induction os with
    | nil => intro log; simp [surv]
    | cons a os ih => intro log; rw [List.cons_append, surv, surv, ih]; simp [mul_assoc]
  have hone : ∀ (os log : List (Offer β d)), log.length + os.length ≤ c.capacity → surv c M log os = 1 := by
    intro os
    induction os with
    | nil => intro log _; rfl
    | cons a os ih =>
      intro log h
      simp only [List.length_cons] at h
      rw [surv, survive, if_pos (by omega), ih _ (by simp; omega), one_mul]
  have e' : l ++ [p] ++ l' = pre := by rw [e]; simp
  rw [hsplit, hone l' _ (by rw [← e'] at hfull; simp at hfull ⊢; omega), one_mul, e', surv, mul_one, accept, if_neg (by omega), accept, if_pos hlen, one_mul,
    survive, if_neg (by omega), threshold_achao hm]
  have hv0 : 0 < v := by
    rw [← hpre p hpm]
    exact offered_pos hp t p (by rw [ho]; simp [hpm])
  have htot : totalWeight pre = c.capacity * v := by
    rw [totalWeight, ← hfull, ← nsmul_eq_mul, List.sum_eq_card_nsmul _ v (by intro y hy; obtain ⟨a, ha, rfl⟩ := List.mem_map.1 hy; exact hpre a ha), List.length_map]
  have hK : (2 : ℚ) ≤ c.capacity := by exact_mod_cast hc
  have hMq : (7 : ℚ) ≤ M := by exact_mod_cast hM
  rw [htot]
  have hq0 : 0 ≤ o.weight / (c.capacity * v + o.weight) := by
    have : 0 < o.weight := by linarith
    positivity
  have hq : o.weight / (c.capacity * v + o.weight) ≤ 1 / 2 := by
    rw [div_le_div_iff₀ (by nlinarith) (by norm_num)]
    nlinarith
  have hb := below_le hM1 hq0
  have hb7 : (1 : ℚ) / M ≤ 1 / 7 := one_div_le_one_div_of_le (by norm_num) hMq
  have hb0 : (0 : ℚ) ≤ (below M (o.weight / (c.capacity * v + o.weight)) : ℚ) / M := by positivity
  generalize (below M (o.weight / (c.capacity * v + o.weight)) : ℚ) / M = a at *
  have h2 : a / c.capacity ≤ a / 2 := div_le_div_of_nonneg_left hb0 (by norm_num) hK
  linarith

/-! ### A concrete case: three braids are offered to a bucket of capacity 2 (and a fourth one to another bucket), and one bucket is discarded before -/

/-- The weights are 1, but braid `h` has weight `w`. -/
def chanceConfig (m : Method) (cap h : Nat) (w : ℚ) : Config Nat 1 := ⟨cap, m, fun b => b / 10, [], some fun b => .ok fun i => if b.braids i = h then w else 1⟩
def chanceOps : List (Op Nat 1) := [.add exampleBatch, .discard (1, 1, []), .add exampleBatch]

theorem chance_valid (m : Method) (cap h : Nat) (w : ℚ) : ∀ b, Op.add b ∈ chanceOps → Valid (chanceConfig m cap h w) b := by
  have : Valid (chanceConfig m cap h w) exampleBatch := by
    refine ⟨⟨_, rfl⟩, ⟨_, rfl⟩, fun (i : Fin 4) => ⟨_, List.mem_cons_of_mem _ List.mem_cons_self, 0, 0, ?_⟩⟩
    show (if i = 3 then (5 : ℤ) else 2) ≠ 0
    split <;> norm_num
  intro b hb
  simp only [chanceOps, List.mem_cons, List.not_mem_nil, or_false, Op.add.injEq, reduceCtorEq, false_or] at hb
  rcases hb with rfl | rfl <;> exact this

theorem chance_offers (m : Method) (cap h : Nat) (w : ℚ) : ((offered (chanceConfig m cap h w) chanceOps (1, 1, [])).map Offer.braid = [13, 11, 12]) ∧
    (offered (chanceConfig m cap h w) chanceOps (1, 1, [])).map Offer.weight = [if 13 = h then w else 1, if 11 = h then w else 1, if 12 = h then w else 1] ∧
    offerCount (chanceConfig m cap h w) chanceOps = 8 := ⟨rfl, rfl, rfl⟩

theorem chance_pos (m : Method) (cap h : Nat) {w : ℚ} (hw : 0 < w) : ∀ b, Op.add b ∈ chanceOps → ∀ o ∈ offersOf (chanceConfig m cap h w) b, 0 < o.2.weight := by
  have : ∀ o ∈ offersOf (chanceConfig m cap h w) exampleBatch, 0 < o.2.weight := by
    intro o ho
    have h1 : o.2.weight ∈ (offersOf (chanceConfig m cap h w) exampleBatch).map fun o => o.2.weight := List.mem_map.2 ⟨o, ho, rfl⟩
    have h2 : ((offersOf (chanceConfig m cap h w) exampleBatch).map fun o => o.2.weight) =
      [if 13 = h then w else 1, if 11 = h then w else 1, if 12 = h then w else 1, if 27 = h then w else 1] := rfl
    rw [h2] at h1
    simp only [List.mem_cons, List.not_mem_nil, or_false] at h1
    rcases h1 with h1 | h1 | h1 | h1 <;> rw [h1] <;> split <;> first | exact hw | norm_num
  intro b hb
  simp only [chanceOps, List.mem_cons, List.not_mem_nil, or_false, Op.add.injEq, reduceCtorEq, false_or] at hb
  rcases hb with rfl | rfl <;> exact this

theorem chance_nodup (m : Method) (cap h : Nat) (w : ℚ) : ((offered (chanceConfig m cap h w) chanceOps (1, 1, [])).map Offer.braid).Nodup := by
  rw [(chance_offers m cap h w).1]; decide

/-- C130: the sets {13, 11} and {13, 12} together have chance 2/3, up to `3 / 2 ^ 53`. -/
example : |coinChance (2 ^ 53) 2 8 (ContentsIn (2 ^ 53) (chanceConfig .uniform 2 0 0) chanceOps (1, 1, []) {{13, 11}, {13, 12}}) - 2 / 3| ≤ 3 / 2 ^ 53 := by
  have h := C130_uniform_sample (chanceConfig .uniform 2 0 0) rfl (by decide) (2 ^ 53) (by norm_num) chanceOps (chance_valid _ _ _ _) (1, 1, [])
    (fun e => by have := congrArg (List.map Offer.braid) e; rw [(chance_offers _ _ _ _).1] at this; cases this) (chance_nodup _ _ _ _) 8
    (by rw [(chance_offers _ _ _ _).2.2]) {{13, 11}, {13, 12}} (by
      rw [(chance_offers _ _ _ _).1, ← List.length_map (f := Offer.braid), (chance_offers _ _ _ _).1]
      decide)
  have hlen : (offered (chanceConfig .uniform 2 0 0) chanceOps (1, 1, [])).length = 3 := rfl
  have hcard : ({{13, 11}, {13, 12}} : Finset (Finset Nat)).card = 2 := by decide
  rw [hlen, hcard, show (chanceConfig .uniform 2 0 0).capacity = 2 from rfl, show Nat.choose 3 (min 3 2) = 3 from rfl] at h
  push_cast at h
  exact h

/-- C130: each of the three braids has chance 2/3, up to `3 / 2 ^ 53`; the last one has a little more. -/
example : ∃ o ∈ offered (chanceConfig .uniform 2 0 0) chanceOps (1, 1, []), o.braid = 12 ∧
    |coinChance (2 ^ 53) 2 8 (Retained (2 ^ 53) (chanceConfig .uniform 2 0 0) chanceOps (1, 1, []) 12) - 2 / 3| ≤ 3 / 2 ^ 53 ∧
    2 / 3 < coinChance (2 ^ 53) 2 8 (Retained (2 ^ 53) (chanceConfig .uniform 2 0 0) chanceOps (1, 1, []) 12) := by
  obtain ⟨pre, o, e⟩ : ∃ pre o, offered (chanceConfig .uniform 2 0 0) chanceOps (1, 1, []) = pre ++ [o] := ⟨_, _, (List.dropLast_append_getLast (by intro e; cases e)).symm⟩
  have hb : o.braid = 12 := by
    have := (chance_offers .uniform 2 0 0).1
    rw [e, List.map_append] at this
    exact List.singleton_injective (List.append_inj_right' (s₁ := List.map Offer.braid pre) (t₁ := [o.braid]) (s₂ := [13, 11]) (t₂ := [12]) this rfl)
  have hlen : (offered (chanceConfig .uniform 2 0 0) chanceOps (1, 1, [])).length = 3 := rfl
  have h1 := C130_uniform_item (chanceConfig .uniform 2 0 0) rfl (by decide) (2 ^ 53) (by norm_num) chanceOps (chance_valid _ _ _ _) (1, 1, []) o (by rw [e]; simp)
    (chance_nodup _ _ _ _) 8 (by rw [(chance_offers _ _ _ _).2.2])
  have h2 := C130_last_favoured (chanceConfig .uniform 2 0 0) rfl (by decide) (2 ^ 53) (by norm_num) chanceOps (chance_valid _ _ _ _) (1, 1, []) pre o e (by rw [hlen]; decide)
    (chance_nodup _ _ _ _) 8 (by rw [(chance_offers _ _ _ _).2.2])
  rw [hlen, hb] at h1 h2
  refine ⟨o, by rw [e]; simp, hb, ?_, ?_⟩
  · have hmin : min (1 : ℚ) (((2 : ℕ) : ℚ) / ((3 : ℕ) : ℚ)) = 2 / 3 := by rw [min_eq_right] <;> norm_num
    have h1' : |coinChance (2 ^ 53) 2 8 (Retained (2 ^ 53) (chanceConfig .uniform 2 0 0) chanceOps (1, 1, []) 12) - min (1 : ℚ) (((2 : ℕ) : ℚ) / ((3 : ℕ) : ℚ))| ≤
      ((3 : ℕ) : ℚ) / ((2 ^ 53 : ℕ) : ℚ) := h1
    rw [hmin] at h1'
    push_cast at h1'
    exact h1'
  · have h2' : ((2 : ℕ) : ℚ) / ((3 : ℕ) : ℚ) < _ := h2
    push_cast at h2'
    exact h2'

/-- C131: with capacity 1, the braid 12 of weight 2 has chance 2/4, up to `3 / 2 ^ 53`. -/
example : |coinChance (2 ^ 53) 1 8 (Retained (2 ^ 53) (chanceConfig .aChao 1 12 2) chanceOps (1, 1, []) 12) - 2 / 4| ≤ 3 / 2 ^ 53 := by
  obtain ⟨o, ho, hb⟩ : ∃ o ∈ offered (chanceConfig .aChao 1 12 2) chanceOps (1, 1, []), (o.braid, o.weight) = (12, 2) :=
    List.mem_map.1 (show (12, (2 : ℚ)) ∈ (offered (chanceConfig .aChao 1 12 2) chanceOps (1, 1, [])).map fun o => (o.braid, o.weight) by
      show (12, (2 : ℚ)) ∈ [(13, (1 : ℚ)), (11, 1), (12, 2)]; decide)
  have h := C131_capacity_one_partial (chanceConfig .aChao 1 12 2) rfl rfl (2 ^ 53) (by norm_num) chanceOps (chance_valid _ _ _ _) (chance_pos _ _ _ (by norm_num)) (1, 1, [])
    o ho (chance_nodup _ _ _ _) 8 (by rw [(chance_offers _ _ _ _).2.2])
  obtain ⟨hb, hw⟩ := Prod.mk.inj hb
  have hlen : (offered (chanceConfig .aChao 1 12 2) chanceOps (1, 1, [])).length = 3 := rfl
  have ht : totalWeight (offered (chanceConfig .aChao 1 12 2) chanceOps (1, 1, [])) = 4 := by
    rw [totalWeight, (chance_offers _ _ _ _).2.1]; norm_num
  rw [hb, hw, ht, hlen] at h
  push_cast at h
  exact h

/-- C131: with capacity 2, giving the braid 11 weight 2 instead of 1 does not lower its chance. -/
example : coinChance (2 ^ 53) 2 8 (Retained (2 ^ 53) (chanceConfig .aChao 2 0 1) chanceOps (1, 1, []) 11) ≤
    coinChance (2 ^ 53) 2 8 (Retained (2 ^ 53) (chanceConfig .aChao 2 11 2) chanceOps (1, 1, []) 11) :=
  C131_own_weight_partial (chanceConfig .aChao 2 0 1) (chanceConfig .aChao 2 11 2) rfl rfl (by decide) rfl (2 ^ 53) (by norm_num) chanceOps chanceOps (chance_valid _ _ _ _)
    (chance_valid _ _ _ _) (chance_pos _ _ _ (by norm_num)) (chance_pos _ _ _ (by norm_num)) (1, 1, []) [_] [_] ⟨11, _, 1⟩ ⟨11, _, 2⟩ rfl rfl rfl (by norm_num)
    (chance_nodup _ _ _ _) 8 (by rw [(chance_offers _ _ _ _).2.2]) (by rw [(chance_offers _ _ _ _).2.2])

/-- C131 fails: with capacity 2, the braid 12 of weight 2 is less likely to be kept than the braid 13 of weight 1. -/
example : coinChance (2 ^ 53) 2 8 (Retained (2 ^ 53) (chanceConfig .aChao 2 12 2) chanceOps (1, 1, []) 12) <
    coinChance (2 ^ 53) 2 8 (Retained (2 ^ 53) (chanceConfig .aChao 2 12 2) chanceOps (1, 1, []) 13) := by
  refine C131_light_favoured (chanceConfig .aChao 2 12 2) rfl (by decide) (2 ^ 53) (by norm_num) chanceOps (chance_valid _ _ _ _) (chance_pos _ _ _ (by norm_num)) (1, 1, [])
    [⟨13, _, 1⟩, ⟨11, _, 1⟩] ⟨12, _, 2⟩ rfl rfl 1 ?_ ?_ ?_ (chance_nodup _ _ _ _) 8 (by rw [(chance_offers _ _ _ _).2.2]) ⟨13, _, 1⟩ List.mem_cons_self
  · intro p hp
    simp only [List.mem_cons, List.not_mem_nil, or_false] at hp
    rcases hp with rfl | rfl <;> rfl
  · show (1 : ℚ) ≤ 2; norm_num
  · show (2 : ℚ) ≤ 2 * 1; norm_num

end Bucketing
end Peyl
