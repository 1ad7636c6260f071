import Verif.Lemmas.ReservoirCore
import Mathlib.Data.Finset.Powerset
import Mathlib.Data.Nat.Choose.Basic
import Mathlib.Data.Nat.Choose.Cast
/-!
# The joint distribution of the contents of a bucket
-/
namespace Peyl
namespace Bucketing
variable {β : Type} {d : Nat} [DecidableEq β]

/-- The expectation of `F` of the contents after the offers `os`, for acceptance chances `a log o` at a full bucket. -/
noncomputable def ex (K : Nat) (a : List (Offer β d) → Offer β d → ℚ) (F : List β → ℚ) : List (Offer β d) → List β → List (Offer β d) → ℚ
  | _, l, [] => F l
  | log, l, o :: os =>
    if log.length < K then ex K a F (log ++ [o]) (l ++ [o.braid]) os
    else (1 - a log o) * ex K a F (log ++ [o]) l os + a log o / K * ∑ r : Fin K, ex K a F (log ++ [o]) (l.set r.val o.braid) os

noncomputable def exEv (K : Nat) (a : List (Offer β d) → Offer β d → ℚ) (t : Tag) (F : List β → ℚ) : List (Offer β d) → List β → List (Ev β d) → ℚ
  | _, l, [] => F l
  | log, l, .offer t' o :: es =>
    if t' = t then
      if log.length < K then exEv K a t F (log ++ [o]) (l ++ [o.braid]) es
      else (1 - a log o) * exEv K a t F (log ++ [o]) l es + a log o / K * ∑ r : Fin K, exEv K a t F (log ++ [o]) (l.set r.val o.braid) es
    else exEv K a t F log l es
  | log, l, .discard t' :: es => if t' = t then exEv K a t F [] [] es else exEv K a t F log l es

/-- The acceptance chance of the code. -/
noncomputable def realAcc (c : Config β d) (M : Nat) (log : List (Offer β d)) (o : Offer β d) : ℚ := below M (threshold c log o) / M

def hitF {S : Type} (t : Tag) (F : List β → ℚ) (r : Except Err (Buckets β d × S)) : ℚ := match r with | .ok st => F (content st.1 t) | .error _ => 0

theorem coreF {c : Config β d} (hm : c.method = .uniform ∨ c.method = .aChao) (hc : 1 ≤ c.capacity) {M : Nat} (hM : 1 ≤ M) (t : Tag) (F : List β → ℚ) :
    ∀ (es : List (Ev β d)) (T : Nat) (bs : Buckets β d) (log : Tag → List (Offer β d)) (r0 : Nat), Inv c log bs → evOffers es ≤ T →
      (∀ t' o, Ev.offer t' o ∈ es → (o.image.length : Int) = t'.2.1) →
      (c.method = .aChao → (∀ t' o, Ev.offer t' o ∈ es → 0 < o.weight) ∧ ∀ t', ∀ o ∈ log t', 0 < o.weight) →
      (avg M c.capacity T fun w => hitF t F (runEv (coinRng M) c (bs, (r0, w)) es)) = exEv c.capacity (realAcc c M) t F (log t) (content bs t) es
  | [], T, bs, log, r0, hi, hT, hw, hp => by
    simp only [runEv, hitF, exEv]; exact avg_const hM hc T (F (content bs t))
  | .discard t' :: es, T, bs, log, r0, hi, hT, hw, hp => by
    have hi' := discard_inv c hi t'
    have ih := coreF hm hc hM t F es T _ _ r0 hi' hT (fun t'' o h => hw t'' o (List.mem_cons_of_mem _ h))
      (fun e => ⟨fun t'' o h => (hp e).1 t'' o (List.mem_cons_of_mem _ h), fun t'' o h => by
        split at h
        · cases h
        · exact (hp e).2 t'' o h⟩)
    simp only [runEv]
    rw [ih, exEv]
    by_cases ht : t' = t
    · subst ht
      simp only [if_true]
      congr 1
      obtain ⟨l, h1, h2, h3⟩ := hi'.content t'
      rw [h1]
      simp only [if_true] at h2
      rw [List.subperm_nil.1 h2]; simp
    · rw [if_neg ht, if_neg ht]
      have : content (discardBucket bs t') t = content bs t := by
        refine content_congr ?_
        rw [discardBucket]
        split
        · rw [Dict.get?_del, if_neg ht]
        · rfl
      rw [this]
  | .offer t' o :: es, T, bs, log, r0, hi, hT, hw, hp => by
    have hwo := hw t' o List.mem_cons_self
    have hw' : ∀ t'' o', Ev.offer t'' o' ∈ es → (o'.image.length : Int) = t''.2.1 := fun t'' o' h => hw t'' o' (List.mem_cons_of_mem _ h)
    have hp' : c.method = .aChao → (∀ t'' o', Ev.offer t'' o' ∈ es → 0 < o'.weight) ∧ ∀ t'', ∀ o' ∈ logAdd log t' o t'', 0 < o'.weight := fun e =>
      ⟨fun t'' o' h => (hp e).1 t'' o' (List.mem_cons_of_mem _ h), fun t'' o' h => by
        rw [logAdd] at h
        split at h
        · rcases List.mem_append.1 h with h | h
          · exact (hp e).2 t'' o' h
          · simp at h; subst h; exact (hp e).1 t' o' List.mem_cons_self
        · exact (hp e).2 t'' o' h⟩
    have hlog : logAdd log t' o t = if t' = t then log t ++ [o] else log t := rfl
    rw [evOffers] at hT
    by_cases hl : (log t').length < c.capacity
    · obtain ⟨bs', h1, h2, h3, h4⟩ := step_room (coinRng M) hm hi t' o hwo hl
      have ih := coreF hm hc hM t F es T bs' _ r0 h2 (by omega) hw' hp'
      simp only [runEv, h1, bind_ok]
      rw [ih, exEv, hlog]
      by_cases ht : t' = t
      · subst ht
        rw [if_pos rfl, if_pos rfl, if_pos hl, h4]
      · rw [if_neg ht, if_neg ht, h3 t ht]
    · obtain ⟨T, rfl⟩ : ∃ T', T = T' + 1 := ⟨T - 1, by omega⟩
      have hcoin := fun k r => step_coin hm hc hi t' o hwo hl (fun e => ⟨(hp e).1 t' o List.mem_cons_self, (hp e).2 t'⟩) M k r
      rw [avg]
      have key : ∀ (k : Fin M) (r : Fin c.capacity), (avg M c.capacity T fun w => hitF t F (runEv (coinRng M) c (bs, (r0, (k.val, r.val) :: w)) (.offer t' o :: es))) =
          if t' = t then (if (k.val : ℚ) / M ≤ threshold c (log t) o then exEv c.capacity (realAcc c M) t F (log t ++ [o]) ((content bs t).set r.val o.braid) es
            else exEv c.capacity (realAcc c M) t F (log t ++ [o]) (content bs t) es) else exEv c.capacity (realAcc c M) t F (log t) (content bs t) es := by
        intro k r
        obtain ⟨bs', h1, h2, h3, h4⟩ := hcoin k r
        have ih := coreF hm hc hM t F es T bs' _ r.val h2 (by omega) hw' hp'
        simp only [runEv, h1, bind_ok]
        rw [ih, hlog]
        by_cases ht : t' = t
        · subst ht
          rw [h4, if_pos rfl, if_pos rfl, Nat.mod_eq_of_lt r.isLt]
          split <;> rfl
        · rw [h3 t ht, if_neg ht, if_neg ht]
      simp only [key]
      have hMK : ((M * c.capacity : Nat) : ℚ) ≠ 0 := by positivity
      have hM0 : (M : ℚ) ≠ 0 := by positivity
      have hK0 : (c.capacity : ℚ) ≠ 0 := by positivity
      rw [exEv]
      by_cases ht : t' = t
      · subst ht
        simp only [if_true]
        rw [if_neg hl, realAcc]
        have : ∀ k : Fin M, (∑ r : Fin c.capacity, if (k.val : ℚ) / M ≤ threshold c (log t') o then
            exEv c.capacity (realAcc c M) t' F (log t' ++ [o]) ((content bs t').set r.val o.braid) es
            else exEv c.capacity (realAcc c M) t' F (log t' ++ [o]) (content bs t') es) = if (k.val : ℚ) / M ≤ threshold c (log t') o then
              ∑ r : Fin c.capacity, exEv c.capacity (realAcc c M) t' F (log t' ++ [o]) ((content bs t').set r.val o.braid) es
            else c.capacity * exEv c.capacity (realAcc c M) t' F (log t' ++ [o]) (content bs t') es := by
          intro k; split
          · rfl
          · simp
        simp only [this]
        rw [sum_below]
        push_cast
        field_simp
        ring
      · simp only [if_neg ht, Finset.sum_const, Finset.card_univ, Fintype.card_fin, nsmul_eq_mul]
        push_cast
        field_simp

theorem ex_snoc (K : Nat) (a : List (Offer β d) → Offer β d → ℚ) (F : List β → ℚ) (o : Offer β d) : ∀ (os log : List (Offer β d)) (l : List β),
    ex K a F log l (os ++ [o]) = ex K a (fun l' => if (log ++ os).length < K then F (l' ++ [o.braid]) else
      (1 - a (log ++ os) o) * F l' + a (log ++ os) o / K * ∑ r : Fin K, F (l'.set r.val o.braid)) log l os
  | [], log, l => by simp [ex]
  | o' :: os, log, l => by
    rw [List.cons_append, ex, ex]
    simp only [ex_snoc K a F o os]
    simp

theorem ex_const {K : Nat} (hK : 1 ≤ K) (a : List (Offer β d) → Offer β d → ℚ) (v : ℚ) : ∀ (os log : List (Offer β d)) (l : List β), ex K a (fun _ => v) log l os = v
  | [], _, _ => rfl
  | o :: os, log, l => by
    rw [ex]
    simp only [ex_const hK a v os, Finset.sum_const, Finset.card_univ, Fintype.card_fin, nsmul_eq_mul]
    have : (K : ℚ) ≠ 0 := by positivity
    split
    · rfl
    · field_simp; ring

theorem ex_sum {ι : Type} (s : Finset ι) (K : Nat) (a : List (Offer β d) → Offer β d → ℚ) (F : ι → List β → ℚ) : ∀ (os log : List (Offer β d)) (l : List β),
    ex K a (fun l => ∑ i ∈ s, F i l) log l os = ∑ i ∈ s, ex K a (F i) log l os
  | [], _, _ => rfl
  | o :: os, log, l => by
    simp only [ex, ex_sum s K a F os]
    split
    · rfl
    · rw [Finset.sum_add_distrib, ← Finset.mul_sum, ← Finset.mul_sum, Finset.sum_comm]

theorem ex_lin (K : Nat) (a : List (Offer β d) → Offer β d → ℚ) (u v : ℚ) (F G : List β → ℚ) : ∀ (os log : List (Offer β d)) (l : List β),
    ex K a (fun l => u * F l + v * G l) log l os = u * ex K a F log l os + v * ex K a G log l os
  | [], _, _ => rfl
  | o :: os, log, l => by
    simp only [ex, ex_lin K a u v F G os]
    split
    · rfl
    · rw [Finset.sum_add_distrib, ← Finset.mul_sum, ← Finset.mul_sum]; ring

/-- Contents that can occur after the offers `log`. -/
structure Occurs (K : Nat) (log : List (Offer β d)) (l : List β) : Prop where
  nodup : l.Nodup
  len : l.length = min log.length K
  sub : ∀ x ∈ l, x ∈ log.map Offer.braid

theorem Occurs.room {K : Nat} {log : List (Offer β d)} {l : List β} (h : Occurs K log l) (o : Offer β d) (ho : o.braid ∉ log.map Offer.braid) (hl : log.length < K) :
    Occurs K (log ++ [o]) (l ++ [o.braid]) where
  nodup := by
    rw [List.nodup_append]
    refine ⟨h.nodup, by simp, fun x hx y hy e => ho ?_⟩
    simp at hy; subst hy; rw [← e]; exact h.sub x hx
  len := by have := h.len; simp; omega
  sub := by
    intro x hx
    rcases List.mem_append.1 hx with hx | hx
    · rw [List.map_append]; exact List.mem_append_left _ (h.sub x hx)
    · simp at hx; simp [hx]

theorem Occurs.skip {K : Nat} {log : List (Offer β d)} {l : List β} (h : Occurs K log l) (o : Offer β d) (hl : ¬ log.length < K) : Occurs K (log ++ [o]) l where
  nodup := h.nodup
  len := by have := h.len; simp; omega
  sub x hx := by rw [List.map_append]; exact List.mem_append_left _ (h.sub x hx)

theorem Occurs.set {K : Nat} {log : List (Offer β d)} {l : List β} (h : Occurs K log l) (o : Offer β d) (ho : o.braid ∉ log.map Offer.braid) (hl : ¬ log.length < K) (r : Nat) :
    Occurs K (log ++ [o]) (l.set r o.braid) where
  nodup := by
    by_cases hr : r < l.length
    · refine ((set_perm_cons l r o.braid hr).nodup_iff.2 ?_ |> fun h => (List.nodup_append.1 h).1)
      rw [List.nodup_append]
      refine ⟨h.nodup, by simp, fun x hx y hy e => ho ?_⟩
      simp at hy; subst hy; rw [← e]; exact h.sub x hx
    · rw [List.set_eq_of_length_le (by omega)]; exact h.nodup
  len := by have := h.len; simp; omega
  sub := by
    intro x hx
    rcases List.mem_or_eq_of_mem_set hx with hx | hx
    · rw [List.map_append]; exact List.mem_append_left _ (h.sub x hx)
    · simp [hx]

theorem ex_congr {K : Nat} (a : List (Offer β d) → Offer β d → ℚ) {F G : List β → ℚ} : ∀ (os log : List (Offer β d)) (l : List β), Occurs K log l →
    ((log ++ os).map Offer.braid).Nodup → (∀ l', Occurs K (log ++ os) l' → F l' = G l') → ex K a F log l os = ex K a G log l os
  | [], log, l, h, _, hF => hF l (by simpa using h)
  | o :: os, log, l, h, hn, hF => by
    have e : log ++ o :: os = (log ++ [o]) ++ os := by simp
    have ho : o.braid ∉ log.map Offer.braid := by
      rw [List.map_append, List.nodup_append] at hn
      exact fun hx => hn.2.2 _ hx o.braid (by simp) rfl
    rw [e] at hn hF
    rw [ex, ex]
    by_cases hl : log.length < K
    · rw [if_pos hl, if_pos hl]; exact ex_congr a os _ _ (h.room o ho hl) hn hF
    · rw [if_neg hl, if_neg hl, ex_congr a os _ _ (h.skip o hl) hn hF]
      congr 2
      exact Finset.sum_congr rfl fun r _ => ex_congr a os _ _ (h.set o ho hl r.val) hn hF

theorem ex_range {K : Nat} (hK : 1 ≤ K) {a : List (Offer β d) → Offer β d → ℚ} {F : List β → ℚ} (hF : ∀ l, 0 ≤ F l ∧ F l ≤ 1) : ∀ (os log : List (Offer β d)) (l : List β),
    (∀ lg o, K ≤ lg.length → 0 ≤ a lg o ∧ a lg o ≤ 1) → 0 ≤ ex K a F log l os ∧ ex K a F log l os ≤ 1
  | [], _, l, _ => hF l
  | o :: os, log, l, ha => by
    rw [ex]
    split
    · exact ex_range hK hF os _ _ ha
    · next hl =>
      obtain ⟨h1, h2⟩ := ex_range hK hF os (log ++ [o]) l ha
      obtain ⟨a1, a2⟩ := ha log o (by omega)
      have hs0 : 0 ≤ ∑ r : Fin K, ex K a F (log ++ [o]) (l.set r.val o.braid) os := Finset.sum_nonneg fun r _ => (ex_range hK hF os _ _ ha).1
      have hs1 : ∑ r : Fin K, ex K a F (log ++ [o]) (l.set r.val o.braid) os ≤ K := by
        refine le_trans (Finset.sum_le_sum fun r _ => (ex_range hK hF os _ _ ha).2) (by simp)
      have hK0 : (0 : ℚ) < K := by positivity
      have e : a log o / K * ∑ r : Fin K, ex K a F (log ++ [o]) (l.set r.val o.braid) os = a log o * ((∑ r : Fin K, ex K a F (log ++ [o]) (l.set r.val o.braid) os) / K) := by ring
      rw [e]
      have q0 : 0 ≤ (∑ r : Fin K, ex K a F (log ++ [o]) (l.set r.val o.braid) os) / K := by positivity
      have q1 : (∑ r : Fin K, ex K a F (log ++ [o]) (l.set r.val o.braid) os) / K ≤ 1 := by rw [div_le_one hK0]; exact hs1
      constructor
      · have := mul_nonneg (sub_nonneg.2 a2) h1
        have := mul_nonneg a1 q0
        linarith
      · have := mul_le_mul_of_nonneg_left h2 (sub_nonneg.2 a2)
        have := mul_le_mul_of_nonneg_left q1 a1
        linarith

/-- Acceptance chances that differ by at most `ε` change the distribution by at most `ε` for each offer. -/
theorem ex_close {K : Nat} (hK : 1 ≤ K) {a a' : List (Offer β d) → Offer β d → ℚ} {F : List β → ℚ} (hF : ∀ l, 0 ≤ F l ∧ F l ≤ 1) {ε : ℚ} (hε : 0 ≤ ε)
    (ha : ∀ lg o, K ≤ lg.length → 0 ≤ a lg o ∧ a lg o ≤ 1) (ha' : ∀ lg o, K ≤ lg.length → 0 ≤ a' lg o ∧ a' lg o ≤ 1)
    (hd : ∀ lg o, K ≤ lg.length → |a lg o - a' lg o| ≤ ε) : ∀ (os log : List (Offer β d)) (l : List β), |ex K a F log l os - ex K a' F log l os| ≤ os.length * ε
  | [], _, l => by simp [ex]
  | o :: os, log, l => by
    rw [ex, ex, List.length_cons]
    push_cast
    by_cases hl : log.length < K
    · rw [if_pos hl, if_pos hl]
      have := ex_close hK hF hε ha ha' hd os (log ++ [o]) (l ++ [o.braid])
      linarith
    · rw [if_neg hl, if_neg hl]
      have hK0 : (0 : ℚ) < K := by positivity
      obtain ⟨b1, b2⟩ := ha log o (by omega)
      have hd' := hd log o (by omega)
      have i1 := ex_close hK hF hε ha ha' hd os (log ++ [o]) l
      have i2 : |(∑ r : Fin K, ex K a F (log ++ [o]) (l.set r.val o.braid) os) / K - (∑ r : Fin K, ex K a' F (log ++ [o]) (l.set r.val o.braid) os) / K| ≤ os.length * ε := by
        rw [← sub_div, ← Finset.sum_sub_distrib, abs_div, abs_of_pos hK0, div_le_iff₀ hK0]
        refine le_trans (Finset.abs_sum_le_sum_abs _ _) (le_trans (Finset.sum_le_sum fun r _ => ex_close hK hF hε ha ha' hd os (log ++ [o]) (l.set r.val o.braid)) ?_)
        simp; linarith
      obtain ⟨u1, u2⟩ := ex_range hK hF os (log ++ [o]) l ha'
      have v1 : 0 ≤ (∑ r : Fin K, ex K a' F (log ++ [o]) (l.set r.val o.braid) os) / K :=
        div_nonneg (Finset.sum_nonneg fun r _ => (ex_range hK hF os _ _ ha').1) hK0.le
      have v2 : (∑ r : Fin K, ex K a' F (log ++ [o]) (l.set r.val o.braid) os) / K ≤ 1 := by
        rw [div_le_one hK0]
        exact le_trans (Finset.sum_le_sum fun r _ => (ex_range hK hF os _ _ ha').2) (by simp)
      have e1 : a log o / K * ∑ r : Fin K, ex K a F (log ++ [o]) (l.set r.val o.braid) os = a log o * ((∑ r : Fin K, ex K a F (log ++ [o]) (l.set r.val o.braid) os) / K) := by ring
      have e2 : a' log o / K * ∑ r : Fin K, ex K a' F (log ++ [o]) (l.set r.val o.braid) os = a' log o * ((∑ r : Fin K, ex K a' F (log ++ [o]) (l.set r.val o.braid) os) / K) := by ring
      rw [e1, e2]
      generalize (∑ r : Fin K, ex K a F (log ++ [o]) (l.set r.val o.braid) os) / K = S at *
      generalize (∑ r : Fin K, ex K a' F (log ++ [o]) (l.set r.val o.braid) os) / K = S' at *
      generalize ex K a F (log ++ [o]) l os = E at *
      generalize ex K a' F (log ++ [o]) l os = E' at *
      generalize a log o = p at *
      generalize a' log o = p' at *
      have : (1 - p) * E + p * S - ((1 - p') * E' + p' * S') = (1 - p) * (E - E') + p * (S - S') + (p - p') * (S' - E') := by ring
      rw [this]
      have t1 : |(1 - p) * (E - E')| ≤ (1 - p) * (os.length * ε) := by
        rw [abs_mul, abs_of_nonneg (by linarith)]; exact mul_le_mul_of_nonneg_left i1 (by linarith)
      have t2 : |p * (S - S')| ≤ p * (os.length * ε) := by
        rw [abs_mul, abs_of_nonneg b1]; exact mul_le_mul_of_nonneg_left i2 b1
      have t3 : |(p - p') * (S' - E')| ≤ ε := by
        rw [abs_mul]
        have : |S' - E'| ≤ 1 := abs_le.2 ⟨by linarith, by linarith⟩
        calc |p - p'| * |S' - E'| ≤ ε * 1 := mul_le_mul hd' this (abs_nonneg _) hε
          _ = ε := mul_one _
      have := abs_add_le ((1 - p) * (E - E') + p * (S - S')) ((p - p') * (S' - E'))
      have := abs_add_le ((1 - p) * (E - E')) (p * (S - S'))
      linarith

/-! ### The ideal reservoir -/

/-- The acceptance chance of Algorithm R. -/
noncomputable def idealAcc (K : Nat) (log : List (Offer β d)) (_ : Offer β d) : ℚ := K / (log.length + 1 : Nat)

theorem swap_iff {S A : Finset β} {o y : β} (ho : o ∈ A) (hS : o ∉ S) (hc : S.card = A.card) :
    (y ∈ S ∧ insert o (S.erase y) = A) ↔ (y ∉ A ∧ S = insert y (A.erase o)) := by
  constructor
  · rintro ⟨hy, h⟩
    have hyo : y ≠ o := fun e => hS (e ▸ hy)
    have h' : S = insert y (A.erase o) := by rw [← h, Finset.erase_insert (by simp [hS]), Finset.insert_erase hy]
    refine ⟨fun hyA => ?_, h'⟩
    rw [← h] at hyA
    simp [hyo] at hyA
  · rintro ⟨hyA, h⟩
    refine ⟨by rw [h]; simp, ?_⟩
    rw [h, Finset.erase_insert (by simp [hyA]), Finset.insert_erase ho]

theorem toFinset_set {l : List β} (hn : l.Nodup) {r : Nat} (hr : r < l.length) (o : β) : (l.set r o).toFinset = insert o (l.toFinset.erase l[r]) := by
  ext y
  simp only [List.mem_toFinset, Finset.mem_insert, Finset.mem_erase]
  constructor
  · intro h
    obtain ⟨j, hj, e⟩ := List.getElem_of_mem h
    rw [List.getElem_set] at e
    split at e
    · exact Or.inl e.symm
    · next hne =>
      rw [List.length_set] at hj
      refine Or.inr ⟨?_, e ▸ List.getElem_mem _⟩
      rw [← e]; intro e'; exact hne ((hn.getElem_inj_iff).1 e').symm
  · rintro (rfl | ⟨h1, h2⟩)
    · exact List.mem_iff_getElem.2 ⟨r, by rw [List.length_set]; exact hr, List.getElem_set_self _⟩
    · obtain ⟨j, hj, e⟩ := List.getElem_of_mem h2
      refine List.mem_iff_getElem.2 ⟨j, by rw [List.length_set]; exact hj, ?_⟩
      rw [List.getElem_set_ne, e]
      rintro rfl; exact h1 e.symm

theorem Occurs.card {K : Nat} {log : List (Offer β d)} {l : List β} (h : Occurs K log l) : l.toFinset.card = min log.length K := by
  rw [List.toFinset_card_of_nodup h.nodup, h.len]

theorem ex_ideal {K : Nat} (hK : 1 ≤ K) (os : List (Offer β d)) : (os.map Offer.braid).Nodup → ∀ A : Finset β, A ⊆ (os.map Offer.braid).toFinset → A.card = min os.length K →
    ex K (idealAcc K) (fun l => if l.toFinset = A then 1 else 0) [] [] os = 1 / (os.length.choose (min os.length K) : ℚ) := by
  induction os using List.reverseRecOn with
  | nil =>
    intro _ A _ hA
    have : A = ∅ := Finset.card_eq_zero.1 (by simpa using hA)
    simp [ex, this]
  | append_singleton os o ih =>
    intro hn A hA hc
    have hn0 : (os.map Offer.braid).Nodup := by rw [List.map_append, List.nodup_append] at hn; exact hn.1
    have ho : o.braid ∉ os.map Offer.braid := by
      rw [List.map_append, List.nodup_append] at hn
      exact fun h => hn.2.2 _ h o.braid (by simp) rfl
    have hemp : Occurs K ([] : List (Offer β d)) ([] : List β) := ⟨by simp, by simp, by simp⟩
    have hU : ((os ++ [o]).map Offer.braid).toFinset.card = os.length + 1 := by rw [List.toFinset_card_of_nodup hn]; simp
    rw [ex_snoc]
    by_cases hl : os.length < K
    · have hm : min (os ++ [o]).length K = os.length + 1 := by simp; omega
      rw [hm] at hc ⊢
      have hAU : A = ((os ++ [o]).map Offer.braid).toFinset := Finset.eq_of_subset_of_card_le hA (by omega)
      rw [ex_congr (idealAcc K) (G := fun _ => 1) os [] [] hemp (by simpa using hn0), ex_const hK]
      · simp
      · intro l' hl'
        simp only [List.nil_append] at hl' ⊢
        rw [if_pos hl, if_pos]
        have h2 := hl'.room o ho hl
        refine Finset.eq_of_subset_of_card_le (fun y hy => ?_) ?_
        · rw [hAU, List.mem_toFinset]; exact h2.sub y (List.mem_toFinset.1 hy)
        · rw [h2.card]; simp; omega
    · have hm : min (os ++ [o]).length K = K := by simp; omega
      have hm' : min os.length K = K := by omega
      rw [hm] at hc ⊢
      rw [hm'] at ih
      have hK0 : (0 : ℚ) < K := by positivity
      have hch : (os.length.choose K : ℚ) * (os.length + 1) = ((os.length + 1).choose K : ℚ) * (os.length + 1 - K) := by
        have := Nat.choose_mul_succ_eq os.length K
        have h2 : ((os.length + 1 - K : Nat) : ℚ) = os.length + 1 - K := by rw [Nat.cast_sub (by omega)]; push_cast; ring
        rw [← h2]; exact_mod_cast this
      have hc1 : (0 : ℚ) < (os.length.choose K : ℚ) := by exact_mod_cast Nat.choose_pos (by omega)
      have hc2 : (0 : ℚ) < ((os.length + 1).choose K : ℚ) := by exact_mod_cast Nat.choose_pos (by omega)
      have hN : (0 : ℚ) < os.length + 1 := by positivity
      have hlen : (os ++ [o]).length = os.length + 1 := by simp
      rw [hlen]
      by_cases hoA : o.braid ∈ A
      · -- the new item is in the sample
        have hcU : ((os.map Offer.braid).toFinset \ A).card = os.length - (K - 1) := by
          have : (os.map Offer.braid).toFinset \ A = ((os ++ [o]).map Offer.braid).toFinset \ A := by
            ext y
            simp only [Finset.mem_sdiff, List.mem_toFinset, List.map_append, List.mem_append, List.map_cons, List.map_nil, List.mem_singleton]
            constructor
            · rintro ⟨h1, h2⟩; exact ⟨Or.inl h1, h2⟩
            · rintro ⟨h1 | h1, h2⟩
              · exact ⟨h1, h2⟩
              · exact absurd (h1 ▸ hoA) h2
          rw [this, Finset.card_sdiff_of_subset hA, hU, hc]; omega
        rw [ex_congr (idealAcc K) (G := fun l' => (1 / (os.length + 1) : ℚ) * (∑ y ∈ (os.map Offer.braid).toFinset \ A, if l'.toFinset = insert y (A.erase o.braid) then (1 : ℚ) else 0) +
          0 * (fun _ => (0 : ℚ)) l') os [] [] hemp (by simpa using hn0)]
        · rw [ex_lin, ex_sum, Finset.sum_congr rfl (g := fun _ => 1 / (os.length.choose K : ℚ)), Finset.sum_const, hcU, nsmul_eq_mul, zero_mul, add_zero]
          · have h2 : ((os.length - (K - 1) : Nat) : ℚ) = os.length + 1 - K := by
              rw [Nat.cast_sub (by omega), Nat.cast_sub hK]; push_cast; ring
            rw [h2]
            field_simp
            linarith
          · intro y hy
            rw [Finset.mem_sdiff] at hy
            refine ih hn0 _ (fun z hz => ?_) ?_
            · rcases Finset.mem_insert.1 hz with rfl | hz
              · exact hy.1
              · have h3 := hA (Finset.mem_of_mem_erase hz)
                have h4 := Finset.ne_of_mem_erase hz
                simp only [List.mem_toFinset, List.map_append, List.mem_append, List.map_cons, List.map_nil, List.mem_singleton] at h3
                rcases h3 with h3 | h3
                · exact List.mem_toFinset.2 h3
                · exact absurd h3 h4
            · rw [Finset.card_insert_of_notMem (fun h => hy.2 (Finset.mem_of_mem_erase h)), Finset.card_erase_of_mem hoA, hc]; omega
        · intro l' hl'
          simp only [List.nil_append] at hl' ⊢
          have hlen' : l'.length = K := by rw [hl'.len, hm']
          have hol : o.braid ∉ l' := fun h => ho (hl'.sub _ h)
          rw [if_neg hl, if_neg (fun h => by rw [← h] at hoA; exact hol (List.mem_toFinset.1 hoA)), mul_zero, zero_add, zero_mul, add_zero, idealAcc]
          have hs : (∑ r : Fin K, if (l'.set r.val o.braid).toFinset = A then (1 : ℚ) else 0) =
              ∑ y ∈ (os.map Offer.braid).toFinset \ A, if l'.toFinset = insert y (A.erase o.braid) then (1 : ℚ) else 0 := by
            subst hlen'
            have h1 : ∀ r : Fin l'.length, (if (l'.set r.val o.braid).toFinset = A then (1 : ℚ) else 0) =
                (fun y => if insert o.braid (l'.toFinset.erase y) = A then (1 : ℚ) else 0) l'[r.val] := fun r => by
              rw [toFinset_set hl'.nodup r.isLt]
            rw [Finset.sum_congr rfl fun r _ => h1 r, Fin.sum_univ_fun_getElem l' (fun y => if insert o.braid (l'.toFinset.erase y) = A then (1 : ℚ) else 0), ← List.sum_toFinset _ hl'.nodup, ← Finset.sum_filter, ← Finset.sum_filter,
              Finset.sum_const, Finset.sum_const]
            congr 2
            ext y
            rw [Finset.mem_filter, Finset.mem_filter, swap_iff hoA (by simpa using hol) (by rw [hl'.card, hm', hc]), Finset.mem_sdiff]
            constructor
            · rintro ⟨h1, h2⟩
              have hy : y ∈ l'.toFinset := by rw [h2]; simp
              exact ⟨⟨List.mem_toFinset.2 (hl'.sub y (List.mem_toFinset.1 hy)), h1⟩, h2⟩
            · rintro ⟨⟨-, h1⟩, h2⟩; exact ⟨h1, h2⟩
          rw [hs]
          push_cast
          field_simp
      · -- the new item is not in the sample
        rw [ex_congr (idealAcc K) (G := fun l' => (1 - K / (os.length + 1) : ℚ) * (if l'.toFinset = A then 1 else 0) +
          0 * (fun _ => (0 : ℚ)) l') os [] [] hemp (by simpa using hn0)]
        · rw [ex_lin, ih hn0 A (fun z hz => ?_) hc, zero_mul, add_zero]
          · field_simp
            linarith
          · have h3 := hA hz
            simp only [List.mem_toFinset, List.map_append, List.mem_append, List.map_cons, List.map_nil, List.mem_singleton] at h3
            rcases h3 with h3 | h3
            · exact List.mem_toFinset.2 h3
            · exact absurd (h3 ▸ hz) hoA
        · intro l' hl'
          simp only [List.nil_append] at hl' ⊢
          have hlen' : l'.length = K := by rw [hl'.len, hm']
          rw [if_neg hl, zero_mul, add_zero, Finset.sum_eq_zero, mul_zero, add_zero, idealAcc]
          · push_cast; rfl
          · intro r _
            refine if_neg fun h => hoA ?_
            rw [← h, toFinset_set hl'.nodup (by omega)]; simp

theorem exEv_eq_ex {K : Nat} (hK : 1 ≤ K) (a : List (Offer β d) → Offer β d → ℚ) (t : Tag) (F : List β → ℚ) : ∀ (es : List (Ev β d)) (log : List (Offer β d)),
    ex K a (fun l => exEv K a t F log l es) [] [] log = ex K a F [] [] (since t log es)
  | [], log => rfl
  | .offer t' o :: es, log => by
    rw [since]
    by_cases ht : t' = t
    · simp only [if_pos ht, exEv]
      rw [← exEv_eq_ex hK a t F es, ex_snoc]
      rfl
    · simp only [if_neg ht, exEv]
      exact exEv_eq_ex hK a t F es log
  | .discard t' :: es, log => by
    rw [since]
    by_cases ht : t' = t
    · simp only [if_pos ht, exEv]
      rw [← exEv_eq_ex hK a t F es [], ex_const hK]
      rfl
    · simp only [if_neg ht, exEv]
      exact exEv_eq_ex hK a t F es log

/-- The exact expectation of a function of the contents of a bucket after a history. -/
theorem avg_run {c : Config β d} (hm : c.method = .uniform ∨ c.method = .aChao) (hc : 1 ≤ c.capacity) {M : Nat} (hM : 1 ≤ M) (ops : List (Op β d))
    (hv : ∀ b, Op.add b ∈ ops → Valid c b) (hp : c.method = .aChao → ∀ b, Op.add b ∈ ops → ∀ o ∈ offersOf c b, 0 < o.2.weight) (t : Tag)
    (T : Nat) (hT : offerCount c ops ≤ T) (F : List β → ℚ) :
    (avg M c.capacity T fun w => hitF t F (run (coinRng M) c ([], (0, w)) ops)) = ex c.capacity (realAcc c M) F [] [] (offered c ops t) := by
  have hmem : ∀ t' o', Ev.offer t' o' ∈ events c ops → ∃ b, Op.add b ∈ ops ∧ (t', o') ∈ offersOf c b := by
    intro t' o' h
    rw [events, List.mem_flatMap] at h
    obtain ⟨op, h1, h2⟩ := h
    cases op with
    | add b =>
      obtain ⟨p, hp1, hp2⟩ := List.mem_map.1 h2
      cases hp2
      exact ⟨b, h1, hp1⟩
    | discard t => simp at h2
  have hs : since t [] (events c ops) = offered c ops t := (since_events c t ops []).symm
  have hco := coreF hm hc hM t F (events c ops) T [] (fun _ => []) 0 (inv_empty c) (by rw [evOffers_events]; exact hT)
    (fun t' o' h => by
      obtain ⟨b, h1, h2⟩ := hmem t' o' h
      exact (add_eq_feed (coinRng M) c ([], (0, [])) b (hv b h1)).2 _ h2)
    (fun e => ⟨fun t' o' h => by obtain ⟨b, h1, h2⟩ := hmem t' o' h; exact hp e b h1 _ h2, fun _ _ h => by cases h⟩)
  rw [← hs, ← exEv_eq_ex hc]
  refine Eq.trans (avg_congr fun w _ => ?_) hco
  rw [run_events _ c ops _ hv]

/-- After a history, an event about the contents of a bucket. -/
theorem coinChance_run {c : Config β d} (hm : c.method = .uniform ∨ c.method = .aChao) (hc : 1 ≤ c.capacity) {M : Nat} (hM : 1 ≤ M) (ops : List (Op β d))
    (hv : ∀ b, Op.add b ∈ ops → Valid c b) (hp : c.method = .aChao → ∀ b, Op.add b ∈ ops → ∀ o ∈ offersOf c b, 0 < o.2.weight) (t : Tag)
    (T : Nat) (hT : offerCount c ops ≤ T) (ho : offered c ops t ≠ []) (P : List β → Prop) [DecidablePred P] :
    coinChance M c.capacity T (fun w => ∃ r b, run (coinRng M) c ([], (0, w)) ops = .ok r ∧ (t, b) ∈ r.1 ∧ P b.braids) =
      ex c.capacity (realAcc c M) (fun l => if P l then 1 else 0) [] [] (offered c ops t) := by
  classical
  rw [coinChance_eq, ← avg_run hm hc hM ops hv hp t T hT]
  refine avg_congr fun w _ => ?_
  cases hr : run (coinRng M) c ([], (0, w)) ops with
  | error e =>
    rw [hitF, if_neg]
    rintro ⟨r, b, h1, -⟩
    cases h1
  | ok r =>
    have hinv := run_inv (coinRng M) c ops (inv_empty c) hr
    show _ = if P (content r.1 t) then (1 : ℚ) else 0
    refine if_congr ?_ rfl rfl
    constructor
    · rintro ⟨r', b, h1, h2, h3⟩
      cases h1
      rw [content_of_get (Dict.get?_of_mem hinv.nodup h2)]; exact h3
    · intro h
      cases hg : Dict.get? r.1 t with
      | none => exact absurd (hinv.none t hg) ho
      | some b => rw [content_of_get hg] at h; exact ⟨r, b, rfl, Dict.mem_of_get? hg, h⟩

theorem realAcc_range {c : Config β d} {M : Nat} (log : List (Offer β d)) (o : Offer β d) (hM : 1 ≤ M) : 0 ≤ realAcc c M log o ∧ realAcc c M log o ≤ 1 := by
  rw [realAcc]
  refine ⟨by positivity, ?_⟩
  rw [div_le_one (by positivity)]
  exact_mod_cast below_le_card M _

theorem realAcc_uniform {c : Config β d} (hm : c.method = .uniform) {M : Nat} (hM : 1 ≤ M) (log : List (Offer β d)) (o : Offer β d) (hl : c.capacity ≤ log.length) :
    idealAcc c.capacity log o ≤ realAcc c M log o ∧ realAcc c M log o ≤ idealAcc c.capacity log o + 1 / M := by
  have ht : threshold c log o = idealAcc c.capacity log o := by rw [threshold, hm, if_neg (by decide), idealAcc]
  have h1 : idealAcc c.capacity log o ≤ 1 := by
    rw [idealAcc, div_le_one (by positivity)]; exact_mod_cast (by omega)
  rw [realAcc, ht]
  exact ⟨below_ge hM h1, below_le hM (by rw [idealAcc]; positivity)⟩

/-- With 'Uniform', every event about the contents has nearly the chance that it has for Algorithm R. -/
theorem uniform_close {c : Config β d} (hm : c.method = .uniform) (hc : 1 ≤ c.capacity) {M : Nat} (hM : 1 ≤ M) {F : List β → ℚ} (hF : ∀ l, 0 ≤ F l ∧ F l ≤ 1)
    (os log : List (Offer β d)) (l : List β) : |ex c.capacity (realAcc c M) F log l os - ex c.capacity (idealAcc c.capacity) F log l os| ≤ os.length / M := by
  have h := ex_close hc hF (ε := 1 / M) (a := realAcc c M) (a' := idealAcc c.capacity) (by positivity) (fun lg o _ => realAcc_range lg o hM) (fun lg o hl => by
    refine ⟨by rw [idealAcc]; positivity, ?_⟩
    rw [idealAcc, div_le_one (by positivity)]; exact_mod_cast (by omega)) (fun lg o hl => by
    obtain ⟨h1, h2⟩ := realAcc_uniform hm hM lg o hl
    rw [abs_le]; constructor <;> linarith [show (0 : ℚ) ≤ 1 / M by positivity]) os log l
  calc _ ≤ _ := h
    _ = _ := by ring

end Bucketing
end Peyl
