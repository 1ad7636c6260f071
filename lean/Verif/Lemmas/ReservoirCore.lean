import Verif.Lemmas.ReservoirChance
/-!
# Chances in the reservoirs of `bucketing.Tracker`: the recursion
-/
namespace Peyl
namespace Bucketing
variable {β : Type} {d : Nat} [DecidableEq β]

/-- The chance that an item shown to a bucket is put into it. -/
noncomputable def accept (c : Config β d) (M : Nat) (log : List (Offer β d)) (o : Offer β d) : ℚ :=
  if log.length < c.capacity then 1 else below M (threshold c log o) / M

/-- The chance that an item in a bucket survives the next offer. -/
noncomputable def survive (c : Config β d) (M : Nat) (log : List (Offer β d)) (o : Offer β d) : ℚ :=
  if log.length < c.capacity then 1 else 1 - below M (threshold c log o) / M / c.capacity

noncomputable def value (c : Config β d) (M : Nat) (t : Tag) (x : β) : ℚ → List (Offer β d) → List (Ev β d) → ℚ
  | e, _, [] => e
  | e, log, .offer t' o :: es =>
    if t' = t then value c M t x (if o.braid = x then accept c M log o else survive c M log o * e) (log ++ [o]) es else value c M t x e log es
  | e, log, .discard t' :: es => if t' = t then value c M t x 0 [] es else value c M t x e log es

theorem value_affine (c : Config β d) (M : Nat) (t : Tag) (x : β) : ∀ (es : List (Ev β d)) (log : List (Offer β d)), ∃ A B : ℚ, ∀ e, value c M t x e log es = A * e + B
  | [], log => ⟨1, 0, fun e => by simp [value]⟩
  | .offer t' o :: es, log => by
    by_cases ht : t' = t
    · obtain ⟨A, B, h⟩ := value_affine c M t x es (log ++ [o])
      by_cases hx : o.braid = x
      · exact ⟨0, _, fun e => by simp only [value, if_pos ht, if_pos hx]; rw [zero_mul, zero_add]⟩
      · exact ⟨A * survive c M log o, B, fun e => by simp only [value, if_pos ht, if_neg hx, h]; ring⟩
    · obtain ⟨A, B, h⟩ := value_affine c M t x es log
      exact ⟨A, B, fun e => by simp only [value, if_neg ht, h]⟩
  | .discard t' :: es, log => by
    by_cases ht : t' = t
    · exact ⟨0, _, fun e => by simp only [value, if_pos ht]; rw [zero_mul, zero_add]⟩
    · obtain ⟨A, B, h⟩ := value_affine c M t x es log
      exact ⟨A, B, fun e => by simp only [value, if_neg ht, h]⟩

theorem value_discard (c : Config β d) (M : Nat) (t : Tag) (x : β) : ∀ (es : List (Ev β d)) (log log' : List (Offer β d)) (e e' : ℚ), Ev.discard t ∈ es →
    value c M t x e log es = value c M t x e' log' es
  | .offer t' o :: es, log, log', e, e', h => by
    have h' : Ev.discard t ∈ es := by simpa using h
    by_cases ht : t' = t
    · simp only [value, if_pos ht]; exact value_discard c M t x es _ _ _ _ h'
    · simp only [value, if_neg ht]; exact value_discard c M t x es _ _ _ _ h'
  | .discard t' :: es, log, log', e, e', h => by
    by_cases ht : t' = t
    · simp only [value, if_pos ht]
    · have h' : Ev.discard t ∈ es := by
        rcases List.mem_cons.1 h with h | h
        · cases h; exact absurd rfl ht
        · exact h
      simp only [value, if_neg ht]; exact value_discard c M t x es _ _ _ _ h'

theorem since_prefix (t : Tag) : ∀ (es : List (Ev β d)) (log : List (Offer β d)), Ev.discard t ∉ es → log <+: since t log es
  | [], log, _ => List.prefix_rfl
  | .offer t' o :: es, log, h => by
    have := since_prefix t es (if t' = t then log ++ [o] else log) fun hh => h (List.mem_cons_of_mem _ hh)
    rw [since]
    refine List.IsPrefix.trans ?_ this
    split
    · exact List.prefix_append _ _
    · exact List.prefix_rfl
  | .discard t' :: es, log, h => by
    have ht : t' ≠ t := fun e => h (by simp [e])
    rw [since, if_neg ht]
    exact since_prefix t es log fun hh => h (List.mem_cons_of_mem _ hh)

theorem sum_below (M : Nat) (q a b : ℚ) : (∑ k : Fin M, if (k.val : ℚ) / M ≤ q then a else b) = below M q * a + (M - below M q) * b := by
  rw [Finset.sum_ite, Finset.sum_const, Finset.sum_const, nsmul_eq_mul, nsmul_eq_mul]
  congr 2
  have := Finset.card_filter_add_card_filter_not (s := (Finset.univ : Finset (Fin M))) fun k : Fin M => (k.val : ℚ) / M ≤ q
  rw [Finset.card_univ, Fintype.card_fin] at this
  have h2 : ((Finset.univ.filter fun k : Fin M => (k.val : ℚ) / M ≤ q).card : ℚ) + ((Finset.univ.filter fun k : Fin M => ¬ (k.val : ℚ) / M ≤ q).card : ℚ) = M := by
    exact_mod_cast this
  rw [below]; linarith

/-- The number of indices at which overwriting keeps an entry. -/
theorem sum_set {K : Nat} {l : List β} (hl : l.length = K) (hn : l.Nodup) {x y : β} (hxy : y ≠ x) :
    (∑ r : Fin K, if x ∈ l.set (r.val % K) y then (1 : ℚ) else 0) = if x ∈ l then (K : ℚ) - 1 else 0 := by
  subst hl
  split
  · next hx =>
    obtain ⟨i, hi, rfl⟩ := List.getElem_of_mem hx
    have : ∀ r : Fin l.length, (if l[i] ∈ l.set (r.val % l.length) y then (1 : ℚ) else 0) = 1 - if r = ⟨i, hi⟩ then 1 else 0 := by
      intro r
      rw [Nat.mod_eq_of_lt r.isLt]
      by_cases hr : r = ⟨i, hi⟩
      · subst hr
        rw [if_pos rfl, if_neg, sub_self]
        intro h
        obtain ⟨j, hj, e⟩ := List.getElem_of_mem h
        rw [List.getElem_set] at e
        split at e
        · exact hxy e
        · next hne => rw [List.length_set] at hj; exact hne ((hn.getElem_inj_iff).1 e).symm
      · rw [if_neg hr, if_pos, sub_zero]
        refine List.mem_iff_getElem.2 ⟨i, by rw [List.length_set]; exact hi, ?_⟩
        rw [List.getElem_set_ne]
        intro e; exact hr (Fin.ext e)
    simp only [this, Finset.sum_sub_distrib, Finset.sum_const, Finset.card_univ, Fintype.card_fin, nsmul_eq_mul, mul_one, Finset.sum_ite_eq', Finset.mem_univ, if_true]
  · next hx =>
    refine Finset.sum_eq_zero fun r _ => if_neg fun h => ?_
    rcases List.mem_or_eq_of_mem_set h with h | h
    · exact hx h
    · exact hxy h.symm

/-- 1 if the run ends and the bucket contains the braid, else 0. -/
def hit {S : Type} (t : Tag) (x : β) (r : Except Err (Buckets β d × S)) : ℚ := match r with | .ok st => if x ∈ content st.1 t then 1 else 0 | .error _ => 0

theorem core {c : Config β d} (hm : c.method = .uniform ∨ c.method = .aChao) (hc : 1 ≤ c.capacity) {M : Nat} (hM : 1 ≤ M) (t : Tag) (x : β) :
    ∀ (es : List (Ev β d)) (T : Nat) (bs : Buckets β d) (log : Tag → List (Offer β d)) (r0 : Nat), Inv c log bs → evOffers es ≤ T →
      (∀ t' o, Ev.offer t' o ∈ es → (o.image.length : Int) = t'.2.1) →
      (c.method = .aChao → (∀ t' o, Ev.offer t' o ∈ es → 0 < o.weight) ∧ ∀ t', ∀ o ∈ log t', 0 < o.weight) →
      ((since t (log t) es).map Offer.braid).Nodup →
      (avg M c.capacity T fun w => hit t x (runEv (coinRng M) c (bs, (r0, w)) es)) = value c M t x (if x ∈ content bs t then 1 else 0) (log t) es
  | [], T, bs, log, r0, hi, hT, hw, hp, hn => by
    simp only [runEv, hit, value]; exact avg_const hM hc T (if x ∈ content bs t then 1 else 0)
  | .discard t' :: es, T, bs, log, r0, hi, hT, hw, hp, hn => by
    have hi' := discard_inv c hi t'
    have ih := core hm hc hM t x es T _ _ r0 hi' hT (fun t'' o h => hw t'' o (List.mem_cons_of_mem _ h))
      (fun e => ⟨fun t'' o h => (hp e).1 t'' o (List.mem_cons_of_mem _ h), fun t'' o h => by
        split at h
        · cases h
        · exact (hp e).2 t'' o h⟩) hn
    simp only [runEv]
    rw [ih, value]
    by_cases ht : t' = t
    · subst ht
      simp only [if_true]
      congr 1
      rw [if_neg]
      obtain ⟨l, h1, h2, h3⟩ := hi'.content t'
      rw [h1]
      simp only [if_true] at h2
      rw [List.subperm_nil.1 h2]; simp
    · rw [if_neg ht, if_neg ht]
      have : content (discardBucket bs t') t = content bs t := by
        refine content_congr ?_
        rw [discardBucket]
        split
        · rw [Dict.get?_del, if_neg ht]
        · rfl
      rw [this]
  | .offer t' o :: es, T, bs, log, r0, hi, hT, hw, hp, hn => by
    have hwo := hw t' o List.mem_cons_self
    have hw' : ∀ t'' o', Ev.offer t'' o' ∈ es → (o'.image.length : Int) = t''.2.1 := fun t'' o' h => hw t'' o' (List.mem_cons_of_mem _ h)
    have hp' : c.method = .aChao → (∀ t'' o', Ev.offer t'' o' ∈ es → 0 < o'.weight) ∧ ∀ t'', ∀ o' ∈ logAdd log t' o t'', 0 < o'.weight := fun e =>
      ⟨fun t'' o' h => (hp e).1 t'' o' (List.mem_cons_of_mem _ h), fun t'' o' h => by
        rw [logAdd] at h
        split at h
        · rcases List.mem_append.1 h with h | h
          · exact (hp e).2 t'' o' h
          · simp at h; subst h; exact (hp e).1 t' o' List.mem_cons_self
        · exact (hp e).2 t'' o' h⟩
    have hlog : logAdd log t' o t = if t' = t then log t ++ [o] else log t := rfl
    have hn' : ((since t (logAdd log t' o t) es).map Offer.braid).Nodup := by rw [hlog]; exact hn
    have hnd : Ev.discard t ∉ es → t' = t → ((log t ++ [o]).map Offer.braid).Nodup := fun h1 h2 => by
      rw [hlog, if_pos h2] at hn'
      exact List.Nodup.sublist ((since_prefix t es (log t ++ [o]) h1).sublist.map _) hn'
    have hmem : Ev.discard t ∉ es → t' = t → o.braid = x → x ∉ content bs t := fun h1 h2 h3 hx => by
      have := hnd h1 h2
      rw [List.map_append, List.nodup_append] at this
      obtain ⟨l, k1, k2, -⟩ := hi.content t
      rw [k1] at hx
      obtain ⟨o', ho', e⟩ := List.mem_map.1 hx
      exact this.2.2 x (List.mem_map.2 ⟨o', k2.subset ho', e⟩) o.braid (by simp) h3.symm
    rw [evOffers] at hT
    by_cases hl : (log t').length < c.capacity
    · -- the bucket has room: no draw
      obtain ⟨bs', h1, h2, h3, h4⟩ := step_room (coinRng M) hm hi t' o hwo hl
      have ih := core hm hc hM t x es T bs' _ r0 h2 (by omega) hw' hp' hn'
      simp only [runEv, h1, bind_ok]
      rw [ih, value, hlog]
      by_cases ht : t' = t
      · subst ht
        rw [if_pos rfl, if_pos rfl]
        by_cases hd : Ev.discard t' ∈ es
        · exact value_discard c M t' x es _ _ _ _ hd
        · congr 1
          rw [h4, accept, survive, if_pos hl, if_pos hl]
          by_cases hx : o.braid = x
          · rw [if_pos hx, if_pos (by simp [hx])]
          · rw [if_neg hx, one_mul]
            refine if_congr ?_ rfl rfl
            simp [Ne.symm hx]
      · rw [if_neg ht, if_neg ht, h3 t ht]
    · obtain ⟨T, rfl⟩ : ∃ T', T = T' + 1 := ⟨T - 1, by omega⟩
      have hcoin := fun k r => step_coin hm hc hi t' o hwo hl (fun e => ⟨(hp e).1 t' o List.mem_cons_self, (hp e).2 t'⟩) M k r
      rw [avg]
      have key : ∀ (k : Fin M) (r : Fin c.capacity), (avg M c.capacity T fun w => hit t x (runEv (coinRng M) c (bs, (r0, (k.val, r.val) :: w)) (.offer t' o :: es))) =
          value c M t x (if x ∈ (if t' = t then (if (k.val : ℚ) / M ≤ threshold c (log t) o then (content bs t).set (r.val % c.capacity) o.braid else content bs t) else content bs t)
            then 1 else 0) (logAdd log t' o t) es := by
        intro k r
        obtain ⟨bs', h1, h2, h3, h4⟩ := hcoin k r
        have ih := core hm hc hM t x es T bs' _ r.val h2 (by omega) hw' hp' hn'
        simp only [runEv, h1, bind_ok]
        rw [ih]
        by_cases ht : t' = t
        · subst ht; rw [h4, if_pos rfl]
        · rw [h3 t ht, if_neg ht]
      simp only [key]
      have hMK : ((M * c.capacity : Nat) : ℚ) ≠ 0 := by positivity
      have hM0 : (M : ℚ) ≠ 0 := by positivity
      have hK0 : (c.capacity : ℚ) ≠ 0 := by positivity
      rw [value]
      by_cases ht : t' = t
      · subst ht
        simp only [if_true]
        rw [hlog, if_pos rfl]
        by_cases hd : Ev.discard t' ∈ es
        · have : ∀ e, value c M t' x e (log t' ++ [o]) es = value c M t' x 0 [] es := fun e => value_discard c M t' x es _ _ _ _ hd
          simp only [this, Finset.sum_const, Finset.card_univ, Fintype.card_fin, nsmul_eq_mul]
          push_cast
          field_simp
        · obtain ⟨A, B, hAB⟩ := value_affine c M t' x es (log t' ++ [o])
          simp only [hAB, Finset.sum_add_distrib, Finset.sum_const, Finset.card_univ, Fintype.card_fin, nsmul_eq_mul, ← Finset.mul_sum]
          have hs : (∑ k : Fin M, ∑ r : Fin c.capacity, if x ∈ (if (k.val : ℚ) / M ≤ threshold c (log t') o then (content bs t').set (r.val % c.capacity) o.braid
              else content bs t') then (1 : ℚ) else 0) =
              M * c.capacity * (if o.braid = x then accept c M (log t') o else survive c M (log t') o * if x ∈ content bs t' then 1 else 0) := by
            obtain ⟨l, k1, k2, k3⟩ := hi.content t'
            have hlen : (content bs t').length = c.capacity := by rw [k1, List.length_map, k3]; omega
            have hcn : (content bs t').Nodup := by
              have := hnd hd rfl
              rw [List.map_append, List.nodup_append] at this
              rw [k1]
              obtain ⟨l', p1, p2⟩ := k2
              exact (p1.map Offer.braid).nodup_iff.1 (this.1.sublist (p2.map _))
            rw [accept, survive, if_neg hl, if_neg hl]
            by_cases hx : o.braid = x
            · rw [if_pos hx]
              have hxc := hmem hd rfl hx
              have : ∀ (k : Fin M), (∑ r : Fin c.capacity, if x ∈ (if (k.val : ℚ) / M ≤ threshold c (log t') o then (content bs t').set (r.val % c.capacity) o.braid
                  else content bs t') then (1 : ℚ) else 0) = if (k.val : ℚ) / M ≤ threshold c (log t') o then (c.capacity : ℚ) else 0 := by
                intro k
                split
                · rw [Finset.sum_congr rfl (g := fun _ => (1 : ℚ)), Finset.sum_const, Finset.card_univ, Fintype.card_fin, nsmul_eq_mul, mul_one]
                  intro r _
                  rw [if_pos]
                  refine List.mem_iff_getElem.2 ⟨r.val % c.capacity, by rw [List.length_set, hlen]; exact Nat.mod_lt _ hc, ?_⟩
                  rw [List.getElem_set_self, hx]
                · simp [hxc]
              simp only [this]
              rw [sum_below]; field_simp; ring
            · rw [if_neg hx]
              have : ∀ (k : Fin M), (∑ r : Fin c.capacity, if x ∈ (if (k.val : ℚ) / M ≤ threshold c (log t') o then (content bs t').set (r.val % c.capacity) o.braid
                  else content bs t') then (1 : ℚ) else 0) = if (k.val : ℚ) / M ≤ threshold c (log t') o then (if x ∈ content bs t' then (c.capacity : ℚ) - 1 else 0)
                    else (c.capacity : ℚ) * if x ∈ content bs t' then 1 else 0 := by
                intro k
                split
                · exact sum_set hlen hcn hx
                · rw [Finset.sum_const, Finset.card_univ, Fintype.card_fin, nsmul_eq_mul]
              simp only [this]
              rw [sum_below]
              split <;> field_simp <;> ring
          rw [hs]
          push_cast
          field_simp
      · simp only [if_neg ht, hlog, Finset.sum_const, Finset.card_univ, Fintype.card_fin, nsmul_eq_mul]
        push_cast
        field_simp

/-! ### The chance of one item -/

noncomputable def vl (c : Config β d) (M : Nat) (x : β) : ℚ → List (Offer β d) → List (Offer β d) → ℚ
  | e, _, [] => e
  | e, log, o :: os => vl c M x (if o.braid = x then accept c M log o else survive c M log o * e) (log ++ [o]) os

theorem vl_snoc (c : Config β d) (M : Nat) (x : β) : ∀ (os : List (Offer β d)) (e : ℚ) (log : List (Offer β d)) (o : Offer β d),
    vl c M x e log (os ++ [o]) = if o.braid = x then accept c M (log ++ os) o else survive c M (log ++ os) o * vl c M x e log os
  | [], e, log, o => by simp [vl]
  | o' :: os, e, log, o => by rw [List.cons_append, vl, vl, vl_snoc c M x os]; simp

theorem value_eq_vl (c : Config β d) (M : Nat) (t : Tag) (x : β) : ∀ (es : List (Ev β d)) (log : List (Offer β d)),
    value c M t x (vl c M x 0 [] log) log es = vl c M x 0 [] (since t log es)
  | [], log => rfl
  | .offer t' o :: es, log => by
    rw [value, since]
    split
    · rw [← value_eq_vl c M t x es, vl_snoc]; rfl
    · exact value_eq_vl c M t x es log
  | .discard t' :: es, log => by
    rw [value, since]
    split
    · exact value_eq_vl c M t x es []
    · exact value_eq_vl c M t x es log

/-- The chance that an item survives a list of offers. -/
noncomputable def surv (c : Config β d) (M : Nat) : List (Offer β d) → List (Offer β d) → ℚ
  | _, [] => 1
  | log, o :: os => survive c M log o * surv c M (log ++ [o]) os

theorem vl_surv (c : Config β d) (M : Nat) (x : β) : ∀ (os : List (Offer β d)) (e : ℚ) (log : List (Offer β d)), x ∉ os.map Offer.braid →
    vl c M x e log os = e * surv c M log os
  | [], e, log, _ => by simp [vl, surv]
  | o :: os, e, log, h => by
    simp only [List.map_cons, List.mem_cons, not_or] at h
    rw [vl, if_neg (Ne.symm h.1), vl_surv c M x os _ _ h.2, surv]; ring

theorem vl_item (c : Config β d) (M : Nat) (pre : List (Offer β d)) (o : Offer β d) (post : List (Offer β d)) (hn : ((pre ++ o :: post).map Offer.braid).Nodup) :
    vl c M o.braid 0 [] (pre ++ o :: post) = accept c M pre o * surv c M (pre ++ [o]) post := by
  have h1 : o.braid ∉ post.map Offer.braid := by
    rw [List.map_append, List.nodup_append, List.map_cons, List.nodup_cons] at hn
    exact hn.2.1.1
  have : pre ++ o :: post = (pre ++ [o]) ++ post := by simp
  have happ : ∀ (os os' : List (Offer β d)) (e : ℚ) (log : List (Offer β d)), vl c M o.braid e log (os ++ os') = vl c M o.braid (vl c M o.braid e log os) (log ++ os) os' := by
    intro os
    induction os with
    | nil => intro os' e log; simp [vl]
    | cons a os ih => intro os' e log; rw [List.cons_append, vl, ih, vl]; simp
  rw [this, happ, vl_surv c M _ _ _ _ h1, vl_snoc, if_pos rfl]; simp

/-- The exact chance that an offered item is in its bucket after a history. -/
theorem coinChance_item {c : Config β d} (hm : c.method = .uniform ∨ c.method = .aChao) (hc : 1 ≤ c.capacity) {M : Nat} (hM : 1 ≤ M) (ops : List (Op β d))
    (hv : ∀ b, Op.add b ∈ ops → Valid c b) (hp : c.method = .aChao → ∀ b, Op.add b ∈ ops → ∀ o ∈ offersOf c b, 0 < o.2.weight) (t : Tag)
    (pre post : List (Offer β d)) (o : Offer β d) (ho : offered c ops t = pre ++ o :: post) (hn : ((offered c ops t).map Offer.braid).Nodup)
    (T : Nat) (hT : offerCount c ops ≤ T) :
    coinChance M c.capacity T (Retained M c ops t o.braid) = accept c M pre o * surv c M (pre ++ [o]) post := by
  classical
  have hmem : ∀ t' o', Ev.offer t' o' ∈ events c ops → ∃ b, Op.add b ∈ ops ∧ (t', o') ∈ offersOf c b := by
    intro t' o' h
    rw [events, List.mem_flatMap] at h
    obtain ⟨op, h1, h2⟩ := h
    cases op with
    | add b =>
      obtain ⟨p, hp1, hp2⟩ := List.mem_map.1 h2
      cases hp2
      exact ⟨b, h1, hp1⟩
    | discard t => simp at h2
  have hs : since t [] (events c ops) = offered c ops t := (since_events c t ops []).symm
  have hco := core hm hc hM t o.braid (events c ops) T [] (fun _ => []) 0 (inv_empty c) (by rw [evOffers_events]; exact hT)
    (fun t' o' h => by
      obtain ⟨b, h1, h2⟩ := hmem t' o' h
      exact (add_eq_feed (coinRng M) c ([], (0, [])) b (hv b h1)).2 _ h2)
    (fun e => ⟨fun t' o' h => by obtain ⟨b, h1, h2⟩ := hmem t' o' h; exact hp e b h1 _ h2, fun _ _ h => by cases h⟩)
    (by rw [hs]; exact hn)
  rw [coinChance_eq]
  have hcl : (if o.braid ∈ content ([] : Buckets β d) t then (1 : ℚ) else 0) = vl c M o.braid 0 [] [] := by simp [content, Dict.get?, vl]
  rw [hcl, value_eq_vl, hs, ho, vl_item c M pre o post (by rw [← ho]; exact hn)] at hco
  rw [← hco]
  refine avg_congr fun w _ => ?_
  rw [← run_events _ c ops _ hv]
  cases hr : run (coinRng M) c ([], (0, w)) ops with
  | error e =>
    rw [hit, if_neg]
    rintro ⟨r, b, h1, -⟩
    rw [hr] at h1; cases h1
  | ok r =>
    have hnd := (run_inv (coinRng M) c ops (inv_empty c) hr).nodup
    show _ = if o.braid ∈ content r.1 t then (1 : ℚ) else 0
    refine if_congr ?_ rfl rfl
    constructor
    · rintro ⟨r', b, h1, h2, h3⟩
      rw [hr] at h1; cases h1
      rw [content_of_get (Dict.get?_of_mem hnd h2)]; exact h3
    · intro h
      rw [content] at h
      cases hg : Dict.get? r.1 t with
      | none => rw [hg] at h; cases h
      | some b => rw [hg] at h; exact ⟨r, b, hr, Dict.mem_of_get? hg, h⟩

/-! ### Numbers -/

theorem below_ge {M : Nat} (hM : 1 ≤ M) {q : ℚ} (h1 : q ≤ 1) : q ≤ below M q / M := by
  have hM0 : (0 : ℚ) < M := by positivity
  rw [le_div_iff₀ hM0]
  rcases lt_or_ge q 0 with h0 | h0
  · exact le_trans (mul_nonpos_of_nonpos_of_nonneg h0.le hM0.le) (by positivity)
  have hle : Nat.ceil (q * M) ≤ M := Nat.ceil_le.2 (by nlinarith)
  have : Nat.ceil (q * M) ≤ below M q := by
    rw [below]
    have hc : (Finset.univ.map (Fin.castLEEmb hle)).card = Nat.ceil (q * M) := by simp
    rw [← hc]
    refine Finset.card_le_card fun k hk => ?_
    obtain ⟨j, -, rfl⟩ := Finset.mem_map.1 hk
    rw [Finset.mem_filter]
    refine ⟨Finset.mem_univ _, ?_⟩
    rw [div_le_iff₀ hM0]
    have := Nat.lt_ceil.1 j.isLt
    simpa using this.le
  exact le_trans (Nat.le_ceil _) (by exact_mod_cast this)

theorem below_le {M : Nat} (hM : 1 ≤ M) {q : ℚ} (h0 : 0 ≤ q) : (below M q : ℚ) / M ≤ q + 1 / M := by
  have hM0 : (0 : ℚ) < M := by positivity
  have : below M q ≤ Nat.floor (q * M) + 1 := by
    rw [below]
    have : ((Finset.univ.filter fun k : Fin M => (k.val : ℚ) / M ≤ q).image Fin.val).card ≤ (Finset.range (Nat.floor (q * M) + 1)).card := by
      refine Finset.card_le_card fun k hk => ?_
      obtain ⟨j, hj, rfl⟩ := Finset.mem_image.1 hk
      rw [Finset.mem_filter, div_le_iff₀ hM0] at hj
      rw [Finset.mem_range, Nat.lt_succ_iff]
      exact Nat.le_floor hj.2
    rwa [Finset.card_image_of_injective _ Fin.val_injective, Finset.card_range] at this
  rw [div_le_iff₀ hM0, add_mul, div_mul_cancel₀ _ hM0.ne']
  have h2 : (Nat.floor (q * M) : ℚ) ≤ q * M := Nat.floor_le (by positivity)
  calc (below M q : ℚ) ≤ ((Nat.floor (q * M) + 1 : Nat) : ℚ) := by exact_mod_cast this
    _ ≤ q * M + 1 := by push_cast; linarith

theorem below_mono {M : Nat} {q q' : ℚ} (h : q ≤ q') : below M q ≤ below M q' :=
  Finset.card_le_card fun k hk => by
    rw [Finset.mem_filter] at hk ⊢
    exact ⟨hk.1, hk.2.trans h⟩

theorem below_le_card (M : Nat) (q : ℚ) : below M q ≤ M := by
  rw [below]; exact le_trans (Finset.card_filter_le _ _) (by simp)

end Bucketing
end Peyl
