import Verif.Lemmas.Matrix
/-!
# Reduction modulo `p` and matrix products, at the level of objects; rows
-/
namespace Peyl
open LaurentPolynomial

namespace Entry

/-- Equal after reduction. -/
def Sim (p : ℕ) (x y : Entry) : Prop := modp p x = modp p y

theorem sim_iff (p : ℕ) (x y : Entry) : Sim p x y ↔
    (∃ k, x = .int k ∧ y = .int k) ∨ (∃ a b, x = .lp a ∧ y = .lp b ∧ LPoly.red p a.den = LPoly.red p b.den) := by
  unfold Sim
  cases x <;> cases y
  · simp [modp]; exact eq_comm
  · simp [modp]
  · simp [modp]
  · simp [modp, LPoly.map_mod_eq_iff]

theorem sim_modp (p : ℕ) (x : Entry) : Sim p (modp p x) x := by
  rw [sim_iff]
  cases x
  · left; exact ⟨_, rfl, rfl⟩
  · right; exact ⟨_, _, rfl, rfl, LPoly.red_map p _⟩

theorem sim_refl (p : ℕ) (x : Entry) : Sim p x x := rfl

theorem sim_add {p : ℕ} {x y x' y' : Entry} (h : Sim p x x') (h' : Sim p y y') : Sim p (add x y) (add x' y') := by
  rw [sim_iff] at *
  rcases h with ⟨k, rfl, rfl⟩ | ⟨a, b, rfl, rfl, h⟩ <;> rcases h' with ⟨k', rfl, rfl⟩ | ⟨a', b', rfl, rfl, h'⟩
  · left; exact ⟨_, rfl, rfl⟩
  · right; exact ⟨_, _, rfl, rfl, by rw [LPoly.den_addInt, LPoly.den_addInt, map_add, map_add, h']⟩
  · right; exact ⟨_, _, rfl, rfl, by rw [LPoly.den_addInt, LPoly.den_addInt, map_add, map_add, h]⟩
  · right; exact ⟨_, _, rfl, rfl, by rw [LPoly.den_add, LPoly.den_add, map_add, map_add, h, h']⟩

theorem sim_mul {p : ℕ} {x y x' y' : Entry} (h : Sim p x x') (h' : Sim p y y') : Sim p (mul x y) (mul x' y') := by
  rw [sim_iff] at *
  rcases h with ⟨k, rfl, rfl⟩ | ⟨a, b, rfl, rfl, h⟩ <;> rcases h' with ⟨k', rfl, rfl⟩ | ⟨a', b', rfl, rfl, h'⟩
  · left; exact ⟨_, rfl, rfl⟩
  · right; exact ⟨_, _, rfl, rfl, by rw [LPoly.den_mulInt, LPoly.den_mulInt, map_mul, map_mul, h']⟩
  · right; exact ⟨_, _, rfl, rfl, by rw [LPoly.den_mulInt, LPoly.den_mulInt, map_mul, map_mul, h]⟩
  · right; exact ⟨_, _, rfl, rfl, by rw [LPoly.den_mul, LPoly.den_mul, map_mul, map_mul, h, h']⟩

end Entry

namespace Matrix

/-- Two matrices which become equal after reduction. -/
def Sim (p : ℕ) (a b : Matrix) : Prop := a.map (Entry.modp p) = b.map (Entry.modp p)

theorem sim_iff {p : ℕ} {a b : Matrix} : Sim p a b ↔ a.nrows = b.nrows ∧ a.ncols = b.ncols ∧
    a.data.length = b.data.length ∧ ∀ k, Entry.Sim p (at' a.data k) (at' b.data k) := by
  unfold Sim map
  simp only [mk.injEq]
  constructor
  · rintro ⟨h1, h2, h3⟩
    have hl : a.data.length = b.data.length := by simpa using congrArg List.length h3
    refine ⟨h1, h2, hl, fun k => ?_⟩
    by_cases hk : k < a.data.length
    · have := congrArg (fun l => at' l k) h3
      simp only [at_map _ _ _ hk, at_map _ _ _ (hl ▸ hk)] at this
      exact this
    · simp only [at', List.getD_eq_getElem?_getD, List.getElem?_eq_none (by omega : a.data.length ≤ k),
        List.getElem?_eq_none (by omega : b.data.length ≤ k)]
      rfl
  · rintro ⟨h1, h2, hl, h3⟩
    refine ⟨h1, h2, ?_⟩
    apply List.ext_getElem (by simpa using hl)
    intro k hk1 hk2
    have := h3 k
    simp only [List.length_map] at hk1 hk2
    simp only [List.getElem_map]
    simpa [at', List.getD_eq_getElem?_getD, List.getElem?_eq_getElem hk1, List.getElem?_eq_getElem hk2, Entry.Sim] using this

theorem foldl_addAt_sim {α : Type} {p : ℕ} (ps : List α) (f : α → Nat) (g g' : α → Entry) (hg : ∀ t, Entry.Sim p (g t) (g' t))
    (acc acc' : List Entry) (hl : acc.length = acc'.length) (h : ∀ k, Entry.Sim p (at' acc k) (at' acc' k)) :
    (ps.foldl (fun acc p => addAt acc (f p) (g p)) acc).length = (ps.foldl (fun acc p => addAt acc (f p) (g' p)) acc').length ∧
    ∀ k, Entry.Sim p (at' (ps.foldl (fun acc p => addAt acc (f p) (g p)) acc) k)
      (at' (ps.foldl (fun acc p => addAt acc (f p) (g' p)) acc') k) := by
  induction ps generalizing acc acc' with
  | nil => exact ⟨hl, h⟩
  | cons t ps ih =>
    apply ih
    · simpa [addAt] using hl
    · intro k
      by_cases ht : f t < acc.length
      · rw [at_addAt _ _ _ _ ht, at_addAt _ _ _ _ (hl ▸ ht)]
        split
        · exact Entry.sim_add (h k) (hg t)
        · exact h k
      · have e1 : addAt acc (f t) (g t) = acc := by rw [addAt, List.modify_eq_self (by omega)]
        have e2 : addAt acc' (f t) (g' t) = acc' := by rw [addAt, List.modify_eq_self (by omega)]
        simp only [e1, e2]; exact h k

theorem make_sim {p : ℕ} {d d' : List Entry} (r c : ℤ) (h1 : d.length = d'.length) (h2 : ∀ k, Entry.Sim p (at' d k) (at' d' k)) :
    (∃ e, make r c d = .error e ∧ make r c d' = .error e) ∨
    ∃ x x', make r c d = .ok x ∧ make r c d' = .ok x' ∧ Sim p x x' := by
  unfold make
  by_cases ha : ¬ (0 ≤ r ∧ 0 ≤ c)
  · rw [if_pos ha, if_pos ha]; left; exact ⟨_, rfl, rfl⟩
  · rw [if_neg ha, if_neg ha]
    by_cases hb : r * c ≠ d.length
    · rw [if_pos hb, if_pos (h1 ▸ hb)]; left; exact ⟨_, rfl, rfl⟩
    · rw [if_neg hb, if_neg (h1 ▸ hb)]; right; exact ⟨_, _, rfl, rfl, sim_iff.2 ⟨rfl, rfl, h1, h2⟩⟩

theorem mul_sim {p : ℕ} {a a' b b' : Matrix} (ha : Sim p a a') (hb : Sim p b b') :
    (∃ e, mul a b = .error e ∧ mul a' b' = .error e) ∨
    ∃ x x', mul a b = .ok x ∧ mul a' b' = .ok x' ∧ Sim p x x' := by
  rw [sim_iff] at ha hb
  obtain ⟨a1, a2, a3, a4⟩ := ha
  obtain ⟨b1, b2, b3, b4⟩ := hb
  unfold mul
  rw [← a1, ← a2, ← b1, ← b2]
  split
  · left; exact ⟨_, rfl, rfl⟩
  · simp only
    obtain ⟨h1, h2⟩ := foldl_addAt_sim (p := p)
      ((List.range a.nrows).flatMap fun i => (List.range b.ncols).flatMap fun j => (List.range a.ncols).map fun k => (i, j, k))
      (fun t => b.ncols * t.1 + t.2.1)
      (fun t => Entry.mul (at' a.data (a.ncols * t.1 + t.2.2)) (at' b.data (b.ncols * t.2.2 + t.2.1)))
      (fun t => Entry.mul (at' a'.data (a.ncols * t.1 + t.2.2)) (at' b'.data (b.ncols * t.2.2 + t.2.1)))
      (fun t => Entry.sim_mul (a4 _) (b4 _)) (List.replicate (a.nrows * b.ncols) (.int 0)) _ rfl (fun k => Entry.sim_refl p _)
    exact make_sim _ _ h1 h2

/-- Product of a list of matrices from the left, as `functools.reduce(operator.mul, l, init)`. -/
theorem reduce_sim {p : ℕ} : ∀ (l l' : List Matrix) (a a' : Matrix), List.Forall₂ (Sim p) l l' → Sim p a a' →
    (∃ e, l.foldlM mul a = .error e ∧ l'.foldlM mul a' = .error e) ∨
    ∃ x x', l.foldlM mul a = .ok x ∧ l'.foldlM mul a' = .ok x' ∧ Sim p x x' := by
  intro l
  induction l with
  | nil => intro l' a a' h ha; cases h; right; exact ⟨a, a', rfl, rfl, ha⟩
  | cons m l ih =>
    intro l' a a' h ha
    cases h with
    | cons hm hl =>
      rw [List.foldlM_cons, List.foldlM_cons]
      rcases mul_sim ha hm with ⟨e, h1, h2⟩ | ⟨x, x', h1, h2, h3⟩
      · left; exact ⟨e, by rw [h1]; rfl, by rw [h2]; rfl⟩
      · rw [h1, h2]; exact ih _ _ _ hl h3

theorem powLoop_sim {p : ℕ} (exp : Nat) : ∀ {a a' b b' : Matrix}, Sim p a a' → Sim p b b' →
    (∃ e, powLoop a b exp = .error e ∧ powLoop a' b' exp = .error e) ∨
    ∃ x x', powLoop a b exp = .ok x ∧ powLoop a' b' exp = .ok x' ∧ Sim p x x' := by
  induction exp using Nat.strong_induction_on with
  | _ exp ih =>
    intro a a' b b' ha hb
    rw [powLoop, powLoop]
    by_cases h0 : exp = 0
    · rw [if_pos h0, if_pos h0]; right; exact ⟨_, _, rfl, rfl, ha⟩
    · rw [if_neg h0, if_neg h0]
      have step : ∀ {x x' : Matrix}, Sim p x x' →
          (∃ e, (mul b b >>= fun y => powLoop x y (exp / 2)) = .error e ∧ (mul b' b' >>= fun y => powLoop x' y (exp / 2)) = .error e) ∨
          ∃ z z', (mul b b >>= fun y => powLoop x y (exp / 2)) = .ok z ∧ (mul b' b' >>= fun y => powLoop x' y (exp / 2)) = .ok z' ∧ Sim p z z' := by
        intro x x' hx
        rcases mul_sim hb hb with ⟨e, h1, h2⟩ | ⟨y, y', h1, h2, h3⟩
        · left; exact ⟨e, by rw [h1]; rfl, by rw [h2]; rfl⟩
        · rw [h1, h2]; exact ih (exp / 2) (by omega) hx h3
      by_cases h : exp % 2 = 1
      · simp only [h, if_true]
        rcases mul_sim ha hb with ⟨e, h1, h2⟩ | ⟨y, y', h1, h2, h3⟩
        · left; exact ⟨e, by rw [h1]; rfl, by rw [h2]; rfl⟩
        · rw [h1, h2]; exact step h3
      · simp only [h, if_false]
        exact step ha

theorem pow_sim {p : ℕ} {a a' : Matrix} (h : Sim p a a') (e : Int) :
    (∃ err, pow a e = .error err ∧ pow a' e = .error err) ∨ ∃ x x', pow a e = .ok x ∧ pow a' e = .ok x' ∧ Sim p x x' := by
  have h' := sim_iff.1 h
  unfold pow
  rw [← h'.1, ← h'.2.1]
  split
  · left; exact ⟨_, rfl, rfl⟩
  · split
    · left; exact ⟨_, rfl, rfl⟩
    · exact powLoop_sim _ rfl h

theorem sim_map (p : ℕ) (a : Matrix) : Sim p (a.map (Entry.modp p)) a := by
  rw [sim_iff]
  refine ⟨rfl, rfl, by simp [map], fun k => ?_⟩
  by_cases hk : k < a.data.length
  · simp only [map]; rw [at_map _ _ _ hk]; exact Entry.sim_modp p _
  · simp only [map, at', List.getD_eq_getElem?_getD, List.getElem?_eq_none (by omega : a.data.length ≤ k),
      List.getElem?_eq_none (by simp; omega : (a.data.map (Entry.modp p)).length ≤ k)]
    rfl

/-! ## rows -/

theorem chunk_flatten {c : Nat} (rs : List (List Entry)) (h : ∀ r ∈ rs, r.length = c) (i : Nat) (hi : i < rs.length) :
    (rs.flatten.take (c * (i + 1))).drop (c * i) = rs[i] := by
  induction rs generalizing i with
  | nil => simp at hi
  | cons r rs ih =>
    have hr := h r (by simp)
    cases i with
    | zero => simp [← hr]
    | succ i =>
      have := ih (fun r hr => h r (by simp [hr])) i (by simpa using hi)
      have e1 : c * (i + 1 + 1) = r.length + c * (i + 1) := by rw [hr]; ring
      have e2 : c * (i + 1) = r.length + c * i := by rw [hr]; ring
      rw [List.flatten_cons, e1, List.take_length_add_append]
      have : List.drop (r.length + c * i) (r ++ List.take (c * (i + 1)) rs.flatten) = rs[i]'(by simpa using hi) := by
        rw [List.drop_length_add_append, this]
      rw [← e2] at this
      simpa using this

theorem rows_fromRows {rs : List (List Entry)} {m : Matrix} (h : fromRows rs = .ok m) : m.rows = rs := by
  cases rs with
  | nil => simp [fromRows] at h
  | cons r rs =>
    simp only [fromRows] at h
    split at h
    · rename_i hall
      unfold make at h
      split at h
      · simp at h
      · split at h
        · simp at h
        · cases h
          have hlen : ∀ q ∈ r :: rs, q.length = r.length := by
            intro q hq; simpa using List.all_eq_true.1 hall q hq
          apply List.ext_getElem
          · simp [rows]
          · intro i h1 h2
            simp only [rows, List.getElem_map, List.getElem_range, Int.toNat_natCast]
            exact chunk_flatten (r :: rs) hlen i h2
    · simp at h

theorem length_rows (m : Matrix) : m.rows.length = m.nrows := by simp [rows]

theorem rows_getElem_length {m : Matrix} {r c : Nat} (h : m.Shape r c) : ∀ q ∈ m.rows, q.length = c := by
  intro q hq
  simp only [rows, List.mem_map, List.mem_range] at hq
  obtain ⟨i, hi, rfl⟩ := hq
  rw [h.nrows] at hi
  have e : c * (i + 1) ≤ r * c := by rw [mul_comm r c]; exact Nat.mul_le_mul_left _ hi
  simp only [List.length_drop, List.length_take, h.length, h.ncols, Nat.min_eq_left e]
  rw [mul_add]; omega

theorem rows_flatten {m : Matrix} {r c : Nat} (h : m.Shape r c) : m.rows.flatten = m.data := by
  have key : ∀ k, k ≤ r → ((List.range k).map fun i => (m.data.take (c * (i + 1))).drop (c * i)).flatten = m.data.take (c * k) := by
    intro k
    induction k with
    | zero => simp
    | succ k ih =>
      intro hk
      rw [List.range_succ, List.map_append, List.flatten_append, ih (by omega)]
      simp only [List.map_cons, List.map_nil, List.flatten_cons, List.flatten_nil, List.append_nil]
      have e : c * (k + 1) = c * k + c := by ring
      conv_rhs => rw [← List.take_append_drop (c * k) (m.data.take (c * (k + 1)))]
      rw [List.take_take, Nat.min_eq_left (by omega)]
  rw [rows, h.nrows, h.ncols, key r le_rfl, List.take_of_length_le]
  rw [h.length, mul_comm]

theorem fromRows_rows {m : Matrix} {r c : Nat} (h : m.Shape r c) (hr : 0 < r) : fromRows m.rows = .ok m := by
  have hl := length_rows m
  have hf := rows_flatten h
  have hlen := rows_getElem_length h
  cases hrs : m.rows with
  | nil => rw [hrs, h.nrows] at hl; simp at hl; omega
  | cons q qs =>
    rw [hrs] at hl hf hlen
    have hq := hlen q (by simp)
    simp only [fromRows]
    rw [if_pos (by rw [List.all_eq_true]; intro x hx; simp [hlen x hx, hq])]
    rw [hf, hl, hq, h.nrows]
    rw [(make_shape h.length h.ok).1]
    cases m; simp_all
    exact ⟨h.nrows.symm, h.ncols.symm⟩

end Matrix
end Peyl
