import Verif.Spec.TLDraw
import Verif.Lemmas.TLMatch
import Verif.Lemmas.Table
import Mathlib.Analysis.Complex.ExponentialBounds
/-!
# Pictures of Temperley–Lieb diagrams (C115, C116)

Vocabulary (Spec/TLDraw.lean): `dot d i` is where the dot number `i` of the diagram `d` is drawn, `c.point t` the point of a Bézier curve at time `t`.
-/
namespace Peyl
open TL
namespace TLDraw

theorem drawLoop_spec {seq : List Nat} (h : Crossingless seq) (bot : Nat) (k m : Nat) (hk : k + m = seq.length) (drawn : List Bool) (path : List Curve)
    (hl : drawn.length = seq.length) (hd : ∀ v, v < seq.length → (drawn.getD v false = true ↔ v < k ∨ at_ seq v < k)) :
    drawLoop seq bot (List.range' k m) drawn path =
      .ok (path ++ ((List.range' k m).filter fun i => decide (i < at_ seq i)).map fun i => curve seq.length bot i (at_ seq i)) := by
  induction m generalizing k drawn path with
  | zero => simp [drawLoop]
  | succ m ih =>
    have hkl : k < seq.length := by omega
    have hlt := h.lt k hkl
    have hnf := h.nofix k hkl
    have hin := h.invol k hkl
    rw [List.range'_succ, drawLoop]
    by_cases hdk : drawn.getD k false = true
    · rw [if_pos hdk]
      have hak : at_ seq k < k := by
        rcases (hd k hkl).1 hdk with h | h
        · omega
        · exact h
      rw [ih (k + 1) (by omega) drawn path hl fun v hv => ?_, List.filter_cons_of_neg (by simp; omega)]
      rw [hd v hv]
      constructor
      · rintro (h | h) <;> omega
      · rintro (h1 | h1)
        · by_cases hvk : v = k
          · right; rw [hvk]; exact hak
          · left; omega
        · by_cases hvk : at_ seq v = k
          · left
            have := h.invol v hv
            rw [hvk] at this
            omega
          · right; omega
    · rw [if_neg hdk]
      have hak : k < at_ seq k := by
        by_contra hc
        exact hdk ((hd k hkl).2 (.inr (by omega)))
      have hlk : lookup seq k = .ok (at_ seq k) := by
        rw [Peyl.lookup_lt hkl, at_, List.getD_eq_getElem?_getD, List.getElem?_eq_getElem hkl]; rfl
      rw [hlk, bind_ok, if_neg (by rw [hl]; omega), ih (k + 1) (by omega) _ _ (by simp [hl]) fun v hv => ?_,
        List.filter_cons_of_pos (by simpa using hak)]
      · simp
      · rw [List.getD_eq_getElem?_getD, List.getElem?_set, List.getElem?_set]
        have e0 : drawn.getD v false = true ↔ v < k ∨ at_ seq v < k := hd v hv
        rw [List.getD_eq_getElem?_getD] at e0
        simp only [List.length_set, hl, hlt, hkl, if_true]
        by_cases h1 : at_ seq k = v
        · subst h1
          simp [hin]
        · rw [if_neg h1]
          by_cases h2 : k = v
          · subst h2; simp
          · rw [if_neg h2, e0]
            constructor
            · rintro (h | h) <;> omega
            · rintro (h3 | h3)
              · left; omega
              · right
                have : at_ seq v ≠ k := by
                  intro e
                  have := h.invol v hv
                  rw [e] at this
                  omega
                omega

theorem drawSvg_spec {d : TLDiag} (h : d.Ok) :
    drawSvg d.seq d.bot = .ok (((List.range d.seq.length).filter fun i => decide (i < at_ d.seq i)).map fun i => curve d.seq.length d.bot i (at_ d.seq i)) := by
  have hb : d.bot ≤ d.seq.length := by have := h.1; omega
  rw [drawSvg, pyAssert, if_pos (by simpa using hb), bind_ok, List.range_eq_range',
    drawLoop_spec h.2 d.bot 0 d.seq.length (by omega) _ _ (by simp) fun v hv => ?_]
  · rw [List.nil_append]
  · simp [List.getD_eq_getElem?_getD, List.getElem?_replicate, hv]

theorem pos_dot {d : TLDiag} (h : d.Ok) {i : Nat} (hi : i < d.seq.length) : pos d.seq.length d.bot i = dot d i := by
  have hl := h.1
  have e : d.seq.length - d.bot = d.top := by omega
  rw [pos, dot, e, ← hl, numx]
  split
  · simp only [height]
    refine Prod.ext ?_ rfl
    simp only [Int.cast_natCast]
    ring
  · refine Prod.ext ?_ rfl
    push_cast
    ring

theorem dot_inj {d : TLDiag} (h : d.Ok) {i j : Nat} (hi : i < d.seq.length) (hj : j < d.seq.length) (e : dot d i = dot d j) : i = j := by
  have hl := h.1
  unfold dot at e
  split at e <;> split at e
  · have := (Prod.mk.inj e).1
    have : (i : ℝ) = j := by linarith
    exact_mod_cast this
  · have := (Prod.mk.inj e).2; norm_num at this
  · have := (Prod.mk.inj e).2; norm_num at this
  · have := (Prod.mk.inj e).1
    have : (i : ℝ) = j := by linarith
    exact_mod_cast this

/-- Dots are inside the margins. -/
theorem dot_box {d : TLDiag} (h : d.Ok) {i : Nat} (hi : i < d.seq.length) :
    10 ≤ (dot d i).1 ∧ (dot d i).1 ≤ width d.top d.bot - 10 ∧ ((dot d i).2 = 35 ∨ (dot d i).2 = 0) := by
  have hl := h.1
  unfold dot width
  have h1 : (d.bot : ℝ) ≤ (max d.bot d.top : Nat) := by exact_mod_cast le_max_left _ _
  have h2 : (d.top : ℝ) ≤ (max d.bot d.top : Nat) := by exact_mod_cast le_max_right _ _
  split
  · rename_i hb
    have h3 : (i : ℝ) + 1 ≤ d.bot := by exact_mod_cast hb
    have h4 : (0 : ℝ) ≤ i := by positivity
    refine ⟨?_, ?_, .inl rfl⟩ <;> simp only <;> linarith
  · rename_i hb
    have h3 : (i : ℝ) + 1 ≤ d.top + d.bot := by exact_mod_cast (by omega : i + 1 ≤ d.top + d.bot)
    have h4 : (d.bot : ℝ) ≤ i := by exact_mod_cast (by omega : d.bot ≤ i)
    refine ⟨?_, ?_, .inr rfl⟩ <;> simp only <;> linarith

theorem dist_box (i j : Nat) : 0 < dist i j ∧ dist i j < 1 := by
  unfold dist
  have := Real.exp_pos (-|(i : ℝ) - (j : ℝ)| / 4)
  constructor
  · positivity
  · rw [div_lt_one (by positivity)]; linarith

/-- A convex combination of four numbers in an interval. -/
theorem bez_mem {a b p0 p1 p2 p3 t : ℝ} (h0 : 0 ≤ t) (h1 : t ≤ 1) (q0 : a ≤ p0 ∧ p0 ≤ b) (q1 : a ≤ p1 ∧ p1 ≤ b) (q2 : a ≤ p2 ∧ p2 ≤ b) (q3 : a ≤ p3 ∧ p3 ≤ b) :
    a ≤ (1 - t) ^ 3 * p0 + 3 * (1 - t) ^ 2 * t * p1 + 3 * (1 - t) * t ^ 2 * p2 + t ^ 3 * p3 ∧
      (1 - t) ^ 3 * p0 + 3 * (1 - t) ^ 2 * t * p1 + 3 * (1 - t) * t ^ 2 * p2 + t ^ 3 * p3 ≤ b := by
  have hu : 0 ≤ 1 - t := by linarith
  have w0 : 0 ≤ (1 - t) ^ 3 := by positivity
  have w1 : 0 ≤ 3 * (1 - t) ^ 2 * t := by positivity
  have w2 : 0 ≤ 3 * (1 - t) * t ^ 2 := by positivity
  have w3 : 0 ≤ t ^ 3 := by positivity
  have ha : a = (1 - t) ^ 3 * a + 3 * (1 - t) ^ 2 * t * a + 3 * (1 - t) * t ^ 2 * a + t ^ 3 * a := by ring
  have hb : b = (1 - t) ^ 3 * b + 3 * (1 - t) ^ 2 * t * b + 3 * (1 - t) * t ^ 2 * b + t ^ 3 * b := by ring
  constructor
  · have := mul_le_mul_of_nonneg_left q0.1 w0
    have := mul_le_mul_of_nonneg_left q1.1 w1
    have := mul_le_mul_of_nonneg_left q2.1 w2
    have := mul_le_mul_of_nonneg_left q3.1 w3
    linarith
  · have := mul_le_mul_of_nonneg_left q0.2 w0
    have := mul_le_mul_of_nonneg_left q1.2 w1
    have := mul_le_mul_of_nonneg_left q2.2 w2
    have := mul_le_mul_of_nonneg_left q3.2 w3
    linarith

/-! ## C115 -/

/-- C115: `draw_svg` draws one curve for each arc of the diagram, from dot to dot. -/
theorem C115_arcs (d : TLDiag) (h : d.Ok) : ∃ path, drawSvg d.seq d.bot = .ok path ∧ d.reprHtml = .ok path ∧
    path.map (fun c => (c.point 0, c.point 1)) =
      ((List.range (d.top + d.bot)).filter fun i => decide (i < at_ d.seq i)).map fun i => (dot d i, dot d (at_ d.seq i)) := by
  refine ⟨_, drawSvg_spec h, drawSvg_spec h, ?_⟩
  rw [List.map_map, h.1]
  refine List.map_congr_left fun i hi => ?_
  have hi' : i < d.seq.length := by simpa using (List.mem_filter.1 hi).1
  rw [Function.comp_apply, ← pos_dot h hi', ← pos_dot h (h.2.lt i hi')]
  simp only [curve]
  split <;> simp [Curve.point]

/-- C115: different dots are drawn at different places, on the two edges of the picture and at least 10 from its sides. -/
theorem C115_dots (d : TLDiag) (h : d.Ok) : Set.InjOn (dot d) {i | i < d.top + d.bot} ∧
    ∀ i, i < d.top + d.bot → 10 ≤ (dot d i).1 ∧ (dot d i).1 ≤ width d.top d.bot - 10 ∧ (dot d i).2 = if i < d.bot then height else 0 := by
  constructor
  · intro i hi j hj e
    rw [h.1] at hi hj
    exact dot_inj h hi hj e
  · intro i hi
    rw [h.1] at hi
    obtain ⟨h1, h2, -⟩ := dot_box h hi
    refine ⟨h1, h2, ?_⟩
    unfold dot height; split <;> rfl

/-- C115: the curves stay inside the picture, so nothing is clipped. -/
theorem C115_frame (d : TLDiag) (h : d.Ok) (path : List Curve) (hp : drawSvg d.seq d.bot = .ok path) (c : Curve) (hc : c ∈ path) (t : ℝ) (h0 : 0 ≤ t) (h1 : t ≤ 1) :
    10 ≤ (c.point t).1 ∧ (c.point t).1 ≤ width d.top d.bot - 10 ∧ 0 ≤ (c.point t).2 ∧ (c.point t).2 ≤ height := by
  rw [drawSvg_spec h] at hp
  cases hp
  obtain ⟨i, hi, rfl⟩ := List.mem_map.1 hc
  have hi' : i < d.seq.length := by simpa using (List.mem_filter.1 hi).1
  have hj := h.2.lt i hi'
  obtain ⟨a1, a2, -⟩ := dot_box h hi'
  obtain ⟨b1, b2, -⟩ := dot_box h hj
  obtain ⟨q1, q2⟩ := dist_box i (at_ d.seq i)
  have key : ∀ c : Curve, (10 ≤ c.sx ∧ c.sx ≤ width d.top d.bot - 10) → (10 ≤ c.x1 ∧ c.x1 ≤ width d.top d.bot - 10) →
      (10 ≤ c.x2 ∧ c.x2 ≤ width d.top d.bot - 10) → (10 ≤ c.tx ∧ c.tx ≤ width d.top d.bot - 10) →
      (0 ≤ c.sy ∧ c.sy ≤ height) → (0 ≤ c.y1 ∧ c.y1 ≤ height) → (0 ≤ c.y2 ∧ c.y2 ≤ height) → (0 ≤ c.ty ∧ c.ty ≤ height) →
      10 ≤ (c.point t).1 ∧ (c.point t).1 ≤ width d.top d.bot - 10 ∧ 0 ≤ (c.point t).2 ∧ (c.point t).2 ≤ height := by
    intro c p1 p2 p3 p4 p5 p6 p7 p8
    obtain ⟨r1, r2⟩ := bez_mem h0 h1 p1 p2 p3 p4
    obtain ⟨r3, r4⟩ := bez_mem h0 h1 p5 p6 p7 p8
    exact ⟨r1, r2, r3, r4⟩
  have hy : ∀ v, (dot d v).2 = if v < d.bot then 35 else 0 := by intro v; unfold dot; split <;> rfl
  simp only [curve, pos_dot h hi', pos_dot h hj]
  have H : height = 35 := rfl
  have y1 := hy i
  have y2 := hy (at_ d.seq i)
  rw [H] at key ⊢
  by_cases u1 : i < d.bot <;> by_cases u2 : at_ d.seq i < d.bot
  · rw [if_pos u1] at y1
    rw [if_pos u2] at y2
    rw [if_pos (.inl ⟨u1, u2⟩), if_pos u1]
    apply key <;> simp only [y1, y2] <;> constructor <;> linarith
  · rw [if_pos u1] at y1
    rw [if_neg u2] at y2
    rw [if_neg (by omega), if_pos u1]
    apply key <;> simp only [y1, y2] <;> constructor <;> linarith
  · rw [if_neg u1] at y1
    rw [if_pos u2] at y2
    rw [if_neg (by omega), if_neg u1]
    apply key <;> simp only [y1, y2] <;> constructor <;> linarith
  · rw [if_neg u1] at y1
    rw [if_neg u2] at y2
    rw [if_pos (.inr ⟨by omega, by omega⟩), if_neg u1]
    apply key <;> simp only [y1, y2] <;> constructor <;> linarith

/-- The ends of the curves of a path. -/
def ends (path : List Curve) : Set (ℝ × ℝ) := {p | ∃ c ∈ path, p = c.point 0 ∨ p = c.point 1}

theorem ends_eq {d : TLDiag} (h : d.Ok) {path : List Curve} (hp : drawSvg d.seq d.bot = .ok path) :
    ends path = dot d '' {i | i < d.top + d.bot} := by
  obtain ⟨path', hp', -, e⟩ := C115_arcs d h
  rw [hp] at hp'
  cases hp'
  ext p
  constructor
  · rintro ⟨c, hc, hq⟩
    have := List.mem_map_of_mem (f := fun c : Curve => (c.point 0, c.point 1)) hc
    rw [e] at this
    obtain ⟨i, hi, hi2⟩ := List.mem_map.1 this
    have hi' : i < d.top + d.bot := by simpa using (List.mem_filter.1 hi).1
    obtain ⟨e1, e2⟩ := Prod.mk.inj hi2
    rcases hq with rfl | rfl
    · exact ⟨i, hi', e1⟩
    · exact ⟨at_ d.seq i, by have := h.2.lt i (by rw [← h.1]; exact hi'); rw [← h.1] at this; exact this, e2⟩
  · rintro ⟨i, hi, rfl⟩
    have key : ∀ i, i < d.top + d.bot → i < at_ d.seq i → ∃ c ∈ path, dot d i = c.point 0 ∧ dot d (at_ d.seq i) = c.point 1 := by
      intro i hi hlt
      have : (dot d i, dot d (at_ d.seq i)) ∈ path.map (fun c => (c.point 0, c.point 1)) := by
        rw [e]
        exact List.mem_map.2 ⟨i, List.mem_filter.2 ⟨List.mem_range.2 hi, by simpa using hlt⟩, rfl⟩
      obtain ⟨c, hc, h2⟩ := List.mem_map.1 this
      obtain ⟨e1, e2⟩ := Prod.mk.inj h2
      exact ⟨c, hc, e1.symm, e2.symm⟩
    have hi' : i < d.seq.length := by rw [← h.1]; exact hi
    rcases lt_or_gt_of_ne (h.2.nofix i hi') with hlt | hlt
    · obtain ⟨c, hc, e1, e2⟩ := key (at_ d.seq i) (by rw [h.1]; exact h.2.lt i hi') (by rw [h.2.invol i hi']; exact hlt)
      rw [h.2.invol i hi'] at e2
      exact ⟨c, hc, .inr e2⟩
    · obtain ⟨c, hc, e1, e2⟩ := key i hi hlt
      exact ⟨c, hc, .inl e1⟩

theorem dot_snd (d : TLDiag) (i : Nat) : (dot d i).2 = if i < d.bot then 35 else 0 := by unfold dot; split <;> rfl

theorem ends_bot {d : TLDiag} (h : d.Ok) {path : List Curve} (hp : drawSvg d.seq d.bot = .ok path) :
    {p ∈ ends path | p.2 = 35}.ncard = d.bot ∧ {p ∈ ends path | p.2 = 0}.ncard = d.top := by
  have inj := (C115_dots d h).1
  rw [ends_eq h hp]
  constructor
  · have : {p ∈ dot d '' {i | i < d.top + d.bot} | p.2 = 35} = dot d '' (Finset.range d.bot : Set Nat) := by
      ext p
      constructor
      · rintro ⟨⟨i, hi, rfl⟩, h2⟩
        refine ⟨i, ?_, rfl⟩
        rw [dot_snd] at h2
        split at h2
        · simpa
        · norm_num at h2
      · rintro ⟨i, hi, rfl⟩
        have hi' : i < d.bot := by simpa using hi
        refine ⟨⟨i, by simp only [Set.mem_setOf_eq]; omega, rfl⟩, ?_⟩
        simp [dot_snd, hi']
    rw [this, Set.InjOn.ncard_image (inj.mono fun i hi => by have hi' : i < d.bot := by simpa using hi
                                                             simp only [Set.mem_setOf_eq]; omega), Set.ncard_coe_finset, Finset.card_range]
  · have : {p ∈ dot d '' {i | i < d.top + d.bot} | p.2 = 0} = dot d '' (Finset.Ico d.bot (d.top + d.bot) : Set Nat) := by
      ext p
      constructor
      · rintro ⟨⟨i, hi, rfl⟩, h2⟩
        refine ⟨i, ?_, rfl⟩
        rw [dot_snd] at h2
        split at h2
        · norm_num at h2
        · simp only [Set.mem_setOf_eq] at hi
          simp; omega
      · rintro ⟨i, hi, rfl⟩
        have hi' : d.bot ≤ i ∧ i < d.top + d.bot := by simpa using hi
        refine ⟨⟨i, by simp only [Set.mem_setOf_eq]; omega, rfl⟩, ?_⟩
        simp [dot_snd, not_lt.2 hi'.1]
    rw [this, Set.InjOn.ncard_image (inj.mono fun i hi => by have hi' : d.bot ≤ i ∧ i < d.top + d.bot := by simpa using hi
                                                             simp only [Set.mem_setOf_eq]; omega), Set.ncard_coe_finset, Nat.card_Ico]
    omega

theorem partner_of {d e : TLDiag} (hd : d.Ok) (he : e.Ok) (h1 : d.top = e.top) (h2 : d.bot = e.bot)
    (h : drawSvg d.seq d.bot = drawSvg e.seq e.bot) {i : Nat} (hi : i < d.seq.length) (hlt : i < at_ d.seq i) : at_ e.seq i = at_ d.seq i := by
  obtain ⟨path, hp, -, e1⟩ := C115_arcs d hd
  obtain ⟨path', hp', -, e2⟩ := C115_arcs e he
  rw [← h, hp] at hp'
  cases hp'
  have hde : dot d = dot e := by funext i; simp [dot, h1, h2]
  have hm : (dot e i, dot e (at_ d.seq i)) ∈ path.map (fun c => (c.point 0, c.point 1)) := by
    rw [e1, ← hde]
    exact List.mem_map.2 ⟨i, List.mem_filter.2 ⟨List.mem_range.2 (by rw [hd.1]; exact hi), by simpa using hlt⟩, rfl⟩
  rw [e2] at hm
  obtain ⟨k, hk, hk2⟩ := List.mem_map.1 hm
  have hk' : k < e.seq.length := by rw [← he.1]; simpa using (List.mem_filter.1 hk).1
  have hl : d.seq.length = e.seq.length := by rw [← hd.1, ← he.1, h1, h2]
  obtain ⟨f1, f2⟩ := Prod.mk.inj hk2
  have := dot_inj he hk' (by rw [← hl]; exact hi) f1
  subst this
  exact dot_inj he (he.2.lt k hk') (by rw [← hl]; exact hd.2.lt k hi) f2

/-- C115: the picture determines the diagram. -/
theorem C115_faithful (d e : TLDiag) (hd : d.Ok) (he : e.Ok) (h : drawSvg d.seq d.bot = drawSvg e.seq e.bot) : d = e := by
  obtain ⟨path, hp, -, -⟩ := C115_arcs d hd
  obtain ⟨b1, t1⟩ := ends_bot hd hp
  obtain ⟨b2, t2⟩ := ends_bot he (h ▸ hp)
  have h1 : d.top = e.top := by rw [← t1, t2]
  have h2 : d.bot = e.bot := by rw [← b1, b2]
  have hl : d.seq.length = e.seq.length := by rw [← hd.1, ← he.1, h1, h2]
  have hs : d.seq = e.seq := by
    refine List.ext_getElem hl fun i hi hi' => ?_
    rw [← at_lt _ _ hi, ← at_lt _ _ hi']
    rcases lt_or_gt_of_ne (hd.2.nofix i hi) with hlt | hlt
    · have := partner_of hd he h1 h2 h (hd.2.lt i hi) (by rw [hd.2.invol i hi]; exact hlt)
      rw [hd.2.invol i hi] at this
      have h3 := he.2.invol (at_ d.seq i) (by rw [← hl]; exact hd.2.lt i hi)
      rw [this] at h3
      exact h3.symm
    · exact (partner_of hd he h1 h2 h hi hlt).symm
  cases d; cases e
  simp_all

/-- C115 is not vacuous: the picture of the diagram with two top dots and four bottom dots, a cup joining the bottom dots 1 and 2 and two
through strands, has three curves, from the places where its dots are drawn. -/
example : (⟨2, 4, [5, 2, 1, 4, 3, 0]⟩ : TLDiag).Ok ∧ dot ⟨2, 4, [5, 2, 1, 4, 3, 0]⟩ 1 = (25, 35) ∧ dot ⟨2, 4, [5, 2, 1, 4, 3, 0]⟩ 5 = (25, 0) ∧
    ∃ path, drawSvg [5, 2, 1, 4, 3, 0] 4 = .ok path ∧ path.length = 3 := by
  have hok : (⟨2, 4, [5, 2, 1, 4, 3, 0]⟩ : TLDiag).Ok := ⟨rfl, ⟨by decide, by decide, by decide, fun a b ha hb =>
    (by decide : ∀ a, a < 6 → ∀ b, b < 6 → a < b → b < at_ [5, 2, 1, 4, 3, 0] a → at_ [5, 2, 1, 4, 3, 0] a < at_ [5, 2, 1, 4, 3, 0] b → False) a ha b hb⟩⟩
  refine ⟨hok, ?_, ?_, ?_⟩
  · norm_num [dot, width]
  · norm_num [dot, width]
  · obtain ⟨path, hp, -, e⟩ := C115_arcs _ hok
    refine ⟨path, hp, ?_⟩
    have := congrArg List.length e
    rw [List.length_map, List.length_map] at this
    rw [this]; decide

/-! ## C116 -/

/-- Where and how a curve of the picture is drawn. -/
theorem mem_path {d : TLDiag} (h : d.Ok) {path : List Curve} (hp : drawSvg d.seq d.bot = .ok path) {c : Curve} (hc : c ∈ path) :
    ∃ i, i < d.seq.length ∧ i < at_ d.seq i ∧ c = curve d.seq.length d.bot i (at_ d.seq i) ∧ c.point 0 = dot d i ∧ c.point 1 = dot d (at_ d.seq i) := by
  rw [drawSvg_spec h] at hp
  cases hp
  obtain ⟨i, hi, rfl⟩ := List.mem_map.1 hc
  have hi' : i < d.seq.length := by simpa using (List.mem_filter.1 hi).1
  refine ⟨i, hi', by simpa using (List.mem_filter.1 hi).2, rfl, ?_⟩
  rw [← pos_dot h hi', ← pos_dot h (h.2.lt i hi')]
  simp only [curve]
  split <;> simp [Curve.point]

/-- The points of a through strand. -/
theorem through_point {d : TLDiag} (h : d.Ok) {i : Nat} (hi : i < d.bot) (hj : d.bot ≤ at_ d.seq i) (t : ℝ) :
    (curve d.seq.length d.bot i (at_ d.seq i)).point t =
      ((dot d i).1 + ((dot d (at_ d.seq i)).1 - (dot d i).1) * (3 * t ^ 2 - 2 * t ^ 3), 35 - 75 * t + 120 * t ^ 2 - 80 * t ^ 3) := by
  have hl : i < d.seq.length := by have := h.1; omega
  have y1 := dot_snd d i
  have y2 := dot_snd d (at_ d.seq i)
  rw [if_pos hi] at y1
  rw [if_neg (by omega)] at y2
  simp only [curve, pos_dot h hl, pos_dot h (h.2.lt i hl)]
  rw [if_neg (by omega), if_pos hi]
  refine Prod.ext ?_ ?_
  · simp only [Curve.point]; ring
  · simp only [Curve.point, y1, y2]; ring

/-- The points of an arc joining two dots on the bottom. -/
theorem bot_point {d : TLDiag} (h : d.Ok) {i : Nat} (hi : i < d.bot) (hj : at_ d.seq i < d.bot) (t : ℝ) :
    (curve d.seq.length d.bot i (at_ d.seq i)).point t =
      ((dot d i).1 + ((dot d (at_ d.seq i)).1 - (dot d i).1) * (3 * t ^ 2 - 2 * t ^ 3), 35 - 75 * dist i (at_ d.seq i) * (t * (1 - t))) := by
  have hl : i < d.seq.length := by have := h.1; omega
  have y1 := dot_snd d i
  have y2 := dot_snd d (at_ d.seq i)
  rw [if_pos hi] at y1
  rw [if_pos hj] at y2
  simp only [curve, pos_dot h hl, pos_dot h (h.2.lt i hl)]
  rw [if_pos (.inl ⟨hi, hj⟩), if_pos hi]
  refine Prod.ext ?_ ?_
  · simp only [Curve.point]; ring
  · simp only [Curve.point, y1, y2]; ring

/-- The points of an arc joining two dots on the top. -/
theorem top_point {d : TLDiag} (h : d.Ok) {i : Nat} (hl : i < d.seq.length) (hi : d.bot ≤ i) (hj : d.bot ≤ at_ d.seq i) (t : ℝ) :
    (curve d.seq.length d.bot i (at_ d.seq i)).point t =
      ((dot d i).1 + ((dot d (at_ d.seq i)).1 - (dot d i).1) * (3 * t ^ 2 - 2 * t ^ 3), 75 * dist i (at_ d.seq i) * (t * (1 - t))) := by
  have y1 := dot_snd d i
  have y2 := dot_snd d (at_ d.seq i)
  rw [if_neg (by omega)] at y1
  rw [if_neg (by omega)] at y2
  simp only [curve, pos_dot h hl, pos_dot h (h.2.lt i hl)]
  rw [if_pos (.inr ⟨hi, hj⟩), if_neg (by omega)]
  refine Prod.ext ?_ ?_
  · simp only [Curve.point]; ring
  · simp only [Curve.point, y1, y2]; ring

/-- In all cases the horizontal coordinate moves in the same way between the ends. -/
theorem point_fst {d : TLDiag} (h : d.Ok) {i : Nat} (hl : i < d.seq.length) (t : ℝ) :
    ((curve d.seq.length d.bot i (at_ d.seq i)).point t).1 =
      (dot d i).1 + ((dot d (at_ d.seq i)).1 - (dot d i).1) * (3 * t ^ 2 - 2 * t ^ 3) := by
  simp only [curve, pos_dot h hl, pos_dot h (h.2.lt i hl)]
  split <;> (simp only [Curve.point]; ring)

theorem smooth_box {t : ℝ} (h0 : 0 ≤ t) (h1 : t ≤ 1) : 0 ≤ 3 * t ^ 2 - 2 * t ^ 3 ∧ 3 * t ^ 2 - 2 * t ^ 3 ≤ 1 := by
  constructor
  · have : 0 ≤ t ^ 2 * (3 - 2 * t) := mul_nonneg (by positivity) (by linarith)
    nlinarith
  · have : 0 ≤ (1 - t) ^ 2 * (1 + 2 * t) := mul_nonneg (by positivity) (by linarith)
    nlinarith

theorem strand_inj {a b : ℝ} (h : 35 - 75 * a + 120 * a ^ 2 - 80 * a ^ 3 = 35 - 75 * b + 120 * b ^ 2 - 80 * b ^ 3) : a = b := by
  have : (b - a) * (80 * ((a - 1 / 2) ^ 2 + (a - 1 / 2) * (b - 1 / 2) + (b - 1 / 2) ^ 2) + 15) = 0 := by linear_combination h
  rcases mul_eq_zero.1 this with h | h
  · linarith
  · nlinarith [sq_nonneg ((a - 1 / 2) + (b - 1 / 2)), sq_nonneg (a - 1 / 2), sq_nonneg (b - 1 / 2)]

theorem dot_lt_bot (d : TLDiag) {i j : Nat} (hij : i < j) (hj : j < d.bot) : (dot d i).1 < (dot d j).1 := by
  have : (i : ℝ) < j := by exact_mod_cast hij
  rw [dot, dot, if_pos (by omega), if_pos hj]
  simp only; linarith

theorem dot_lt_top (d : TLDiag) {i j : Nat} (hij : i < j) (hi : d.bot ≤ i) : (dot d j).1 < (dot d i).1 := by
  have : (i : ℝ) < j := by exact_mod_cast hij
  rw [dot, dot, if_neg (by omega), if_neg (by omega)]
  simp only; linarith

/-- C116 (part): two through strands do not meet. -/
theorem C116_through_partial (d : TLDiag) (h : d.Ok) (path : List Curve) (hp : drawSvg d.seq d.bot = .ok path) (a b : Curve) (ha : a ∈ path)
    (hb : b ∈ path) (hab : a ≠ b) (ta : (a.point 0).2 ≠ (a.point 1).2) (tb : (b.point 0).2 ≠ (b.point 1).2) : ¬ a.Meet b := by
  obtain ⟨i, hi, hil, rfl, i0, i1⟩ := mem_path h hp ha
  obtain ⟨j, hj, hjl, rfl, j0, j1⟩ := mem_path h hp hb
  have thr : ∀ i, i < at_ d.seq i → (dot d i).2 ≠ (dot d (at_ d.seq i)).2 → i < d.bot ∧ d.bot ≤ at_ d.seq i := by
    intro i hi hne
    rw [dot_snd, dot_snd] at hne
    by_cases u : i < d.bot
    · refine ⟨u, ?_⟩
      by_contra hc
      rw [if_pos u, if_pos (by omega)] at hne
      exact hne rfl
    · rw [if_neg u, if_neg (by omega)] at hne
      exact absurd rfl hne
  rw [i0, i1] at ta
  rw [j0, j1] at tb
  obtain ⟨i2, i3⟩ := thr i hil ta
  obtain ⟨j2, j3⟩ := thr j hjl tb
  have main : ∀ i j, i < d.seq.length → j < d.seq.length → i < j → j < d.bot → d.bot ≤ at_ d.seq i → d.bot ≤ at_ d.seq j → ∀ s t : ℝ, 0 ≤ s → s ≤ 1 →
      (curve d.seq.length d.bot i (at_ d.seq i)).point s ≠ (curve d.seq.length d.bot j (at_ d.seq j)).point t := by
    intro i j hi hj hij hjb hia hja s t s0 s1 e
    rw [through_point h (by omega) hia, through_point h hjb hja] at e
    obtain ⟨e1, e2⟩ := Prod.mk.inj e
    have := strand_inj e2
    subst this
    have hx := dot_lt_bot d hij hjb
    have hpp : at_ d.seq j < at_ d.seq i := by
      have hne : at_ d.seq i ≠ at_ d.seq j := by
        intro e
        have := h.2.invol i hi
        rw [e, h.2.invol j hj] at this
        omega
      by_contra hc
      exact h.2.noncross i j hi hj hij (by omega) (by omega)
    have hy := dot_lt_top d hpp hja
    obtain ⟨w0, w1⟩ := smooth_box s0 s1
    generalize 3 * s ^ 2 - 2 * s ^ 3 = w at *
    have k1 := mul_nonneg (sub_nonneg.2 w1) (sub_pos.2 hx).le
    have k2 := mul_nonneg w0 (sub_pos.2 hy).le
    have k3 : (1 - w) * ((dot d j).1 - (dot d i).1) = 0 := by nlinarith
    have k4 : w * ((dot d (at_ d.seq j)).1 - (dot d (at_ d.seq i)).1) = 0 := by nlinarith
    rcases mul_eq_zero.1 k3 with k | k
    · rcases mul_eq_zero.1 k4 with k' | k' <;> linarith
    · linarith
  rintro ⟨s, t, s0, s1, t0, t1, e⟩
  rcases lt_trichotomy i j with hij | rfl | hij
  · exact main i j hi hj hij j2 i3 j3 s t s0 s1 e
  · exact hab rfl
  · exact main j i hj hi hij i2 j3 i3 t s t0 t1 e.symm

/-- C116 (part): two curves, one of which has both ends to the left of both ends of the other, do not meet. -/
theorem C116_apart_partial (d : TLDiag) (h : d.Ok) (path : List Curve) (hp : drawSvg d.seq d.bot = .ok path) (a b : Curve) (ha : a ∈ path)
    (hb : b ∈ path) (hx : max (a.point 0).1 (a.point 1).1 < min (b.point 0).1 (b.point 1).1) : ¬ a.Meet b := by
  obtain ⟨i, hi, hil, rfl, i0, i1⟩ := mem_path h hp ha
  obtain ⟨j, hj, hjl, rfl, j0, j1⟩ := mem_path h hp hb
  rintro ⟨s, t, s0, s1, t0, t1, e⟩
  have e1 := congrArg Prod.fst e
  rw [point_fst h hi, point_fst h hj] at e1
  rw [i0, i1, j0, j1] at hx
  obtain ⟨w0, w1⟩ := smooth_box s0 s1
  obtain ⟨v0, v1⟩ := smooth_box t0 t1
  generalize 3 * s ^ 2 - 2 * s ^ 3 = w at *
  generalize 3 * t ^ 2 - 2 * t ^ 3 = v at *
  have q1 := le_max_left (dot d i).1 (dot d (at_ d.seq i)).1
  have q2 := le_max_right (dot d i).1 (dot d (at_ d.seq i)).1
  have q3 := min_le_left (dot d j).1 (dot d (at_ d.seq j)).1
  have q4 := min_le_right (dot d j).1 (dot d (at_ d.seq j)).1
  nlinarith

theorem dist_lt {i j k l : Nat} (h : |(i : ℝ) - j| < |(k : ℝ) - l|) : dist i j < dist k l := by
  unfold dist
  have h1 := Real.exp_pos (-|(i : ℝ) - j| / 4)
  have h2 := Real.exp_pos (-|(k : ℝ) - l| / 4)
  have h3 : Real.exp (-|(k : ℝ) - l| / 4) < Real.exp (-|(i : ℝ) - j| / 4) := Real.exp_lt_exp.2 (by linarith)
  exact one_div_lt_one_div_of_lt (by linarith) (by linarith)

theorem dot_bot_sub (d : TLDiag) {i j : Nat} (hi : i < d.bot) (hj : j < d.bot) : (dot d j).1 - (dot d i).1 = 15 * ((j : ℝ) - i) := by
  rw [dot, dot, if_pos hi, if_pos hj]; simp only; ring

theorem dot_top_sub (d : TLDiag) {i j : Nat} (hi : d.bot ≤ i) (hj : d.bot ≤ j) : (dot d j).1 - (dot d i).1 = 15 * ((i : ℝ) - j) := by
  rw [dot, dot, if_neg (by omega), if_neg (by omega)]; simp only; ring

/-- Arcs of length at most nine rise less than half of the height of the picture. -/
theorem dist_nine {i j : Nat} (h : |(i : ℝ) - j| ≤ 9) : dist i j < 14 / 15 := by
  unfold dist
  have h1 : Real.exp (-(9 / 4)) ≤ Real.exp (-|(i : ℝ) - j| / 4) := Real.exp_le_exp.2 (by linarith)
  have h2 : Real.exp (9 / 4) < 14 := by
    have e : Real.exp (9 / 4) = Real.exp 1 ^ 2 * Real.exp (1 / 4) := by rw [← Real.exp_nat_mul, ← Real.exp_add]; norm_num
    have a1 : Real.exp 1 < 2.7182818286 := Real.exp_one_lt_d9
    have a2 : Real.exp (1 / 4) ^ 4 = Real.exp 1 := by rw [← Real.exp_nat_mul]; norm_num
    have a3 : Real.exp (1 / 4) < 1.3 := by
      by_contra hc
      have : (1.3 : ℝ) ^ 4 ≤ Real.exp (1 / 4) ^ 4 := pow_le_pow_left₀ (by norm_num) (not_lt.1 hc) 4
      rw [a2] at this
      norm_num at this
      linarith
    have a4 : Real.exp 1 ^ 2 < 2.7182818286 ^ 2 := pow_lt_pow_left₀ a1 (Real.exp_pos 1).le (by norm_num)
    rw [e]
    have := Real.exp_pos (1 / 4)
    have := Real.exp_pos 1
    calc Real.exp 1 ^ 2 * Real.exp (1 / 4) ≤ 2.7182818286 ^ 2 * 1.3 := mul_le_mul a4.le a3.le (by positivity) (by positivity)
      _ < 14 := by norm_num
  have h3 : 1 / 14 < Real.exp (-(9 / 4)) := by
    rw [Real.exp_neg, one_div]
    exact inv_strictAnti₀ (Real.exp_pos _) h2
  rw [div_lt_div_iff₀ (by positivity) (by norm_num)]
  linarith

/-- C116 (part): an arc on the bottom and an arc on the top, both spanning at most nine steps between dots, do not meet. -/
theorem C116_cup_cap_partial (d : TLDiag) (h : d.Ok) (path : List Curve) (hp : drawSvg d.seq d.bot = .ok path) (a b : Curve) (ha : a ∈ path)
    (hb : b ∈ path) (a0 : (a.point 0).2 = height) (a1 : (a.point 1).2 = height) (b0 : (b.point 0).2 = 0) (b1 : (b.point 1).2 = 0)
    (la : |(a.point 1).1 - (a.point 0).1| ≤ 9 * 15) (lb : |(b.point 1).1 - (b.point 0).1| ≤ 9 * 15) : ¬ a.Meet b := by
  obtain ⟨i, hi, hil, rfl, i0, i1⟩ := mem_path h hp ha
  obtain ⟨j, hj, hjl, rfl, j0, j1⟩ := mem_path h hp hb
  rw [i0, height] at a0
  rw [i1, height] at a1
  rw [j0] at b0
  rw [j1] at b1
  rw [i0, i1] at la
  rw [j0, j1] at lb
  rw [dot_snd] at a0 a1 b0 b1
  have u1 : i < d.bot := by by_contra hc; rw [if_neg hc] at a0; norm_num at a0
  have u2 : at_ d.seq i < d.bot := by by_contra hc; rw [if_neg hc] at a1; norm_num at a1
  have u3 : d.bot ≤ j := by by_contra hc; rw [if_pos (by omega)] at b0; norm_num at b0
  have u4 : d.bot ≤ at_ d.seq j := by by_contra hc; rw [if_pos (by omega)] at b1; norm_num at b1
  rintro ⟨s, t, s0, s1, t0, t1, e⟩
  have e2 := congrArg Prod.snd e
  rw [bot_point h u1 u2, top_point h hj u3 u4] at e2
  simp only at e2
  have ma : |(i : ℝ) - at_ d.seq i| ≤ 9 := by
    rw [dot_bot_sub d u1 u2, abs_mul, abs_sub_comm] at la; norm_num at la; linarith
  have mb : |(j : ℝ) - at_ d.seq j| ≤ 9 := by
    rw [dot_top_sub d u3 u4, abs_mul] at lb; norm_num at lb; linarith
  have d1 := dist_nine ma
  have d2 := dist_nine mb
  have d3 := (dist_box i (at_ d.seq i)).1
  have d4 := (dist_box j (at_ d.seq j)).1
  have v1 : s * (1 - s) ≤ 1 / 4 := by nlinarith [sq_nonneg (s - 1 / 2)]
  have v2 : t * (1 - t) ≤ 1 / 4 := by nlinarith [sq_nonneg (t - 1 / 2)]
  have w1 : dist i (at_ d.seq i) * (s * (1 - s)) ≤ dist i (at_ d.seq i) * (1 / 4) := mul_le_mul_of_nonneg_left v1 d3.le
  have w2 : dist j (at_ d.seq j) * (t * (1 - t)) ≤ dist j (at_ d.seq j) * (1 / 4) := mul_le_mul_of_nonneg_left v2 d4.le
  nlinarith

/-- In a concentric pair the outer arc is nearer to its middle. -/
theorem concentric_aux {L l s t : ℝ} (hl : 0 < l) (hL : l < L) (s0 : 0 ≤ s) (s1 : s ≤ 1) (t0 : 0 ≤ t) (t1 : t ≤ 1)
    (e : L * (3 * t ^ 2 - 2 * t ^ 3 - 1 / 2) = l * (3 * s ^ 2 - 2 * s ^ 3 - 1 / 2)) : s * (1 - s) ≤ t * (1 - t) := by
  have hs : |s - 1 / 2| ≤ 1 / 2 := abs_le.2 ⟨by linarith, by linarith⟩
  have ht : |t - 1 / 2| ≤ 1 / 2 := abs_le.2 ⟨by linarith, by linarith⟩
  have e1 : 3 * t ^ 2 - 2 * t ^ 3 - 1 / 2 = (t - 1 / 2) * (3 / 2 - 2 * |t - 1 / 2| ^ 2) := by rw [sq_abs]; ring
  have e2 : 3 * s ^ 2 - 2 * s ^ 3 - 1 / 2 = (s - 1 / 2) * (3 / 2 - 2 * |s - 1 / 2| ^ 2) := by rw [sq_abs]; ring
  rw [e1, e2] at e
  have e3 := congrArg (|·|) e
  simp only [abs_mul] at e3
  rw [abs_of_pos hl, abs_of_pos (by linarith : 0 < L)] at e3
  have p0 := abs_nonneg (s - 1 / 2)
  have q0 := abs_nonneg (t - 1 / 2)
  rw [← sub_nonneg]
  have goal : |t - 1 / 2| ≤ |s - 1 / 2| := by
    generalize |s - 1 / 2| = p at *
    generalize |t - 1 / 2| = q at *
    rw [abs_of_nonneg (by nlinarith), abs_of_nonneg (by nlinarith)] at e3
    by_contra hc
    have hc : p < q := not_le.1 hc
    have m : p * (3 / 2 - 2 * p ^ 2) ≤ q * (3 / 2 - 2 * q ^ 2) := by
      have : 0 ≤ (q - p) * (3 / 2 - 2 * (p ^ 2 + p * q + q ^ 2)) := mul_nonneg (by linarith) (by nlinarith)
      nlinarith
    have m2 : 0 < q * (3 / 2 - 2 * q ^ 2) := mul_pos (by linarith) (by nlinarith)
    have m3 : L * (q * (3 / 2 - 2 * q ^ 2)) ≤ l * (q * (3 / 2 - 2 * q ^ 2)) := by
      rw [e3]; exact mul_le_mul_of_nonneg_left m hl.le
    nlinarith
  have := mul_self_le_mul_self q0 goal
  rw [abs_mul_abs_self, abs_mul_abs_self] at this
  nlinarith

theorem concentric_no_meet {L l D δ s t : ℝ} (hl : 0 < l) (hL : l < L) (hδ : 0 < δ) (hD : δ < D) (s0 : 0 ≤ s) (s1 : s ≤ 1) (t0 : 0 ≤ t) (t1 : t ≤ 1)
    (e : L * (3 * t ^ 2 - 2 * t ^ 3 - 1 / 2) = l * (3 * s ^ 2 - 2 * s ^ 3 - 1 / 2)) (ey : D * (t * (1 - t)) = δ * (s * (1 - s))) : False := by
  have h := concentric_aux hl hL s0 s1 t0 t1 e
  have v0 : 0 ≤ s * (1 - s) := mul_nonneg s0 (by linarith)
  have v1 : s * (1 - s) = 0 := by nlinarith
  have v2 : t * (1 - t) = 0 := by
    rw [v1, mul_zero] at ey
    rcases mul_eq_zero.1 ey with k | k
    · linarith
    · exact k
  rcases mul_eq_zero.1 v1 with k | k <;> rcases mul_eq_zero.1 v2 with k' | k'
  · subst k; subst k'; norm_num at e; linarith
  · have : t = 1 := by linarith
    subst this; subst k; norm_num at e; linarith
  · have : s = 1 := by linarith
    subst this; subst k'; norm_num at e; linarith
  · have : s = 1 := by linarith
    have : t = 1 := by linarith
    subst s; subst t; norm_num at e; linarith

/-- C116 (part): two arcs on the same side with the same middle do not meet. -/
theorem C116_concentric_partial (d : TLDiag) (h : d.Ok) (path : List Curve) (hp : drawSvg d.seq d.bot = .ok path) (a b : Curve) (ha : a ∈ path)
    (hb : b ∈ path) (hab : a ≠ b) (a0 : (a.point 0).2 = (a.point 1).2) (b0 : (b.point 0).2 = (b.point 1).2) (ab : (a.point 0).2 = (b.point 0).2)
    (hx : (a.point 0).1 + (a.point 1).1 = (b.point 0).1 + (b.point 1).1) : ¬ a.Meet b := by
  obtain ⟨i, hi, hil, rfl, i0, i1⟩ := mem_path h hp ha
  obtain ⟨j, hj, hjl, rfl, j0, j1⟩ := mem_path h hp hb
  rw [i0, i1] at a0
  rw [j0, j1] at b0
  rw [i0, j0] at ab
  rw [i0, i1, j0, j1] at hx
  rw [dot_snd, dot_snd] at a0 b0 ab
  have side : ∀ u v : Nat, ((if u < d.bot then (35 : ℝ) else 0) = if v < d.bot then 35 else 0) → (u < d.bot ↔ v < d.bot) := by
    intro u v e
    by_cases u1 : u < d.bot <;> by_cases v1 : v < d.bot <;> simp [u1, v1] at e ⊢
  have k1 := side _ _ a0
  have k2 := side _ _ b0
  have k3 := side _ _ ab
  rintro ⟨s, t, s0, s1, t0, t1, e⟩
  have ij : i ≠ j := by rintro rfl; exact hab rfl
  -- the arc with the smaller number is the longer one
  have main : ∀ i j, i < d.seq.length → j < d.seq.length → i < j → i < at_ d.seq i → j < at_ d.seq j → (i < d.bot ↔ at_ d.seq i < d.bot) →
      (j < d.bot ↔ at_ d.seq j < d.bot) → (i < d.bot ↔ j < d.bot) → (dot d i).1 + (dot d (at_ d.seq i)).1 = (dot d j).1 + (dot d (at_ d.seq j)).1 →
      ∀ s t : ℝ, 0 ≤ s → s ≤ 1 → 0 ≤ t → t ≤ 1 →
      (curve d.seq.length d.bot i (at_ d.seq i)).point t ≠ (curve d.seq.length d.bot j (at_ d.seq j)).point s := by
    intro i j hi hj hij hil hjl k1 k2 k3 hx s t s0 s1 t0 t1 e
    have r1 : (i : ℝ) < j := by exact_mod_cast hij
    have r2 : (j : ℝ) < at_ d.seq j := by exact_mod_cast hjl
    have r3 : (i : ℝ) < at_ d.seq i := by exact_mod_cast hil
    by_cases u : i < d.bot
    · have hsum : (i : ℝ) + at_ d.seq i = j + at_ d.seq j := by
        have q1 := dot_bot_sub d u (k3.1 u)
        have q2 := dot_bot_sub d (k1.1 u) (k2.1 (k3.1 u))
        linarith
      rw [bot_point h u (k1.1 u), bot_point h (k3.1 u) (k2.1 (k3.1 u))] at e
      obtain ⟨e1, e2⟩ := Prod.mk.inj e
      have q1 := dot_bot_sub d u (k1.1 u)
      have q2 := dot_bot_sub d (k3.1 u) (k2.1 (k3.1 u))
      refine concentric_no_meet (L := at_ d.seq i - i) (l := at_ d.seq j - j) (D := dist i (at_ d.seq i)) (δ := dist j (at_ d.seq j)) (s := s) (t := t)
        (by linarith) (by linarith) (dist_box _ _).1 (dist_lt ?_) s0 s1 t0 t1 ?_ ?_
      · rw [abs_of_neg (by linarith), abs_of_neg (by linarith)]; linarith
      · rw [q1, q2] at e1
        linarith
      · linarith
    · have u' : d.bot ≤ i := by omega
      have ku1 : d.bot ≤ at_ d.seq i := by omega
      have ku2 : d.bot ≤ j := by omega
      have ku3 : d.bot ≤ at_ d.seq j := by omega
      have hsum : (i : ℝ) + at_ d.seq i = j + at_ d.seq j := by
        have q1 := dot_top_sub d u' ku2
        have q2 := dot_top_sub d ku1 ku3
        linarith
      rw [top_point h hi u' ku1, top_point h hj ku2 ku3] at e
      obtain ⟨e1, e2⟩ := Prod.mk.inj e
      have q1 := dot_top_sub d u' ku1
      have q2 := dot_top_sub d ku2 ku3
      refine concentric_no_meet (L := at_ d.seq i - i) (l := at_ d.seq j - j) (D := dist i (at_ d.seq i)) (δ := dist j (at_ d.seq j)) (s := s) (t := t)
        (by linarith) (by linarith) (dist_box _ _).1 (dist_lt ?_) s0 s1 t0 t1 ?_ ?_
      · rw [abs_of_neg (by linarith), abs_of_neg (by linarith)]; linarith
      · rw [q1, q2] at e1
        linarith
      · linarith
  rcases lt_or_gt_of_ne ij with hij | hij
  · exact main i j hi hj hij hil hjl k1 k2 k3 hx t s t0 t1 s0 s1 e
  · exact main j i hj hi hij hjl hil k2 k1 k3.symm hx.symm s t s0 s1 t0 t1 e.symm

/-- The diagram with twelve dots on each side, whose arcs on each side are all nested. -/
def nest12 : TLDiag :=
  ⟨12, 12, [11, 10, 9, 8, 7, 6, 5, 4, 3, 2, 1, 0, 23, 22, 21, 20, 19, 18, 17, 16, 15, 14, 13, 12]⟩

theorem nest12_ok : nest12.Ok :=
  ⟨rfl, ⟨by decide, by decide, by decide, fun a b ha hb hab h1 h2 =>
    (by decide +kernel : ∀ a, a < 24 → ∀ b, b < 24 → a < b → b < at_ nest12.seq a → at_ nest12.seq a < at_ nest12.seq b → False) a ha b hb hab h1 h2⟩⟩

/-- C116 is refuted: the outer arcs of `nest12` meet in its picture. -/
theorem C116_refuted : ¬ ∀ (d : TLDiag) (path : List Curve), d.Ok → drawSvg d.seq d.bot = .ok path → path.Pairwise fun a b => ¬ a.Meet b := by
  intro H
  have hok := nest12_ok
  have hp := drawSvg_spec hok
  have hpw := H nest12 _ hok hp
  have hf : ((List.range nest12.seq.length).filter fun i => decide (i < at_ nest12.seq i)) = [0, 1, 2, 3, 4, 5, 12, 13, 14, 15, 16, 17] := by decide
  rw [hf] at hpw
  simp only [List.map_cons, List.pairwise_cons] at hpw
  refine hpw.1 (curve nest12.seq.length nest12.bot 12 (at_ nest12.seq 12)) (by simp) ?_
  have p1 : ∀ t, (curve nest12.seq.length nest12.bot 0 (at_ nest12.seq 0)).point t = _ := bot_point hok (by decide) (by decide)
  have p2 : ∀ t, (curve nest12.seq.length nest12.bot 12 (at_ nest12.seq 12)).point t = _ := top_point hok (by decide) (by decide) (by decide)
  have n0 : at_ nest12.seq 0 = 11 := rfl
  have n1 : at_ nest12.seq 12 = 23 := rfl
  have x0 : (dot nest12 0).1 = 10 := by norm_num [dot, nest12, width]
  have x1 : (dot nest12 11).1 = 175 := by norm_num [dot, nest12, width]
  have x2 : (dot nest12 12).1 = 175 := by norm_num [dot, nest12, width]
  have x3 : (dot nest12 23).1 = 10 := by norm_num [dot, nest12, width]
  have hd : dist 12 23 = dist 0 11 := by unfold dist; norm_num
  have hσ : 14 / 15 ≤ dist 0 11 := by
    unfold dist
    have h2 : 14 < Real.exp (11 / 4) := by
      have e : Real.exp (11 / 4) = Real.exp 1 ^ 2 * (Real.exp (1 / 4)) ^ 3 := by rw [← Real.exp_nat_mul, ← Real.exp_nat_mul, ← Real.exp_add]; norm_num
      have a1 : 2.7182818283 < Real.exp 1 := Real.exp_one_gt_d9
      have a3 : (1.25 : ℝ) ≤ Real.exp (1 / 4) := by have := Real.add_one_le_exp (1 / 4 : ℝ); linarith
      have a4 : (2.7182818283 : ℝ) ^ 2 ≤ Real.exp 1 ^ 2 := pow_le_pow_left₀ (by norm_num) a1.le 2
      have a5 : (1.25 : ℝ) ^ 3 ≤ Real.exp (1 / 4) ^ 3 := pow_le_pow_left₀ (by norm_num) a3 3
      rw [e]
      calc (14 : ℝ) < 2.7182818283 ^ 2 * 1.25 ^ 3 := by norm_num
        _ ≤ _ := mul_le_mul a4 a5 (by positivity) (by positivity)
    have h3 : Real.exp (-(11 / 4)) < 1 / 14 := by
      rw [Real.exp_neg, one_div]
      exact inv_strictAnti₀ (by norm_num) h2
    have h4 : -|((0 : Nat) : ℝ) - ((11 : Nat) : ℝ)| / 4 = -(11 / 4) := by norm_num
    rw [h4, div_le_div_iff₀ (by norm_num) (by positivity)]
    linarith
  -- the time at which the cup has risen to the middle
  set q : ℝ := 7 / (30 * dist 0 11) with hq
  have hq0 : q ≤ 1 / 4 := by
    rw [hq, div_le_div_iff₀ (by linarith) (by norm_num)]
    linarith
  have hq1 : 0 ≤ q := by rw [hq]; exact div_nonneg (by norm_num) (by linarith)
  have hr0 := Real.sqrt_nonneg (1 - 4 * q)
  have hr1 : Real.sqrt (1 - 4 * q) ≤ 1 := Real.sqrt_le_one.2 (by linarith)
  have hr2 : Real.sqrt (1 - 4 * q) ^ 2 = 1 - 4 * q := Real.sq_sqrt (by linarith)
  generalize Real.sqrt (1 - 4 * q) = r at *
  have hm : dist 0 11 * ((1 - r) / 2 * (1 - (1 - r) / 2)) = 7 / 30 := by
    have : (1 - r) / 2 * (1 - (1 - r) / 2) = q := by nlinarith
    rw [this, hq]
    field_simp
  refine ⟨(1 - r) / 2, 1 - (1 - r) / 2, by linarith, by linarith, by linarith, by linarith, ?_⟩
  rw [p1, p2, n0, n1, x0, x1, x2, x3, hd]
  refine Prod.ext ?_ ?_
  · simp only; ring
  · simp only; linarith

/-! The hypotheses of the positive theorems are met: the picture of the diagram with 0 top and 8 bottom dots, and of the one with 2 and 4. -/

theorem fig8_ok : (⟨0, 8, [7, 4, 3, 2, 1, 6, 5, 0]⟩ : TLDiag).Ok :=
  ⟨rfl, ⟨by decide, by decide, by decide, fun a b ha hb => (by decide : ∀ a, a < 8 → ∀ b, b < 8 → a < b → b < at_ [7, 4, 3, 2, 1, 6, 5, 0] a →
    at_ [7, 4, 3, 2, 1, 6, 5, 0] a < at_ [7, 4, 3, 2, 1, 6, 5, 0] b → False) a ha b hb⟩⟩

theorem fig6_ok : (⟨4, 4, [1, 0, 5, 4, 3, 2, 7, 6]⟩ : TLDiag).Ok :=
  ⟨rfl, ⟨by decide, by decide, by decide, fun a b ha hb => (by decide : ∀ a, a < 8 → ∀ b, b < 8 → a < b → b < at_ [1, 0, 5, 4, 3, 2, 7, 6] a →
    at_ [1, 0, 5, 4, 3, 2, 7, 6] a < at_ [1, 0, 5, 4, 3, 2, 7, 6] b → False) a ha b hb⟩⟩

/-- The arcs 1–4 and 2–3 have the same middle, and the arc 5–6 is to the right of both. -/
example : ∃ path a b c, drawSvg [7, 4, 3, 2, 1, 6, 5, 0] 8 = .ok path ∧ a ∈ path ∧ b ∈ path ∧ c ∈ path ∧ a ≠ b ∧
    (a.point 0).2 = (a.point 1).2 ∧ (b.point 0).2 = (b.point 1).2 ∧ (a.point 0).2 = (b.point 0).2 ∧
    (a.point 0).1 + (a.point 1).1 = (b.point 0).1 + (b.point 1).1 ∧ max (a.point 0).1 (a.point 1).1 < min (c.point 0).1 (c.point 1).1 := by
  have hs := drawSvg_spec fig8_ok
  have pt : ∀ i, i < 8 → (curve 8 8 i (at_ [7, 4, 3, 2, 1, 6, 5, 0] i)).point 0 = dot ⟨0, 8, [7, 4, 3, 2, 1, 6, 5, 0]⟩ i ∧
      (curve 8 8 i (at_ [7, 4, 3, 2, 1, 6, 5, 0] i)).point 1 = dot ⟨0, 8, [7, 4, 3, 2, 1, 6, 5, 0]⟩ (at_ [7, 4, 3, 2, 1, 6, 5, 0] i) := by
    intro i hi
    have e1 := pos_dot fig8_ok hi
    have e2 := pos_dot fig8_ok (fig8_ok.2.lt i hi)
    rw [← e1, ← e2]
    simp only [curve]
    split <;> simp [Curve.point]
  have hf : ((List.range 8).filter fun i => decide (i < at_ [7, 4, 3, 2, 1, 6, 5, 0] i)) = [0, 1, 2, 5] := by decide
  simp only at hs
  have a1 : at_ [7, 4, 3, 2, 1, 6, 5, 0] 1 = 4 := rfl
  have a2 : at_ [7, 4, 3, 2, 1, 6, 5, 0] 2 = 3 := rfl
  have a5 : at_ [7, 4, 3, 2, 1, 6, 5, 0] 5 = 6 := rfl
  obtain ⟨u1, u2⟩ := pt 1 (by omega)
  obtain ⟨v1, v2⟩ := pt 2 (by omega)
  obtain ⟨w1, w2⟩ := pt 5 (by omega)
  rw [a1] at u1 u2
  rw [a2] at v1 v2
  rw [a5] at w1 w2
  refine ⟨_, curve 8 8 1 4, curve 8 8 2 3, curve 8 8 5 6, hs, ?_, ?_, ?_, ?_, ?_, ?_, ?_, ?_, ?_⟩
  · exact List.mem_map.2 ⟨1, by decide, rfl⟩
  · exact List.mem_map.2 ⟨2, by decide, rfl⟩
  · exact List.mem_map.2 ⟨5, by decide, rfl⟩
  · intro e
    rw [e, v1] at u1
    norm_num [dot] at u1
  all_goals simp only [u1, u2, v1, v2, w1, w2]
  all_goals norm_num [dot, width]

/-- The arc 0–1 on the bottom, the arc 6–7 on the top, and the through strands 2–5 and 3–4. -/
example : ∃ path a b c e, drawSvg [1, 0, 5, 4, 3, 2, 7, 6] 4 = .ok path ∧ a ∈ path ∧ b ∈ path ∧ c ∈ path ∧ e ∈ path ∧
    (a.point 0).2 = height ∧ (a.point 1).2 = height ∧ (b.point 0).2 = 0 ∧ (b.point 1).2 = 0 ∧ |(a.point 1).1 - (a.point 0).1| ≤ 9 * 15 ∧
    |(b.point 1).1 - (b.point 0).1| ≤ 9 * 15 ∧ c ≠ e ∧ (c.point 0).2 ≠ (c.point 1).2 ∧ (e.point 0).2 ≠ (e.point 1).2 := by
  have hs := drawSvg_spec fig6_ok
  have pt : ∀ i, i < 8 → (curve 8 4 i (at_ [1, 0, 5, 4, 3, 2, 7, 6] i)).point 0 = dot ⟨4, 4, [1, 0, 5, 4, 3, 2, 7, 6]⟩ i ∧
      (curve 8 4 i (at_ [1, 0, 5, 4, 3, 2, 7, 6] i)).point 1 = dot ⟨4, 4, [1, 0, 5, 4, 3, 2, 7, 6]⟩ (at_ [1, 0, 5, 4, 3, 2, 7, 6] i) := by
    intro i hi
    have e1 := pos_dot fig6_ok hi
    have e2 := pos_dot fig6_ok (fig6_ok.2.lt i hi)
    rw [← e1, ← e2]
    simp only [curve]
    split <;> simp [Curve.point]
  simp only at hs
  have a1 : at_ [1, 0, 5, 4, 3, 2, 7, 6] 0 = 1 := rfl
  have a2 : at_ [1, 0, 5, 4, 3, 2, 7, 6] 6 = 7 := rfl
  have a3 : at_ [1, 0, 5, 4, 3, 2, 7, 6] 2 = 5 := rfl
  have a4 : at_ [1, 0, 5, 4, 3, 2, 7, 6] 3 = 4 := rfl
  obtain ⟨u1, u2⟩ := pt 0 (by omega)
  obtain ⟨v1, v2⟩ := pt 6 (by omega)
  obtain ⟨w1, w2⟩ := pt 2 (by omega)
  obtain ⟨x1, x2⟩ := pt 3 (by omega)
  rw [a1] at u1 u2
  rw [a2] at v1 v2
  rw [a3] at w1 w2
  rw [a4] at x1 x2
  refine ⟨_, curve 8 4 0 1, curve 8 4 6 7, curve 8 4 2 5, curve 8 4 3 4, hs, ?_, ?_, ?_, ?_, ?_, ?_, ?_, ?_, ?_, ?_, ?_, ?_, ?_⟩
  · exact List.mem_map.2 ⟨0, by decide, rfl⟩
  · exact List.mem_map.2 ⟨6, by decide, rfl⟩
  · exact List.mem_map.2 ⟨2, by decide, rfl⟩
  · exact List.mem_map.2 ⟨3, by decide, rfl⟩
  · rw [u1]; norm_num [dot, height]
  · rw [u2]; norm_num [dot, height]
  · rw [v1]; norm_num [dot]
  · rw [v2]; norm_num [dot]
  · rw [u1, u2]; norm_num [dot]
  · rw [v1, v2]; norm_num [dot]
  · intro e
    rw [e, x1] at w1
    norm_num [dot] at w1
  · rw [w1, w2]; norm_num [dot]
  · rw [x1, x2]; norm_num [dot]

end TLDraw
end Peyl
