import Verif.Lemmas.MachineMul
/-!
# The evaluators of `RepBase` with machine integers
-/
namespace Peyl
open Polymat

theorem mapM_congr_fun {α β : Type} {f g : α → Except Err β} {l : List α} (h : ∀ x ∈ l, f x = g x) : l.mapM f = l.mapM g := by
  induction l with
  | nil => rfl
  | cons x l ih => rw [List.mapM_cons, List.mapM_cons, h x (by simp), ih fun y hy => h y (by simp [hy])]

theorem bind_congr_ok {α β : Type} {x : Except Err α} {f g : α → Except Err β} (h : ∀ a, x = .ok a → f a = g a) : (x >>= f) = (x >>= g) := by
  cases x with
  | error e => rfl
  | ok a => exact h a rfl

theorem mapM_mem_ok {α β : Type} {f : α → Except Err β} : ∀ {l : List α} {ys : List β}, l.mapM f = .ok ys → ∀ y ∈ ys, ∃ x ∈ l, f x = .ok y
  | [], ys, h, y, hy => by cases h; simp at hy
  | x :: l, ys, h, y, hy => by
    rw [List.mapM_cons] at h
    cases hx : f x with
    | error e => rw [hx] at h; cases h
    | ok z =>
      rw [hx, bind_ok] at h
      cases hl : l.mapM f with
      | error e => rw [hl] at h; cases h
      | ok zs =>
        rw [hl, bind_ok] at h; cases h
        rcases List.mem_cons.1 hy with rfl | hy
        · exact ⟨x, by simp, hx⟩
        · obtain ⟨x', h1, h2⟩ := mapM_mem_ok hl y hy
          exact ⟨x', by simp [h1], h2⟩

theorem foldl_max_le {W : Nat} : ∀ (l : List Nat) (a : Nat), a ≤ W → (∀ x ∈ l, x ≤ W) → l.foldl max a ≤ W
  | [], a, ha, _ => ha
  | x :: l, a, ha, h => foldl_max_le l _ (max_le ha (h x (by simp))) fun y hy => h y (by simp [hy])

theorem trim_length_le {α : Type} [Fintype α] {I J : Nat} (A : PArr α I J) : (trim A).length ≤ A.length := by rw [trim, List.length_take]; omega

theorem bd_trim {α : Type} [Fintype α] {I J b : Nat} {A : PArr α I J} (h : Bd b A) : Bd b (trim A) := fun S hS => h S (List.mem_of_mem_take hS)

theorem pack_bd {I J b W : Nat} {As : List (PArr Unit I J)} {P} (h : pack As = .ok P) (hA : ∀ A ∈ As, Bd b A ∧ A.length ≤ W) : Bd b P ∧ P.length ≤ W := by
  rw [pack] at h
  split at h
  · cases h
  · dsimp only at h
    cases h
    refine ⟨?_, ?_⟩
    · intro S hS a i j
      obtain ⟨e, -, rfl⟩ := List.mem_map.1 hS
      dsimp only
      split
      · have hlen : a.1 < (As.map trim).length := by simpa using a.2
        rw [List.getD_eq_getElem?_getD, List.getElem?_eq_getElem hlen, Option.getD_some, List.getElem_map]
        exact (bd_trim (hA _ (List.getElem_mem _)).1).slice _ _ _ _
      · simp
    · rw [List.length_map, List.length_range]
      refine foldl_max_le _ _ (Nat.zero_le _) fun x hx => ?_
      simp only [List.map_map, List.mem_map, Function.comp] at hx
      obtain ⟨A, h1, rfl⟩ := hx
      exact (trim_length_le A).trans (hA A h1).2

namespace RepBase
variable {d : Nat}

theorem packN_bd {L b W : Nat} {As : List (Img d)} {P} (h : packN L As = .ok P) (hA : ∀ A ∈ As, Bd b A ∧ A.length ≤ W) : Bd b P ∧ P.length ≤ W := by
  rw [packN] at h
  split at h
  · cases hp : pack As with
    | error e => rw [hp] at h; cases h
    | ok Q =>
      rw [hp, bind_ok] at h; cases h
      obtain ⟨h1, h2⟩ := pack_bd hp hA
      refine ⟨?_, by simpa using h2⟩
      intro S hS a i j
      obtain ⟨S', hS', rfl⟩ := List.mem_map.1 hS
      exact h1 S' hS' _ i j
  · cases h

variable {T : Type} {Q : Nat → Prop} {w M W b : Nat} {rep : RepBase d} {tbl : Nat → Except Err (NFTable T)}

theorem lookup_mem {α : Type} {l : List α} {k : Nat} {x : α} (h : lookup l k = .ok x) : x ∈ l := by
  rw [lookup_ok] at h
  exact List.mem_of_getElem? h

theorem stepImages {k : Nat} (hF : ∀ f, Q f → rep.factorImageW w tbl f = rep.factorImage tbl f) {factors : List (List Nat)} (hQ : ∀ fs ∈ factors, ∀ f ∈ fs, Q f) :
    (factors.mapM fun fs : List Nat => (do rep.factorImageW w tbl (← lookup fs k) : Except Err (Img d))) =
      factors.mapM fun fs => (do rep.factorImage tbl (← lookup fs k) : Except Err (Img d)) :=
  mapM_congr_fun fun fs hfs => bind_congr_ok fun f hf => hF f (hQ fs hfs f (lookup_mem hf))

theorem stepImages_mem {k : Nat} {factors : List (List Nat)} (hQ : ∀ fs ∈ factors, ∀ f ∈ fs, Q f) {ms : List (Img d)}
    (hm : (factors.mapM fun fs => (do rep.factorImage tbl (← lookup fs k) : Except Err (Img d))) = .ok ms) :
    ∀ X ∈ ms, ∃ f, Q f ∧ rep.factorImage tbl f = .ok X := by
  intro X hX
  obtain ⟨fs, hm, hfs⟩ := mapM_mem_ok hm X hX
  cases hl : lookup fs k with
  | error x => rw [hl] at hfs; cases hfs
  | ok f => rw [hl, bind_ok] at hfs; exact ⟨f, hQ fs hm f (lookup_mem hl), hfs⟩

theorem bind_eq_ok {α β : Type} {x : Except Err α} {f : α → Except Err β} {b : β} (h : (x >>= f) = .ok b) : ∃ a, x = .ok a ∧ f a = .ok b := by
  cases x with
  | error e => cases h
  | ok a => exact ⟨a, rfl, h⟩

theorem evalStepW_mod (hw : 1 ≤ w) (hp : rep.p ≠ 0) (hF : ∀ f, Q f → rep.factorImageW w tbl f = rep.factorImage tbl f)
    (hB : ∀ f, Q f → ∀ A, rep.factorImage tbl f = .ok A → Bd (rep.p - 1) A ∧ A.length ≤ W) (hb : d * W * M * (rep.p - 1) < 2 ^ (w - 1))
    {L : Nat} (hL : 0 < L) (factors : List (List Nat)) (hQ : ∀ fs ∈ factors, ∀ f ∈ fs, Q f) {A : PArr (Fin L) d d} (hA : Bd M A) (k : Nat) :
    rep.evalStepW w tbl L factors A k = rep.evalStep tbl L factors A k ∧ ∀ C, rep.evalStep tbl L factors A k = .ok C → Bd (rep.p - 1) C := by
  haveI : Nonempty (Fin L) := ⟨⟨0, hL⟩⟩
  have key : ∀ ms, (factors.mapM fun fs => (do rep.factorImage tbl (← lookup fs k) : Except Err (Img d))) = .ok ms → ∀ B, packN L ms = .ok B →
      polymatMulW w rep.p (fun i : Fin L => i) (fun i => i) A B = rep.polymatMulL A B ∧ ∀ C, rep.polymatMulL A B = .ok C → Bd (rep.p - 1) C := by
    intro ms hm B hq
    obtain ⟨b1, b2⟩ := packN_bd (b := rep.p - 1) (W := W) hq fun X hX => by
      obtain ⟨f, hq, hf⟩ := stepImages_mem hQ hm X hX
      exact hB f hq X hf
    exact polymatMulW_mod hw hp hA b1 b2 hb
  constructor
  · rw [evalStepW, evalStep, stepImages hF hQ]
    exact bind_congr_ok fun ms hm => bind_congr_ok fun B hq => (key ms hm B hq).1
  · intro C hC
    rw [evalStep] at hC
    obtain ⟨ms, hm, hC⟩ := bind_eq_ok hC
    obtain ⟨B, hq, hC⟩ := bind_eq_ok hC
    exact (key ms hm B hq).2 C hC

theorem lookup_pos {α : Type} {l : List α} {x : α} (h : lookup l 0 = .ok x) : 0 < l.length := by
  rw [lookup_ok] at h
  rcases l with _ | ⟨y, l⟩
  · simp at h
  · simp

theorem le_foldl_max : ∀ (l : List Nat) (a : Nat), a ≤ l.foldl max a ∧ ∀ x ∈ l, x ≤ l.foldl max a := by
  intro l
  induction l with
  | nil => intro a; simp
  | cons y l ih =>
    intro a
    obtain ⟨i1, i2⟩ := ih (max a y)
    refine ⟨le_trans (le_max_left _ _) i1, fun x hx => ?_⟩
    rcases List.mem_cons.1 hx with rfl | hx
    · exact le_trans (le_max_right _ _) i1
    · exact i2 x hx

theorem evalSameW_mod (hw : 1 ≤ w) (hp : rep.p ≠ 0) (hF : ∀ f, Q f → rep.factorImageW w tbl f = rep.factorImage tbl f)
    (hB : ∀ f, Q f → ∀ A, rep.factorImage tbl f = .ok A → Bd (rep.p - 1) A ∧ A.length ≤ W)
    (hD : ∀ k, rep.deltaImageW w tbl k = rep.deltaImage tbl k) (hM : ∀ k A, rep.deltaImage tbl k = .ok A → Bd M A) (hpM : rep.p - 1 ≤ M)
    (hb : d * W * M * (rep.p - 1) < 2 ^ (w - 1)) (xs : List NF) (hQ : ∀ x ∈ xs, ∀ f ∈ x.factors, Q f) : rep.evalSameW w tbl xs = rep.evalSame tbl xs := by
  rw [evalSameW, evalSame]
  refine bind_congr_ok fun x0 hx => ?_
  have hL := lookup_pos hx
  dsimp only
  refine bind_congr_ok fun _ _ => bind_congr_ok fun t _ => ?_
  simp only [hD]
  refine bind_congr_ok fun ds hm => bind_congr_ok fun A hq => ?_
  have hA : Bd M A := by
    refine (packN_bd (b := M) (W := (ds.map List.length).foldl max 0) hq fun X hX => ⟨?_, ?_⟩).1
    · obtain ⟨x, -, hfs⟩ := mapM_mem_ok hm X hX
      obtain ⟨f, -, hf⟩ := bind_eq_ok hfs
      exact hM f X hf
    · exact (le_foldl_max _ 0).2 _ (List.mem_map.2 ⟨X, hX, rfl⟩)
  refine foldlM_congr _ _ (Bd M) _ (fun s hs k _ => ?_) A hA
  obtain ⟨s1, s2⟩ := evalStepW_mod hw hp hF hB hb hL (xs.map NF.factors) (fun fs hfs => by
    obtain ⟨x, hx, rfl⟩ := List.mem_map.1 hfs
    exact hQ x hx) hs k
  exact ⟨s1, fun C hC => (s2 C hC).mono hpM⟩

theorem evalOneW_eq {x : NF} (h : rep.evalSameW w tbl [x] = rep.evalSame tbl [x]) : rep.evalOneW w tbl x = rep.evalOne tbl x := by
  rw [evalOneW, evalOne, h]

theorem evalIntegersW_mod (hw : 1 ≤ w) (hp : rep.p ≠ 0) (hF : ∀ f, Q f → rep.factorImageW w tbl f = rep.factorImage tbl f)
    (hB : ∀ f, Q f → ∀ A, rep.factorImage tbl f = .ok A → Bd (rep.p - 1) A ∧ A.length ≤ W)
    (hb : d * W * (rep.p - 1) * (rep.p - 1) < 2 ^ (w - 1)) (seqs : List (List Nat))
    (hQ : ∀ t, tbl rep.n = .ok t → Q t.id ∧ ∀ f, f < t.order → Q f) : rep.evalIntegersW w tbl seqs = rep.evalIntegers tbl seqs := by
  rw [evalIntegersW, evalIntegers]
  refine bind_congr_ok fun s0 hx => ?_
  have hL := lookup_pos hx
  dsimp only
  refine bind_congr_ok fun _ _ => bind_congr_ok fun t ht => bind_congr_ok fun _ hall => ?_
  obtain ⟨q1, q2⟩ := hQ t ht
  have hq2 : ∀ fs ∈ seqs, ∀ f ∈ fs, Q f := by
    rw [pyAssert] at hall
    split at hall
    · next h =>
      simp only [List.all_eq_true, decide_eq_true_eq] at h
      exact fun fs hfs f hf => q2 f (h fs hfs f hf)
    · cases hall
  rw [hF _ q1]
  refine bind_congr_ok fun X hi => bind_congr_ok fun S hq => ?_
  have hS : Bd (rep.p - 1) S := (packN_bd (b := rep.p - 1) (W := W) hq fun Y hY => by
    rw [List.mem_singleton.1 hY]; exact hB _ q1 _ hi).1
  split
  · rfl
  · congr 1
    refine foldlM_congr _ _ (Bd (rep.p - 1)) _ (fun s hs k _ => evalStepW_mod hw hp hF hB hb hL seqs hq2 hs k) _ ?_
    intro Y hY a i j
    obtain ⟨Y', hY', rfl⟩ := List.mem_map.1 hY
    exact hS Y' hY' 0 i j

end RepBase
end Peyl
