import Verif.Model.MachineTracker
import Verif.Lemmas.MachineSearch
import Verif.Lemmas.Bucketing
/-!
# The tracker with machine integers, modulo `p`
-/
namespace Peyl
open Polymat Polynomial

theorem Polymat.projectivise_length {α : Type} [Fintype α] [Nonempty α] {I J : Nat} {A P : PArr α I J} (h : projectivise A = .ok P) : P.length ≤ A.length := by
  obtain ⟨hc, hk⟩ := projectivise_iff.1 h
  obtain ⟨u, hu⟩ := hc.2
  obtain ⟨k, hk⟩ := hk u
  rw [X_pow_mul_den] at hk
  by_contra hlt
  refine hu ?_
  rw [← hk.2 (P.length - 1), slice_ge A (by omega)]; rfl

theorem polymatMul_length {α β γ : Type} [Fintype γ] [Nonempty γ] {I J K p : Nat} {pa : γ → α} {pb : γ → β} {A : PArr α I J} {B : PArr β J K} {C : PArr γ I K}
    (h : polymatMul p pa pb A B = .ok C) : C.length ≤ A.length + B.length - 1 := by
  rw [polymatMul] at h
  obtain ⟨D, h1, h2⟩ := RepBase.bind_eq_ok h
  have h3 := projectivise_length h2
  rw [mul] at h1
  split at h1
  · cases h1
  · cases h1
    split at h3 <;> simpa [modp] using h3

namespace BraidSearch
variable {d : Nat} {rep : Summand d} {S : Type} {tbl : Nat → Except Err (NFTable (List Nat))} {w W : Nat}

/-- All images in the buckets have entries at most `b`, and the width given by the tag. -/
def StBd (b : Nat) (st : State S NF d) : Prop :=
  ∀ t B, Dict.get? st.buckets t = some B → (B.width : ℤ) = t.2 ∧ ∀ im ∈ B.images, Bd b im ∧ im.length = B.width

theorem stBd_set {b : Nat} {st : State S NF d} (h : StBd b st) {t : Tag} {B : Bucket NF d} (hw : (B.width : ℤ) = t.2)
    (hB : ∀ im ∈ B.images, Bd b im ∧ im.length = B.width) (k : List (Tag × Nat)) (s : S) :
    StBd b (⟨Dict.set st.buckets t B, k, s⟩ : State S NF d) := by
  intro t' B' hg
  dsimp only at hg
  rw [Dict.get?_set] at hg
  split at hg
  · next e => subst e; cases hg; exact ⟨hw, hB⟩
  · exact h t' B' hg

theorem assignImg_bd {b W : Nat} {A B : Img d} (h : assignImg W A = .ok B) (hA : Bd b A) : Bd b B ∧ B.length = W := by
  rw [assignImg] at h
  split at h
  · next e => cases h; exact ⟨hA, e⟩
  · split at h
    · cases h
      refine ⟨?_, List.length_replicate ..⟩
      intro S hS a i j
      rw [List.eq_of_mem_replicate hS]
      exact hA.slice _ _ _ _
    · cases h

theorem bd_zero (b k : Nat) : Bd b (List.replicate k 0 : Img d) := by
  intro S hS a i j
  rw [List.eq_of_mem_replicate hS]
  simp

theorem step_bd {b : Nat} (c : Config S NF d) {st st' : State S NF d} {tag : Tag} {x : NF} {im : Img d} (h : step c st tag x im = .ok st') (hs : StBd b st) (hi : Bd b im)
    (ht : ∀ P, projectivise im = .ok P → (P.length : ℤ) = tag.2) : StBd b st' := by
  rw [step] at h
  cases hg : Dict.get? st.buckets tag with
  | none =>
    rw [hg] at h
    dsimp only at h
    obtain ⟨im', h1, h⟩ := RepBase.bind_eq_ok h
    split at h
    · cases h
    · cases h
      refine stBd_set hs (ht _ h1) (fun y hy => ?_) _ _
      rcases List.mem_cons.1 hy with rfl | hy
      · exact ⟨(projectivise_bd h1).1 hi, rfl⟩
      · rw [List.eq_of_mem_replicate hy]; exact ⟨bd_zero _ _, List.length_replicate ..⟩
  | some B =>
    rw [hg] at h
    dsimp only at h
    have hset : ∀ j (A : Img d), Bd b A ∧ A.length = B.width → ∀ y ∈ B.images.set j A, Bd b y ∧ y.length = B.width := by
      intro j A hA y hy
      rcases List.mem_or_eq_of_mem_set hy with hy | rfl
      · exact (hs tag B hg).2 y hy
      · exact hA
    obtain ⟨k, -, h⟩ := RepBase.bind_eq_ok h
    split at h
    · split at h
      · cases h; exact hs
      · obtain ⟨js, -, h⟩ := RepBase.bind_eq_ok h
        split at h
        · obtain ⟨im1, h1, h⟩ := RepBase.bind_eq_ok h
          obtain ⟨im2, h2, h⟩ := RepBase.bind_eq_ok h
          cases h
          refine stBd_set hs ?_ (hset _ _ (assignImg_bd h2 ((projectivise_bd h1).1 hi))) _ _
          exact (hs tag B hg).1
        · cases h; exact hs
    · split at h
      · cases h; exact hs
      · obtain ⟨im1, h1, h⟩ := RepBase.bind_eq_ok h
        obtain ⟨im2, h2, h⟩ := RepBase.bind_eq_ok h
        cases h
        refine stBd_set hs ?_ (hset _ _ (assignImg_bd h2 ((projectivise_bd h1).1 hi))) _ _
        exact (hs tag B hg).1

theorem foldlM_inv {σ δ : Type} (f : σ → δ → Except Err σ) (P : σ → Prop) : ∀ (l : List δ) (s s' : σ), (∀ s, P s → ∀ x ∈ l, ∀ s', f s x = .ok s' → P s') → P s →
    l.foldlM f s = .ok s' → P s'
  | [], s, s', _, hs, h => by cases h; exact hs
  | x :: l, s, s', hf, hs, h => by
    rw [List.foldlM_cons] at h
    obtain ⟨s1, h1, h2⟩ := RepBase.bind_eq_ok h
    exact foldlM_inv f P l s1 s' (fun s hs y hy => hf s hs y (by simp [hy])) (hf s hs x (by simp) s1 h1) h2

theorem bd_imgAt {b L : Nat} {A : PArr (Fin L) d d} (h : Bd b A) (i : Fin L) : Bd b (imgAt A i) := by
  intro S hS a j k
  obtain ⟨S', hS', rfl⟩ := List.mem_map.1 hS
  exact h S' hS' i j k

theorem add_bd {b : Nat} (c : Config S NF d) {st st' : State S NF d} {B : Bucketing.Batch NF d} (h : addBraidsImages c st B = .ok st') (hs : StBd b st) (hB : Bd b B.images) :
    StBd b st' := by
  rw [addBraidsImages] at h
  obtain ⟨_, -, h⟩ := RepBase.bind_eq_ok h
  obtain ⟨pl, hpl, h⟩ := RepBase.bind_eq_ok h
  exact foldlM_inv _ (StBd b) _ _ _ (fun s hs i _ s' hs' => step_bd c hs' hs (bd_imgAt hB i) fun P hP => projlen_width hpl i hP) hs h

theorem discard_bd {b : Nat} {st : State S NF d} (h : StBd b st) (t : Tag) : StBd b (discardBucket st t) := by
  rw [discardBucket]
  split
  · intro t' B hg
    dsimp only at hg
    rw [Dict.get?_del] at hg
    split at hg
    · cases hg
    · exact h t' B hg
  · exact h

/-! ### the widths of the prefixes -/

theorem step_length {b : Nat} {tab : List (List Nat × Img d)} (hT : TabBd b W tab) {L : Nat} (hL : 0 < L) (factors : List (List (List Nat))) {A C : PArr (Fin L) d d} {k : Nat}
    (h : evalStep rep tab L factors A k = .ok C) : C.length ≤ A.length + W - 1 := by
  haveI : Nonempty (Fin L) := ⟨⟨0, hL⟩⟩
  rw [evalStep] at h
  obtain ⟨ms, hm, h⟩ := RepBase.bind_eq_ok h
  obtain ⟨B, hq, h⟩ := RepBase.bind_eq_ok h
  have hB := (packL_bd (b := b) (W := W) hq fun X hX => by
    obtain ⟨fs, -, hfs⟩ := mapM_mem_ok hm X hX
    obtain ⟨f, -, hf⟩ := RepBase.bind_eq_ok hfs
    exact hT _ (dictGet_mem hf)).2
  have := polymatMul_length (p := rep.p) (pa := fun i : Fin L => i) (pb := fun i => i) h
  omega

theorem step_bd' (hp : 2 ≤ rep.p) {tab : List (List Nat × Img d)} {L : Nat} (hL : 0 < L) (factors : List (List (List Nat))) {A C : PArr (Fin L) d d} {k : Nat}
    (h : evalStep rep tab L factors A k = .ok C) : Bd (rep.p - 1) C := by
  haveI : Nonempty (Fin L) := ⟨⟨0, hL⟩⟩
  rw [evalStep] at h
  obtain ⟨ms, hm, h⟩ := RepBase.bind_eq_ok h
  obtain ⟨B, hq, h⟩ := RepBase.bind_eq_ok h
  rw [Summand.mulL, polymatMul] at h
  obtain ⟨D, h1, h2⟩ := RepBase.bind_eq_ok h
  rw [if_pos (by omega)] at h2
  exact (projectivise_bd h2).1 (modp_bd (by omega) D)

theorem prefix_bd (hp : 2 ≤ rep.p) (hW : 1 ≤ W) {tab : List (List Nat × Img d)} (hT : TabBd (rep.p - 1) W tab) {L : Nat} (hL : 0 < L) (factors : List (List (List Nat))) :
    ∀ (ls : List Nat) {A : PArr (Fin L) d d} {Bs : List (PArr (Fin L) d d)}, Bd (rep.p - 1) A → prefixLoop rep tab L factors ls A = .ok Bs →
      ∀ k B, Bs[k]? = some B → Bd (rep.p - 1) B ∧ B.length ≤ A.length + k * (W - 1)
  | [], A, Bs, hA, h, k, B, hk => by
    rw [prefixLoop] at h
    cases h
    rcases k with _ | k
    · simp at hk; subst hk; exact ⟨hA, by omega⟩
    · simp at hk
  | l :: ls, A, Bs, hA, h, k, B, hk => by
    rw [prefixLoop] at h
    obtain ⟨A', h1, h⟩ := RepBase.bind_eq_ok h
    obtain ⟨rest, h2, h⟩ := RepBase.bind_eq_ok h
    cases h
    rcases k with _ | k
    · simp at hk; subst hk; exact ⟨hA, by omega⟩
    · rw [List.getElem?_cons_succ] at hk
      have l1 := step_length hT hL factors h1
      obtain ⟨r1, r2⟩ := prefix_bd hp hW hT hL factors ls (step_bd' hp hL factors h1) h2 k B hk
      refine ⟨r1, ?_⟩
      have : (k + 1) * (W - 1) = k * (W - 1) + (W - 1) := by ring
      omega

theorem evalPrefixes_bd (hp : 2 ≤ rep.p) (hW : 1 ≤ W) (hT' : ∀ tab, rep.table = .ok tab → TabBd (rep.p - 1) W tab) {xs : List NF} {Bs : List (PArr (Fin xs.length) d d)}
    (h : evalPrefixes tbl rep xs = .ok Bs) : 0 < xs.length ∧ ∀ k B, Bs[k]? = some B → Bd (rep.p - 1) B ∧ B.length ≤ (k + 1) * (W - 1) + 1 := by
  rw [evalPrefixes] at h
  obtain ⟨y, hy, h⟩ := RepBase.bind_eq_ok h
  obtain ⟨hL, y1, y2⟩ := evalStart_bd hp hT' hW hy
  refine ⟨hL, fun k B hk => ?_⟩
  obtain ⟨r1, r2⟩ := prefix_bd hp hW y1 hL _ _ y2 h k B hk
  refine ⟨r1, r2.trans ?_⟩
  have hA : y.2.2.2.length ≤ W := by
    rw [evalStart] at hy
    obtain ⟨x0, h0, h⟩ := RepBase.bind_eq_ok hy
    obtain ⟨_, -, h⟩ := RepBase.bind_eq_ok h
    obtain ⟨_, -, h⟩ := RepBase.bind_eq_ok h
    obtain ⟨tab, ht, h⟩ := RepBase.bind_eq_ok h
    obtain ⟨anti, ha, h⟩ := RepBase.bind_eq_ok h
    obtain ⟨A, hA, h⟩ := RepBase.bind_eq_ok h
    cases h
    refine (packL_bd (b := rep.p - 1) (W := W) hA fun X hX => ?_).2
    obtain ⟨x, -, rfl⟩ := List.mem_map.1 hX
    split
    · exact ⟨(bd_eye d).mono (by omega), by simpa [eye] using hW⟩
    · exact hT' tab ht _ (dictGet_mem ha)
  have : (k + 1) * (W - 1) = k * (W - 1) + (W - 1) := by ring
  omega

theorem evalSame_bd (hp : 2 ≤ rep.p) (hW : 1 ≤ W) (hT' : ∀ tab, rep.table = .ok tab → TabBd (rep.p - 1) W tab) {xs : List NF} {B : PArr (Fin xs.length) d d}
    (h : evalSame tbl rep xs = .ok B) : Bd (rep.p - 1) B := by
  rw [evalSame] at h
  obtain ⟨y, hy, h⟩ := RepBase.bind_eq_ok h
  obtain ⟨hL, y1, y2⟩ := evalStart_bd hp hT' hW hy
  exact foldlM_inv _ (Bd (rep.p - 1)) _ _ _ (fun s hs k _ s' hs' => step_bd' hp hL _ hs') y2 h

/-! ### the operations -/
section ops
variable (hw : 1 ≤ w) (hp : 2 ≤ rep.p) (hb : d * W * (rep.p - 1) * (rep.p - 1) < 2 ^ (w - 1)) (hT : rep.tableW w = rep.table)
  (hT' : ∀ tab, rep.table = .ok tab → TabBd (rep.p - 1) W tab) (hW : 1 ≤ W) (c : Config S NF d)
include hw hp hb hT hT' hW

/-- An operation does the same thing with both kinds of integers and keeps the invariant. -/
def Same (b : Nat) (st : State S NF d) (x y : Except Err (State S NF d)) : Prop := StBd b st → x = y ∧ ∀ st', y = .ok st' → StBd b st'

theorem descendChunk_same (length : Nat) (hb' : d * ((length + 1) * (W - 1) + 1) * (rep.p - 1) * (rep.p - 1) < 2 ^ (w - 1)) (t : Tag) (st : State S NF d) (pairs : List (Nat × NF × NF)) :
    Same (rep.p - 1) st (descendChunkW w tbl rep c t length st pairs) (descendChunk tbl rep c t length st pairs) := by
  intro hs
  have key : ∀ b, Dict.get st.buckets t = .ok b → ∀ lefts, (pairs.mapM fun x => lookup b.images x.1) = .ok lefts → ∀ left, packL pairs.length lefts = .ok left →
      ∀ rights, evalPrefixes tbl rep (pairs.map fun x => x.2.2) = .ok rights → 0 < pairs.length ∧ Bd (rep.p - 1) left ∧
      ∀ i < length, ∀ right, lookup rights (i + 1) = .ok right →
        Bd (rep.p - 1) (right.map fun (S : Fin (pairs.map fun x => x.2.2).length → _) (j : Fin pairs.length) => S (Fin.cast (by simp) j)) ∧
        (right.map fun (S : Fin (pairs.map fun x => x.2.2).length → _) (j : Fin pairs.length) => S (Fin.cast (by simp) j)).length ≤ (length + 1) * (W - 1) + 1 := by
    intro b hb1 lefts hl left hleft rights hr
    have hg : Dict.get? st.buckets t = some b := by
      rw [Dict.get] at hb1
      split at hb1
      · next e => cases hb1; exact e
      · cases hb1
    obtain ⟨e1, e2⟩ := evalPrefixes_bd hp hW hT' hr
    refine ⟨by simpa using e1, ?_, fun i hi right hri => ?_⟩
    · refine (packL_bd (b := rep.p - 1) (W := (lefts.map List.length).foldl max 0) hleft fun X hX => ⟨?_, (RepBase.le_foldl_max _ 0).2 _ (List.mem_map_of_mem hX)⟩).1
      obtain ⟨x, -, hx⟩ := mapM_mem_ok hl X hX
      exact ((hs t b hg).2 X (RepBase.lookup_mem hx)).1
    · rw [lookup_ok] at hri
      obtain ⟨r1, r2⟩ := e2 (i + 1) right hri
      refine ⟨?_, ?_⟩
      · intro S hS a k l
        obtain ⟨S', hS', rfl⟩ := List.mem_map.1 hS
        exact r1 S' hS' _ k l
      · rw [List.length_map]
        refine r2.trans ?_
        gcongr
        omega
  have key2 : ∀ b, Dict.get st.buckets t = .ok b → ∀ lefts, (pairs.mapM fun x => lookup b.images x.1) = .ok lefts → ∀ left, packL pairs.length lefts = .ok left →
      ∀ rights, evalPrefixes tbl rep (pairs.map fun x => x.2.2) = .ok rights → ∀ i < length, ∀ right, lookup rights (i + 1) = .ok right →
        polymatMulW w rep.p (fun i : Fin pairs.length => i) (fun i => i) left (right.map fun (S : Fin (pairs.map fun x => x.2.2).length → _) j => S (Fin.cast (by simp) j)) =
          rep.mulL left (right.map fun (S : Fin (pairs.map fun x => x.2.2).length → _) j => S (Fin.cast (by simp) j)) ∧
        ∀ C, rep.mulL left (right.map fun (S : Fin (pairs.map fun x => x.2.2).length → _) j => S (Fin.cast (by simp) j)) = .ok C → Bd (rep.p - 1) C := by
    intro b h1 lefts h2 left h3 rights h4 i hi right h5
    obtain ⟨k1, k2, k3⟩ := key b h1 lefts h2 left h3 rights h4
    obtain ⟨k4, k5⟩ := k3 i hi right h5
    haveI : Nonempty (Fin pairs.length) := ⟨⟨0, k1⟩⟩
    exact polymatMulW_mod hw (by omega) k2 k4 k5 hb'
  constructor
  · rw [descendChunkW, descendChunk, evalPrefixesW_eq hw hp hb hT hT' hW]
    refine bind_congr_ok fun b h1 => bind_congr_ok fun lefts h2 => bind_congr_ok fun left h3 => bind_congr_ok fun rights h4 => ?_
    refine foldlM_congr _ _ (fun _ => True) _ (fun s _ i hi => ⟨?_, fun _ _ => trivial⟩) st trivial
    refine bind_congr_ok fun right h5 => ?_
    rw [(key2 b h1 lefts h2 left h3 rights h4 i (List.mem_range.1 hi) right h5).1]
  · intro st' h
    rw [descendChunk] at h
    obtain ⟨b, h1, h⟩ := RepBase.bind_eq_ok h
    obtain ⟨lefts, h2, h⟩ := RepBase.bind_eq_ok h
    obtain ⟨left, h3, h⟩ := RepBase.bind_eq_ok h
    obtain ⟨rights, h4, h⟩ := RepBase.bind_eq_ok h
    refine foldlM_inv _ (StBd (rep.p - 1)) _ _ _ (fun s hs i hi s' hs' => ?_) hs h
    obtain ⟨right, h5, hs'⟩ := RepBase.bind_eq_ok hs'
    obtain ⟨images, h6, hs'⟩ := RepBase.bind_eq_ok hs'
    obtain ⟨prods, -, hs'⟩ := RepBase.bind_eq_ok hs'
    exact add_bd c hs' hs ((key2 b h1 lefts h2 left h3 rights h4 i (List.mem_range.1 hi) right h5).2 _ h6)

theorem descendants_same (length : Nat) (hb' : d * ((length + 1) * (W - 1) + 1) * (rep.p - 1) * (rep.p - 1) < 2 ^ (w - 1)) (t : Tag) (st : State S NF d) :
    Same (rep.p - 1) st (nfDescendantsW w tbl rep c st t length) (nfDescendants tbl rep c st t length) := by
  intro hs
  have key := descendChunk_same (tbl := tbl) hw hp hb hT hT' hW c length hb' t
  constructor
  · rw [nfDescendantsW, nfDescendants]
    refine bind_congr_ok fun b _ => bind_congr_ok fun all _ => bind_congr_ok fun chunks _ => ?_
    exact foldlM_congr _ _ (StBd (rep.p - 1)) _ (fun s hs x _ => key s x hs) st hs
  · intro st' h
    rw [nfDescendants] at h
    obtain ⟨b, -, h⟩ := RepBase.bind_eq_ok h
    obtain ⟨all, -, h⟩ := RepBase.bind_eq_ok h
    obtain ⟨chunks, -, h⟩ := RepBase.bind_eq_ok h
    exact foldlM_inv _ (StBd (rep.p - 1)) _ _ _ (fun s hs x _ => (key s x hs).2) hs h

theorem bootstrap_same (upto : Nat) (st : State S NF d) :
    Same (rep.p - 1) st (bootstrapExhaustiveW w tbl rep c st upto) (bootstrapExhaustive tbl rep c st upto) := by
  intro hs
  have e : bootstrapExhaustiveW w tbl rep c st upto = bootstrapExhaustive tbl rep c st upto := by
    rw [bootstrapExhaustiveW, bootstrapExhaustive]
    simp only [evalSameW_eq hw hp hb hT hT' hW]
  refine ⟨e, fun st' h => ?_⟩
  rw [bootstrapExhaustive] at h
  refine foldlM_inv _ (StBd (rep.p - 1)) _ _ _ (fun s hs k _ s' hs' => ?_) hs h
  obtain ⟨all, -, hs'⟩ := RepBase.bind_eq_ok hs'
  obtain ⟨chunks, -, hs'⟩ := RepBase.bind_eq_ok hs'
  refine foldlM_inv _ (StBd (rep.p - 1)) _ _ _ (fun s hs xs _ s' hs' => ?_) hs hs'
  obtain ⟨A, hA, hs'⟩ := RepBase.bind_eq_ok hs'
  exact add_bd c hs' hs (evalSame_bd hp hW hT' hA)

theorem substrings_same (t : Tag) (st : State S NF d) : Same (rep.p - 1) st (substringsW w tbl rep c st t) (substrings tbl rep c st t) := by
  intro hs
  have e : substringsW w tbl rep c st t = substrings tbl rep c st t := by
    rw [substringsW, substrings]
    cases Dict.get? st.buckets t with
    | none => rfl
    | some b => simp only [evalPrefixesW_eq hw hp hb hT hT' hW]
  refine ⟨e, fun st' h => ?_⟩
  rw [substrings] at h
  cases hg : Dict.get? st.buckets t with
  | none => rw [hg] at h; cases h
  | some b =>
  rw [hg] at h
  dsimp only [bind, Except.bind] at h
  obtain ⟨x0, -, h⟩ := RepBase.bind_eq_ok h
  refine foldlM_inv _ (StBd (rep.p - 1)) _ _ _ (fun s hs k _ s' hs' => ?_) hs h
  obtain ⟨b, -, hs'⟩ := RepBase.bind_eq_ok hs'
  obtain ⟨subs, -, hs'⟩ := RepBase.bind_eq_ok hs'
  obtain ⟨images, hi, hs'⟩ := RepBase.bind_eq_ok hs'
  refine foldlM_inv _ (StBd (rep.p - 1)) _ _ _ (fun s hs xs _ s' hs' => ?_) hs hs'
  obtain ⟨_, -, hs'⟩ := RepBase.bind_eq_ok hs'
  obtain ⟨_, -, hs'⟩ := RepBase.bind_eq_ok hs'
  obtain ⟨A, hA, hs'⟩ := RepBase.bind_eq_ok hs'
  obtain ⟨_, -, hs'⟩ := RepBase.bind_eq_ok hs'
  rw [lookup_ok] at hA
  exact add_bd c hs' hs ((evalPrefixes_bd hp hW hT' hi).2 _ _ hA).1

omit hb hT hT' hW in
theorem product_same (t u : Tag) (st : State S NF d) 
    (hb' : d * u.2.toNat * (rep.p - 1) * (rep.p - 1) < 2 ^ (w - 1)) :
    Same (rep.p - 1) st (bucketProductW w tbl rep c st t u) (bucketProduct tbl rep c st t u) := by
  intro hs
  have hbb : ∀ (t : Tag) x, bucketBraidsImages st t = .ok x → ∃ b, Dict.get? st.buckets t = some b ∧ ∀ im ∈ x.2, im ∈ b.images := by
    intro t x hx
    rw [bucketBraidsImages] at hx
    split at hx
    · cases hx
    · next b e => cases hx; exact ⟨b, e, fun im h => List.mem_of_mem_take h⟩
  have hst : ∀ (W : Nat) (l : List (Img d)), (∀ im ∈ l, Bd (rep.p - 1) im) → Bd (rep.p - 1) (stackImgs W l) := by
    intro W l hl S hS a i j
    obtain ⟨k, -, rfl⟩ := List.mem_map.1 hS
    exact (hl l[a] (List.getElem_mem _)).slice k () i j
  have key : ∀ x, bucketBraidsImages st t = .ok x → ∀ y, bucketBraidsImages st u = .ok y →
      Bd (rep.p - 1) (stackImgs ((x.2.map List.length).foldl max 0) x.2) ∧ Bd (rep.p - 1) (stackImgs ((y.2.map List.length).foldl max 0) y.2) ∧
      (stackImgs ((y.2.map List.length).foldl max 0) y.2).length ≤ u.2.toNat := by
    intro x hx y hy
    obtain ⟨b, b1, b2⟩ := hbb t x hx
    obtain ⟨b', b1', b2'⟩ := hbb u y hy
    refine ⟨hst _ _ fun im h => ((hs t b b1).2 im (b2 im h)).1, hst _ _ fun im h => ((hs u b' b1').2 im (b2' im h)).1, ?_⟩
    rw [stackImgs, List.length_map, List.length_range]
    have : ∀ (l : List Nat) (a : Nat), a ≤ u.2.toNat → (∀ k ∈ l, k ≤ u.2.toNat) → l.foldl max a ≤ u.2.toNat := by
      intro l
      induction l with
      | nil => intro a h _; exact h
      | cons k l ih => intro a h hk; exact ih _ (max_le h (hk k (by simp))) fun m hm => hk m (by simp [hm])
    refine this _ 0 (Nat.zero_le _) fun k hk => ?_
    obtain ⟨im, him, rfl⟩ := List.mem_map.1 hk
    have h1 := ((hs u b' b1').2 im (b2' im him)).2
    have h2 := (hs u b' b1').1
    omega
  constructor
  · rw [bucketProductW, bucketProduct]
    refine bind_congr_ok fun x hx => bind_congr_ok fun y hy => bind_congr_ok fun prods _ => ?_
    obtain ⟨k1, k2, k3⟩ := key x hx y hy
    dsimp only
    rw [(mulW_of_fits hw rep.p fun e g i k => fits_of_abs (mulSlice_abs k1 k2 e g i k) (lt_of_le_of_lt (by gcongr) hb')).2]
  · intro st' h
    rw [bucketProduct] at h
    obtain ⟨x, hx, h⟩ := RepBase.bind_eq_ok h
    obtain ⟨y, hy, h⟩ := RepBase.bind_eq_ok h
    obtain ⟨prods, -, h⟩ := RepBase.bind_eq_ok h
    obtain ⟨images, hi, h⟩ := RepBase.bind_eq_ok h
    obtain ⟨k1, k2, k3⟩ := key x hx y hy
    refine add_bd c h hs fun S hS a i j => ?_
    obtain ⟨S', hS', rfl⟩ := List.mem_map.1 hS
    haveI : Nonempty (Fin x.2.length × Fin y.2.length) := ⟨finProdFinEquiv.symm a⟩
    exact (polymatMulW_mod hw (by omega) k1 k2 k3 hb').2 _ hi S' hS' _ i j

end ops

end BraidSearch

namespace Search
open BraidSearch
variable {d : Nat} {rep : Summand d} {S : Type} {tbl : Nat → Except Err (NFTable (List Nat))} {w W : Nat}
variable (hw : 1 ≤ w) (hp : 2 ≤ rep.p) (hb : d * W * (rep.p - 1) * (rep.p - 1) < 2 ^ (w - 1)) (hT : rep.tableW w = rep.table)
  (hT' : ∀ tab, rep.table = .ok tab → TabBd (rep.p - 1) W tab) (hW : 1 ≤ W)
include hw hp hb hT hT' hW

omit hw hp hb hT hT' hW in
theorem discards_bd : ∀ (l : List Tag) {st : State S NF d}, StBd (rep.p - 1) st → StBd (rep.p - 1) (l.foldl discardBucket st)
  | [], _, h => h
  | t :: l, _, h => discards_bd l (discard_bd h t)

theorem round_same (c : Config S NF d) (a : Args) (hb' : d * ((a.stepSize + 1) * (W - 1) + 1) * (rep.p - 1) * (rep.p - 1) < 2 ^ (w - 1)) (ord : List Row → List Row) (L : Int)
    (st : State S NF d) (hs : StBd (rep.p - 1) st) :
    roundW w tbl a rep c ord L st = round tbl a rep c ord L st ∧ ∀ r, round tbl a rep c ord L st = .ok r → StBd (rep.p - 1) r.2 := by
  have key := descendants_same (tbl := tbl) hw hp hb hT hT' hW c a.stepSize hb'
  constructor
  · rw [roundW, round]
    dsimp only
    refine bind_congr_ok fun found _ => ?_
    rw [foldlM_congr _ _ (StBd (rep.p - 1)) _ (fun s hs t _ => key t s hs) st hs]
  · intro r h
    rw [round] at h
    dsimp only at h
    obtain ⟨_, -, h⟩ := RepBase.bind_eq_ok h
    split at h
    all_goals
    obtain ⟨_, -, h⟩ := RepBase.bind_eq_ok h
    obtain ⟨st1, h1, h⟩ := RepBase.bind_eq_ok h
    cases h
    have hs1 : StBd (rep.p - 1) st1 := foldlM_inv _ (StBd (rep.p - 1)) _ _ _ (fun s hs t _ => (key t s hs).2) hs h1
    exact discards_bd _ hs1

theorem loop_same (c : Config S NF d) (a : Args) (hb' : d * ((a.stepSize + 1) * (W - 1) + 1) * (rep.p - 1) * (rep.p - 1) < 2 ^ (w - 1)) (ord : Int → List Row → List Row) :
    ∀ (Ls : List Int) (st : State S NF d), StBd (rep.p - 1) st → loopW w tbl a rep c ord Ls st = loop tbl a rep c ord Ls st
  | [], st, _ => rfl
  | L :: Ls, st, hs => by
    obtain ⟨r1, r2⟩ := round_same (tbl := tbl) hw hp hb hT hT' hW c a hb' (ord L) L st hs
    rw [loopW, loop, r1]
    refine bind_congr_ok fun r hr => ?_
    split
    · rfl
    · rw [loop_same c a hb' ord Ls r.2 (r2 r hr)]

theorem main_same (a : Args) (hb' : d * ((a.stepSize + 1) * (W - 1) + 1) * (rep.p - 1) * (rep.p - 1) < 2 ^ (w - 1)) (size : Nat) (rank : (Fin d → Fin d → ℤ) → Nat) (g : Rng S) (seed : S)
    (ord : Int → List Row → List Row) : mainW w tbl a rep size rank g seed ord = main tbl a rep size rank g seed ord := by
  rw [mainW, main]
  obtain ⟨b1, b2⟩ := bootstrap_same (tbl := tbl) hw hp hb hT hT' hW
    { size := size, length := NF.canonicalLength, criterion := fun _ rows i => decide (1 ≤ (rows i).length), rank := rank, rand := some g } a.bootstrapLength ⟨[], [], seed⟩
    (fun t B h => by simp [Dict.get?] at h)
  rw [b1]
  exact bind_congr_ok fun st hst => loop_same hw hp hb hT hT' hW _ a hb' ord _ st (b2 st hst)

end Search
end Peyl
