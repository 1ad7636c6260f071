import Verif.Spec.Heap
import Verif.Lemmas.Bucketing
/-!
# Lemmas: computations with a heap simulate computations with values
-/
namespace Peyl
open Polymat

instance {W : Type} : LawfulMonad (Eff W) := LawfulMonad.mk'
  (id_map := by
    intro α x; funext w
    show (match x w with | (.ok a, w') => (Except.ok a, w') | (.error e, w') => (Except.error e, w')) = x w
    rcases h : x w with ⟨_ | _, _⟩ <;> rfl)
  (pure_bind := fun _ _ => rfl)
  (bind_assoc := by
    intro α β γ x f g; funext w
    show (match (match x w with | (.ok a, w') => f a w' | (.error e, w') => (Except.error e, w')) with
      | (.ok a, w') => g a w' | (.error e, w') => (Except.error e, w')) = (match x w with | (.ok a, w') => (f a >>= g) w' | (.error e, w') => (Except.error e, w'))
    rcases h : x w with ⟨_ | _, _⟩ <;> rfl)

/-- Started in `w`, the computation `m` does what the computation `p` with values does, up to the relation `R`. -/
def Sim {W α β : Type} (Good : W → Prop) (Ext : W → W → Prop) (w : W) (m : Eff W α) (p : Except Err β) (R : W → α → β → Prop) : Prop :=
  Good (m w).2 ∧ Ext w (m w).2 ∧ match (m w).1, p with
    | .ok a, .ok b => R (m w).2 a b
    | .error e, .error e' => e = e'
    | _, _ => False

/-- `Ext` is a preorder. -/
structure Preord {W : Type} (Ext : W → W → Prop) : Prop where
  refl : ∀ w, Ext w w
  trans : ∀ u v w, Ext u v → Ext v w → Ext u w

section sim
variable {W α β γ δ : Type} {Good : W → Prop} {Ext : W → W → Prop}

theorem Sim.bind (P : Preord Ext) {w : W} {m : Eff W α} {p : Except Err β} {R : W → α → β → Prop} {k : α → Eff W γ} {q : β → Except Err δ} {R' : W → γ → δ → Prop}
    (h : Sim Good Ext w m p R) (hk : ∀ w' a b, Good w' → Ext w w' → R w' a b → Sim Good Ext w' (k a) (q b) R') : Sim Good Ext w (m >>= k) (p >>= q) R' := by
  have e : (m >>= k) w = match m w with | (.ok a, w') => k a w' | (.error e, w') => (.error e, w') := rfl
  unfold Sim at h ⊢
  rw [e]
  rcases hm : m w with ⟨r, w'⟩
  rw [hm] at h
  obtain ⟨h1, h2, h3⟩ := h
  cases r with
  | error e1 =>
    cases p with
    | error e2 => exact ⟨h1, h2, h3⟩
    | ok b => exact h3.elim
  | ok a =>
    cases p with
    | error e2 => exact h3.elim
    | ok b =>
      obtain ⟨g1, g2, g3⟩ := hk w' a b h1 h2 h3
      exact ⟨g1, P.trans _ _ _ h2 g2, g3⟩

theorem Sim.lift (P : Preord Ext) {w : W} (hg : Good w) (x : Except Err α) : Sim Good Ext w (Eff.lift x) x (fun _ a b => a = b) := by
  refine ⟨hg, P.refl w, ?_⟩
  cases x <;> simp [Eff.lift]

theorem Sim.congr {w : W} {m m' : Eff W α} {p : Except Err β} {R : W → α → β → Prop} (e : m w = m' w) (h : Sim Good Ext w m' p R) : Sim Good Ext w m p R := by
  unfold Sim
  rw [e]
  exact h

theorem Sim.mono {w : W} {m : Eff W α} {p : Except Err β} {R R' : W → α → β → Prop} (h : Sim Good Ext w m p R) (hR : ∀ w' a b, R w' a b → R' w' a b) : Sim Good Ext w m p R' := by
  obtain ⟨h1, h2, h3⟩ := h
  refine ⟨h1, h2, ?_⟩
  revert h3
  cases (m w).1 <;> cases p <;> simp
  exact hR _ _ _

theorem Sim.mapM (P : Preord Ext) {ι : Type} {f : ι → Eff W α} {g : ι → Except Err β} {R : W → α → β → Prop} (hst : ∀ w w' a b, Ext w w' → R w a b → R w' a b) :
    ∀ (l : List ι) (_ : ∀ x ∈ l, ∀ w, Good w → Sim Good Ext w (f x) (g x) R) (w : W), Good w → Sim Good Ext w (l.mapM f) (l.mapM g) (fun w as bs => List.Forall₂ (R w) as bs)
  | [], _, w, hg => ⟨hg, P.refl w, List.Forall₂.nil⟩
  | x :: l, h, w, hg => by
    rw [List.mapM_cons, List.mapM_cons]
    refine Sim.bind P (h x List.mem_cons_self w hg) fun w1 a b hg1 hE1 hR1 => ?_
    refine Sim.bind P (Sim.mapM P hst l (fun y hy => h y (List.mem_cons_of_mem _ hy)) w1 hg1) fun w2 as bs hg2 hE2 hR2 => ?_
    exact ⟨hg2, P.refl _, List.Forall₂.cons (hst _ _ _ _ hE2 hR1) hR2⟩

theorem Sim.foldlM (P : Preord Ext) {ι : Type} {f : α → ι → Eff W α} {g : α → ι → Except Err α} :
    ∀ (l : List ι) (_ : ∀ x ∈ l, ∀ s w, Good w → Sim Good Ext w (f s x) (g s x) (fun _ a b => a = b)) (s : α) (w : W), Good w →
      Sim Good Ext w (l.foldlM f s) (l.foldlM g s) (fun _ a b => a = b)
  | [], _, s, w, hg => ⟨hg, P.refl w, rfl⟩
  | x :: l, h, s, w, hg => by
    rw [List.foldlM_cons, List.foldlM_cons]
    refine Sim.bind P (h x List.mem_cons_self s w hg) fun w1 a b hg1 hE1 hR1 => ?_
    subst hR1
    exact Sim.foldlM P l (fun y hy => h y (List.mem_cons_of_mem _ hy)) a w1 hg1

theorem Sim.mapM' (P : Preord Ext) {ι : Type} {f : ι → Eff W α} {g : ι → Except Err β} {R : W → α → β → Prop} (hst : ∀ w w' a b, Ext w w' → R w a b → R w' a b) (w₀ : W) :
    ∀ (l : List ι) (_ : ∀ x ∈ l, ∀ w, Good w → Ext w₀ w → Sim Good Ext w (f x) (g x) R) (w : W), Good w → Ext w₀ w →
      Sim Good Ext w (l.mapM f) (l.mapM g) (fun w as bs => List.Forall₂ (R w) as bs)
  | [], _, w, hg, _ => ⟨hg, P.refl w, List.Forall₂.nil⟩
  | x :: l, h, w, hg, hE => by
    rw [List.mapM_cons, List.mapM_cons]
    refine Sim.bind P (h x List.mem_cons_self w hg hE) fun w1 a b hg1 hE1 hR1 => ?_
    refine Sim.bind P (Sim.mapM' P hst w₀ l (fun y hy => h y (List.mem_cons_of_mem _ hy)) w1 hg1 (P.trans _ _ _ hE hE1)) fun w2 as bs hg2 hE2 hR2 => ?_
    exact ⟨hg2, P.refl _, List.Forall₂.cons (hst _ _ _ _ hE2 hR1) hR2⟩

theorem Sim.foldlM' (P : Preord Ext) {ι : Type} {f : α → ι → Eff W α} {g : α → ι → Except Err α} (w₀ : W) :
    ∀ (l : List ι) (_ : ∀ x ∈ l, ∀ s w, Good w → Ext w₀ w → Sim Good Ext w (f s x) (g s x) (fun _ a b => a = b)) (s : α) (w : W), Good w → Ext w₀ w →
      Sim Good Ext w (l.foldlM f s) (l.foldlM g s) (fun _ a b => a = b)
  | [], _, s, w, hg, _ => ⟨hg, P.refl w, rfl⟩
  | x :: l, h, s, w, hg, hE => by
    rw [List.foldlM_cons, List.foldlM_cons]
    refine Sim.bind P (h x List.mem_cons_self s w hg hE) fun w1 a b hg1 hE1 hR1 => ?_
    subst hR1
    exact Sim.foldlM' P w₀ l (fun y hy => h y (List.mem_cons_of_mem _ hy)) a w1 hg1 (P.trans _ _ _ hE hE1)

/-- Both return related results or raise the same exception. -/
def RelE (R : α → β → Prop) : Except Err α → Except Err β → Prop
  | .ok a, .ok b => R a b
  | .error e, .error e' => e = e'
  | _, _ => False

theorem Sim.liftRel (P : Preord Ext) {w : W} (hg : Good w) {x : Except Err α} {y : Except Err β} {R : α → β → Prop} (h : RelE R x y) :
    Sim Good Ext w (Eff.lift x) y (fun w' a b => w' = w ∧ x = .ok a ∧ y = .ok b ∧ R a b) := by
  refine ⟨hg, P.refl w, ?_⟩
  cases x <;> cases y
  · exact h
  · exact h
  · exact h
  · exact ⟨rfl, rfl, rfl, h⟩

theorem RelE.refl (x : Except Err α) : RelE (fun a b => a = b) x x := by cases x <;> rfl

theorem RelE.bind {R : α → β → Prop} {R' : γ → δ → Prop} {x : Except Err α} {y : Except Err β} {f : α → Except Err γ} {g : β → Except Err δ} (h : RelE R x y)
    (hf : ∀ a b, R a b → RelE R' (f a) (g b)) : RelE R' (x >>= f) (y >>= g) := by
  cases x <;> cases y
  · exact h
  · exact h.elim
  · exact h.elim
  · exact hf _ _ h

theorem RelE.mapM {ι κ : Type} {Q : ι → κ → Prop} {R : α → β → Prop} {f : ι → Except Err α} {g : κ → Except Err β} (h : ∀ x y, Q x y → RelE R (f x) (g y)) :
    ∀ {l : List ι} {m : List κ}, List.Forall₂ Q l m → RelE (fun as bs => List.Forall₂ R as bs) (l.mapM f) (m.mapM g)
  | _, _, .nil => List.Forall₂.nil
  | _, _, .cons hx hl => by
    rw [List.mapM_cons, List.mapM_cons]
    refine RelE.bind (h _ _ hx) fun a b hR => RelE.bind (RelE.mapM h hl) fun as bs hRs => ?_
    exact List.Forall₂.cons hR hRs

theorem RelE.mapM_same {ι : Type} {R : α → β → Prop} {f : ι → Except Err α} {g : ι → Except Err β} (l : List ι) (h : ∀ x, RelE R (f x) (g x)) :
    RelE (fun as bs => List.Forall₂ R as bs) (l.mapM f) (l.mapM g) :=
  RelE.mapM (Q := Eq) (fun x y e => e ▸ h x) (List.forall₂_same.2 fun _ _ => rfl)
end sim

namespace RepBase
namespace Mem
variable {d : Nat} {T : Cls → Type} {rep : RepBase d} {tbl : (c : Cls) → Nat → Except Err (NFTable (T c))}

/-- The address is in one of the caches. -/
def Cached (w : World d) (a : Nat) : Prop :=
  (∃ ck, Dict.get? w.factor ck = some a) ∨ (∃ ck, Dict.get? w.delta ck = some a) ∨ ∃ ab, w.gens = some ab ∧ (a = ab.1 ∨ a = ab.2)

/-- The caches hold what they should. -/
structure Good (rep : RepBase d) (tbl : (c : Cls) → Nat → Except Err (NFTable (T c))) (w : World d) : Prop where
  factor : ∀ c k a, Dict.get? w.factor (c, k) = some a → ∃ A, rep.factorImage (tbl c) k = .ok A ∧ w.heap[a]? = some (.img A)
  delta : ∀ c k a, Dict.get? w.delta (c, k) = some a → ∃ A, rep.deltaImage (tbl c) k = .ok A ∧ w.heap[a]? = some (.img A)
  gens : ∀ ab, w.gens = some ab → ∃ A B, rep.polymatGens rep.gens = .ok A ∧ rep.polymatGens rep.invs = .ok B ∧
    w.heap[ab.1]? = some (.batch _ A) ∧ w.heap[ab.2]? = some (.batch _ B)

/-- Arrays are only added, and only new ones are put into caches. -/
structure Ext (w w' : World d) : Prop where
  heap : w.heap <+: w'.heap
  cached : ∀ a, Cached w' a → Cached w a ∨ w.heap.length ≤ a

theorem Ext.get {w w' : World d} (h : Ext w w') {a : Nat} {A : Arr d} (ha : w.heap[a]? = some A) : w'.heap[a]? = some A := by
  obtain ⟨t, ht⟩ := h.heap
  rw [← ht, List.getElem?_append_left (List.getElem?_eq_some_iff.1 ha).1, ha]

theorem preord : Preord (Ext (d := d)) where
  refl w := ⟨List.prefix_refl _, fun a h => .inl h⟩
  trans u v w h1 h2 := ⟨h1.heap.trans h2.heap, fun a h => by
    rcases h2.cached a h with h | h
    · exact h1.cached a h
    · exact .inr (h1.heap.length_le.trans h)⟩

theorem cached_lt {w : World d} (hg : Good rep tbl w) {a : Nat} (h : Cached w a) : a < w.heap.length := by
  rcases h with ⟨ck, h⟩ | ⟨ck, h⟩ | ⟨ab, h, h'⟩
  · obtain ⟨A, _, hA⟩ := hg.factor ck.1 ck.2 a h
    exact (List.getElem?_eq_some_iff.1 hA).1
  · obtain ⟨A, _, hA⟩ := hg.delta ck.1 ck.2 a h
    exact (List.getElem?_eq_some_iff.1 hA).1
  · obtain ⟨A, B, _, _, hA, hB⟩ := hg.gens ab h
    rcases h' with rfl | rfl
    · exact (List.getElem?_eq_some_iff.1 hA).1
    · exact (List.getElem?_eq_some_iff.1 hB).1

abbrev SimR (rep : RepBase d) (tbl : (c : Cls) → Nat → Except Err (NFTable (T c))) {α β : Type} := Sim (α := α) (β := β) (Good rep tbl) Ext

/-- An address with the given content. -/
def Holds (w : World d) (a : Nat) (A : Img d) : Prop := w.heap[a]? = some (.img A)

theorem Holds.ext (w w' : World d) (a : Nat) (A : Img d) (h : Ext w w') (ha : Holds w a A) : Holds w' a A := h.get ha

theorem sim_readImg {w : World d} (hg : Good rep tbl w) {a : Nat} {A : Img d} (h : Holds w a A) : SimR rep tbl w (readImg a) (.ok A) (fun _ a b => a = b) := by
  have e : readImg a w = (.ok A, w) := by simp only [readImg, show w.heap[a]? = _ from h]
  unfold SimR Sim
  rw [e]
  exact ⟨hg, preord.refl w, rfl⟩

theorem mapM_read {w : World d} : ∀ {as : List Nat} {bs : List (Img d)}, List.Forall₂ (Holds w) as bs → (as.mapM readImg : Eff (World d) _) w = (.ok bs, w)
  | _, _, .nil => rfl
  | _, _, .cons (a := a) (b := b) h hs => by
    rw [List.mapM_cons]
    have e : (readImg a : Eff (World d) (Img d)) w = (.ok b, w) := by simp only [readImg, show w.heap[a]? = _ from h]
    have e2 := mapM_read hs
    simp only [bind, e, e2]
    rfl

theorem packAt_eq {w : World d} {L : Nat} {as : List Nat} {bs : List (Img d)} (h : List.Forall₂ (Holds w) as bs) : packAt L as w = (packN L bs, w) := by
  unfold packAt
  simp only [bind, mapM_read h]
  rfl

theorem sim_packAt {w : World d} (hg : Good rep tbl w) {L : Nat} {as : List Nat} {bs : List (Img d)} (h : List.Forall₂ (Holds w) as bs) :
    SimR rep tbl w (packAt L as) (packN L bs) (fun _ a b => a = b) := by
  unfold SimR Sim
  rw [packAt_eq h]
  refine ⟨hg, preord.refl w, ?_⟩
  cases packN L bs <;> simp

theorem append_ext {w : World d} (l : List (Arr d)) {f g : List ((Cls × Nat) × Nat)} {o : Option (Nat × Nat)}
    (hc : ∀ a, Cached ⟨w.heap ++ l, f, g, o⟩ a → Cached w a ∨ w.heap.length ≤ a) : Ext w ⟨w.heap ++ l, f, g, o⟩ := ⟨List.prefix_append _ _, hc⟩

theorem get_append {w : World d} {l : List (Arr d)} {a : Nat} {A : Arr d} (h : w.heap[a]? = some A) : (w.heap ++ l)[a]? = some A := by
  rw [List.getElem?_append_left (List.getElem?_eq_some_iff.1 h).1, h]

theorem sim_braidFactor {w : World d} (hg : Good rep tbl w) (c : Cls) (k : Nat) :
    SimR rep tbl w (braidFactor rep tbl c k) (rep.factorImage (tbl c) k) Holds := by
  unfold SimR Sim braidFactor
  cases hc : Dict.get? w.factor (c, k) with
  | some a =>
    obtain ⟨A, hA, hh⟩ := hg.factor c k a hc
    simp only [hA]
    exact ⟨hg, preord.refl w, hh⟩
  | none =>
    cases hA : rep.factorImage (tbl c) k with
    | error e => exact ⟨hg, preord.refl w, rfl⟩
    | ok A =>
      refine ⟨⟨fun c' k' a h => ?_, fun c' k' a h => ?_, fun ab h => ?_⟩, append_ext _ fun a h => ?_, ?_⟩
      · simp only at h
        rw [Dict.get?_set] at h
        split at h
        · next e =>
          cases h
          cases e
          exact ⟨A, hA, by simp⟩
        · obtain ⟨B, hB, hh⟩ := hg.factor c' k' a h
          exact ⟨B, hB, get_append hh⟩
      · obtain ⟨B, hB, hh⟩ := hg.delta c' k' a h
        exact ⟨B, hB, get_append hh⟩
      · obtain ⟨B, C, hB, hC, h1, h2⟩ := hg.gens ab h
        exact ⟨B, C, hB, hC, get_append h1, get_append h2⟩
      · rcases h with ⟨ck, h⟩ | h | h
        · simp only at h
          rw [Dict.get?_set] at h
          split at h
          · cases h; exact .inr le_rfl
          · exact .inl (.inl ⟨ck, h⟩)
        · exact .inl (.inr (.inl h))
        · exact .inl (.inr (.inr h))
      · show (w.heap ++ [Arr.img A])[w.heap.length]? = _
        simp

theorem sim_deltaPower {w : World d} (hg : Good rep tbl w) (c : Cls) (k : Nat) :
    SimR rep tbl w (deltaPower rep tbl c k) (rep.deltaImage (tbl c) k) Holds := by
  unfold SimR Sim deltaPower
  cases hc : Dict.get? w.delta (c, k) with
  | some a =>
    obtain ⟨A, hA, hh⟩ := hg.delta c k a hc
    simp only [hA]
    exact ⟨hg, preord.refl w, hh⟩
  | none =>
    cases hA : rep.deltaImage (tbl c) k with
    | error e => exact ⟨hg, preord.refl w, rfl⟩
    | ok A =>
      refine ⟨⟨fun c' k' a h => ?_, fun c' k' a h => ?_, fun ab h => ?_⟩, append_ext _ fun a h => ?_, ?_⟩
      · obtain ⟨B, hB, hh⟩ := hg.factor c' k' a h
        exact ⟨B, hB, get_append hh⟩
      · simp only at h
        rw [Dict.get?_set] at h
        split at h
        · next e =>
          cases h
          cases e
          exact ⟨A, hA, by simp⟩
        · obtain ⟨B, hB, hh⟩ := hg.delta c' k' a h
          exact ⟨B, hB, get_append hh⟩
      · obtain ⟨B, C, hB, hC, h1, h2⟩ := hg.gens ab h
        exact ⟨B, C, hB, hC, get_append h1, get_append h2⟩
      · rcases h with h | ⟨ck, h⟩ | h
        · exact .inl (.inl h)
        · simp only at h
          rw [Dict.get?_set] at h
          split at h
          · cases h; exact .inr le_rfl
          · exact .inl (.inr (.inl ⟨ck, h⟩))
        · exact .inl (.inr (.inr h))
      · show (w.heap ++ [Arr.img A])[w.heap.length]? = _
        simp

/-- The value of `polymat_artin_gens_invs()`. -/
def gensValue (rep : RepBase d) : Except Err (PArr (Fin rep.gens.length) d d × PArr (Fin rep.invs.length) d d) := do
  let A ← rep.polymatGens rep.gens
  let B ← rep.polymatGens rep.invs
  .ok (A, B)

theorem sim_gens {w : World d} (hg : Good rep tbl w) :
    SimR rep tbl w (artinGensInvs rep) (gensValue rep) (fun w ab AB => w.heap[ab.1]? = some (.batch _ AB.1) ∧ w.heap[ab.2]? = some (.batch _ AB.2)) := by
  unfold SimR Sim artinGensInvs gensValue
  cases hc : w.gens with
  | some ab =>
    obtain ⟨A, B, hA, hB, h1, h2⟩ := hg.gens ab hc
    simp only [hA, hB]
    exact ⟨hg, preord.refl w, h1, h2⟩
  | none =>
    cases hA : rep.polymatGens rep.gens with
    | error e => exact ⟨hg, preord.refl w, rfl⟩
    | ok A =>
      cases hB : rep.polymatGens rep.invs with
      | error e => exact ⟨hg, preord.refl w, rfl⟩
      | ok B =>
        refine ⟨⟨fun c' k' a h => ?_, fun c' k' a h => ?_, fun ab h => ?_⟩, append_ext _ fun a h => ?_, ?_⟩
        · obtain ⟨B, hB, hh⟩ := hg.factor c' k' a h
          exact ⟨B, hB, get_append hh⟩
        · obtain ⟨B, hB, hh⟩ := hg.delta c' k' a h
          exact ⟨B, hB, get_append hh⟩
        · cases h
          exact ⟨A, B, hA, hB, by simp, by simp⟩
        · rcases h with h | h | ⟨ab, h, h'⟩
          · exact .inl (.inl h)
          · exact .inl (.inr (.inl h))
          · cases h
            right
            rcases h' with rfl | rfl <;> simp
        · show (w.heap ++ [_, _])[w.heap.length]? = _ ∧ (w.heap ++ [_, _])[w.heap.length + 1]? = _
          constructor <;> simp

theorem sim_evalStep {w : World d} (hg : Good rep tbl w) (c : Cls) (L : Nat) (factors : List (List Nat)) (A : PArr (Fin L) d d) (i : Nat) :
    SimR rep tbl w (evalStep rep tbl c L factors A i) (rep.evalStep (tbl c) L factors A i) (fun _ a b => a = b) := by
  unfold evalStep RepBase.evalStep
  refine Sim.bind preord (Sim.mapM preord Holds.ext factors (fun fs _ w hg => ?_) w hg) fun w1 as bs hg1 hE1 hR1 => ?_
  · refine Sim.bind preord (Sim.lift preord hg _) fun w1 a b hg1 _ e => ?_
    subst e
    exact sim_braidFactor hg1 c a
  · refine Sim.bind preord (sim_packAt hg1 hR1) fun w2 a b hg2 _ e => ?_
    subst e
    exact Sim.lift preord hg2 _

theorem sim_evalSame {w : World d} (hg : Good rep tbl w) (c : Cls) (xs : List NF) :
    SimR rep tbl w (evalSameContent rep tbl c xs) (rep.evalSame (tbl c) xs) (fun _ a b => a = b) := by
  unfold evalSameContent RepBase.evalSame
  refine Sim.bind preord (Sim.lift preord hg _) fun w1 x0 x0' hg1 _ e => ?_
  subst e
  refine Sim.bind preord (Sim.lift preord hg1 _) fun w1 _ _ hg1 _ _ => ?_
  refine Sim.bind preord (Sim.lift preord hg1 _) fun w1 t t' hg1 _ e => ?_
  subst e
  refine Sim.bind preord (Sim.mapM preord Holds.ext xs (fun x _ w hg => ?_) w1 hg1) fun w1 as bs hg1 hE1 hR1 => ?_
  · refine Sim.bind preord (Sim.lift preord hg _) fun w1 a b hg1 _ e => ?_
    subst e
    exact sim_deltaPower hg1 c a
  · refine Sim.bind preord (sim_packAt hg1 hR1) fun w2 a b hg2 _ e => ?_
    subst e
    exact Sim.foldlM preord _ (fun i _ s w hg => sim_evalStep hg c _ _ s i) _ w2 hg2

theorem sim_alloc {w : World d} (hg : Good rep tbl w) (A : Arr d) : SimR rep tbl w (alloc A) (.ok A) (fun w' a B => w'.heap[a]? = some B ∧ ¬ Cached w' a) := by
  refine ⟨⟨fun c' k' a h => ?_, fun c' k' a h => ?_, fun ab h => ?_⟩, append_ext _ fun a h => .inl h, ?_, fun h => ?_⟩
  · obtain ⟨B, hB, hh⟩ := hg.factor c' k' a h
    exact ⟨B, hB, get_append hh⟩
  · obtain ⟨B, hB, hh⟩ := hg.delta c' k' a h
    exact ⟨B, hB, get_append hh⟩
  · obtain ⟨B, C, hB, hC, h1, h2⟩ := hg.gens ab h
    exact ⟨B, C, hB, hC, get_append h1, get_append h2⟩
  · show (w.heap ++ [A])[w.heap.length]? = _
    simp
  · have := cached_lt hg (show Cached w w.heap.length from h)
    omega

theorem sim_word {w : World d} (hg : Good rep tbl w) (word : List (Nat × Int)) :
    SimR rep tbl w (evalWord rep word) (do .ok (Arr.img (← rep.polymatEvaluateArtinWord word))) (fun w' a B => w'.heap[a]? = some B ∧ ¬ Cached w' a) := by
  have e : (do .ok (Arr.img (← rep.polymatEvaluateArtinWord word)) : Except Err (Arr d)) = (gensValue rep >>= fun AB => do
      let A ← word.foldlM (init := eye d) fun A ie => do
        if ie.2 ≥ 0 then
          if h : ie.1 < rep.gens.length then rep.mulTimes (imgAt AB.1 ⟨ie.1, h⟩) ie.2.natAbs A else .error .index
        else
          if h : ie.1 < rep.invs.length then rep.mulTimes (imgAt AB.2 ⟨ie.1, h⟩) ie.2.natAbs A else .error .index
      let B ← projectivise A
      .ok (Arr.img B)) := by
    unfold polymatEvaluateArtinWord gensValue
    simp only [bind_assoc]
    rfl
  rw [e]
  unfold evalWord
  refine Sim.bind preord (sim_gens hg) fun w1 ab AB hg1 hE1 ⟨h1, h2⟩ => ?_
  have r1 : (readBatch rep.gens.length ab.1 : Eff (World d) _) w1 = (.ok AB.1, w1) := by
    simp only [readBatch, h1, dif_pos, Fin.cast_eq_self, List.map_id']
  have r2 : (readBatch rep.invs.length ab.2 : Eff (World d) _) w1 = (.ok AB.2, w1) := by
    simp only [readBatch, h2, dif_pos, Fin.cast_eq_self, List.map_id']
  have r : ∀ {α : Type} (L a : Nat) (B : PArr (Fin L) d d) (k : PArr (Fin L) d d → Eff (World d) α), (readBatch L a : Eff (World d) _) w1 = (.ok B, w1) →
      (readBatch L a >>= k) w1 = k B w1 := fun L a B k h => by simp only [bind, h]
  refine Sim.congr ((r _ _ _ _ r1).trans (r _ _ _ _ r2)) ?_
  refine Sim.bind preord (Sim.lift preord hg1 _) fun w2 A A' hg2 _ e => ?_
  subst e
  refine Sim.bind preord (Sim.lift preord hg2 _) fun w2 A A' hg2 _ e => ?_
  subst e
  exact sim_alloc hg2 _

theorem sim_integers {w : World d} (hg : Good rep tbl w) (c : Cls) (seqs : List (List Nat)) :
    SimR rep tbl w (evalIntegers rep tbl c seqs) (do
      let LA ← rep.evalIntegers (tbl c) seqs
      .ok (Arr.batch LA.1 LA.2)) (fun w' a B => w'.heap[a]? = some B ∧ ¬ Cached w' a) := by
  unfold evalIntegers RepBase.evalIntegers
  simp only [bind_assoc]
  refine Sim.bind preord (Sim.lift preord hg _) fun w1 x0 x0' hg1 _ e => ?_
  subst e
  refine Sim.bind preord (Sim.lift preord hg1 _) fun w1 _ _ hg1 _ _ => ?_
  refine Sim.bind preord (Sim.lift preord hg1 _) fun w1 t t' hg1 _ e => ?_
  subst e
  refine Sim.bind preord (Sim.lift preord hg1 _) fun w1 _ _ hg1 _ _ => ?_
  refine Sim.bind preord (sim_braidFactor hg1 c t.id) fun w1 a A hg1 _ hA => ?_
  refine Sim.bind preord (sim_packAt hg1 (.cons hA .nil)) fun w1 s s' hg1 _ e => ?_
  subst e
  by_cases h0 : x0.length = 0
  · rw [if_pos h0, if_pos h0]
    exact sim_alloc hg1 _
  · rw [if_neg h0, if_neg h0, bind_assoc]
    refine Sim.bind preord (Sim.foldlM preord _ (fun i _ s w hg => sim_evalStep hg c _ _ s i) _ w1 hg1) fun w2 a b hg2 _ e => ?_
    subst e
    exact sim_alloc hg2 _

/-- The relation between the addresses that a call returns and the arrays. -/
def Returns (fresh : Prop) (w : World d) (as : List Nat) (As : List (Arr d)) : Prop :=
  List.Forall₂ (fun a A => w.heap[a]? = some A) as As ∧ (fresh → ∀ a ∈ as, ¬ Cached w a)

theorem sim_single {w : World d} {m : Eff (World d) Nat} {p : Except Err (Arr d)} {P : Prop}
    (h : SimR rep tbl w m p (fun w' a B => w'.heap[a]? = some B ∧ ¬ Cached w' a)) :
    SimR rep tbl w (do .lift (.ok [← m])) (do .ok [← p]) (Returns P) := by
  refine Sim.bind preord h fun w1 a b hg1 hE1 hR => ⟨hg1, preord.refl _, .cons hR.1 .nil, fun _ a' ha' => ?_⟩
  rw [List.mem_singleton] at ha'
  subst ha'
  exact hR.2

theorem sim_call {w : World d} (hg : Good rep tbl w) (c : Call) : SimR rep tbl w (c.exec rep tbl) (c.value rep tbl) (Returns (c ≠ .gensInvs)) := by
  cases c with
  | evalSame c xs =>
    have := sim_single (P := Call.evalSame c xs ≠ .gensInvs) (rep := rep) (tbl := tbl) (w := w) (m := evalSame rep tbl c xs) (p := do .ok (Arr.batch _ (← rep.evalSame (tbl c) xs))) (by
      refine Sim.bind preord (sim_evalSame hg c xs) fun w1 a b hg1 _ e => ?_
      subst e
      exact sim_alloc hg1 _)
    rw [bind_assoc] at this
    exact this
  | evalOne c x =>
    have := sim_single (P := Call.evalOne c x ≠ .gensInvs) (rep := rep) (tbl := tbl) (w := w) (m := evalOne rep tbl c x) (p := do .ok (Arr.img (← rep.evalOne (tbl c) x))) (by
      unfold evalOne RepBase.evalOne
      rw [bind_assoc]
      refine Sim.bind preord (sim_evalSame hg c [x]) fun w1 a b hg1 _ e => ?_
      subst e
      exact sim_alloc hg1 _)
    rw [bind_assoc] at this
    exact this
  | evalIntegers c seqs =>
    have := sim_single (P := Call.evalIntegers c seqs ≠ .gensInvs) (sim_integers hg c seqs)
    rw [bind_assoc] at this
    exact this
  | evalWord word =>
    have := sim_single (P := Call.evalWord word ≠ .gensInvs) (sim_word (tbl := tbl) hg word)
    rw [bind_assoc] at this
    exact this
  | gensInvs =>
    have e : Call.value rep tbl .gensInvs = (gensValue rep >>= fun AB => .ok [Arr.batch _ AB.1, Arr.batch _ AB.2]) := by
      unfold gensValue
      simp only [bind_assoc]
      rfl
    rw [e]
    exact Sim.bind preord (sim_gens hg) fun w1 ab AB hg1 hE1 h => ⟨hg1, preord.refl _, .cons h.1 (.cons h.2 .nil), fun h => absurd rfl h⟩
  | id => exact sim_single (sim_alloc hg _)

/-- The invariant of a program. -/
structure Inv (rep : RepBase d) (tbl : (c : Cls) → Nat → Except Err (NFTable (T c))) (es : List (Event d)) (s : Session d) : Prop where
  good : Good rep tbl s.world
  len : s.given.length = (callsOf es).length
  own : ∀ (j : Nat) (as : List Nat), s.given[j]? = some as → ∀ a ∈ as, a < s.world.heap.length ∧ ((callsOf es)[j]? ≠ some Call.gensInvs → ¬ Cached s.world a)
  seen : s.seen = (callsOf es).map (Call.value rep tbl)

theorem callsOf_append (es fs : List (Event d)) : callsOf (es ++ fs) = callsOf es ++ callsOf fs := List.filterMap_append

theorem filterMap_forall₂ {w : World d} : ∀ {as : List Nat} {As : List (Arr d)}, List.Forall₂ (fun a A => w.heap[a]? = some A) as As → as.filterMap (fun a => w.heap[a]?) = As
  | _, _, .nil => rfl
  | _, _, .cons h hs => by rw [List.filterMap_cons, h, filterMap_forall₂ hs]

theorem inv_write {es : List (Event d)} {s : Session d} (h : Inv rep tbl es s) (j i : Nat) (A : Arr d) (hj : (callsOf es)[j]? ≠ some Call.gensInvs) :
    Inv rep tbl (es ++ [.write j i A]) (s.write j i A) := by
  have e : callsOf (es ++ [Event.write j i A]) = callsOf es := by rw [callsOf_append]; exact List.append_nil _
  have e0 : s.write j i A = match s.given[j]? with
    | none => s
    | some as => match as[i]? with
      | none => s
      | some a => { s with world := { s.world with heap := s.world.heap.set a A } } := rfl
  rw [e0]
  cases h1 : s.given[j]? with
  | none => exact ⟨h.good, by rw [e]; exact h.len, by rw [e]; exact h.own, by rw [e]; exact h.seen⟩
  | some as =>
    simp only
    cases h2 : as[i]? with
    | none => exact ⟨h.good, by rw [e]; exact h.len, by rw [e]; exact h.own, by rw [e]; exact h.seen⟩
    | some a =>
      have hc := (h.own j as h1 a (List.mem_of_getElem? h2)).2 hj
      have hset : ∀ b B, Cached s.world b → s.world.heap[b]? = some B → (s.world.heap.set a A)[b]? = some B := fun b B hb hB => by
        rw [List.getElem?_set_ne (fun e : a = b => hc (e.symm ▸ hb)), hB]
      refine ⟨⟨fun c k b hb => ?_, fun c k b hb => ?_, fun ab hab => ?_⟩, by rw [e]; exact h.len, fun j' as' hj' a' ha' => ?_, by rw [e]; exact h.seen⟩
      · obtain ⟨B, hB, hh⟩ := h.good.factor c k b hb
        exact ⟨B, hB, hset _ _ (.inl ⟨_, hb⟩) hh⟩
      · obtain ⟨B, hB, hh⟩ := h.good.delta c k b hb
        exact ⟨B, hB, hset _ _ (.inr (.inl ⟨_, hb⟩)) hh⟩
      · obtain ⟨B, C, hB, hC, g1, g2⟩ := h.good.gens ab hab
        exact ⟨B, C, hB, hC, hset _ _ (.inr (.inr ⟨ab, hab, .inl rfl⟩)) g1, hset _ _ (.inr (.inr ⟨ab, hab, .inr rfl⟩)) g2⟩
      · have := h.own j' as' hj' a' ha'
        refine ⟨by rw [List.length_set]; exact this.1, fun hne => ?_⟩
        rw [e] at hne
        exact this.2 hne

theorem inv_call {es : List (Event d)} {s : Session d} (h : Inv rep tbl es s) (c : Call) : Inv rep tbl (es ++ [.call c]) (s.step rep tbl (.call c)) := by
  have e : callsOf (es ++ [Event.call c (d := d)]) = callsOf es ++ [c] := by rw [callsOf_append]; rfl
  obtain ⟨hg, hE, hr⟩ := sim_call (rep := rep) (tbl := tbl) h.good c
  simp only [Session.step]
  rcases hx : c.exec rep tbl s.world with ⟨r, w⟩
  rw [hx] at hg hE hr
  have hold : ∀ (j : Nat) (as : List Nat), s.given[j]? = some as → ∀ a ∈ as, a < w.heap.length ∧ ((callsOf es ++ [c])[j]? ≠ some Call.gensInvs → ¬ Cached w a) := fun j as hj a ha => by
    have := h.own j as hj a ha
    have hjl : j < (callsOf es).length := h.len ▸ (List.getElem?_eq_some_iff.1 hj).1
    refine ⟨lt_of_lt_of_le this.1 hE.heap.length_le, fun hne hc => ?_⟩
    rw [List.getElem?_append_left hjl] at hne
    rcases hE.cached a hc with hc | hc
    · exact this.2 hne hc
    · exact absurd this.1 (not_lt.2 hc)
  cases r with
  | error e1 =>
    cases hv : c.value rep tbl with
    | ok _ => rw [hv] at hr; exact hr.elim
    | error e2 =>
      rw [hv] at hr
      refine ⟨hg, by rw [e, List.length_append, List.length_append, h.len]; rfl, fun j as hj a ha => ?_, ?_⟩
      · rw [e]
        rw [List.getElem?_append] at hj
        split at hj
        · exact hold j as hj a ha
        · obtain ⟨_, hj⟩ := List.mem_singleton.1 (List.mem_of_getElem? hj) ▸ ha
      · rw [e, List.map_append, ← h.seen, List.map_singleton, hv, show e1 = e2 from hr]
  | ok as =>
    cases hv : c.value rep tbl with
    | error _ => rw [hv] at hr; exact hr.elim
    | ok As =>
      rw [hv] at hr
      refine ⟨hg, by rw [e, List.length_append, List.length_append, h.len]; rfl, fun j as' hj a ha => ?_, ?_⟩
      · rw [e]
        rw [List.getElem?_append] at hj
        split at hj
        · exact hold j as' hj a ha
        · next hlt =>
          have := List.mem_singleton.1 (List.mem_of_getElem? hj)
          subst this
          have hj0 : j - s.given.length = 0 := by
            have := (List.getElem?_eq_some_iff.1 hj).1
            simpa using this
          have hjj : j = (callsOf es).length := by rw [← h.len]; omega
          refine ⟨?_, fun hne => hr.2 (fun hc => hne ?_) a ha⟩
          · obtain ⟨i, hi, hi'⟩ := List.getElem_of_mem ha
            have := hr.1.get hi (hr.1.length_eq ▸ hi)
            have := (List.getElem?_eq_some_iff.1 this).1
            rw [List.get_eq_getElem, hi'] at this
            exact this
          · rw [hjj, List.getElem?_append_right le_rfl, Nat.sub_self, hc]; rfl
      · rw [e, List.map_append, ← h.seen, List.map_singleton, hv]
        show s.seen ++ [Except.ok (as.filterMap fun a => w.heap[a]?)] = _
        rw [filterMap_forall₂ (w := w) hr.1]

theorem inv_run : ∀ es : List (Event d), SparesGens es → Inv rep tbl es (Session.run rep tbl es) := by
  intro es
  induction es using List.reverseRecOn with
  | nil =>
    intro _
    exact ⟨⟨fun _ _ _ h => (by cases h), fun _ _ _ h => (by cases h), fun _ h => (by cases h)⟩, rfl, fun j as h => by simp [Session.run] at h, rfl⟩
  | append_singleton es e ih =>
    intro hs
    have hs' : SparesGens es := fun j i A hm hc => by
      refine hs j i A (List.mem_append_left _ hm) ?_
      rw [callsOf_append, List.getElem?_append_left (List.getElem?_eq_some_iff.1 hc).1, hc]
    have hi := ih hs'
    have er : Session.run rep tbl (es ++ [e]) = (Session.run rep tbl es).step rep tbl e := by
      unfold Session.run
      rw [List.foldl_append]
      rfl
    rw [er]
    cases e with
    | write j i A =>
      refine inv_write hi j i A fun hc => ?_
      refine hs j i A (List.mem_append_right _ List.mem_cons_self) ?_
      rw [callsOf_append, List.getElem?_append_left (List.getElem?_eq_some_iff.1 hc).1, hc]
    | call c => exact inv_call hi c

end Mem
end RepBase
end Peyl
