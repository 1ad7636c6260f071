import Verif.Spec.HeapSearch
import Verif.Lemmas.Heap
/-!
# Lemmas: the memory behind the evaluators of `peyl/braidsearch.py`
-/
namespace Peyl
open Polymat
namespace BraidSearch
namespace Mem
variable {d : Nat} {rep : Summand d} {tbl : Nat → Except Err (NFTable (List Nat))}

/-- The address is in one of the caches. -/
def Cached (w : World d) (a : Nat) : Prop :=
  w.id = some a ∨ (∃ as, w.gens = some as ∧ a ∈ as) ∨ ∃ tab, w.table = some tab ∧ a ∈ tab.map Prod.snd

/-- An address with the given content. -/
def Holds (w : World d) (a : Nat) (A : Img d) : Prop := w.heap[a]? = some (.img A)

/-- A row of the table with the given content. -/
def HoldsRow (w : World d) (x : List Nat × Nat) (y : List Nat × Img d) : Prop := x.1 = y.1 ∧ Holds w x.2 y.2

/-- The caches hold what they should. -/
structure Good (rep : Summand d) (w : World d) : Prop where
  id : ∀ a, w.id = some a → Holds w a (eye d)
  gens : ∀ as, w.gens = some as → List.Forall₂ (Holds w) as rep.gens
  table : ∀ tab, w.table = some tab → ∃ T, rep.table = .ok T ∧ List.Forall₂ (HoldsRow w) tab T

/-- Arrays are only added, and only new ones are put into caches. -/
structure Ext (w w' : World d) : Prop where
  heap : w.heap <+: w'.heap
  cached : ∀ a, Cached w' a → Cached w a ∨ w.heap.length ≤ a

theorem Ext.get {w w' : World d} (h : Ext w w') {a : Nat} {A : Arr d} (ha : w.heap[a]? = some A) : w'.heap[a]? = some A := by
  obtain ⟨t, ht⟩ := h.heap
  rw [← ht, List.getElem?_append_left (List.getElem?_eq_some_iff.1 ha).1, ha]

theorem preord : Preord (Ext (d := d)) where
  refl w := ⟨List.prefix_refl _, fun a h => .inl h⟩
  trans u v w h1 h2 := ⟨h1.heap.trans h2.heap, fun a h => by
    rcases h2.cached a h with h | h
    · exact h1.cached a h
    · exact .inr (h1.heap.length_le.trans h)⟩

theorem Holds.ext (w w' : World d) (a : Nat) (A : Img d) (h : Ext w w') (ha : Holds w a A) : Holds w' a A := h.get ha
theorem HoldsRow.ext (w w' : World d) (a : List Nat × Nat) (A : List Nat × Img d) (h : Ext w w') (ha : HoldsRow w a A) : HoldsRow w' a A := ⟨ha.1, h.get ha.2⟩
theorem Holds.lt {w : World d} {a : Nat} {A : Img d} (h : Holds w a A) : a < w.heap.length := (List.getElem?_eq_some_iff.1 h).1

theorem holds_all {w w' : World d} (h : Ext w w') {as : List Nat} {As : List (Img d)} (ha : List.Forall₂ (Holds w) as As) : List.Forall₂ (Holds w') as As :=
  ha.imp fun _ _ h' => h.get h'
theorem rows_all {w w' : World d} (h : Ext w w') {as : List (List Nat × Nat)} {As : List (List Nat × Img d)} (ha : List.Forall₂ (HoldsRow w) as As) : List.Forall₂ (HoldsRow w') as As :=
  ha.imp fun _ _ h' => ⟨h'.1, h.get h'.2⟩

theorem mem_forall₂ {α β : Type} {R : α → β → Prop} : ∀ {as : List α} {bs : List β}, List.Forall₂ R as bs → ∀ a ∈ as, ∃ b ∈ bs, R a b
  | _, _, .nil, a, ha => (by cases ha)
  | _, _, .cons h hs, a, ha => by
    rcases List.mem_cons.1 ha with rfl | ha
    · exact ⟨_, List.mem_cons_self, h⟩
    · obtain ⟨b, hb, hR⟩ := mem_forall₂ hs a ha
      exact ⟨b, List.mem_cons_of_mem _ hb, hR⟩

theorem forall₂_imp_mem {α β : Type} {R S : α → β → Prop} : ∀ {as : List α} {bs : List β}, List.Forall₂ R as bs → (∀ a b, a ∈ as → R a b → S a b) → List.Forall₂ S as bs
  | _, _, .nil, _ => .nil
  | _, _, .cons h hs, hi => .cons (hi _ _ List.mem_cons_self h) (forall₂_imp_mem hs fun a b ha => hi a b (List.mem_cons_of_mem _ ha))

theorem cached_lt {w : World d} (hg : Good rep w) {a : Nat} (h : Cached w a) : a < w.heap.length := by
  rcases h with h | ⟨as, h, h'⟩ | ⟨tab, h, h'⟩
  · exact (hg.id a h).lt
  · obtain ⟨A, _, hA⟩ := mem_forall₂ (hg.gens as h) a h'
    exact hA.lt
  · obtain ⟨T, _, hT⟩ := hg.table tab h
    obtain ⟨x, hx, rfl⟩ := List.mem_map.1 h'
    obtain ⟨y, _, hy⟩ := mem_forall₂ hT x hx
    exact hy.2.lt

abbrev SimS (rep : Summand d) {α β : Type} := Sim (α := α) (β := β) (Good rep) (Ext (d := d))

theorem sim_alloc {w : World d} (hg : Good rep w) (A : Arr d) : SimS rep w (alloc A) (.ok A) (fun w' a B => w'.heap[a]? = some B ∧ ¬ Cached w' a ∧ w.heap.length ≤ a) := by
  have hE : Ext w { w with heap := w.heap ++ [A] } := ⟨List.prefix_append _ _, fun a h => .inl h⟩
  refine ⟨⟨fun a h => hE.get (hg.id a h), fun as h => holds_all hE (hg.gens as h), fun tab h => ?_⟩, hE, ?_, fun h => ?_, le_rfl⟩
  · obtain ⟨T, hT, h'⟩ := hg.table tab h
    exact ⟨T, hT, rows_all hE h'⟩
  · show (w.heap ++ [A])[w.heap.length]? = _
    simp
  · have := cached_lt hg (show Cached w w.heap.length from h)
    omega

theorem sim_readImg {w : World d} (hg : Good rep w) {a : Nat} {A : Img d} (h : Holds w a A) : SimS rep w (readImg a) (.ok A) (fun w' x y => w' = w ∧ x = A ∧ y = A) := by
  have e : readImg a w = (.ok A, w) := by simp only [readImg, show w.heap[a]? = _ from h]
  unfold SimS Sim
  rw [e]
  exact ⟨hg, preord.refl w, rfl, rfl, rfl⟩

theorem read_bind {α : Type} {w : World d} {a : Nat} {A : Img d} (h : Holds w a A) (k : Img d → Eff (World d) α) : (readImg a >>= k) w = k A w := by
  have e : readImg a w = (.ok A, w) := by simp only [readImg, show w.heap[a]? = _ from h]
  simp only [bind, e]

theorem mapM_read {w : World d} : ∀ {as : List Nat} {bs : List (Img d)}, List.Forall₂ (Holds w) as bs → (as.mapM readImg : Eff (World d) _) w = (.ok bs, w)
  | _, _, .nil => rfl
  | _, _, .cons (a := a) (b := b) h hs => by
    rw [List.mapM_cons]
    have e : (readImg a : Eff (World d) (Img d)) w = (.ok b, w) := by simp only [readImg, show w.heap[a]? = _ from h]
    have e2 := mapM_read hs
    simp only [bind, e, e2]
    rfl

theorem mapM_read_bind {α : Type} {w : World d} {as : List Nat} {bs : List (Img d)} (h : List.Forall₂ (Holds w) as bs) (k : List (Img d) → Eff (World d) α) :
    (as.mapM readImg >>= k) w = k bs w := by
  simp only [bind, mapM_read h]

theorem sim_packAt {w : World d} (hg : Good rep w) {L : Nat} {as : List Nat} {bs : List (Img d)} (h : List.Forall₂ (Holds w) as bs) :
    SimS rep w (packAt L as) (packL L bs) (fun _ a b => a = b) := by
  unfold packAt
  exact Sim.congr (mapM_read_bind h _) (Sim.lift preord hg _)

theorem sim_idArr {w : World d} (hg : Good rep w) : SimS rep w idArr (.ok (eye d)) (fun w' a A => A = eye d ∧ Holds w' a (eye d) ∧ Cached w' a) := by
  unfold SimS Sim idArr
  cases hc : w.id with
  | some a => exact ⟨hg, preord.refl w, rfl, hg.id a hc, .inl hc⟩
  | none =>
    have hE : Ext w { w with heap := w.heap ++ [.img (eye d)], id := some w.heap.length } := ⟨List.prefix_append _ _, fun a h => by
      rcases h with h | h | h
      · cases h; exact .inr le_rfl
      · exact .inl (.inr (.inl h))
      · exact .inl (.inr (.inr h))⟩
    refine ⟨⟨fun a h => ?_, fun as h => holds_all hE (hg.gens as h), fun tab h => ?_⟩, hE, rfl, ?_, .inl rfl⟩
    · cases h
      show (w.heap ++ [_])[w.heap.length]? = _
      simp
    · obtain ⟨T, hT, h'⟩ := hg.table tab h
      exact ⟨T, hT, rows_all hE h'⟩
    · show (w.heap ++ [_])[w.heap.length]? = _
      simp

theorem holds_new (h : List (Arr d)) : ∀ (As : List (Img d)) (w : World d), w.heap = h ++ As.map .img →
    List.Forall₂ (Holds w) ((List.range As.length).map fun i => h.length + i) As := by
  intro As w hw
  rw [List.forall₂_iff_get]
  refine ⟨by simp, fun i h1 h2 => ?_⟩
  simp only [List.get_eq_getElem, List.getElem_map, List.getElem_range]
  show w.heap[_]? = _
  rw [hw, List.getElem?_append_right (by omega)]
  simp [h2]

theorem sim_gensArr {w : World d} (hg : Good rep w) : SimS rep w (gensArr rep) (.ok rep.gens) (fun w' as As => As = rep.gens ∧ List.Forall₂ (Holds w') as rep.gens) := by
  unfold SimS Sim gensArr
  cases hc : w.gens with
  | some as => exact ⟨hg, preord.refl w, rfl, hg.gens as hc⟩
  | none =>
    have hE : Ext w { w with heap := w.heap ++ rep.gens.map .img, gens := some ((List.range rep.gens.length).map fun i => w.heap.length + i) } :=
      ⟨List.prefix_append _ _, fun a h => by
        rcases h with h | ⟨as, h, h'⟩ | h
        · exact .inl (.inl h)
        · cases h
          obtain ⟨i, _, rfl⟩ := List.mem_map.1 h'
          exact .inr (by omega)
        · exact .inl (.inr (.inr h))⟩
    refine ⟨⟨fun a h => hE.get (hg.id a h), fun as h => ?_, fun tab h => ?_⟩, hE, rfl, ?_⟩
    · cases h
      exact holds_new w.heap rep.gens _ rfl
    · obtain ⟨T, hT, h'⟩ := hg.table tab h
      exact ⟨T, hT, rows_all hE h'⟩
    · exact holds_new w.heap rep.gens _ rfl

/-- `projectivise` leaves an array alone if it does not cut anything off. -/
theorem projectivise_len {A B : Img d} (h : projectivise A = .ok B) (hl : B.length = A.length) : B = A := by
  obtain ⟨hc, hk⟩ := projectivise_iff.1 h
  obtain ⟨k, hk⟩ := hk ()
  rw [X_pow_mul_den] at hk
  obtain ⟨u, hu⟩ := hc.2
  rw [show u = () from rfl, ← hk.2] at hu
  have h1 := lt_of_nz hu
  have h2 := lt_of_nz (hc.1 ())
  have hk0 : k = 0 := by omega
  subst hk0
  exact ext' hl fun n _ u => by rw [show u = () from rfl, ← hk.2 n]; rfl

theorem sim_new {w : World d} (hg : Good rep w) (B : Img d) {R : World d → Nat → Img d → Prop} (hR : ∀ w' b, Holds w' b B → ¬ Cached w' b → w.heap.length ≤ b → R w' b B) :
    SimS rep w (alloc (.img B)) (.ok B) R := by
  obtain ⟨h1, h2, h3⟩ := sim_alloc hg (.img B)
  exact ⟨h1, h2, hR _ _ h3.1 h3.2.1 h3.2.2⟩

theorem sim_projInPlace {w : World d} (hg : Good rep w) {a : Nat} {A : Img d} (h : Holds w a A) :
    SimS rep w (projInPlace a) (projectivise A) (fun w' b B => Holds w' b B ∧ (b = a ∨ w.heap.length ≤ b)) := by
  unfold projInPlace
  refine Sim.congr (read_bind h _) ?_
  have key : SimS rep w (Eff.lift (projectivise A) >>= fun B => if B.length = A.length then .lift (.ok a) else alloc (.img B)) (projectivise A >>= fun B => .ok B)
      (fun w' b B => Holds w' b B ∧ (b = a ∨ w.heap.length ≤ b)) := by
    refine Sim.bind preord (Sim.liftRel preord hg (RelE.refl _)) fun w1 B B' hg1 _ hR => ?_
    obtain ⟨rfl, hB, _, rfl⟩ := hR
    split
    · next hl =>
      have := projectivise_len hB hl
      exact ⟨hg1, preord.refl _, this ▸ h, .inl rfl⟩
    · exact sim_new hg1 B fun w' b hb _ hl => ⟨hb, .inr hl⟩
  have e : (projectivise A >>= fun B => .ok B) = projectivise A := by cases projectivise A <;> rfl
  rwa [e] at key

theorem sim_reduceArr {w : World d} (hg : Good rep w) {start : Nat} {S : Img d} {as : List Nat} {ms : List (Img d)} (hS : Holds w start S) (h : List.Forall₂ (Holds w) as ms) :
    SimS rep w (reduceArr rep start as) (ms.foldlM rep.mul1 S >>= projectivise) (fun w' b B => Holds w' b B ∧ (b = start ∨ w.heap.length ≤ b) ∧ (as ≠ [] → ¬ Cached w' b)) := by
  unfold reduceArr
  split
  · next h0 =>
    subst h0
    cases h
    exact Sim.mono (sim_projInPlace hg hS) fun w' b B hb => ⟨hb.1, hb.2, fun h => absurd rfl h⟩
  · refine Sim.congr ((mapM_read_bind h _).trans (read_bind hS _)) ?_
    refine Sim.bind preord (Sim.liftRel preord hg (RelE.refl _)) fun w1 A A' hg1 _ hR => ?_
    obtain ⟨rfl, -, -, rfl⟩ := hR
    have key : SimS rep w1 (Eff.lift (projectivise A) >>= fun B => alloc (.img B)) (projectivise A >>= fun B => .ok B)
        (fun w' b B => Holds w' b B ∧ (b = start ∨ w1.heap.length ≤ b) ∧ (as ≠ [] → ¬ Cached w' b)) := by
      refine Sim.bind preord (Sim.liftRel preord hg1 (RelE.refl _)) fun w2 B B' hg2 _ hR => ?_
      obtain ⟨rfl, -, -, rfl⟩ := hR
      exact sim_new hg2 B fun w' b hb hc hl => ⟨hb, .inr hl, fun _ => hc⟩
    have e : (projectivise A >>= fun B => .ok B) = projectivise A := by cases projectivise A <;> rfl
    rwa [e] at key

theorem lookup_rel {α β : Type} {R : α → β → Prop} {l : List α} {m : List β} (h : List.Forall₂ R l m) (i : Nat) : RelE R (lookup l i) (lookup m i) := by
  unfold lookup
  by_cases hi : i < l.length
  · have hi' : i < m.length := h.length_eq ▸ hi
    rw [List.getElem?_eq_getElem hi, List.getElem?_eq_getElem hi']
    exact h.get hi hi'
  · have hi' : ¬ i < m.length := h.length_eq ▸ hi
    rw [List.getElem?_eq_none (by omega), List.getElem?_eq_none (by omega)]
    rfl

theorem get?_rel {w : World d} (k : List Nat) : ∀ {tab : List (List Nat × Nat)} {T : List (List Nat × Img d)}, List.Forall₂ (HoldsRow w) tab T →
    Option.Rel (Holds w) (Dict.get? tab k) (Dict.get? T k)
  | _, _, .nil => .none
  | _, _, .cons (a := a) (b := b) h hs => by
    have ih := get?_rel k hs
    unfold Dict.get? at ih ⊢
    rw [List.find?_cons, List.find?_cons, ← h.1]
    by_cases hk : a.1 = k
    · simp only [hk, decide_true]
      exact .some h.2
    · simp only [hk, decide_false]
      exact ih

theorem dict_rel {w : World d} {tab : List (List Nat × Nat)} {T : List (List Nat × Img d)} (h : List.Forall₂ (HoldsRow w) tab T) (k : List Nat) :
    RelE (Holds w) (Dict.get tab k) (Dict.get T k) := by
  have := get?_rel k h
  unfold Dict.get
  revert this
  cases Dict.get? tab k <;> cases Dict.get? T k <;> intro this
  · rfl
  · cases this
  · cases this
  · cases this
    assumption

theorem sim_permArr {w₀ w : World d} (hg : Good rep w) (hE : Ext w₀ w) {gens : List Nat} {eyeA : Nat} (hgens : List.Forall₂ (Holds w) gens rep.gens)
    (heye : Holds w eyeA (eye d)) (hc : Cached w₀ eyeA ∨ w₀.heap.length ≤ eyeA) (x : List Nat) :
    SimS rep w (permArr rep gens eyeA x) (rep.permImage x) (fun w' b B => Holds w' b B ∧ (Cached w₀ b ∨ w₀.heap.length ≤ b)) := by
  unfold permArr Summand.permImage
  refine Sim.bind preord (Sim.liftRel preord hg (RelE.refl _)) fun w1 word word' hg1 _ hR => ?_
  obtain ⟨rfl, -, -, rfl⟩ := hR
  refine Sim.bind preord (Sim.liftRel preord hg1 (RelE.mapM_same word fun i => lookup_rel hgens i)) fun w2 as ms hg2 _ hR => ?_
  obtain ⟨rfl, -, -, hR⟩ := hR
  refine Sim.mono (sim_reduceArr hg2 heye hR) fun w' b B hb => ⟨hb.1, ?_⟩
  rcases hb.2.1 with rfl | hb
  · exact hc
  · exact .inr (hE.heap.length_le.trans hb)

theorem sim_tableBody {w : World d} (hg : Good rep w) :
    SimS rep w (tableBody rep) rep.table (fun w' tab T => List.Forall₂ (HoldsRow w') tab T ∧ ∀ x ∈ tab, Cached w x.2 ∨ w.heap.length ≤ x.2) := by
  have e : rep.table = (Except.ok rep.gens >>= fun _ => Except.ok (eye d) >>= fun _ => rep.table) := rfl
  rw [e]
  unfold tableBody
  refine Sim.bind preord (sim_gensArr hg) fun w1 gens G hg1 hE1 hR1 => ?_
  obtain ⟨rfl, hR1⟩ := hR1
  refine Sim.bind preord (sim_idArr hg1) fun w2 eyeA E hg2 hE2 hR2 => ?_
  obtain ⟨rfl, heye, hcached⟩ := hR2
  have hE := preord.trans _ _ _ hE1 hE2
  unfold Summand.table
  have hst : ∀ (w' w'' : World d) (x : List Nat × Nat) (y : List Nat × Img d), Ext w' w'' → HoldsRow w' x y ∧ (Cached w x.2 ∨ w.heap.length ≤ x.2) →
      HoldsRow w'' x y ∧ (Cached w x.2 ∨ w.heap.length ≤ x.2) := fun w' w'' x y h1 h2 => ⟨HoldsRow.ext _ _ _ _ h1 h2.1, h2.2⟩
  refine Sim.bind preord (Sim.mapM' preord hst w2 (Perms.elements rep.n) (fun x _ w3 hg3 hE3 => ?_) w2 hg2 (preord.refl _)) fun w3 tab T hg3 hE3 hR3 => ?_
  · refine Sim.bind preord (sim_permArr hg3 (preord.trans _ _ _ hE hE3) (holds_all (preord.trans _ _ _ hE2 hE3) hR1) (hE3.get heye) (hE.cached _ hcached) x) fun w4 b B hg4 _ hb => ?_
    exact ⟨hg4, preord.refl _, ⟨rfl, hb.1⟩, hb.2⟩
  · have hrows : List.Forall₂ (HoldsRow w3) tab T := hR3.imp fun _ _ h => h.1
    refine Sim.bind preord (Sim.liftRel preord hg3 (dict_rel hrows _)) fun w4 x X hg4 _ hx => ?_
    obtain ⟨rfl, -, -, hx⟩ := hx
    refine Sim.congr (read_bind hx _) ?_
    refine Sim.bind preord (Sim.liftRel preord hg4 (RelE.refl _)) fun w5 sq sq' hg5 _ hR => ?_
    obtain ⟨rfl, -, -, rfl⟩ := hR
    refine Sim.congr (read_bind (hE3.get heye) _) ?_
    refine Sim.bind preord (Sim.liftRel preord hg5 (RelE.refl _)) fun w6 b b' hg6 _ hR => ?_
    obtain ⟨rfl, -, -, rfl⟩ := hR
    refine Sim.bind preord (Sim.liftRel preord hg6 (RelE.refl _)) fun w7 _ _ hg7 _ hR => ?_
    obtain ⟨rfl, -, -, -⟩ := hR
    refine ⟨hg7, preord.refl _, hrows, fun x hx => ?_⟩
    obtain ⟨y, _, hy⟩ := mem_forall₂ hR3 x hx
    exact hy.2

theorem sim_tableArr {w : World d} (hg : Good rep w) : SimS rep w (tableArr rep) rep.table (fun w' tab T => List.Forall₂ (HoldsRow w') tab T) := by
  unfold SimS Sim tableArr
  cases hc : w.table with
  | some tab =>
    obtain ⟨T, hT, h⟩ := hg.table tab hc
    simp only [hT]
    exact ⟨hg, preord.refl w, h⟩
  | none =>
    have hb := sim_tableBody hg
    unfold SimS Sim at hb
    rcases hx : tableBody rep w with ⟨r, w'⟩
    rw [hx] at hb
    obtain ⟨hg', hE, hR⟩ := hb
    cases r with
    | error e =>
      cases hT : rep.table with
      | ok T => rw [hT] at hR; exact hR.elim
      | error e' => rw [hT] at hR; exact ⟨hg', hE, hR⟩
    | ok tab =>
      cases hT : rep.table with
      | error e' => rw [hT] at hR; exact hR.elim
      | ok T =>
        rw [hT] at hR
        obtain ⟨hrows, hc'⟩ := hR
        refine ⟨⟨hg'.id, hg'.gens, fun tab' h => ?_⟩, ⟨hE.heap, fun a h => ?_⟩, hrows⟩
        · cases h
          exact ⟨T, hT, hrows⟩
        · rcases h with h | h | ⟨tab', h, h'⟩
          · exact hE.cached a (.inl h)
          · exact hE.cached a (.inr (.inl h))
          · cases h
            obtain ⟨x, hx, rfl⟩ := List.mem_map.1 h'
            exact hc' x hx

theorem mapM_ne {α β : Type} {f : α → Except Err β} {l : List α} {m : List β} (h : l.mapM f = .ok m) (hl : l ≠ []) : m ≠ [] := by
  cases l with
  | nil => exact absurd rfl hl
  | cons x l =>
    rw [List.mapM_cons] at h
    rintro rfl
    cases hx : f x with
    | error e => rw [hx] at h; cases h
    | ok y =>
      cases hm : l.mapM f with
      | error e => rw [hx, hm] at h; cases h
      | ok ys => rw [hx, hm] at h; cases h

theorem factors_ne {x : NF} {fs : List (List Nat)} (h : NF.canonicalFactors tbl x = .ok fs) (hx : x.factors ≠ []) : fs ≠ [] := by
  unfold NF.canonicalFactors at h
  cases ht : tbl x.n with
  | error e => rw [ht] at h; cases h
  | ok t => rw [ht] at h; exact mapM_ne h hx

theorem sim_evalFactors {w : World d} (hg : Good rep w) (x : NF) :
    SimS rep w (evalFactors rep tbl x) (evaluateBraidFactors tbl rep x) (fun w' b B => Holds w' b B ∧ (x.factors ≠ [] → ¬ Cached w' b)) := by
  unfold evalFactors evaluateBraidFactors
  refine Sim.bind preord (Sim.liftRel preord hg (RelE.refl _)) fun w1 fs fs' hg1 _ hR => ?_
  obtain ⟨rfl, hfs, -, rfl⟩ := hR
  have e : ∀ p : Except Err (Img d), p = (Except.ok (eye d) >>= fun _ => p) := fun _ => rfl
  rw [e (rep.table >>= _)]
  refine Sim.bind preord (sim_idArr hg1) fun w2 _ _ hg2 _ _ => ?_
  refine Sim.bind preord (sim_tableArr hg2) fun w3 tab T hg3 _ hrows => ?_
  have hk : ∀ (w4 : World d) (start : Nat) (S : Img d), Good rep w4 → Ext w3 w4 → Holds w4 start S →
      SimS rep w4 (Eff.lift (List.mapM (Dict.get tab) fs) >>= fun as => reduceArr rep start as)
        (List.mapM (Dict.get T) fs >>= fun ms => List.foldlM rep.mul1 S ms >>= projectivise) (fun w' b B => Holds w' b B ∧ (x.factors ≠ [] → ¬ Cached w' b)) := by
    intro w4 start S hg4 hE4 hS
    refine Sim.bind preord (Sim.liftRel preord hg4 (RelE.mapM_same fs fun k => dict_rel (rows_all hE4 hrows) k)) fun w5 as ms hg5 _ hR => ?_
    obtain ⟨rfl, has, -, hR⟩ := hR
    exact Sim.mono (sim_reduceArr hg5 hS hR) fun w' b B hb => ⟨hb.1, fun hx => hb.2.2 (mapM_ne has (factors_ne hfs hx))⟩
  by_cases hp : x.power % 2 = 0
  · simp only [if_pos hp]
    exact Sim.bind preord (sim_idArr hg3) fun w4 a A hg4 hE4 h => hk w4 a A hg4 hE4 (h.1 ▸ h.2.1)
  · simp only [if_neg hp]
    exact Sim.bind preord (Sim.liftRel preord hg3 (dict_rel hrows _)) fun w4 a A hg4 hE4 h => hk w4 a A hg4 hE4 (h.1 ▸ h.2.2.2)

theorem sim_evalStep {w : World d} (hg : Good rep w) {tab : List (List Nat × Nat)} {T : List (List Nat × Img d)} (hrows : List.Forall₂ (HoldsRow w) tab T) (L : Nat)
    (factors : List (List (List Nat))) (A : PArr (Fin L) d d) (l : Nat) :
    SimS rep w (evalStep rep tab L factors A l) (BraidSearch.evalStep rep T L factors A l) (fun _ a b => a = b) := by
  unfold evalStep BraidSearch.evalStep
  refine Sim.bind preord (Sim.liftRel preord hg (RelE.mapM_same (R := Holds w) factors fun fs => RelE.bind (RelE.refl _) fun a b e => e ▸ dict_rel hrows a)) fun w1 as ms hg1 _ hR => ?_
  obtain ⟨rfl, -, -, hR⟩ := hR
  refine Sim.bind preord (sim_packAt hg1 hR) fun w2 a b hg2 _ e => ?_
  subst e
  exact Sim.lift preord hg2 _

theorem sim_prefixLoop {tab : List (List Nat × Nat)} {T : List (List Nat × Img d)} (L : Nat) (factors : List (List (List Nat))) :
    ∀ (ls : List Nat) (A : PArr (Fin L) d d) (w : World d), Good rep w → List.Forall₂ (HoldsRow w) tab T →
      SimS rep w (prefixLoop rep tab L factors ls A) (BraidSearch.prefixLoop rep T L factors ls A) (fun _ a b => a = b)
  | [], A, w, hg, hrows => ⟨hg, preord.refl _, rfl⟩
  | l :: ls, A, w, hg, hrows => by
    unfold prefixLoop BraidSearch.prefixLoop
    refine Sim.bind preord (sim_evalStep hg hrows L factors A l) fun w1 A' A'' hg1 hE1 e => ?_
    subst e
    refine Sim.bind preord (sim_prefixLoop L factors ls A' w1 hg1 (rows_all hE1 hrows)) fun w2 r r' hg2 hE2 e => ?_
    subst e
    exact ⟨hg2, preord.refl _, rfl⟩

theorem sim_evalStart {w : World d} (hg : Good rep w) (xs : List NF) :
    SimS rep w (evalStart rep tbl xs) (BraidSearch.evalStart tbl rep xs)
      (fun w' s t => s.1 = t.1 ∧ s.2.1 = t.2.1 ∧ List.Forall₂ (HoldsRow w') s.2.2.1 t.2.2.1 ∧ s.2.2.2 = t.2.2.2) := by
  unfold evalStart BraidSearch.evalStart
  refine Sim.bind preord (Sim.lift preord hg _) fun w1 x0 x0' hg1 _ e => ?_
  subst e
  refine Sim.bind preord (Sim.lift preord hg1 _) fun w1 _ _ hg1 _ _ => ?_
  refine Sim.bind preord (Sim.lift preord hg1 _) fun w1 fs fs' hg1 _ e => ?_
  subst e
  refine Sim.bind preord (sim_tableArr hg1) fun w2 tab T hg2 _ hrows => ?_
  have e : ∀ p : Except Err (Nat × List (List (List Nat)) × List (List Nat × Img d) × PArr (Fin xs.length) d d), p = (Except.ok (eye d) >>= fun _ => p) := fun _ => rfl
  rw [e (Dict.get T _ >>= _)]
  refine Sim.bind preord (sim_idArr hg2) fun w3 eyeA _ hg3 hE3 ⟨_, heye, _⟩ => ?_
  refine Sim.bind preord (Sim.liftRel preord hg3 (dict_rel (rows_all hE3 hrows) _)) fun w4 anti Anti hg4 _ hR => ?_
  obtain ⟨rfl, -, -, hanti⟩ := hR
  have hl : List.Forall₂ (Holds w4) (xs.map fun x => if x.power % 2 = 0 then eyeA else anti) (xs.map fun x => if x.power % 2 = 0 then eye d else Anti) := by
    rw [List.forall₂_map_left_iff, List.forall₂_map_right_iff, List.forall₂_same]
    intro x _
    split
    · exact heye
    · exact hanti
  refine Sim.bind preord (sim_packAt hg4 hl) fun w5 a b hg5 hE5 e => ?_
  subst e
  exact ⟨hg5, preord.refl _, rfl, rfl, rows_all (preord.trans _ _ _ hE3 hE5) hrows, rfl⟩

theorem sim_evalSame {w : World d} (hg : Good rep w) (xs : List NF) :
    SimS rep w (evalSameContent rep tbl xs) (BraidSearch.evalSame tbl rep xs) (fun _ a b => a = b) := by
  unfold evalSameContent BraidSearch.evalSame
  refine Sim.bind preord (sim_evalStart hg xs) fun w1 s t hg1 _ ⟨h1, h2, h3, h4⟩ => ?_
  obtain ⟨s1, s2, s3, s4⟩ := s
  obtain ⟨t1, t2, t3, t4⟩ := t
  cases h1; cases h2; cases h4
  exact Sim.foldlM' preord w1 _ (fun i _ s w hg hE => sim_evalStep hg (rows_all hE h3) _ _ s i) _ w1 hg1 (preord.refl _)

theorem sim_evalPrefixes {w : World d} (hg : Good rep w) (xs : List NF) :
    SimS rep w (evalPrefixesContent rep tbl xs) (BraidSearch.evalPrefixes tbl rep xs) (fun _ a b => a = b) := by
  unfold evalPrefixesContent BraidSearch.evalPrefixes
  refine Sim.bind preord (sim_evalStart hg xs) fun w1 s t hg1 _ ⟨h1, h2, h3, h4⟩ => ?_
  obtain ⟨s1, s2, s3, s4⟩ := s
  obtain ⟨t1, t2, t3, t4⟩ := t
  cases h1; cases h2; cases h4
  exact sim_prefixLoop _ _ _ _ w1 hg1 h3

theorem sim_evaluateBraids {w : World d} (hg : Good rep w) (xs : List NF) :
    SimS rep w (evaluateBraidsContent rep tbl xs) (BraidSearch.evaluateBraids tbl rep xs) (fun _ a b => a = b) := by
  unfold evaluateBraidsContent BraidSearch.evaluateBraids
  refine Sim.bind preord (Sim.mapM preord (R := fun _ a b => a = b) (fun _ _ _ _ _ h => h) _ (fun li _ w hg => ?_) w hg) fun w1 as bs hg1 _ hR => ?_
  · refine Sim.bind preord (Sim.lift preord hg _) fun w1 ys ys' hg1 _ e => ?_
    subst e
    refine Sim.bind preord (sim_evalSame hg1 ys) fun w2 A A' hg2 _ e => ?_
    subst e
    exact ⟨hg2, preord.refl _, rfl⟩
  · rw [List.forall₂_eq_eq_eq] at hR
    subst hR
    exact Sim.lift preord hg1 _

/-- The relation between the addresses that a call returns and the arrays. -/
def Returns (fresh : Prop) (w : World d) (as : List Nat) (As : List (Arr d)) : Prop :=
  List.Forall₂ (fun a A => w.heap[a]? = some A) as As ∧ (fresh → ∀ a ∈ as, ¬ Cached w a)

theorem sim_allocAll {w : World d} (hg : Good rep w) (As : List (Arr d)) {P : Prop} : SimS rep w (As.mapM alloc) (.ok As) (Returns P) := by
  have e : As.mapM (fun A => (Except.ok A : Except Err (Arr d))) = .ok As := by
    induction As with
    | nil => rfl
    | cons A As ih => rw [List.mapM_cons, ih]; rfl
  rw [← e]
  refine Sim.mono (Sim.mapM preord (R := fun w a A => w.heap[a]? = some A ∧ ¬ Cached w a) (fun w w' a A hE h => ⟨hE.get h.1, fun hc => ?_⟩) As (fun A _ w hg => ?_) w hg) fun w' as Bs h => ⟨?_, fun _ a ha => ?_⟩
  · rcases hE.cached a hc with hc | hc
    · exact h.2 hc
    · exact absurd (List.getElem?_eq_some_iff.1 h.1).1 (not_lt.2 hc)
  · exact Sim.mono (sim_alloc hg A) fun w' a B h => ⟨h.1, h.2.1⟩
  · exact h.imp fun _ _ h => h.1
  · obtain ⟨B, _, hB⟩ := mem_forall₂ h a ha
    exact hB.2

theorem forall₂_arr {w : World d} {as : List Nat} {As : List (Img d)} (h : List.Forall₂ (Holds w) as As) : List.Forall₂ (fun a A => w.heap[a]? = some A) as (As.map Arr.img) := by
  rw [List.forall₂_map_right_iff]
  exact h

theorem sim_call {w : World d} (hg : Good rep w) (c : Call) : SimS rep w (c.exec rep tbl) (c.value rep tbl) (Returns c.OwnResult) := by
  cases c with
  | evalFactors x =>
    refine Sim.bind preord (sim_evalFactors (tbl := tbl) hg x) fun w1 a A hg1 _ h => ⟨hg1, preord.refl _, .cons h.1 .nil, fun hx b hb => ?_⟩
    rw [List.mem_singleton] at hb
    subst hb
    exact h.2 hx
  | evalSame xs =>
    refine Sim.bind preord (sim_evalSame (tbl := tbl) hg xs) fun w1 a A hg1 _ h => ?_
    subst h
    exact sim_allocAll hg1 _
  | evalPrefixes xs =>
    refine Sim.bind preord (sim_evalPrefixes (tbl := tbl) hg xs) fun w1 a A hg1 _ h => ?_
    subst h
    exact sim_allocAll hg1 _
  | evaluateBraids xs =>
    refine Sim.bind preord (sim_evaluateBraids (tbl := tbl) hg xs) fun w1 a A hg1 _ h => ?_
    subst h
    exact sim_allocAll hg1 _
  | id =>
    have e : Call.value rep tbl .id = (Except.ok (eye d) >>= fun A => .ok [Arr.img A]) := rfl
    rw [e]
    refine Sim.bind preord (sim_idArr hg) fun w1 a A hg1 _ h => ⟨hg1, preord.refl _, .cons ?_ .nil, fun h => h.elim⟩
    rw [h.1]
    exact h.2.1
  | gens =>
    have e : Call.exec rep tbl .gens = (gensArr rep >>= fun as => Eff.lift (.ok as)) := (bind_pure _).symm
    have e' : Call.value rep tbl .gens = (Except.ok rep.gens >>= fun G => .ok (G.map Arr.img)) := rfl
    rw [e, e']
    refine Sim.bind preord (sim_gensArr hg) fun w1 as G hg1 _ h => ⟨hg1, preord.refl _, ?_, fun h => h.elim⟩
    rw [h.1]
    exact forall₂_arr h.2
  | table =>
    refine Sim.bind preord (sim_tableArr hg) fun w1 tab T hg1 _ h => ⟨hg1, preord.refl _, ?_, fun h => h.elim⟩
    rw [List.forall₂_map_left_iff, List.forall₂_map_right_iff]
    exact h.imp fun _ _ h => h.2

/-- The invariant of a program. -/
structure Inv (rep : Summand d) (tbl : Nat → Except Err (NFTable (List Nat))) (es : List (Event d)) (s : Session d) : Prop where
  good : Good rep s.world
  len : s.given.length = (callsOf es).length
  own : ∀ (j : Nat) (as : List Nat), s.given[j]? = some as → ∀ a ∈ as, a < s.world.heap.length ∧ ((∀ c, (callsOf es)[j]? = some c → c.OwnResult) → ¬ Cached s.world a)
  seen : s.seen = (callsOf es).map (Call.value rep tbl)

theorem callsOf_append (es fs : List (Event d)) : callsOf (es ++ fs) = callsOf es ++ callsOf fs := List.filterMap_append

theorem filterMap_forall₂ {w : World d} : ∀ {as : List Nat} {As : List (Arr d)}, List.Forall₂ (fun a A => w.heap[a]? = some A) as As → as.filterMap (fun a => w.heap[a]?) = As
  | _, _, .nil => rfl
  | _, _, .cons h hs => by rw [List.filterMap_cons, h, filterMap_forall₂ hs]

theorem inv_write {es : List (Event d)} {s : Session d} (h : Inv rep tbl es s) (j i : Nat) (A : Arr d) (hj : ∀ c, (callsOf es)[j]? = some c → c.OwnResult) :
    Inv rep tbl (es ++ [.write j i A]) (s.write j i A) := by
  have e : callsOf (es ++ [Event.write j i A]) = callsOf es := by rw [callsOf_append]; exact List.append_nil _
  have e0 : s.write j i A = match s.given[j]? with
    | none => s
    | some as => match as[i]? with
      | none => s
      | some a => { s with world := { s.world with heap := s.world.heap.set a A } } := rfl
  rw [e0]
  cases h1 : s.given[j]? with
  | none => exact ⟨h.good, by rw [e]; exact h.len, by rw [e]; exact h.own, by rw [e]; exact h.seen⟩
  | some as =>
    simp only
    cases h2 : as[i]? with
    | none => exact ⟨h.good, by rw [e]; exact h.len, by rw [e]; exact h.own, by rw [e]; exact h.seen⟩
    | some a =>
      have hc := (h.own j as h1 a (List.mem_of_getElem? h2)).2 hj
      have hset : ∀ b B, Cached s.world b → s.world.heap[b]? = some B → (s.world.heap.set a A)[b]? = some B := fun b B hb hB => by
        rw [List.getElem?_set_ne (fun e : a = b => hc (e.symm ▸ hb)), hB]
      refine ⟨⟨fun b hb => hset _ _ (.inl hb) (h.good.id b hb), fun bs hb => ?_, fun tab hb => ?_⟩, by rw [e]; exact h.len, fun j' as' hj' a' ha' => ?_, by rw [e]; exact h.seen⟩
      · exact forall₂_imp_mem (h.good.gens bs hb) fun b B hm hB => hset _ _ (.inr (.inl ⟨bs, hb, hm⟩)) hB
      · obtain ⟨T, hT, hrows⟩ := h.good.table tab hb
        exact ⟨T, hT, forall₂_imp_mem hrows fun x y hm hxy => ⟨hxy.1, hset _ _ (.inr (.inr ⟨tab, hb, List.mem_map_of_mem hm⟩)) hxy.2⟩⟩
      · have := h.own j' as' hj' a' ha'
        refine ⟨by rw [List.length_set]; exact this.1, fun hne => ?_⟩
        rw [e] at hne
        exact this.2 hne

theorem inv_call {es : List (Event d)} {s : Session d} (h : Inv rep tbl es s) (c : Call) : Inv rep tbl (es ++ [.call c]) (s.step rep tbl (.call c)) := by
  have e : callsOf (es ++ [Event.call c (d := d)]) = callsOf es ++ [c] := by rw [callsOf_append]; rfl
  obtain ⟨hg, hE, hr⟩ := sim_call (rep := rep) (tbl := tbl) h.good c
  simp only [Session.step]
  rcases hx : c.exec rep tbl s.world with ⟨r, w⟩
  rw [hx] at hg hE hr
  have hold : ∀ (j : Nat) (as : List Nat), s.given[j]? = some as → ∀ a ∈ as, a < w.heap.length ∧ ((∀ c', (callsOf es ++ [c])[j]? = some c' → c'.OwnResult) → ¬ Cached w a) := fun j as hj a ha => by
    have := h.own j as hj a ha
    have hjl : j < (callsOf es).length := h.len ▸ (List.getElem?_eq_some_iff.1 hj).1
    refine ⟨lt_of_lt_of_le this.1 hE.heap.length_le, fun hne hc => ?_⟩
    rw [List.getElem?_append_left hjl] at hne
    rcases hE.cached a hc with hc | hc
    · exact this.2 hne hc
    · exact absurd this.1 (not_lt.2 hc)
  cases r with
  | error e1 =>
    cases hv : c.value rep tbl with
    | ok _ => rw [hv] at hr; exact hr.elim
    | error e2 =>
      rw [hv] at hr
      refine ⟨hg, by rw [e, List.length_append, List.length_append, h.len]; rfl, fun j as hj a ha => ?_, ?_⟩
      · rw [e]
        rw [List.getElem?_append] at hj
        split at hj
        · exact hold j as hj a ha
        · obtain ⟨_, hj⟩ := List.mem_singleton.1 (List.mem_of_getElem? hj) ▸ ha
      · rw [e, List.map_append, ← h.seen, List.map_singleton, hv, show e1 = e2 from hr]
  | ok as =>
    cases hv : c.value rep tbl with
    | error _ => rw [hv] at hr; exact hr.elim
    | ok As =>
      rw [hv] at hr
      refine ⟨hg, by rw [e, List.length_append, List.length_append, h.len]; rfl, fun j as' hj a ha => ?_, ?_⟩
      · rw [e]
        rw [List.getElem?_append] at hj
        split at hj
        · exact hold j as' hj a ha
        · next hlt =>
          have := List.mem_singleton.1 (List.mem_of_getElem? hj)
          subst this
          have hj0 : j - s.given.length = 0 := by
            have := (List.getElem?_eq_some_iff.1 hj).1
            simpa using this
          have hjj : j = (callsOf es).length := by rw [← h.len]; omega
          refine ⟨?_, fun hne => hr.2 (hne c ?_) a ha⟩
          · obtain ⟨i, hi, hi'⟩ := List.getElem_of_mem ha
            have := hr.1.get hi (hr.1.length_eq ▸ hi)
            have := (List.getElem?_eq_some_iff.1 this).1
            rw [List.get_eq_getElem, hi'] at this
            exact this
          · rw [hjj, List.getElem?_append_right le_rfl, Nat.sub_self]; rfl
      · rw [e, List.map_append, ← h.seen, List.map_singleton, hv]
        show s.seen ++ [Except.ok (as.filterMap fun a => w.heap[a]?)] = _
        rw [filterMap_forall₂ (w := w) hr.1]

theorem inv_run : ∀ es : List (Event d), WritesOwn es → Inv rep tbl es (Session.run rep tbl es) := by
  intro es
  induction es using List.reverseRecOn with
  | nil =>
    intro _
    exact ⟨⟨fun _ h => (by cases h), fun _ h => (by cases h), fun _ h => (by cases h)⟩, rfl, fun j as h => by simp [Session.run] at h, rfl⟩
  | append_singleton es e ih =>
    intro hs
    have hs' : WritesOwn es := fun j i A c hm hc => by
      refine hs j i A c (List.mem_append_left _ hm) ?_
      rw [callsOf_append, List.getElem?_append_left (List.getElem?_eq_some_iff.1 hc).1, hc]
    have hi := ih hs'
    have er : Session.run rep tbl (es ++ [e]) = (Session.run rep tbl es).step rep tbl e := by
      unfold Session.run
      rw [List.foldl_append]
      rfl
    rw [er]
    cases e with
    | write j i A =>
      refine inv_write hi j i A fun c hc => ?_
      refine hs j i A c (List.mem_append_right _ List.mem_cons_self) ?_
      rw [callsOf_append, List.getElem?_append_left (List.getElem?_eq_some_iff.1 hc).1, hc]
    | call c => exact inv_call hi c

end Mem
end BraidSearch
end Peyl
