import Verif.Spec.BucketDescend
import Verif.Lemmas.Bucketing
import Verif.Lemmas.RepEval
import Verif.Lemmas.NFEnum
/-!
# Histories of a `bucketing.Tracker` offer true images
-/
namespace Peyl
open LaurentPolynomial Polymat
namespace Bucketing
variable {S : Type} {d p : Nat} {legal : NF → Prop} {M : NF → LMat p d} {c : Config NF d}

theorem TrueBatch.nonzero (hM : ∀ x, legal x → M x ≠ 0) {b : Batch NF d} (h : TrueBatch p legal M b) (i : Fin b.len) :
    ∃ S ∈ b.images, ∃ r s, S i r s ≠ 0 := by
  by_contra hc
  push Not at hc
  obtain ⟨k, hk⟩ := h.shift i
  have h0 : Polymat.denMod p b.images i = 0 := by
    have : den b.images i = 0 := by
      have e : den b.images i = den ([] : PArr (Fin b.len) d d) i := by
        rw [den_eq_iff]
        intro e
        rw [slice_ge ([] : PArr (Fin b.len) d d) (Nat.zero_le e)]
        by_cases he : e < b.images.length
        · rw [slice_lt _ he]; funext r s; exact hc _ (List.getElem_mem he) r s
        · rw [slice_ge _ (by omega)]
      rw [e]; funext r s; simp [den]
    rw [Polymat.denMod, this]
    funext r s
    simp
  rw [h0, eq_comm, T_smul_eq_iff, smul_zero] at hk
  exact hM _ (h.legal i) hk

theorem projlen_ok {L : Nat} {A : PArr (Fin L) d d} (hA : A ≠ []) : ∃ pl, projlen A = .ok pl := by
  obtain ⟨s, e, h1, -⟩ := startsEnds_spec A (by simpa using hA)
  exact ⟨_, by rw [projlen, h1, bind_ok]⟩

theorem TrueBatch.valid (hM : ∀ x, legal x → M x ≠ 0) (hT : c.Total) {b : Batch NF d} (h : TrueBatch p legal M b) : Valid c b := by
  refine ⟨?_, ?_, h.nonzero hM⟩
  · have hA : b.images ≠ [] := by
      intro e
      obtain ⟨S, hS, -⟩ := h.nonzero hM ⟨0, h.pos⟩
      rw [e] at hS; cases hS
    obtain ⟨pl, hpl⟩ := projlen_ok hA
    have : ∃ ex, (c.extra.mapM fun st => st b) = .ok ex := by
      obtain ⟨ex, h1, -⟩ := mapM_spec (fun st : Stat NF d Int => st b) (fun _ _ => True) c.extra fun st hst => by
        obtain ⟨f, hf⟩ := hT.extra st hst b
        exact ⟨f, hf, trivial⟩
      exact ⟨ex, h1⟩
    obtain ⟨ex, hex⟩ := this
    exact ⟨_, by rw [Config.tags, hpl, bind_ok, hex, bind_ok]⟩
  · rw [Config.weights]
    cases hw : c.weight with
    | none => exact ⟨_, rfl⟩
    | some st =>
      obtain ⟨f, hf, -⟩ := hT.weight st hw b
      exact ⟨f, hf⟩

theorem offersOf_true (hM : ∀ x, legal x → M x ≠ 0) (hT : c.Total) (hc : c.length = NF.canonicalLength) {b : Batch NF d} (h : TrueBatch p legal M b) :
    ∀ o ∈ offersOf c b, legal o.2.braid ∧ IsProjImage p o.2.image (fun _ => M o.2.braid) ∧ (NF.canonicalLength o.2.braid : ℤ) = o.1.1 ∧
      (c.method = .aChao → 0 < o.2.weight) := by
  obtain ⟨⟨tags, ht⟩, ⟨ws, hw⟩, -⟩ := h.valid hM hT
  intro o ho
  rw [offersOf, ht, hw] at ho
  obtain ⟨i, -, rfl⟩ := List.mem_map.1 ho
  have hP : ∃ P, projectivise (imgAt b.images i) = .ok P ∧ IsProjImage p P fun _ => M (b.braids i) := by
    refine project_spec (M := fun _ => M (b.braids i)) (fun u => ?_) ?_ fun _ => hM _ (h.legal i)
    · obtain ⟨k, hk⟩ := h.shift i
      exact ⟨k, by rw [← hk]; exact denMod_of_den (den_imgAt b.images i)⟩
    · intro hp S hS a r s
      obtain ⟨S', hS', rfl⟩ := List.mem_map.1 hS
      exact h.reduced hp S' hS' i r s
  obtain ⟨P, h1, h2⟩ := hP
  refine ⟨h.legal i, ?_, ?_, fun hm => ?_⟩
  · simp only [h1]; exact h2
  · rw [Config.tags] at ht
    cases hp : projlen b.images with
    | error e => rw [hp] at ht; cases ht
    | ok pl =>
      rw [hp, bind_ok] at ht
      cases hx : (c.extra.mapM fun st => st b) with
      | error e => rw [hx] at ht; cases ht
      | ok ex => rw [hx, bind_ok] at ht; cases ht; simp only [hc]
  · show 0 < ws i
    rw [Config.weights] at hw
    cases hwt : c.weight with
    | none => rw [hwt] at hw; cases hw; exact one_pos
    | some st =>
      rw [hwt] at hw
      obtain ⟨f, hf, hpos⟩ := hT.weight st hwt b
      have hw : st b = .ok ws := hw
      rw [hf] at hw; cases hw
      exact hpos hm i

theorem offeredSince_all (t : Tag) (Q : Offer NF d → Prop) : ∀ (ops : List (Op NF d)) (acc : List (Offer NF d)),
    (∀ b, Op.add b ∈ ops → ∀ o ∈ offersOf c b, o.1 = t → Q o.2) → (∀ o ∈ acc, Q o) → ∀ o ∈ offeredSince c t acc ops, Q o
  | [], acc, _, ha => ha
  | .add b :: ops, acc, h, ha => by
    rw [offeredSince]
    refine offeredSince_all t Q ops _ (fun b' hb' => h b' (by simp [hb'])) fun o ho => ?_
    rcases List.mem_append.1 ho with ho | ho
    · exact ha o ho
    · obtain ⟨x, hx, hxo⟩ := List.mem_filterMap.1 ho
      split at hxo
      · next e => cases hxo; exact h b (by simp) x hx e
      · cases hxo
  | .discard t' :: ops, acc, h, ha => by
    rw [offeredSince]
    refine offeredSince_all t Q ops _ (fun b' hb' => h b' (by simp [hb'])) fun o ho => ?_
    split at ho
    · cases ho
    · exact ha o ho

theorem run_append (g : Rng S) (c : Config NF d) : ∀ (ops ops' : List (Op NF d)) (st : Buckets NF d × S),
    run g c st (ops ++ ops') = (run g c st ops >>= fun st' => run g c st' ops')
  | [], ops', st => rfl
  | .add b :: ops, ops', st => by
    rw [List.cons_append, run, run]
    cases addBraidsImages g c st b with
    | error e => rfl
    | ok st1 => exact run_append g c ops ops' st1
  | .discard t :: ops, ops', st => run_append g c ops ops' (discardBucket st.1 t, st.2)

/-- A state reached from an empty tracker by offering right images, and discarding. -/
def Reach (g : Rng S) (c : Config NF d) (p : Nat) (legal : NF → Prop) (M : NF → LMat p d) (st : Buckets NF d × S) : Prop :=
  ∃ s ops, (∀ b, Op.add b ∈ ops → TrueBatch p legal M b) ∧ run g c ([], s) ops = .ok st

variable {g : Rng S}

theorem Reach.append {st st' : Buckets NF d × S} (h : Reach g c p legal M st) (ops : List (Op NF d))
    (hops : ∀ b, Op.add b ∈ ops → TrueBatch p legal M b) (hr : run g c st ops = .ok st') : Reach g c p legal M st' := by
  obtain ⟨s, ops0, h1, h2⟩ := h
  refine ⟨s, ops0 ++ ops, fun b hb => ?_, by rw [run_append, h2]; exact hr⟩
  rcases List.mem_append.1 hb with hb | hb
  · exact h1 b hb
  · exact hops b hb

/-- Adding a true batch never fails. -/
theorem Reach.add_ok (hM : ∀ x, legal x → M x ≠ 0) (hT : c.Total) (hc : c.length = NF.canonicalLength) (hcap : 1 ≤ c.capacity)
    {st : Buckets NF d × S} (h : Reach g c p legal M st) {b : Batch NF d} (hb : TrueBatch p legal M b) :
    ∃ st', addBraidsImages g c st b = .ok st' ∧ run g c st [Op.add b] = .ok st' ∧ Reach g c p legal M st' := by
  obtain ⟨s, ops, h1, h2⟩ := id h
  obtain ⟨r, hr⟩ := run_ok g c hcap (ops ++ [Op.add b]) s (inv_empty c)
    (fun b' hb' => by
      rcases List.mem_append.1 hb' with hb' | hb'
      · exact (h1 b' hb').valid hM hT
      · obtain rfl : b' = b := by simpa using hb'
        exact hb.valid hM hT)
    (fun hm => ⟨fun b' hb' o ho => by
      rcases List.mem_append.1 hb' with hb' | hb'
      · exact (offersOf_true hM hT hc (h1 b' hb') o ho).2.2.2 hm
      · obtain rfl : b' = b := by simpa using hb'
        exact (offersOf_true hM hT hc hb o ho).2.2.2 hm, by simp⟩)
  rw [run_append, h2, bind_ok] at hr
  refine ⟨r, ?_, hr, h.append [Op.add b] (fun b' hb' => by
    obtain rfl : b' = b := by simpa using hb'
    exact hb) hr⟩
  rw [run] at hr
  cases ha : addBraidsImages g c st b with
  | error e => rw [ha] at hr; cases hr
  | ok st' => rw [ha, bind_ok, run] at hr; exact hr

theorem Reach.bucket (hM : ∀ x, legal x → M x ≠ 0) (hT : c.Total) (hc : c.length = NF.canonicalLength) (hcap : 1 ≤ c.capacity)
    {st : Buckets NF d × S} (h : Reach g c p legal M st) {t : Tag} {b : Bucket Tag NF d} (hb : Dict.get? st.1 t = some b) :
    ∃ l, Holds b l ∧ l ≠ [] ∧ (b.width : ℤ) = t.2.1 ∧ ∀ o ∈ l, legal o.braid ∧ IsProjImage p o.image (fun _ => M o.braid) ∧
      (NF.canonicalLength o.braid : ℤ) = t.1 ∧ o.image.length = b.width := by
  obtain ⟨s, ops, h1, h2⟩ := h
  have hi := run_inv g c ops (inv_empty c) h2
  obtain ⟨-, hw, hne, l, hl⟩ := hi.some t b hb
  have hlne : l ≠ [] := by
    intro e
    have := hl.len
    have h0 : 0 < (offeredSince c t [] ops).length := List.length_pos_iff.2 hne
    rw [e, List.length_nil] at this
    omega
  have hall := offeredSince_all t (fun o => legal o.braid ∧ IsProjImage p o.image (fun _ => M o.braid) ∧ (NF.canonicalLength o.braid : ℤ) = t.1) ops [] (by
    intro b hb o ho e
    obtain ⟨k1, k2, k3, -⟩ := offersOf_true hM hT hc (h1 b hb) o ho
    exact ⟨k1, k2, by rw [← e]; exact k3⟩) (by simp)
  have hpos : ∀ o ∈ l, 0 < o.image.length := by
    intro o ho
    have := (hall o (hl.sub.subset ho)).2.1.first ()
    by_contra hc
    exact this (by rw [slice_ge _ (by omega)]; rfl)
  refine ⟨l, ⟨hl.has.hb, hl.has.hi, hl.has.hw⟩, hlne, ?_, fun o ho => ?_⟩
  · obtain ⟨o, ho⟩ := List.exists_mem_of_ne_nil l hlne
    have := hl.wd o (hl.sub.subset ho)
    have := hpos o ho
    omega
  · obtain ⟨k1, k2, k3⟩ := hall o (hl.sub.subset ho)
    exact ⟨k1, k2, k3, hl.wd o (hl.sub.subset ho)⟩

theorem Reach.sound (hM : ∀ x, legal x → M x ≠ 0) (hT : c.Total) (hc : c.length = NF.canonicalLength) (hcap : 1 ≤ c.capacity)
    {st : Buckets NF d × S} (h : Reach g c p legal M st) : Sound p legal M st.1 := by
  intro t b hb
  obtain ⟨s, ops, -, h2⟩ := id h
  have hi := run_inv g c ops (inv_empty c) h2
  obtain ⟨l, h1, h2, h3, h4⟩ := h.bucket hM hT hc hcap (Dict.get?_of_mem hi.nodup hb)
  exact ⟨l, h1, h2, fun o ho => ⟨(h4 o ho).1, (h4 o ho).2.1, (h4 o ho).2.2.1, by rw [(h4 o ho).2.2.2]; exact h3⟩⟩

/-! ### tensors of stored images -/

theorem slice_stack {W L : Nat} (f : Fin L → Img d) (hW : ∀ i, (f i).length = W) (k : Nat) (i : Fin L) :
    slice ((List.range W).map fun k l => slice (f l) k () : PArr (Fin L) d d) k i = slice (f i) k () := by
  by_cases h : k < W
  · rw [slice_lt _ (by simpa using h)]
    simp
  · rw [slice_ge _ (by simpa using h), slice_ge (f i) (by rw [hW]; omega)]; rfl

theorem denMod_stack {W L : Nat} (f : Fin L → Img d) (hW : ∀ i, (f i).length = W) (i : Fin L) :
    Polymat.denMod p ((List.range W).map fun k l => slice (f l) k () : PArr (Fin L) d d) i = Polymat.denMod p (f i) () := by
  apply denMod_of_den
  rw [den_eq_iff]
  exact fun k => slice_stack f hW k i

/-- Stacking projectivised images of one width. -/
theorem stack_image {W L : Nat} (hL : 0 < L) (f : Fin L → Img d) (N : Fin L → LMat p d) (hW : ∀ i, (f i).length = W)
    (h : ∀ i, IsProjImage p (f i) fun _ => N i) : IsProjImage p ((List.range W).map fun k l => slice (f l) k () : PArr (Fin L) d d) N := by
  refine ⟨fun a => ?_, ⟨⟨0, hL⟩, ?_⟩, ?_, fun a => ?_⟩
  · rw [slice_stack f hW]; exact (h a).first ()
  · rw [slice_stack f hW, List.length_map, List.length_range, ← hW ⟨0, hL⟩]
    obtain ⟨u, hu⟩ := (h ⟨0, hL⟩).last
    exact hu
  · intro hp S hS a r s
    obtain ⟨k, hk, rfl⟩ := List.mem_map.1 hS
    rw [List.mem_range, ← hW a] at hk
    show 0 ≤ slice (f a) k () r s ∧ slice (f a) k () r s < p
    rw [slice_lt _ hk]
    exact (h a).reduced hp _ (List.getElem_mem hk) () r s
  · obtain ⟨k, hk⟩ := (h a).shift ()
    exact ⟨k, by rw [denMod_stack f hW, hk]⟩

theorem flatMap_map_swap {α β γ : Type} (f : α → β → γ) (l : List α) (m : List β) :
    (l.flatMap fun a => m.map (f a)).Perm (m.flatMap fun b => l.map fun a => f a b) := by
  induction l with
  | nil => simp
  | cons a l ih =>
    rw [List.flatMap_cons]
    have e : (fun b => (a :: l).map fun a => f a b) = fun b => [f a b] ++ l.map fun a => f a b := rfl
    rw [e]
    refine (List.Perm.append_left _ ih).trans ?_
    refine List.Perm.trans ?_ (List.flatMap_append_perm m (fun b => [f a b]) fun b => l.map fun a => f a b)
    have e2 : ∀ m : List β, (m.flatMap fun b => [f a b]) = m.map (f a) := fun m => by
      induction m with
      | nil => rfl
      | cons b m ih => rw [List.flatMap_cons, ih]; rfl
    rw [e2]

end Bucketing
end Peyl
