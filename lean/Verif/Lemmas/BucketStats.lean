import Verif.Model.BucketStats
import Verif.Lemmas.Bucketing
/-!
# Unused weight slots are zero
-/
namespace Peyl
namespace Bucketing
variable {S β : Type} {d : Nat}

theorem mem_set {κ υ : Type} [DecidableEq κ] {D : List (κ × υ)} {k : κ} {v : υ} {x : κ × υ} (h : x ∈ Dict.set D k v) : x ∈ D ∨ x = (k, v) := by
  rw [Dict.set] at h
  split at h
  · obtain ⟨y, hy, rfl⟩ := List.mem_map.1 h
    split
    · exact .inr rfl
    · exact .inl hy
  · rcases List.mem_append.1 h with h | h
    · exact .inl h
    · exact .inr (List.mem_singleton.1 h)

/-- A property of buckets that creation and offers establish and keep holds for all buckets of all histories. -/
theorem run_all (g : Rng S) (c : Config β d) (P : Bucket Tag β d → Prop) (hcreate : ∀ tag w, P (Bucket.create tag c.capacity w))
    (hoffer : ∀ s b x im w r, P b → offer g c.method s b x im w = .ok r → P r.1) :
    ∀ (ops : List (Op β d)) (st r : Buckets β d × S), (∀ tb ∈ st.1, P tb.2) → run g c st ops = .ok r → ∀ tb ∈ r.1, P tb.2
  | [], st, r, h, e => by cases e; exact h
  | .discard t :: ops, st, r, h, e => by
    refine run_all g c P hcreate hoffer ops _ r (fun tb htb => ?_) e
    rw [discardBucket] at htb
    split at htb
    · exact h tb (List.mem_filter.1 htb).1
    · exact h tb htb
  | .add b :: ops, st, r, h, e => by
    rw [run] at e
    cases ha : addBraidsImages g c st b with
    | error er => rw [ha] at e; cases e
    | ok st1 =>
      rw [ha, bind_ok] at e
      refine run_all g c P hcreate hoffer ops st1 r (fun tb htb => ?_) e
      rw [addBraidsImages] at ha
      cases h1 : c.tags b with
      | error er => rw [h1] at ha; cases ha
      | ok tags =>
        cases h2 : c.weights b with
        | error er => rw [h1, h2] at ha; cases ha
        | ok ws =>
          cases h3 : Polymat.projStartsEnds b.images with
          | error er => rw [h1, h2, h3] at ha; cases ha
          | ok se =>
            rw [h1, h2, h3] at ha
            simp only [bind_ok] at ha
            have key : ∀ (is : List (Fin b.len)) (st st1 : Buckets β d × S), (∀ tb ∈ st.1, P tb.2) →
                is.foldlM (fun st i => step g c st (tags i) (b.braids i) (chop b.images i (se.1 i) (se.2 i)) (ws i)) st = .ok st1 → ∀ tb ∈ st1.1, P tb.2 := by
              intro is
              induction is with
              | nil => intro st st1 h e; cases e; exact h
              | cons i is ih =>
                intro st st1 h e
                rw [List.foldlM_cons] at e
                cases hs : step g c st (tags i) (b.braids i) (chop b.images i (se.1 i) (se.2 i)) (ws i) with
                | error er => rw [hs] at e; cases e
                | ok st2 =>
                  rw [hs, bind_ok] at e
                  refine ih st2 st1 ?_ e
                  rw [step] at hs
                  have hbs : ∀ tb ∈ (if !Dict.has st.1 (tags i) then Dict.set st.1 (tags i) (Bucket.create (tags i) c.capacity (chop b.images i (se.1 i) (se.2 i)).length) else st.1),
                      P tb.2 := by
                    intro tb htb
                    split at htb
                    · rcases mem_set htb with htb | rfl
                      · exact h tb htb
                      · exact hcreate _ _
                    · exact h tb htb
                  revert hs
                  generalize (if !Dict.has st.1 (tags i) then Dict.set st.1 (tags i) (Bucket.create (tags i) c.capacity (chop b.images i (se.1 i) (se.2 i)).length) else st.1) = bs at hbs ⊢
                  intro hs
                  cases hg : Dict.get? bs (tags i) with
                  | none => rw [Dict.get, hg] at hs; cases hs
                  | some bk =>
                    rw [Dict.get, hg] at hs
                    simp only [bind_ok] at hs
                    cases ho : offer g c.method st.2 bk (b.braids i) (chop b.images i (se.1 i) (se.2 i)) (ws i) with
                    | error er => rw [ho] at hs; cases hs
                    | ok r' =>
                      rw [ho, bind_ok] at hs
                      cases hs
                      intro tb htb
                      rcases mem_set htb with htb | rfl
                      · exact hbs tb htb
                      · exact hoffer _ _ _ _ _ _ (hbs _ (Dict.mem_of_get? hg)) ho
            exact key _ st st1 h ha tb htb

/-- The weights of the slots that are not in use are zero. -/
def WZ (b : Bucket Tag β d) : Prop := ∀ i (h : i < b.weights.length), b.size ≤ i → b.weights[i] = 0

theorem append_wz {b : Bucket Tag β d} {x : β} {im : Img d} {w : ℚ} {r : Bucket Tag β d × Nat} (h : WZ b) (e : b.appendBraid x im w = .ok r) : WZ r.1 := by
  rw [Bucket.appendBraid] at e
  split at e
  · cases e
  · cases ha : assignImg b.width im with
    | error er => rw [ha] at e; cases e
    | ok img =>
      rw [ha, bind_ok] at e
      cases e
      intro i hi hsz
      simp only [Bucket.size, List.length_append, List.length_singleton, List.length_set] at hsz hi ⊢
      rw [List.getElem_set_ne (by omega)]
      exact h i hi (by rw [Bucket.size]; omega)

theorem replace_wz {b b' : Bucket Tag β d} {k : Int} {x : β} {im : Img d} {w : ℚ} (h : WZ b) (e : b.replaceBraid k x im w = .ok b') : WZ b' := by
  rw [Bucket.replaceBraid] at e
  split at e
  · next hk =>
    cases ha : assignImg b.width im with
    | error er => rw [ha] at e; cases e
    | ok img =>
      rw [ha, bind_ok] at e
      cases e
      intro i hi hsz
      simp only [Bucket.size, List.length_set] at hsz hi ⊢
      rw [List.getElem_set_ne (by rw [Bucket.size] at hk; omega)]
      exact h i hi (by rw [Bucket.size]; omega)
  · cases e

theorem offer_wz (g : Rng S) (m : Method) (s : S) (b : Bucket Tag β d) (x : β) (im : Img d) (w : ℚ) (r : Bucket Tag β d × S) (h : WZ b)
    (e : offer g m s b x im w = .ok r) : WZ r.1 := by
  have h' : WZ (b.showReservoir w) := h
  have happ : ∀ r', (b.showReservoir w).appendBraid x im w = .ok r' → WZ r'.1 := fun r' => append_wz h'
  have hrep : ∀ k b', (b.showReservoir w).replaceBraid k x im w = .ok b' → WZ b' := fun k b' => replace_wz h'
  have hrep2 : ∀ hp k b', ({ b.showReservoir w with heap := hp } : Bucket Tag β d).replaceBraid k x im w = .ok b' → WZ b' :=
    fun hp k b' => replace_wz (b := { b.showReservoir w with heap := hp }) h'
  rw [offer.eq_def] at e
  revert e
  generalize b.showReservoir w = bb at *
  intro e
  cases m with
  | greedyFirst =>
    simp only at e
    split at e
    · cases ha : bb.appendBraid x im w with
      | error er => rw [ha] at e; cases e
      | ok r' => rw [ha, bind_ok] at e; cases e; exact happ _ ha
    · cases e; exact h'
  | uniform =>
    simp only at e
    split at e
    · cases ha : bb.appendBraid x im w with
      | error er => rw [ha] at e; cases e
      | ok r' => rw [ha, bind_ok] at e; cases e; exact happ _ ha
    · cases hq : fdiv bb.capacity bb.reservoirCount with
      | error er => rw [hq] at e; cases e
      | ok q =>
        rw [hq, bind_ok] at e
        split at e
        · cases hg : g.draw (g.random s).2 bb.capacity with
          | error er => rw [hg] at e; cases e
          | ok rs =>
            rw [hg, bind_ok] at e
            cases hr : bb.replaceBraid rs.1 x im w with
            | error er => rw [hr] at e; cases e
            | ok b' => rw [hr, bind_ok] at e; cases e; exact hrep _ _ hr
        · cases e; exact h'
  | aChao =>
    simp only at e
    split at e
    · cases ha : bb.appendBraid x im w with
      | error er => rw [ha] at e; cases e
      | ok r' => rw [ha, bind_ok] at e; cases e; exact happ _ ha
    · cases hq : fdiv w bb.reservoirWeight with
      | error er => rw [hq] at e; cases e
      | ok q =>
        rw [hq, bind_ok] at e
        split at e
        · cases hg : g.draw (g.random s).2 bb.capacity with
          | error er => rw [hg] at e; cases e
          | ok rs =>
            rw [hg, bind_ok] at e
            cases hr : bb.replaceBraid rs.1 x im w with
            | error er => rw [hr] at e; cases e
            | ok b' => rw [hr, bind_ok] at e; cases e; exact hrep _ _ hr
        · cases e; exact h'
  | evictMin =>
    simp only at e
    split at e
    · cases ha : bb.appendBraid x im w with
      | error er => rw [ha] at e; cases e
      | ok r' => rw [ha, bind_ok] at e; cases e; exact happ _ ha
    · split at e
      · cases e
      · split at e
        · rename_i rest _ _
          cases hr : ({ bb with heap := heapPush (w, _) rest } : Bucket Tag β d).replaceBraid _ x im w with
          | error er => rw [hr] at e; cases e
          | ok b' => rw [hr, bind_ok] at e; cases e; exact hrep2 _ _ _ hr
        · cases e; exact h'

end Bucketing
end Peyl
