import Verif.Lemmas.Bucketing
import Mathlib.Tactic.NormNum
/-!
# Properties of `peyl/bucketing.py` (C63-C67, C73, C74)

`run g c ([], s) ops` executes a history of operations on an empty tracker with random generator `g`; `offered c ops t` are the
(braid, projectivised image, weight) triples that this history offers with tag `t` since the last discard of `t`
(Verif/Spec/Bucketing.lean).
-/
namespace Peyl
open Bucketing
variable {S β : Type} {d : Nat}

/-! ## C63 -/

/-- C63: in every reachable state every bucket holds at most `bucket_capacity` braids. -/
theorem C63_capacity (g : Rng S) (c : Config β d) (s : S) (ops : List (Op β d)) (r : Buckets β d × S)
    (h : run g c ([], s) ops = .ok r) (t : Tag) (b : Bucket Tag β d) (hb : (t, b) ∈ r.1) :
    b.size ≤ b.capacity ∧ b.capacity = c.capacity := by
  have hi := run_inv g c ops (inv_empty c) h
  obtain ⟨-, -, -, l, hl⟩ := hi.some t b (Dict.get?_of_mem hi.nodup hb)
  exact ⟨by rw [Bucket.size, hl.has.size]; exact hl.has.le, hl.cap⟩

/-- C63: `append_braid` on a full bucket and `replace_braid` out of range raise ValueError. -/
theorem C63_errors (b : Bucket Tag β d) (x : β) (im : Img d) (w : ℚ) (i : ℤ) :
    (b.size = b.capacity → b.appendBraid x im w = .error .value) ∧
    (i < 0 ∨ b.size ≤ i → b.replaceBraid i x im w = .error .value) :=
  ⟨fun h => by rw [Bucket.appendBraid, if_pos h], fun h => by rw [Bucket.replaceBraid, if_neg (by omega)]⟩

/-- C63: neither error can be triggered through `add_braids_images`: with a capacity of at least one (and positive weights for
AChao) every history whose batches have computable statistics and no zero image runs without any exception. -/
theorem C63_no_error (g : Rng S) (c : Config β d) (s : S) (ops : List (Op β d)) (hc : 1 ≤ c.capacity)
    (hv : ∀ b, Op.add b ∈ ops → Valid c b)
    (hw : c.method = .aChao → ∀ b, Op.add b ∈ ops → ∀ o ∈ offersOf c b, 0 < o.2.weight) :
    ∃ r, run g c ([], s) ops = .ok r :=
  run_ok g c hc ops s (inv_empty c) hv fun hm => ⟨hw hm, by simp⟩

/-- C63: a batch with a zero image is rejected. -/
theorem C63_zero_image (g : Rng S) (c : Config β d) (st : Buckets β d × S) (b : Batch β d) (i : Fin b.len)
    (h : ∀ S ∈ b.images, ∀ r k, S i r k = 0) : ∃ e, addBraidsImages g c st b = .error e :=
  add_invalid g c st b fun hv => by
    obtain ⟨S', hS, r, k, hne⟩ := hv.2.2 i
    exact hne (h S' hS r k)

/-! ## C64 -/

/-- C64: each bucket is filed under its own tag, tags are distinct, and the bucket holds a sub-multiset of the triples offered
with that tag, at aligned indices. -/
theorem C64_contents (g : Rng S) (c : Config β d) (s : S) (ops : List (Op β d)) (r : Buckets β d × S)
    (h : run g c ([], s) ops = .ok r) :
    (r.1.map Prod.fst).Nodup ∧
    ∀ t b, (t, b) ∈ r.1 → b.tag = t ∧ ∃ l, Holds b l ∧ l.Subperm (offered c ops t) := by
  have hi := run_inv g c ops (inv_empty c) h
  refine ⟨hi.nodup, fun t b hb => ?_⟩
  obtain ⟨h1, h2, h3, l, hl⟩ := hi.some t b (Dict.get?_of_mem hi.nodup hb)
  exact ⟨h1, l, ⟨hl.has.hb, hl.has.hi, hl.has.hw⟩, hl.sub⟩

/-- C64: a bucket exists exactly for the tags with offers. -/
theorem C64_buckets (g : Rng S) (c : Config β d) (s : S) (ops : List (Op β d)) (r : Buckets β d × S)
    (h : run g c ([], s) ops = .ok r) (t : Tag) : (∃ b, (t, b) ∈ r.1) ↔ offered c ops t ≠ [] := by
  have hi := run_inv g c ops (inv_empty c) h
  constructor
  · rintro ⟨b, hb⟩
    exact (hi.some t b (Dict.get?_of_mem hi.nodup hb)).2.2.1
  · intro hne
    cases hg : Dict.get? r.1 t with
    | none => exact absurd (hi.none t hg) hne
    | some b => exact ⟨b, Dict.mem_of_get? hg⟩

/-- C64: all images in a bucket have exactly as many degrees as the projective length in the tag, so storing an image never
needs numpy's broadcasting. -/
theorem C64_widths (g : Rng S) (c : Config β d) (s : S) (ops : List (Op β d)) (r : Buckets β d × S)
    (h : run g c ([], s) ops = .ok r) (t : Tag) (b : Bucket Tag β d) (hb : (t, b) ∈ r.1) :
    (b.width : ℤ) = t.2.1 ∧ ∀ o ∈ offered c ops t, o.image.length = b.width := by
  have hi := run_inv g c ops (inv_empty c) h
  obtain ⟨h1, h2, h3, l, hl⟩ := hi.some t b (Dict.get?_of_mem hi.nodup hb)
  have hl' : ∀ o ∈ offered c ops t, o.image.length = b.width := hl.wd
  refine ⟨?_, hl'⟩
  rw [h2]
  by_contra hneg
  -- a negative projective length cannot be a tag
  have hn : t.2.1 < 0 := by omega
  have key : ∀ (ops : List (Op β d)) (acc : List (Offer β d)), (∀ o ∈ acc, (o.image.length : ℤ) = t.2.1) →
      (∀ b, Op.add b ∈ ops → Valid c b) → ∀ o ∈ offeredSince c t acc ops, (o.image.length : ℤ) = t.2.1 := by
    intro ops
    induction ops with
    | nil => intro acc ha _; exact ha
    | cons op ops ih =>
      intro acc ha hv
      cases op with
      | add b =>
        refine ih _ (fun o ho => ?_) fun b' hb' => hv b' (List.mem_cons_of_mem _ hb')
        rcases List.mem_append.1 ho with ho | ho
        · exact ha o ho
        · obtain ⟨o', ho', e⟩ := List.mem_filterMap.1 ho
          split at e
          · next e' => cases e; rw [← e']; exact (add_eq_feed g c ([], s) b (hv b List.mem_cons_self)).2 o' ho'
          · cases e
      | discard t' =>
        refine ih _ (fun o ho => ?_) fun b' hb' => hv b' (List.mem_cons_of_mem _ hb')
        split at ho
        · cases ho
        · exact ha o ho
  have hval : ∀ (ops : List (Op β d)) (st : Buckets β d × S), run g c st ops = .ok r → ∀ b, Op.add b ∈ ops → Valid c b := by
    intro ops
    induction ops with
    | nil => intro st _ b hb; cases hb
    | cons op ops ih =>
      intro st hok b hb
      cases op with
      | add b' =>
        rw [run] at hok
        by_cases hv : Valid c b'
        · cases ha : addBraidsImages g c st b' with
          | error e => rw [ha] at hok; cases hok
          | ok st' =>
            rw [ha, bind_ok] at hok
            rcases List.mem_cons.1 hb with e | hb
            · cases e; exact hv
            · exact ih st' hok b hb
        · obtain ⟨e, he⟩ := add_invalid g c st b' hv
          rw [he] at hok; cases hok
      | discard t' =>
        rw [run] at hok
        rcases List.mem_cons.1 hb with e | hb
        · cases e
        · exact ih _ hok b hb
  obtain ⟨o, ho⟩ := List.exists_mem_of_ne_nil _ h3
  have := key ops [] (by simp) (hval ops _ h) o ho
  omega

/-! ## C65 -/

/-- C65: the reservoir counters, and the size of the bucket. -/
theorem C65_counters (g : Rng S) (c : Config β d) (s : S) (ops : List (Op β d)) (r : Buckets β d × S)
    (h : run g c ([], s) ops = .ok r) (t : Tag) (b : Bucket Tag β d) (hb : (t, b) ∈ r.1) :
    b.reservoirCount = (offered c ops t).length ∧ b.reservoirWeight = ((offered c ops t).map Offer.weight).sum ∧
      b.size = min b.reservoirCount c.capacity := by
  have hi := run_inv g c ops (inv_empty c) h
  obtain ⟨h1, h2, h3, l, hl⟩ := hi.some t b (Dict.get?_of_mem hi.nodup hb)
  refine ⟨hl.cnt, hl.wt, ?_⟩
  rw [Bucket.size, hl.has.size, hl.len, hl.cnt]

/-! ## C66 -/

/-- C66: with EvictMin the triples not kept (`rest`) are no heavier than any kept one. -/
theorem C66_evict_min (g : Rng S) (c : Config β d) (hm : c.method = .evictMin) (s : S) (ops : List (Op β d)) (r : Buckets β d × S)
    (h : run g c ([], s) ops = .ok r) (t : Tag) (b : Bucket Tag β d) (hb : (t, b) ∈ r.1) :
    ∃ l rest, Holds b l ∧ l.length = min (offered c ops t).length c.capacity ∧ (l ++ rest).Perm (offered c ops t) ∧
      ∀ x ∈ rest, ∀ y ∈ l, x.weight ≤ y.weight := by
  have hi := run_inv g c ops (inv_empty c) h
  obtain ⟨h1, h2, h3, l, hl⟩ := hi.some t b (Dict.get?_of_mem hi.nodup hb)
  obtain ⟨-, -, rest, k1, k2⟩ := hl.evict hm
  exact ⟨l, rest, ⟨hl.has.hb, hl.has.hi, hl.has.hw⟩, hl.len, k1, k2⟩

/-! ## C67 -/

/-- C67: with GreedyFirst a bucket holds exactly the first `capacity` triples offered, in order. -/
theorem C67_greedy_first (g : Rng S) (c : Config β d) (hm : c.method = .greedyFirst) (s : S) (ops : List (Op β d))
    (r : Buckets β d × S) (h : run g c ([], s) ops = .ok r) (t : Tag) (b : Bucket Tag β d) (hb : (t, b) ∈ r.1) :
    Holds b ((offered c ops t).take c.capacity) := by
  have hi := run_inv g c ops (inv_empty c) h
  obtain ⟨h1, h2, h3, l, hl⟩ := hi.some t b (Dict.get?_of_mem hi.nodup hb)
  have := hl.greedy hm
  have e : l = (offered c ops t).take c.capacity := this
  rw [← e]
  exact ⟨hl.has.hb, hl.has.hi, hl.has.hw⟩

/-! ### examples -/

/-- A generator that always draws 0. -/
def zeroRng : Rng Unit := ⟨fun s => (0, s), fun s _ => (0, s), fun _ _ h => h⟩
def exampleConfig (m : Method) (cap : Nat) : Config Nat 1 := ⟨cap, m, fun b => b / 10, [], some fun b => .ok fun i => (b.braids i : ℚ)⟩
def exampleBatch : Batch Nat 1 := ⟨4, ![13, 11, 12, 27], [0, fun i _ _ => if i = 3 then 5 else 2, fun i _ _ => if i = 3 then 1 else 0]⟩
def observe (r : Except Err (Buckets Nat 1 × Unit)) : Except Err (List (Tag × List Nat × List ℚ)) :=
  r.map fun x => x.1.map fun tb => (tb.1, tb.2.braids, tb.2.weights)

example : observe (run zeroRng (exampleConfig .evictMin 2) ([], ()) [.add exampleBatch]) =
    .ok [((1, 1, []), [13, 12], [13, 12]), ((2, 2, []), [27], [27, 0])] := by decide +kernel
example : observe (run zeroRng (exampleConfig .greedyFirst 2) ([], ()) [.add exampleBatch]) =
    .ok [((1, 1, []), [13, 11], [13, 11]), ((2, 2, []), [27], [27, 0])] := by decide +kernel
example : observe (run zeroRng (exampleConfig .uniform 2) ([], ()) [.add exampleBatch, .discard (2, 2, [])]) =
    .ok [((1, 1, []), [12, 11], [12, 11])] := by decide +kernel
/-- C63: with capacity 0 EvictMin raises IndexError, and with zero weights AChao raises ZeroDivisionError (ValueError here). -/
example : observe (run zeroRng (exampleConfig .evictMin 0) ([], ()) [.add exampleBatch]) = .error .index := by decide +kernel
example : observe (run zeroRng { exampleConfig .aChao 2 with weight := some fun b => .ok fun i => 0 } ([], ()) [.add exampleBatch]) =
    .error .value := by decide +kernel

/-! ## C73 -/

/-- C73: `batched` partitions its input. -/
theorem C73_batched {γ : Type} (xs : List γ) (k : ℤ) (hk : 1 ≤ k) :
    ∃ cs, batched xs k = .ok cs ∧ cs.flatten = xs ∧ (∀ c ∈ cs, 1 ≤ c.length ∧ (c.length : ℤ) ≤ k) ∧
      ∀ c ∈ cs.dropLast, (c.length : ℤ) = k := by
  obtain ⟨h1, h2, h3⟩ := batchedLoop_spec (γ := γ) (k := k.toNat) (by omega) xs [] (by simp; omega)
  refine ⟨_, by rw [batched, if_pos hk], by simpa using h1, fun c hc => ?_, fun c hc => ?_⟩
  · have := h2 c hc; omega
  · have := h3 c hc; omega

/-- C73: a chunk length below one raises AssertionError. -/
theorem C73_batched_error {γ : Type} (xs : List γ) (k : ℤ) (hk : k < 1) : batched xs k = .error .assertion := by
  rw [batched, if_neg (by omega)]

example : batched [1, 2, 3, 4, 5] 2 = .ok [[1, 2], [3, 4], [5]] := by decide +kernel

/-! ## C74 -/

theorem hash_loop (hash : Img d → ℤ) : ∀ (xs : List (β × Img d)) (hs : List (ℤ × List β)), (hs.map Prod.fst).Nodup →
    let r := xs.foldl (init := hs) fun hs x =>
      let hs' := if !Dict.has hs (hash x.2) then Dict.set hs (hash x.2) [] else hs
      Dict.set hs' (hash x.2) (((Dict.get? hs' (hash x.2)).getD []) ++ [x.1])
    (r.map Prod.fst).Nodup ∧ ∀ k, Dict.get? r k =
      if (Dict.get? hs k).isSome ∨ ∃ x ∈ xs, hash x.2 = k then
        some ((Dict.get? hs k).getD [] ++ (xs.filter fun x => hash x.2 = k).map Prod.fst) else none
  | [], hs, hn => by
    refine ⟨hn, fun k => ?_⟩
    cases h : Dict.get? hs k <;> simp [h]
  | x :: xs, hs, hn => by
    have hn' : ((Dict.set (if !Dict.has hs (hash x.2) then Dict.set hs (hash x.2) [] else hs) (hash x.2)
        (((Dict.get? (if !Dict.has hs (hash x.2) then Dict.set hs (hash x.2) [] else hs) (hash x.2)).getD []) ++ [x.1])).map Prod.fst).Nodup := by
      refine Dict.nodup_set _ _ ?_
      split
      · exact Dict.nodup_set _ _ hn
      · exact hn
    have hg : ∀ k, Dict.get? (Dict.set (if !Dict.has hs (hash x.2) then Dict.set hs (hash x.2) [] else hs) (hash x.2)
        (((Dict.get? (if !Dict.has hs (hash x.2) then Dict.set hs (hash x.2) [] else hs) (hash x.2)).getD []) ++ [x.1])) k =
        if hash x.2 = k then some ((Dict.get? hs k).getD [] ++ [x.1]) else Dict.get? hs k := by
      intro k
      rw [Dict.get?_set]
      cases hh : Dict.has hs (hash x.2) with
      | true =>
        simp only [Bool.not_true, Bool.false_eq_true, if_false]
        by_cases e : hash x.2 = k
        · subst e; simp
        · simp [e]
      | false =>
        simp only [Bool.not_false, if_true, Dict.get?_set]
        by_cases e : hash x.2 = k
        · subst e; simp [Dict.not_has.1 hh]
        · simp [e]
    obtain ⟨h1, h2⟩ := hash_loop hash xs _ hn'
    refine ⟨h1, fun k => ?_⟩
    rw [List.foldl_cons]
    rw [h2 k, hg k]
    by_cases e : hash x.2 = k
    · subst e; simp
    · rw [if_neg e]
      have he : (∃ y ∈ x :: xs, hash y.2 = k) ↔ ∃ y ∈ xs, hash y.2 = k := by
        constructor
        · rintro ⟨y, hy, h⟩
          rcases List.mem_cons.1 hy with rfl | hy
          · exact absurd h e
          · exact ⟨y, hy, h⟩
        · rintro ⟨y, hy, h⟩; exact ⟨y, List.mem_cons_of_mem _ hy, h⟩
      simp only [he]
      rw [List.filter_cons_of_neg (by simpa using e)]

/-- C74: `hash_bucket` lists under each hash value exactly the braids whose stored image has that hash, in the order of the
bucket; hence every braid of the bucket is listed once and braids with equal images under the same key. -/
theorem C74_hash_bucket (hash : Img d → ℤ) (bs : Buckets β d) (t : Tag) (b : Bucket Tag β d) (hb : Dict.get? bs t = some b) :
    ∃ hs, hashBucket hash bs t = .ok hs ∧ (hs.map Prod.fst).Nodup ∧
      (∀ k l, (k, l) ∈ hs ↔ (∃ x ∈ b.braidsImages.1.zip b.braidsImages.2, hash x.2 = k) ∧
        l = ((b.braidsImages.1.zip b.braidsImages.2).filter fun x => hash x.2 = k).map Prod.fst) := by
  have hhas : Dict.has bs t = true := Dict.has_iff.2 ⟨b, hb⟩
  refine ⟨_, by rw [hashBucket, hhas, pyAssert, if_pos rfl, bind_ok, Dict.get, hb, bind_ok], ?_⟩
  obtain ⟨h1, h2⟩ := hash_loop hash (b.braidsImages.1.zip b.braidsImages.2) [] (by simp)
  refine ⟨h1, fun k l => ?_⟩
  have h0 : Dict.get? ([] : List (ℤ × List β)) k = none := rfl
  constructor
  · intro hm
    have := Dict.get?_of_mem h1 hm
    rw [h2, h0] at this
    split at this
    · next hc => cases this; exact ⟨by simpa using hc, by simp⟩
    · cases this
  · rintro ⟨hx, rfl⟩
    refine Dict.mem_of_get? ?_
    rw [h2, h0, if_pos (Or.inr hx)]; simp

/-- C74: an unknown bucket raises AssertionError. -/
theorem C74_missing (hash : Img d → ℤ) (bs : Buckets β d) (t : Tag) (hb : Dict.get? bs t = none) :
    hashBucket hash bs t = .error .assertion := by
  rw [hashBucket, Dict.not_has.2 hb]; rfl

example : ((run zeroRng (exampleConfig .greedyFirst 9) ([], ()) [.add exampleBatch]).bind fun r =>
    hashBucket (fun im => (im.map fun S => S () 0 0).sum % 2) r.1 (1, 1, [])) = .ok [(0, [13, 11, 12])] := by decide +kernel

end Peyl
