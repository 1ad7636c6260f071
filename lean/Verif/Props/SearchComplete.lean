import Verif.Lemmas.SearchComplete
import Verif.Props.Search
import Verif.Props.Jones
/-!
# Completeness of `search.py` (C82)

While buckets and budget are larger than the number of braids, the search is exhaustive: nothing is missed.
-/
namespace Peyl
open BraidSearch Search LaurentPolynomial
variable {S : Type} {d : Nat} {sm : Summand d} {τ : Braid sm.n →* LMat sm.p d} {lim : Nat} {ω : List Nat → List Nat → Nat → Nat}

/-- What `search.py` prints for a braid. -/
noncomputable def printed (n : Nat) (x : NF) : ℤ × List (List Nat) := (x.power, x.factors.map fun f => wordOf (permAt n f))

/-- The printed form determines the braid. -/
theorem printed_inj {n : Nat} (hn : 2 ≤ n) (hl : n < lim) {x y : NF} (hx : IsGNF lim ω n x) (hy : IsGNF lim ω n y) (h : printed n x = printed n y) : x = y := by
  obtain ⟨t, R⟩ := exists_greal lim ω hn hl
  have vx := R.isGNF_iff.1 hx
  have vy := R.isGNF_iff.1 hy
  have h1 : x.power = y.power := congrArg Prod.fst h
  have h2 : (x.factors.map fun f => wordOf (permAt n f)) = y.factors.map fun f => wordOf (permAt n f) := congrArg Prod.snd h
  have key : ∀ l l' : List Nat, (∀ f ∈ l, f < t.order) → (∀ f ∈ l', f < t.order) → (l.map fun f => wordOf (permAt n f)) = l'.map (fun f => wordOf (permAt n f)) → l = l' := by
    intro l
    induction l with
    | nil => intro l' _ _ e; exact (List.map_eq_nil_iff.1 e.symm).symm
    | cons a l ih =>
      intro l' k1 k2 e
      cases l' with
      | nil => simp at e
      | cons b l' =>
        simp only [List.map_cons, List.cons.injEq] at e
        rw [R.1.spec.inj a b (k1 a (by simp)) (k2 b (by simp)) (wordOf_injective e.1), ih l' (fun f hf => k1 f (by simp [hf])) (fun f hf => k2 f (by simp [hf])) e.2]
  have h3 := key _ _ vx.inR vy.inR h2
  have h4 := vx.n_eq
  have h5 := vy.n_eq
  cases x; cases y; simp_all

/-- C82: `search.py` with `1 ≤ bootstrap_length`, `1 ≤ step_size`, and for every length `m ≤ M` the number of braids of length `m`
smaller than the bucket size and at most `--use-best`: every round for a length `L ≤ M` reports every near-kernel braid with
Δ-power zero and length `L`, and the first round reports every one of length at most `bootstrap_length`. -/
theorem C82_complete (hn : 2 ≤ sm.n) (hl : sm.n < lim) (H : SummandRealises sm τ) (hF : FullTwistScalar τ) (hd : 0 < d) (hp : sm.p ≠ 1)
    (a : Args) (hboot : 1 ≤ a.bootstrapLength) (hstep : 1 ≤ a.stepSize) (size : Nat) (rank : (Fin d → Fin d → ℤ) → Nat) (g : Rng S) (seed : S)
    (ord : ℤ → List Row → List Row) (ho : ∀ L l, (ord L l).Perm l) (M : Nat)
    (hM : ∀ m, 1 ≤ m → m ≤ M → ∃ k, NF.countAllOfLength (GNF.tbl lim ω) sm.n m = .ok k ∧ k < size ∧ (k : ℤ) ≤ a.useBest)
    (outs : List (ℤ × Out)) (st' : State S NF d) (hmain : Search.main (GNF.tbl lim ω) a sm size rank g seed ord = .ok (outs, st'))
    (x : NF) (hx : IsGNF lim ω sm.n x) (hx0 : x.power = 0) (hx1 : 1 ≤ x.factors.length) (hxM : x.factors.length ≤ M)
    (hnk : NearKernel τ (gnfBraid sm.n x)) :
    (∀ o ∈ outs, o.1 = x.factors.length → printed sm.n x ∈ o.2.found) ∧
    (x.factors.length ≤ a.bootstrapLength → ∀ o, outs.head? = some o → printed sm.n x ∈ o.2.found) := by
  have hsz : 1 ≤ size := by obtain ⟨k, -, h, -⟩ := hM _ hx1 hxM; omega
  set c : Config S NF d :=
    { size := size, length := NF.canonicalLength, criterion := fun _ rows i => decide (1 ≤ (rows i).length), rank := rank, rand := some g } with hcdef
  have hcrit : ∀ L rows i, 1 ≤ (rows i).length → c.criterion L rows i = true := fun L rows i h => by simpa [hcdef] using h
  have hM' : ∀ m, 1 ≤ m → m ≤ M → ∃ k, AtMost lim ω sm.n k m ∧ k < c.size ∧ (k : ℤ) ≤ a.useBest := by
    intro m m1 m2
    obtain ⟨k, k1, k2, k3⟩ := hM m m1 m2
    exact ⟨k, atMost_of_count hn hl k1, k2, k3⟩
  rw [Search.main] at hmain
  change (bootstrapExhaustive (GNF.tbl lim ω) sm c (State.init seed) a.bootstrapLength >>= _) = _ at hmain
  cases hb : bootstrapExhaustive (GNF.tbl lim ω) sm c (State.init seed) a.bootstrapLength with
  | error e => rw [hb] at hmain; cases hmain
  | ok st =>
    rw [hb, bind_ok] at hmain
    change loop (GNF.tbl lim ω) a sm c ord (lengths a) st = _ at hmain
    have hmain' := hmain
    rw [lengths] at hmain'
    obtain ⟨hr, hfull⟩ := bootstrap_full hn hl H hd hp hF hsz rfl hcrit a.bootstrapLength seed hb
    constructor
    · intro o ho' e
      refine loop_complete hn hl H hd hp hF hsz rfl hcrit a hstep ho hboot hM' _ _ hr ?_ hmain' o ho' x hx hx0 hx1 hxM e.symm hnk
      intro m m1 m2 m3 m4
      obtain ⟨k, k1, k2, -⟩ := hM' m m1 m2
      refine hfull m k m1 ?_ k1 k2
      rcases m4 with m4 | m4
      · exact m4
      · push_cast at m4; omega
    · intro hxb o ho'
      cases hls : lengths a with
      | nil => rw [hls] at hmain; cases hmain; cases ho'
      | cons L Ls =>
        rw [hls, loop] at hmain
        cases hrd : round (GNF.tbl lim ω) a sm c (ord L) L st with
        | error e => rw [hrd] at hmain; cases hmain
        | ok r =>
          rw [hrd, bind_ok] at hmain
          obtain ⟨k, k1, k2, -⟩ := hM' _ hx1 hxM
          have := round_found hn hl H hd hp hF hsz rfl a (ho L) hr hrd (hfull _ k hx1 hxb k1 k2 x hx hx0 rfl) hnk
          split at hmain
          · cases hmain
            simp only [List.head?_cons, Option.some.injEq] at ho'
            rw [← ho']; exact this
          · cases hrest : loop (GNF.tbl lim ω) a sm c ord Ls r.2 with
            | error e => rw [hrest] at hmain; cases hmain
            | ok rest =>
              rw [hrest, bind_ok] at hmain
              cases hmain
              simp only [List.head?_cons, Option.some.injEq] at ho'
              rw [← ho']; exact this

/-- C82: hence the whole run, if some near-kernel braid with Δ-power zero has length at most `M` and `499` (and the bootstrap length
is below `500`): without `--stop-at-projlen-1` every such braid is reported; with it, the run ends by reporting some near-kernel
braid. -/
theorem C82_run (hn : 2 ≤ sm.n) (hl : sm.n < lim) (H : SummandRealises sm τ) (hF : FullTwistScalar τ) (hd : 0 < d) (hp : sm.p ≠ 1)
    (a : Args) (hboot : 1 ≤ a.bootstrapLength) (hb5 : a.bootstrapLength < 500) (hstep : 1 ≤ a.stepSize) (size : Nat) (rank : (Fin d → Fin d → ℤ) → Nat)
    (g : Rng S) (seed : S) (ord : ℤ → List Row → List Row) (ho : ∀ L l, (ord L l).Perm l) (M : Nat)
    (hM : ∀ m, 1 ≤ m → m ≤ M → ∃ k, NF.countAllOfLength (GNF.tbl lim ω) sm.n m = .ok k ∧ k < size ∧ (k : ℤ) ≤ a.useBest) (hM1 : 1 ≤ M) :
    ∃ outs st', Search.main (GNF.tbl lim ω) a sm size rank g seed ord = .ok (outs, st') ∧
      ∀ x, IsGNF lim ω sm.n x → x.power = 0 → 1 ≤ x.factors.length → x.factors.length ≤ M → x.factors.length ≤ 499 → NearKernel τ (gnfBraid sm.n x) →
        (a.stopAtProjlen1 = false → ∃ o ∈ outs, printed sm.n x ∈ o.2.found) ∧ ∃ o ∈ outs, ∃ y ∈ o.2.found, ∃ z, IsGNF lim ω sm.n z ∧ y = printed sm.n z ∧ NearKernel τ (gnfBraid sm.n z) := by
  have hsz : 1 ≤ size := by obtain ⟨k, -, h, -⟩ := hM 1 le_rfl hM1; omega
  obtain ⟨outs, st', e1, -, -, -, e5, e6, e7, -⟩ := C72_main hn hl H hF hd hp a size hsz rank g seed ord ho
  refine ⟨outs, st', e1, fun x x1 x2 x3 x4 x5 x6 => ?_⟩
  obtain ⟨c1, c2⟩ := C82_complete hn hl H hF hd hp a hboot hstep size rank g seed ord ho M hM outs st' e1 x x1 x2 x3 x4 x6
  have hall : outs.map Prod.fst = Search.lengths a → ∃ o ∈ outs, printed sm.n x ∈ o.2.found := by
    intro h
    by_cases hxb : x.factors.length ≤ a.bootstrapLength
    · cases outs with
      | nil =>
        exfalso
        have := congrArg List.length h
        simp [Search.lengths] at this
        omega
      | cons o outs => exact ⟨o, by simp, c2 hxb o rfl⟩
    · have : (x.factors.length : ℤ) ∈ outs.map Prod.fst := by
        rw [h, Search.lengths]
        refine List.mem_map.2 ⟨((x.factors.length : ℤ) - (a.bootstrapLength - a.stepSize + 1 : ℤ)).toNat, List.mem_range.2 ?_, ?_⟩ <;> omega
      obtain ⟨o, o1, o2⟩ := List.mem_map.1 this
      exact ⟨o, o1, c1 o o1 o2⟩
  rcases e5 with e5 | ⟨o, o1, o2⟩
  · obtain ⟨o, o1, o2⟩ := hall e5
    exact ⟨fun _ => ⟨o, o1, o2⟩, o, o1, _, o2, x, x1, rfl, x6⟩
  · have hom := List.mem_of_getLast? o1
    obtain ⟨h1, h2⟩ := (e6 o hom).1 o2
    refine ⟨fun h => (by rw [h] at h1; cases h1), o, hom, ?_⟩
    obtain ⟨y, hy⟩ := List.exists_mem_of_ne_nil _ h2
    exact ⟨y, hy, e7 o hom y hy⟩

/-- C82 for the Jones representations: what `search.py n r p` does. -/
theorem C82_jones (n r p : Nat) (hn : 2 ≤ n) (hl : n < lim) (hr : 2 * r ≤ n) (hp : p ≠ 1)
    (a : Args) (hboot : 1 ≤ a.bootstrapLength) (hb5 : a.bootstrapLength < 500) (hstep : 1 ≤ a.stepSize) (hstop : a.stopAtProjlen1 = false) (size : Nat)
    (rank : (Fin (Jones.dimension n r) → Fin (Jones.dimension n r) → ℤ) → Nat) (g : Rng S) (seed : S) (ord : ℤ → List Row → List Row) (ho : ∀ L l, (ord L l).Perm l) (M : Nat) (hM1 : 1 ≤ M)
    (hM : ∀ m, 1 ≤ m → m ≤ M → ∃ k, NF.countAllOfLength (GNF.tbl lim ω) n m = .ok k ∧ k < size ∧ (k : ℤ) ≤ a.useBest) :
    ∃ (ρ : Braid n →* LMat p (Jones.dimension n r)) (G I : List Matrix) (sm : Summand (Jones.dimension n r)) (outs : List (ℤ × Out)) (st' : _),
      Jones.cellRep n r p = .ok ⟨n, p, G, I⟩ ∧ Realises (⟨n, p, G, I⟩ : RepBase (Jones.dimension n r)) ρ ∧ Jones.summand n r p = .ok sm ∧ Search.main (GNF.tbl lim ω) a sm size rank g seed ord = .ok (outs, st') ∧
      ∀ x, IsGNF lim ω n x → x.power = 0 → 1 ≤ x.factors.length → x.factors.length ≤ M → x.factors.length ≤ 499 →
        ((∃ o ∈ outs, printed n x ∈ o.2.found) ↔ NearKernel ρ (gnfBraid n x)) := by
  obtain ⟨ρ, G, I, gs, g1, g2, g3, g4, hF, hd⟩ := C54_hypotheses n r p hn hr
  have hsz : 1 ≤ size := by obtain ⟨k, -, h, -⟩ := hM 1 le_rfl hM1; omega
  obtain ⟨outs, st', e1, e2⟩ := C82_run (sm := ⟨n, p, gs⟩) hn hl g4 hF hd hp a hboot hb5 hstep size rank g seed ord ho M hM hM1
  obtain ⟨outs', st'', f1, -, -, -, -, -, f7, -⟩ := C72_main (sm := ⟨n, p, gs⟩) hn hl g4 hF hd hp a size hsz rank g seed ord ho
  rw [e1] at f1; cases f1
  refine ⟨ρ, G, I, _, outs, st', g1, g2, g3, e1, fun x x1 x2 x3 x4 x5 => ⟨?_, fun h => (e2 x x1 x2 x3 x4 x5 h).1 hstop⟩⟩
  rintro ⟨o, o1, o2⟩
  obtain ⟨z, z1, z2, z3⟩ := f7 o o1 _ o2
  rw [printed_inj hn hl x1 z1 z2]; exact z3

/-- The numbers of braids of length 1, 2, 3 on three strands are 4, 8, 16: with buckets of 17 braids and a budget of 16 the search
is exhaustive up to length 3. -/
example : ∀ m, 1 ≤ m → m ≤ 3 → ∃ k, NF.countAllOfLength (GNF.tbl 7 fun _ _ _ => 0) 3 m = .ok k ∧ k < 17 ∧ (k : ℤ) ≤ 16 := by
  intro m h1 h3
  interval_cases m
  · exact ⟨4, by decide +kernel, by norm_num, by norm_num⟩
  · exact ⟨8, by decide +kernel, by norm_num, by norm_num⟩
  · exact ⟨16, by decide +kernel, by norm_num, by norm_num⟩

end Peyl
