import Verif.Lemmas.SearchProgram
import Verif.Props.Search
import Verif.Props.Jones
import Verif.Props.JonesObject
/-!
# C140: which command lines of `search.py` run a search
-/
namespace Peyl
open BraidSearch Search LaurentPolynomial
variable {ω : List Nat → List Nat → Nat → Nat} {S : Type}

/-- C140: other arguments are refused. -/
theorem C140_accepts (n r p : ℤ) (h : ¬ (3 ≤ n ∧ n ≤ 7 ∧ 0 ≤ r ∧ 2 * r ≤ n ∧ 0 < p)) (a : Args) (size : Nat) (rank : ∀ d, (Fin d → Fin d → ℤ) → Nat)
    (g : Rng S) (seed : S) (ord : ℤ → List Row → List Row) : program (GNF.tbl 7 ω) n r p a size rank g seed ord = .error .assertion := by
  rw [program]
  by_cases h1 : 3 ≤ n ∧ n ≤ 7
  · by_cases h2 : 0 ≤ 2 * r ∧ 2 * r ≤ n
    · have h3 : ¬ 0 < p := fun hp => h ⟨h1.1, h1.2, by omega, h2.2, hp⟩
      simp only [pyAssert, h1.1, h1.2, h2.1, h2.2, h3, decide_true, decide_false, Bool.and_self, if_true, bind_ok]
      rfl
    · have : (decide (0 ≤ 2 * r) && decide (2 * r ≤ n)) = false := by simpa using h2
      simp only [pyAssert, h1.1, h1.2, this, decide_true, Bool.and_self, if_true, bind_ok]
      rfl
  · have : (decide (3 ≤ n) && decide (n ≤ 7)) = false := by simpa using h1
    simp only [pyAssert, this]
    rfl

/-- What is left after the checks. -/
theorem program_accepted (n r p : ℤ) (h : 3 ≤ n ∧ n ≤ 7 ∧ 0 ≤ r ∧ 2 * r ≤ n ∧ 0 < p) (a : Args) (size : Nat) (rank : ∀ d, (Fin d → Fin d → ℤ) → Nat)
    (g : Rng S) (seed : S) (ord : ℤ → List Row → List Row) : program (GNF.tbl 7 ω) n r p a size rank g seed ord = (do
      let _ ← NF.countAllOfGarsideLength (GNF.tbl 7 ω) n.toNat a.bootstrapLength
      let sm ← Jones.summand n.toNat r.toNat p.toNat
      let _ ← if 1 ≤ a.bootstrapLength then (⟨n, r, p⟩ : Jones.Obj).summandDimension else .ok 0
      let res ← main (GNF.tbl 7 ω) a sm size (rank _) g seed ord
      .ok res.1) := by
  obtain ⟨h1, h2, h3, h4, h5⟩ := h
  rw [program, (Jones.C125_init n r p).1 ⟨by omega, h4, by omega⟩]
  have h3' : 0 ≤ 2 * r := by omega
  simp only [pyAssert, h1, h2, h3', h4, h5, decide_true, Bool.and_self, if_true, bind_ok]

/-- C140: with three to six strands, a representation `r ≥ 1` and a modulus at least two the search runs to its end: its rounds go
through the lengths in turn up to the last one or the first with a near-kernel braid (if asked to stop there), and the braids it
reports have an image which is a power of `v` times a constant matrix.  Any modulus will do, prime or not.  The other accepted arguments are below. -/
theorem C140_runs_partial (n r p : Nat) (hn : 3 ≤ n) (hn' : n ≤ 6) (hr : 1 ≤ r) (hr' : 2 * r ≤ n) (hp : 2 ≤ p) (a : Args) (size : Nat) (hsz : 1 ≤ size)
    (rank : ∀ d, (Fin d → Fin d → ℤ) → Nat) (g : Rng S) (seed : S) (ord : ℤ → List Row → List Row) (ho : ∀ L l, (ord L l).Perm l) :
    ∃ (ρ : Braid n →* LMat p (Jones.dimension n r)) (G I : List Matrix) (outs : List (ℤ × Out)),
      Jones.cellRep n r p = .ok ⟨n, p, G, I⟩ ∧ Realises (⟨n, p, G, I⟩ : RepBase (Jones.dimension n r)) ρ ∧
      program (GNF.tbl 7 ω) n r p a size rank g seed ord = .ok outs ∧
      outs.map Prod.fst <+: Search.lengths a ∧
      (outs.map Prod.fst = Search.lengths a ∨ ∃ o, outs.getLast? = some o ∧ o.2.halt = true) ∧
      (∀ o ∈ outs, (o.2.halt = true ↔ a.stopAtProjlen1 = true ∧ o.2.found ≠ [])) ∧
      (∀ o ∈ outs, ∀ y ∈ o.2.found, ∃ x, IsGNF 7 ω n x ∧ y = (x.power, x.factors.map fun f => wordOf (permAt n f)) ∧
        NearKernel ρ (gnfBraid n x)) ∧
      (∀ o ∈ outs, o.2.saved = [] ∨ (o.2.saved.length : ℤ) ≤ a.saveBest) := by
  obtain ⟨ρ, G, I, gs, h1, h2, h3, h4, h5, h6⟩ := C54_hypotheses n r p (by omega) hr'
  obtain ⟨outs, st', m1, -, m2, -, m3, m4, m5, m6, -⟩ := C72_main (lim := 7) (ω := ω) (sm := ⟨n, p, gs⟩) (by show 2 ≤ n; omega) (by show n < 7; omega) h4 h5 h6
    (by show p ≠ 1; omega) a size hsz (rank _) g seed ord ho
  obtain ⟨xs, x1, x2, x3, x4⟩ := C16_all_of_length (lim := 7) (ω := ω) (by omega : 2 ≤ n) (by omega : n < 7) a.bootstrapLength 0
  have x4 : NF.countAllOfGarsideLength (GNF.tbl 7 ω) n a.bootstrapLength = .ok xs.length := x4
  refine ⟨ρ, G, I, outs, h1, h2, ?_, m2, m3, m4, m5, m6⟩
  rw [program_accepted n r p ⟨by omega, by omega, by omega, by omega, by omega⟩]
  simp only [Int.toNat_natCast]
  rw [x4, bind_ok, h3, bind_ok]
  have hd : ∃ k, (⟨n, r, p⟩ : Jones.Obj).summandDimension = .ok k := by
    simp only [Jones.Obj.summandDimension, Jones.mathComb]
    rw [if_neg (by omega), bind_ok, if_neg (by omega), bind_ok]
    exact ⟨_, rfl⟩
  obtain ⟨k, hk⟩ := hd
  rw [hk, m1]
  split <;> rfl

example (g : Rng Unit) := C140_runs_partial (ω := pop0) 4 1 5 (by decide) (by decide) (by decide) (by decide) (by decide) ⟨4, 30, 10, 2, true, true⟩ 50 (by decide)
  (fun _ _ => 0) g () (fun _ => id) (fun _ _ => .refl _)

/-- C140 is false for seven strands: the search announced by `assert 3 <= args.n <= 7` cannot build its table. -/
theorem C140_seven_refuted (r p : ℤ) (hr : 0 ≤ r) (hr' : r ≤ 3) (hp : 0 < p) (a : Args) (size : Nat) (rank : ∀ d, (Fin d → Fin d → ℤ) → Nat)
    (g : Rng S) (seed : S) (ord : ℤ → List Row → List Row) : program (GNF.tbl 7 ω) 7 r p a size rank g seed ord = .error .value := by
  rw [program_accepted 7 r p ⟨by omega, by omega, by omega, by omega, by omega⟩]
  have ht : GNF.tbl 7 ω 7 = .error .value := by show PermTable.create 7 ω 7 = _; rw [PermTable.create, if_pos (le_refl _)]
  rw [show (7 : ℤ).toNat = 7 from rfl, NF.countAllOfGarsideLength, NF.countAllOfLength, ht]
  rfl

example (g : Rng Unit) := C140_seven_refuted (ω := pop0) 1 5 (by decide) (by decide) (by decide) ⟨4, 30, 10, 2, true, true⟩ 50
  (fun _ _ => 0) g () (fun _ => id)

/-- C140 is false for `r = 0`: the dimension is `comb(n, 0) - comb(n, -1)`, and there is no `comb(n, -1)`. -/
theorem C140_trivial_refuted (n p : ℤ) (hn : 3 ≤ n) (hn' : n ≤ 6) (hp : 0 < p) (a : Args) (hb : 1 ≤ a.bootstrapLength) (size : Nat)
    (rank : ∀ d, (Fin d → Fin d → ℤ) → Nat) (g : Rng S) (seed : S) (ord : ℤ → List Row → List Row) :
    program (GNF.tbl 7 ω) n 0 p a size rank g seed ord = .error .value := by
  rw [program_accepted n 0 p ⟨by omega, by omega, by omega, by omega, by omega⟩]
  obtain ⟨xs, -, -, -, x4⟩ := C16_all_of_length (lim := 7) (ω := ω) (by omega : 2 ≤ n.toNat) (by omega : n.toNat < 7) a.bootstrapLength 0
  have x4 : NF.countAllOfGarsideLength (GNF.tbl 7 ω) n.toNat a.bootstrapLength = .ok xs.length := x4
  obtain ⟨_, _, _, gs, -, -, h3, -⟩ := C54_hypotheses n.toNat 0 p.toNat (by omega) (by omega)
  obtain ⟨y, y1, -, y3⟩ := Jones.C125_summand_trivial_refuted n p (by omega) (by omega)
  rw [(Jones.C125_init n 0 p).1 ⟨by omega, by omega, by omega⟩] at y1
  cases y1
  rw [x4, bind_ok, show (0 : ℤ).toNat = 0 from rfl, h3, bind_ok, if_pos hb, y3]
  rfl

example (g : Rng Unit) := C140_trivial_refuted (ω := pop0) 4 5 (by decide) (by decide) (by decide) ⟨4, 30, 10, 2, true, true⟩ (by decide) 50
  (fun _ _ => 0) g () (fun _ => id)

/-- C140 is false for the modulus one, which is accepted: modulo one every matrix is zero and has no projectivisation. -/
theorem C140_one_refuted (n r : Nat) (hn : 3 ≤ n) (hn' : n ≤ 6) (hr : 2 * r ≤ n) (a : Args) (hb : 1 ≤ a.bootstrapLength) (size : Nat)
    (rank : ∀ d, (Fin d → Fin d → ℤ) → Nat) (g : Rng S) (seed : S) (ord : ℤ → List Row → List Row) :
    ∀ outs, program (GNF.tbl 7 ω) n r 1 a size rank g seed ord ≠ .ok outs := by
  intro outs h
  rw [program_accepted n r 1 ⟨by omega, by omega, by omega, by omega, by omega⟩] at h
  obtain ⟨_, _, _, gs, -, -, h3, -⟩ := C54_hypotheses n r 1 (by omega) hr
  obtain ⟨_, -, h⟩ := bind_eq_ok.1 h
  obtain ⟨sm, hs, h⟩ := bind_eq_ok.1 h
  simp only [Int.toNat_natCast, show (1 : ℤ).toNat = 1 from rfl] at hs h
  rw [h3] at hs
  cases hs
  rw [if_pos hb] at h
  obtain ⟨_, -, h⟩ := bind_eq_ok.1 h
  obtain ⟨res, hm, -⟩ := bind_eq_ok.1 h
  rw [main] at hm
  obtain ⟨st, hst, -⟩ := bind_eq_ok.1 hm
  exact bootstrap_one _ rfl hn (by show n < 7; omega) _ _ _ hb _ hst

example (g : Rng Unit) := C140_one_refuted (ω := pop0) 4 1 (by decide) (by decide) (by decide) ⟨4, 30, 10, 2, true, true⟩ (by decide) 50
  (fun _ _ => 0) g () (fun _ => id)

/-- C140 is false for `--bucket-size 0`: the first braid does not fit into its bucket. -/
theorem C140_bucket_refuted (n r p : Nat) (hn : 3 ≤ n) (hn' : n ≤ 6) (hr : 2 * r ≤ n) (hp : 1 ≤ p) (a : Args) (hb : 1 ≤ a.bootstrapLength)
    (rank : ∀ d, (Fin d → Fin d → ℤ) → Nat) (g : Rng S) (seed : S) (ord : ℤ → List Row → List Row) :
    ∀ outs, program (GNF.tbl 7 ω) n r p a 0 rank g seed ord ≠ .ok outs := by
  intro outs h
  rw [program_accepted n r p ⟨by omega, by omega, by omega, by omega, by omega⟩] at h
  obtain ⟨_, _, _, gs, -, -, h3, -⟩ := C54_hypotheses n r p (by omega) hr
  obtain ⟨_, -, h⟩ := bind_eq_ok.1 h
  obtain ⟨sm, hs, h⟩ := bind_eq_ok.1 h
  simp only [Int.toNat_natCast] at hs h
  rw [h3] at hs
  cases hs
  rw [if_pos hb] at h
  obtain ⟨_, -, h⟩ := bind_eq_ok.1 h
  obtain ⟨res, hm, -⟩ := bind_eq_ok.1 h
  rw [main] at hm
  obtain ⟨st, hst, -⟩ := bind_eq_ok.1 hm
  exact bootstrap_zero _ hn (by show n < 7; omega) _ _ _ _ hb _ hst

example (g : Rng Unit) := C140_bucket_refuted (ω := pop0) 4 1 5 (by decide) (by decide) (by decide) (by decide) ⟨4, 30, 10, 2, true, true⟩ (by decide)
  (fun _ _ => 0) g () (fun _ => id)

/-- C140: with `--bootstrap-length 0` every accepted command line on at most six strands, also with `r = 0` or the modulus one, goes through
all its rounds without a braid: it finds nothing, selects nothing and saves nothing. -/
theorem C140_no_bootstrap (n r p : ℤ) (h : 3 ≤ n ∧ n ≤ 6 ∧ 0 ≤ r ∧ 2 * r ≤ n ∧ 0 < p) (a : Args) (hb : a.bootstrapLength = 0) (size : Nat)
    (rank : ∀ d, (Fin d → Fin d → ℤ) → Nat) (g : Rng S) (seed : S) (ord : ℤ → List Row → List Row) (ho : ∀ L l, (ord L l).Perm l) :
    program (GNF.tbl 7 ω) n r p a size rank g seed ord = .ok ((Search.lengths a).map fun L => (L, ⟨[], [], [], false⟩)) := by
  rw [program_accepted n r p ⟨h.1, by omega, h.2.2.1, h.2.2.2.1, h.2.2.2.2⟩]
  obtain ⟨xs, -, -, -, x4⟩ := C16_all_of_length (lim := 7) (ω := ω) (by omega : 2 ≤ n.toNat) (by omega : n.toNat < 7) a.bootstrapLength 0
  have x4 : NF.countAllOfGarsideLength (GNF.tbl 7 ω) n.toNat a.bootstrapLength = .ok xs.length := x4
  obtain ⟨_, _, _, gs, -, -, h3, -⟩ := C54_hypotheses n.toNat r.toNat p.toNat (by omega) (by omega)
  rw [x4, bind_ok, h3, bind_ok, if_neg (by omega), bind_ok, main, hb, bootstrapExhaustive]
  have key : ∀ (c : Config S NF _) (Ls : List ℤ), loop (GNF.tbl 7 ω) a ⟨n.toNat, p.toNat, gs⟩ c ord Ls ⟨[], [], seed⟩ =
      .ok (Ls.map fun L => (L, ⟨[], [], [], false⟩), ⟨[], [], seed⟩) := by
    intro c Ls
    induction Ls with
    | nil => rfl
    | cons L Ls ih =>
      have hs : BraidSearch.stats (ord L) (⟨[], [], seed⟩ : State S NF (Jones.dimension n.toNat r.toNat)) = [] := (ho L []).eq_nil
      have hr : Search.round (GNF.tbl 7 ω) a ⟨n.toNat, p.toNat, gs⟩ c (ord L) L ⟨[], [], seed⟩ = .ok (⟨[], [], [], false⟩, ⟨[], [], seed⟩) := by
        rw [Search.round]
        simp only [hs]
        cases a.stopAtProjlen1 <;> cases a.database <;> rfl
      rw [loop, hr, bind_ok, if_neg (by simp), ih]
      rfl
  simp only [List.range_zero, List.foldlM_nil]
  show (loop _ a _ _ ord (Search.lengths a) _ >>= _) = _
  rw [key]
  rfl

example (g : Rng Unit) := C140_no_bootstrap (ω := pop0) 4 0 1 (by decide) ⟨0, 30, 10, 2, true, true⟩ rfl 50
  (fun _ _ => 0) g () (fun _ => id) (fun _ _ => .refl _)

end Peyl
