import Verif.Lemmas.Printing
import Verif.Props.NPar
import Verif.Props.DGNF
/-!
# The printed forms of noncrossing partitions and of dual Garside normal forms (C112, C113)

Vocabulary (Spec/Printing.lean): `Text.cut c s` are the pieces of `s` between the characters `c`, `Text.numbers s` the numbers
in `s`, `Text.signed s` the first number with its sign, `Text.lists c s` the numbers in each of the pieces.  `so` is the order in
which Python prints the elements of a set.
-/
namespace Peyl
open Equiv Perms Adapter Text
variable {n lim : Nat} {ω : NPar → NPar → Nat → Nat} {so : List Nat → List Nat}

namespace Text

/-- Components with the right relation give the partition back. -/
theorem rebuild {p : NPar} (h : p.Ok) {cs : List (List Nat)} (hnd : cs.flatten.Nodup) (hlt : ∀ k ∈ cs.flatten, k < p.n)
    (hr : ∀ a b : Fin p.n, p.blocks a b ↔ a = b ∨ ∃ c ∈ cs, (a : Nat) ∈ c ∧ (b : Nat) ∈ c) :
    NPar.fromComponents p.n (cs.map fun c => c.map Int.ofNat) = .ok p := by
  have hfl : (cs.map fun c => c.map Int.ofNat).flatten = cs.flatten.map Int.ofNat := by rw [List.map_flatten]
  have e : ∀ k : Fin p.n, ∀ c : List Nat, (k : Int) ∈ c.map Int.ofNat ↔ (k : Nat) ∈ c := by
    intro k c
    rw [List.mem_map]
    constructor
    · rintro ⟨m, hm, h⟩; rw [show (k : Nat) = m by simpa using h.symm]; exact hm
    · intro h; exact ⟨_, h, rfl⟩
  have hrel : ∀ a b : Fin p.n, compRel (cs.map fun c => c.map Int.ofNat) a b ↔ p.blocks a b := by
    intro a b
    rw [hr, compRel]
    refine or_congr Iff.rfl ⟨?_, ?_⟩
    · rintro ⟨d, hd, ha, hb⟩
      obtain ⟨c, hc, rfl⟩ := List.mem_map.1 hd
      exact ⟨c, hc, (e a c).1 ha, (e b c).1 hb⟩
    · rintro ⟨c, hc, ha, hb⟩
      exact ⟨_, List.mem_map.2 ⟨c, hc, rfl⟩, (e a c).2 ha, (e b c).2 hb⟩
  obtain ⟨m, inv⟩ := p
  obtain ⟨q1, q2, -⟩ := C25_partitions m
  rcases C25_from_components m (cs.map fun c => c.map Int.ofNat) with ⟨-, inv', h1, h2, h3⟩ | ⟨h0, -⟩
  · rw [h1, q2 inv inv' h h2 fun a b => by rw [h3]; exact (hrel a b).symm]
  · refine absurd ⟨?_, ?_, ?_⟩ h0
    · rw [hfl]; exact hnd.map (fun a b h => by simpa using h)
    · rw [hfl]; intro k hk
      obtain ⟨m, hm, rfl⟩ := List.mem_map.1 hk
      exact ⟨by simp, by simpa using hlt m hm⟩
    · intro a b c d h1 h2 h3 h4 h5
      exact (hrel a b).2 (q1 inv h a b c d h1 h2 h3 ((hrel a c).1 h4) ((hrel b d).1 h5))

theorem rebuild_perm {p : NPar} (h : p.Ok) {cs cs' : List (List Nat)} (H : IsBlockList p.blocks cs)
    (h1 : cs'.flatten.Subperm cs.flatten)
    (h2 : ∀ a b : Nat, a ≠ b → ((∃ c ∈ cs', a ∈ c ∧ b ∈ c) ↔ ∃ c ∈ cs, a ∈ c ∧ b ∈ c)) :
    NPar.fromComponents p.n (cs'.map fun c => c.map Int.ofNat) = .ok p := by
  refine rebuild h ?_ ?_ ?_
  · obtain ⟨l, l1, l2⟩ := h1
    exact (l1.nodup_iff.1 (l2.nodup (H.cover.nodup_iff.2 List.nodup_range)))
  · intro k hk
    simpa using H.cover.mem_iff.1 (h1.subset hk)
  · intro a b
    by_cases hab : a = b
    · simp [hab, p.blocks.refl b]
    · rw [H.block, h2 a b (fun e => hab (Fin.ext e))]; simp [hab]

/-- The text of a block. -/
theorem numbers_block (l : List Nat) : numbers (joinWith [',', ' '] (l.map reprNat)) = l :=
  numbers_join (by decide) (by decide) l _ numbers_repr

theorem not_mem_block {c : Char} (hc : isDig c = false) (h1 : c ≠ ',') (h2 : c ≠ ' ') (l : List Nat) : c ∉ joinWith [',', ' '] (l.map reprNat) := by
  refine mem_join (by simp [h1, h2]) fun x hx => ?_
  obtain ⟨k, -, rfl⟩ := List.mem_map.1 hx
  exact not_mem_reprNat hc k

theorem lists_nparBody {cs : List (List Nat)} (hne : cs ≠ []) {A Z : List Char} (hA : ND A) (hZ : ND Z) (hA' : '∪' ∉ A) (hZ' : '∪' ∉ Z) :
    lists '∪' (A ++ joinWith [' ', '∪', ' '] (cs.map fun c => ['\\', '{'] ++ joinWith [',', ' '] (c.map reprNat) ++ ['\\', '}']) ++ Z) = cs := by
  have h := cut_join '∪' [' '] [' '] (by decide) numbers numbers Z hZ'
    (cs.map fun c => ['\\', '{'] ++ joinWith [',', ' '] (c.map reprNat) ++ ['\\', '}']) (by simpa using hne) (by
      intro x hx
      obtain ⟨l, -, rfl⟩ := List.mem_map.1 hx
      have := not_mem_block (c := '∪') (by decide) (by decide) (by decide) l
      simp [this]) A hA' (by decide) (by
      intro x hx A' hA'' Z' hZ''
      exact numbers_pad (by rcases hA'' with rfl | rfl; exact hA; decide) (by rcases hZ'' with rfl | rfl; exact hZ; decide) x)
  refine h.trans ?_
  rw [List.map_map]
  refine (List.map_congr_left fun l _ => ?_).trans (List.map_id cs)
  rw [Function.comp_apply, numbers_pad (by decide) (by decide), numbers_block]; rfl

/-- The text of a partition, before and after the opening bracket. -/
def nparTail (so : List Nat → List Nat) (cs : List (List Nat)) : List Char :=
  joinWith [',', ' '] ((cs.filter fun c => decide (1 < c.length)).map fun c => ['{'] ++ joinWith [',', ' '] ((so c).map reprNat) ++ ['}']) ++ [']', ')']

theorem repr_eq {p : NPar} {cs : List (List Nat)} (h : p.components = .ok cs) :
    p.repr so = .ok (['N', 'P', 'a', 'r', '('] ++ reprNat p.n ++ [',', ' '] ++ '[' :: nparTail so cs) := by
  rw [NPar.repr, h, bind_ok]; simp [nparTail]

theorem lists_tail (ls : List (List Nat)) {A Z : List Char} (hA : ND A) (hZ : ND Z) (hA' : '}' ∉ A) (hZ' : '}' ∉ Z) :
    lists '}' (A ++ joinWith [',', ' '] (ls.map fun c => ['{'] ++ joinWith [',', ' '] (c.map reprNat) ++ ['}']) ++ Z) = ls ++ [[]] := by
  induction ls generalizing A with
  | nil =>
    rw [lists, List.map_nil, joinWith, List.append_nil, cut_of_not_mem (by simp [hA', hZ']), List.map_cons, List.map_nil, List.nil_append]
    have := numbers_pad hA hZ []
    rw [List.append_nil] at this
    rw [this]; rfl
  | cons a ls ih =>
    have ha := not_mem_block (c := '}') (by decide) (by decide) (by decide) a
    have key : ∀ Y, A ++ (['{'] ++ joinWith [',', ' '] (a.map reprNat) ++ ['}'] ++ Y) = (A ++ ['{'] ++ joinWith [',', ' '] (a.map reprNat)) ++ '}' :: Y := by simp
    have cutkey : ∀ Y, lists '}' (A ++ (['{'] ++ joinWith [',', ' '] (a.map reprNat) ++ ['}'] ++ Y)) = a :: lists '}' Y := by
      intro Y
      rw [key, lists, cut_first _ (by simp [hA', ha]), List.map_cons]
      congr 1
      have := numbers_pad (A := A ++ ['{']) (Z := []) (by
        intro c hc
        rw [List.mem_append] at hc
        rcases hc with hc | hc
        · exact hA c hc
        · revert hc; revert c; decide) (by decide) (joinWith [',', ' '] (a.map reprNat))
      rw [List.append_nil] at this
      rw [this, numbers_block]
    cases ls with
    | nil =>
      rw [List.map_cons, List.map_nil, joinWith, List.append_assoc, cutkey Z]
      have := ih (A := []) (by decide) (by decide)
      rw [List.map_nil, joinWith, List.append_nil, List.nil_append] at this
      rw [this]; rfl
    | cons b ls =>
      have := ih (A := [',', ' ']) (by decide) (by decide)
      rw [List.map_cons, List.map_cons, joinWith, List.append_assoc, List.append_assoc (_ ++ ['}']), List.append_assoc (_ ++ ['}']), cutkey]
      rw [List.map_cons] at this
      rw [this]; rfl


/-- What `repr` prints after the `P`. -/
def nparRest (so : List Nat → List Nat) (n : Nat) (cs : List (List Nat)) : List Char := ['a', 'r', '('] ++ reprNat n ++ [',', ' '] ++ '[' :: nparTail so cs

theorem nparTail_not_mem {c : Char} (hd : isDig c = false) (hc : c ∉ [',', ' ', '{', '}', ']', ')']) (cs : List (List Nat)) : c ∉ nparTail so cs := by
  simp only [List.mem_cons, List.not_mem_nil, or_false, not_or] at hc
  obtain ⟨h1, h2, h3, h4, h5, h6⟩ := hc
  rw [nparTail, List.mem_append, not_or]
  refine ⟨mem_join (by simp [h1, h2]) fun x hx => ?_, by simp [h5, h6]⟩
  obtain ⟨l, -, rfl⟩ := List.mem_map.1 hx
  have := not_mem_block hd h1 h2 (so l)
  simp [this, h3, h4]

/-- Reading the printed form, whatever non-numbers come before and after it. -/
theorem readNPar_rest (hso : ∀ l, (so l).Perm l) {p : NPar} (h : p.Ok) {cs : List (List Nat)} (h2 : IsBlockList p.blocks cs) {A Z : List Char}
    (hA : ND A) (hZ : ND Z) (hA' : '[' ∉ A) (hZ' : '[' ∉ Z) (hZ'' : '}' ∉ Z) :
    ∃ a b, cut '[' (A ++ nparRest so p.n cs ++ Z) = [a, b] ∧ numbers a = [p.n] ∧ NPar.fromComponents p.n (comps '}' b) = .ok p := by
  have hb : '[' ∉ nparTail so cs := nparTail_not_mem (by decide) (by decide) cs
  have e0 : A ++ nparRest so p.n cs ++ Z = (A ++ ['a', 'r', '('] ++ reprNat p.n ++ [',', ' ']) ++ '[' :: (nparTail so cs ++ Z) := by simp [nparRest]
  refine ⟨_, _, by
    rw [e0, cut_first _ (by
      have := not_mem_reprNat (c := '[') (by decide) p.n
      simp [this, hA']), cut_of_not_mem (by simp [hb, hZ'])], ?_, ?_⟩
  · rw [numbers_pad (by
      intro c hc
      rw [List.mem_append] at hc
      rcases hc with hc | hc
      · exact hA c hc
      · revert hc; revert c; decide) (by decide), numbers_repr]
  · have e : lists '}' (nparTail so cs ++ Z) = (cs.filter fun c => decide (1 < c.length)).map so ++ [[]] := by
      have := lists_tail ((cs.filter fun c => decide (1 < c.length)).map so) (A := []) (Z := [']', ')'] ++ Z) (by decide) (by
        intro c hc
        rw [List.mem_append] at hc
        rcases hc with hc | hc
        · revert hc; revert c; decide
        · exact hZ c hc) (by decide) (by simp [hZ''])
      rw [List.nil_append, List.map_map] at this
      rw [← this, nparTail, List.append_assoc]; rfl
    rw [comps, e]
    refine rebuild_perm h h2 ?_ ?_
    · rw [List.flatten_append]
      have q1 : (((cs.filter fun c => decide (1 < c.length)).map so).flatten).Perm (cs.filter fun c => decide (1 < c.length)).flatten := by
        generalize cs.filter _ = ds
        induction ds with
        | nil => exact .refl _
        | cons d ds ih => rw [List.map_cons, List.flatten_cons, List.flatten_cons]; exact (hso d).append ih
      have q2 : (cs.filter fun c => decide (1 < c.length)).flatten.Sublist cs.flatten := List.Sublist.flatten List.filter_sublist
      simpa using q1.subperm.trans q2.subperm
    · intro a b hab
      constructor
      · rintro ⟨c, hc, ha, hb⟩
        rw [List.mem_append] at hc
        rcases hc with hc | hc
        · obtain ⟨d, hd, rfl⟩ := List.mem_map.1 hc
          exact ⟨d, (List.mem_filter.1 hd).1, (hso d).mem_iff.1 ha, (hso d).mem_iff.1 hb⟩
        · simp only [List.mem_singleton] at hc; subst hc; cases ha
      · rintro ⟨c, hc, ha, hb⟩
        refine ⟨so c, List.mem_append.2 (.inl (List.mem_map.2 ⟨c, List.mem_filter.2 ⟨hc, ?_⟩, rfl⟩)), (hso c).mem_iff.2 ha, (hso c).mem_iff.2 hb⟩
        rw [decide_eq_true_eq]
        match c, ha, hb with
        | [], ha, _ => cases ha
        | [x], ha, hb =>
          simp only [List.mem_singleton] at ha hb
          exact absurd (ha.trans hb.symm) hab
        | x :: y :: l, _, _ => simp

/-- The braces after `p(`, up to padding. -/
theorem lists_latex {p : NPar} (h : p.Ok) {cs : List (List Nat)} (h2 : IsBlockList p.blocks cs) {A Z : List Char}
    (hA : ND A) (hZ : ND Z) (hA' : '∪' ∉ A) (hZ' : '∪' ∉ Z) {s : List Char}
    (hs : s = A ++ joinWith [' ', '∪', ' '] (cs.map fun c => ['\\', '{'] ++ joinWith [',', ' '] (c.map reprNat) ++ ['\\', '}']) ++ Z) :
    (0 < p.n → lists '∪' s = cs) ∧ NPar.fromComponents p.n (comps '∪' s) = .ok p := by
  subst hs
  by_cases hne : cs = []
  · subst hne
    have hn0 : p.n = 0 := by simpa using congrArg List.length (List.nil_perm.1 h2.cover)
    refine ⟨fun h => by omega, ?_⟩
    have e : lists '∪' (A ++ joinWith [' ', '∪', ' '] [] ++ Z) = [[]] := by
      have h0 := numbers_pad hA hZ []
      rw [lists, joinWith, cut_of_not_mem (by simp [hA', hZ']), List.map_cons, h0]; rfl
    rw [comps]
    rw [show List.map (fun c : List Nat => ['\\', '{'] ++ joinWith [',', ' '] (c.map reprNat) ++ ['\\', '}']) [] = [] from rfl, e]
    exact rebuild_perm h h2 (by simp) (by simp)
  · rw [comps, lists_nparBody hne hA hZ hA' hZ']
    exact ⟨fun _ => rfl, rebuild_perm h h2 (List.Subperm.refl _) fun _ _ _ => Iff.rfl⟩

end Text

/-! ## C112 -/

/-- C112: the numbers in the notebook form of a noncrossing partition are its components, and `from_components` rebuilds the
partition from them. -/
theorem C112_latex (p : NPar) (h : p.Ok) : ∃ s, p.latex = .ok s ∧ (0 < p.n → p.components = .ok (lists '∪' s)) ∧
    NPar.fromComponents p.n (comps '∪' s) = .ok p := by
  obtain ⟨cs, h1, h2, h3⟩ := C25_components p h
  obtain ⟨k1, k2⟩ := lists_latex h h2 (A := ['$', 'p', '(']) (Z := [')', '$']) (by decide) (by decide) (by decide) (by decide) rfl
  refine ⟨_, by rw [NPar.latex, h1, bind_ok], ?_, k2⟩
  intro hn
  rw [h1, k1 hn]

/-- C112: the printed form of a noncrossing partition has one opening square bracket; the number before it is the number of points, and
`from_components` rebuilds the partition from the sets after it, in whichever order Python prints their elements. -/
theorem C112_repr (hso : ∀ l, (so l).Perm l) (p : NPar) (h : p.Ok) : ∃ s a b, p.repr so = .ok s ∧ cut '[' s = [a, b] ∧ numbers a = [p.n] ∧
    NPar.fromComponents p.n (comps '}' b) = .ok p := by
  obtain ⟨cs, h1, h2, h3⟩ := C25_components p h
  obtain ⟨a, b, k1, k2, k3⟩ := readNPar_rest hso h h2 (A := ['N', 'P']) (Z := []) (by decide) (by decide) (by decide) (by decide) (by decide)
  refine ⟨_, a, b, repr_eq h1, ?_, k2, k3⟩
  rw [← k1]; simp [nparRest]

/-- C112: so reading the printed form gives the partition back. -/
theorem C112_read (hso : ∀ l, (so l).Perm l) (p : NPar) (h : p.Ok) : ∃ s, p.repr so = .ok s ∧ readNPar s = .ok p := by
  obtain ⟨s, a, b, h1, h2, h3, h4⟩ := C112_repr hso p h
  exact ⟨s, h1, by simp only [readNPar, h2, h3, List.headD_cons, h4]⟩

/-- C112: partitions with the same `repr` are equal, whatever order Python prints the sets in; so are partitions of the same number of points with
the same notebook form. -/
theorem C112_injective {so' : List Nat → List Nat} (hso : ∀ l, (so l).Perm l) (hso' : ∀ l, (so' l).Perm l) (p q : NPar) (hp : p.Ok) (hq : q.Ok) :
    (p.repr so = q.repr so' → p = q) ∧ (p.n = q.n → p.latex = q.latex → p = q) := by
  constructor
  · intro h
    obtain ⟨s, a, b, h1, h2, h3, h4⟩ := C112_repr hso p hp
    obtain ⟨s', a', b', h1', h2', h3', h4'⟩ := C112_repr hso' q hq
    rw [h1, h1'] at h; cases h
    rw [h2] at h2'
    obtain ⟨rfl, rfl⟩ : a = a' ∧ b = b' := by simpa using h2'
    rw [h3] at h3'
    have : p.n = q.n := by simpa using h3'
    rw [this] at h4
    exact Except.ok.inj (h4.symm.trans h4')
  · intro hn h
    obtain ⟨s, h1, -, h3⟩ := C112_latex p hp
    obtain ⟨s', h1', -, h3'⟩ := C112_latex q hq
    rw [h1, h1'] at h; cases h
    rw [hn] at h3
    exact Except.ok.inj (h3.symm.trans h3')

example : (⟨4, [3, 2, 1, 0, 7, 6, 5, 4]⟩ : NPar).repr id = .ok "NPar(4, [{0, 1}, {2, 3}])".toList ∧
    (⟨4, [3, 2, 1, 0, 7, 6, 5, 4]⟩ : NPar).latex = .ok "$p(\\{0, 1\\} ∪ \\{2, 3\\})$".toList := by decide +kernel

/-! ## C113 -/

namespace Text

theorem tuple_eq (l : List (List Char)) : ∃ Z ∈ [[',', ')'], [')']], Adapter.reprTuple l = ['('] ++ joinWith [',', ' '] l ++ Z := by
  match l with
  | [] => exact ⟨[')'], by simp, rfl⟩
  | [a] => exact ⟨[',', ')'], by simp, rfl⟩
  | a :: b :: l => exact ⟨[')'], by simp, by rw [← joinItems_eq]; rfl⟩

/-- The partitions of the factors of a dual normal form. -/
theorem dual_factors (hn : 2 ≤ n) (hl : NPar.catalanNum n < lim) {x : NF} (hx : IsDGNF lim ω n x) :
    (∀ f ∈ x.factors, NCP (nparAt n f)) ∧
      NF.canonicalDecomposition (DGNF.tbl lim ω) x = .ok (x.power, x.factors.map fun f => nparOf (nparAt n f)) := by
  obtain ⟨l, t, R⟩ := dgnf_real lim ω hn hl
  have hv := R.isDGNF_iff.1 hx
  have hlen : ∀ f ∈ x.factors, f < l.length := fun f hf => by rw [R.nl.length]; exact hx.1 f hf
  refine ⟨fun f hf => (R.nl.at (hlen f hf)).2, ?_⟩
  have hm : x.factors.mapM (lookup t.divs) = .ok (x.factors.map fun f => nparOf (nparAt n f)) := by
    refine TL.mapM_ok _ _ _ fun f hf => ?_
    rw [R.data.divs, lookup_lt (hlen f hf), (R.nl.at (hlen f hf)).1]
  rw [NF.canonicalDecomposition, NF.canonicalFactors, hv.n_eq, R.real.ok, bind_ok]
  simp only [hm, bind_ok]

theorem exists_comps (ps : List NPar) (h : ∀ p ∈ ps, p.Ok) : ∃ css : List (List (List Nat)),
    List.Forall₂ (fun p cs => p.components = .ok cs ∧ IsBlockList p.blocks cs) ps css := by
  induction ps with
  | nil => exact ⟨[], .nil⟩
  | cons p ps ih =>
    obtain ⟨css, hc⟩ := ih fun q hq => h q (by simp [hq])
    obtain ⟨cs, h1, h2, -⟩ := C25_components p (h p (by simp))
    exact ⟨cs :: css, .cons ⟨h1, h2⟩ hc⟩

end Text

/-- C113: the printed form of a dual normal form, cut at each `P`: first comes the power of δ, then one piece for each factor, which reads as
the partition of the factor. -/
theorem C113_repr (hso : ∀ l, (so l).Perm l) (hn : 2 ≤ n) (hl : NPar.catalanNum n < lim) (x : NF) (hx : IsDGNF lim ω n x) :
    ∃ s a bs ps, DGNF.repr (DGNF.tbl lim ω) so x = .ok s ∧ cut 'P' s = a :: bs ∧ signed a = x.power ∧
      NF.canonicalDecomposition (DGNF.tbl lim ω) x = .ok (x.power, ps) ∧ bs.map readNPar = ps.map .ok := by
  obtain ⟨hN, hcd⟩ := dual_factors hn hl hx
  set ps := x.factors.map fun f => nparOf (nparAt n f) with hps
  have hok : ∀ p ∈ ps, p.Ok := by
    intro p hp
    obtain ⟨f, hf, rfl⟩ := List.mem_map.1 hp
    exact nparOf_ok.2 (hN f hf)
  choose! cs h1 h2 _ using fun p (hp : p ∈ ps) => C25_components p (hok p hp)
  have hparts : ps.mapM (NPar.repr so) = .ok (ps.map fun p => ['N'] ++ 'P' :: nparRest so p.n (cs p)) :=
    TL.mapM_ok _ _ _ fun p hp => by rw [repr_eq (h1 p hp)]; simp [nparRest]
  obtain ⟨Z, hZ, hZe⟩ := tuple_eq (ps.map fun p => ['N'] ++ 'P' :: nparRest so p.n (cs p))
  have hZ2 : ND (Z ++ [')']) ∧ 'P' ∉ Z ++ [')'] ∧ '[' ∉ Z ++ [')'] ∧ '}' ∉ Z ++ [')'] := by clear hZe; revert hZ; revert Z; decide
  obtain ⟨B, bs, b1, b2, b3, b4⟩ := cut_pref 'P' ['N'] (by decide) [',', ' '] (by decide) ps (fun p => nparRest so p.n (cs p)) (by
      intro p hp
      have := not_mem_reprNat (c := 'P') (by decide) p.n
      have h' := nparTail_not_mem (so := so) (c := 'P') (by decide) (by decide) (cs p)
      simp [nparRest, this, h'])
    (['D', 'G', 'N', 'F', '('] ++ reprInt x.power ++ [',', ' ', '(']) (Z ++ [')']) (by
      have := not_mem_reprInt (c := 'P') (by decide) (by decide) x.power
      simp [this]) hZ2.2.1 readNPar (fun p => (.ok p : Except Err NPar)) (by
      intro p hp Z' hZ'
      obtain ⟨a, b, k1, k2, k3⟩ := readNPar_rest hso (hok p hp) (h2 p hp) (A := []) (Z := Z') (by decide)
        (by rcases hZ' with rfl | rfl; · exact hZ2.1
            · decide)
        (by decide)
        (by rcases hZ' with rfl | rfl; · exact hZ2.2.2.1
            · decide)
        (by rcases hZ' with rfl | rfl; · exact hZ2.2.2.2
            · decide)
      rw [List.nil_append] at k1
      simp only [readNPar, k1, k2, List.headD_cons, k3])
  refine ⟨_, ['D', 'G', 'N', 'F', '('] ++ reprInt x.power ++ [',', ' ', '('] ++ B ++ (if ps = [] then Z ++ [')'] else []), bs, ps, by rw [DGNF.repr, hcd, bind_ok]; simp only [hparts, bind_ok]; rfl, ?_, ?_, hcd, b4⟩
  · rw [← b3, hZe]
    generalize joinWith [',', ' '] _ = J
    congr 1
    simp [Adapter.reprTuple, joinItems]
  · rw [List.append_assoc, List.append_assoc]
    have hnd : ND ([',', ' ', '('] ++ (B ++ if ps = [] then Z ++ [')'] else [])) ∧ '-' ∉ ([',', ' ', '('] ++ (B ++ if ps = [] then Z ++ [')'] else [])) := by
      by_cases h : ps = []
      · rw [b1 h, if_pos h]
        clear hZe b3 hZ2; revert hZ; revert Z; decide
      · rw [b2 h, if_neg h]; decide
    exact signed_pad (by decide) hnd.1 (by decide) hnd.2 _

/-- C113: the notebook form of a dual normal form has one semicolon; before it is the power of δ; after it, cut at each `p`, are the components of
the partitions of the factors. -/
theorem C113_latex (hn : 2 ≤ n) (hl : NPar.catalanNum n < lim) (x : NF) (hx : IsDGNF lim ω n x) :
    ∃ s a b ps, DGNF.latex (DGNF.tbl lim ω) x = .ok s ∧ cut ';' s = [a, b] ∧ signed a = x.power ∧
      NF.canonicalDecomposition (DGNF.tbl lim ω) x = .ok (x.power, ps) ∧
      ((cut 'p' b).drop 1).map (fun t => NPar.fromComponents n (comps '∪' t)) = ps.map .ok := by
  obtain ⟨hN, hcd⟩ := dual_factors hn hl hx
  set ps := x.factors.map fun f => nparOf (nparAt n f) with hps
  have hok : ∀ p ∈ ps, p.Ok ∧ p.n = n := by
    intro p hp
    obtain ⟨f, hf, rfl⟩ := List.mem_map.1 hp
    exact ⟨nparOf_ok.2 (hN f hf), rfl⟩
  choose! cs h1 h2 _ using fun p (hp : p ∈ ps) => C25_components p (hok p hp).1
  let J : List (List Nat) → List Char := fun cs => joinWith [' ', '∪', ' '] (cs.map fun c => ['\\', '{'] ++ joinWith [',', ' '] (c.map reprNat) ++ ['\\', '}'])
  have hJ : ∀ c : Char, isDig c = false → c ∉ [' ', '∪', '\\', '{', ',', '}'] → ∀ cs, c ∉ J cs := by
    intro c hd hc cs
    simp only [List.mem_cons, List.not_mem_nil, or_false, not_or] at hc
    refine mem_join (by simp [hc]) fun y hy => ?_
    obtain ⟨l, -, rfl⟩ := List.mem_map.1 hy
    have := not_mem_block hd hc.2.2.2.2.1 hc.1 l
    simp [hc, this]
  have hparts : ps.mapM (fun p => do .ok (stripDollar (← NPar.latex p))) = (.ok (ps.map fun p => [] ++ 'p' :: (['('] ++ J (cs p) ++ [')'])) : Except Err (List (List Char))) := by
    refine TL.mapM_ok _ _ _ fun p hp => ?_
    have e : p.latex = .ok (['$'] ++ ([] ++ 'p' :: (['('] ++ J (cs p) ++ [')'])) ++ ['$']) := by
      rw [NPar.latex, h1 p hp, bind_ok]; simp [J]
    rw [e, bind_ok, strip_pad]
    have := hJ '$' (by decide) (by decide) (cs p)
    simp [this]
  obtain ⟨B, bs, b1, b2, b3, b4⟩ := cut_pref 'p' [] (by decide) [',', ' '] (by decide) ps (fun p => ['('] ++ J (cs p) ++ [')']) (by
      intro p hp
      have := hJ 'p' (by decide) (by decide) (cs p)
      simp [this]) [] [')', '$'] (by decide) (by decide) (fun t => NPar.fromComponents n (comps '∪' t)) (fun p => (.ok p : Except Err NPar)) (by
      intro p hp Z' hZ'
      obtain ⟨-, k⟩ := lists_latex (hok p hp).1 (h2 p hp) (A := ['(']) (Z := [')'] ++ Z') (by decide)
        (by rcases hZ' with rfl | rfl <;> decide) (by decide) (by rcases hZ' with rfl | rfl <;> decide) rfl
      rw [(hok p hp).2] at k
      rw [← List.append_assoc] at k
      exact k)
  refine ⟨_, ['$', '(', '\\', 'd', 'e', 'l', 't', 'a', '^', '{'] ++ reprInt x.power ++ ['}'],
    joinWith [',', ' '] (ps.map fun p => [] ++ 'p' :: (['('] ++ J (cs p) ++ [')'])) ++ [')', '$'], ps,
    by rw [DGNF.latex, hcd, bind_ok]; simp only [hparts, bind_ok]; rfl, ?_, ?_, hcd, ?_⟩
  · have hB : ';' ∉ joinWith [',', ' '] (ps.map fun p => [] ++ 'p' :: (['('] ++ J (cs p) ++ [')'])) := by
      refine mem_join (by decide) fun y hy => ?_
      obtain ⟨p, -, rfl⟩ := List.mem_map.1 hy
      have := hJ ';' (by decide) (by decide) (cs p)
      simp [this]
    generalize joinWith [',', ' '] _ = B at hB
    have e : ['$', '(', '\\', 'd', 'e', 'l', 't', 'a', '^', '{'] ++ reprInt x.power ++ ['}', ';'] ++ B ++ [')', '$'] =
        (['$', '(', '\\', 'd', 'e', 'l', 't', 'a', '^', '{'] ++ reprInt x.power ++ ['}']) ++ ';' :: (B ++ [')', '$']) := by simp
    rw [e, cut_first, cut_of_not_mem]
    · simp [hB]
    · have := not_mem_reprInt (c := ';') (by decide) (by decide) x.power
      simp [this]
  · exact signed_pad (by decide) (by decide) (by decide) (by decide) _
  · rw [List.nil_append] at b3
    rw [b3]; exact b4

/-- C113: dual normal forms on the same number of strands that print the same, in either way, are equal. -/
theorem C113_injective {so' : List Nat → List Nat} (hso : ∀ l, (so l).Perm l) (hso' : ∀ l, (so' l).Perm l) (hn : 2 ≤ n) (hl : NPar.catalanNum n < lim)
    (x y : NF) (hx : IsDGNF lim ω n x) (hy : IsDGNF lim ω n y)
    (h : DGNF.repr (DGNF.tbl lim ω) so x = DGNF.repr (DGNF.tbl lim ω) so' y ∨ DGNF.latex (DGNF.tbl lim ω) x = DGNF.latex (DGNF.tbl lim ω) y) : x = y := by
  have key : x.power = y.power → NF.canonicalDecomposition (DGNF.tbl lim ω) x = NF.canonicalDecomposition (DGNF.tbl lim ω) y → x = y := by
    intro hp hc
    obtain ⟨-, e1⟩ := dual_factors hn hl hx
    obtain ⟨-, e2⟩ := dual_factors hn hl hy
    rw [e1, e2] at hc
    have hps : (x.factors.map fun f => nparOf (nparAt n f)) = y.factors.map fun f => nparOf (nparAt n f) := (Prod.mk.inj (Except.ok.inj hc)).2
    have hinj : ∀ a b : Perm (Fin n), nparOf a = nparOf b → a = b := by
      intro a b hab
      have := toPermutation_eq a
      rw [hab, toPermutation_eq] at this
      exact (wordOf_injective (Except.ok.inj this)).symm
    refine (C29_unique hn hl x y hx hy).2 ?_
    rw [dgnfBraid, dgnfBraid, hp]
    congr 2
    refine List.ext_getElem (by simpa using congrArg List.length hps) fun i hi hi' => ?_
    rw [List.getElem_map, List.getElem_map]
    have := List.getElem_of_eq hps (i := i) (by simpa using hi)
    rw [List.getElem_map, List.getElem_map] at this
    rw [hinj _ _ this]
  rcases h with h | h
  · obtain ⟨s, a, bs, ps, h1, h2, h3, h4, h5⟩ := C113_repr hso hn hl x hx
    obtain ⟨s', a', bs', ps', h1', h2', h3', h4', h5'⟩ := C113_repr hso' hn hl y hy
    rw [h1, h1'] at h; cases h
    rw [h2] at h2'
    obtain ⟨rfl, rfl⟩ := List.cons.inj h2'
    rw [h3] at h3'
    rw [h5] at h5'
    have : ps = ps' := List.map_injective_iff.2 (fun a b h => Except.ok.inj h) h5'
    exact key h3' (by rw [h4, h4', h3', this])
  · obtain ⟨s, a, bs, ps, h1, h2, h3, h4, h5⟩ := C113_latex hn hl x hx
    obtain ⟨s', a', bs', ps', h1', h2', h3', h4', h5'⟩ := C113_latex hn hl y hy
    rw [h1, h1'] at h; cases h
    rw [h2] at h2'
    obtain ⟨rfl, h6⟩ := List.cons.inj h2'
    obtain ⟨rfl, -⟩ := List.cons.inj h6
    rw [h3] at h3'
    rw [h5] at h5'
    have : ps = ps' := List.map_injective_iff.2 (fun a b h => Except.ok.inj h) h5'
    exact key h3' (by rw [h4, h4', h3', this])

example : IsDGNF 100 (fun _ _ _ => 0) 3 ⟨3, -1, [2, 1]⟩ ∧
    DGNF.repr (DGNF.tbl 100 (fun _ _ _ => 0)) id ⟨3, -1, [2, 1]⟩ = .ok "DGNF(-1, (NPar(3, [{0, 1}]), NPar(3, [{1, 2}])))".toList ∧
    DGNF.latex (DGNF.tbl 100 (fun _ _ _ => 0)) ⟨3, -1, [2, 1]⟩ =
      .ok "$(\\delta^{-1};p(\\{0, 1\\} ∪ \\{2\\}), p(\\{0\\} ∪ \\{1, 2\\}))$".toList := by decide +kernel

end Peyl
