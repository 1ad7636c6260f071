import Verif.Lemmas.NFEnum
import Verif.Spec.Sampling
import Mathlib.Data.Int.CardIntervalMod
import Mathlib.Data.Fintype.BigOperators
import Mathlib.Data.Set.Card
import Mathlib.Algebra.Order.BigOperators.Ring.Finset
import Mathlib.Data.Rat.Lemmas
import Mathlib.Tactic.FieldSimp
/-!
# Counting the random choices that lead to a given sample
-/
namespace Peyl
open Relation
variable {W : Type} [Group W] {T : Type}

theorem card_mod_eq {N m p : Nat} (hm : 0 < m) (hd : m ∣ N) (hp : p < m) :
    (Finset.univ.filter fun a : Fin N => a.val % m = p).card * m = N := by
  have h1 : (Finset.univ.filter fun a : Fin N => a.val % m = p).card = ((Finset.range N).filter fun a => a % m = p).card := by
    rw [← Finset.card_map Fin.valEmbedding]
    congr 1
    ext a
    simp only [Finset.mem_map, Finset.mem_filter, Finset.mem_univ, true_and, Fin.valEmbedding_apply, Finset.mem_range]
    constructor
    · rintro ⟨a, h, rfl⟩; exact ⟨a.2, h⟩
    · rintro ⟨h1, h2⟩; exact ⟨⟨a, h1⟩, h2, rfl⟩
  rw [h1, ← Nat.count_eq_card_filter_range]
  have h2 := Nat.count_modEq_card N hm p
  have h3 : Nat.count (fun a => a % m = p) N = Nat.count (fun x => x ≡ p [MOD m]) N := by
    congr 1; funext a
    unfold Nat.ModEq
    rw [Nat.mod_eq_of_lt hp]
  have h4 : Nat.count (fun a => a % m = p) N = N / m := by
    rw [h3, h2, Nat.mod_eq_zero_of_dvd hd, if_neg (by omega), add_zero]
  convert Nat.div_mul_cancel hd using 2

namespace NFTable
variable (t : NFTable T)

theorem sampleLoop_congr (k i j f : Nat) (ω1 ω2 : Nat → Nat) (h : ∀ l, l < k → ω1 (i + l) = ω2 (j + l)) :
    t.sampleLoop ω1 k i f = t.sampleLoop ω2 k j f := by
  induction k generalizing i j f with
  | zero => rfl
  | succ k ih =>
    unfold NFTable.sampleLoop
    rw [show ω1 i = ω2 j from h 0 (by omega)]
    congr 1; funext xs; congr 1; funext x
    rw [ih (i + 1) (j + 1) x fun l hl => by
      have := h (l + 1) (by omega)
      rwa [show i + 1 + l = i + (l + 1) by omega, show j + 1 + l = j + (l + 1) by omega]]

theorem sampleLoop_cons {k N f : Nat} (a : Fin N) (r : Fin k → Fin N) :
    t.sampleLoop (draws (Fin.cons a r : Fin (k + 1) → Fin N)) (k + 1) 0 f = (do
      let xs ← lookup t.follows f
      let x ← lookup xs (a.val % xs.length)
      let w ← t.sampleLoop (draws r) k 0 x
      .ok (x :: w)) := by
  conv_lhs => unfold NFTable.sampleLoop
  have e0 : draws (Fin.cons a r : Fin (k + 1) → Fin N) 0 = a.val := by simp [draws]
  rw [e0]
  congr 1; funext xs; congr 1; funext x
  rw [sampleLoop_congr t k (0 + 1) 0 x _ (draws r) fun l hl => ?_]
  unfold draws
  rw [dif_pos (by omega), dif_pos (by omega)]
  have : (⟨0 + 1 + l, by omega⟩ : Fin (k + 1)) = Fin.succ ⟨l, hl⟩ := by ext; simp; omega
  rw [this, Fin.cons_succ]
  simp

end NFTable

namespace NFReal
variable {tbl : Nat → Except Err (NFTable T)} {n : Nat} {t : NFTable T} {g : Germ W} {v : Nat → W} {β : W → Braid n}
variable (R : NFReal tbl n t g v β)
open TableSpec
include R

/-- The number of legal next factors is the length of the list of followers. -/
theorem ext_ncard {pre : List Nat} {f : Nat} (hf : f < t.order) (hpre : Valid t n ⟨n, 0, pre⟩) (hlast : pre.getLast?.getD t.D = f) {xs : List Nat}
    (hxs : lookup t.follows f = .ok xs) : {h | Valid t n ⟨n, 0, pre ++ [h]⟩}.ncard = xs.length ∧
      ∀ x, x ∈ xs ↔ Valid t n ⟨n, 0, pre ++ [x]⟩ := by
  obtain ⟨xs', y1, y2, y3⟩ := R.spec.follows f hf
  rw [hxs] at y1; cases y1
  have hp := R.valid_iff.1 hpre
  simp only at hp
  have key : ∀ x, x ∈ xs ↔ Valid t n ⟨n, 0, pre ++ [x]⟩ := by
    intro x
    rw [y3, R.valid_iff]
    simp only [true_and, List.map_append, List.map_cons, List.map_nil]
    have hch : g.Nrm (pre.map v ++ [v x]) ↔ g.PairN (v f) (v x) := by
      unfold Germ.Nrm
      rw [List.isChain_append]
      constructor
      · rintro ⟨-, -, h⟩
        cases hq : pre.getLast? with
        | none => rw [hq] at hlast; simp only [Option.getD_none] at hlast; rw [← hlast, R.spec.v_D]; exact Germ.pairN_D _
        | some q =>
          rw [hq] at hlast; simp only [Option.getD_some] at hlast
          subst hlast
          exact h (v q) (by rw [List.getLast?_map, hq]; rfl) (v x) rfl
      · intro h
        refine ⟨hp.2.2.1, by simp, ?_⟩
        intro a ha b hb
        rw [List.getLast?_map] at ha
        cases hq : pre.getLast? with
        | none => rw [hq] at ha; simp at ha
        | some q =>
          rw [hq] at ha hlast
          simp only [Option.getD_some] at hlast
          subst hlast
          have hb' : v x = b := by simpa using hb
          have ha' : v q = a := by simpa using ha
          subst ha'; subst hb'
          exact h
    rw [hch]
    constructor
    · rintro ⟨h1, h2, h3⟩
      refine ⟨by intro z hz; rcases List.mem_append.1 hz with hz | hz; exact hp.2.1 z hz; rw [List.mem_singleton.1 hz]; exact h1, h2, ?_⟩
      intro z hz
      rcases List.mem_append.1 hz with hz | hz
      · exact hp.2.2.2 z hz
      · rw [List.mem_singleton.1 hz]; exact h3
    · rintro ⟨h1, h2, h3⟩
      exact ⟨h1 x (by simp), h2, h3 x (by simp)⟩
  refine ⟨?_, key⟩
  have : {h | Valid t n ⟨n, 0, pre ++ [h]⟩} = (xs.toFinset : Set Nat) := by
    ext x; simp [key x]
  rw [this, Set.ncard_coe_finset, List.toFinset_card_of_nodup y2]

/-- The number of choices leading to a given normal form. -/
theorem sampleLoop_card {N : Nat} (hN : ∀ m, 0 < m → m ≤ t.order → m ∣ N) (k : Nat) {f : Nat} {pre w : List Nat} (hf : f < t.order)
    (hlast : pre.getLast?.getD t.D = f) (hw : w.length = k) (hv : Valid t n ⟨n, 0, pre ++ w⟩) :
    (Finset.univ.filter fun r : Fin k → Fin N => t.sampleLoop (draws r) k 0 f = .ok w).card *
      ∏ i ∈ Finset.range k, {h | Valid t n ⟨n, 0, pre ++ w.take i ++ [h]⟩}.ncard = N ^ k := by
  induction k generalizing f pre w with
  | zero =>
    cases w with
    | nil => simp [NFTable.sampleLoop]
    | cons => simp at hw
  | succ k ih =>
    cases w with
    | nil => simp at hw
    | cons x w =>
      have hvv := R.valid_iff.1 hv
      have hpre : Valid t n ⟨n, 0, pre⟩ := R.valid_iff.2 ⟨rfl, fun z hz => hvv.2.1 z (by simp [hz]), by
        have := hvv.2.2.1
        unfold Germ.Nrm at *
        simp only [List.map_append] at this
        exact (List.isChain_append.1 this).1, fun z hz => hvv.2.2.2 z (by simp [hz])⟩
      have hprex : Valid t n ⟨n, 0, pre ++ [x]⟩ := R.valid_iff.2 ⟨rfl, fun z hz => hvv.2.1 z (by
          rcases List.mem_append.1 hz with hz | hz
          · simp [hz]
          · simp [List.mem_singleton.1 hz]), by
        have := hvv.2.2.1
        unfold Germ.Nrm at *
        simp only at this
        rw [show pre ++ x :: w = (pre ++ [x]) ++ w by simp, List.map_append] at this
        exact (List.isChain_append.1 this).1, fun z hz => hvv.2.2.2 z (by
          rcases List.mem_append.1 hz with hz | hz
          · simp [hz]
          · simp [List.mem_singleton.1 hz])⟩
      obtain ⟨xs, y1, y2, y3⟩ := R.spec.follows f hf
      obtain ⟨c1, c2⟩ := R.ext_ncard hf hpre hlast y1
      have hx : x ∈ xs := (c2 x).2 hprex
      obtain ⟨p, hp, hpx⟩ := List.getElem_of_mem hx
      have hlen : xs.length ≤ t.order := by
        have : xs.Subperm (List.range t.order) := y2.subperm fun z hz => List.mem_range.2 ((y3 z).1 hz).1
        simpa using this.length_le
      have hlen0 : 0 < xs.length := by omega
      have hxo : x < t.order := ((y3 x).1 hx).1
      have ih' := ih (f := x) (pre := pre ++ [x]) (w := w) hxo (by simp) (by simpa using hw) (by simpa using hv)
      have hcount := card_mod_eq hlen0 (hN _ hlen0 hlen) hp
      have hsplit : (Finset.univ.filter fun r : Fin (k + 1) → Fin N => t.sampleLoop (draws r) (k + 1) 0 f = .ok (x :: w)).card =
          (Finset.univ.filter fun a : Fin N => a.val % xs.length = p).card *
            (Finset.univ.filter fun r : Fin k → Fin N => t.sampleLoop (draws r) k 0 x = .ok w).card := by
        rw [← Finset.card_product]
        refine (Finset.card_equiv (Fin.consEquiv fun _ => Fin N) ?_).symm
        rintro ⟨a, r⟩
        simp only [Finset.mem_product, Finset.mem_filter, Finset.mem_univ, true_and, Fin.consEquiv_apply]
        have hce : (Fin.consEquiv fun _ => Fin N) (a, r) = (Fin.cons a r : Fin (k + 1) → Fin N) := rfl
        rw [hce, NFTable.sampleLoop_cons, y1, bind_ok, lookup_lt (Nat.mod_lt _ hlen0), bind_ok]
        constructor
        · rintro ⟨h1, h2⟩
          simp only [h1, hpx, h2, bind_ok]
        · intro h
          have hlt : a.val % xs.length < xs.length := Nat.mod_lt _ hlen0
          cases hs : t.sampleLoop (draws r) k 0 xs[a.val % xs.length] with
          | error e => rw [hs] at h; cases h
          | ok w' =>
            rw [hs, bind_ok] at h
            have h' := List.cons.inj (Except.ok.inj h)
            have h1 : a.val % xs.length = p := (y2.getElem_inj_iff).1 (by rw [h'.1, hpx])
            refine ⟨h1, ?_⟩
            rw [← h'.2, ← h'.1]
            exact hs
      rw [hsplit, Finset.prod_range_succ', pow_succ]
      simp only [List.take_succ_cons, List.take_zero, List.append_nil]
      rw [c1]
      have e' : ∀ i, {h | Valid t n ⟨n, 0, pre ++ x :: w.take i ++ [h]⟩}.ncard = {h | Valid t n ⟨n, 0, pre ++ [x] ++ w.take i ++ [h]⟩}.ncard := by
        intro i; simp
      simp only [e']
      calc _ = ((Finset.univ.filter fun r : Fin k → Fin N => t.sampleLoop (draws r) k 0 x = .ok w).card *
              ∏ i ∈ Finset.range k, {h | Valid t n ⟨n, 0, pre ++ [x] ++ w.take i ++ [h]⟩}.ncard) *
            ((Finset.univ.filter fun a : Fin N => a.val % xs.length = p).card * xs.length) := by ring
        _ = _ := by rw [ih', hcount]

/-- The same for `NF.sample`. -/
theorem sample_card {N : Nat} (hN : ∀ m, 0 < m → m ≤ t.order → m ∣ N) (k : Nat) (x : NF) (hx : Valid t n x) (hp : x.power = 0)
    (hk : x.factors.length = k) :
    (Finset.univ.filter fun r : Fin k → Fin N => NF.sample tbl (draws r) n k = .ok x).card *
      ∏ i ∈ Finset.range k, {h | Valid t n ⟨n, 0, x.factors.take i ++ [h]⟩}.ncard = N ^ k := by
  have e : (⟨n, 0, x.factors⟩ : NF) = x := by cases x; have := hx.n_eq; simp_all
  have hv : Valid t n ⟨n, 0, [] ++ x.factors⟩ := by rw [List.nil_append, e]; exact hx
  have h := R.sampleLoop_card hN k (f := t.D) (pre := []) (w := x.factors) R.spec.D_lt rfl hk hv
  simp only [List.nil_append] at h
  rw [← h]
  congr 2
  ext r
  simp only [Finset.mem_filter, Finset.mem_univ, true_and]
  unfold NF.sample NFTable.sample
  rw [R.ok, bind_ok]
  constructor
  · intro hs
    cases hl : t.sampleLoop (draws r) k 0 t.D with
    | error e => rw [hl] at hs; cases hs
    | ok w =>
      rw [hl, bind_ok] at hs
      have : (⟨n, 0, w⟩ : NF) = x := by
        unfold NF.make at hs
        simp only [bind, Except.bind] at hs
        split at hs
        · cases hs
        · split at hs
          · cases hs
          · split at hs
            · cases hs
            · exact Except.ok.inj hs
      rw [← this]
  · intro hl
    rw [hl, bind_ok]
    have hv' : Valid t n ⟨n, 0, x.factors⟩ := by rw [e]; exact hx
    rw [(R.make_ok hv'.inR (R.canon hv')).1, e]

theorem sample_chance {N : Nat} (hN0 : 0 < N) (hN : ∀ m, 0 < m → m ≤ t.order → m ∣ N) (k : Nat) (x : NF) (hx : Valid t n x) (hp : x.power = 0)
    (hk : x.factors.length = k) :
    chance k N (fun ω => NF.sample tbl ω n k) x = ∏ i ∈ Finset.range k, (1 : ℚ) / {h | Valid t n ⟨n, 0, x.factors.take i ++ [h]⟩}.ncard := by
  have h := R.sample_card hN k x hx hp hk
  unfold chance
  have hNk : (N : ℚ) ^ k ≠ 0 := by positivity
  have hq := congrArg (fun z : Nat => (z : ℚ)) h
  simp only [Nat.cast_mul, Nat.cast_pow, Nat.cast_prod] at hq
  have hpr : (∏ i ∈ Finset.range k, (({h | Valid t n ⟨n, 0, x.factors.take i ++ [h]⟩}.ncard : Nat) : ℚ)) ≠ 0 := by
    intro e; rw [e, mul_zero] at hq; exact hNk hq.symm
  rw [Finset.prod_div_distrib, Finset.prod_const_one, div_eq_div_iff hNk hpr, one_mul]
  convert hq

end NFReal
end Peyl
