import Verif.Lemmas.TLCell
import Verif.Lemmas.RepEval
import Mathlib.Data.Nat.Choose.Sum
/-!
# The basis of a cell module
-/
namespace Peyl
namespace TL

theorem mapM_ok {α β : Type} (f : α → Except Err β) (g : α → β) (l : List α) (h : ∀ x ∈ l, f x = .ok (g x)) : l.mapM f = .ok (l.map g) := by
  induction l with
  | nil => rfl
  | cons x l ih =>
    rw [List.mapM_cons, h x (List.mem_cons_self ..), bind_ok, ih fun y hy => h y (List.mem_cons_of_mem _ hy), bind_ok]
    rfl

theorem hcomp_bar {n b : Nat} {D : List Nat} (h : Cell n b D) :
    TLDiag.hcomp ⟨n, b, D⟩ ⟨1, 1, idSeq 1⟩ = .ok ⟨n + 1, b + 1, insBar b D⟩ := by
  have e : idSeq 1 = [1, 0] := by decide
  rw [TLDiag.hcomp, e]
  dsimp only
  rw [insert_eq b D (by rw [h.len]; omega), bind_ok]
  exact TLDiag.make_ok (by rw [h.insBar.len]) h.insBar.nc

theorem cellBasis_of_lt {n r : Nat} (h : n < 2 * r) : cellBasis n r = .ok [] := by
  match n, r with
  | 0, r => rw [cellBasis, if_pos h]
  | n + 1, 0 => omega
  | n + 1, r + 1 => rw [cellBasis, if_pos h]

/-- The number of cell diagrams. -/
def cellDim (n r : Nat) : Int := (n.choose r : Int) - (if r = 0 then 0 else (n.choose (r - 1) : Int))

theorem cellDim_zero (n : Nat) : cellDim n 0 = 1 := by simp [cellDim]

theorem cellDim_succ (n r : Nat) : cellDim (n + 1) (r + 1) = cellDim n (r + 1) + cellDim n r := by
  unfold cellDim
  rw [Nat.choose_succ_succ]
  cases r with
  | zero => simp
  | succ r => simp [Nat.choose_succ_succ]; ring

theorem cellDim_mid (r : Nat) : cellDim (2 * r + 1) (r + 1) = 0 := by
  unfold cellDim
  have : (2 * r + 1).choose (r + 1) = (2 * r + 1).choose r := Nat.choose_symm_half r
  simp [this]

theorem cellBasis_spec (n r : Nat) (h : 2 * r ≤ n) : ∃ B, cellBasis n r = .ok B ∧ B.Nodup ∧ B.Pairwise (fun a b => TLDiag.le a b = true) ∧
    (∀ d, d ∈ B ↔ d.top = n ∧ d.bot = n - 2 * r ∧ Cell n (n - 2 * r) d.seq) ∧ (B.length : Int) = cellDim n r := by
  induction n generalizing r with
  | zero =>
    have : r = 0 := by omega
    subst this
    refine ⟨[⟨0, 0, idSeq 0⟩], ?_, by simp, by simp, fun d => ?_, by simp [cellDim]⟩
    · rw [cellBasis, if_neg (by omega), TLDiag.id_ok, bind_ok]
    · rw [List.mem_singleton]
      constructor
      · rintro rfl
        exact ⟨rfl, rfl, idSeq_nc 0, by simp, fun i hi => by omega⟩
      · rintro ⟨h1, h2, h3⟩
        exact TLDiag.ext' h1 h2 h3.eq_id
  | succ n ih =>
    cases r with
    | zero =>
      refine ⟨[⟨n + 1, n + 1, idSeq (n + 1)⟩], ?_, by simp, by simp, fun d => ?_, by simp [cellDim]⟩
      · rw [cellBasis, TLDiag.id_ok, bind_ok]
      · rw [List.mem_singleton]
        constructor
        · rintro rfl
          refine ⟨rfl, rfl, idSeq_nc _, by simp; omega, fun i hi => ?_⟩
          rw [at_idSeq _ _ (by omega)]; omega
        · rintro ⟨h1, h2, h3⟩
          exact TLDiag.ext' h1 (by simpa using h2) h3.eq_id
    | succ r =>
      -- the two halves
      obtain ⟨X, x1, x2, x3, x4⟩ : ∃ X, cellBasis n (r + 1) = .ok X ∧ X.Nodup ∧
          (∀ d, d ∈ X ↔ 2 * (r + 1) ≤ n ∧ d.top = n ∧ d.bot = n - 2 * (r + 1) ∧ Cell n (n - 2 * (r + 1)) d.seq) ∧ (X.length : Int) = cellDim n (r + 1) := by
        by_cases hn : 2 * (r + 1) ≤ n
        · obtain ⟨X, x1, x2, -, x3, x4⟩ := ih (r + 1) hn
          exact ⟨X, x1, x2, fun d => by rw [x3]; simp [hn], x4⟩
        · refine ⟨[], cellBasis_of_lt (by omega), by simp, by simp [hn], ?_⟩
          have : n = 2 * r + 1 := by omega
          subst this
          rw [cellDim_mid]; rfl
      obtain ⟨Y, y1, y2, -, y3, y4⟩ := ih r (by omega)
      have fx : ∀ d ∈ X, TLDiag.hcomp d ⟨1, 1, idSeq 1⟩ = .ok ⟨d.top + 1, d.bot + 1, insBar d.bot d.seq⟩ := by
        intro d hd
        obtain ⟨-, h1, h2, h3⟩ := (x3 d).1 hd
        have := hcomp_bar (n := d.top) (b := d.bot) (D := d.seq) (by rw [h1, h2]; exact h3)
        exact this
      have fy : ∀ d ∈ Y, TLDiag.make (n + 1) (n + 1 - 2 * (r + 1)) d.seq = .ok ⟨n + 1, n + 1 - 2 * (r + 1), d.seq⟩ := by
        intro d hd
        obtain ⟨h1, h2, h3⟩ := (y3 d).1 hd
        exact TLDiag.make_ok (by rw [h3.len]; omega) h3.nc
      have mem : ∀ d, d ∈ X.map (fun d : TLDiag => (⟨d.top + 1, d.bot + 1, insBar d.bot d.seq⟩ : TLDiag)) ++
          Y.map (fun d : TLDiag => (⟨n + 1, n + 1 - 2 * (r + 1), d.seq⟩ : TLDiag)) ↔
          d.top = n + 1 ∧ d.bot = n + 1 - 2 * (r + 1) ∧ Cell (n + 1) (n + 1 - 2 * (r + 1)) d.seq := by
        intro d
        rw [List.mem_append, List.mem_map, List.mem_map]
        constructor
        · rintro (⟨c, hc, rfl⟩ | ⟨c, hc, rfl⟩)
          · obtain ⟨hn, h1, h2, h3⟩ := (x3 c).1 hc
            refine ⟨by dsimp only; omega, by dsimp only; omega, ?_⟩
            have := h3.insBar
            rw [← h2] at this
            rw [show n + 1 - 2 * (r + 1) = c.bot + 1 by omega]
            exact this
          · obtain ⟨h1, h2, h3⟩ := (y3 c).1 hc
            refine ⟨rfl, rfl, ?_⟩
            rw [show n - 2 * r = n + 1 - 2 * (r + 1) + 1 by omega] at h3
            exact (Cell.shift.2 h3).1
        · rintro ⟨h1, h2, h3⟩
          rcases h3.first with ⟨c, c1, c2, c3⟩ | hf
          · left
            rw [c1] at h3 c2
            obtain ⟨d1, d2⟩ := insBar_delBar h3 c2
            refine ⟨⟨n, c, delBar c d.seq⟩, (x3 _).2 ⟨by omega, rfl, by dsimp only; omega, ?_⟩, TLDiag.ext' h1.symm (by dsimp only; omega) d2⟩
            rw [show n - 2 * (r + 1) = c by omega]; exact d1
          · right
            have := Cell.shift.1 ⟨h3, hf⟩
            rw [show n + 1 - 2 * (r + 1) + 1 = n - 2 * r by omega] at this
            exact ⟨⟨n, n - 2 * r, d.seq⟩, (y3 _).2 ⟨rfl, rfl, this⟩, TLDiag.ext' h1.symm h2.symm rfl⟩
      have nd : (X.map (fun d : TLDiag => (⟨d.top + 1, d.bot + 1, insBar d.bot d.seq⟩ : TLDiag)) ++
          Y.map (fun d : TLDiag => (⟨n + 1, n + 1 - 2 * (r + 1), d.seq⟩ : TLDiag))).Nodup := by
        rw [List.nodup_append]
        refine ⟨?_, ?_, ?_⟩
        · refine x2.map_on ?_
          intro a ha b hb e
          obtain ⟨-, a1, a2, a3⟩ := (x3 a).1 ha
          obtain ⟨-, b1, b2, b3⟩ := (x3 b).1 hb
          simp only [TLDiag.mk.injEq] at e
          refine TLDiag.ext' (by omega) (by omega) (insBar_inj a3 b3 ?_)
          rw [← a2]
          have := e.2.2
          rwa [show b.bot = a.bot by omega] at this
        · refine y2.map_on ?_
          intro a ha b hb e
          obtain ⟨a1, a2, a3⟩ := (y3 a).1 ha
          obtain ⟨b1, b2, b3⟩ := (y3 b).1 hb
          simp only [TLDiag.mk.injEq, true_and] at e
          exact TLDiag.ext' (by omega) (by omega) e
        · intro a ha b hb e
          subst e
          obtain ⟨c, hc, rfl⟩ := List.mem_map.1 ha
          obtain ⟨c', hc', e⟩ := List.mem_map.1 hb
          obtain ⟨hn, h1, h2, h3⟩ := (x3 c).1 hc
          obtain ⟨g1, g2, g3⟩ := (y3 c').1 hc'
          simp only [TLDiag.mk.injEq] at e
          have u := g3.up (n - 2 * r - 1) (by omega)
          have hb : n - 2 * r - 1 = c.bot + 1 := by omega
          rw [hb, e.2.2, at_insBar _ _ _ (by rw [h3.len]; omega), if_neg (by omega), if_pos rfl] at u
          omega
      have hp := List.mergeSort_perm (X.map (fun d : TLDiag => (⟨d.top + 1, d.bot + 1, insBar d.bot d.seq⟩ : TLDiag)) ++
          Y.map (fun d : TLDiag => (⟨n + 1, n + 1 - 2 * (r + 1), d.seq⟩ : TLDiag))) TLDiag.le
      refine ⟨_, ?_, hp.nodup_iff.2 nd, List.pairwise_mergeSort TLDiag.le_trans' TLDiag.le_total' _, fun d => ?_, ?_⟩
      · rw [cellBasis, if_neg (by omega), TLDiag.id_ok, bind_ok, x1, bind_ok, mapM_ok _ _ X fx, bind_ok, y1, bind_ok, mapM_ok _ _ Y fy, bind_ok]
      · rw [hp.mem_iff, mem]
      · rw [hp.length_eq, List.length_append, List.length_map, List.length_map, cellDim_succ, ← x4, ← y4]
        push_cast; ring

end TL
end Peyl
