import Verif.Lemmas.FullTwist
import Verif.Lemmas.GNF
import Verif.Lemmas.BraidHom
import Verif.Lemmas.RepEval
/-!
# The words of the table of positive lifts are positive; reversing words
-/
namespace Peyl
open Equiv Perms Polymat

theorem bind_eq_ok {α β : Type} {x : Except Err α} {f : α → Except Err β} {b : β} : (x >>= f) = .ok b ↔ ∃ a, x = .ok a ∧ f a = .ok b := by
  cases x with
  | ok a => simp
  | error e => constructor
               · intro h; cases h
               · rintro ⟨a, h, -⟩; cases h

theorem mem_mapM_ok {α β : Type} {f : α → Except Err β} : ∀ {l : List α} {bs : List β}, l.mapM f = .ok bs → ∀ b ∈ bs, ∃ a ∈ l, f a = .ok b
  | [], bs, h, b, hb => by cases h; simp at hb
  | a :: l, bs, h, b, hb => by
    rw [List.mapM_cons, bind_eq_ok] at h
    obtain ⟨c, hc, h⟩ := h
    rw [bind_eq_ok] at h
    obtain ⟨cs, hcs, h⟩ := h
    cases h
    rcases List.mem_cons.1 hb with rfl | hb
    · exact ⟨a, by simp, hc⟩
    · obtain ⟨a', ha', e⟩ := mem_mapM_ok hcs b hb
      exact ⟨a', by simp [ha'], e⟩

theorem build_words {ω : List Nat → List Nat → Nat → Nat} {n : Nat} {t : NFTable (List Nat)} (h : PermTable.build ω n = .ok t) :
    ∀ w ∈ t.artinWord, ∀ se ∈ w, se.2 = 1 := by
  simp only [PermTable.build, bind_eq_ok] at h
  obtain ⟨_, _, _, _, _, _, _, _, _, _, _, _, _, _, _, _, aw, haw, h⟩ := h
  cases h
  intro w hw se hse
  obtain ⟨p, -, hp⟩ := mem_mapM_ok haw w hw
  rw [bind_eq_ok] at hp
  obtain ⟨u, -, hp⟩ := hp
  cases hp
  obtain ⟨s, -, rfl⟩ := List.mem_map.1 hse
  rfl

theorem gnf_words {lim : Nat} {ω : List Nat → List Nat → Nat → Nat} {n : Nat} {t : NFTable (List Nat)} (h : GNF.tbl lim ω n = .ok t) :
    ∀ w ∈ t.artinWord, ∀ se ∈ w, se.2 = 1 := by
  rw [GNF.tbl, PermTable.create] at h
  split at h
  · cases h
  · exact build_words h

/-- The half twist equals its reverse. -/
theorem posWord_reverse_half {n : Nat} (hn : 1 ≤ n) (w : List Nat) (hw : ∀ s ∈ w, s + 1 < n) (h : posWord n w = halfTwist n) : posWord n w.reverse = halfTwist n := by
  obtain ⟨φ, hφ⟩ := exists_braidHom (M := (Braid n)ᵐᵒᵖ) n (fun i => MulOpposite.op (sigma n i)) (fun i => MulOpposite.op (sigma n i)⁻¹)
    (fun i _ => by rw [← MulOpposite.op_mul, inv_mul_cancel]; rfl) (fun i _ => by rw [← MulOpposite.op_mul, mul_inv_cancel]; rfl)
    (fun i j hij hj => by rw [← MulOpposite.op_mul, ← MulOpposite.op_mul, sigma_comm i j hj hij])
    (fun i hi => by simp only [← MulOpposite.op_mul, ← mul_assoc]; rw [sigma_braid i hi])
  have hp : ∀ w : List Nat, (∀ s ∈ w, s + 1 < n) → φ (posWord n w) = MulOpposite.op (posWord n w.reverse) := by
    intro w
    induction w with
    | nil => intro _; simp [posWord]
    | cons s w ih =>
      intro hw
      have e : posWord n (s :: w) = sigma n s * posWord n w := by simp [posWord]
      have e' : posWord n (s :: w).reverse = posWord n w.reverse * sigma n s := by simp [posWord]
      rw [e, e', map_mul, (hφ s (hw s (by simp))).1, ih fun s hs => hw s (by simp [hs]), MulOpposite.op_mul]
  have hr := halfW_reduced (n := n) hn
  have e1 := lift_eq_posWord hr
  have hrev : IsReduced (halfW (n - 1)).reverse (w0 n) := by
    refine ⟨fun s hs => hr.1 s (List.mem_reverse.1 hs), ?_, by rw [List.length_reverse, hr.2.2]⟩
    have : ∀ w : List Nat, coxProd n w.reverse = (coxProd n w)⁻¹ := by
      intro w
      induction w with
      | nil => simp [coxProd]
      | cons s w ih => rw [List.reverse_cons, coxProd_append, coxProd_cons, ih, coxProd_cons, mul_inv_rev, coxProd_nil, mul_one, sg_inv]
    rw [this, hr.2.1, w0_inv]
  have e2 := lift_eq_posWord hrev
  have h1 := hp w hw
  rw [h, halfTwist, e1, hp _ hr.1, ← e2] at h1
  exact (MulOpposite.op_injective h1).symm

namespace RepBase
variable {d n p : Nat} {G I I' : List Matrix}

/-- Negative letters read the second list of matrices: if that repeats the first, signs do not matter. -/
theorem letter_abs (ie : Nat × ℤ) : (⟨n, p, G, G⟩ : RepBase d).letter ie = (⟨n, p, G, I⟩ : RepBase d).letter (ie.1, (ie.2.natAbs : ℤ)) := by
  unfold letter
  rw [if_pos (show ((ie.1, (ie.2.natAbs : ℤ)) : Nat × ℤ).2 ≥ 0 from Int.natCast_nonneg _)]
  split
  · next h => rw [Int.natAbs_of_nonneg h]
  · rfl

theorem evaluate_abs (w : List (Nat × ℤ)) : (⟨n, p, G, G⟩ : RepBase d).evaluateArtinWord w =
    (⟨n, p, G, I⟩ : RepBase d).evaluateArtinWord (w.map fun ie => (ie.1, (ie.2.natAbs : ℤ))) := by
  unfold evaluateArtinWord
  rw [List.mapM_map]
  have : (⟨n, p, G, G⟩ : RepBase d).letter = (⟨n, p, G, I⟩ : RepBase d).letter ∘ fun ie => (ie.1, (ie.2.natAbs : ℤ)) := funext fun ie => letter_abs ie
  rw [this]

theorem evaluate_pos (w : List (Nat × ℤ)) (hw : ∀ ie ∈ w, 0 ≤ ie.2) : (⟨n, p, G, G⟩ : RepBase d).evaluateArtinWord w =
    (⟨n, p, G, I⟩ : RepBase d).evaluateArtinWord w := by
  rw [evaluate_abs (I := I)]
  congr 1
  conv_rhs => rw [← List.map_id w]
  apply List.map_congr_left
  intro ie hie
  rw [Int.natAbs_of_nonneg (hw ie hie)]; rfl

theorem lookup_mem {α : Type} {l : List α} {i : Nat} {x : α} (h : lookup l i = .ok x) : x ∈ l := by
  unfold lookup at h
  split at h
  · next y hy => cases h; exact List.mem_of_getElem? hy
  · cases h

variable {T : Type} {tbl : Nat → Except Err (NFTable T)} {t : NFTable T}

theorem factorImage_pos (ht : tbl n = .ok t) (hw : ∀ w ∈ t.artinWord, ∀ ie ∈ w, 0 ≤ ie.2) (i : Nat) :
    (⟨n, p, G, G⟩ : RepBase d).factorImage tbl i = (⟨n, p, G, I⟩ : RepBase d).factorImage tbl i := by
  unfold factorImage
  dsimp only
  rw [ht, bind_ok, bind_ok]
  cases h : lookup t.artinWord i with
  | error e => rfl
  | ok w => rw [bind_ok, bind_ok, evaluate_pos (I := I) w (hw w (lookup_mem h))]

theorem deltaImage_pos (ht : tbl n = .ok t) (hw : ∀ w ∈ t.artinWord, ∀ ie ∈ w, 0 ≤ ie.2) (i : Nat) :
    (⟨n, p, G, G⟩ : RepBase d).deltaImage tbl i = (⟨n, p, G, I⟩ : RepBase d).deltaImage tbl i := by
  unfold deltaImage
  dsimp only
  rw [ht, bind_ok, bind_ok]
  cases h : lookup t.artinWord t.D with
  | error e => rfl
  | ok w => rw [bind_ok, bind_ok, evaluate_pos (I := I) w (hw w (lookup_mem h))]

theorem evalStep_pos (ht : tbl n = .ok t) (hw : ∀ w ∈ t.artinWord, ∀ ie ∈ w, 0 ≤ ie.2) :
    (⟨n, p, G, G⟩ : RepBase d).evalStep tbl = (⟨n, p, G, I⟩ : RepBase d).evalStep tbl := by
  funext L fs A i
  unfold evalStep
  rw [show (⟨n, p, G, G⟩ : RepBase d).factorImage tbl = (⟨n, p, G, I⟩ : RepBase d).factorImage tbl from funext (factorImage_pos ht hw)]
  rfl

theorem evalSame_pos (ht : tbl n = .ok t) (hw : ∀ w ∈ t.artinWord, ∀ ie ∈ w, 0 ≤ ie.2) :
    (⟨n, p, G, G⟩ : RepBase d).evalSame tbl = (⟨n, p, G, I⟩ : RepBase d).evalSame tbl := by
  funext xs
  unfold evalSame
  rw [evalStep_pos (I := I) ht hw, show (⟨n, p, G, G⟩ : RepBase d).deltaImage tbl = (⟨n, p, G, I⟩ : RepBase d).deltaImage tbl from funext (deltaImage_pos ht hw)]

theorem evalIntegers_pos (ht : tbl n = .ok t) (hw : ∀ w ∈ t.artinWord, ∀ ie ∈ w, 0 ≤ ie.2) :
    (⟨n, p, G, G⟩ : RepBase d).evalIntegers tbl = (⟨n, p, G, I⟩ : RepBase d).evalIntegers tbl := by
  funext xs
  unfold evalIntegers
  rw [evalStep_pos (I := I) ht hw, show (⟨n, p, G, G⟩ : RepBase d).factorImage tbl = (⟨n, p, G, I⟩ : RepBase d).factorImage tbl from funext (factorImage_pos ht hw)]

end RepBase
end Peyl
