import Verif.Lemmas.BurauMod
import Verif.Lemmas.FullTwist
import Verif.Model.Permutations
import Verif.Spec.KernelElements
/-!
# Kernel computations with the documented elements
-/
namespace Peyl
namespace Bur

/-- Words in Magma's notation. -/
def ofMagma (w : List ℤ) : List (Nat × Bool) := w.map fun l => (l.natAbs - 1, decide (0 < l))

def pinv (w : List (Nat × Bool)) : List (Nat × Bool) := (w.map fun l => (l.1, !l.2)).reverse

def pos (w : List Nat) : List (Nat × Bool) := w.map fun i => (i, true)

def rept (k : Nat) (w : List Nat) : List Nat := (List.replicate k w).flatten

/-- The word of a list of permutations. -/
def seqWord (ws : List (List Nat)) : Option (List Nat) := match ws.mapM Perms.shortlex with
  | .ok us => some us.flatten
  | .error _ => none

/-- Does a documented element act as its power of the half twist? -/
def checkElement (x : KernelElement) : Bool := match seqWord x.seq with
  | none => false
  | some w => psame x.p 0 (x.n - 1) (pos w) (pos (rept x.power (halfW (x.n - 1))))

theorem check_P2 : checkElement elemP2 = true := by decide +kernel
theorem check_A : checkElement elemA = true := by decide +kernel
theorem check_B : checkElement elemB = true := by decide +kernel
theorem check_C : checkElement elemC = true := by decide +kernel
theorem check_D : checkElement elemD = true := by decide +kernel
theorem check_P5a : checkElement elemP5a = true := by decide +kernel
theorem check_P5b : checkElement elemP5b = true := by decide +kernel

/-! ## Bigelow's element on five strands -/
def psi1 : List (Nat × Bool) := ofMagma [-3, 2, 1, 1, 2, 4, 4, 4, 3, 2]
def psi2 : List (Nat × Bool) := ofMagma [-4, 3, 2, -1, -1, 2, 1, 1, 2, 2, 1, 4, 4, 4, 4, 4]
def bigA : List (Nat × Bool) := pinv psi1 ++ ofMagma [4] ++ psi1
def bigB : List (Nat × Bool) := pinv psi2 ++ ofMagma [4, 3, 2, 1, 1, 2, 3, 4] ++ psi2

theorem big_same : psame 0 30 4 (bigA ++ bigB) (bigB ++ bigA) = true := by decide +kernel

end Bur
end Peyl
