import Verif.Spec.KernelElements
import Verif.Model.LPoly
/-!
# The data of `MagmaCheck.m`

Generated from /repo/MagmaCheck.m.  The script enters, for `n = 4` over the field with 5 elements and for `n = 6` over the integers,
matrices `mats[1], …, mats[n-1]` and `mats[-1], …, mats[-(n-1)]`, the latter with a factor `w^2 = v^-2` in front, and words in
`±1, …, ±(n-1)`.
-/
namespace Peyl

/-- The matrices of one group: the entries row by row. -/
structure MagmaMats where
  n : Nat
  p : Nat
  gens : List (List LPoly)
  invs : List (List LPoly)

/-- MagmaCheck.m:15-20: `mats` for `n = 4`; the inverses without their factor `w^2`. -/
def magma4 : MagmaMats where
  n := 4
  p := 5
  gens := [
    [⟨2, [-1]⟩, ⟨1, [-1]⟩, ⟨0, []⟩, ⟨0, []⟩, ⟨0, [1]⟩, ⟨0, []⟩, ⟨0, []⟩, ⟨0, []⟩, ⟨0, [1]⟩],
    [⟨0, [1]⟩, ⟨0, []⟩, ⟨0, []⟩, ⟨1, [-1]⟩, ⟨2, [-1]⟩, ⟨1, [-1]⟩, ⟨0, []⟩, ⟨0, []⟩, ⟨0, [1]⟩],
    [⟨0, [1]⟩, ⟨0, []⟩, ⟨0, []⟩, ⟨0, []⟩, ⟨0, [1]⟩, ⟨0, []⟩, ⟨0, []⟩, ⟨1, [-1]⟩, ⟨2, [-1]⟩]]
  invs := [
    [⟨0, [-1]⟩, ⟨1, [-1]⟩, ⟨0, []⟩, ⟨0, []⟩, ⟨2, [1]⟩, ⟨0, []⟩, ⟨0, []⟩, ⟨0, []⟩, ⟨2, [1]⟩],
    [⟨2, [1]⟩, ⟨0, []⟩, ⟨0, []⟩, ⟨1, [-1]⟩, ⟨0, [-1]⟩, ⟨1, [-1]⟩, ⟨0, []⟩, ⟨0, []⟩, ⟨2, [1]⟩],
    [⟨2, [1]⟩, ⟨0, []⟩, ⟨0, []⟩, ⟨0, []⟩, ⟨2, [1]⟩, ⟨0, []⟩, ⟨0, []⟩, ⟨1, [-1]⟩, ⟨0, [-1]⟩]]

/-- MagmaCheck.m:61-72: `mats` for `n = 6`; the inverses without their factor `w^2`. -/
def magma6 : MagmaMats where
  n := 6
  p := 0
  gens := [
    [⟨2, [-1]⟩, ⟨1, [-1]⟩, ⟨0, []⟩, ⟨0, []⟩, ⟨0, []⟩, ⟨0, []⟩, ⟨0, [1]⟩, ⟨0, []⟩, ⟨0, []⟩, ⟨0, []⟩, ⟨0, []⟩, ⟨0, []⟩, ⟨0, [1]⟩, ⟨0, []⟩, ⟨0, []⟩, ⟨0, []⟩, ⟨0, []⟩,
     ⟨0, []⟩, ⟨0, [1]⟩, ⟨0, []⟩, ⟨0, []⟩, ⟨0, []⟩, ⟨0, []⟩, ⟨0, []⟩, ⟨0, [1]⟩],
    [⟨0, [1]⟩, ⟨0, []⟩, ⟨0, []⟩, ⟨0, []⟩, ⟨0, []⟩, ⟨1, [-1]⟩, ⟨2, [-1]⟩, ⟨1, [-1]⟩, ⟨0, []⟩, ⟨0, []⟩, ⟨0, []⟩, ⟨0, []⟩, ⟨0, [1]⟩, ⟨0, []⟩, ⟨0, []⟩, ⟨0, []⟩, ⟨0, []⟩,
     ⟨0, []⟩, ⟨0, [1]⟩, ⟨0, []⟩, ⟨0, []⟩, ⟨0, []⟩, ⟨0, []⟩, ⟨0, []⟩, ⟨0, [1]⟩],
    [⟨0, [1]⟩, ⟨0, []⟩, ⟨0, []⟩, ⟨0, []⟩, ⟨0, []⟩, ⟨0, []⟩, ⟨0, [1]⟩, ⟨0, []⟩, ⟨0, []⟩, ⟨0, []⟩, ⟨0, []⟩, ⟨1, [-1]⟩, ⟨2, [-1]⟩, ⟨1, [-1]⟩, ⟨0, []⟩, ⟨0, []⟩, ⟨0, []⟩,
     ⟨0, []⟩, ⟨0, [1]⟩, ⟨0, []⟩, ⟨0, []⟩, ⟨0, []⟩, ⟨0, []⟩, ⟨0, []⟩, ⟨0, [1]⟩],
    [⟨0, [1]⟩, ⟨0, []⟩, ⟨0, []⟩, ⟨0, []⟩, ⟨0, []⟩, ⟨0, []⟩, ⟨0, [1]⟩, ⟨0, []⟩, ⟨0, []⟩, ⟨0, []⟩, ⟨0, []⟩, ⟨0, []⟩, ⟨0, [1]⟩, ⟨0, []⟩, ⟨0, []⟩, ⟨0, []⟩, ⟨0, []⟩,
     ⟨1, [-1]⟩, ⟨2, [-1]⟩, ⟨1, [-1]⟩, ⟨0, []⟩, ⟨0, []⟩, ⟨0, []⟩, ⟨0, []⟩, ⟨0, [1]⟩],
    [⟨0, [1]⟩, ⟨0, []⟩, ⟨0, []⟩, ⟨0, []⟩, ⟨0, []⟩, ⟨0, []⟩, ⟨0, [1]⟩, ⟨0, []⟩, ⟨0, []⟩, ⟨0, []⟩, ⟨0, []⟩, ⟨0, []⟩, ⟨0, [1]⟩, ⟨0, []⟩, ⟨0, []⟩, ⟨0, []⟩, ⟨0, []⟩, ⟨0, []⟩,
     ⟨0, [1]⟩, ⟨0, []⟩, ⟨0, []⟩, ⟨0, []⟩, ⟨0, []⟩, ⟨1, [-1]⟩, ⟨2, [-1]⟩]]
  invs := [
    [⟨0, [-1]⟩, ⟨1, [-1]⟩, ⟨0, []⟩, ⟨0, []⟩, ⟨0, []⟩, ⟨0, []⟩, ⟨2, [1]⟩, ⟨0, []⟩, ⟨0, []⟩, ⟨0, []⟩, ⟨0, []⟩, ⟨0, []⟩, ⟨2, [1]⟩, ⟨0, []⟩, ⟨0, []⟩, ⟨0, []⟩, ⟨0, []⟩,
     ⟨0, []⟩, ⟨2, [1]⟩, ⟨0, []⟩, ⟨0, []⟩, ⟨0, []⟩, ⟨0, []⟩, ⟨0, []⟩, ⟨2, [1]⟩],
    [⟨2, [1]⟩, ⟨0, []⟩, ⟨0, []⟩, ⟨0, []⟩, ⟨0, []⟩, ⟨1, [-1]⟩, ⟨0, [-1]⟩, ⟨1, [-1]⟩, ⟨0, []⟩, ⟨0, []⟩, ⟨0, []⟩, ⟨0, []⟩, ⟨2, [1]⟩, ⟨0, []⟩, ⟨0, []⟩, ⟨0, []⟩, ⟨0, []⟩,
     ⟨0, []⟩, ⟨2, [1]⟩, ⟨0, []⟩, ⟨0, []⟩, ⟨0, []⟩, ⟨0, []⟩, ⟨0, []⟩, ⟨2, [1]⟩],
    [⟨2, [1]⟩, ⟨0, []⟩, ⟨0, []⟩, ⟨0, []⟩, ⟨0, []⟩, ⟨0, []⟩, ⟨2, [1]⟩, ⟨0, []⟩, ⟨0, []⟩, ⟨0, []⟩, ⟨0, []⟩, ⟨1, [-1]⟩, ⟨0, [-1]⟩, ⟨1, [-1]⟩, ⟨0, []⟩, ⟨0, []⟩, ⟨0, []⟩,
     ⟨0, []⟩, ⟨2, [1]⟩, ⟨0, []⟩, ⟨0, []⟩, ⟨0, []⟩, ⟨0, []⟩, ⟨0, []⟩, ⟨2, [1]⟩],
    [⟨2, [1]⟩, ⟨0, []⟩, ⟨0, []⟩, ⟨0, []⟩, ⟨0, []⟩, ⟨0, []⟩, ⟨2, [1]⟩, ⟨0, []⟩, ⟨0, []⟩, ⟨0, []⟩, ⟨0, []⟩, ⟨0, []⟩, ⟨2, [1]⟩, ⟨0, []⟩, ⟨0, []⟩, ⟨0, []⟩, ⟨0, []⟩,
     ⟨1, [-1]⟩, ⟨0, [-1]⟩, ⟨1, [-1]⟩, ⟨0, []⟩, ⟨0, []⟩, ⟨0, []⟩, ⟨0, []⟩, ⟨2, [1]⟩],
    [⟨2, [1]⟩, ⟨0, []⟩, ⟨0, []⟩, ⟨0, []⟩, ⟨0, []⟩, ⟨0, []⟩, ⟨2, [1]⟩, ⟨0, []⟩, ⟨0, []⟩, ⟨0, []⟩, ⟨0, []⟩, ⟨0, []⟩, ⟨2, [1]⟩, ⟨0, []⟩, ⟨0, []⟩, ⟨0, []⟩, ⟨0, []⟩, ⟨0, []⟩,
     ⟨2, [1]⟩, ⟨0, []⟩, ⟨0, []⟩, ⟨0, []⟩, ⟨0, []⟩, ⟨1, [-1]⟩, ⟨0, [-1]⟩]]

/-- MagmaCheck.m:37. -/
def magmaWordA : List Int := [
  -1, -2, -3, -1, -2, -1, -1, -2, -3, -1, -2, -1, -1, -2, -3, -1, -2, -1, -1, -2, -3, -1, -2, -1, -1, -2, -3, -1, -2, -1, -1, -2, -3, -1, -2, -1, -1, -2, -3, -1, -2, -1,
  -1, -2, -3, -1, -2, -1, -1, -2, -3, -1, -2, -1, -1, -2, -3, -1, -2, -1, -1, -2, -3, -1, -2, -1, -1, -2, -3, -1, -2, -1, -1, -2, -3, -1, -2, -1, -1, -2, -3, -1, -2, -1,
  -1, -2, -3, -1, -2, -1, -1, -2, -3, -1, -2, -1, -1, -2, -3, -1, -2, -1, -1, -2, -3, -1, -2, -1, -1, -2, -3, -1, -2, -1, -1, -2, -3, -1, -2, -1, -1, -2, -3, -1, -2, -1,
  -1, -2, -3, -1, -2, -1, -1, -2, -3, -1, -2, -1, -1, -2, -3, -1, -2, -1, -1, -2, -3, -1, -2, -1, -1, -2, -3, -1, -2, -1, -1, -2, -3, -1, -2, -1, 1, 3, 1, 3, 1, 3, 2, 2,
  1, 3, 3, 2, 2, 1, 3, 3, 2, 2, 2, 1, 3, 1, 3, 2, 1, 2, 1, 3, 1, 3, 2, 1, 2, 1, 3, 1, 3, 2, 2, 2, 1, 3, 3, 2, 2, 1, 3, 3, 2, 2, 1, 3, 1, 3, 1, 2, 3, 2, 1, 1, 3, 2, 1, 2,
  1, 3, 1, 3, 2, 1, 2, 1, 3, 1, 3, 2, 2, 1, 3, 2, 2, 1, 3, 2, 2, 2, 1, 3, 3, 2, 2, 1, 3, 3, 2, 2, 1, 3, 1, 2, 3, 2, 1, 1, 3, 2, 1, 2, 1, 3, 1, 3, 2, 1, 2, 1, 3, 1, 2, 3,
  2, 1, 1, 3, 2, 2, 1, 3, 3, 2, 2, 1, 3, 3, 2, 2, 2, 1, 3, 2, 2, 1, 3, 1, 2, 3, 2, 2, 1, 3, 1, 2, 3, 2, 2, 1, 3, 1, 2, 3, 2, 1]

/-- MagmaCheck.m:38. -/
def magmaWordB : List Int := [
  -1, -2, -3, -1, -2, -1, -1, -2, -3, -1, -2, -1, -1, -2, -3, -1, -2, -1, -1, -2, -3, -1, -2, -1, -1, -2, -3, -1, -2, -1, -1, -2, -3, -1, -2, -1, -1, -2, -3, -1, -2, -1,
  -1, -2, -3, -1, -2, -1, -1, -2, -3, -1, -2, -1, -1, -2, -3, -1, -2, -1, -1, -2, -3, -1, -2, -1, -1, -2, -3, -1, -2, -1, -1, -2, -3, -1, -2, -1, -1, -2, -3, -1, -2, -1,
  -1, -2, -3, -1, -2, -1, -1, -2, -3, -1, -2, -1, -1, -2, -3, -1, -2, -1, -1, -2, -3, -1, -2, -1, -1, -2, -3, -1, -2, -1, -1, -2, -3, -1, -2, -1, -1, -2, -3, -1, -2, -1,
  -1, -2, -3, -1, -2, -1, -1, -2, -3, -1, -2, -1, -1, -2, -3, -1, -2, -1, -1, -2, -3, -1, -2, -1, -1, -2, -3, -1, -2, -1, -1, -2, -3, -1, -2, -1, -1, -2, -3, -1, -2, -1,
  -1, -2, -3, -1, -2, -1, 1, 2, 1, 3, 2, 2, 1, 3, 1, 3, 2, 2, 2, 1, 3, 1, 2, 2, 1, 3, 1, 2, 2, 1, 3, 1, 3, 1, 2, 3, 2, 1, 1, 2, 3, 2, 2, 1, 3, 1, 2, 3, 2, 2, 1, 3, 1, 3,
  2, 2, 2, 1, 3, 1, 2, 2, 1, 3, 1, 2, 2, 2, 1, 3, 1, 2, 3, 2, 2, 1, 3, 1, 2, 3, 2, 2, 1, 3, 1, 2, 3, 2, 1, 1, 3, 1, 3, 1, 3, 2, 2, 1, 3, 1, 2, 2, 1, 3, 1, 2, 2, 2, 1, 3,
  2, 2, 1, 3, 1, 3, 2, 1, 2, 1, 3, 1, 3, 2, 1, 2, 1, 3, 1, 2, 3, 2, 1, 1, 3, 2, 2, 1, 3, 3, 2, 2, 1, 3, 3, 2, 2, 1, 3, 1, 2, 3, 2, 1, 1, 3, 2, 1, 2, 1, 3, 1, 3, 2, 1, 2,
  1, 3, 1, 3, 2, 2, 1, 3, 2, 2, 2, 1, 3, 1]

/-- MagmaCheck.m:39. -/
def magmaWordC : List Int := [
  -1, -2, -3, -1, -2, -1, -1, -2, -3, -1, -2, -1, -1, -2, -3, -1, -2, -1, -1, -2, -3, -1, -2, -1, -1, -2, -3, -1, -2, -1, -1, -2, -3, -1, -2, -1, -1, -2, -3, -1, -2, -1,
  -1, -2, -3, -1, -2, -1, -1, -2, -3, -1, -2, -1, -1, -2, -3, -1, -2, -1, -1, -2, -3, -1, -2, -1, -1, -2, -3, -1, -2, -1, -1, -2, -3, -1, -2, -1, -1, -2, -3, -1, -2, -1,
  -1, -2, -3, -1, -2, -1, -1, -2, -3, -1, -2, -1, -1, -2, -3, -1, -2, -1, -1, -2, -3, -1, -2, -1, -1, -2, -3, -1, -2, -1, -1, -2, -3, -1, -2, -1, -1, -2, -3, -1, -2, -1,
  -1, -2, -3, -1, -2, -1, -1, -2, -3, -1, -2, -1, -1, -2, -3, -1, -2, -1, -1, -2, -3, -1, -2, -1, -1, -2, -3, -1, -2, -1, -1, -2, -3, -1, -2, -1, -1, -2, -3, -1, -2, -1,
  -1, -2, -3, -1, -2, -1, -1, -2, -3, -1, -2, -1, -1, -2, -3, -1, -2, -1, -1, -2, -3, -1, -2, -1, -1, -2, -3, -1, -2, -1, 1, 3, 1, 3, 1, 3, 2, 2, 1, 3, 3, 2, 2, 1, 3, 3,
  2, 2, 1, 3, 1, 2, 3, 2, 1, 1, 3, 2, 1, 2, 1, 3, 1, 3, 2, 1, 2, 1, 3, 1, 3, 2, 2, 2, 1, 3, 3, 2, 2, 1, 3, 3, 2, 2, 1, 3, 1, 2, 3, 2, 1, 1, 3, 2, 1, 2, 1, 3, 1, 3, 2, 1,
  2, 1, 3, 1, 3, 2, 2, 2, 1, 3, 3, 2, 2, 1, 3, 3, 2, 2, 1, 3, 1, 2, 3, 2, 1, 1, 3, 2, 1, 2, 1, 3, 1, 3, 2, 1, 2, 1, 3, 1, 3, 2, 2, 2, 1, 3, 3, 2, 2, 1, 3, 3, 2, 2, 1, 3,
  1, 2, 3, 2, 1, 1, 3, 2, 1, 2, 1, 3, 1, 3, 2, 1, 2, 1, 3, 1, 3, 2, 2, 2, 1, 3, 3, 2, 2, 1, 3, 3, 2, 2, 1, 3, 1, 2, 3, 2, 1, 1, 3, 2, 1, 2, 1, 3, 1, 3, 2, 1, 2, 1, 3, 1,
  3, 2, 2, 1, 3, 2, 2, 1, 3, 2, 2, 1, 3, 2]

/-- MagmaCheck.m:77. -/
def magmaWordD : List Int := [
  -1, -2, -3, -4, -5, -1, -2, -3, -4, -1, -2, -3, -1, -2, -1, -1, -2, -3, -4, -5, -1, -2, -3, -4, -1, -2, -3, -1, -2, -1, -1, -2, -3, -4, -5, -1, -2, -3, -4, -1, -2, -3,
  -1, -2, -1, -1, -2, -3, -4, -5, -1, -2, -3, -4, -1, -2, -3, -1, -2, -1, -1, -2, -3, -4, -5, -1, -2, -3, -4, -1, -2, -3, -1, -2, -1, -1, -2, -3, -4, -5, -1, -2, -3, -4,
  -1, -2, -3, -1, -2, -1, -1, -2, -3, -4, -5, -1, -2, -3, -4, -1, -2, -3, -1, -2, -1, -1, -2, -3, -4, -5, -1, -2, -3, -4, -1, -2, -3, -1, -2, -1, -1, -2, -3, -4, -5, -1,
  -2, -3, -4, -1, -2, -3, -1, -2, -1, -1, -2, -3, -4, -5, -1, -2, -3, -4, -1, -2, -3, -1, -2, -1, -1, -2, -3, -4, -5, -1, -2, -3, -4, -1, -2, -3, -1, -2, -1, -1, -2, -3,
  -4, -5, -1, -2, -3, -4, -1, -2, -3, -1, -2, -1, -1, -2, -3, -4, -5, -1, -2, -3, -4, -1, -2, -3, -1, -2, -1, -1, -2, -3, -4, -5, -1, -2, -3, -4, -1, -2, -3, -1, -2, -1,
  1, 2, 1, 3, 2, 1, 4, 3, 2, 5, 4, 3, 2, 1, 1, 3, 2, 1, 4, 3, 2, 1, 5, 4, 3, 2, 1, 2, 1, 3, 4, 3, 2, 1, 5, 4, 3, 2, 2, 1, 3, 2, 1, 4, 5, 4, 1, 2, 1, 3, 2, 4, 3, 2, 5, 4,
  3, 2, 1, 3, 3, 2, 1, 4, 3, 5, 4, 1, 4, 3, 2, 1, 5, 4, 1, 2, 1, 3, 4, 3, 2, 1, 5, 4, 3, 2, 3, 3, 2, 1, 4, 3, 2, 5, 2, 1, 3, 2, 4, 5, 4, 4, 3, 3, 2, 1, 4, 3, 5, 1, 2, 3,
  2, 1, 5, 3, 2, 1, 4, 3, 5, 4, 3, 1, 3, 4, 3, 2, 1, 5, 4, 1, 2, 1, 3, 4, 3, 2, 1, 5, 4, 3, 2, 1, 1, 3, 1, 3, 2, 1, 4, 3, 2, 5, 2, 1, 3, 2, 1, 4, 5, 4, 1, 2, 1, 3, 2, 4,
  3, 2, 5, 4, 3, 2, 1, 3, 4, 3, 2, 1, 4, 3, 2, 5, 4, 2, 4, 3, 2, 1, 5, 4, 3, 2, 2, 1, 4, 4, 3, 2, 5, 4, 2, 4, 3, 2, 1, 5, 4, 3]

/-- The words of `MagmaCheck.m` with the elements of the notebook they stand for. -/
def magmaWords : List (KernelElement × List Int) := [(elemA, magmaWordA), (elemB, magmaWordB), (elemC, magmaWordC), (elemD, magmaWordD)]

end Peyl
