import Verif.Model.TL
/-! # Model of the methods of `TLMor` that take linear combinations apart -/
namespace Peyl
namespace TLMor

/-- peyl/tl.py:364-367 `basis`. -/
def basis (top bot : Nat) : Except Err (List TLMor) := do
  (← TL.tlBasis top bot).mapM fun d => make top bot [(d, one)]

/-- peyl/tl.py:373-375 `support`. -/
def support (m : TLMor) : List TLDiag := m.terms.map Prod.fst

/-- peyl/tl.py:377-378 `pairs`. -/
def pairs (m : TLMor) : List (TLDiag × LPoly) := m.terms

/-- peyl/tl.py:462-466 `__rmul__` by an `LPoly`. -/
def rmul (c : LPoly) (m : TLMor) : Except Err TLMor := smul m c

end TLMor
end Peyl
