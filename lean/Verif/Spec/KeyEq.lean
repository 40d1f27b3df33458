import Verif.Utils.Hash
/-!
# Specification: when C++ keys are equal
-/

namespace Gtl.Spec.KeyEq

open Gtl.Hash (Key)

/-- IEEE: exponent all ones and fraction not zero. -/
def isNaN (expBits fracBits : Nat) (b : Nat) : Bool :=
  decide (b / 2 ^ fracBits % 2 ^ expBits = 2 ^ expBits - 1 ∧ b % 2 ^ fracBits ≠ 0)

/-- IEEE equality: NaN is equal to nothing, the two zeros are equal, other numbers have one representation. -/
def ieeeEq (expBits fracBits : Nat) (a b : Nat) : Bool :=
  !isNaN expBits fracBits a && !isNaN expBits fracBits b &&
    (decide (a = b) || decide (a % 2 ^ (expBits + fracBits) = 0 ∧ b % 2 ^ (expBits + fracBits) = 0))

mutual
/-- `a == b` for keys of the same type. -/
def keyEq : Key → Key → Bool
  | .int w s v, .int w' s' v' => decide (w = w' ∧ s = s' ∧ v = v')
  | .float a, .float b => ieeeEq 8 23 a.toNat b.toNat
  | .double a, .double b => ieeeEq 11 52 a.toNat b.toNat
  | .user a, .user b => decide (a = b)
  | .pair a b, .pair c d => keyEq a c && keyEq b d
  | .tuple ks, .tuple ls => keysEq ks ls
  | _, _ => false
def keysEq : List Key → List Key → Bool
  | [], [] => true
  | k :: ks, l :: ls => keyEq k l && keysEq ks ls
  | _, _ => false
end

end Gtl.Spec.KeyEq
