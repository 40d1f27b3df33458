import Verif.Props.BitVector
/-!
# Moved-from bit vectors

`vec` and `storage` declare no move operations, so the compiler's are used (bit_vector.hpp:762-1033, 75-371): the
`std::vector` of slots is moved, the two sizes are copied. The source keeps its size. Its slots are gone: a move construction
leaves no slot, a move assignment leaves whatever `std::vector` leaves.
-/

namespace Gtl.Bits

/-- The source after the implicit move operations (bit_vector.hpp:369-370, 1031-1032). `left`: the slots `std::vector` leaves
in its source, none after a move construction. -/
def Bv.movedFrom (v : Bv) (left : List Word) : Bv := { sz := v.sz, s := left }

end Gtl.Bits

namespace Gtl.Props.Bits

open Gtl.Bits Gtl.Spec.Bits

/-- The calls of `Op`, and moves. -/
inductive MOp where
  /-- Any other call. -/
  | call (op : Op)
  /-- `x` is constructed or assigned from `std::move(y)` (implicit, bit_vector.hpp:762-1033). -/
  | move (x y : Nat) (left : List Word)

/-- One step. The implicit move of `bit_vector` moves the storage and copies the size (bit_vector.hpp:762-1033). -/
def MOp.run (w : World) : MOp → Res World
  | .call op => op.run w
  | .move x y left => .ok ((w.put x (w y)).put y ((w y).movedFrom left))

/-- A sequence of steps. -/
def runMoves (w : World) : List MOp → Res World
  | [] => .ok w
  | op :: ops => do
    let w ← op.run w
    runMoves w ops

/-! ## Specification -/

/-- The bits of each vector, `none` once it has been moved from. -/
abbrev Bits := Nat → Option (List Bool)

/-- Vector `x` has the bits `l` now. -/
def Bits.put (S : Bits) (x : Nat) (l : Option (List Bool)) : Bits := fun y => if y = x then l else S y

/-- The lists of bits of the vectors that have not been moved from. -/
def Bits.lists (S : Bits) : Lists := fun x => (S x).getD []

/-- The vectors whose bits a call reads or changes in place. Copies and swaps read no bit. -/
def Op.uses : Op → List Nat
  | .create .. => []
  | .ofWords .. => []
  | .copy .. => []
  | .swap .. => []
  | .assignWords x _ => [x]
  | .resize x _ _ => [x]
  | .setTo x _ _ => [x]
  | .flip x _ => [x]
  | .setAll x _ => [x]
  | .flipAll x => [x]
  | .viewFill x _ _ _ => [x]
  | .viewFlip x _ _ => [x]
  | .bin _ x _ _ y _ _ => [x, y]
  | .assignView x _ _ y _ _ => [x, y]
  | .assignWord x _ _ _ => [x]
  | .viewWords x _ _ _ => [x]
  | .shl x _ _ _ => [x]
  | .shr x _ _ _ => [x]

/-- The vector a call changes. -/
def Op.target : Op → Nat
  | .create x _ _ => x
  | .ofWords x _ => x
  | .copy x _ => x
  | .swap x _ => x
  | .assignWords x _ => x
  | .resize x _ _ => x
  | .setTo x _ _ => x
  | .flip x _ => x
  | .setAll x _ => x
  | .flipAll x => x
  | .viewFill x _ _ _ => x
  | .viewFlip x _ _ => x
  | .bin _ x _ _ _ _ _ => x
  | .assignView x _ _ _ _ _ => x
  | .assignWord x _ _ _ => x
  | .viewWords x _ _ _ => x
  | .shl x _ _ _ => x
  | .shr x _ _ _ => x

/-- The effect of a call: a move hands the bits over, a copy or swap of a moved-from vector copies or swaps that fact, any other
call acts as `Op.spec` says. -/
def MOp.spec (S : Bits) : MOp → Bits
  | .move x y _ => (S.put x (S y)).put y none
  | .call (.copy x y) => S.put x (S y)
  | .call (.swap x y) => (S.put x (S y)).put y (S x)
  | .call op => S.put op.target (some (op.spec S.lists op.target))

/-- The call is one of those of `C55_history_partial`, and uses no bits of a moved-from vector. -/
def MOp.Clean (S : Bits) : MOp → Prop
  | .move .. => True
  | .call op => (∀ x ∈ op.uses, S x ≠ none) ∧ op.Clean S.lists

/-- The specification of a sequence. -/
def specMoves (S : Bits) : List MOp → Bits
  | [] => S
  | op :: ops => specMoves (op.spec S) ops

/-- All steps of the sequence are among those the theorem speaks of. -/
def CleanMoves (S : Bits) : List MOp → Prop
  | [] => True
  | op :: ops => op.Clean S ∧ CleanMoves (op.spec S) ops

end Gtl.Props.Bits
