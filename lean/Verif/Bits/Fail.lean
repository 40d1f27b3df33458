import Verif.Bits.Ops
/-!
# Bit vectors when memory runs out (bit_vector.hpp)

`std::vector` throws before it changes anything. `vec` and `storage` write their sizes before they ask it for memory.
-/

namespace Gtl.Bits

/-- Does `resize(n)` need more slots? Otherwise no memory is asked for (bit_vector.hpp:82-86). The capacity of the slot
array may be larger than its length, which only makes exceptions rarer. -/
def Bv.Grows (v : Bv) (n : Nat) : Prop := v.s.length < slotCnt n

/-- What `resize(n)` leaves when the slot array throws: both sizes are already written (bit_vector.hpp:777-780, 82-86). -/
def Bv.resizeThrow (v : Bv) (n : Nat) : Bv := { v with sz := n }

/-- What `v = o` leaves when the slot array throws: the assignment is memberwise and the size is the first member
(bit_vector.hpp:1030-1033). The size inside `storage` comes after the slots (369-370) and is still the old one, so this
describes only `size()`, `operator[]`, `resize` and assignment, which do not use it. -/
def Bv.copyThrow (v o : Bv) : Bv := { v with sz := o.sz }

theorem resize_sz (v : Bv) (sz n : Nat) (b : Bool) : Bv.resize { v with sz := sz } n b = v.resize n b := rfl

end Gtl.Bits
