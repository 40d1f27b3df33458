import Verif.Base.Res
/-!
# Model of the bit and byte utilities of bits.hpp

Unsigned integers are natural numbers below 2^64, 2^32, 2^16.
-/

namespace Gtl.BitOps

/-- One step `if (n >> s) zeroes -= s, n >>= s;` (bits.hpp:261-268). -/
def clzStep (s : Nat) (st : Nat × Nat) : Nat × Nat := if st.2 >>> s ≠ 0 then (st.1 - s, st.2 >>> s) else st

/-- The table `"\4\3\2\2\1\1\1\1\0\0\0\0\0\0\0"` with its terminating zero (bits.hpp:269). -/
def clzTable : List Nat := [4, 3, 2, 2, 1, 1, 1, 1, 0, 0, 0, 0, 0, 0, 0, 0]

/-- `CountLeadingZeros64Slow` (bits.hpp:259-270). -/
def clz64Slow (n : Nat) : Res Nat :=
  let st := clzStep 4 (clzStep 8 (clzStep 16 (clzStep 32 (60, n))))
  do
    let t ← Res.ofOption clzTable[st.2]?
    .ok (t + st.1)

/-- `CountLeadingZeros32Slow` (bits.hpp:308-317). -/
def clz32Slow (n : Nat) : Res Nat :=
  let st := clzStep 4 (clzStep 8 (clzStep 16 (28, n)))
  do
    let t ← Res.ofOption clzTable[st.2]?
    .ok (t + st.1)

/-- `~n + 1` for an unsigned integer of `w` bits. -/
def negate (w n : Nat) : Nat := ((2 ^ w - 1 - n) + 1) % 2 ^ w

/-- `if (n & mask) c -= k;` -/
def ctzStep (n mask k c : Nat) : Nat := if n &&& mask ≠ 0 then c - k else c

/-- `CountTrailingZerosNonZero64Slow` (bits.hpp:343-360). -/
def ctz64Slow (n : Nat) : Nat :=
  let n := n &&& negate 64 n
  let c := 63
  let c := ctzStep n 0x00000000FFFFFFFF 32 c
  let c := ctzStep n 0x0000FFFF0000FFFF 16 c
  let c := ctzStep n 0x00FF00FF00FF00FF 8 c
  let c := ctzStep n 0x0F0F0F0F0F0F0F0F 4 c
  let c := ctzStep n 0x3333333333333333 2 c
  ctzStep n 0x5555555555555555 1 c

/-- `CountTrailingZerosNonZero32Slow` (bits.hpp:383-397). -/
def ctz32Slow (n : Nat) : Nat :=
  let n := n &&& negate 32 n
  let c := 31
  let c := ctzStep n 0x0000FFFF 16 c
  let c := ctzStep n 0x00FF00FF 8 c
  let c := ctzStep n 0x0F0F0F0F 4 c
  let c := ctzStep n 0x33333333 2 c
  ctzStep n 0x55555555 1 c

/-- `gbswap_64`, the portable version (bits.hpp:459-462). -/
def swap64 (x : Nat) : Nat :=
  ((x &&& 0xFF) <<< 56) ||| ((x &&& 0xFF00) <<< 40) ||| ((x &&& 0xFF0000) <<< 24) ||| ((x &&& 0xFF000000) <<< 8) |||
    ((x &&& 0xFF00000000) >>> 8) ||| ((x &&& 0xFF0000000000) >>> 24) ||| ((x &&& 0xFF000000000000) >>> 40) |||
    ((x &&& 0xFF00000000000000) >>> 56)

/-- `gbswap_32` (bits.hpp:470-471). -/
def swap32 (x : Nat) : Nat :=
  ((x &&& 0xFF) <<< 24) ||| ((x &&& 0xFF00) <<< 8) ||| ((x &&& 0xFF0000) >>> 8) ||| ((x &&& 0xFF000000) >>> 24)

/-- `gbswap_16` (bits.hpp:479); the result is converted to 16 bits. -/
def swap16 (x : Nat) : Nat := (((x &&& 0xFF) <<< 8) ||| ((x &&& 0xFF00) >>> 8)) % 2 ^ 16

/-- The versions for Apple systems with other compilers than GCC and Clang (bits.hpp:440-442), taking the system functions
`OSSwapInt16`, `OSSwapInt32`, `OSSwapInt64` to be right: the names of the 16-bit and 64-bit versions are exchanged. -/
def appleSwap64 (x : Nat) : Nat := swap16 (x % 2 ^ 16)
def appleSwap32 (x : Nat) : Nat := swap32 x
def appleSwap16 (x : Nat) : Nat := swap64 x % 2 ^ 16

/-- The widths for which there are functions. -/
inductive Width where
  | w16
  | w32
  | w64
  deriving DecidableEq

def Width.bytes : Width → Nat
  | .w16 => 2
  | .w32 => 4
  | .w64 => 8

def swap : Width → Nat → Nat
  | .w16 => swap16
  | .w32 => swap32
  | .w64 => swap64

/-- Byte order. -/
inductive Order where
  | little
  | big
  deriving DecidableEq

/-- The `k` low bytes of a number, the lowest first. -/
def bytesOf : Nat → Nat → List Nat
  | 0, _ => []
  | k + 1, x => x % 256 :: bytesOf k (x / 256)

def ofBytes : List Nat → Nat
  | [] => 0
  | b :: bs => b + 256 * ofBytes bs

/-- The bytes of an integer in the memory of a machine. -/
def native (host : Order) (k x : Nat) : List Nat :=
  match host with
  | .little => bytesOf k x
  | .big => (bytesOf k x).reverse

def ofNative (host : Order) (bs : List Nat) : Nat :=
  match host with
  | .little => ofBytes bs
  | .big => ofBytes bs.reverse

/-- `UnalignedStore` (bits.hpp:128-132): `memcpy` of the native bytes. -/
def rawStore (host : Order) (mem : List Nat) (p : Nat) (w : Width) (x : Nat) : Res (List Nat) :=
  if p + w.bytes ≤ mem.length then .ok (mem.take p ++ native host w.bytes x ++ mem.drop (p + w.bytes)) else .ub

/-- `UnalignedLoad` (bits.hpp:110-126). -/
def rawLoad (host : Order) (mem : List Nat) (p : Nat) (w : Width) : Res Nat :=
  if p + w.bytes ≤ mem.length then .ok (ofNative host ((mem.drop p).take w.bytes)) else .ub

/-- `FromHost` and `ToHost` of `little_endian` and `big_endian` (bits.hpp:521-547, 569-595). -/
def convert (host order : Order) (w : Width) (x : Nat) : Nat := if host = order then x else swap w x

/-- `Store16/32/64` (bits.hpp:552-560, 600-608). -/
def store (host order : Order) (mem : List Nat) (p : Nat) (w : Width) (x : Nat) : Res (List Nat) :=
  rawStore host mem p w (convert host order w x)

/-- `Load16/32/64` (bits.hpp:550-558, 598-606). -/
def load (host order : Order) (mem : List Nat) (p : Nat) (w : Width) : Res Nat := do
  let x ← rawLoad host mem p w
  .ok (convert host order w x)

/-- `ghtons`, `ghtonl`, `ghtonll` (and `gntoh*`) (bits.hpp:493-513). -/
def hton (host : Order) (w : Width) (x : Nat) : Nat :=
  match host with
  | .little => swap w x
  | .big => x

end Gtl.BitOps
