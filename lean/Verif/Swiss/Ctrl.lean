import Verif.Base.Res
/-!
# Control bytes, bit masks and groups of the hash table

Models `include/gtl/phmap.hpp` lines 712-1080.
-/

namespace Gtl.Swiss

/-- `ctrl_t` (phmap.hpp:786), a signed 8-bit integer, kept as its 8-bit pattern. -/
abbrev Ctrl := BitVec 8

/-- `kEmpty = -128` (phmap.hpp:794). -/
def kEmpty : Ctrl := 0x80#8
/-- `kDeleted = -2` (phmap.hpp:795). -/
def kDeleted : Ctrl := 0xFE#8
/-- `kSentinel = -1` (phmap.hpp:796). -/
def kSentinel : Ctrl := 0xFF#8

/-- `IsEmpty` (phmap.hpp:858). -/
def isEmpty (c : Ctrl) : Bool := c == kEmpty
/-- `IsFull`: `c >= 0` as a signed byte (phmap.hpp:859). -/
def isFull (c : Ctrl) : Bool := (0#8).sle c
/-- `IsDeleted` (phmap.hpp:860). -/
def isDeleted (c : Ctrl) : Bool := c == kDeleted
/-- `IsEmptyOrDeleted`: `c < kSentinel` as signed bytes (phmap.hpp:861). -/
def isEmptyOrDeleted (c : Ctrl) : Bool := c.slt kSentinel

/-- `H1` (phmap.hpp:852; the default build without `GTL_NON_DETERMINISTIC`). -/
def H1 (hash : Nat) : Nat := hash >>> 7
/-- `H2` (phmap.hpp:856). -/
def H2 (hash : Nat) : Ctrl := BitVec.ofNat 8 (hash &&& 0x7F)

/-- Number of trailing zero bits of a non-zero number: `CountTrailingZerosNonZero64/32`
(bits.hpp, used by phmap.hpp:713-721). For 0 the C++ function is undefined; the model returns 0. -/
def ctz (n : Nat) : Nat :=
  if h : n = 0 then 0
  else if n % 2 = 1 then 0 else ctz (n / 2) + 1
termination_by n
decreasing_by omega

/-- Number of leading zero bits of `n` seen as a `w`-bit word: `CountLeadingZeros64/32`
(phmap.hpp:724-732). -/
def clz (w n : Nat) : Nat := if n = 0 then w else w - 1 - Nat.log2 n

/-- `BitMask<T, SignificantBits, Shift>` (phmap.hpp:745-783): `tbits` is the width of `T`. -/
structure BitMask where
  tbits : Nat
  sig : Nat
  shift : Nat
  mask : Nat
  deriving Repr, DecidableEq

namespace BitMask
/-- `operator bool` (phmap.hpp:762). -/
def toBool (m : BitMask) : Bool := m.mask != 0
/-- `LowestBitSet` (phmap.hpp:764). -/
def lowest (m : BitMask) : Nat := ctz m.mask >>> m.shift
/-- `TrailingZeros` (phmap.hpp:770). -/
def trailingZeros (m : BitMask) : Nat := ctz m.mask >>> m.shift
/-- `LeadingZeros` (phmap.hpp:772-776); `mask_ << extra_bits` is truncated to `T`. -/
def leadingZeros (m : BitMask) : Nat :=
  let extra := m.tbits - (m.sig <<< m.shift)
  clz m.tbits ((m.mask <<< extra) % 2 ^ m.tbits) >>> m.shift
/-- `operator++` (phmap.hpp:758-761): `mask_ &= mask_ - 1`. -/
def next (m : BitMask) : BitMask := { m with mask := m.mask &&& (m.mask - 1) }
/-- The indices produced by `for (uint32_t i : mask)` (phmap.hpp:763, 767-768); the loop runs until the mask
is zero, at most once per bit of `T`. -/
def toListAux : Nat → BitMask → List Nat
  | 0, _ => []
  | n + 1, m => if m.mask = 0 then [] else m.lowest :: toListAux n m.next
/-- All indices (phmap.hpp:767-768). -/
def toList (m : BitMask) : List Nat := toListAux m.tbits m
end BitMask

/-- The group operations used by the table. A group is loaded as the list of its `W` control bytes. -/
structure Group where
  W : Nat
  matchH2 : List Ctrl → Ctrl → BitMask
  matchEmpty : List Ctrl → BitMask
  matchEmptyOrDeleted : List Ctrl → BitMask
  countLeadingEmptyOrDeleted : List Ctrl → Nat
  convertSpecial : List Ctrl → List Ctrl

/-! ## SSE2 / SSSE3 groups (phmap.hpp:895-947) -/

/-- `_mm_movemask_epi8` of a vector whose byte `j` is all-ones or all-zeros according to the list. -/
def movemask (l : List Bool) : Nat := l.foldr (fun b acc => b.toNat + 2 * acc) 0

/-- `BitMask<uint32_t, 16>` (phmap.hpp:902-906). -/
def sseMask (l : List Bool) : BitMask := { tbits := 32, sig := 16, shift := 0, mask := movemask l }

/-- `_mm_sign_epi8(c, c)`: negate when negative, keep otherwise; the sign bit of the result. -/
def signSelfMsb (c : Ctrl) : Bool := (if c.slt 0#8 then -c else c).msb

/-- `GroupSse2Impl` (phmap.hpp:895-947). The flag selects the `GTL_HAVE_SSSE3` variants of
`MatchEmpty` (phmap.hpp:910-915) and `ConvertSpecialToEmptyAndFullToDeleted` (phmap.hpp:936-942). -/
def groupSse2 (ssse3 : Bool) : Group where
  W := 16
  matchH2 g h := sseMask (g.map (fun c => h == c))
  matchEmpty g :=
    if ssse3 then sseMask (g.map signSelfMsb) else sseMask (g.map (fun c => kEmpty == c))
  matchEmptyOrDeleted g := sseMask (g.map (fun c => c.slt kSentinel))
  countLeadingEmptyOrDeleted g := ctz (movemask (g.map (fun c => c.slt kSentinel)) + 1)
  convertSpecial g :=
    if ssse3 then g.map (fun c => (if c.msb then 0#8 else 126#8) ||| 0x80#8)
    else g.map (fun c => 0x80#8 ||| (~~~ (if c.slt 0#8 then 0xFF#8 else 0#8) &&& 126#8))

/-! ## Portable groups (phmap.hpp:957-1007) -/

/-- `little_endian::Load64` of the group's bytes (phmap.hpp:960-961). -/
def load64Nat : List Ctrl → Nat
  | [] => 0
  | c :: r => c.toNat + 256 * load64Nat r
/-- `little_endian::Load64` (phmap.hpp:960-961). -/
def load64 (g : List Ctrl) : BitVec 64 := BitVec.ofNat 64 (load64Nat g)

/-- `little_endian::Store64` (phmap.hpp:1003). -/
def store64Aux : Nat → Nat → List Ctrl
  | 0, _ => []
  | n + 1, v => BitVec.ofNat 8 v :: store64Aux n (v / 256)
/-- `little_endian::Store64` (phmap.hpp:1003). -/
def store64 (v : BitVec 64) : List Ctrl := store64Aux 8 v.toNat

/-- `msbs` (phmap.hpp:977). -/
def msbs : BitVec 64 := 0x8080808080808080#64
/-- `lsbs` (phmap.hpp:978). -/
def lsbs : BitVec 64 := 0x0101010101010101#64
/-- `gaps` (phmap.hpp:994). -/
def gaps : BitVec 64 := 0x00FEFEFEFEFEFEFE#64

/-- `BitMask<uint64_t, 8, 3>` (phmap.hpp:980). -/
def portMask (v : BitVec 64) : BitMask := { tbits := 64, sig := 8, shift := 3, mask := v.toNat }

/-- `GroupPortableImpl` (phmap.hpp:957-1007). -/
def groupPortable : Group where
  W := 8
  matchH2 g h :=
    let x := load64 g ^^^ (lsbs * h.zeroExtend 64)
    portMask ((x - lsbs) &&& ~~~x &&& msbs)
  matchEmpty g := let c := load64 g; portMask ((c &&& (~~~c <<< 6)) &&& msbs)
  matchEmptyOrDeleted g := let c := load64 g; portMask ((c &&& (~~~c <<< 7)) &&& msbs)
  countLeadingEmptyOrDeleted g :=
    let c := load64 g
    (ctz (((~~~c &&& (c >>> 7)) ||| gaps) + 1#64).toNat + 7) >>> 3
  convertSpecial g :=
    let x := load64 g &&& msbs
    store64 ((~~~x + (x >>> 7)) &&& ~~~lsbs)

/-! ## Capacity arithmetic (phmap.hpp:1018-1080) -/

/-- `IsValidCapacity` (phmap.hpp:1023). -/
def isValidCapacity (n : Nat) : Bool := ((n + 1) &&& n) == 0 && decide (0 < n)

/-- `NormalizeCapacity` (phmap.hpp:1049): `n ? ~size_t{} >> LeadingZeros(n) : 1`. For `n < 2^64` the shifted
all-ones word is `2^(log2 n + 1) - 1` (`normalizeCapacity_word` proves it); the model uses that closed form
so that it also makes sense for unbounded `Nat`. -/
def normalizeCapacity (n : Nat) : Nat := if n = 0 then 1 else 2 ^ (Nat.log2 n + 1) - 1

/-- `CapacityToGrowth` (phmap.hpp:1055-1065); `W` is `Group::kWidth`. -/
def capacityToGrowth (W capacity : Nat) : Nat :=
  if W = 8 ∧ capacity = 7 then 6 else capacity - capacity / 8

/-- `GrowthToLowerboundCapacity` (phmap.hpp:1071-1080); the signed division truncates towards zero, so the
addend is 0 for `growth = 0`. -/
def growthToLowerboundCapacity (W growth : Nat) : Nat :=
  if W = 8 ∧ growth = 7 then 8 else growth + (growth - 1) / 7

end Gtl.Swiss
