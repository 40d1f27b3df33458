/-!
# Model of the hash functions of phmap_utils.hpp and bits.hpp (umul128)

`size_t` has 64 bits unless said otherwise.
-/

namespace Gtl.Hash

/-- `umul128` (bits.hpp:180-184): low and high half of the product. -/
def umul128 (a b : BitVec 64) : BitVec 64 × BitVec 64 :=
  let p : BitVec 128 := a.zeroExtend 128 * b.zeroExtend 128
  (p.truncate 64, (p >>> 64).truncate 64)

/-- `phmap_mix<8>` with 128-bit multiplication (phmap_utils.hpp:67-77). -/
def mix8 (a : BitVec 64) : BitVec 64 :=
  let (l, h) := umul128 a 0xde5fb9d2630458e9
  h + l

/-- `phmap_mix<8>` without (phmap_utils.hpp:79-91). -/
def mix8Portable (a : BitVec 64) : BitVec 64 :=
  let a := ~~~a + (a <<< 21)
  let a := a ^^^ (a >>> 24)
  let a := (a + (a <<< 3)) + (a <<< 8)
  let a := a ^^^ (a >>> 14)
  let a := (a + (a <<< 2)) + (a <<< 4)
  let a := a ^^^ (a >>> 28)
  a + (a <<< 31)

/-- `phmap_mix<4>` (phmap_utils.hpp:56-64), for a `size_t` of 32 bits. -/
def mix4 (a : BitVec 32) : BitVec 32 :=
  let l : BitVec 64 := a.zeroExtend 64 * 0xcc9e2d51
  (l ^^^ (l >>> 32)).truncate 32

/-- `fold_if_needed<4>` (phmap_utils.hpp:100-103). -/
def fold4 (a : BitVec 64) : BitVec 32 := (a ^^^ (a >>> 32)).truncate 32

/-- `Combiner<H, 8>` (phmap_utils.hpp:270-292). -/
def combine (h k : BitVec 64) : BitVec 64 :=
  let m : BitVec 64 := 0xc6a4a7935bd1e995
  let k := k * m
  let k := k ^^^ (k >>> 47)
  let k := k * m
  let h := h ^^^ k
  let h := h * m
  h + 0xe6546b64

/-- `GTL_HASH_ROTL32` (phmap_utils.hpp:241). -/
def rotl32 (x : BitVec 32) (r : Nat) : BitVec 32 := (x <<< r) ||| (x >>> (32 - r))

/-- `Combiner<H, 4>` (phmap_utils.hpp:249-268), for `H` and `size_t` of 32 bits. -/
def combine4 (h1 k1 : BitVec 32) : BitVec 32 :=
  let k1 := k1 * 0xcc9e2d51
  let k1 := rotl32 k1 15
  let k1 := k1 * 0x1b873593
  let h1 := h1 ^^^ k1
  let h1 := rotl32 h1 13
  h1 * 5 + 0xe6546b64

/-- Keys: values of the integral types, floats and doubles by their bits, pairs, tuples, values of other types. -/
inductive Key where
  | int (bits : Nat) (signed : Bool) (v : Int)
  | float (b : BitVec 32)
  | double (b : BitVec 64)
  | user (v : Nat)
  | pair (a b : Key)
  | tuple (ks : List Key)

/-- `val == 0` for a float (of either sign) and a double. -/
def isZero32 (b : BitVec 32) : Bool := b &&& 0x7FFFFFFF#32 == 0
/-- `val == 0` for a double. -/
def isZero64 (b : BitVec 64) : Bool := b &&& 0x7FFFFFFFFFFFFFFF#64 == 0

mutual
/-- `Hash<T>::operator()`: integral types (phmap_utils.hpp:157-214), float and double (216-234), pairs (319-324), tuples (328-333),
other types by their own function `user` (139-150); `comb` is the `Combiner`. -/
def hashWith (comb : BitVec 64 → BitVec 64 → BitVec 64) (user : Nat → BitVec 64) : Key → BitVec 64
  | .int _ _ v => BitVec.ofInt 64 v
  | .float b => if isZero32 b then 0 else b.zeroExtend 64
  | .double b => if isZero64 b then 0 else b
  | .user v => user v
  | .pair a b => comb (hashWith comb user a) (hashWith comb user b)
  | .tuple ks => hashAllWith comb user 0 ks
/-- `_hash_helper` (phmap_utils.hpp:336-349), `HashState::combine` (phmap_utils.hpp:296-309). -/
def hashAllWith (comb : BitVec 64 → BitVec 64 → BitVec 64) (user : Nat → BitVec 64) (seed : BitVec 64) : List Key → BitVec 64
  | [] => seed
  | k :: ks => hashAllWith comb user (comb seed (hashWith comb user k)) ks
end

/-- `Hash<T>`, with the 64-bit combiner. -/
def hash (user : Nat → BitVec 64) (k : Key) : BitVec 64 := hashWith combine user k

/-- `HashState::combine(seed, ks...)` (phmap_utils.hpp:300-308). -/
def hashAll (user : Nat → BitVec 64) (seed : BitVec 64) (ks : List Key) : BitVec 64 := hashAllWith combine user seed ks

end Gtl.Hash
