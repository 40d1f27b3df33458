import Verif.Utils.HashLemmas
import Verif.Utils.BitOpsLemmas
import Verif.Spec.Digits
/-!
# Properties of hashing and of the bit and byte utilities: C48, C49
-/

namespace Gtl.Props.HashBits

/-! ## C48: hashing -/

section Hashing

open Gtl.Hash Gtl.Spec.KeyEq

/-- Keys that compare equal have equal hashes: integers, floating point numbers (including the two zeros), pairs and tuples nested to
any depth. -/
theorem C48_equal_keys (user : Nat → BitVec 64) (a b : Key) (h : keyEq a b = true) : hash user a = hash user b := hash_eq a b h

/-- Different values of an integral type of at most 64 bits have different hashes. -/
theorem C48_integers_lossless (user : Nat → BitVec 64) (w : Nat) (s : Bool) (hw : w ≤ 64) (a b : Int)
    (ha : if s then -2 ^ (w - 1) ≤ a ∧ a < 2 ^ (w - 1) else 0 ≤ a ∧ a < 2 ^ w)
    (hb : if s then -2 ^ (w - 1) ≤ b ∧ b < 2 ^ (w - 1) else 0 ≤ b ∧ b < 2 ^ w)
    (h : hash user (.int w s a) = hash user (.int w s b)) : a = b := by
  have h' : BitVec.ofInt 64 a = BitVec.ofInt 64 b := by simpa only [Hash.hash, hashWith] using h
  have hm : (2 : Int) ^ w ≤ 2 ^ 64 := by exact_mod_cast Nat.pow_le_pow_right (by omega) hw
  have hm' : (2 : Int) ^ (w - 1) ≤ 2 ^ 63 := by exact_mod_cast Nat.pow_le_pow_right (by omega) (by omega)
  have e := congrArg BitVec.toNat h'
  rw [BitVec.toNat_ofInt, BitVec.toNat_ofInt] at e
  have hp : (2 : Int) ^ 64 = 18446744073709551616 := by norm_num
  have hp' : (2 : Int) ^ 63 = 9223372036854775808 := by norm_num
  have hq : ((2 ^ 64 : Nat) : Int) = 18446744073709551616 := by norm_num
  rw [hq] at e
  rw [hp] at hm
  rw [hp'] at hm'
  cases s with
  | false => simp only [Bool.false_eq_true, if_false] at ha hb; omega
  | true => simp only [if_true] at ha hb; omega

/-- Different doubles have different hashes, the two zeros excepted. -/
theorem C48_doubles_lossless (user : Nat → BitVec 64) (a b : BitVec 64) (h : hash user (.double a) = hash user (.double b)) :
    a = b ∨ (a.toNat % 2 ^ 63 = 0 ∧ b.toNat % 2 ^ 63 = 0) := by
  simp only [Hash.hash, hashWith] at h
  by_cases ha : isZero64 a = true
  · by_cases hb : isZero64 b = true
    · exact .inr ⟨(isZero64_iff a).1 ha, (isZero64_iff b).1 hb⟩
    · rw [if_pos ha, if_neg hb] at h
      subst h
      exact absurd (by decide) hb
  · by_cases hb : isZero64 b = true
    · rw [if_neg ha, if_pos hb] at h
      subst h
      exact absurd (by decide) ha
    · rw [if_neg ha, if_neg hb] at h
      exact .inl h

/-- The hash of a pair or a tuple is a function of the hashes of the elements, in order. -/
theorem C48_tuple_of_hashes (user : Nat → BitVec 64) (ks : List Key) :
    hash user (.tuple ks) = (ks.map (hash user)).foldl combine 0 := hashAllWith_eq combine user ks 0

theorem C48_pair_of_hashes (user : Nat → BitVec 64) (a b : Key) :
    hash user (.pair a b) = combine (hash user a) (hash user b) := by simp only [Hash.hash, hashWith]

theorem C48_combine_of_hashes (user : Nat → BitVec 64) (seed : BitVec 64) (ks : List Key) :
    hashAll user seed ks = (ks.map (hash user)).foldl combine seed := hashAllWith_eq combine user ks seed

/-- Combining loses nothing: for a fixed seed different hashes give different results, and for a fixed hash different seeds do. -/
theorem C48_combine_lossless (h k : BitVec 64) : Function.Bijective (combine h) ∧ Function.Bijective (fun s => combine s k) :=
  ⟨Finite.injective_iff_bijective.1 (combine_inj_right h), Finite.injective_iff_bijective.1 (combine_inj_left k)⟩

theorem C48_combine4_lossless (h k : BitVec 32) : Function.Bijective (combine4 h) ∧ Function.Bijective (fun s => combine4 s k) :=
  ⟨Finite.injective_iff_bijective.1 (combine4_inj_right h), Finite.injective_iff_bijective.1 (combine4_inj_left k)⟩

/-- So tuples which differ in one element (by its hash) have different hashes. -/
theorem C48_one_element (user : Nat → BitVec 64) (xs ys : List Key) (a b : Key) (h : hash user a ≠ hash user b) :
    hash user (.tuple (xs ++ a :: ys)) ≠ hash user (.tuple (xs ++ b :: ys)) := by
  rw [C48_tuple_of_hashes, C48_tuple_of_hashes]
  simp only [List.map_append, List.map_cons, List.foldl_append, List.foldl_cons]
  intro he
  exact h (combine_inj_right _ (foldl_combine_inj _ he))

/-- The portable 64-bit mixer loses nothing. -/
theorem C48_mixer_lossless : Function.Bijective mix8Portable := Finite.injective_iff_bijective.1 mix8Portable_inj

/-- The mixer by 128-bit multiplication and the one for 32 bits do lose: two different inputs get the same value. And the two
64-bit mixers are different functions. -/
theorem C48_mixers_refuted : mix8 0x74ab66f426945a84 = mix8 0xbbb9043e9463640c ∧ mix4 179287 = mix4 162138 ∧
    mix8 1 ≠ mix8Portable 1 := by
  decide +kernel

/-- What `umul128` computes. -/
theorem C48_umul128 (a b : BitVec 64) : (umul128 a b).1.toNat + 2 ^ 64 * (umul128 a b).2.toNat = a.toNat * b.toNat := by
  have ha := a.isLt
  have hb := b.isLt
  have hlt : a.toNat * b.toNat < 2 ^ 128 := by
    have : a.toNat * b.toNat < 2 ^ 64 * 2 ^ 64 := Nat.mul_lt_mul'' ha hb
    simpa using this
  have e : (BitVec.zeroExtend 128 a * BitVec.zeroExtend 128 b).toNat = a.toNat * b.toNat := by
    rw [BitVec.toNat_mul, BitVec.toNat_setWidth, BitVec.toNat_setWidth, Nat.mod_eq_of_lt (by omega : a.toNat < 2 ^ 128),
      Nat.mod_eq_of_lt (by omega : b.toNat < 2 ^ 128), Nat.mod_eq_of_lt hlt]
  simp only [umul128, BitVec.toNat_setWidth, BitVec.toNat_ushiftRight, e, Nat.shiftRight_eq_div_pow]
  generalize a.toNat * b.toNat = p at *
  omega

/-- Keys meeting the hypotheses: `(-0.0, 7)` and `(0.0, 7)` as pairs of a double and an int. -/
theorem ex_keys : keyEq (.pair (.double 0x8000000000000000#64) (.int 32 true 7)) (.pair (.double 0#64) (.int 32 true 7)) = true := by
  decide +kernel

theorem ex_one_element : hash (fun _ => 0) (.int 32 true 1) ≠ hash (fun _ => 0) (.int 32 true (-1)) := by decide +kernel

end Hashing

/-! ## C49: bits and bytes -/

section BitOps

open Gtl.BitOps Gtl.Spec.Digits

/-- Leading zeros: `k` zeros and then a one; 64 for zero. -/
theorem C49_leading64 (n : Nat) (h : n < 2 ^ 64) :
    ∃ k, clz64Slow n = .ok k ∧ k ≤ 64 ∧ n < 2 ^ (64 - k) ∧ (n ≠ 0 → k < 64 ∧ 2 ^ (63 - k) ≤ n) ∧ (n = 0 → k = 64) := by
  have hs := Nat.size_le.2 h
  refine ⟨64 - n.size, clz64_eq h, by omega, ?_, ?_, ?_⟩
  · rw [show 64 - (64 - n.size) = n.size by omega]; exact Nat.lt_size_self n
  · intro hn
    have hp : 0 < n.size := Nat.size_pos.2 (Nat.pos_of_ne_zero hn)
    refine ⟨by omega, ?_⟩
    rw [← Nat.lt_size]
    omega
  · rintro rfl; rfl

theorem C49_leading32 (n : Nat) (h : n < 2 ^ 32) :
    ∃ k, clz32Slow n = .ok k ∧ k ≤ 32 ∧ n < 2 ^ (32 - k) ∧ (n ≠ 0 → k < 32 ∧ 2 ^ (31 - k) ≤ n) ∧ (n = 0 → k = 32) := by
  have hs := Nat.size_le.2 h
  refine ⟨32 - n.size, clz32_eq h, by omega, ?_, ?_, ?_⟩
  · rw [show 32 - (32 - n.size) = n.size by omega]; exact Nat.lt_size_self n
  · intro hn
    have hp : 0 < n.size := Nat.size_pos.2 (Nat.pos_of_ne_zero hn)
    refine ⟨by omega, ?_⟩
    rw [← Nat.lt_size]
    omega
  · rintro rfl; rfl

/-- Trailing zeros of a number that is not zero: the number is an odd number times that power of two. -/
theorem C49_trailing64 (n : Nat) (h : n < 2 ^ 64) (h0 : n ≠ 0) : ∃ m, n = 2 ^ ctz64Slow n * (2 * m + 1) := by
  obtain ⟨k, m, he⟩ := odd_decomp h0
  exact ⟨m, by rw [ctz64_eq h he]; exact he⟩

theorem C49_trailing32 (n : Nat) (h : n < 2 ^ 32) (h0 : n ≠ 0) : ∃ m, n = 2 ^ ctz32Slow n * (2 * m + 1) := by
  obtain ⟨k, m, he⟩ := odd_decomp h0
  exact ⟨m, by rw [ctz32_eq h he]; exact he⟩

theorem byte_bytesOf (k : Nat) : ∀ (x i : Nat), i < k → (bytesOf k x)[i]? = some (byte x i) := by
  induction k with
  | zero => intro x i h; omega
  | succ k ih =>
    intro x i h
    cases i with
    | zero => simp [bytesOf, byte]
    | succ i =>
      rw [bytesOf, List.getElem?_cons_succ, ih _ _ (by omega)]
      unfold byte
      rw [Nat.div_div_eq_div_mul, pow_succ, Nat.mul_comm]

/-- Byte swapping reverses the bytes, and undoes itself. -/
theorem C49_swap (w : Width) (x i : Nat) (hi : i < w.bytes) : byte (swap w x) i = byte x (w.bytes - 1 - i) := by
  have h1 := byte_bytesOf w.bytes (swap w x) i hi
  rw [swap_bytes, List.getElem?_reverse (by rw [bytesOf_length]; exact hi), bytesOf_length,
    byte_bytesOf _ _ _ (by omega)] at h1
  injection h1 with h1
  exact h1.symm

theorem C49_swap_swap (w : Width) (x : Nat) (hx : x < 256 ^ w.bytes) : swap w (swap w x) = x := swap_swap w hx

theorem native_length (host : Order) (k x : Nat) : (native host k x).length = k := by
  cases host <;> simp [native, bytesOf_length]

theorem native_convert (host order : Order) (w : Width) (x : Nat) :
    native host w.bytes (convert host order w x) = native order w.bytes x := by
  cases host <;> cases order <;> simp [native, convert, swap_bytes]

/-- Storing on a machine of either byte order puts the `i`-th byte of the number where the named order says, and changes nothing
else. -/
theorem C49_store (host order : Order) (mem : List Nat) (p : Nat) (w : Width) (x : Nat) (hp : p + w.bytes ≤ mem.length) :
    ∃ mem', store host order mem p w x = .ok mem' ∧ mem'.length = mem.length ∧
      (∀ (i : Nat), i < w.bytes → mem'[p + place order w.bytes i]? = some (byte x i)) ∧
      (∀ (q : Nat), q < p ∨ p + w.bytes ≤ q → mem'[q]? = mem[q]?) := by
  have hl : (native order w.bytes x).length = w.bytes := native_length ..
  have ht : (mem.take p).length = p := by simp; omega
  refine ⟨mem.take p ++ native order w.bytes x ++ mem.drop (p + w.bytes), ?_, ?_, ?_, ?_⟩
  · unfold store rawStore
    rw [if_pos hp, native_convert]
  · simp [hl]; omega
  · intro i hi
    have hpl : place order w.bytes i < w.bytes := by
      cases order <;> simp [place] <;> omega
    rw [List.append_assoc, List.getElem?_append_right (by omega), ht, Nat.add_sub_cancel_left,
      List.getElem?_append_left (by omega)]
    cases order with
    | little => exact byte_bytesOf _ _ _ hi
    | big =>
      show (bytesOf w.bytes x).reverse[w.bytes - 1 - i]? = _
      rw [List.getElem?_reverse (by rw [bytesOf_length]; omega), bytesOf_length,
        show w.bytes - 1 - (w.bytes - 1 - i) = i by omega]
      exact byte_bytesOf _ _ _ hi
  · intro q hq
    rcases hq with hq | hq
    · rw [List.append_assoc, List.getElem?_append_left (by omega), List.getElem?_take_of_lt hq]
    · rw [List.getElem?_append_right (by simp [hl]; omega), List.getElem?_drop]
      congr 1
      simp [hl]; omega

/-- Loading what was stored gives it back. -/
theorem C49_load_store (host order : Order) (mem mem' : List Nat) (p : Nat) (w : Width) (x : Nat) (hx : x < 256 ^ w.bytes)
    (hs : store host order mem p w x = .ok mem') : load host order mem' p w = .ok x := by
  unfold store rawStore at hs
  split at hs
  · rename_i hp
    injection hs with hs
    subst hs
    rw [native_convert]
    have hl : (native order w.bytes x).length = w.bytes := native_length ..
    have ht : (mem.take p).length = p := by simp; omega
    unfold load rawLoad
    rw [if_pos (by simp [hl]; omega), Res.ok_bind, List.append_assoc]
    have hd : (mem.take p ++ (native order w.bytes x ++ mem.drop (p + w.bytes))).drop p =
        native order w.bytes x ++ mem.drop (p + w.bytes) := List.drop_left' ht
    rw [hd, List.take_left' hl]
    congr 1
    have hsw : ofBytes (bytesOf w.bytes x).reverse = swap w x := (swap_eq_ofBytes w x).symm
    cases host <;> cases order <;>
      simp only [ofNative, native, convert, List.reverse_reverse, ofBytes_bytesOf _ _ hx, hsw, reduceCtorEq, if_true, if_false,
        swap_swap w hx]
  · cases hs

/-- Network byte order: the number whose memory image on this machine has the highest byte first. -/
theorem C49_network (host : Order) (w : Width) (x : Nat) : native host w.bytes (hton host w x) = native .big w.bytes x := by
  cases host <;> simp [native, hton, swap_bytes]

/-- On Apple systems with other compilers than GCC and Clang the 16-bit and 64-bit byte swaps are wrong. -/
theorem C49_apple_refuted : byte (appleSwap64 1) 7 ≠ byte 1 0 ∧ byte (appleSwap16 0x100) 0 ≠ byte 0x100 1 := by decide +kernel

/-- Cases meeting the hypotheses. -/
theorem ex_bits : clz64Slow 0x00F0000000000001 = .ok 8 ∧ ctz64Slow 0x00F0000000000100 = 8 ∧
    swap64 0x0102030405060708 = 0x0807060504030201 ∧
    store .little .big [9, 9, 9, 9] 1 .w16 0x0102 = .ok [9, 1, 2, 9] := by decide +kernel

end BitOps

end Gtl.Props.HashBits
