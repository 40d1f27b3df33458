import Mathlib.Data.Fintype.EquivFin
import Verif.Utils.Hash
import Verif.Spec.KeyEq
/-!
# Lemmas about hashing
-/

namespace Gtl.Hash

instance (w : Nat) : Finite (BitVec w) :=
  Finite.of_injective (fun x : BitVec w => x.toFin) (fun x y h => by cases x; cases y; simpa using h)

theorem xorshift_inj {w : Nat} (r : Nat) (hr : 0 < r) : Function.Injective (fun x : BitVec w => x ^^^ (x >>> r)) := by
  intro x y h
  dsimp only at h
  apply BitVec.eq_of_getLsbD_eq
  have key : ∀ (n i : Nat), i + n = w → ∀ j, i ≤ j → j < w → x.getLsbD j = y.getLsbD j := by
    intro n
    induction n with
    | zero => intro i hi j h1 h2; omega
    | succ n ih =>
      intro i hi j h1 h2
      by_cases hj : i + 1 ≤ j
      · exact ih (i + 1) (by omega) j hj h2
      · have hij : j = i := by omega
        subst hij
        have hb := congrArg (fun b => b.getLsbD j) h
        simp only [BitVec.getLsbD_xor, BitVec.getLsbD_ushiftRight] at hb
        have hup : x.getLsbD (r + j) = y.getLsbD (r + j) := by
          by_cases hlt : r + j < w
          · exact ih (j + 1) (by omega) (r + j) (by omega) hlt
          · rw [BitVec.getLsbD_of_ge x _ (by omega), BitVec.getLsbD_of_ge y _ (by omega)]
        rw [hup] at hb
        revert hb
        cases x.getLsbD j <;> cases y.getLsbD j <;> cases y.getLsbD (r + j) <;> simp
  intro i hi
  exact key w 0 (by omega) i (by omega) hi

theorem mul_inj {w : Nat} {m n : BitVec w} (h : m * n = 1#w) : Function.Injective (fun x : BitVec w => x * m) := by
  intro x y hxy
  dsimp only at hxy
  have : x * m * n = y * m * n := by rw [hxy]
  rwa [BitVec.mul_assoc, BitVec.mul_assoc, h, BitVec.mul_one, BitVec.mul_one] at this

theorem add_inj {w : Nat} (c : BitVec w) : Function.Injective (fun x : BitVec w => x + c) := by
  intro x y h
  exact (BitVec.add_left_inj c).1 h

theorem xor_inj_left {w : Nat} (c : BitVec w) : Function.Injective (fun x : BitVec w => x ^^^ c) := by
  intro x y h
  dsimp only at h
  have : x ^^^ c ^^^ c = y ^^^ c ^^^ c := by rw [h]
  rwa [BitVec.xor_assoc, BitVec.xor_assoc, BitVec.xor_self, BitVec.xor_zero, BitVec.xor_zero] at this

theorem xor_inj_right {w : Nat} (c : BitVec w) : Function.Injective (fun x : BitVec w => c ^^^ x) := by
  intro x y h
  apply xor_inj_left c
  dsimp only at h ⊢
  rwa [BitVec.xor_comm x, BitVec.xor_comm y]

theorem shl_mul {w : Nat} (x : BitVec w) (k : Nat) : x <<< k = x * BitVec.twoPow w k := by
  rw [BitVec.mul_twoPow_eq_shiftLeft]

theorem mix8Portable_inj : Function.Injective mix8Portable := by
  have e1 : (fun a : BitVec 64 => ~~~a + (a <<< 21)) = (fun a => a * 0x1FFFFF#64 + 0xFFFFFFFFFFFFFFFF#64) := by
    funext a
    rw [BitVec.not_eq_neg_add, shl_mul]
    have : (0x1FFFFF#64) = BitVec.twoPow 64 21 - 1#64 := by decide
    rw [this, BitVec.mul_sub, BitVec.mul_one]
    have h2 : (0xFFFFFFFFFFFFFFFF#64) = - 1#64 := by decide
    rw [h2, BitVec.sub_eq_add_neg, BitVec.sub_eq_add_neg]
    ac_rfl
  have e2 : (fun a : BitVec 64 => (a + (a <<< 3)) + (a <<< 8)) = (fun a => a * 265#64) := by
    funext a
    rw [shl_mul, shl_mul]
    have : (265#64) = 1#64 + BitVec.twoPow 64 3 + BitVec.twoPow 64 8 := by decide
    rw [this, BitVec.mul_add, BitVec.mul_add, BitVec.mul_one]
  have e3 : (fun a : BitVec 64 => (a + (a <<< 2)) + (a <<< 4)) = (fun a => a * 21#64) := by
    funext a
    rw [shl_mul, shl_mul]
    have : (21#64) = 1#64 + BitVec.twoPow 64 2 + BitVec.twoPow 64 4 := by decide
    rw [this, BitVec.mul_add, BitVec.mul_add, BitVec.mul_one]
  have e4 : (fun a : BitVec 64 => a + (a <<< 31)) = (fun a => a * 0x80000001#64) := by
    funext a
    rw [shl_mul]
    have : (0x80000001#64) = 1#64 + BitVec.twoPow 64 31 := by decide
    rw [this, BitVec.mul_add, BitVec.mul_one]
  have i1 : Function.Injective (fun a : BitVec 64 => ~~~a + (a <<< 21)) := by
    rw [e1]
    exact (add_inj _).comp (mul_inj (n := 0x7ffffbffffdfffff#64) (by decide))
  have i2 : Function.Injective (fun a : BitVec 64 => (a + (a <<< 3)) + (a <<< 8)) := by
    rw [e2]; exact mul_inj (n := 0xd38ff08b1c03dd39#64) (by decide)
  have i3 : Function.Injective (fun a : BitVec 64 => (a + (a <<< 2)) + (a <<< 4)) := by
    rw [e3]; exact mul_inj (n := 0xcf3cf3cf3cf3cf3d#64) (by decide)
  have i4 : Function.Injective (fun a : BitVec 64 => a + (a <<< 31)) := by
    rw [e4]; exact mul_inj (n := 0x3fffffff80000001#64) (by decide)
  exact i4.comp ((xorshift_inj 28 (by omega)).comp (i3.comp ((xorshift_inj 14 (by omega)).comp
    (i2.comp ((xorshift_inj 24 (by omega)).comp i1)))))

theorem combine_inj_left (k : BitVec 64) : Function.Injective (fun h => combine h k) :=
  (add_inj _).comp ((mul_inj (m := 0xc6a4a7935bd1e995#64) (n := 0x5f7a0ea7e59b19bd#64) (by decide)).comp (xor_inj_left _))

theorem combine_inj_right (h : BitVec 64) : Function.Injective (fun k => combine h k) :=
  have hm : Function.Injective (fun x : BitVec 64 => x * 0xc6a4a7935bd1e995#64) := mul_inj (n := 0x5f7a0ea7e59b19bd#64) (by decide)
  (add_inj _).comp (hm.comp ((xor_inj_right h).comp (hm.comp ((xorshift_inj 47 (by omega)).comp hm))))

theorem rotl32_eq (x : BitVec 32) {r : Nat} (h0 : 0 < r) (hr : r < 32) : rotl32 x r = x.rotateLeft r := by
  apply BitVec.eq_of_getLsbD_eq
  intro i hi
  rw [BitVec.getLsbD_rotateLeft]
  simp only [rotl32, BitVec.getLsbD_or, BitVec.getLsbD_shiftLeft, BitVec.getLsbD_ushiftRight, Nat.mod_eq_of_lt hr]
  by_cases h : i < r
  · simp only [h, decide_true, Bool.not_true, Bool.and_false, Bool.false_and, Bool.false_or, cond_true]
  · simp only [h, decide_false, Bool.not_false, Bool.and_true, hi, decide_true, Bool.true_and]
    rw [BitVec.getLsbD_of_ge x (32 - r + i) (by omega), Bool.or_false]
    rfl

theorem rotl32_inj {r : Nat} (h0 : 0 < r) (hr : r < 32) : Function.Injective (fun x => rotl32 x r) := by
  intro x y h
  dsimp only at h
  rw [rotl32_eq x h0 hr, rotl32_eq y h0 hr] at h
  apply BitVec.eq_of_getLsbD_eq
  intro i hi
  by_cases hir : i + r < 32
  · have := congrArg (fun b => b.getLsbD (i + r)) h
    simp only [BitVec.getLsbD_rotateLeft, Nat.mod_eq_of_lt hr] at this
    have hn : ¬ i + r < r := by omega
    simpa [hn, hir] using this
  · have := congrArg (fun b => b.getLsbD (i + r - 32)) h
    simp only [BitVec.getLsbD_rotateLeft, Nat.mod_eq_of_lt hr] at this
    have hn : i + r - 32 < r := by omega
    have he : 32 - r + (i + r - 32) = i := by omega
    simpa [hn, he] using this

theorem combine4_inj_left (k : BitVec 32) : Function.Injective (fun h => combine4 h k) :=
  (add_inj _).comp ((mul_inj (m := 5#32) (n := 0xcccccccd#32) (by decide)).comp
    ((rotl32_inj (r := 13) (by omega) (by omega)).comp (xor_inj_left _)))

theorem combine4_inj_right (h : BitVec 32) : Function.Injective (fun k => combine4 h k) :=
  (add_inj _).comp ((mul_inj (m := 5#32) (n := 0xcccccccd#32) (by decide)).comp
    ((rotl32_inj (r := 13) (by omega) (by omega)).comp ((xor_inj_right h).comp
      ((mul_inj (m := 0x1b873593#32) (n := 0x56ed309b#32) (by decide)).comp
        ((rotl32_inj (r := 15) (by omega) (by omega)).comp (mul_inj (m := 0xcc9e2d51#32) (n := 0xdee13bb1#32) (by decide)))))))

theorem hashAllWith_eq (comb : BitVec 64 → BitVec 64 → BitVec 64) (user : Nat → BitVec 64) : ∀ (ks : List Key)
    (seed : BitVec 64), hashAllWith comb user seed ks = (ks.map (hashWith comb user)).foldl comb seed
  | [], _ => by simp [hashAllWith]
  | k :: ks, seed => by rw [hashAllWith, hashAllWith_eq comb user ks]; rfl

theorem foldl_combine_inj (ks : List (BitVec 64)) : Function.Injective (fun seed => ks.foldl combine seed) := by
  induction ks with
  | nil => intro a b h; exact h
  | cons k ks ih => exact ih.comp (combine_inj_left k)

/-! ## Floats -/

theorem isZero64_iff (b : BitVec 64) : isZero64 b = true ↔ b.toNat % 2 ^ 63 = 0 := by
  unfold isZero64
  rw [beq_iff_eq, ← BitVec.toNat_inj, BitVec.toNat_and]
  have : (0x7FFFFFFFFFFFFFFF#64).toNat = 2 ^ 63 - 1 := by decide
  rw [this, Nat.and_two_pow_sub_one_eq_mod]
  rfl

theorem isZero32_iff (b : BitVec 32) : isZero32 b = true ↔ b.toNat % 2 ^ 31 = 0 := by
  unfold isZero32
  rw [beq_iff_eq, ← BitVec.toNat_inj, BitVec.toNat_and]
  have : (0x7FFFFFFF#32).toNat = 2 ^ 31 - 1 := by decide
  rw [this, Nat.and_two_pow_sub_one_eq_mod]
  rfl

open Spec.KeyEq

theorem double_eq {comb : BitVec 64 → BitVec 64 → BitVec 64} {user : Nat → BitVec 64} {a b : BitVec 64} (h : ieeeEq 11 52 a.toNat b.toNat = true) :
    hashWith comb user (.double a) = hashWith comb user (.double b) := by
  unfold ieeeEq at h
  simp only [Bool.and_eq_true, Bool.or_eq_true, decide_eq_true_eq] at h
  rcases h.2 with h | ⟨h1, h2⟩
  · rw [BitVec.toNat_inj] at h; rw [h]
  · have h1' : isZero64 a = true := (isZero64_iff a).2 h1
    have h2' : isZero64 b = true := (isZero64_iff b).2 h2
    simp only [hashWith, if_pos h1', if_pos h2']

theorem float_eq {comb : BitVec 64 → BitVec 64 → BitVec 64} {user : Nat → BitVec 64} {a b : BitVec 32} (h : ieeeEq 8 23 a.toNat b.toNat = true) :
    hashWith comb user (.float a) = hashWith comb user (.float b) := by
  unfold ieeeEq at h
  simp only [Bool.and_eq_true, Bool.or_eq_true, decide_eq_true_eq] at h
  rcases h.2 with h | ⟨h1, h2⟩
  · rw [BitVec.toNat_inj] at h; rw [h]
  · have h1' : isZero32 a = true := (isZero32_iff a).2 h1
    have h2' : isZero32 b = true := (isZero32_iff b).2 h2
    simp only [hashWith, if_pos h1', if_pos h2']

mutual
theorem hash_eq {comb : BitVec 64 → BitVec 64 → BitVec 64} {user : Nat → BitVec 64} : ∀ (a b : Key), keyEq a b = true → hashWith comb user a = hashWith comb user b
  | .int w s v, b, h => by
    cases b <;> simp only [keyEq, decide_eq_true_eq, Bool.false_eq_true] at h
    rw [h.2.2]; simp only [hashWith]
  | .float a, b, h => by
    cases b <;> simp only [keyEq, Bool.false_eq_true] at h
    exact float_eq h
  | .double a, b, h => by
    cases b <;> simp only [keyEq, Bool.false_eq_true] at h
    exact double_eq h
  | .user a, b, h => by
    cases b <;> simp only [keyEq, decide_eq_true_eq, Bool.false_eq_true] at h
    rw [h]
  | .pair a c, b, h => by
    cases b <;> simp only [keyEq, Bool.and_eq_true, Bool.false_eq_true] at h
    simp only [hashWith]
    rw [hash_eq a _ h.1, hash_eq c _ h.2]
  | .tuple ks, b, h => by
    cases b <;> simp only [keyEq, Bool.false_eq_true] at h
    simp only [hashWith]
    exact hashAll_congr ks _ h 0
theorem hashAll_congr {comb : BitVec 64 → BitVec 64 → BitVec 64} {user : Nat → BitVec 64} : ∀ (ks ls : List Key), keysEq ks ls = true → ∀ seed,
    hashAllWith comb user seed ks = hashAllWith comb user seed ls
  | [], ls, h, seed => by
    cases ls <;> simp only [keysEq, Bool.false_eq_true] at h
    rfl
  | k :: ks, ls, h, seed => by
    cases ls <;> simp only [keysEq, Bool.and_eq_true, Bool.false_eq_true] at h
    rw [hashAllWith, hashAllWith, hash_eq k _ h.1]
    exact hashAll_congr ks _ h.2 _
end

end Gtl.Hash
