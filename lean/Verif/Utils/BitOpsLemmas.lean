import Mathlib.Data.Nat.Size
import Mathlib.Tactic.IntervalCases
import Mathlib.Tactic.Ring
import Verif.Utils.BitOps
/-!
# Lemmas about the bit and byte utilities
-/

namespace Gtl.BitOps

/-! ## Leading zeros -/

theorem size_shift {n s : Nat} (h : n >>> s ≠ 0) : n.size = (n >>> s).size + s := by
  rw [Nat.shiftRight_eq_div_pow] at *
  have hp : 0 < 2 ^ s := Nat.two_pow_pos s
  apply Nat.le_antisymm
  · rw [Nat.size_le, pow_add]
    have h1 : n / 2 ^ s < 2 ^ (n / 2 ^ s).size := Nat.lt_size_self _
    exact (Nat.div_lt_iff_lt_mul hp).1 h1
  · have h2 : 0 < (n / 2 ^ s).size := Nat.size_pos.2 (Nat.pos_of_ne_zero h)
    have h3 : (n / 2 ^ s).size - 1 < (n / 2 ^ s).size := by omega
    rw [Nat.lt_size] at h3
    have h4 : 2 ^ ((n / 2 ^ s).size - 1 + s) ≤ n := by
      rw [pow_add]
      exact (Nat.le_div_iff_mul_le hp).1 h3
    rw [← Nat.lt_size] at h4
    omega

/-- After a step the number is smaller and the sum is the same. -/
theorem clzStep_ok {s z n : Nat} (hs : s ≤ z) (hn : n < 2 ^ (2 * s)) :
    (clzStep s (z, n)).2 < 2 ^ s ∧ (clzStep s (z, n)).1 + n.size = z + (clzStep s (z, n)).2.size ∧
      z ≤ (clzStep s (z, n)).1 + s := by
  unfold clzStep
  dsimp only
  split
  · rename_i h
    refine ⟨?_, ?_, ?_⟩
    · rw [Nat.shiftRight_eq_div_pow]
      apply Nat.div_lt_of_lt_mul
      rw [← pow_add]
      rwa [two_mul] at hn
    · have := size_shift h
      dsimp only
      omega
    · dsimp only; omega
  · rename_i h
    refine ⟨?_, rfl, by dsimp only; omega⟩
    have : n >>> s = 0 := by simpa using h
    rw [Nat.shiftRight_eq_div_pow, Nat.div_eq_zero_iff] at this
    have hp : 0 < 2 ^ s := Nat.two_pow_pos s
    dsimp only
    omega

theorem clzTable_ok : ∀ n, n < 16 → clzTable[n]? = some (4 - n.size) := by decide

theorem size_lt_16 {n : Nat} (h : n < 16) : n.size ≤ 4 := Nat.size_le.2 h

theorem clz64_eq {n : Nat} (h : n < 2 ^ 64) : clz64Slow n = .ok (64 - n.size) := by
  unfold clz64Slow
  dsimp only
  obtain ⟨a1, a2, a3⟩ := clzStep_ok (s := 32) (z := 60) (n := n) (by omega) h
  generalize clzStep 32 (60, n) = s1 at *
  obtain ⟨z1, n1⟩ := s1
  dsimp only at a1 a2 a3
  obtain ⟨b1, b2, b3⟩ := clzStep_ok (s := 16) (z := z1) (n := n1) (by omega) a1
  generalize clzStep 16 (z1, n1) = s2 at *
  obtain ⟨z2, n2⟩ := s2
  dsimp only at b1 b2 b3
  obtain ⟨c1, c2, c3⟩ := clzStep_ok (s := 8) (z := z2) (n := n2) (by omega) b1
  generalize clzStep 8 (z2, n2) = s3 at *
  obtain ⟨z3, n3⟩ := s3
  dsimp only at c1 c2 c3
  obtain ⟨d1, d2, d3⟩ := clzStep_ok (s := 4) (z := z3) (n := n3) (by omega) c1
  generalize clzStep 4 (z3, n3) = s4 at *
  obtain ⟨z4, n4⟩ := s4
  dsimp only at d1 d2 d3
  rw [clzTable_ok n4 d1]
  simp only [Res.ofOption, Res.ok_bind]
  have := size_lt_16 d1
  have := Nat.size_le.2 h
  congr 1
  omega

theorem clz32_eq {n : Nat} (h : n < 2 ^ 32) : clz32Slow n = .ok (32 - n.size) := by
  unfold clz32Slow
  dsimp only
  obtain ⟨b1, b2, b3⟩ := clzStep_ok (s := 16) (z := 28) (n := n) (by omega) h
  generalize clzStep 16 (28, n) = s2 at *
  obtain ⟨z2, n2⟩ := s2
  dsimp only at b1 b2 b3
  obtain ⟨c1, c2, c3⟩ := clzStep_ok (s := 8) (z := z2) (n := n2) (by omega) b1
  generalize clzStep 8 (z2, n2) = s3 at *
  obtain ⟨z3, n3⟩ := s3
  dsimp only at c1 c2 c3
  obtain ⟨d1, d2, d3⟩ := clzStep_ok (s := 4) (z := z3) (n := n3) (by omega) c1
  generalize clzStep 4 (z3, n3) = s4 at *
  obtain ⟨z4, n4⟩ := s4
  dsimp only at d1 d2 d3
  rw [clzTable_ok n4 d1]
  simp only [Res.ofOption, Res.ok_bind]
  have := size_lt_16 d1
  have := Nat.size_le.2 h
  congr 1
  omega

/-! ## Trailing zeros -/

theorem odd_decomp {n : Nat} (h : n ≠ 0) : ∃ k m, n = 2 ^ k * (2 * m + 1) := by
  induction n using Nat.strongRecOn with
  | _ n ih =>
    by_cases hp : n % 2 = 1
    · exact ⟨0, n / 2, by omega⟩
    · obtain ⟨k, m, hm⟩ := ih (n / 2) (by omega) (by omega)
      refine ⟨k + 1, m, ?_⟩
      rw [pow_succ]
      have : n = 2 * (n / 2) := by omega
      rw [this, hm]
      ring

theorem and_compl {m j : Nat} (h : m < 2 ^ j) : m &&& (2 ^ j - (m + 1)) = 0 := by
  apply Nat.eq_of_testBit_eq
  intro i
  rw [Nat.testBit_and, Nat.testBit_two_pow_sub_succ h, Nat.zero_testBit]
  cases m.testBit i <;> simp

theorem and_negate {w n k m : Nat} (hn : n < 2 ^ w) (he : n = 2 ^ k * (2 * m + 1)) : k < w ∧ n &&& negate w n = 2 ^ k := by
  have hp : 0 < 2 ^ k := Nat.two_pow_pos k
  have hk : k < w := by
    by_contra hc
    have h1 : 2 ^ w ≤ 2 ^ k := Nat.pow_le_pow_right (by omega) (by omega)
    have h2 : 2 ^ k * 1 ≤ 2 ^ k * (2 * m + 1) := Nat.mul_le_mul_left _ (by omega)
    omega
  refine ⟨hk, ?_⟩
  obtain ⟨j, rfl⟩ : ∃ j, w = k + (j + 1) := ⟨w - k - 1, by omega⟩
  have hm : m < 2 ^ j := by
    by_contra hc
    have h1 : 2 ^ k * (2 * 2 ^ j) ≤ 2 ^ k * (2 * m + 1) := Nat.mul_le_mul_left _ (by omega)
    have h2 : 2 ^ (k + (j + 1)) = 2 ^ k * (2 * 2 ^ j) := by ring
    omega
  have hneg : negate (k + (j + 1)) n = 2 ^ k * (2 * (2 ^ j - (m + 1)) + 1) := by
    unfold negate
    have hpos : 0 < n := by
      have h2 : 2 ^ k * 1 ≤ 2 ^ k * (2 * m + 1) := Nat.mul_le_mul_left _ (by omega)
      omega
    rw [show 2 ^ (k + (j + 1)) - 1 - n + 1 = 2 ^ (k + (j + 1)) - n by omega, Nat.mod_eq_of_lt (by omega), he]
    have h2 : 2 ^ (k + (j + 1)) = 2 ^ k * (2 * 2 ^ j) := by ring
    rw [h2, ← Nat.mul_sub]
    congr 1
    omega
  rw [hneg, he]
  have e : ∀ a, 2 ^ k * a = a <<< k := fun a => by rw [Nat.shiftLeft_eq, Nat.mul_comm]
  rw [e, e, ← Nat.shiftLeft_and_distrib]
  have e1 : (2 * m + 1) &&& (2 * (2 ^ j - (m + 1)) + 1) = 1 := by
    apply Nat.eq_of_testBit_eq
    intro i
    cases i with
    | zero => simp
    | succ i =>
      have hb : ∀ a, (2 * a + 1).testBit (i + 1) = a.testBit i := by
        intro a
        rw [Nat.testBit_succ]
        congr 1
        omega
      rw [Nat.testBit_and, hb, hb, ← Nat.testBit_and, and_compl hm]
      simp [Nat.testBit_succ]
  rw [e1, Nat.shiftLeft_eq, Nat.one_mul]

theorem ctz64_pow : ∀ k, k < 64 →
    ctzStep (2 ^ k) 0x5555555555555555 1 (ctzStep (2 ^ k) 0x3333333333333333 2 (ctzStep (2 ^ k) 0x0F0F0F0F0F0F0F0F 4
      (ctzStep (2 ^ k) 0x00FF00FF00FF00FF 8 (ctzStep (2 ^ k) 0x0000FFFF0000FFFF 16 (ctzStep (2 ^ k) 0x00000000FFFFFFFF 32 63))))) =
      k := by
  decide +kernel

theorem ctz32_pow : ∀ k, k < 32 →
    ctzStep (2 ^ k) 0x55555555 1 (ctzStep (2 ^ k) 0x33333333 2 (ctzStep (2 ^ k) 0x0F0F0F0F 4
      (ctzStep (2 ^ k) 0x00FF00FF 8 (ctzStep (2 ^ k) 0x0000FFFF 16 31)))) = k := by
  decide +kernel

theorem ctz64_eq {n k m : Nat} (hn : n < 2 ^ 64) (he : n = 2 ^ k * (2 * m + 1)) : ctz64Slow n = k := by
  obtain ⟨h1, h2⟩ := and_negate hn he
  unfold ctz64Slow
  dsimp only
  rw [h2]
  exact ctz64_pow k h1

theorem ctz32_eq {n k m : Nat} (hn : n < 2 ^ 32) (he : n = 2 ^ k * (2 * m + 1)) : ctz32Slow n = k := by
  obtain ⟨h1, h2⟩ := and_negate hn he
  unfold ctz32Slow
  dsimp only
  rw [h2]
  exact ctz32_pow k h1

/-! ## Swapping bytes -/

theorem and_mask (x a : Nat) : x &&& (255 * 2 ^ a) = x / 2 ^ a % 256 * 2 ^ a := by
  have h : 255 * 2 ^ a = 255 <<< a := (Nat.shiftLeft_eq ..).symm
  rw [h]
  apply Nat.eq_of_testBit_eq
  intro i
  rw [Nat.testBit_and, Nat.testBit_shiftLeft, Nat.testBit_mul_two_pow]
  by_cases hi : a ≤ i
  · simp only [hi, decide_true, Bool.true_and]
    rw [show (256 : Nat) = 2 ^ 8 by rfl, Nat.testBit_mod_two_pow, Nat.testBit_div_two_pow, Nat.sub_add_cancel hi,
      show (255 : Nat) = 2 ^ 8 - 1 by rfl, Nat.testBit_two_pow_sub_one, Bool.and_comm]
  · simp [hi]

theorem or_add (a : Nat) {b i : Nat} (hb : b < 2 ^ i) : 2 ^ i * a ||| b = 2 ^ i * a + b := (Nat.two_pow_add_eq_or_of_lt hb a).symm

theorem mul_pow_div (b i j : Nat) : b * 2 ^ (i + j) / 2 ^ j = b * 2 ^ i := by
  rw [pow_add, ← Nat.mul_assoc, Nat.mul_div_cancel _ (Nat.two_pow_pos j)]

theorem swap64_eq (x : Nat) : swap64 x = x % 256 * 2 ^ 56 + x / 2 ^ 8 % 256 * 2 ^ 48 + x / 2 ^ 16 % 256 * 2 ^ 40 +
    x / 2 ^ 24 % 256 * 2 ^ 32 + x / 2 ^ 32 % 256 * 2 ^ 24 + x / 2 ^ 40 % 256 * 2 ^ 16 + x / 2 ^ 48 % 256 * 2 ^ 8 +
    x / 2 ^ 56 % 256 := by
  unfold swap64
  have m0 := and_mask x 0
  have m1 := and_mask x 8
  have m2 := and_mask x 16
  have m3 := and_mask x 24
  have m4 := and_mask x 32
  have m5 := and_mask x 40
  have m6 := and_mask x 48
  have m7 := and_mask x 56
  simp only [pow_zero, Nat.div_one, Nat.mul_one] at m0
  rw [show (255 : Nat) = 0xFF by rfl] at m0
  rw [show 255 * 2 ^ 8 = 0xFF00 by rfl] at m1
  rw [show 255 * 2 ^ 16 = 0xFF0000 by rfl] at m2
  rw [show 255 * 2 ^ 24 = 0xFF000000 by rfl] at m3
  rw [show 255 * 2 ^ 32 = 0xFF00000000 by rfl] at m4
  rw [show 255 * 2 ^ 40 = 0xFF0000000000 by rfl] at m5
  rw [show 255 * 2 ^ 48 = 0xFF000000000000 by rfl] at m6
  rw [show 255 * 2 ^ 56 = 0xFF00000000000000 by rfl] at m7
  rw [m0, m1, m2, m3, m4, m5, m6, m7]
  have l0 : x % 256 < 256 := Nat.mod_lt _ (by omega)
  have l1 : x / 2 ^ 8 % 256 < 256 := Nat.mod_lt _ (by omega)
  have l2 : x / 2 ^ 16 % 256 < 256 := Nat.mod_lt _ (by omega)
  have l3 : x / 2 ^ 24 % 256 < 256 := Nat.mod_lt _ (by omega)
  have l4 : x / 2 ^ 32 % 256 < 256 := Nat.mod_lt _ (by omega)
  have l5 : x / 2 ^ 40 % 256 < 256 := Nat.mod_lt _ (by omega)
  have l6 : x / 2 ^ 48 % 256 < 256 := Nat.mod_lt _ (by omega)
  have l7 : x / 2 ^ 56 % 256 < 256 := Nat.mod_lt _ (by omega)
  generalize x % 256 = b0 at *
  generalize x / 2 ^ 8 % 256 = b1 at *
  generalize x / 2 ^ 16 % 256 = b2 at *
  generalize x / 2 ^ 24 % 256 = b3 at *
  generalize x / 2 ^ 32 % 256 = b4 at *
  generalize x / 2 ^ 40 % 256 = b5 at *
  generalize x / 2 ^ 48 % 256 = b6 at *
  generalize x / 2 ^ 56 % 256 = b7 at *
  clear m0 m1 m2 m3 m4 m5 m6 m7
  simp only [Nat.shiftLeft_eq, Nat.shiftRight_eq_div_pow]
  have d4 : b4 * 2 ^ 32 / 2 ^ 8 = b4 * 2 ^ 24 := mul_pow_div b4 24 8
  have d5 : b5 * 2 ^ 40 / 2 ^ 24 = b5 * 2 ^ 16 := mul_pow_div b5 16 24
  have d6 : b6 * 2 ^ 48 / 2 ^ 40 = b6 * 2 ^ 8 := mul_pow_div b6 8 40
  have d7 : b7 * 2 ^ 56 / 2 ^ 56 = b7 := Nat.mul_div_cancel b7 (Nat.two_pow_pos 56)
  rw [d4, d5, d6, d7]
  have e1 : b0 * 2 ^ 56 ||| b1 * 2 ^ 8 * 2 ^ 40 = b0 * 2 ^ 56 + b1 * 2 ^ 48 := by
    have := or_add b0 (b := b1 * 2 ^ 48) (i := 56) (by omega)
    rw [show b1 * 2 ^ 8 * 2 ^ 40 = b1 * 2 ^ 48 by omega, show b0 * 2 ^ 56 = 2 ^ 56 * b0 by omega, this]
  rw [e1]
  have e2 : b0 * 2 ^ 56 + b1 * 2 ^ 48 ||| b2 * 2 ^ 16 * 2 ^ 24 = b0 * 2 ^ 56 + b1 * 2 ^ 48 + b2 * 2 ^ 40 := by
    rw [show b0 * 2 ^ 56 + b1 * 2 ^ 48 = 2 ^ 48 * (b0 * 2 ^ 8 + b1) by omega, show b2 * 2 ^ 16 * 2 ^ 24 = b2 * 2 ^ 40 by omega]
    exact or_add _ (by omega)
  rw [e2]
  have e3 : b0 * 2 ^ 56 + b1 * 2 ^ 48 + b2 * 2 ^ 40 ||| b3 * 2 ^ 24 * 2 ^ 8 =
      b0 * 2 ^ 56 + b1 * 2 ^ 48 + b2 * 2 ^ 40 + b3 * 2 ^ 32 := by
    rw [show b0 * 2 ^ 56 + b1 * 2 ^ 48 + b2 * 2 ^ 40 = 2 ^ 40 * (b0 * 2 ^ 16 + b1 * 2 ^ 8 + b2) by omega,
      show b3 * 2 ^ 24 * 2 ^ 8 = b3 * 2 ^ 32 by omega]
    exact or_add _ (by omega)
  rw [e3]
  have e4 : b0 * 2 ^ 56 + b1 * 2 ^ 48 + b2 * 2 ^ 40 + b3 * 2 ^ 32 ||| b4 * 2 ^ 24 =
      b0 * 2 ^ 56 + b1 * 2 ^ 48 + b2 * 2 ^ 40 + b3 * 2 ^ 32 + b4 * 2 ^ 24 := by
    rw [show b0 * 2 ^ 56 + b1 * 2 ^ 48 + b2 * 2 ^ 40 + b3 * 2 ^ 32 =
      2 ^ 32 * (b0 * 2 ^ 24 + b1 * 2 ^ 16 + b2 * 2 ^ 8 + b3) by omega]
    exact or_add _ (by omega)
  rw [e4]
  have e5 : b0 * 2 ^ 56 + b1 * 2 ^ 48 + b2 * 2 ^ 40 + b3 * 2 ^ 32 + b4 * 2 ^ 24 ||| b5 * 2 ^ 16 =
      b0 * 2 ^ 56 + b1 * 2 ^ 48 + b2 * 2 ^ 40 + b3 * 2 ^ 32 + b4 * 2 ^ 24 + b5 * 2 ^ 16 := by
    rw [show b0 * 2 ^ 56 + b1 * 2 ^ 48 + b2 * 2 ^ 40 + b3 * 2 ^ 32 + b4 * 2 ^ 24 =
      2 ^ 24 * (b0 * 2 ^ 32 + b1 * 2 ^ 24 + b2 * 2 ^ 16 + b3 * 2 ^ 8 + b4) by omega]
    exact or_add _ (by omega)
  rw [e5]
  have e6 : b0 * 2 ^ 56 + b1 * 2 ^ 48 + b2 * 2 ^ 40 + b3 * 2 ^ 32 + b4 * 2 ^ 24 + b5 * 2 ^ 16 ||| b6 * 2 ^ 8 =
      b0 * 2 ^ 56 + b1 * 2 ^ 48 + b2 * 2 ^ 40 + b3 * 2 ^ 32 + b4 * 2 ^ 24 + b5 * 2 ^ 16 + b6 * 2 ^ 8 := by
    rw [show b0 * 2 ^ 56 + b1 * 2 ^ 48 + b2 * 2 ^ 40 + b3 * 2 ^ 32 + b4 * 2 ^ 24 + b5 * 2 ^ 16 =
      2 ^ 16 * (b0 * 2 ^ 40 + b1 * 2 ^ 32 + b2 * 2 ^ 24 + b3 * 2 ^ 16 + b4 * 2 ^ 8 + b5) by omega]
    exact or_add _ (by omega)
  rw [e6]
  have e7 : b0 * 2 ^ 56 + b1 * 2 ^ 48 + b2 * 2 ^ 40 + b3 * 2 ^ 32 + b4 * 2 ^ 24 + b5 * 2 ^ 16 + b6 * 2 ^ 8 ||| b7 =
      b0 * 2 ^ 56 + b1 * 2 ^ 48 + b2 * 2 ^ 40 + b3 * 2 ^ 32 + b4 * 2 ^ 24 + b5 * 2 ^ 16 + b6 * 2 ^ 8 + b7 := by
    rw [show b0 * 2 ^ 56 + b1 * 2 ^ 48 + b2 * 2 ^ 40 + b3 * 2 ^ 32 + b4 * 2 ^ 24 + b5 * 2 ^ 16 + b6 * 2 ^ 8 =
      2 ^ 8 * (b0 * 2 ^ 48 + b1 * 2 ^ 40 + b2 * 2 ^ 32 + b3 * 2 ^ 24 + b4 * 2 ^ 16 + b5 * 2 ^ 8 + b6) by omega]
    exact or_add _ (by omega)
  rw [e7]

theorem swap32_eq (x : Nat) : swap32 x = x % 256 * 2 ^ 24 + x / 2 ^ 8 % 256 * 2 ^ 16 + x / 2 ^ 16 % 256 * 2 ^ 8 +
    x / 2 ^ 24 % 256 := by
  unfold swap32
  have m0 := and_mask x 0
  have m1 := and_mask x 8
  have m2 := and_mask x 16
  have m3 := and_mask x 24
  simp only [pow_zero, Nat.div_one, Nat.mul_one] at m0
  rw [show (255 : Nat) = 0xFF by rfl] at m0
  rw [show 255 * 2 ^ 8 = 0xFF00 by rfl] at m1
  rw [show 255 * 2 ^ 16 = 0xFF0000 by rfl] at m2
  rw [show 255 * 2 ^ 24 = 0xFF000000 by rfl] at m3
  rw [m0, m1, m2, m3]
  have l0 : x % 256 < 256 := Nat.mod_lt _ (by omega)
  have l1 : x / 2 ^ 8 % 256 < 256 := Nat.mod_lt _ (by omega)
  have l2 : x / 2 ^ 16 % 256 < 256 := Nat.mod_lt _ (by omega)
  have l3 : x / 2 ^ 24 % 256 < 256 := Nat.mod_lt _ (by omega)
  generalize x % 256 = b0 at *
  generalize x / 2 ^ 8 % 256 = b1 at *
  generalize x / 2 ^ 16 % 256 = b2 at *
  generalize x / 2 ^ 24 % 256 = b3 at *
  clear m0 m1 m2 m3
  simp only [Nat.shiftLeft_eq, Nat.shiftRight_eq_div_pow]
  have d2 : b2 * 2 ^ 16 / 2 ^ 8 = b2 * 2 ^ 8 := mul_pow_div b2 8 8
  have d3 : b3 * 2 ^ 24 / 2 ^ 24 = b3 := Nat.mul_div_cancel b3 (Nat.two_pow_pos 24)
  rw [d2, d3]
  have e1 : b0 * 2 ^ 24 ||| b1 * 2 ^ 8 * 2 ^ 8 = b0 * 2 ^ 24 + b1 * 2 ^ 16 := by
    rw [show b1 * 2 ^ 8 * 2 ^ 8 = b1 * 2 ^ 16 by omega, show b0 * 2 ^ 24 = 2 ^ 24 * b0 by omega]
    exact or_add _ (by omega)
  rw [e1]
  have e2 : b0 * 2 ^ 24 + b1 * 2 ^ 16 ||| b2 * 2 ^ 8 = b0 * 2 ^ 24 + b1 * 2 ^ 16 + b2 * 2 ^ 8 := by
    rw [show b0 * 2 ^ 24 + b1 * 2 ^ 16 = 2 ^ 16 * (b0 * 2 ^ 8 + b1) by omega]
    exact or_add _ (by omega)
  rw [e2]
  have e3 : b0 * 2 ^ 24 + b1 * 2 ^ 16 + b2 * 2 ^ 8 ||| b3 = b0 * 2 ^ 24 + b1 * 2 ^ 16 + b2 * 2 ^ 8 + b3 := by
    rw [show b0 * 2 ^ 24 + b1 * 2 ^ 16 + b2 * 2 ^ 8 = 2 ^ 8 * (b0 * 2 ^ 16 + b1 * 2 ^ 8 + b2) by omega]
    exact or_add _ (by omega)
  rw [e3]

theorem swap16_eq (x : Nat) : swap16 x = x % 256 * 2 ^ 8 + x / 2 ^ 8 % 256 := by
  unfold swap16
  have m0 := and_mask x 0
  have m1 := and_mask x 8
  simp only [pow_zero, Nat.div_one, Nat.mul_one] at m0
  rw [show (255 : Nat) = 0xFF by rfl] at m0
  rw [show 255 * 2 ^ 8 = 0xFF00 by rfl] at m1
  rw [m0, m1]
  have l0 : x % 256 < 256 := Nat.mod_lt _ (by omega)
  have l1 : x / 2 ^ 8 % 256 < 256 := Nat.mod_lt _ (by omega)
  generalize x % 256 = b0 at *
  generalize x / 2 ^ 8 % 256 = b1 at *
  clear m0 m1
  simp only [Nat.shiftLeft_eq, Nat.shiftRight_eq_div_pow]
  have step : ∀ (hi b i : Nat), hi % 2 ^ i = 0 → b < 2 ^ i → hi ||| b = hi + b := by
    intro hi b i h1 h2
    obtain ⟨a, rfl⟩ := Nat.dvd_of_mod_eq_zero h1
    exact or_add a h2
  rw [show b1 * 2 ^ 8 / 2 ^ 8 = b1 by omega, step _ b1 8 (by omega) (by omega)]
  omega

theorem bytesOf_length (k x : Nat) : (bytesOf k x).length = k := by
  induction k generalizing x with
  | zero => rfl
  | succ k ih => simp [bytesOf, ih]

theorem ofBytes_bytesOf (k : Nat) : ∀ x, x < 256 ^ k → ofBytes (bytesOf k x) = x := by
  induction k with
  | zero => intro x h; simp at h; simp [bytesOf, ofBytes, h]
  | succ k ih =>
    intro x h
    rw [bytesOf, ofBytes, ih (x / 256) (by rw [pow_succ] at h; omega)]
    omega

theorem bytesOf_ofBytes : ∀ bs : List Nat, (∀ b ∈ bs, b < 256) → bytesOf bs.length (ofBytes bs) = bs
  | [], _ => rfl
  | b :: bs, h => by
    have hb := h b List.mem_cons_self
    rw [List.length_cons, bytesOf, ofBytes]
    have e1 : (b + 256 * ofBytes bs) % 256 = b := by omega
    have e2 : (b + 256 * ofBytes bs) / 256 = ofBytes bs := by omega
    rw [e1, e2, bytesOf_ofBytes bs (fun x hx => h x (List.mem_cons_of_mem _ hx))]

theorem bytesOf_lt (k x : Nat) : ∀ b ∈ bytesOf k x, b < 256 := by
  induction k generalizing x with
  | zero => intro b hb; cases hb
  | succ k ih =>
    intro b hb
    rcases List.mem_cons.1 hb with rfl | hb
    · exact Nat.mod_lt _ (by omega)
    · exact ih _ b hb

theorem bytesOf_inj {k x y : Nat} (hx : x < 256 ^ k) (hy : y < 256 ^ k) (h : bytesOf k x = bytesOf k y) : x = y := by
  rw [← ofBytes_bytesOf k x hx, h, ofBytes_bytesOf k y hy]

theorem ofBytes_lt : ∀ bs : List Nat, (∀ b ∈ bs, b < 256) → ofBytes bs < 256 ^ bs.length
  | [], _ => by simp [ofBytes]
  | b :: bs, h => by
    have hb := h b List.mem_cons_self
    have := ofBytes_lt bs (fun x hx => h x (List.mem_cons_of_mem _ hx))
    rw [ofBytes, List.length_cons, pow_succ]
    omega

theorem bytesOf_2 (x : Nat) : bytesOf 2 x = [x % 256, x / 2 ^ 8 % 256] := rfl

theorem bytesOf_4 (x : Nat) : bytesOf 4 x = [x % 256, x / 2 ^ 8 % 256, x / 2 ^ 16 % 256, x / 2 ^ 24 % 256] := by
  simp only [bytesOf, Nat.div_div_eq_div_mul]
  rfl

theorem bytesOf_8 (x : Nat) : bytesOf 8 x = [x % 256, x / 2 ^ 8 % 256, x / 2 ^ 16 % 256, x / 2 ^ 24 % 256, x / 2 ^ 32 % 256,
    x / 2 ^ 40 % 256, x / 2 ^ 48 % 256, x / 2 ^ 56 % 256] := by
  simp only [bytesOf, Nat.div_div_eq_div_mul]
  rfl

theorem swap_eq_ofBytes (w : Width) (x : Nat) : swap w x = ofBytes (bytesOf w.bytes x).reverse := by
  cases w with
  | w16 =>
    show swap16 x = ofBytes (bytesOf 2 x).reverse
    rw [swap16_eq, bytesOf_2]
    simp only [List.reverse_cons, List.reverse_nil, List.nil_append, List.cons_append, ofBytes]
    generalize x % 256 = b0
    generalize x / 2 ^ 8 % 256 = b1
    omega
  | w32 =>
    show swap32 x = ofBytes (bytesOf 4 x).reverse
    rw [swap32_eq, bytesOf_4]
    simp only [List.reverse_cons, List.reverse_nil, List.nil_append, List.cons_append, ofBytes]
    generalize x % 256 = b0
    generalize x / 2 ^ 8 % 256 = b1
    generalize x / 2 ^ 16 % 256 = b2
    generalize x / 2 ^ 24 % 256 = b3
    omega
  | w64 =>
    show swap64 x = ofBytes (bytesOf 8 x).reverse
    rw [swap64_eq, bytesOf_8]
    simp only [List.reverse_cons, List.reverse_nil, List.nil_append, List.cons_append, ofBytes]
    generalize x % 256 = b0
    generalize x / 2 ^ 8 % 256 = b1
    generalize x / 2 ^ 16 % 256 = b2
    generalize x / 2 ^ 24 % 256 = b3
    generalize x / 2 ^ 32 % 256 = b4
    generalize x / 2 ^ 40 % 256 = b5
    generalize x / 2 ^ 48 % 256 = b6
    generalize x / 2 ^ 56 % 256 = b7
    omega

theorem swap_bytes (w : Width) (x : Nat) : bytesOf w.bytes (swap w x) = (bytesOf w.bytes x).reverse := by
  rw [swap_eq_ofBytes]
  have := bytesOf_ofBytes (bytesOf w.bytes x).reverse (fun b hb => bytesOf_lt _ _ b (List.mem_reverse.1 hb))
  rwa [List.length_reverse, bytesOf_length] at this

theorem swap_swap (w : Width) {x : Nat} (hx : x < 256 ^ w.bytes) : swap w (swap w x) = x := by
  rw [swap_eq_ofBytes, swap_bytes, List.reverse_reverse, ofBytes_bytesOf _ _ hx]

end Gtl.BitOps
