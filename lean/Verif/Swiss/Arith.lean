import Verif.Swiss.Table
import Mathlib.Tactic.Linarith
import Mathlib.Tactic.Ring
import Mathlib.Data.Fintype.EquivFin
import Mathlib.Data.Nat.ModEq
import Mathlib.Data.Nat.Prime.Basic
/-! Arithmetic behind the probe sequence: masks, capacities, triangular numbers. -/

namespace Gtl.Swiss

theorem land_cap {cap k : Nat} (h : cap + 1 = 2 ^ k) (x : Nat) : x &&& cap = x % (cap + 1) := by
  have : cap = 2 ^ k - 1 := by omega
  rw [this, Nat.and_two_pow_sub_one_eq_mod]
  congr 1
  have := Nat.two_pow_pos k
  omega

/-- `(i - w) & cap` computed with 64-bit wrap-around is `subMask`. -/
theorem subMask_eq_wrap {i w cap k : Nat} (h : cap + 1 = 2 ^ k) (hk : k ≤ 64) (hi : i < 2 ^ 64) (hw : w < 2 ^ 64) :
    ((BitVec.ofNat 64 i - BitVec.ofNat 64 w) &&& BitVec.ofNat 64 cap).toNat = subMask i w cap := by
  have hcap : cap < 2 ^ 64 := by
    have : 2 ^ k ≤ 2 ^ 64 := Nat.pow_le_pow_right (by omega) hk
    omega
  rw [BitVec.toNat_and, BitVec.toNat_sub]
  simp only [BitVec.toNat_ofNat, Nat.mod_eq_of_lt hi, Nat.mod_eq_of_lt hw, Nat.mod_eq_of_lt hcap]
  unfold subMask
  rw [land_cap h, land_cap h]
  have hd : (cap + 1) ∣ 2 ^ 64 := by rw [h]; exact Nat.pow_dvd_pow 2 hk
  rw [Nat.mod_mod_of_dvd _ hd]
  obtain ⟨q, hq⟩ := hd
  have h1 : (2 ^ 64 - w + i) ≡ (i + ((cap + 1) * w - w)) [MOD (cap + 1)] := by
    apply Nat.ModEq.add_right_cancel' w
    have e1 : 2 ^ 64 - w + i + w = i + (cap + 1) * q := by omega
    have hle : w ≤ (cap + 1) * w := Nat.le_mul_of_pos_left _ (by omega)
    have e2 : i + ((cap + 1) * w - w) + w = i + (cap + 1) * w := by omega
    rw [e1, e2]
    unfold Nat.ModEq
    simp [Nat.add_mul_mod_self_left]
  exact h1

theorem subMask_mod {i w cap k : Nat} (h : cap + 1 = 2 ^ k) :
    subMask i w cap = (i + ((cap + 1) * w - w)) % (cap + 1) := by
  unfold subMask; rw [land_cap h]

/-- Adding `w` back to `subMask i w cap`. -/
theorem subMask_add {i w cap k : Nat} (h : cap + 1 = 2 ^ k) :
    (subMask i w cap + w) % (cap + 1) = i % (cap + 1) := by
  rw [subMask_mod h, Nat.mod_add_mod]
  have hle : w ≤ (cap + 1) * w := Nat.le_mul_of_pos_left _ (by omega)
  have e2 : i + ((cap + 1) * w - w) + w = i + (cap + 1) * w := by omega
  rw [e2, Nat.add_mul_mod_self_left]

theorem subMask_lt {i w cap k : Nat} (h : cap + 1 = 2 ^ k) : subMask i w cap ≤ cap := by
  rw [subMask_mod h]; have := Nat.mod_lt (i + ((cap + 1) * w - w)) (show 0 < cap + 1 by omega); omega

/-! ## Triangular numbers -/

def tri : Nat → Nat
  | 0 => 0
  | n + 1 => tri n + (n + 1)

theorem two_tri (n : Nat) : 2 * tri n = n * (n + 1) := by
  induction n with
  | zero => rfl
  | succ n ih => simp only [tri]; rw [Nat.mul_add, ih]; ring

theorem tri_inj_mod {r a b : Nat} (ha : a < 2 ^ r) (hb : b < 2 ^ r) (hab : a ≤ b)
    (h : tri a % 2 ^ r = tri b % 2 ^ r) : a = b := by
  by_contra hne
  have hlt : a < b := by omega
  have hd : 2 ^ r ∣ tri b - tri a := (Nat.modEq_iff_dvd' (by
    have h1 := two_tri a; have h2 := two_tri b
    have : a * (a + 1) ≤ b * (b + 1) := Nat.mul_le_mul hab (by omega)
    omega)).1 h
  have hd2 : 2 ^ (r + 1) ∣ (b - a) * (a + b + 1) := by
    have e : (b - a) * (a + b + 1) = 2 * (tri b - tri a) := by
      have h1 := two_tri a; have h2 := two_tri b
      obtain ⟨d, rfl⟩ : ∃ d, b = a + d := ⟨b - a, by omega⟩
      rw [Nat.add_sub_cancel_left]
      have h3 : (a + d) * (a + d + 1) = a * (a + 1) + d * (a + (a + d) + 1) := by ring
      omega
    rw [e, Nat.pow_succ, Nat.mul_comm]
    exact Nat.mul_dvd_mul_left 2 hd
  have hpow : 2 ^ (r + 1) = 2 * 2 ^ r := by rw [Nat.pow_succ, Nat.mul_comm]
  rcases Nat.even_or_odd (b - a) with he | ho
  · have ho2 : Odd (a + b + 1) := by
      obtain ⟨d, hd⟩ := he
      exact ⟨a + d, by omega⟩
    have hc : Nat.Coprime (2 ^ (r + 1)) (a + b + 1) := by
      apply Nat.Coprime.pow_left
      exact (Nat.coprime_two_left).2 ho2
    have h1 := hc.dvd_of_dvd_mul_right hd2
    have := Nat.le_of_dvd (by omega) h1
    omega
  · have hc : Nat.Coprime (2 ^ (r + 1)) (b - a) := by
      apply Nat.Coprime.pow_left
      exact (Nat.coprime_two_left).2 ho
    have h1 := hc.dvd_of_dvd_mul_left hd2
    have := Nat.le_of_dvd (by omega) h1
    omega

theorem tri_surj_mod (r q : Nat) (hq : q < 2 ^ r) : ∃ n < 2 ^ r, tri n % 2 ^ r = q := by
  have hp : 0 < 2 ^ r := Nat.two_pow_pos r
  let f : Fin (2 ^ r) → Fin (2 ^ r) := fun n => ⟨tri n % 2 ^ r, Nat.mod_lt _ hp⟩
  have hinj : Function.Injective f := by
    intro a b h
    have h' : tri a % 2 ^ r = tri b % 2 ^ r := by simpa [f] using h
    apply Fin.ext
    rcases Nat.le_total a.1 b.1 with hle | hle
    · exact tri_inj_mod a.2 b.2 hle h'
    · exact (tri_inj_mod b.2 a.2 hle h'.symm).symm
  obtain ⟨n, hn⟩ := (Finite.injective_iff_surjective.1 hinj) ⟨q, hq⟩
  exact ⟨n.1, n.2, by simpa [f] using congrArg Fin.val hn⟩

/-- Offset of the `n`-th group visited by the probe sequence of `hash`. -/
def off (W cap hash n : Nat) : Nat := (H1 hash + W * tri n) % (cap + 1)

theorem off_le (W cap hash n : Nat) : off W cap hash n ≤ cap := by
  have := Nat.mod_lt (H1 hash + W * tri n) (show 0 < cap + 1 by omega)
  unfold off; omega

/-- State of the probe sequence after `n` steps. -/
def probeAt (W cap hash n : Nat) : Probe := { offset := off W cap hash n, index := W * n }

theorem probe_start {cap k : Nat} (h : cap + 1 = 2 ^ k) (W hash : Nat) :
    Probe.start hash cap = probeAt W cap hash 0 := by
  simp [Probe.start, probeAt, off, tri, land_cap h]

theorem probe_next {cap k : Nat} (h : cap + 1 = 2 ^ k) (W hash n : Nat) :
    (probeAt W cap hash n).next W cap = probeAt W cap hash (n + 1) := by
  simp only [Probe.next, probeAt, land_cap h, off, Nat.mod_add_mod, tri]
  have e1 : W * n + W = W * (n + 1) := by ring
  have e2 : H1 hash + W * tri n + (W * n + W) = H1 hash + W * (tri n + (n + 1)) := by ring
  rw [e1] at *
  rw [e2]

theorem probe_at {cap k : Nat} (h : cap + 1 = 2 ^ k) (W hash n i : Nat) :
    (probeAt W cap hash n).at_ cap i = (off W cap hash n + i) % (cap + 1) := by
  simp [Probe.at_, probeAt, land_cap h]

/-- In a table of at least one group, every position is covered by one of the first `(cap+1)/W` windows. -/
theorem off_cover {W cap k w : Nat} (h : cap + 1 = 2 ^ k) (hW : W = 2 ^ w) (hle : W ≤ cap + 1) (hash e : Nat)
    (he : e ≤ cap) : ∃ n j, n * W < cap + 1 ∧ j < W ∧ (off W cap hash n + j) % (cap + 1) = e := by
  have hwk : w ≤ k := by
    by_contra hcon
    have : 2 ^ k < 2 ^ w := Nat.pow_lt_pow_right (by omega) (by omega)
    omega
  set N := cap + 1 with hN
  set M := 2 ^ (k - w) with hM
  have hNM : N = W * M := by rw [h, hW, hM, ← Nat.pow_add]; congr 1; omega
  have hWpos : 0 < W := by rw [hW]; exact Nat.two_pow_pos w
  have hNpos : 0 < N := by omega
  -- distance from H1 to e, modulo N
  set d := (e + (N - H1 hash % N)) % N with hd
  have hdN : d < N := Nat.mod_lt _ hNpos
  have hdq : d / W < M := by
    rw [Nat.div_lt_iff_lt_mul hWpos, Nat.mul_comm, ← hNM]; exact hdN
  obtain ⟨n, hn, ht⟩ := tri_surj_mod (k - w) (d / W) hdq
  refine ⟨n, d % W, ?_, Nat.mod_lt _ hWpos, ?_⟩
  · rw [hNM, Nat.mul_comm W M]; exact Nat.mul_lt_mul_of_pos_right hn hWpos
  · unfold off
    rw [← hN, Nat.mod_add_mod]
    have h1 : (H1 hash + W * tri n + d % W) ≡ (H1 hash + d) [MOD N] := by
      have e1 : W * tri n ≡ W * (d / W) [MOD N] := by
        rw [hNM]
        have : tri n ≡ d / W [MOD M] := by
          unfold Nat.ModEq; rw [ht, Nat.mod_eq_of_lt hdq]
        exact Nat.ModEq.mul_left' W this
      have e2 : H1 hash + W * tri n + d % W ≡ H1 hash + W * (d / W) + d % W [MOD N] :=
        Nat.ModEq.add_right _ (Nat.ModEq.add_left _ e1)
      have e3 : H1 hash + W * (d / W) + d % W = H1 hash + d := by
        have := Nat.div_add_mod d W; omega
      rw [e3] at e2; exact e2
    have h2 : (H1 hash + d) ≡ e [MOD N] := by
      have a1 : H1 hash + d ≡ H1 hash + (e + (N - H1 hash % N)) [MOD N] := by
        apply Nat.ModEq.add_left
        rw [hd]; exact Nat.mod_modEq _ _
      have a2 : H1 hash + (e + (N - H1 hash % N)) = e + N * (H1 hash / N + 1) := by
        have h3 := Nat.div_add_mod (H1 hash) N
        have h4 := Nat.mod_lt (H1 hash) hNpos
        rw [Nat.mul_add]; omega
      rw [a2] at a1
      refine a1.trans ?_
      unfold Nat.ModEq
      rw [Nat.add_mul_mod_self_left]
    have h3 := h1.trans h2
    unfold Nat.ModEq at h3
    rw [h3]
    exact Nat.mod_eq_of_lt (by omega)

theorem log2_pow_bounds {n : Nat} (h : n ≠ 0) : 2 ^ n.log2 ≤ n ∧ n < 2 ^ (n.log2 + 1) :=
  ⟨Nat.log2_self_le h, Nat.lt_log2_self⟩

/-- The closed form of `normalizeCapacity` is the machine computation for 64-bit words. -/
theorem normalizeCapacity_word {n : Nat} (h0 : n ≠ 0) (h : n < 2 ^ 64) :
    normalizeCapacity n = (2 ^ 64 - 1) >>> clz 64 n := by
  have hl : n.log2 < 64 := (Nat.log2_lt h0).2 h
  unfold normalizeCapacity clz
  rw [if_neg h0, if_neg h0, Nat.shiftRight_eq_div_pow]
  have e : 2 ^ 64 = 2 ^ (64 - 1 - n.log2) * 2 ^ (n.log2 + 1) := by
    rw [← Nat.pow_add]; congr 1; omega
  have hp : 0 < 2 ^ (64 - 1 - n.log2) := Nat.two_pow_pos _
  have hq : 0 < 2 ^ (n.log2 + 1) := Nat.two_pow_pos _
  rw [e]
  symm
  generalize 2 ^ (64 - 1 - n.log2) = A at hp
  generalize 2 ^ (n.log2 + 1) = B at hq
  apply Nat.div_eq_of_lt_le
  · rw [Nat.sub_mul, Nat.mul_comm A B]; omega
  · have : B - 1 + 1 = B := by omega
    rw [Nat.mul_comm A B] at *
    rw [this]
    have : 0 < B * A := Nat.mul_pos hq hp
    omega

theorem normalizeCapacity_pow (n : Nat) : ∃ k, 1 ≤ k ∧ normalizeCapacity n + 1 = 2 ^ k := by
  unfold normalizeCapacity
  split
  · exact ⟨1, by omega, by norm_num⟩
  · have := Nat.two_pow_pos (n.log2 + 1)
    exact ⟨n.log2 + 1, by omega, by omega⟩

theorem le_normalizeCapacity (n : Nat) : n ≤ normalizeCapacity n := by
  unfold normalizeCapacity
  split
  · omega
  · have := Nat.lt_log2_self (n := n); omega

theorem isValidCapacity_iff (n : Nat) : isValidCapacity n = true ↔ ∃ k, 1 ≤ k ∧ n + 1 = 2 ^ k := by
  unfold isValidCapacity
  simp only [Bool.and_eq_true, beq_iff_eq, decide_eq_true_eq]
  constructor
  · rintro ⟨h, hpos⟩
    refine ⟨n.log2 + 1, by omega, ?_⟩
    have hb := log2_pow_bounds (show n ≠ 0 by omega)
    by_contra hne
    have hlt : n + 1 < 2 ^ (n.log2 + 1) := by omega
    have h1 : (n + 1).log2 = n.log2 := by
      rw [Nat.log2_eq_iff (by omega)]; omega
    have h2 : n.testBit n.log2 = true := by
      rw [Nat.testBit_eq_decide_div_mod_eq]
      have h3 : n / 2 ^ n.log2 = 1 := by
        apply Nat.div_eq_of_lt_le
        · omega
        · have := hb.2; rw [Nat.pow_succ] at this; omega
      simp [h3]
    have h4 : (n + 1).testBit n.log2 = true := by
      rw [Nat.testBit_eq_decide_div_mod_eq]
      have h3 : (n + 1) / 2 ^ n.log2 = 1 := by
        apply Nat.div_eq_of_lt_le
        · omega
        · rw [Nat.pow_succ] at hlt; omega
      simp [h3]
    have h5 : ((n + 1) &&& n).testBit n.log2 = true := by rw [Nat.testBit_and, h2, h4]; rfl
    rw [h] at h5; simp at h5
  · rintro ⟨k, hk, h⟩
    have h2 : 2 ≤ 2 ^ k := by
      calc 2 = 2 ^ 1 := rfl
        _ ≤ 2 ^ k := Nat.pow_le_pow_right (by omega) hk
    refine ⟨?_, by omega⟩
    rw [land_cap h, Nat.mod_self]

theorem capacityToGrowth_le (W cap : Nat) : capacityToGrowth W cap ≤ cap := by
  unfold capacityToGrowth; split <;> omega

theorem capacityToGrowth_pos {W cap : Nat} (h : 0 < cap) : 0 < capacityToGrowth W cap := by
  unfold capacityToGrowth; split <;> omega

/-- With at least one full group there is always room to spare. -/
theorem capacityToGrowth_lt {W cap : Nat} (hW : W = 8 ∨ W = 16) (h : W ≤ cap + 1) :
    capacityToGrowth W cap < cap := by
  unfold capacityToGrowth; split
  · omega
  · rcases hW with rfl | rfl
    · have : cap ≠ 7 := by simp_all
      omega
    · omega

theorem capacityToGrowth_double (W cap : Nat) : 0 < cap → capacityToGrowth W cap < capacityToGrowth W (cap * 2 + 1) := by
  unfold capacityToGrowth; intro h; split <;> split <;> omega

/-- `reserve`'s bucket count leaves room for `n` elements. -/
theorem growth_reserve {W n m : Nat} (hm : growthToLowerboundCapacity W n ≤ m)
    (hp : ∃ k, m + 1 = 2 ^ k) : n ≤ capacityToGrowth W m := by
  obtain ⟨k, hk⟩ := hp
  unfold growthToLowerboundCapacity at hm
  unfold capacityToGrowth
  split at hm <;> split <;> omega

end Gtl.Swiss
