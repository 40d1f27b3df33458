import Verif.Swiss.Ctrl
import Mathlib.Tactic.Linarith
/-! Helper lemmas about trailing/leading zero counts and `BitMask`. -/

namespace Gtl.Swiss

theorem ctz_odd {n : Nat} (h : n % 2 = 1) : ctz n = 0 := by
  unfold ctz; split
  · rfl
  · simp [h]

theorem ctz_even {n : Nat} (h0 : n ≠ 0) (h : n % 2 = 0) : ctz n = ctz (n / 2) + 1 := by
  conv => lhs; unfold ctz
  simp [h0, h]

theorem testBit_ctz : ∀ n : Nat, n ≠ 0 → n.testBit (ctz n) = true := by
  intro n
  induction n using Nat.strongRecOn with
  | ind n ih =>
    intro h0
    rcases Nat.mod_two_eq_zero_or_one n with h | h
    · rw [ctz_even h0 h, Nat.testBit_succ]
      exact ih _ (by omega) (by omega)
    · rw [ctz_odd h]; simp [Nat.testBit_zero, h]

theorem testBit_lt_ctz : ∀ n b : Nat, b < ctz n → n.testBit b = false := by
  intro n
  induction n using Nat.strongRecOn with
  | ind n ih =>
    intro b hb
    by_cases h0 : n = 0
    · subst h0; simp
    rcases Nat.mod_two_eq_zero_or_one n with h | h
    · rw [ctz_even h0 h] at hb
      cases b with
      | zero => simp [Nat.testBit_zero, h]
      | succ b => rw [Nat.testBit_succ]; exact ih _ (by omega) _ (by omega)
    · rw [ctz_odd h] at hb; omega

theorem ctz_eq_of {n c : Nat} (h1 : n.testBit c = true) (h2 : ∀ b < c, n.testBit b = false) : ctz n = c := by
  have h0 : n ≠ 0 := by rintro rfl; simp at h1
  rcases Nat.lt_trichotomy (ctz n) c with h | h | h
  · have := h2 _ h; rw [testBit_ctz n h0] at this; cases this
  · exact h
  · rw [testBit_lt_ctz n c h] at h1; cases h1

theorem testBit_clearLowest : ∀ n b : Nat,
    (n &&& (n - 1)).testBit b = (n.testBit b && decide (b ≠ ctz n)) := by
  intro n
  induction n using Nat.strongRecOn with
  | ind n ih =>
    intro b
    by_cases h0 : n = 0
    · subst h0; simp
    rw [Nat.testBit_and]
    rcases Nat.mod_two_eq_zero_or_one n with h | h
    · rw [ctz_even h0 h]
      cases b with
      | zero => simp [Nat.testBit_zero, h]
      | succ b =>
        simp only [Nat.testBit_succ]
        have : (n - 1) / 2 = n / 2 - 1 := by omega
        rw [this, ← Nat.testBit_and, ih _ (by omega)]
        simp
    · rw [ctz_odd h]
      cases b with
      | zero =>
        have : (n - 1) % 2 = 0 := by omega
        simp [Nat.testBit_zero, this]
      | succ b =>
        simp only [Nat.testBit_succ]
        have : (n - 1) / 2 = n / 2 := by omega
        rw [this]; simp

/-- Trailing ones: adding one turns them into trailing zeros. -/
theorem testBit_add_one : ∀ c n : Nat, (∀ b < c, n.testBit b = true) → n.testBit c = false →
    (n + 1).testBit c = true ∧ ∀ b < c, (n + 1).testBit b = false := by
  intro c
  induction c with
  | zero =>
    intro n _ h
    have : n % 2 = 0 := by
      rw [Nat.testBit_zero] at h
      have := Nat.mod_two_eq_zero_or_one n
      simp at h; omega
    have h' : (n + 1) % 2 = 1 := by omega
    simp [Nat.testBit_zero, h']
  | succ c ih =>
    intro n h1 h2
    have h0 : n % 2 = 1 := by
      have := h1 0 (by omega)
      simpa [Nat.testBit_zero] using this
    have hd : (n + 1) / 2 = n / 2 + 1 := by omega
    have := ih (n / 2) (fun b hb => by have := h1 (b + 1) (by omega); rwa [Nat.testBit_succ] at this)
      (by rwa [Nat.testBit_succ] at h2)
    refine ⟨by rw [Nat.testBit_succ, hd]; exact this.1, ?_⟩
    intro b hb
    cases b with
    | zero =>
      have : (n + 1) % 2 = 0 := by omega
      simp [Nat.testBit_zero, this]
    | succ b => rw [Nat.testBit_succ, hd]; exact this.2 b (by omega)

theorem ctz_add_one {c n : Nat} (h1 : ∀ b < c, n.testBit b = true) (h2 : n.testBit c = false) :
    ctz (n + 1) = c := by
  obtain ⟨a, b⟩ := testBit_add_one c n h1 h2
  exact ctz_eq_of a b

theorem testBit_log2 {n : Nat} (h : n ≠ 0) : n.testBit n.log2 = true := by
  have h1 := Nat.log2_self_le h
  have h2 := Nat.lt_log2_self (n := n)
  rw [Nat.testBit_eq_decide_div_mod_eq]
  have h3 : n / 2 ^ n.log2 = 1 := by
    apply Nat.div_eq_of_lt_le
    · simpa using h1
    · simpa [Nat.pow_succ, Nat.mul_comm] using h2
  simp [h3]

theorem testBit_gt_log2 {n b : Nat} (h : n.log2 < b) : n.testBit b = false := by
  apply Nat.testBit_lt_two_pow
  calc n < 2 ^ (n.log2 + 1) := Nat.lt_log2_self
    _ ≤ 2 ^ b := Nat.pow_le_pow_right (by omega) h

theorem log2_eq_of {n c : Nat} (h1 : n.testBit c = true) (h2 : ∀ b, c < b → n.testBit b = false) : n.log2 = c := by
  have h0 : n ≠ 0 := by rintro rfl; simp at h1
  rcases Nat.lt_trichotomy n.log2 c with h | h | h
  · rw [testBit_gt_log2 h] at h1; cases h1
  · exact h
  · have := h2 _ h; rw [testBit_log2 h0] at this; cases this

namespace BitMask

/-- `m` represents the index set `P`: index `j` is stored in bit `(j+1) * 2^shift - 1`. -/
structure Rep (m : BitMask) (P : Nat → Prop) : Prop where
  fits : m.sig <<< m.shift ≤ m.tbits
  bits : ∀ b, m.mask.testBit b = true ↔ ∃ j, j < m.sig ∧ P j ∧ b = (j + 1) * 2 ^ m.shift - 1

theorem pos_shift (j s : Nat) : ((j + 1) * 2 ^ s - 1) >>> s = j := by
  rw [Nat.shiftRight_eq_div_pow]
  have h : 0 < 2 ^ s := Nat.two_pow_pos s
  apply Nat.div_eq_of_lt_le
  · rw [Nat.add_mul]; omega
  · have : 0 < (j + 1) * 2 ^ s := Nat.mul_pos (by omega) h
    omega

theorem pos_lt {i j s : Nat} (h : i < j) : (i + 1) * 2 ^ s - 1 < (j + 1) * 2 ^ s - 1 := by
  have hp : 0 < 2 ^ s := Nat.two_pow_pos s
  have h1 : (i + 1) * 2 ^ s < (j + 1) * 2 ^ s := Nat.mul_lt_mul_of_pos_right (by omega) hp
  have h2 : 0 < (i + 1) * 2 ^ s := Nat.mul_pos (by omega) hp
  omega

theorem pos_inj {i j s : Nat} (h : (i + 1) * 2 ^ s - 1 = (j + 1) * 2 ^ s - 1) : i = j := by
  rcases Nat.lt_trichotomy i j with h' | h' | h'
  · have := pos_lt (s := s) h'; omega
  · exact h'
  · have := pos_lt (s := s) h'; omega

variable {m : BitMask} {P : Nat → Prop}

theorem Rep.pos_lt_tbits (r : m.Rep P) {j : Nat} (h : j < m.sig) : (j + 1) * 2 ^ m.shift - 1 < m.tbits := by
  have hp : 0 < 2 ^ m.shift := Nat.two_pow_pos _
  have h1 : (j + 1) * 2 ^ m.shift ≤ m.sig * 2 ^ m.shift := Nat.mul_le_mul_right _ h
  have h2 := r.fits
  rw [Nat.shiftLeft_eq] at h2
  have h3 : 0 < (j + 1) * 2 ^ m.shift := Nat.mul_pos (by omega) hp
  omega

theorem Rep.toBool_iff (r : m.Rep P) : m.toBool = true ↔ ∃ j, j < m.sig ∧ P j := by
  unfold toBool
  constructor
  · intro h
    have h0 : m.mask ≠ 0 := by simpa using h
    obtain ⟨j, hj, hp, _⟩ := (r.bits _).1 (testBit_ctz _ h0)
    exact ⟨j, hj, hp⟩
  · rintro ⟨j, hj, hp⟩
    have := (r.bits ((j + 1) * 2 ^ m.shift - 1)).2 ⟨j, hj, hp, rfl⟩
    have h0 : m.mask ≠ 0 := by intro h; rw [h] at this; simp at this
    simpa using h0

theorem Rep.lowest_spec (r : m.Rep P) (h : ∃ j, j < m.sig ∧ P j) :
    m.lowest < m.sig ∧ P m.lowest ∧ ∀ j < m.lowest, ¬ P j := by
  have h0 : m.mask ≠ 0 := by simpa [toBool] using r.toBool_iff.2 h
  obtain ⟨j, hj, hp, hb⟩ := (r.bits _).1 (testBit_ctz _ h0)
  have hl : m.lowest = j := by unfold lowest; rw [hb, pos_shift]
  rw [hl]
  refine ⟨hj, hp, fun i hi hpi => ?_⟩
  have h1 := (r.bits _).2 ⟨i, by omega, hpi, rfl⟩
  have h2 := testBit_lt_ctz m.mask ((i + 1) * 2 ^ m.shift - 1) (by rw [hb]; exact pos_lt hi)
  rw [h1] at h2; cases h2

theorem trailingZeros_eq_lowest : m.trailingZeros = m.lowest := rfl

theorem Rep.leading_spec (r : m.Rep P) (h : ∃ j, j < m.sig ∧ P j) :
    m.leadingZeros < m.sig ∧ P (m.sig - 1 - m.leadingZeros) ∧
      ∀ j, m.sig - 1 - m.leadingZeros < j → j < m.sig → ¬ P j := by
  have h0 : m.mask ≠ 0 := by simpa [toBool] using r.toBool_iff.2 h
  obtain ⟨j, hj, hp, hb⟩ := (r.bits _).1 (testBit_log2 h0)
  have hfit := r.fits
  rw [Nat.shiftLeft_eq] at hfit
  have hjp := r.pos_lt_tbits hj
  have hps : 0 < 2 ^ m.shift := Nat.two_pow_pos _
  set e := m.tbits - m.sig * 2 ^ m.shift with he
  have hj1 : (j + 1) * 2 ^ m.shift ≤ m.sig * 2 ^ m.shift := Nat.mul_le_mul_right _ hj
  have hj0 : 0 < (j + 1) * 2 ^ m.shift := Nat.mul_pos (by omega) hps
  have hlog : ((m.mask <<< e) % 2 ^ m.tbits).log2 = m.mask.log2 + e := by
    apply log2_eq_of
    · rw [Nat.testBit_mod_two_pow, Nat.testBit_shiftLeft]
      have : m.mask.log2 + e < m.tbits := by omega
      simp [this, testBit_log2 h0]
    · intro b hb'
      rw [Nat.testBit_mod_two_pow, Nat.testBit_shiftLeft, testBit_gt_log2 (show m.mask.log2 < b - e by omega)]
      simp
  have hne : (m.mask <<< e) % 2 ^ m.tbits ≠ 0 := by
    intro hz
    have hbit : ((m.mask <<< e) % 2 ^ m.tbits).testBit (m.mask.log2 + e) = true := by
      rw [Nat.testBit_mod_two_pow, Nat.testBit_shiftLeft]
      have : m.mask.log2 + e < m.tbits := by omega
      simp [this, testBit_log2 h0]
    rw [hz] at hbit; simp at hbit
  have hlz : m.leadingZeros = m.sig - 1 - j := by
    unfold leadingZeros
    simp only [Nat.shiftLeft_eq m.sig, ← he]
    unfold clz
    rw [if_neg hne, hlog, hb, Nat.shiftRight_eq_div_pow]
    have : m.tbits - 1 - ((j + 1) * 2 ^ m.shift - 1 + e) = (m.sig - 1 - j) * 2 ^ m.shift := by
      have h' : m.sig - 1 - j = m.sig - (j + 1) := by omega
      rw [h', Nat.sub_mul]; omega
    rw [this, Nat.mul_div_cancel _ hps]
  have hjj : m.sig - 1 - m.leadingZeros = j := by omega
  rw [hjj]
  refine ⟨by omega, hp, fun i hi his hpi => ?_⟩
  have h1 := (r.bits _).2 ⟨i, his, hpi, rfl⟩
  rw [testBit_gt_log2 (by rw [hb]; exact pos_lt hi)] at h1; cases h1

theorem Rep.next_rep (r : m.Rep P) (h : ∃ j, j < m.sig ∧ P j) : m.next.Rep (fun j => P j ∧ j ≠ m.lowest) := by
  have h0 : m.mask ≠ 0 := by simpa [toBool] using r.toBool_iff.2 h
  obtain ⟨j0, hj0, hp0, hb0⟩ := (r.bits _).1 (testBit_ctz _ h0)
  have hl : m.lowest = j0 := by unfold lowest; rw [hb0, pos_shift]
  refine ⟨r.fits, fun b => ?_⟩
  simp only [next, testBit_clearLowest, Bool.and_eq_true, decide_eq_true_eq, r.bits b, hl]
  constructor
  · rintro ⟨⟨j, hj, hp, rfl⟩, hne⟩
    refine ⟨j, hj, ⟨hp, ?_⟩, rfl⟩
    rintro rfl; exact hne hb0.symm
  · rintro ⟨j, hj, ⟨hp, hne⟩, rfl⟩
    refine ⟨⟨j, hj, hp, rfl⟩, ?_⟩
    rw [hb0]; intro hh; exact hne (pos_inj hh)

theorem toListAux_mem : ∀ (n : Nat) (m : BitMask) (P : Nat → Prop), m.Rep P →
    (∀ j, j < m.sig → P j → m.sig ≤ j + n) → ∀ x, x ∈ toListAux n m ↔ x < m.sig ∧ P x := by
  intro n
  induction n with
  | zero =>
    intro m P r hn x
    simp only [toListAux, List.not_mem_nil, false_iff, not_and]
    intro hx hp; have := hn x hx hp; omega
  | succ n ih =>
    intro m P r hn x
    unfold toListAux
    split
    · rename_i h0
      simp only [List.not_mem_nil, false_iff, not_and]
      intro hx hp
      have := r.toBool_iff.2 ⟨x, hx, hp⟩
      simp [toBool, h0] at this
    · rename_i h0
      have hex : ∃ j, j < m.sig ∧ P j := r.toBool_iff.1 (by simpa [toBool] using h0)
      obtain ⟨hl, hpl, hmin⟩ := r.lowest_spec hex
      have r' := r.next_rep hex
      have := ih m.next _ r' (by
        intro j hj hpj
        have h1 : m.lowest < j := by
          rcases Nat.lt_trichotomy j m.lowest with h | h | h
          · exact absurd hpj.1 (hmin j h)
          · exact absurd h hpj.2
          · exact h
        have h2 := hn m.lowest hl hpl
        have : m.next.sig = m.sig := rfl
        omega) x
      rw [List.mem_cons, this]
      constructor
      · rintro (rfl | ⟨h1, h2, _⟩)
        · exact ⟨hl, hpl⟩
        · exact ⟨h1, h2⟩
      · rintro ⟨h1, h2⟩
        by_cases hx : x = m.lowest
        · exact .inl hx
        · exact .inr ⟨h1, h2, hx⟩

theorem Rep.mem_toList (r : m.Rep P) (x : Nat) : x ∈ m.toList ↔ x < m.sig ∧ P x := by
  apply toListAux_mem _ _ _ r
  intro j hj _
  have h := r.fits
  rw [Nat.shiftLeft_eq] at h
  have := Nat.le_mul_of_pos_right m.sig (Nat.two_pow_pos m.shift)
  omega

end BitMask
end Gtl.Swiss
