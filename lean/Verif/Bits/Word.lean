import Verif.Bits.Model
import Mathlib.Tactic.Ring
import Mathlib.Order.Nat
import Mathlib.Data.Nat.Find
/-!
# Words: masks, `countr_zero`, `_popcount64`
-/

namespace Gtl.Bits

theorem mod_eq (n : Nat) : mod n = n % 64 := by
  unfold mod
  exact Nat.and_two_pow_sub_one_eq_mod n 6

theorem slot_eq (n : Nat) : slot n = n / 64 := by
  unfold slot
  rw [Nat.shiftRight_eq_div_pow]

theorem slotCnt_eq (n : Nat) : slotCnt n = (n + 63) / 64 := by
  unfold slotCnt; rw [slot_eq]

theorem lowmask_eq (n : Nat) : lowmask n = BitVec.ofNat 64 (2 ^ (n % 64) - 1) := by
  unfold lowmask bitmask
  rw [mod_eq]
  have h : n % 64 < 64 := Nat.mod_lt _ (by decide)
  apply BitVec.eq_of_toNat_eq
  have h2 : 2 ^ (n % 64) < 2 ^ 64 := Nat.pow_lt_pow_right (by decide) h
  have h3 : 1 ≤ 2 ^ (n % 64) := Nat.one_le_two_pow
  have h4 : (1#64 <<< (n % 64)).toNat = 2 ^ (n % 64) := by
    rw [BitVec.toNat_shiftLeft, Nat.shiftLeft_eq, BitVec.toNat_ofNat]
    rw [show 1 % 2 ^ 64 = 1 from rfl, Nat.one_mul, Nat.mod_eq_of_lt h2]
  rw [BitVec.toNat_sub, h4, BitVec.toNat_ofNat, show (1 : BitVec 64).toNat = 1 from rfl]
  omega

theorem lowmask_bit (n j : Nat) : (lowmask n).getLsbD j = decide (j < n % 64) := by
  rw [lowmask_eq, BitVec.getLsbD_ofNat, Nat.testBit_two_pow_sub_one]
  have h : n % 64 < 64 := Nat.mod_lt _ (by decide)
  by_cases hj : j < n % 64
  · have : j < 64 := by omega
    simp [hj, this]
  · simp [hj]

theorem himask_bit (n j : Nat) : (himask n).getLsbD j = (decide (j < 64) && decide (n % 64 ≤ j)) := by
  unfold himask
  rw [BitVec.getLsbD_not, lowmask_bit]
  by_cases h : j < n % 64
  · simp [h]
  · simp [h]; omega

theorem bitmask_bit (n j : Nat) : (bitmask n).getLsbD j = decide (j = n % 64) := by
  unfold bitmask
  rw [mod_eq, BitVec.getLsbD_shiftLeft]
  have h : n % 64 < 64 := Nat.mod_lt _ (by decide)
  by_cases hj : j = n % 64
  · subst hj; simp [h]
  · by_cases h1 : j < n % 64
    · simp [h1, hj]
    · have h2 : j - n % 64 ≠ 0 := by omega
      simp only [hj, decide_false, BitVec.getLsbD_one]
      simp [h2]

theorem ones_bit (j : Nat) : ones.getLsbD j = decide (j < 64) := by
  have : ones = BitVec.allOnes 64 := by decide
  rw [this, BitVec.getLsbD_allOnes]

theorem word_ext {a b : Word} (h : ∀ j, j < 64 → a.getLsbD j = b.getLsbD j) : a = b := by
  apply BitVec.eq_of_getLsbD_eq
  intro i hi
  exact h i hi

theorem and_bitmask_ne (w : Word) (n : Nat) : (w &&& bitmask n ≠ 0) ↔ w.getLsbD (n % 64) = true := by
  constructor
  · intro h
    by_contra hc
    apply h
    apply word_ext
    intro j _
    rw [BitVec.getLsbD_and, bitmask_bit]
    by_cases hj : j = n % 64
    · subst hj; simpa using hc
    · simp [hj]
  · intro h hc
    have := congrArg (fun x : Word => x.getLsbD (n % 64)) hc
    simp only [BitVec.getLsbD_and, bitmask_bit, h] at this
    simp at this

theorem word_ne_zero {w : Word} (h : w ≠ 0) : ∃ j, j < 64 ∧ w.getLsbD j = true := by
  by_contra hc
  apply h
  apply word_ext
  intro j hj
  have : ¬ w.getLsbD j = true := fun hx => hc ⟨j, hj, hx⟩
  simp [this]

/-! ## `countr_zero` -/

/-- The lowest set bit. -/
theorem lowest {w : Word} (h : w ≠ 0) : ∃ k, k < 64 ∧ w.getLsbD k = true ∧ ∀ j, j < k → w.getLsbD j = false := by
  obtain ⟨j, hj, hw⟩ := word_ne_zero h
  have : ∃ k, w.getLsbD k = true := ⟨j, hw⟩
  refine ⟨Nat.find this, ?_, Nat.find_spec this, fun i hi => ?_⟩
  · exact Nat.lt_of_le_of_lt (Nat.find_min' this hw) hj
  · have := Nat.find_min this hi
    simpa using this

theorem xor_pred {w : Word} {k : Nat} (hk : k < 64) (h1 : w.getLsbD k = true) (h2 : ∀ j, j < k → w.getLsbD j = false) :
    w ^^^ (w - 1) = BitVec.ofNat 64 (2 ^ (k + 1) - 1) := by
  -- w = 2^(k+1) * q + 2^k
  have hmod : w.toNat % 2 ^ k = 0 := by
    apply Nat.eq_of_testBit_eq
    intro i
    rw [Nat.testBit_mod_two_pow, Nat.zero_testBit]
    by_cases hi : i < k
    · have := h2 i hi
      rw [BitVec.getLsbD] at this
      simp [this]
    · simp [hi]
  have hbit : (w.toNat / 2 ^ k) % 2 = 1 := by
    have := h1
    rw [BitVec.getLsbD, Nat.testBit_eq_decide_div_mod_eq] at this
    simpa using this
  have hdecomp : w.toNat = 2 ^ (k + 1) * (w.toNat / 2 ^ (k + 1)) + 2 ^ k := by
    have e1 := Nat.div_add_mod w.toNat (2 ^ k)
    have e2 := Nat.div_add_mod (w.toNat / 2 ^ k) 2
    rw [Nat.div_div_eq_div_mul, ← Nat.pow_succ, hbit] at e2
    rw [hmod] at e1
    rw [Nat.pow_succ]
    calc w.toNat = 2 ^ k * (w.toNat / 2 ^ k) + 0 := e1.symm
      _ = 2 ^ k * (2 * (w.toNat / 2 ^ (k + 1)) + 1) := by rw [e2]; rfl
      _ = _ := by ring
  have hsub : (w - 1).toNat = 2 ^ (k + 1) * (w.toNat / 2 ^ (k + 1)) + (2 ^ k - 1) := by
    have h3 : 1 ≤ 2 ^ k := Nat.one_le_two_pow
    have h4 := w.isLt
    rw [BitVec.toNat_sub, show (1 : BitVec 64).toNat = 1 from rfl]
    omega
  apply word_ext
  intro j hj
  rw [BitVec.getLsbD_xor, BitVec.getLsbD_ofNat, Nat.testBit_two_pow_sub_one]
  rw [BitVec.getLsbD, BitVec.getLsbD, hsub]
  conv_lhs => rw [hdecomp]
  have hp : 2 ^ k < 2 ^ (k + 1) := Nat.pow_lt_pow_right (by decide) (by omega)
  rw [Nat.testBit_two_pow_mul_add _ hp, Nat.testBit_two_pow_mul_add _ (by omega)]
  by_cases hjk : j < k + 1
  · simp only [hjk, if_true, Nat.testBit_two_pow_sub_one, Nat.testBit_two_pow]
    by_cases hjk2 : k = j
    · subst hjk2; simp [hj]
    · have : j < k := by omega
      simp [hjk2, this, hj]
  · simp only [hjk, if_false, decide_false, Bool.and_false]
    rw [← hdecomp, Bool.xor_self]

theorem debruijn : ∀ k : Fin 64, index64[((BitVec.ofNat 64 (2 ^ (k.1 + 1) - 1) * 0x03f79d71b4cb0a89#64) >>> 58).toNat]? = some k.1 := by
  decide +kernel

theorem countrZero_ok {w : Word} {k : Nat} (hk : k < 64) (h1 : w.getLsbD k = true) (h2 : ∀ j, j < k → w.getLsbD j = false) :
    countrZero w = .ok k := by
  unfold countrZero
  rw [xor_pred hk h1 h2]
  have := debruijn ⟨k, hk⟩
  simp only at this
  rw [show (0x03f79d71b4cb0a89 : Word) = 0x03f79d71b4cb0a89#64 from rfl, this]
  rfl

/-! ## `_popcount64` -/

/-- The lowest `n` bytes of a number. -/
def bytes : Nat → Nat → List Nat
  | 0, _ => []
  | n + 1, y => y % 256 :: bytes n (y / 256)

/-- The number with the given bytes. -/
def ofBytes : List Nat → Nat
  | [] => 0
  | b :: bs => b + 256 * ofBytes bs

/-- The byte `m` repeated `n` times. -/
def rep (m : Nat) : Nat → Nat
  | 0 => 0
  | n + 1 => m + 256 * rep m n

theorem and_cons {a c : Nat} (x y : Nat) (ha : a < 256) (hc : c < 256) :
    (a + 256 * x) &&& (c + 256 * y) = (a &&& c) + 256 * (x &&& y) := by
  have h1 : (a &&& c) < 2 ^ 8 := Nat.lt_of_le_of_lt Nat.and_le_left ha
  rw [Nat.add_comm a, Nat.add_comm c, Nat.add_comm (a &&& c)]
  apply Nat.eq_of_testBit_eq
  intro i
  rw [Nat.testBit_and, show 256 = 2 ^ 8 from rfl, Nat.testBit_two_pow_mul_add _ ha, Nat.testBit_two_pow_mul_add _ hc,
    Nat.testBit_two_pow_mul_add _ h1]
  split <;> rw [Nat.testBit_and]

theorem ofBytes_bytes : ∀ n y, y < 256 ^ n → ofBytes (bytes n y) = y
  | 0, y, h => by simp at h; simp [bytes, ofBytes, h]
  | n + 1, y, h => by
    have : y / 256 < 256 ^ n := by rw [Nat.pow_succ] at h; omega
    simp only [bytes, ofBytes, ofBytes_bytes n _ this]
    omega

/-- Shift and mask act byte by byte if the mask hides what comes from the next byte. -/
theorem shift_mask (d m : Nat) (hd : 0 < d) (hm : m < 256)
    (hyp : ∀ b, b < 256 → ∀ x, ((b + 256 * x) / d) % 256 &&& m = (b / d) &&& m) :
    ∀ bs : List Nat, (∀ b ∈ bs, b < 256) →
      (ofBytes bs / d) &&& rep m bs.length = ofBytes (bs.map fun b => (b / d) &&& m)
  | [], _ => by simp [ofBytes, rep]
  | b :: bs, h => by
    have hb : b < 256 := h b (by simp)
    have ih := shift_mask d m hd hm hyp bs (fun c hc => h c (by simp [hc]))
    simp only [ofBytes, List.map_cons, List.length_cons, rep]
    have e : (b + 256 * ofBytes bs) / d = ((b + 256 * ofBytes bs) / d) % 256 + 256 * (ofBytes bs / d) := by
      have h1 := Nat.mod_add_div ((b + 256 * ofBytes bs) / d) 256
      rw [Nat.div_div_eq_div_mul, Nat.mul_comm d 256, ← Nat.div_div_eq_div_mul] at h1
      rw [show (b + 256 * ofBytes bs) / 256 = ofBytes bs by omega] at h1
      exact h1.symm
    rw [e, and_cons _ _ (Nat.mod_lt _ (by decide)) hm, ih, hyp b hb]

theorem ofBytes_sub (f : Nat → Nat) : ∀ bs : List Nat, (∀ b ∈ bs, f b ≤ b) →
    ofBytes bs - ofBytes (bs.map f) = ofBytes (bs.map fun b => b - f b) ∧ ofBytes (bs.map f) ≤ ofBytes bs
  | [], _ => by simp [ofBytes]
  | b :: bs, h => by
    have h1 := h b (by simp)
    obtain ⟨h2, h3⟩ := ofBytes_sub f bs (fun c hc => h c (by simp [hc]))
    simp only [ofBytes, List.map_cons]
    omega

theorem ofBytes_add (f g : Nat → Nat) : ∀ bs : List Nat,
    ofBytes (bs.map f) + ofBytes (bs.map g) = ofBytes (bs.map fun b => f b + g b)
  | [] => by simp [ofBytes]
  | b :: bs => by
    have := ofBytes_add f g bs
    simp only [ofBytes, List.map_cons]
    omega

theorem ofBytes_lt : ∀ bs : List Nat, (∀ b ∈ bs, b < 256) → ofBytes bs < 256 ^ bs.length
  | [], _ => by simp [ofBytes]
  | b :: bs, h => by
    have h1 := h b (by simp)
    have h2 := ofBytes_lt bs (fun c hc => h c (by simp [hc]))
    simp only [ofBytes, List.length_cons, Nat.pow_succ]
    omega

/-- The third step: bytes whose halves are at most 4. -/
theorem nibbles : ∀ bs : List Nat, (∀ b ∈ bs, b / 16 ≤ 4 ∧ b % 16 ≤ 4) →
    (ofBytes bs + ofBytes bs / 16) &&& rep 15 bs.length = ofBytes (bs.map fun b => (b + b / 16) &&& 15)
  | [], _ => by simp [ofBytes, rep]
  | b :: bs, h => by
    obtain ⟨h1, h2⟩ := h b (by simp)
    have ih := nibbles bs (fun c hc => h c (by simp [hc]))
    simp only [ofBytes, List.map_cons, List.length_cons, rep]
    have hx : ofBytes bs % 16 ≤ 4 := by
      cases bs with
      | nil => simp [ofBytes]
      | cons c cs =>
        have := (h c (by simp)).2
        simp only [ofBytes]
        omega
    have e : b + 256 * ofBytes bs + (b + 256 * ofBytes bs) / 16 =
        (b + b / 16 + 16 * (ofBytes bs % 16)) + 256 * (ofBytes bs + ofBytes bs / 16) := by omega
    rw [e, and_cons _ _ (by omega) (by decide), ih]
    congr 1
    rw [show (15 : Nat) = 2 ^ 4 - 1 from rfl, Nat.and_two_pow_sub_one_eq_mod, Nat.and_two_pow_sub_one_eq_mod]
    omega

/-- Number of ones of a byte. -/
def ones8 (b : Nat) : Nat := (List.range 8).countP (fun j => b.testBit j)

theorem byte_step1 : ∀ b < 256, ∀ x < 2, ((b + 256 * x) / 2) % 256 &&& 0x55 = (b / 2) &&& 0x55 := by decide +kernel
theorem byte_step1' : ∀ b < 256, (b / 2) &&& 0x55 ≤ b := by decide +kernel
theorem byte_step2 : ∀ b < 256, ∀ x < 4, ((b + 256 * x) / 4) % 256 &&& 0x33 = (b / 4) &&& 0x33 := by decide +kernel
theorem byte_step2' : ∀ b < 256, ((b + 256 * 0) / 1) % 256 &&& 0x33 = (b / 1) &&& 0x33 := by decide +kernel
theorem byte_all : ∀ b < 256,
    let c := b - ((b / 2) &&& 0x55)
    let d := ((c / 1) &&& 0x33) + ((c / 4) &&& 0x33)
    d / 16 ≤ 4 ∧ d % 16 ≤ 4 ∧ ((d + d / 16) &&& 15) = ones8 b := by decide +kernel

theorem swar (bs : List Nat) (h : ∀ b ∈ bs, b < 256) :
    let y := ofBytes bs
    let y1 := y - ((y / 2) &&& rep 0x55 bs.length)
    let y2 := (y1 &&& rep 0x33 bs.length) + ((y1 / 4) &&& rep 0x33 bs.length)
    ((y / 2) &&& rep 0x55 bs.length) ≤ y ∧ y1 < 256 ^ bs.length ∧ y2 + y2 / 16 < 256 ^ bs.length ∧
    (y2 + y2 / 16) &&& rep 15 bs.length = ofBytes (bs.map ones8) := by
  intro y y1 y2
  have e1 : (y / 2) &&& rep 0x55 bs.length = ofBytes (bs.map fun b => (b / 2) &&& 0x55) :=
    shift_mask 2 0x55 (by decide) (by decide) (fun b hb x => by
      have := byte_step1 b hb (x % 2) (Nat.mod_lt _ (by decide))
      rw [← this]; congr 1; omega) bs h
  obtain ⟨e2, e3⟩ := ofBytes_sub (fun b => (b / 2) &&& 0x55) bs (fun b hb => byte_step1' b (h b hb))
  have hy1 : y1 = ofBytes (bs.map fun b => b - ((b / 2) &&& 0x55)) := by
    show y - _ = _
    rw [e1]; exact e2
  generalize hcs : (bs.map fun b => b - ((b / 2) &&& 0x55)) = cs at hy1
  have hcl : cs.length = bs.length := by rw [← hcs, List.length_map]
  have hc : ∀ c ∈ cs, c < 256 := by
    intro c hc
    rw [← hcs] at hc
    obtain ⟨b, hb, rfl⟩ := List.mem_map.1 hc
    have := h b hb
    omega
  have e4 : (y1 / 4) &&& rep 0x33 bs.length = ofBytes (cs.map fun b => (b / 4) &&& 0x33) := by
    rw [hy1, ← hcl]
    exact shift_mask 4 0x33 (by decide) (by decide) (fun b hb x => by
      have := byte_step2 b hb (x % 4) (Nat.mod_lt _ (by decide))
      rw [← this]; congr 1; omega) cs hc
  have e5 : y1 &&& rep 0x33 bs.length = ofBytes (cs.map fun b => (b / 1) &&& 0x33) := by
    have := shift_mask 1 0x33 (by decide) (by decide) (fun b hb x => by
      have := byte_step2' b hb
      rw [← this]; congr 1; omega) cs hc
    rw [Nat.div_one] at this
    rw [hy1, ← hcl]; exact this
  have hy2 : y2 = ofBytes (cs.map fun b => ((b / 1) &&& 0x33) + ((b / 4) &&& 0x33)) := by
    show _ + _ = _
    rw [e4, e5]; exact ofBytes_add _ _ _
  generalize hds : (cs.map fun b => ((b / 1) &&& 0x33) + ((b / 4) &&& 0x33)) = ds at hy2
  have hdl : ds.length = bs.length := by rw [← hds, List.length_map, hcl]
  have hd : ∀ d ∈ ds, d / 16 ≤ 4 ∧ d % 16 ≤ 4 := by
    intro d hd
    rw [← hds, ← hcs] at hd
    simp only [List.map_map, List.mem_map, Function.comp] at hd
    obtain ⟨b, hb, rfl⟩ := hd
    have := byte_all b (h b hb)
    exact ⟨this.1, this.2.1⟩
  have hfin : ds.map (fun b => (b + b / 16) &&& 15) = bs.map ones8 := by
    rw [← hds, ← hcs]
    simp only [List.map_map]
    apply List.map_congr_left
    intro b hb
    exact (byte_all b (h b hb)).2.2
  refine ⟨by rw [e1]; exact e3, ?_, ?_, ?_⟩
  · rw [hy1, ← hcl]; exact ofBytes_lt _ hc
  · have hsmall : ∀ ds : List Nat, (∀ d ∈ ds, d / 16 ≤ 4 ∧ d % 16 ≤ 4) → 17 * ofBytes ds ≤ 16 * 73 * (256 ^ ds.length - 1) / 255 := by
      intro ds
      induction ds with
      | nil => intro _; simp [ofBytes]
      | cons d ds ih =>
        intro h
        have := h d (by simp)
        have := ih (fun c hc => h c (by simp [hc]))
        have hp : 1 ≤ 256 ^ ds.length := Nat.one_le_pow _ _ (by decide)
        simp only [ofBytes, List.length_cons, Nat.pow_succ]
        omega
    have := hsmall ds hd
    have hp : 1 ≤ 256 ^ ds.length := Nat.one_le_pow _ _ (by decide)
    rw [hy2, ← hdl]
    omega
  · rw [hy2, ← hdl, nibbles ds hd, hfin]

theorem bytes_lt : ∀ n y, ∀ b ∈ bytes n y, b < 256
  | 0, _, b, h => by simp [bytes] at h
  | n + 1, y, b, h => by
    simp only [bytes, List.mem_cons] at h
    rcases h with rfl | h
    · exact Nat.mod_lt _ (by decide)
    · exact bytes_lt n _ b h

theorem bytes_length : ∀ n y, (bytes n y).length = n
  | 0, _ => rfl
  | n + 1, y => by simp [bytes, bytes_length]

theorem ones8_le (b : Nat) : ones8 b ≤ 8 := by
  unfold ones8
  exact Nat.le_trans List.countP_le_length (by simp)

theorem ones_bytes : ∀ n y, ((bytes n y).map ones8).sum = (List.range (8 * n)).countP (fun j => y.testBit j)
  | 0, y => by simp [bytes]
  | n + 1, y => by
    simp only [bytes, List.map_cons, List.sum_cons, ones_bytes n]
    rw [show 8 * (n + 1) = 8 + 8 * n by omega, List.range_add, List.countP_append, List.countP_map]
    congr 1
    · unfold ones8
      apply List.countP_congr
      intro j hj
      rw [show 256 = 2 ^ 8 from rfl, Nat.testBit_mod_two_pow]
      simp [List.mem_range.1 hj]
    · apply List.countP_congr
      intro j _
      simp only [Function.comp]
      rw [show 256 = 2 ^ 8 from rfl, Nat.testBit_div_two_pow, Nat.add_comm]

/-- `_popcount64` counts the ones. -/
theorem popcount64_eq (w : Word) : popcount64 w = (List.range 64).countP (fun j => w.getLsbD j) := by
  have hlt : w.toNat < 256 ^ 8 := w.isLt
  have hw := ofBytes_bytes 8 w.toNat hlt
  have hs := swar (bytes 8 w.toNat) (bytes_lt _ _)
  simp only [bytes_length, hw] at hs
  obtain ⟨h1, h2, h3, h4⟩ := hs
  have r55 : rep 0x55 8 = 0x5555555555555555 := by decide
  have r33 : rep 0x33 8 = 0x3333333333333333 := by decide
  have r0f : rep 15 8 = 0xf0f0f0f0f0f0f0f := by decide
  rw [r55] at h1
  rw [r55] at h2
  rw [r55, r33] at h3
  rw [r55, r33, r0f] at h4
  have hcount : (List.range 64).countP (fun j => w.getLsbD j) = ((bytes 8 w.toNat).map ones8).sum := by
    rw [ones_bytes]; rfl
  rw [hcount]
  -- the steps on words
  have t1 : ((w >>> 1) &&& (0x5555555555555555 : Word)).toNat = (w.toNat / 2) &&& 0x5555555555555555 := by
    rw [BitVec.toNat_and, BitVec.toNat_ushiftRight, Nat.shiftRight_eq_div_pow]; rfl
  have t2 : (w - ((w >>> 1) &&& (0x5555555555555555 : Word))).toNat = w.toNat - ((w.toNat / 2) &&& 0x5555555555555555) := by
    rw [BitVec.toNat_sub_of_le (by rw [BitVec.le_def, t1]; exact h1), t1]
  unfold popcount64
  simp only
  generalize w - ((w >>> 1) &&& (0x5555555555555555 : Word)) = x at t2
  rw [← t2] at h3 h4
  have t3 : ((x &&& (0x3333333333333333 : Word)) + ((x >>> 2) &&& (0x3333333333333333 : Word))).toNat =
      (x.toNat &&& 0x3333333333333333) + ((x.toNat / 4) &&& 0x3333333333333333) := by
    rw [BitVec.toNat_add, BitVec.toNat_and, BitVec.toNat_and, BitVec.toNat_ushiftRight, Nat.shiftRight_eq_div_pow]
    rw [Nat.mod_eq_of_lt]
    · rfl
    · have : ∀ a b : Nat, a + b + (a + b) / 16 < 256 ^ 8 → a + b < 2 ^ 64 := by intro a b h; omega
      exact this _ _ h3
  generalize (x &&& (0x3333333333333333 : Word)) + ((x >>> 2) &&& (0x3333333333333333 : Word)) = z at t3
  rw [← t3] at h3 h4
  have t4 : ((z + z >>> 4) &&& (0xf0f0f0f0f0f0f0f : Word)).toNat = ofBytes ((bytes 8 w.toNat).map ones8) := by
    rw [← h4, BitVec.toNat_and, BitVec.toNat_add, BitVec.toNat_ushiftRight, Nat.shiftRight_eq_div_pow]
    rw [Nat.mod_eq_of_lt (show z.toNat + z.toNat / 2 ^ 4 < 2 ^ 64 from h3)]
    rfl
  rw [BitVec.toNat_ushiftRight, BitVec.toNat_mul, t4, Nat.shiftRight_eq_div_pow]
  rw [show (0x101010101010101 : Word).toNat = 0x101010101010101 from rfl]
  have hb : ∀ c ∈ (bytes 8 w.toNat).map ones8, c ≤ 8 := by
    intro c hc
    obtain ⟨b, _, rfl⟩ := List.mem_map.1 hc
    exact ones8_le b
  have hl : ((bytes 8 w.toNat).map ones8).length = 8 := by rw [List.length_map, bytes_length]
  generalize (bytes 8 w.toNat).map ones8 = cs at hb hl
  match cs, hl with
  | [c0, c1, c2, c3, c4, c5, c6, c7], _ =>
    simp only [List.mem_cons, List.not_mem_nil, or_false, forall_eq_or_imp, forall_eq] at hb
    simp only [ofBytes, List.sum_cons, List.sum_nil]
    obtain ⟨lo, hlo⟩ : ∃ lo, lo = (c0) * 1 + (c0+c1) * 256 + (c0+c1+c2) * 65536 + (c0+c1+c2+c3) * 16777216 + (c0+c1+c2+c3+c4) * 4294967296 + (c0+c1+c2+c3+c4+c5) * 1099511627776 + (c0+c1+c2+c3+c4+c5+c6) * 281474976710656 := ⟨_, rfl⟩
    obtain ⟨sum, hsum⟩ : ∃ sum, sum = c0+c1+c2+c3+c4+c5+c6+c7 := ⟨_, rfl⟩
    obtain ⟨hi, hhi⟩ : ∃ hi, hi = (c1+c2+c3+c4+c5+c6+c7) * 1 + (c2+c3+c4+c5+c6+c7) * 256 + (c3+c4+c5+c6+c7) * 65536 + (c4+c5+c6+c7) * 16777216 + (c5+c6+c7) * 4294967296 + (c6+c7) * 1099511627776 + (c7) * 281474976710656 := ⟨_, rfl⟩
    have h5 : (c0 + 256 * (c1 + 256 * (c2 + 256 * (c3 + 256 * (c4 + 256 * (c5 + 256 * (c6 + 256 * (c7 + 256 * 0)))))))) *
        0x101010101010101 = lo + 2 ^ 56 * sum + 2 ^ 64 * hi := by
      rw [hlo, hsum, hhi]; ring
    have h6 : lo < 2 ^ 56 := by omega
    have h7 : sum ≤ 64 := by omega
    rw [h5]
    clear h5 hlo hhi
    omega

end Gtl.Bits
