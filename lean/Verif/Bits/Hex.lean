import Verif.Bits.Query
/-!
# Conversion of views to hexadecimal strings
-/

namespace Gtl.Bits

open Gtl.Spec.Bits

/-- Digit `k` of a word. -/
def nib (w : Word) (k : Nat) : Char := hexDigit (w.toNat / 2 ^ (4 * k) % 16)

theorem digit_table : ∀ n < 16, (if n > 9 then Char.ofNat (97 + n - 10) else Char.ofNat (48 + n)) = hexDigit n := by decide

theorem toHex_eq {b : Word} (h : b.toNat < 16) : Bv.toHex b = hexDigit b.toNat := digit_table _ h

theorem low_nib (w : Word) : Bv.toHex ((w &&& 0xff) &&& 0xf) = nib w 0 := by
  have e : ((w &&& 0xff) &&& 0xf).toNat = w.toNat % 16 := by
    rw [BitVec.toNat_and, BitVec.toNat_and, show (0xff : Word).toNat = 2 ^ 8 - 1 from rfl, show (0xf : Word).toNat = 2 ^ 4 - 1 from rfl,
      Nat.and_two_pow_sub_one_eq_mod, Nat.and_two_pow_sub_one_eq_mod]
    omega
  rw [toHex_eq (by rw [e]; omega), e]
  unfold nib
  simp

theorem high_nib (w : Word) : Bv.toHex ((w &&& 0xff) >>> 4) = nib w 1 := by
  have e : ((w &&& 0xff) >>> 4).toNat = w.toNat / 16 % 16 := by
    rw [BitVec.toNat_ushiftRight, BitVec.toNat_and, show (0xff : Word).toNat = 2 ^ 8 - 1 from rfl,
      Nat.and_two_pow_sub_one_eq_mod, Nat.shiftRight_eq_div_pow]
    omega
  rw [toHex_eq (by rw [e]; omega), e]
  rfl

theorem nib_shift (w : Word) (k : Nat) : nib (w >>> 8) k = nib w (k + 2) := by
  unfold nib
  rw [BitVec.toNat_ushiftRight, Nat.shiftRight_eq_div_pow, Nat.div_div_eq_div_mul, ← Nat.pow_add]
  congr 4
  omega

theorem hexBytes_spec : ∀ (n m : Nat) (w : Word) (acc : List Char),
    Bv.hexBytes n (2 * m) w acc = (2 * (m - min n m), ((List.range (2 * min n m)).map (nib w)).reverse ++ acc)
  | 0, m, w, acc => by simp [Bv.hexBytes]
  | n + 1, 0, w, acc => by simp [Bv.hexBytes]
  | n + 1, m + 1, w, acc => by
    unfold Bv.hexBytes
    rw [if_neg (by omega)]
    dsimp only
    rw [show 2 * (m + 1) - 2 = 2 * m by omega, hexBytes_spec n m, low_nib, high_nib]
    rw [show m + 1 - min (n + 1) (m + 1) = m - min n m by omega, show 2 * min (n + 1) (m + 1) = 2 * min n m + 1 + 1 by omega]
    congr 1
    rw [List.range_succ_eq_map, List.range_succ_eq_map]
    simp only [List.map_cons, List.map_map, List.reverse_cons, List.append_assoc, List.cons_append, List.nil_append]
    congr 1
    apply congrArg
    apply List.map_congr_left
    intro k _
    exact nib_shift w k

/-- Digit `k` of a list of bits. -/
def dig (l : List Bool) (k : Nat) : Char := hexDigit (value [at' l (4 * k), at' l (4 * k + 1), at' l (4 * k + 2), at' l (4 * k + 3)])

theorem nib_bits (w : Word) (k : Nat) :
    nib w k = hexDigit (value [w.getLsbD (4 * k), w.getLsbD (4 * k + 1), w.getLsbD (4 * k + 2), w.getLsbD (4 * k + 3)]) := by
  unfold nib
  congr 1
  have hv := value_bits 4 (w.toNat / 2 ^ (4 * k))
  rw [show (2 : Nat) ^ 4 = 16 from rfl] at hv
  rw [← hv]
  simp only [show List.range 4 = [0, 1, 2, 3] from rfl, List.map_cons, List.map_nil, Nat.testBit_div_two_pow, Nat.add_comm _ (4 * k), Nat.add_zero]
  rfl

theorem at_slice {l : List Bool} {first last : Nat} (h : last ≤ l.length) (i : Nat) :
    at' (slice l first last) i = (decide (i < last - first) && at' l (first + i)) := by
  rw [slice_eq h, at_range]

theorem hexLoop_spec {v : Bv} {l : List Bool} (h : Sim v l) {first last : Nat} (h1 : first ≤ last) (h2 : last ≤ l.length) :
    ∀ (fuel m pos : Nat) (q : Seq) (acc : List Char), pos % 64 = 0 → m = (last - first + 7) / 8 - pos / 8 → 2 * m < fuel →
      (pos < last - first → SeqAt q 0 first last pos) →
      v.hexLoop fuel q (2 * m) acc = .ok (((List.range (2 * m)).map fun k => dig (slice l first last) (pos / 4 + k)).reverse ++ acc)
  | 0, m, pos, q, acc, _, _, hf, _ => by omega
  | fuel + 1, m, pos, q, acc, hp, hm, hf, hq => by
    unfold Bv.hexLoop
    by_cases c : 2 * m > 0
    · rw [if_pos c]
      have hlt : pos < last - first := by omega
      have hseg : Seg 0 (last - first) pos (min (last - first) (pos + 64)) := ⟨by omega, by omega, by omega, by omega, .inr hp, by omega⟩
      have hroom := h.room
      obtain ⟨q', w, e1, e2, e3⟩ := seq_next (src := v.s) hseg (hq hlt) (by omega) h1 (by omega)
      rw [e1, Res.ok_bind]
      simp only [hexBytes_spec]
      have hnib : ∀ k, k < 2 * min 8 m → nib w k = dig (slice l first last) (pos / 4 + k) := by
        intro k hk
        rw [nib_bits]
        unfold dig
        have hb : ∀ j, j < 64 → w.getLsbD j = at' (slice l first last) (pos + j) := by
          intro j hj
          rw [e3 j hj, h.bits, at_slice h2, show 64 * (pos / 64) = pos by omega]
          have : (pos ≤ pos + j ∧ pos + j < min (last - first) (pos + 64)) ↔ pos + j < last - first := by omega
          simp only [this, Nat.sub_zero]
        rw [hb _ (by omega), hb _ (by omega), hb _ (by omega), hb _ (by omega)]
        rw [show pos + 4 * k = 4 * (pos / 4 + k) by omega, show pos + (4 * k + 1) = 4 * (pos / 4 + k) + 1 by omega,
          show pos + (4 * k + 2) = 4 * (pos / 4 + k) + 2 by omega, show pos + (4 * k + 3) = 4 * (pos / 4 + k) + 3 by omega]
      rw [hexLoop_spec h h1 h2 fuel (m - min 8 m) (pos + 64) q' _ (by omega) (by omega) (by omega)
        (fun hh => by
          have : min (last - first) (pos + 64) = pos + 64 := by omega
          rw [← this]; exact e2)]
      congr 1
      rw [← List.append_assoc, ← List.reverse_append]
      congr 2
      have hs : 2 * m = 2 * min 8 m + 2 * (m - min 8 m) := by omega
      rw [hs, List.range_add, List.map_append, List.map_map]
      congr 1
      · apply List.map_congr_left
        intro k hk
        exact hnib k (List.mem_range.1 hk)
      · apply List.map_congr_left
        intro k hk
        have hk := List.mem_range.1 hk
        simp only [Function.comp_apply]
        congr 1
        omega
    · rw [if_neg c, show 2 * m = 0 by omega]
      rfl

theorem viewString_sim {v : Bv} {l : List Bool} (h : Sim v l) {first last : Nat} (h1 : first ≤ last) (h2 : last ≤ l.length) :
    v.viewString first last = .ok (hexString (slice l first last)) := by
  have hlen : (slice l first last).length = last - first := by rw [slice_eq h2]; simp
  unfold Bv.viewString hexString
  by_cases c : last - first = 0
  · rw [if_pos c, if_pos (List.length_eq_zero_iff.1 (by omega))]
  · rw [if_neg c, if_neg (fun e => c (by rw [← hlen, e]; rfl))]
    dsimp only
    rw [Nat.shiftRight_eq_div_pow, show (2 : Nat) ^ 3 = 8 from rfl, Nat.mul_comm _ 2]
    have hq : SeqAt (mkSeq first last 0) 0 first last 0 := mkSeq_at 0 first last
    rw [hexLoop_spec h h1 h2 _ ((last - first + 7) / 8) 0 _ [] (by decide) (by omega) (by omega) (fun _ => hq), Res.ok_bind]
    unfold hexDigits dig bitAt at'
    rw [hlen]
    simp

end Gtl.Bits
