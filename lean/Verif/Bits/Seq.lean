import Verif.Bits.Visit
/-!
# `bit_sequence`
-/

namespace Gtl.Bits

/-- `get_next_bits` returns the next bits of the source, padded with zeros. -/
theorem getNextBits_ok {src : List Word} {q : Seq} {lg : Nat} (h1 : q.cur < q.last) (h2 : q.last ≤ 64 * src.length)
    (hl : 0 < lg) (hl64 : lg ≤ 64) :
    ∃ v, getNextBits src q lg = .ok ({ q with cur := q.cur + min lg (q.last - q.cur) }, v) ∧
      ∀ j, j < 64 → v.getLsbD j = (decide (j < min lg (q.last - q.cur)) && bit src (q.cur + j)) := by
  obtain ⟨cur, last, il, sh⟩ := q
  simp only at h1 h2 ⊢
  unfold getNextBits
  simp only [slot_eq, mod_eq]
  obtain ⟨n, hn⟩ : ∃ n, n = min lg (last - cur) := ⟨_, rfl⟩
  rw [← hn]
  have hn0 : 0 < n := by omega
  have hn64 : n ≤ 64 := by omega
  have hin : cur + n ≤ 64 * src.length := by omega
  have hk : cur / 64 < src.length := by omega
  obtain ⟨x, hx, hlx⟩ := ld_ok hk
  by_cases c1 : n = 64 ∧ cur % 64 = 0
  · rw [if_pos c1, hlx]
    refine ⟨x, rfl, fun j hj => ?_⟩
    rw [show cur + j = 64 * (cur / 64) + j by omega, bit_at hx hj]
    simp [c1.1, hj]
  rw [if_neg c1]
  by_cases c2 : n ≤ 64 - cur % 64
  · rw [if_pos c2, hlx]
    refine ⟨_, rfl, fun j hj => ?_⟩
    rw [BitVec.getLsbD_ushiftRight, BitVec.getLsbD_and]
    by_cases hj2 : cur % 64 + j < 64
    · rw [show cur + j = 64 * (cur / 64) + (cur % 64 + j) by omega, bit_at hx hj2]
      by_cases c3 : (cur + n) % 64 = 0
      · rw [if_pos c3, ones_bit]
        have : j < n := by omega
        simp [hj2, this]
      · rw [if_neg c3, lowmask_bit]
        have : cur % 64 + j < (cur + n) % 64 ↔ j < n := by omega
        simp only [this]
        rw [Bool.and_comm]
    · rw [BitVec.getLsbD_of_ge _ _ (by omega)]
      have : ¬ j < n := by omega
      simp [this]
  · rw [if_neg c2, hlx]
    have hk2 : cur / 64 + 1 < src.length := by omega
    obtain ⟨y, hy, hly⟩ := ld_ok hk2
    rw [Res.ok_bind, hly, Res.ok_bind]
    refine ⟨_, rfl, fun j hj => ?_⟩
    rw [BitVec.getLsbD_or, BitVec.getLsbD_ushiftRight, BitVec.getLsbD_shiftLeft, BitVec.getLsbD_and, lowmask_bit]
    by_cases hj2 : cur % 64 + j < 64
    · rw [show cur + j = 64 * (cur / 64) + (cur % 64 + j) by omega, bit_at hx hj2]
      have a1 : j < 64 - cur % 64 := by omega
      have a2 : j < n := by omega
      simp [a1, a2]
    · rw [BitVec.getLsbD_of_ge _ _ (by omega)]
      have a1 : ¬ j < 64 - cur % 64 := by omega
      rw [show cur + j = 64 * (cur / 64 + 1) + (j - (64 - cur % 64)) by omega, bit_at hy (by omega)]
      have a2 : j - (64 - cur % 64) < (n - (64 - cur % 64)) % 64 ↔ j < n := by omega
      simp only [a1, a2, hj, Bool.false_or, decide_true, decide_false, Bool.not_false, Bool.true_and]
      rw [Bool.and_comm]

/-- The sequence made for a destination view starting at `first`, when the destination is at `pos`. -/
def SeqAt (q : Seq) (first ofirst olast pos : Nat) : Prop :=
  q.cur = ofirst + (pos - first) ∧ q.last = olast ∧ q.shift = first % 64 ∧
  q.initLg = if pos = first then (64 - first % 64) % 64 else 0

theorem mkSeq_at (first ofirst olast : Nat) : SeqAt (mkSeq ofirst olast first) first ofirst olast first := by
  simp [mkSeq, SeqAt, mod_eq]

/-- Each call of the sequence delivers the bits for one part of the destination. -/
theorem seq_next {src : List Word} {q : Seq} {first last ofirst olast lo hi : Nat} (hseg : Seg first last lo hi)
    (hq : SeqAt q first ofirst olast lo) (hsz : olast - ofirst = last - first) (hol : ofirst ≤ olast) (ho : olast ≤ 64 * src.length) :
    ∃ q' x, q.next src = .ok (q', x) ∧ SeqAt q' first ofirst olast hi ∧
      ∀ j, j < 64 → x.getLsbD j = (decide (lo ≤ 64 * (lo / 64) + j ∧ 64 * (lo / 64) + j < hi) &&
        bit src (ofirst + (64 * (lo / 64) + j - first))) := by
  obtain ⟨g1, g2, g3, g4, g5, g6⟩ := hseg
  obtain ⟨hc, hla, hs, hi'⟩ := hq
  unfold Seq.next
  by_cases hz : q.initLg = 0
  · rw [if_neg (by simp [hz])]
    have hlo : lo % 64 = 0 := by
      rcases g5 with e | e
      · rw [if_pos e] at hi'; omega
      · exact e
    obtain ⟨v, e1, e2⟩ := getNextBits_ok (src := src) (q := q) (lg := 64) (by omega) (by omega) (by decide) (by decide)
    have hmin : min 64 (q.last - q.cur) = hi - lo := by omega
    rw [hmin] at e1 e2
    refine ⟨_, v, e1, ⟨?_, hla, hs, ?_⟩, fun j hj => ?_⟩
    · simp only; omega
    · simp only [hz]; rw [if_neg (by omega)]
    · rw [e2 j hj, show 64 * (lo / 64) = lo by omega, hc]
      have a1 : (lo ≤ lo + j ∧ lo + j < hi) ↔ j < hi - lo := by omega
      simp only [a1]
      rw [show ofirst + (lo - first) + j = ofirst + (lo + j - first) by omega]
  · rw [if_pos (by simpa using hz)]
    have hlo : lo = first := by
      by_contra hc
      rw [if_neg hc] at hi'; exact hz hi'
    subst hlo
    rw [if_pos rfl] at hi'
    obtain ⟨v, e1, e2⟩ := getNextBits_ok (src := src) (q := q) (lg := q.initLg) (by omega) (by omega) (by omega) (by omega)
    have hmin : min q.initLg (q.last - q.cur) = hi - lo := by omega
    rw [hmin] at e1 e2
    rw [e1]
    refine ⟨_, _, rfl, ⟨?_, hla, hs, ?_⟩, fun j hj => ?_⟩
    · simp only; omega
    · simp only; rw [if_neg (by omega)]
    · rw [BitVec.getLsbD_shiftLeft, hs]
      by_cases hj2 : j < lo % 64
      · have a1 : ¬ (lo ≤ 64 * (lo / 64) + j) := by omega
        simp [hj2, a1]
      · rw [e2 _ (by omega), hc]
        have a1 : (lo ≤ 64 * (lo / 64) + j ∧ 64 * (lo / 64) + j < hi) ↔ j - lo % 64 < hi - lo := by omega
        rw [show ofirst + (lo - lo) + (j - lo % 64) = ofirst + (64 * (lo / 64) + j - lo) by omega]
        simp only [a1, hj, hj2, decide_true, decide_false, Bool.not_false, Bool.true_and]

end Gtl.Bits
