import Verif.Bits.Sim
/-!
# The operations that change a bit vector simulate operations on lists of bits
-/

namespace Gtl.Bits

open Gtl.Spec.Bits

/-! ## Shifts -/

theorem shlStep_eq (v : Bv) (first last cnt : Nat) (h : cnt ≤ 64) :
    v.shlStep first last cnt = v.visit true first last (fun _ c w _ => .ok (w <<< (64 - cnt), (w >>> cnt) ||| c)) (0 : Word) := by
  unfold Bv.shlStep
  by_cases c : cnt = 64
  · subst c
    rw [if_pos rfl]
    congr 1
    funext _ c w _
    have h1 : w >>> 64 = 0#64 := by
      apply word_ext; intro j hj
      rw [BitVec.getLsbD_ushiftRight, BitVec.getLsbD_of_ge _ _ (by omega)]; simp
    have h2 : w <<< (64 - 64) = w := by
      apply word_ext; intro j hj
      simp
    rw [h1, h2, BitVec.zero_or]
  · rw [if_neg c]

theorem shlStep_sim {v : Bv} {l : List Bool} (h : Sim v l) {first last : Nat} (h1 : first ≤ last) (h2 : last ≤ l.length)
    {cnt : Nat} (hc : cnt ≤ 64) : ∃ v', v.shlStep first last cnt = .ok v' ∧ Sim v' (down l first last cnt) := by
  rw [shlStep_eq v _ _ _ hc]
  unfold down
  refine visit_down_map h h1 h2 (fun i => if i + cnt < last then at' l (i + cnt) else false)
    (fun pos c => pos = first ∨ ∀ j, j < 64 → c.getLsbD j =
      (decide (64 - cnt ≤ j ∧ pos + (j - (64 - cnt)) < last) && at' l (pos + (j - (64 - cnt))))) ?_ ?_
  · refine .inr (fun j hj => ?_)
    have : ¬ (last + (j - (64 - cnt)) < last) := by omega
    simp [this]
  · intro lo hi s1 c w hseg hl hK hw
    obtain ⟨g1, g2, g3, g4, g5, g6⟩ := hseg
    have hK : ∀ j, j < 64 → c.getLsbD j =
      (decide (64 - cnt ≤ j ∧ hi + (j - (64 - cnt)) < last) && at' l (hi + (j - (64 - cnt)))) := by
      rcases hK with e | e
      · omega
      · exact e
    refine ⟨_, _, rfl, ?_, fun j hj c1 c2 => ?_⟩
    · rcases g5 with e | e
      · exact .inl e
      · refine .inr (fun j hj => ?_)
        rw [BitVec.getLsbD_shiftLeft]
        by_cases d : 64 - cnt ≤ j
        · rw [hw _ (by omega), show 64 * (lo / 64) = lo by omega]
          have a1 : ¬ j < 64 - cnt := by omega
          have a2 : (lo ≤ lo + (j - (64 - cnt)) ∧ lo + (j - (64 - cnt)) < hi) ↔ (lo + (j - (64 - cnt)) < last) := by omega
          simp only [a1, a2, d, hj, decide_true, decide_false, Bool.not_false, Bool.true_and, true_and]
        · have a1 : j < 64 - cnt := by omega
          simp [a1, d]
    · rw [BitVec.getLsbD_or, BitVec.getLsbD_ushiftRight, hK j hj]
      by_cases d : cnt + j < 64
      · have a1 : ¬ 64 - cnt ≤ j := by omega
        rw [hw _ d]
        simp only [a1, false_and, decide_false, Bool.false_and, Bool.or_false]
        rw [show 64 * (lo / 64) + j + cnt = 64 * (lo / 64) + (cnt + j) by omega]
        by_cases e : 64 * (lo / 64) + (cnt + j) < last
        · have a2 : lo ≤ 64 * (lo / 64) + (cnt + j) ∧ 64 * (lo / 64) + (cnt + j) < hi := by omega
          simp [a2, e]
        · have a2 : ¬ (64 * (lo / 64) + (cnt + j) < hi) := by omega
          simp [a2, e]
      · rw [BitVec.getLsbD_of_ge _ _ (by omega)]
        have a1 : 64 - cnt ≤ j := by omega
        beta_reduce
        by_cases e : hi % 64 = 0
        · rw [show 64 * (lo / 64) + j + cnt = hi + (j - (64 - cnt)) by omega]
          by_cases e2 : hi + (j - (64 - cnt)) < last
          · simp [a1, e2]
          · simp [e2]
        · have a2 : ¬ (hi + (j - (64 - cnt)) < last) := by omega
          rw [if_neg (by omega)]
          simp [a2]

theorem shrStep_eq (v : Bv) (first last cnt : Nat) (h : cnt ≤ 64) :
    v.shrStep first last cnt = v.visit false first last (fun _ c w _ => .ok (w >>> (64 - cnt), (w <<< cnt) ||| c)) (0 : Word) := by
  unfold Bv.shrStep
  by_cases c : cnt = 64
  · subst c
    rw [if_pos rfl]
    congr 1
    funext _ c w _
    have h1 : w <<< 64 = 0#64 := by
      apply word_ext; intro j hj
      rw [BitVec.getLsbD_shiftLeft]; simp [hj]
    have h2 : w >>> (64 - 64) = w := by
      apply word_ext; intro j hj
      simp
    rw [h1, h2, BitVec.zero_or]
  · rw [if_neg c]

theorem shrStep_sim {v : Bv} {l : List Bool} (h : Sim v l) {first last : Nat} (h1 : first ≤ last) (h2 : last ≤ l.length)
    {cnt : Nat} (hc : cnt ≤ 64) : ∃ v', v.shrStep first last cnt = .ok v' ∧ Sim v' (up l first last cnt) := by
  rw [shrStep_eq v _ _ _ hc]
  unfold up
  refine visit_up_map h h1 h2 (fun i => if first + cnt ≤ i then at' l (i - cnt) else false)
    (fun pos c => pos = last ∨ ∀ j, j < 64 → c.getLsbD j =
      (decide (j < cnt ∧ first + cnt ≤ pos + j) && at' l (pos + j - cnt))) ?_ ?_
  · refine .inr (fun j hj => ?_)
    have : ¬ (j < cnt ∧ first + cnt ≤ first + j) := by omega
    simp [this]
  · intro lo hi s1 c w hseg hl _ hK hw
    obtain ⟨g1, g2, g3, g4, g5, g6⟩ := hseg
    have hK : ∀ j, j < 64 → c.getLsbD j = (decide (j < cnt ∧ first + cnt ≤ lo + j) && at' l (lo + j - cnt)) := by
      rcases hK with e | e
      · omega
      · exact e
    refine ⟨_, _, rfl, ?_, fun j hj c1 c2 => ?_⟩
    · rcases g6 with e | e
      · exact .inl e
      · refine .inr (fun j hj => ?_)
        rw [BitVec.getLsbD_ushiftRight]
        by_cases d : j < cnt
        · rw [hw _ (by omega), show 64 * (lo / 64) + (64 - cnt + j) = hi + j - cnt by omega]
          have a2 : (lo ≤ hi + j - cnt ∧ hi + j - cnt < hi) ↔ first + cnt ≤ hi + j := by omega
          simp only [a2, d, true_and]
        · rw [BitVec.getLsbD_of_ge _ _ (by omega)]
          simp [d]
    · rw [BitVec.getLsbD_or, BitVec.getLsbD_shiftLeft, hK j hj]
      by_cases d : j < cnt
      · simp only [hj, d, decide_true, Bool.not_true, Bool.false_and, Bool.and_false, Bool.false_or, true_and]
        by_cases e : lo % 64 = 0
        · rw [show 64 * (lo / 64) + j = lo + j by omega]
          by_cases e2 : first + cnt ≤ lo + j
          · simp [e2]
          · simp [e2]
        · have : lo = first := by omega
          rw [if_neg (by omega)]
          have a : ¬ (first + cnt ≤ lo + j) := by omega
          simp [a]
      · rw [hw _ (by omega)]
        simp only [hj, d, decide_true, decide_false, Bool.not_false, Bool.true_and, false_and, Bool.false_and, Bool.or_false]
        rw [show 64 * (lo / 64) + j - cnt = 64 * (lo / 64) + (j - cnt) by omega]
        by_cases e : first + cnt ≤ 64 * (lo / 64) + j
        · have a : lo ≤ 64 * (lo / 64) + (j - cnt) ∧ 64 * (lo / 64) + (j - cnt) < hi := by omega
          simp [a, e]
        · have a : ¬ lo ≤ 64 * (lo / 64) + (j - cnt) := by omega
          simp [a, e]

theorem down_zero {l : List Bool} {first last : Nat} (h2 : last ≤ l.length) : down l first last 0 = l := by
  unfold down
  apply at_ext (length_mapView _ _ _ _)
  intro i _
  rw [at_mapView' h2]
  split
  · rw [if_pos (by omega)]; rfl
  · rfl

theorem up_zero {l : List Bool} {first last : Nat} (h2 : last ≤ l.length) : up l first last 0 = l := by
  unfold up
  apply at_ext (length_mapView _ _ _ _)
  intro i _
  rw [at_mapView' h2]
  split
  · rw [if_pos (by omega)]; rfl
  · rfl

theorem down_down {l : List Bool} {first last : Nat} (h2 : last ≤ l.length) (a b : Nat) :
    down (down l first last a) first last b = down l first last (a + b) := by
  apply at_ext (by unfold down; simp only [length_mapView])
  intro i _
  have hl : ∀ a i, at' (down l first last a) i = if first ≤ i ∧ i < last then (if i + a < last then at' l (i + a) else false) else at' l i := by
    intro a i; unfold down; rw [at_mapView' h2]
  rw [hl]
  rw [down.eq_def _ _ _ b, at_mapView' (by unfold down; rw [length_mapView]; exact h2)]
  by_cases c : first ≤ i ∧ i < last
  · rw [if_pos c, if_pos c, hl]
    by_cases d : i + b < last
    · rw [if_pos d, if_pos (by omega), show i + b + a = i + (a + b) by omega]
    · rw [if_neg d, if_neg (by omega)]
  · rw [if_neg c, if_neg c, hl, if_neg c]

theorem up_up {l : List Bool} {first last : Nat} (h2 : last ≤ l.length) (a b : Nat) :
    up (up l first last a) first last b = up l first last (a + b) := by
  apply at_ext (by unfold up; simp only [length_mapView])
  intro i _
  have hl : ∀ a i, at' (up l first last a) i = if first ≤ i ∧ i < last then (if first + a ≤ i then at' l (i - a) else false) else at' l i := by
    intro a i; unfold up; rw [at_mapView' h2]
  rw [hl]
  rw [up.eq_def _ _ _ b, at_mapView' (by unfold up; rw [length_mapView]; exact h2)]
  by_cases c : first ≤ i ∧ i < last
  · rw [if_pos c, if_pos c, hl]
    by_cases d : first + b ≤ i
    · rw [if_pos d, if_pos (by omega)]
      by_cases e : first + a ≤ i - b
      · rw [if_pos e, if_pos (by omega), show i - b - a = i - (a + b) by omega]
      · rw [if_neg e, if_neg (by omega)]
    · rw [if_neg d, if_neg (by omega)]
  · rw [if_neg c, if_neg c, hl, if_neg c]

theorem length_down (l : List Bool) (first last n : Nat) : (down l first last n).length = l.length := length_mapView _ _ _ _
theorem length_up (l : List Bool) (first last n : Nat) : (up l first last n).length = l.length := length_mapView _ _ _ _

theorem down_big {l : List Bool} {first last n : Nat} (h : last - first ≤ n) :
    down l first last n = mapView l first last fun _ _ => false := by
  unfold down
  apply mapView_congr
  intro i _ h1 h2
  rw [if_neg (by omega)]

theorem up_big {l : List Bool} {first last n : Nat} (h : last - first ≤ n) :
    up l first last n = mapView l first last fun _ _ => false := by
  unfold up
  apply mapView_congr
  intro i _ h1 h2
  rw [if_neg (by omega)]

theorem shlLoop_sim : ∀ (n : Nat) {v : Bv} {l : List Bool} (_ : Sim v l) {first last : Nat} (_ : first ≤ last) (_ : last ≤ l.length)
    {cnt : Nat} (_ : cnt < n), ∃ v', v.shlLoop first last n cnt = .ok v' ∧ Sim v' (down l first last cnt)
  | 0, _, _, _, _, _, _, _, _, hc => by omega
  | n + 1, v, l, h, first, last, h1, h2, cnt, hc => by
    unfold Bv.shlLoop
    by_cases c : cnt = 0
    · rw [if_pos c, c]
      exact ⟨v, rfl, by rw [down_zero h2]; exact h⟩
    rw [if_neg c]
    have hs : ∃ v', (if min cnt 64 ≥ last - first then v.viewFill first last false else v.shlStep first last (min cnt 64)) = .ok v' ∧
        Sim v' (down l first last (min cnt 64)) := by
      split
      · rename_i d
        rw [down_big d]
        exact viewFill_sim h h1 h2 false
      · exact shlStep_sim h h1 h2 (by omega)
    obtain ⟨v1, e1, e2⟩ := hs
    obtain ⟨v2, e3, e4⟩ := shlLoop_sim n e2 h1 (by rw [length_down]; exact h2) (cnt := cnt - min cnt 64) (by omega)
    refine ⟨v2, ?_, ?_⟩
    · dsimp only
      split at e1
      · rename_i d; rw [if_pos d, e1, Res.ok_bind]; exact e3
      · rename_i d; rw [if_neg d, e1, Res.ok_bind]; exact e3
    · rw [down_down h2, show min cnt 64 + (cnt - min cnt 64) = cnt by omega] at e4
      exact e4

theorem shl_sim {v : Bv} {l : List Bool} (h : Sim v l) {first last : Nat} (h1 : first ≤ last) (h2 : last ≤ l.length) (cnt : Nat) :
    ∃ v', v.shl first last cnt = .ok v' ∧ Sim v' (down l first last cnt) := by
  unfold Bv.shl
  by_cases c : cnt ≥ last - first
  · rw [if_pos c, down_big c]
    exact viewFill_sim h h1 h2 false
  rw [if_neg c]
  by_cases d : cnt = 0
  · rw [if_pos d, d, down_zero h2]; exact ⟨v, rfl, h⟩
  rw [if_neg d]
  split
  · rename_i e; exact shlStep_sim h h1 h2 e
  · exact shlLoop_sim _ h h1 h2 (by omega)

theorem shrLoop_sim : ∀ (n : Nat) {v : Bv} {l : List Bool} (_ : Sim v l) {first last : Nat} (_ : first ≤ last) (_ : last ≤ l.length)
    {cnt : Nat} (_ : cnt < n), ∃ v', v.shrLoop first last n cnt = .ok v' ∧ Sim v' (up l first last cnt)
  | 0, _, _, _, _, _, _, _, _, hc => by omega
  | n + 1, v, l, h, first, last, h1, h2, cnt, hc => by
    unfold Bv.shrLoop
    by_cases c : cnt = 0
    · rw [if_pos c, c]
      exact ⟨v, rfl, by rw [up_zero h2]; exact h⟩
    rw [if_neg c]
    have hs : ∃ v', (if min cnt 64 ≥ last - first then v.viewFill first last false else v.shrStep first last (min cnt 64)) = .ok v' ∧
        Sim v' (up l first last (min cnt 64)) := by
      split
      · rename_i d
        rw [up_big d]
        exact viewFill_sim h h1 h2 false
      · exact shrStep_sim h h1 h2 (by omega)
    obtain ⟨v1, e1, e2⟩ := hs
    obtain ⟨v2, e3, e4⟩ := shrLoop_sim n e2 h1 (by rw [length_up]; exact h2) (cnt := cnt - min cnt 64) (by omega)
    refine ⟨v2, ?_, ?_⟩
    · dsimp only
      split at e1
      · rename_i d; rw [if_pos d, e1, Res.ok_bind]; exact e3
      · rename_i d; rw [if_neg d, e1, Res.ok_bind]; exact e3
    · rw [up_up h2, show min cnt 64 + (cnt - min cnt 64) = cnt by omega] at e4
      exact e4

theorem shr_sim {v : Bv} {l : List Bool} (h : Sim v l) {first last : Nat} (h1 : first ≤ last) (h2 : last ≤ l.length) (cnt : Nat) :
    ∃ v', v.shr first last cnt = .ok v' ∧ Sim v' (up l first last cnt) := by
  unfold Bv.shr
  by_cases c : cnt ≥ last - first
  · rw [if_pos c, up_big c]
    exact viewFill_sim h h1 h2 false
  rw [if_neg c]
  by_cases d : cnt = 0
  · rw [if_pos d, d, up_zero h2]; exact ⟨v, rfl, h⟩
  rw [if_neg d]
  split
  · rename_i e; exact shrStep_sim h h1 h2 e
  · exact shrLoop_sim _ h h1 h2 (by omega)

/-! ## Size changes -/

/-- What `resize` leaves in the vector: new bits that fall in the old last slot are 0 whatever `b` is. -/
def resized (l : List Bool) (n : Nat) (b : Bool) : List Bool :=
  (List.range n).map fun i => if i < l.length then at' l i else if i < 64 * ((l.length + 63) / 64) then false else b

theorem at_range (n : Nat) (f : Nat → Bool) (i : Nat) : at' ((List.range n).map f) i = (decide (i < n) && f i) := by
  by_cases h : i < n
  · rw [at_get (by simpa using h)]; simp [h]
  · rw [at_out (by simpa using h)]; simp [h]

theorem resized_eq {l : List Bool} {n : Nat} {b : Bool} (h : b = false ∨ l.length % 64 = 0 ∨ n ≤ l.length) :
    resized l n b = Spec.Bits.resize l n b := by
  unfold resized Spec.Bits.resize
  apply List.ext_getElem
  · simp; omega
  · intro i h1 h2
    simp at h1
    rw [List.getElem_map, List.getElem_range]
    by_cases c : i < l.length
    · rw [if_pos c, at_get c, List.getElem_append_left (by simp; omega)]; simp
    · rw [if_neg c, List.getElem_append_right (by simp; omega)]
      simp only [List.getElem_replicate]
      split
      · rcases h with e | e | e
        · rw [e]
        · omega
        · omega
      · rfl

theorem bit_resizeList (s : List Word) (n : Nat) (b : Bool) (i : Nat) :
    bit (resizeList s n (if b then ones else 0)) i =
      (decide (i < 64 * n) && if i < 64 * s.length then bit s i else b) := by
  unfold resizeList bit
  by_cases c : i < 64 * n
  · by_cases d : i < 64 * s.length
    · rw [List.getElem?_append_left (by simp; omega), List.getElem?_take_of_lt (by omega)]
      simp [c, d]
    · rw [List.getElem?_append_right (by simp; omega), List.getElem?_replicate, if_pos (by simp; omega)]
      have hj : i % 64 < 64 := Nat.mod_lt _ (by decide)
      cases b with
      | true => simp [ones_bit, c, d, hj]
      | false => simp [d]
  · rw [List.getElem?_eq_none (by simp; omega)]
    simp [c]

theorem resize_sim {v : Bv} {l : List Bool} (h : Sim v l) (n : Nat) (b : Bool) :
    ∃ v', v.resize n b = .ok v' ∧ Sim v' (resized l n b) := by
  have hlen := h.len
  have hroom := h.room
  have hrl : (resizeList v.s ((n + 63) / 64) (if b then ones else 0)).length = (n + 63) / 64 := by
    unfold resizeList; simp; omega
  have hbits : ∀ i, i < n → bit (resizeList v.s ((n + 63) / 64) (if b then ones else 0)) i = at' (resized l n b) i := by
    intro i hi
    rw [bit_resizeList]
    unfold resized
    rw [at_range]
    have a1 : i < 64 * ((n + 63) / 64) := by omega
    simp only [a1, hi, decide_true, Bool.true_and]
    rw [hlen, h.bits]
    by_cases c : i < l.length
    · rw [if_pos c, if_pos (by omega)]
    · rw [if_neg c]
      split
      · rw [at_out (by omega)]
      · rfl
  have hll : (resized l n b).length = n := by unfold resized; simp
  unfold Bv.resize
  simp only [slotCnt_eq, mod_eq]
  by_cases c : n % 64 = 0
  · rw [if_neg (by simpa using c)]
    refine ⟨_, rfl, ⟨hll.symm, by rw [hll]; exact hrl, fun i => ?_⟩⟩
    by_cases d : i < n
    · exact hbits i d
    · rw [at_out (by omega)]
      exact bit_out (by rw [hrl]; omega)
  · rw [if_pos (by simpa using c)]
    have hk : (n + 63) / 64 - 1 < (resizeList v.s ((n + 63) / 64) (if b then ones else 0)).length := by omega
    obtain ⟨w, e1, e2⟩ := ld_ok hk
    rw [e2, Res.ok_bind]
    simp only [st, if_pos hk, Res.ok_bind]
    refine ⟨_, rfl, ⟨hll.symm, by rw [hll]; simpa using hrl, fun i => ?_⟩⟩
    rw [bit_set hk]
    by_cases d : i / 64 = (n + 63) / 64 - 1
    · rw [if_pos d, BitVec.getLsbD_and, BitVec.getLsbD_not, himask_bit]
      have hj : i % 64 < 64 := Nat.mod_lt _ (by decide)
      by_cases e : i < n
      · rw [← hbits i e, bit_at' (by rw [d]; exact e1)]
        have : ¬ n % 64 ≤ i % 64 := by omega
        simp [hj, this]
      · rw [at_out (by omega)]
        have : n % 64 ≤ i % 64 := by omega
        simp [hj, this]
    · rw [if_neg d]
      by_cases e : i < n
      · exact hbits i e
      · rw [at_out (by omega)]
        exact bit_out (by rw [hrl]; omega)

theorem empty_sim : Sim { sz := 0, s := [] } [] := ⟨rfl, rfl, fun i => by unfold bit at'; simp⟩

theorem create_sim (n : Nat) (b : Bool) : ∃ v, Bv.create n b = .ok v ∧ Sim v (List.replicate n b) := by
  obtain ⟨v, h1, h2⟩ := resize_sim empty_sim n b
  rw [resized_eq (.inr (.inl rfl))] at h2
  refine ⟨v, h1, ?_⟩
  have : Spec.Bits.resize [] n b = List.replicate n b := by unfold Spec.Bits.resize; simp
  rw [← this]; exact h2

/-! ## All bits at once -/

theorem fill_sim {v : Bv} {l : List Bool} (h : Sim v l) (hne : l ≠ []) (b : Bool) :
    ∃ v', v.setAll b = .ok v' ∧ Sim v' (l.map fun _ => b) := by
  have hlen := h.len
  have hpos : 0 < l.length := List.length_pos_iff.2 hne
  have hat : ∀ i, at' (l.map fun _ => b) i = (decide (i < l.length) && b) := by
    intro i
    by_cases c : i < l.length
    · rw [at_get (by simpa using c)]; simp [c]
    · rw [at_out (by simp; omega)]; simp [c]
  unfold Bv.setAll Bv.fill
  simp only [slotCnt_eq, mod_eq, h.sz]
  obtain ⟨w0, _, e0⟩ := ld_ok (s := v.s) (i := 0) (by omega)
  rw [e0, Res.ok_bind, List.drop_of_length_le (by omega), List.append_nil]
  have hbit : ∀ i, bit (List.replicate ((l.length + 63) / 64) (if b then ones else 0)) i = (decide (i < 64 * ((l.length + 63) / 64)) && b) := by
    intro i
    by_cases c : i < 64 * ((l.length + 63) / 64)
    · have hj : i % 64 < 64 := Nat.mod_lt _ (by decide)
      rw [bit_at' (w := if b then ones else 0) (by rw [List.getElem?_replicate, if_pos (by omega)])]
      cases b with
      | true => simp [ones_bit, c, hj]
      | false => simp
    · rw [bit_out (by simp; omega)]; simp [c]
  by_cases c : b = true ∧ l.length % 64 ≠ 0
  · rw [if_pos c]
    obtain ⟨cb, c⟩ := c
    subst cb
    simp only [if_true] at hbit ⊢
    have hk : (l.length + 63) / 64 - 1 < (List.replicate ((l.length + 63) / 64) ones).length := by simp; omega
    have e1 : (List.replicate ((l.length + 63) / 64) ones)[(l.length + 63) / 64 - 1]? = some ones := by
      rw [List.getElem?_replicate, if_pos (by simpa using hk)]
    obtain ⟨w, e1', e2⟩ := ld_ok hk
    rw [e1] at e1'
    cases e1'
    rw [e2, Res.ok_bind]
    simp only [st, if_pos hk, Res.ok_bind]
    refine ⟨_, rfl, h.write' (by simp) (by simp [hlen]) (fun i hi => ?_)⟩
    rw [bit_set hk, hat]
    have hj : i % 64 < 64 := Nat.mod_lt _ (by decide)
    simp only [List.length_set, List.length_replicate] at hi
    by_cases d : i / 64 = (l.length + 63) / 64 - 1
    · rw [if_pos d, BitVec.getLsbD_and, BitVec.getLsbD_not, himask_bit, ones_bit]
      have : l.length % 64 ≤ i % 64 ↔ ¬ i < l.length := by omega
      simp only [hj, this, decide_true, Bool.true_and, decide_not, Bool.not_not, Bool.and_true]
    · rw [if_neg d, hbit]
      have : i < l.length := by omega
      simp [hi, this]
  · rw [if_neg c]
    refine ⟨_, rfl, h.write' (by simp) (by simp [hlen]) (fun i hi => ?_)⟩
    simp only [List.length_replicate] at hi
    rw [hbit, hat]
    cases b with
    | false => simp
    | true =>
      have : i < l.length := by simp at c; omega
      simp [hi, this]

theorem fullUp_map (f : Word → Word) : ∀ (n k : Nat) (s : List Word), k + n ≤ s.length →
    ∃ s', fullUp (fun _ t w _ => .ok (t, f w)) n k s () = .ok (s', ()) ∧ s'.length = s.length ∧
      ∀ (i : Nat), s'[i]? = if k ≤ i ∧ i < k + n then (s[i]?).map f else s[i]?
  | 0, k, s, _ => ⟨s, rfl, rfl, fun i => by rw [if_neg (by omega)]⟩
  | n + 1, k, s, h => by
    have hk : k < s.length := by omega
    obtain ⟨w, e1, e2⟩ := ld_ok hk
    have hu : ∃ s1, updFull (fun _ t w _ => .ok (t, f w)) k s () = .ok (s1, ()) ∧ s1 = s.set k (f w) := by
      unfold updFull
      rw [e2, Res.ok_bind]
      simp only [Res.ok_bind]
      by_cases c : w ≠ f w
      · rw [if_pos c]; simp only [st, if_pos hk, Res.ok_bind]; exact ⟨_, rfl, rfl⟩
      · rw [if_neg c]
        simp only [ne_eq, not_not] at c
        refine ⟨_, rfl, ?_⟩
        rw [← c]
        apply List.ext_getElem?
        intro i
        rw [List.getElem?_set]
        by_cases d : k = i
        · subst d; rw [if_pos rfl, if_pos hk, e1]
        · rw [if_neg d]
    obtain ⟨s1, e3, e4⟩ := hu
    obtain ⟨s', e5, e6, e7⟩ := fullUp_map f n (k + 1) s1 (by rw [e4]; simp; omega)
    refine ⟨s', ?_, by rw [e6, e4]; simp, fun i => ?_⟩
    · unfold fullUp; rw [e3, Res.ok_bind]; exact e5
    · rw [e7, e4, List.getElem?_set]
      by_cases c : k = i
      · subst c
        rw [if_neg (by omega), if_pos rfl, if_pos hk, if_pos (by omega), e1]; rfl
      · rw [if_neg c]
        by_cases d : k ≤ i ∧ i < k + (n + 1)
        · rw [if_pos d, if_pos (by omega)]
        · rw [if_neg d, if_neg (by omega)]

theorem flipAll_sim {v : Bv} {l : List Bool} (h : Sim v l) : ∃ v', v.flipAll = .ok v' ∧ Sim v' (l.map (! ·)) := by
  have hlen := h.len
  have hat : ∀ i, at' (l.map (! ·)) i = (decide (i < l.length) && !at' l i) := by
    intro i
    by_cases c : i < l.length
    · rw [at_get (by simpa using c), at_get c]; simp [c]
    · rw [at_out (by simp; omega)]; simp [c]
  unfold Bv.flipAll Bv.mapAll
  simp only [slotCnt_eq, mod_eq, h.sz]
  by_cases c : (l.length + 63) / 64 = 0
  · rw [if_pos c]
    have : l = [] := List.length_eq_zero_iff.1 (by omega)
    subst this
    exact ⟨v, rfl, h⟩
  rw [if_neg c]
  obtain ⟨s1, e1, e2, e3⟩ := fullUp_map (~~~ ·) ((l.length + 63) / 64 - 1) 0 v.s (by omega)
  rw [e1, Res.ok_bind]
  simp only
  have hk : (l.length + 63) / 64 - 1 < s1.length := by omega
  obtain ⟨w, e4, e5⟩ := ld_ok hk
  have e4' : v.s[(l.length + 63) / 64 - 1]? = some w := by rw [e3, if_neg (by omega)] at e4; exact e4
  rw [e5, Res.ok_bind]
  -- the last slot is always written with the new value
  have hmask : ∀ j, j < 64 → (if l.length % 64 ≠ 0 then himask l.length else 0#64).getLsbD j =
      !decide (64 * ((l.length + 63) / 64 - 1) + j < l.length) := by
    intro j hj
    by_cases d : l.length % 64 = 0
    · rw [if_neg (by simpa using d)]
      have : 64 * ((l.length + 63) / 64 - 1) + j < l.length := by omega
      simp [this]
    · rw [if_pos (by simpa using d), himask_bit]
      have : l.length % 64 ≤ j ↔ ¬ (64 * ((l.length + 63) / 64 - 1) + j < l.length) := by omega
      simp only [hj, this, decide_true, Bool.true_and, decide_not]
  have hw : ∀ j, j < 64 → w.getLsbD j = at' l (64 * ((l.length + 63) / 64 - 1) + j) := by
    intro j hj
    rw [← h.bits, bit_at e4' hj]
  have hsim : ∀ w' : Word, (∀ j, j < 64 → w'.getLsbD j = (decide (64 * ((l.length + 63) / 64 - 1) + j < l.length) && !w.getLsbD j)) →
      Sim { sz := l.length, s := s1.set ((l.length + 63) / 64 - 1) w' } (l.map (! ·)) := by
    intro w' hw'
    refine h.write' (by simp) (by simp [e2]) (fun i hi => ?_)
    simp only [List.length_set] at hi
    have hj : i % 64 < 64 := Nat.mod_lt _ (by decide)
    rw [bit_set hk, hat]
    by_cases d : i / 64 = (l.length + 63) / 64 - 1
    · rw [if_pos d, hw' _ hj, hw _ hj, show 64 * ((l.length + 63) / 64 - 1) + i % 64 = i by omega]
    · rw [if_neg d]
      have hi' : i < l.length := by omega
      obtain ⟨w2, f1, _, f3⟩ := slot_ld h hi'
      have : s1[i / 64]? = some (~~~ w2) := by rw [e3, if_pos (by omega), f1]; rfl
      rw [bit_at' this, BitVec.getLsbD_not, f3]
      simp [hj, hi']
  simp only [BitVec.ofNat_eq_ofNat]
  by_cases d : w ≠ ~~~(w &&& ~~~(if l.length % 64 ≠ 0 then himask l.length else 0#64))
  · rw [if_pos d]
    simp only [st, if_pos hk, Res.ok_bind]
    refine ⟨_, rfl, hsim _ (fun j hj => ?_)⟩
    rw [BitVec.getLsbD_and, BitVec.getLsbD_not, BitVec.getLsbD_and, BitVec.getLsbD_not, hmask j hj]
    by_cases e : 64 * ((l.length + 63) / 64 - 1) + j < l.length
    · simp [hj, e]
    · simp [hj, e]
  · -- a slot is never equal to its complement
    exfalso
    simp only [ne_eq, not_not] at d
    have hj0 : 64 * ((l.length + 63) / 64 - 1) + 0 < l.length := by omega
    have := congrArg (fun x => x.getLsbD 0) d
    simp only [BitVec.getLsbD_not, BitVec.getLsbD_and] at this
    rw [hmask 0 (by decide)] at this
    revert this
    simp only [hj0, decide_true, Bool.not_true, Bool.not_false, Bool.and_true, Bool.true_and, show (0 < 64) from by decide]
    cases w.getLsbD 0 <;> decide

/-! ## Words -/

theorem assignWord_sim {v : Bv} {l : List Bool} (h : Sim v l) {first last : Nat} (h1 : first ≤ last) (h2 : last ≤ l.length)
    (hs : last = first ∨ first / 64 = (last - 1) / 64) (val : Word) :
    ∃ v', v.assignWord first last val = .ok v' ∧ Sim v' (mapView l first last fun i _ => val.getLsbD (i - first)) := by
  unfold Bv.assignWord
  refine visit_up_map h h1 h2 (fun i => val.getLsbD (i - first)) (fun _ _ => True) trivial (fun lo hi s1 t1 w hseg _ _ _ _ => ?_)
  obtain ⟨g1, g2, g3, g4, g5, g6⟩ := hseg
  have hlo : lo = first := by
    rcases hs with e | e <;> omega
  subst hlo
  unfold shiftOf
  rw [if_pos rfl, if_pos (by omega)]
  refine ⟨_, _, rfl, trivial, fun j hj c1 c2 => ?_⟩
  rw [BitVec.getLsbD_shiftLeft, Int.toNat_natCast]
  have : ¬ j < lo % 64 := by omega
  rw [show j - lo % 64 = 64 * (lo / 64) + j - lo by omega]
  simp [hj, this]

/-- A word assigned to a view of at most 64 bits that is not inside one slot: the shift count is negative. -/
theorem assignWord_ub {v : Bv} {l : List Bool} (h : Sim v l) {first last : Nat} (h1 : first < last) (h2 : last ≤ l.length)
    (h3 : last - first ≤ 64) (hs : first / 64 ≠ (last - 1) / 64) (val : Word) : v.assignWord first last val = .ub := by
  have hroom := h.room
  unfold Bv.assignWord Bv.visit visit
  rw [if_neg (by omega)]
  simp only [slot_eq, mod_eq]
  rw [if_neg (by omega)]
  simp only [Bool.false_eq_true, not_false_eq_true, if_true]
  rw [if_pos (by omega)]
  obtain ⟨s1, t1, e1, e2, _⟩ := upd_seg (J := fun _ _ => True) (f := fun _ (t : Unit) _ shl => if 0 ≤ shl then Res.ok (t, val <<< shl.toNat) else .ub)
    (m := lowmask first) (sh := ((first % 64 : Nat) : Int)) (lo := first) (hi := 64 * (first / 64) + 64) (s := v.s) (t := ()) (by omega) (by omega) (by omega)
    (mask_low first) (fun w _ => ⟨(), val <<< (first % 64), by rw [if_pos (by omega), Int.toNat_natCast], fun _ _ => trivial⟩)
  rw [e1]
  simp only [Res.ok_bind]
  rw [show last / 64 - (first / 64 + 1) = 0 by omega]
  simp only [fullUp, Res.ok_bind]
  rw [if_pos (by omega)]
  obtain ⟨w, _, e4⟩ := ld_ok (s := s1) (i := last / 64) (by omega)
  unfold updMasked
  have hneg : ¬ (0 : Int) ≤ -((first % 64 : Nat) : Int) := by omega
  rw [e4, Res.ok_bind]
  simp only [hneg, if_false, Res.ub_bind]

/-- Bit `i` of a list of words. -/
def wordsBit (ws : List Word) (i : Nat) : Bool := bit ws i

theorem wordsBit_cons (w : Word) (ws : List Word) (i : Nat) :
    bit (w :: ws) i = if i < 64 then w.getLsbD i else bit ws (i - 64) := by
  unfold bit
  by_cases c : i < 64
  · rw [if_pos c, show i / 64 = 0 by omega, show i % 64 = i by omega]; rfl
  · rw [if_neg c, show i / 64 = (i - 64) / 64 + 1 by omega, show i % 64 = (i - 64) % 64 by omega, List.getElem?_cons_succ]

theorem mapView_mapView {l : List Bool} {a b c : Nat} (hab : a ≤ b) (hbc : b ≤ c) (g : Nat → Bool) :
    mapView (mapView l a b fun i _ => g i) b c (fun i _ => g i) = mapView l a c fun i _ => g i := by
  apply at_ext (by simp only [length_mapView])
  intro i hi
  simp only [length_mapView] at hi
  rw [at_mapView, length_mapView, at_mapView, at_mapView]
  by_cases d : i < l.length ∧ b ≤ i ∧ i < c
  · rw [if_pos d, if_pos (by omega)]
  · rw [if_neg d]
    by_cases e : i < l.length ∧ a ≤ i ∧ i < b
    · rw [if_pos e, if_pos (by omega)]
    · rw [if_neg e, if_neg (by omega)]

theorem mapView_empty {l : List Bool} {a b : Nat} (h : b ≤ a) (g : Nat → Bool → Bool) : mapView l a b g = l := by
  apply at_ext (length_mapView _ _ _ _)
  intro i _
  rw [at_mapView, if_neg (by omega)]

theorem viewAssignWords_sim : ∀ (ws : List Word) {v : Bv} {l : List Bool} (_ : Sim v l) {first last : Nat} (_ : first ≤ last)
    (_ : last ≤ l.length) (_ : first % 64 = 0 ∨ first / 64 = (last - 1) / 64 ∨ first = last),
    ∃ v', v.viewAssignWords last first ws = .ok v' ∧
      Sim v' (mapView l first (min last (first + 64 * ws.length)) fun i _ => bit ws (i - first))
  | [], v, l, h, first, last, h1, h2, hs => by
    refine ⟨v, rfl, ?_⟩
    rw [mapView_empty (by simp only [List.length_nil]; omega)]; exact h
  | w :: ws, v, l, h, first, last, h1, h2, hs => by
    unfold Bv.viewAssignWords
    rw [if_pos h1]
    obtain ⟨v1, e1, e2⟩ := assignWord_sim h (first := first) (last := min last (first + 64)) (by omega) (by omega) (by omega) w
    dsimp only
    rw [e1, Res.ok_bind]
    obtain ⟨v2, e3, e4⟩ := viewAssignWords_sim ws e2 (first := min last (first + 64)) (last := last) (by omega)
      (by rw [length_mapView]; exact h2) (by omega)
    refine ⟨v2, e3, ?_⟩
    have a1 : (mapView l first (min last (first + 64)) fun i _ => w.getLsbD (i - first)) =
        mapView l first (min last (first + 64)) fun i _ => bit (w :: ws) (i - first) := by
      apply mapView_congr
      intro i _ b1 b2
      rw [wordsBit_cons, if_pos (by omega)]
    rw [a1] at e4
    have a2 : ∀ l' : List Bool, (mapView l' (min last (first + 64)) (min last (min last (first + 64) + 64 * ws.length)) fun i _ =>
        bit ws (i - min last (first + 64))) = mapView l' (min last (first + 64)) (min last (first + 64 * (w :: ws).length)) fun i _ => bit (w :: ws) (i - first) := by
      intro l'
      rw [show min last (min last (first + 64) + 64 * ws.length) = min last (first + 64 * (w :: ws).length) by
        simp only [List.length_cons]; omega]
      apply mapView_congr
      intro i _ b1 b2
      have hb : first + 64 ≤ i := by omega
      rw [wordsBit_cons, if_neg (by omega), show i - first - 64 = i - min last (first + 64) by omega]
    rw [a2, mapView_mapView (by omega) (by simp only [List.length_cons]; omega)] at e4
    exact e4

theorem visit_empty {τ : Type} {f : Upd τ} {v : Bv} {b : Bool} {first last : Nat} {t : τ} (h : last ≤ first) : v.visit b first last f t = .ok v := by
  unfold Bv.visit visit
  rw [if_pos h]; rfl

theorem assignWords_sim : ∀ (ws : List Word) {v : Bv} {l : List Bool} (_ : Sim v l) (k : Nat),
    ∃ v', v.assignWords k ws = .ok v' ∧ Sim v' (mapView l (64 * k) (64 * (k + ws.length)) fun i _ => bit ws (i - 64 * k))
  | [], v, l, h, k => ⟨v, rfl, by rw [mapView_empty (by simp)]; exact h⟩
  | w :: ws, v, l, h, k => by
    unfold Bv.assignWords
    rw [h.sz]
    have hw : ∃ v1, v.assignWord (k * 64) (min ((k + 1) * 64) l.length) w = .ok v1 ∧
        Sim v1 (mapView l (64 * k) (64 * (k + 1)) fun i _ => bit (w :: ws) (i - 64 * k)) := by
      by_cases c : min ((k + 1) * 64) l.length ≤ k * 64
      · refine ⟨v, visit_empty c, ?_⟩
        have : (mapView l (64 * k) (64 * (k + 1)) fun i _ => bit (w :: ws) (i - 64 * k)) = l := by
          apply at_ext (length_mapView _ _ _ _)
          intro i hi
          rw [length_mapView] at hi
          rw [at_mapView, if_neg (by omega)]
        rw [this]; exact h
      · obtain ⟨v1, e1, e2⟩ := assignWord_sim h (first := k * 64) (last := min ((k + 1) * 64) l.length) (by omega) (by omega) (by omega) w
        refine ⟨v1, e1, ?_⟩
        have : (mapView l (64 * k) (64 * (k + 1)) fun i _ => bit (w :: ws) (i - 64 * k)) =
            mapView l (k * 64) (min ((k + 1) * 64) l.length) fun i _ => w.getLsbD (i - k * 64) := by
          apply at_ext (by simp only [length_mapView])
          intro i hi
          rw [length_mapView] at hi
          rw [at_mapView, at_mapView]
          by_cases d : i < l.length ∧ 64 * k ≤ i ∧ i < 64 * (k + 1)
          · rw [if_pos d, if_pos (by omega), wordsBit_cons, if_pos (by omega), Nat.mul_comm]
          · rw [if_neg d, if_neg (by omega)]
        rw [this]; exact e2
    obtain ⟨v1, e1, e2⟩ := hw
    rw [e1, Res.ok_bind]
    obtain ⟨v2, e3, e4⟩ := assignWords_sim ws e2 (k + 1)
    refine ⟨v2, e3, ?_⟩
    have a2 : ∀ l' : List Bool, (mapView l' (64 * (k + 1)) (64 * (k + 1 + ws.length)) fun i _ => bit ws (i - 64 * (k + 1))) =
        mapView l' (64 * (k + 1)) (64 * (k + (w :: ws).length)) fun i _ => bit (w :: ws) (i - 64 * k) := by
      intro l'
      rw [show k + 1 + ws.length = k + (w :: ws).length by simp only [List.length_cons]; omega]
      apply mapView_congr
      intro i _ b1 b2
      rw [wordsBit_cons, if_neg (by omega), show i - 64 * k - 64 = i - 64 * (k + 1) by omega]
    rw [a2, mapView_mapView (by omega) (by simp only [List.length_cons]; omega)] at e4
    exact e4

theorem ofWords_sim (ws : List Word) : ∃ v, Bv.ofWords ws = .ok v ∧ Sim v ((List.range (64 * ws.length)).map fun i => bit ws i) := by
  unfold Bv.ofWords
  obtain ⟨v, e1, e2⟩ := create_sim (ws.length * 64) false
  rw [e1, Res.ok_bind]
  obtain ⟨v', e3, e4⟩ := assignWords_sim ws e2 0
  refine ⟨v', e3, ?_⟩
  have : (mapView (List.replicate (ws.length * 64) false) (64 * 0) (64 * (0 + ws.length)) fun i _ => bit ws (i - 64 * 0)) =
      (List.range (64 * ws.length)).map fun i => bit ws i := by
    apply at_ext (by rw [length_mapView]; simp; omega)
    intro i hi
    rw [length_mapView] at hi
    simp only [List.length_replicate] at hi
    rw [at_mapView, at_range, if_pos (by simp; omega)]
    have : i < 64 * ws.length := by omega
    simp [this]
  rw [← this]; exact e4

theorem assignView_sim {v : Bv} {l : List Bool} {o : Option Bv} {lo : Option (List Bool)} (h : Sim v l) (ho : SimO l o lo)
    {first last ofirst olast : Nat} (h1 : first ≤ last) (h2 : last ≤ l.length) (h3 : ofirst ≤ olast) (h4 : olast ≤ (srcBits l lo).length)
    (h5 : olast - ofirst = last - first) (hal : o = none → first ≤ ofirst ∨ olast = first) :
    ∃ v', v.assignView first last o ofirst olast = .ok v' ∧ Sim v' (combine (fun _ y => y) l first last (srcBits l lo) ofirst) := by
  unfold Bv.assignView
  cases o with
  | some o =>
    rw [if_pos (.inl rfl)]
    exact copyView_sim h ho h1 h2 h3 h4 h5 (by simp)
  | none =>
    have := hal rfl
    rw [if_pos (by omega)]
    exact copyView_sim h ho h1 h2 h3 h4 h5 (fun _ => by omega)

end Gtl.Bits
