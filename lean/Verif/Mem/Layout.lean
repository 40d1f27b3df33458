/-!
# Model of `Layout` and `Allocate` (gtl_base.hpp:251-645, 899-925)

Several arrays one after the other in one block of memory. `size_t` is `BitVec 64`, so the arithmetic wraps around as in
the code. A layout is the list of its element types with the number of elements of each.
-/

namespace Gtl.Mem

/-- `size_t`. -/
abbrev U64 := BitVec 64

/-- `sizeof` and `alignof` of an element type (`SizeOf`, `AlignOf`, gtl_base.hpp:275-306). -/
structure Elt where
  size : U64
  align : U64
  deriving DecidableEq, Repr, Inhabited

/-- `IsPow2` (gtl_base.hpp:331). -/
def isPow2 (n : U64) : Bool := (n &&& (n - 1)) == 0

/-- `Align` (gtl_base.hpp:335). -/
def align (n m : U64) : U64 := (n + m - 1) &&& ~~~(m - 1)

/-- `Max` (gtl_base.hpp:339-344). -/
def maxOf : U64 → List U64 → U64
  | a, [] => a
  | a, b :: rest => maxOf (if b < a then a else b) rest

/-- The element types and `size_`. -/
abbrev Layout := List (Elt × U64)

namespace Layout

/-- Element type `n`. -/
def elt (L : Layout) (n : Nat) : Elt := (L.getD n default).1
/-- `size_[n]` (gtl_base.hpp:469, 597). -/
def count (L : Layout) (n : Nat) : U64 := (L.getD n default).2

/-- `Alignment()` (gtl_base.hpp:416). -/
def alignment : Layout → U64
  | [] => 0
  | x :: xs => maxOf x.1.align (xs.map fun y => y.1.align)

/-- `Offset<N>()` (gtl_base.hpp:427-437). -/
def offset (L : Layout) : Nat → U64
  | 0 => 0
  | n + 1 => align (offset L n + (elt L n).size * count L n) (elt L (n + 1)).align

/-- `AllocSize()` (gtl_base.hpp:556-559). -/
def allocSize (L : Layout) : U64 := offset L (L.length - 1) + (elt L (L.length - 1)).size * count L (L.length - 1)

end Layout

/-- The number of objects of type `M` that `Allocate<Alignment>(alloc, n)` and `Deallocate` pass on
(gtl_base.hpp:899-925): `(n + sizeof(M) - 1) / sizeof(M)`. `M` is an empty struct with that alignment, so that
`sizeof(M) == Alignment`. -/
def blocks (alignment n : U64) : U64 := (n + alignment - 1) / alignment

/-- The number of bytes the allocator provides for it. It is an unbounded number: an allocator that is asked for more
than there can be throws. -/
def blockBytes (alignment n : U64) : Nat := (blocks alignment n).toNat * alignment.toNat

/-! ## The arithmetic -/

theorem and_not_mask (x : U64) (k : Nat) (hk : k < 64) :
    x &&& ~~~(BitVec.twoPow 64 k - 1) = (x >>> k) <<< k := by
  have hm : ∀ i, (BitVec.twoPow 64 k - 1).getLsbD i = (decide (i < k)) := by
    intro i
    have : BitVec.twoPow 64 k - 1#64 = BitVec.ofNat 64 (2 ^ k - 1) := by
      apply BitVec.eq_of_toNat_eq
      have h2 : 2 ^ k < 2 ^ 64 := Nat.pow_lt_pow_right (by decide) hk
      have h1 : 0 < 2 ^ k := Nat.pow_pos (by decide)
      simp only [BitVec.toNat_sub, BitVec.toNat_twoPow, BitVec.toNat_ofNat, Nat.mod_eq_of_lt h2]
      omega
    show (BitVec.twoPow 64 k - 1#64).getLsbD i = _
    rw [this]
    simp only [BitVec.getLsbD_ofNat, Nat.testBit_two_pow_sub_one]
    by_cases hi : i < k <;> simp [hi]; omega
  apply BitVec.eq_of_getLsbD_eq
  intro i hi
  simp only [BitVec.getLsbD_and, BitVec.getLsbD_not, hm, BitVec.getLsbD_shiftLeft, BitVec.getLsbD_ushiftRight]
  by_cases h : i < k
  · simp [h]
  · simp only [h, hi, decide_true, decide_false, Bool.not_false, Bool.and_true, Bool.true_and]
    congr 1; omega

/-- `Align` rounds up, when there is no overflow. -/
theorem align_toNat {n m : U64} {k : Nat} (hk : k < 64) (hm : m.toNat = 2 ^ k) (h : n.toNat + m.toNat ≤ 2 ^ 64) :
    (align n m).toNat = (n.toNat + m.toNat - 1) / m.toNat * m.toNat := by
  have hm' : m = BitVec.twoPow 64 k := by
    apply BitVec.eq_of_toNat_eq
    rw [BitVec.toNat_twoPow, Nat.mod_eq_of_lt (Nat.pow_lt_pow_right (by decide) hk), hm]
  have h1 : 0 < m.toNat := by rw [hm]; exact Nat.pow_pos (by decide)
  have e : (n + m - 1).toNat = n.toNat + m.toNat - 1 := by
    have := n.isLt; have := m.isLt
    have h1' : (1 : U64).toNat = 1 := rfl
    simp only [BitVec.toNat_sub, BitVec.toNat_add]
    omega
  unfold align
  rw [show ~~~(m - 1) = ~~~(BitVec.twoPow 64 k - 1) by rw [hm'], and_not_mask _ _ hk]
  have hlt : (n + m - 1).toNat / 2 ^ k * 2 ^ k < 2 ^ 64 :=
    Nat.lt_of_le_of_lt (Nat.div_mul_le_self _ _) (n + m - 1).isLt
  rw [BitVec.toNat_shiftLeft, BitVec.toNat_ushiftRight, Nat.shiftLeft_eq, Nat.shiftRight_eq_div_pow, Nat.mod_eq_of_lt hlt, e, hm]

theorem blocks_toNat {a n : U64} (ha : 0 < a.toNat) (h : n.toNat + a.toNat ≤ 2 ^ 64) :
    (blocks a n).toNat = (n.toNat + a.toNat - 1) / a.toNat := by
  unfold blocks
  rw [BitVec.toNat_udiv]
  congr 1
  have := n.isLt; have := a.isLt
  have h1' : (1 : U64).toNat = 1 := rfl
  simp only [BitVec.toNat_sub, BitVec.toNat_add]
  omega

/-- Rounding up in numbers. -/
theorem roundUp_spec {n m : Nat} (hm : 0 < m) :
    (n + m - 1) / m * m % m = 0 ∧ n ≤ (n + m - 1) / m * m ∧ (n + m - 1) / m * m < n + m := by
  have h1 := Nat.div_add_mod (n + m - 1) m
  have h2 := Nat.mod_lt (n + m - 1) hm
  have h3 : (n + m - 1) / m * m = m * ((n + m - 1) / m) := Nat.mul_comm _ _
  refine ⟨Nat.mul_mod_left _ _, ?_, ?_⟩ <;> omega

/-! ## Layouts -/

/-- What C++ guarantees about an object type (`IsLegalElementType`, gtl_base.hpp:353-358): the alignment is a power of two
and divides the size, which is not zero. -/
structure Elt.Legal (e : Elt) : Prop where
  size_pos : 0 < e.size.toNat
  pow2 : ∃ k, k < 64 ∧ e.align.toNat = 2 ^ k
  dvd : e.align.toNat ∣ e.size.toNat

namespace Layout

/-- An upper bound for the number of bytes, without wrap-around. -/
def need (L : Layout) : Nat := (L.map fun x => x.1.size.toNat * x.2.toNat + x.1.align.toNat).sum

theorem need_take_succ (L : Layout) {n : Nat} (hn : n < L.length) :
    need (L.take (n + 1)) = need (L.take n) + ((elt L n).size.toNat * (count L n).toNat + (elt L n).align.toNat) := by
  unfold need elt count
  rw [List.take_add_one, List.map_append, List.sum_append]
  simp [List.getElem?_eq_getElem hn]

theorem need_take_le (L : Layout) (n : Nat) : need (L.take n) ≤ need L := by
  have : need L = need (L.take n ++ L.drop n) := by rw [List.take_append_drop]
  rw [this]
  unfold need
  rw [List.map_append, List.sum_append]
  omega

theorem elt_legal {L : Layout} (hl : ∀ x ∈ L, x.1.Legal) {n : Nat} (hn : n < L.length) : (elt L n).Legal := by
  unfold elt
  rw [List.getD_eq_getElem?_getD, List.getElem?_eq_getElem hn]
  exact hl _ (List.getElem_mem hn)

/-- One step: the end of array `n` and the beginning of the next one. -/
theorem offset_bound {L : Layout} (hl : ∀ x ∈ L, x.1.Legal) (hf : need L ≤ 2 ^ 64) :
    ∀ {n : Nat}, n < L.length → (offset L n).toNat + (elt L n).size.toNat * (count L n).toNat + 1 ≤ need (L.take (n + 1)) ∧
      (offset L n + (elt L n).size * count L n).toNat = (offset L n).toNat + (elt L n).size.toNat * (count L n).toNat
  | 0, hn => by
    have h1 := need_take_succ L hn
    have h2 := need_take_le L 1
    obtain ⟨k, _, hk⟩ := (elt_legal hl hn).pow2
    have hp : 0 < 2 ^ k := Nat.pow_pos (by decide)
    have h3 : (elt L 0).size.toNat * (count L 0).toNat + 1 ≤ need (L.take 1) := by
      rw [Nat.zero_add] at h1
      omega
    refine ⟨by simpa [offset] using h3, ?_⟩
    have h0 : (0 : U64).toNat = 0 := rfl
    simp only [offset, BitVec.toNat_add, BitVec.toNat_mul, h0, Nat.zero_add, Nat.mod_mod]
    omega
  | n + 1, hn => by
    obtain ⟨ih1, ih2⟩ := offset_bound hl hf (show n < L.length by omega)
    have h1 := need_take_succ L hn
    have h2 := need_take_le L (n + 1 + 1)
    obtain ⟨k, hk1, hk⟩ := (elt_legal hl hn).pow2
    have hp : 0 < 2 ^ k := Nat.pow_pos (by decide)
    have hs : (offset L (n + 1)).toNat = ((offset L n + (elt L n).size * count L n).toNat + (elt L (n + 1)).align.toNat - 1) /
        (elt L (n + 1)).align.toNat * (elt L (n + 1)).align.toNat := by
      rw [offset]
      exact align_toNat hk1 hk (by rw [ih2]; omega)
    have hr := roundUp_spec (n := (offset L n + (elt L n).size * count L n).toNat) (m := (elt L (n + 1)).align.toNat) (by omega)
    rw [← hs] at hr
    have h3 : (offset L (n + 1)).toNat + (elt L (n + 1)).size.toNat * (count L (n + 1)).toNat + 1 ≤ need (L.take (n + 1 + 1)) := by
      omega
    refine ⟨h3, ?_⟩
    simp only [BitVec.toNat_add, BitVec.toNat_mul]
    omega

theorem offset_step {L : Layout} (hl : ∀ x ∈ L, x.1.Legal) (hf : need L ≤ 2 ^ 64) {n : Nat} (hn : n + 1 < L.length) :
    (offset L (n + 1)).toNat % (elt L (n + 1)).align.toNat = 0 ∧
      (offset L n).toNat + (elt L n).size.toNat * (count L n).toNat ≤ (offset L (n + 1)).toNat ∧
      (offset L (n + 1)).toNat < (offset L n).toNat + (elt L n).size.toNat * (count L n).toNat + (elt L (n + 1)).align.toNat := by
  obtain ⟨ih1, ih2⟩ := offset_bound hl hf (show n < L.length by omega)
  have h1 := need_take_succ L hn
  have h2 := need_take_le L (n + 1 + 1)
  obtain ⟨k, hk1, hk⟩ := (elt_legal hl hn).pow2
  have hp : 0 < 2 ^ k := Nat.pow_pos (by decide)
  have hs : (offset L (n + 1)).toNat = ((offset L n + (elt L n).size * count L n).toNat + (elt L (n + 1)).align.toNat - 1) /
      (elt L (n + 1)).align.toNat * (elt L (n + 1)).align.toNat := by
    rw [offset]
    exact align_toNat hk1 hk (by rw [ih2]; omega)
  have hr := roundUp_spec (n := (offset L n + (elt L n).size * count L n).toNat) (m := (elt L (n + 1)).align.toNat) (by omega)
  rw [← hs, ih2] at hr
  exact hr

theorem offset_aligned {L : Layout} (hl : ∀ x ∈ L, x.1.Legal) (hf : need L ≤ 2 ^ 64) {n : Nat} (hn : n < L.length) :
    (offset L n).toNat % (elt L n).align.toNat = 0 := by
  cases n with
  | zero => simp [offset]
  | succ n => exact (offset_step hl hf hn).1

theorem offset_le {L : Layout} (hl : ∀ x ∈ L, x.1.Legal) (hf : need L ≤ 2 ^ 64) {n : Nat} : ∀ {m : Nat}, n < m → m < L.length →
    (offset L n).toNat + (elt L n).size.toNat * (count L n).toNat ≤ (offset L m).toNat
  | 0, h, _ => by omega
  | m + 1, h, hm => by
    have hs := (offset_step hl hf hm).2.1
    by_cases e : n = m
    · subst e; exact hs
    · have := offset_le hl hf (show n < m by omega) (show m < L.length by omega)
      omega

theorem allocSize_toNat {L : Layout} (hl : ∀ x ∈ L, x.1.Legal) (hf : need L ≤ 2 ^ 64) (hne : L ≠ []) :
    (allocSize L).toNat = (offset L (L.length - 1)).toNat + (elt L (L.length - 1)).size.toNat * (count L (L.length - 1)).toNat := by
  have := List.length_pos_iff.2 hne
  exact (offset_bound hl hf (show L.length - 1 < L.length by omega)).2

theorem allocSize_lt {L : Layout} (hl : ∀ x ∈ L, x.1.Legal) (hf : need L ≤ 2 ^ 64) (hne : L ≠ []) {n : Nat} (hn : n < L.length) :
    (offset L n).toNat + (elt L n).size.toNat * (count L n).toNat ≤ (allocSize L).toNat := by
  rw [allocSize_toNat hl hf hne]
  by_cases e : n = L.length - 1
  · subst e; exact Nat.le_refl _
  · have := offset_le hl hf (show n < L.length - 1 by omega) (show L.length - 1 < L.length by omega)
    omega

/-! The alignment of the block -/

theorem maxOf_spec : ∀ (l : List U64) (a : U64), (maxOf a l = a ∨ maxOf a l ∈ l) ∧ a.toNat ≤ (maxOf a l).toNat ∧
    ∀ b ∈ l, b.toNat ≤ (maxOf a l).toNat
  | [], a => ⟨.inl rfl, Nat.le_refl _, by simp⟩
  | b :: l, a => by
    unfold maxOf
    by_cases h : b < a
    · rw [if_pos h]
      obtain ⟨h1, h2, h3⟩ := maxOf_spec l a
      have : b.toNat < a.toNat := h
      refine ⟨?_, h2, ?_⟩
      · rcases h1 with e | e
        · exact .inl e
        · exact .inr (List.mem_cons_of_mem _ e)
      · intro c hc
        rcases List.mem_cons.1 hc with rfl | hc
        · omega
        · exact h3 c hc
    · rw [if_neg h]
      obtain ⟨h1, h2, h3⟩ := maxOf_spec l b
      have : ¬ b.toNat < a.toNat := h
      refine ⟨?_, by omega, ?_⟩
      · rcases h1 with e | e
        · exact .inr (by rw [e]; exact List.mem_cons_self)
        · exact .inr (List.mem_cons_of_mem _ e)
      · intro c hc
        rcases List.mem_cons.1 hc with rfl | hc
        · exact h2
        · exact h3 c hc

theorem alignment_spec {L : Layout} (hne : L ≠ []) : (∃ x ∈ L, alignment L = x.1.align) ∧
    ∀ x ∈ L, x.1.align.toNat ≤ (alignment L).toNat := by
  cases L with
  | nil => exact absurd rfl hne
  | cons x xs =>
    obtain ⟨h1, h2, h3⟩ := maxOf_spec (xs.map fun y => y.1.align) x.1.align
    refine ⟨?_, ?_⟩
    · rcases h1 with e | e
      · exact ⟨x, List.mem_cons_self, e⟩
      · obtain ⟨y, hy, e⟩ := List.mem_map.1 e
        exact ⟨y, List.mem_cons_of_mem _ hy, e.symm⟩
    · intro y hy
      rcases List.mem_cons.1 hy with rfl | hy
      · exact h2
      · exact h3 _ (List.mem_map_of_mem hy)

theorem alignment_dvd {L : Layout} (hl : ∀ x ∈ L, x.1.Legal) (hne : L ≠ []) {x : Elt × U64} (hx : x ∈ L) :
    x.1.align.toNat ∣ (alignment L).toNat := by
  obtain ⟨⟨y, hy, e⟩, h2⟩ := alignment_spec hne
  have := h2 x hx
  rw [e] at this ⊢
  obtain ⟨i, _, hi⟩ := (hl x hx).pow2
  obtain ⟨j, _, hj⟩ := (hl y hy).pow2
  rw [hi, hj] at this ⊢
  exact Nat.pow_dvd_pow 2 ((Nat.pow_le_pow_iff_right (by decide)).1 this)

end Layout

end Gtl.Mem
