import Verif.Mem.Layout
/-!
# Model of the memory of B-tree nodes (btree.hpp:626-642, 856-912)

`sizeof(void*) == 8`. The target size is a non-negative `int`; the computations are done by the compiler.
-/

namespace Gtl.Mem

/-- Template parameters: `TargetNodeSize`, and size and alignment of `slot_type`. -/
structure NodeCfg where
  target : U64
  slot : Elt

namespace NodeCfg
variable (c : NodeCfg)

/-- `btree_node*`. -/
def ptr : Elt := ⟨8, 8⟩

/-- `kNodeSlotSpace` (btree.hpp:633); the subtraction is unsigned. -/
def slotSpace : U64 := c.target - (8 + 4)

/-- `sizeof(node_count_type)` (btree.hpp:639-642): `uint16_t` or `uint8_t`. -/
def fieldSize : U64 := if c.slotSpace / c.slot.size > 255 then 2 else 1

/-- `field_type` (btree.hpp:812). -/
def field : Elt := ⟨c.fieldSize, c.fieldSize⟩

/-- `layout_type` (btree.hpp:856): parent; position, start, count, max_count; values; children. -/
def nodeLayout (values children : U64) : Layout := [(ptr, 1), (c.field, 4), (c.slot, values), (ptr, children)]

/-- `SizeWithNValues` (btree.hpp:857-863), and `LeafSize` (897-911). -/
def leafSize (n : Nat) : U64 := (c.nodeLayout (BitVec.ofNat 64 n) 0).allocSize

/-- `NodeTargetValues` (btree.hpp:872-877). The first argument bounds the depth of the recursion. -/
def targetValues : Nat → Nat → Nat → Nat
  | 0, b, _ => b
  | f + 1, b, e =>
    if b = e then b
    else if c.leafSize ((b + e) / 2 + 1) > c.target then targetValues f b ((b + e) / 2)
    else targetValues f ((b + e) / 2 + 1) e

/-- `kNodeTargetValues`, `kNodeValues` (btree.hpp:881-887). -/
def nodeValues : Nat :=
  if c.targetValues (c.target.toNat + 1) 0 c.target.toNat ≥ 3 then c.targetValues (c.target.toNat + 1) 0 c.target.toNat else 3

/-- `LeafLayout(max_values)` (btree.hpp:897-902). -/
def leafLayout (n : Nat) : Layout := c.nodeLayout (BitVec.ofNat 64 n) 0

/-- `InternalLayout()` (btree.hpp:903-908). -/
def internalLayout : Layout := c.nodeLayout (BitVec.ofNat 64 c.nodeValues) (BitVec.ofNat 64 (c.nodeValues + 1))

/-- `(field_type)v`. -/
def toField (v : Nat) : Nat := v % 2 ^ (8 * c.fieldSize.toNat)

/-- The slot type is an object type of less than 4 GB, and the target size is an `int`. -/
structure Legal : Prop where
  slot : c.slot.Legal
  small : c.slot.size.toNat < 2 ^ 32
  target : c.target.toNat < 2 ^ 31

variable {c}

theorem fieldSize_cases (c : NodeCfg) : c.fieldSize = 1 ∨ c.fieldSize = 2 := by
  unfold fieldSize; split
  · exact .inr rfl
  · exact .inl rfl

theorem ptr_legal : ptr.Legal := ⟨by decide, ⟨3, by decide, by decide⟩, ⟨1, by decide⟩⟩

theorem field_legal (c : NodeCfg) : c.field.Legal := by
  unfold field
  rcases c.fieldSize_cases with e | e <;> rw [e]
  · exact ⟨by decide, ⟨0, by decide, by decide⟩, ⟨1, by decide⟩⟩
  · exact ⟨by decide, ⟨1, by decide, by decide⟩, ⟨1, by decide⟩⟩

theorem layout_legal (h : c.Legal) (n k : U64) : ∀ x ∈ c.nodeLayout n k, x.1.Legal := by
  intro x hx
  simp only [nodeLayout, List.mem_cons, List.not_mem_nil, or_false] at hx
  rcases hx with rfl | rfl | rfl | rfl
  · exact ptr_legal
  · exact field_legal c
  · exact h.slot
  · exact ptr_legal

theorem align_le (h : c.Legal) : c.slot.align.toNat ≤ c.slot.size.toNat := Nat.le_of_dvd h.slot.size_pos h.slot.dvd

theorem need_layout' (h : c.Legal) {n k : U64} (hn : n.toNat ≤ 2 ^ 31) (hk : k.toNat ≤ 2 ^ 31 + 1) :
    (c.nodeLayout n k).need + 2 ^ 33 ≤ 2 ^ 64 := by
  have hs := h.small
  have ha := align_le h
  have hm : c.slot.size.toNat * n.toNat ≤ 2 ^ 32 * 2 ^ 31 := Nat.mul_le_mul (Nat.le_of_lt hs) hn
  have hf : c.fieldSize.toNat ≤ 2 := by rcases c.fieldSize_cases with e | e <;> rw [e] <;> decide
  have e1 : (1 : U64).toNat = 1 := rfl
  have e4 : (4 : U64).toNat = 4 := rfl
  have e8 : (8 : U64).toNat = 8 := rfl
  simp only [nodeLayout, Layout.need, List.map_cons, List.map_nil, List.sum_cons, List.sum_nil, ptr, field, e1, e4, e8]
  omega

theorem need_layout (h : c.Legal) {n k : U64} (hn : n.toNat ≤ 2 ^ 31) (hk : k.toNat ≤ 2 ^ 31 + 1) : (c.nodeLayout n k).need ≤ 2 ^ 64 := by
  have := need_layout' h hn hk
  omega

/-- Where the values begin. -/
theorem offset_two_eq (c : NodeCfg) (n k n' k' : U64) {i : Nat} (hi : i < 3) :
    (c.nodeLayout n k).offset i = (c.nodeLayout n' k').offset i := by
  have h : i = 0 ∨ i = 1 ∨ i = 2 := by omega
  rcases h with rfl | rfl | rfl <;> rfl

/-- The offset of the values. -/
def start (c : NodeCfg) : Nat := ((c.nodeLayout 0 0).offset 2).toNat

theorem start_ge (h : c.Legal) : 8 + 4 * c.fieldSize.toNat ≤ c.start := by
  have hn : (0 : U64).toNat ≤ 2 ^ 31 := by decide
  have h1 := (Layout.offset_step (layout_legal h 0 0) (need_layout h hn (by decide)) (n := 1) (by unfold nodeLayout; simp)).2.1
  have h0 := (Layout.offset_step (layout_legal h 0 0) (need_layout h hn (by decide)) (n := 0) (by unfold nodeLayout; simp)).2.1
  unfold start
  rw [show 1 + 1 = 2 from rfl] at h1
  rw [show 0 + 1 = 1 from rfl] at h0
  have e0 : ((c.nodeLayout 0 0).offset 0).toNat + ((c.nodeLayout 0 0).elt 0).size.toNat * ((c.nodeLayout 0 0).count 0).toNat = 8 := rfl
  have e1 : ((c.nodeLayout 0 0).elt 1).size.toNat * ((c.nodeLayout 0 0).count 1).toNat = c.fieldSize.toNat * 4 := rfl
  omega

/-- The size of a leaf: the values follow `start`, and the end is aligned. -/
theorem leafSize_eq (h : c.Legal) {n : Nat} (hn : n ≤ 2 ^ 31) :
    c.start + c.slot.size.toNat * n ≤ (c.leafSize n).toNat ∧ (c.leafSize n).toNat < c.start + c.slot.size.toNat * n + 8 ∧
      (c.leafSize n).toNat % 8 = 0 := by
  have hb : (BitVec.ofNat 64 n).toNat = n := by rw [BitVec.toNat_ofNat]; omega
  have hl := layout_legal h (BitVec.ofNat 64 n) 0
  have hf := need_layout h (n := BitVec.ofNat 64 n) (k := 0) (by omega) (by decide)
  have hst := Layout.offset_step hl hf (n := 2) (by unfold nodeLayout; simp)
  have hsz := Layout.allocSize_toNat hl hf (by unfold nodeLayout; simp)
  have e3 : ((c.nodeLayout (BitVec.ofNat 64 n) 0).elt 3).size.toNat * ((c.nodeLayout (BitVec.ofNat 64 n) 0).count 3).toNat = 0 := rfl
  have el : (c.nodeLayout (BitVec.ofNat 64 n) 0).length - 1 = 3 := rfl
  have ea : ((c.nodeLayout (BitVec.ofNat 64 n) 0).elt 3).align.toNat = 8 := rfl
  have e2 : ((c.nodeLayout (BitVec.ofNat 64 n) 0).elt 2).size = c.slot.size := rfl
  have ec : ((c.nodeLayout (BitVec.ofNat 64 n) 0).count 2) = BitVec.ofNat 64 n := rfl
  have es : ((c.nodeLayout (BitVec.ofNat 64 n) 0).offset 2).toNat = c.start := by
    unfold start; rw [offset_two_eq c _ _ 0 0 (by decide)]
  rw [el, e3] at hsz
  rw [show 2 + 1 = 3 from rfl, ea, e2, ec, hb, es] at hst
  unfold leafSize
  omega

theorem leafSize_mono (h : c.Legal) {n m : Nat} (hn : n ≤ m) (hm : m ≤ 2 ^ 31) : (c.leafSize n).toNat ≤ (c.leafSize m).toNat := by
  have h1 := leafSize_eq h (n := n) (by omega)
  have h2 := leafSize_eq h hm
  have := Nat.mul_le_mul_left c.slot.size.toNat hn
  omega

/-- Bisection. -/
theorem targetValues_spec (h : c.Legal) : ∀ (f b e : Nat), b ≤ e → e - b < f → e < 2 ^ 31 →
    b ≤ c.targetValues f b e ∧ c.targetValues f b e ≤ e ∧
      (b < c.targetValues f b e → (c.leafSize (c.targetValues f b e)).toNat ≤ c.target.toNat) ∧
      (c.targetValues f b e < e → c.target.toNat < (c.leafSize (c.targetValues f b e + 1)).toNat)
  | 0, b, e, _, h2, _ => by omega
  | f + 1, b, e, h1, h2, h3 => by
    unfold targetValues
    by_cases hbe : b = e
    · rw [if_pos hbe]; omega
    · rw [if_neg hbe]
      by_cases hg : c.leafSize ((b + e) / 2 + 1) > c.target
      · rw [if_pos hg]
        have hg' : c.target.toNat < (c.leafSize ((b + e) / 2 + 1)).toNat := hg
        obtain ⟨i1, i2, i3, i4⟩ := targetValues_spec h f b ((b + e) / 2) (by omega) (by omega) (by omega)
        refine ⟨i1, by omega, i3, ?_⟩
        intro _
        by_cases he : c.targetValues f b ((b + e) / 2) = (b + e) / 2
        · rw [he]; exact hg'
        · exact i4 (by omega)
      · rw [if_neg hg]
        have hg' : ¬ c.target.toNat < (c.leafSize ((b + e) / 2 + 1)).toNat := hg
        obtain ⟨i1, i2, i3, i4⟩ := targetValues_spec h f ((b + e) / 2 + 1) e (by omega) (by omega) (by omega)
        refine ⟨by omega, i2, ?_, i4⟩
        intro _
        by_cases he : c.targetValues f ((b + e) / 2 + 1) e = (b + e) / 2 + 1
        · rw [he]; omega
        · exact i3 (by omega)

theorem nodeValues_spec (h : c.Legal) : 3 ≤ c.nodeValues ∧ (3 < c.nodeValues → (c.leafSize c.nodeValues).toNat ≤ c.target.toNat) ∧
    c.target.toNat < (c.leafSize (c.nodeValues + 1)).toNat ∧ c.nodeValues < 2 ^ 31 := by
  have ht := h.target
  obtain ⟨i1, i2, i3, i4⟩ := targetValues_spec h (c.target.toNat + 1) 0 c.target.toNat (by omega) (by omega) ht
  have hst := start_ge h
  have hs := h.slot.size_pos
  generalize hT : c.targetValues (c.target.toNat + 1) 0 c.target.toNat = T at i1 i2 i3 i4
  have hlt : c.target.toNat < (c.leafSize (T + 1)).toNat := by
    by_cases hc : T < c.target.toNat
    · exact i4 hc
    · have e := leafSize_eq h (n := T + 1) (by omega)
      have : c.slot.size.toNat * (T + 1) ≥ 1 * (T + 1) := Nat.mul_le_mul_right _ hs
      omega
  unfold nodeValues
  rw [hT]
  by_cases h3 : T ≥ 3
  · rw [if_pos h3]
    exact ⟨h3, fun _ => i3 (by omega), hlt, by omega⟩
  · rw [if_neg h3]
    refine ⟨by omega, fun hh => by omega, ?_, by omega⟩
    have := leafSize_mono h (n := T + 1) (m := 3 + 1) (by omega) (by omega)
    omega

theorem fieldSize_toNat (c : NodeCfg) : c.fieldSize.toNat = 1 ∨ c.fieldSize.toNat = 2 := by
  rcases c.fieldSize_cases with e | e <;> rw [e]
  · exact .inl rfl
  · exact .inr rfl

/-- The number of values fits in the field. -/
theorem nodeValues_field (h : c.Legal) (hT : c.target.toNat < 2 ^ 16 * c.slot.size.toNat) :
    c.nodeValues < 2 ^ (8 * c.fieldSize.toNat) := by
  obtain ⟨h3, h4, _, h5⟩ := nodeValues_spec h
  by_cases hk : 3 < c.nodeValues
  · have h6 := h4 hk
    have h7 := (leafSize_eq h (n := c.nodeValues) (by omega)).1
    have hst := start_ge h
    have hs := h.slot.size_pos
    rcases c.fieldSize_toNat with e | e
    · rw [e] at hst ⊢
      have e255 : (255 : U64).toNat = 255 := rfl
      have e12 : (8 + 4 : U64).toNat = 12 := rfl
      have hq : ¬ c.slotSpace / c.slot.size > 255 := by
        intro hc
        unfold fieldSize at e
        rw [if_pos hc] at e
        exact absurd e (by decide)
      have hq' : ¬ 255 < (c.slotSpace / c.slot.size).toNat := by rw [← e255]; exact hq
      rw [BitVec.toNat_udiv] at hq'
      have hsp : c.slotSpace.toNat = c.target.toNat - 12 := by
        unfold slotSpace
        have := c.target.isLt
        simp only [BitVec.toNat_sub, e12]
        omega
      rw [hsp] at hq'
      have : c.nodeValues ≤ (c.target.toNat - 12) / c.slot.size.toNat := by
        rw [Nat.le_div_iff_mul_le hs, Nat.mul_comm]
        omega
      omega
    · rw [e] at hst ⊢
      have : c.nodeValues < 2 ^ 16 := by
        apply Nat.lt_of_mul_lt_mul_left (a := c.slot.size.toNat)
        rw [Nat.mul_comm _ (2 ^ 16)]
        omega
      omega
  · rcases c.fieldSize_toNat with e | e <;> rw [e] <;> omega

end NodeCfg

end Gtl.Mem
