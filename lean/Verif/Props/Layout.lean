import Verif.Props.HashTable
import Verif.Mem.Node
import Verif.Props.Btree
/-!
# Property theorems C74 and C75: the memory of hash tables and B-tree nodes
-/

namespace Gtl.Props.Layout

open Gtl.Mem Gtl.Swiss Gtl.Props.Hash

/-! ## C74 -/

/-- Element `j` of array `i` of the layout. -/
def IsElem (L : Mem.Layout) (i j : Nat) : Prop := i < L.length ∧ j < (L.count i).toNat

/-- Where it begins, relative to the beginning of the block: `Pointer<i>(p) + j`. -/
def place (L : Mem.Layout) (i j : Nat) : Nat := (L.offset i).toNat + (L.elt i).size.toNat * j

/-- The block that is allocated for a layout, beginning at `base`: the allocator respects the alignment it is asked for. -/
def Block (L : Mem.Layout) (base : Nat) : Prop := base % L.alignment.toNat = 0

/-- Arrays of any element types and lengths: every element is aligned, lies in the block that `Allocate` obtains from the
allocator, and different elements do not overlap. The block is not larger than necessary: less than one alignment is
wasted behind the last array and between neighbouring arrays. The sizes must not exceed the address space. -/
theorem C74_layout {L : Mem.Layout} (hne : L ≠ []) (hl : ∀ x ∈ L, x.1.Legal)
    (hfit : (L.map fun x => x.1.size.toNat * x.2.toNat + x.1.align.toNat).sum ≤ 2 ^ 64)
    (hfit' : L.allocSize.toNat + L.alignment.toNat ≤ 2 ^ 64) {base : Nat} (hb : Block L base) :
    (∀ i j, IsElem L i j → (base + place L i j) % (L.elt i).align.toNat = 0 ∧
      place L i j + (L.elt i).size.toNat ≤ blockBytes L.alignment L.allocSize) ∧
    (∀ i j i' j', IsElem L i j → IsElem L i' j' → (i, j) ≠ (i', j') →
      place L i j + (L.elt i).size.toNat ≤ place L i' j' ∨ place L i' j' + (L.elt i').size.toNat ≤ place L i j) ∧
    blockBytes L.alignment L.allocSize < L.allocSize.toNat + L.alignment.toNat ∧
    ∀ i, i + 1 < L.length → place L (i + 1) 0 < place L i (L.count i).toNat + (L.elt (i + 1)).align.toNat := by
  have hmem : ∀ i, i < L.length → (L.getD i default) ∈ L := by
    intro i hi
    rw [List.getD_eq_getElem?_getD, List.getElem?_eq_getElem hi]
    exact List.getElem_mem hi
  obtain ⟨⟨x, hx, ex⟩, _⟩ := Mem.Layout.alignment_spec hne
  obtain ⟨k, _, hk⟩ := (hl x hx).pow2
  have hap : 0 < L.alignment.toNat := by rw [ex, hk]; exact Nat.pow_pos (by decide)
  have hbytes : blockBytes L.alignment L.allocSize = (L.allocSize.toNat + L.alignment.toNat - 1) / L.alignment.toNat * L.alignment.toNat := by
    unfold blockBytes; rw [blocks_toNat hap hfit']
  have hr := roundUp_spec (n := L.allocSize.toNat) hap
  rw [← hbytes] at hr
  have hend : ∀ i j, IsElem L i j → place L i j + (L.elt i).size.toNat ≤
      (L.offset i).toNat + (L.elt i).size.toNat * (L.count i).toNat := by
    intro i j ⟨_, hj⟩
    have := Nat.mul_le_mul_left (L.elt i).size.toNat (show j + 1 ≤ (L.count i).toNat from hj)
    rw [Nat.mul_add, Nat.mul_one] at this
    unfold place
    omega
  refine ⟨fun i j h => ⟨?_, ?_⟩, ?_, hr.2.2, ?_⟩
  · have d1 : (L.elt i).align.toNat ∣ base :=
      Nat.dvd_trans (Mem.Layout.alignment_dvd hl hne (hmem i h.1)) (Nat.dvd_of_mod_eq_zero hb)
    have d2 : (L.elt i).align.toNat ∣ (L.offset i).toNat := Nat.dvd_of_mod_eq_zero (Mem.Layout.offset_aligned hl hfit h.1)
    have d3 : (L.elt i).align.toNat ∣ (L.elt i).size.toNat * j := Nat.dvd_trans (Mem.Layout.elt_legal hl h.1).dvd ⟨j, rfl⟩
    exact Nat.mod_eq_zero_of_dvd (Nat.dvd_add d1 (Nat.dvd_add d2 d3))
  · have := hend i j h
    have := Mem.Layout.allocSize_lt hl hfit hne h.1
    omega
  · intro i j i' j' h h' hd
    have e1 := hend i j h
    have e2 := hend i' j' h'
    rcases Nat.lt_trichotomy i i' with hlt | heq | hlt
    · have := Mem.Layout.offset_le hl hfit hlt h'.1
      left; unfold place at *; omega
    · subst heq
      have key : ∀ {a b : Nat}, a < b → place L i a + (L.elt i).size.toNat ≤ place L i b := by
        intro a b hab
        have := Nat.mul_le_mul_left (L.elt i).size.toNat (show a + 1 ≤ b from hab)
        rw [Nat.mul_add, Nat.mul_one] at this
        unfold place; omega
      rcases Nat.lt_trichotomy j j' with hj | hj | hj
      · exact .inl (key hj)
      · exact absurd (by rw [hj]) hd
      · exact .inr (key hj)
    · have := Mem.Layout.offset_le hl hfit hlt h.1
      right; unfold place at *; omega
  · intro i hi
    have := (Mem.Layout.offset_step hl hfit hi).2.2
    unfold place; omega

/-- Three ints, then four doubles (the example in the comments of the code): the doubles begin at 16 and the block has 48
bytes. -/
example : ∃ L : Mem.Layout, L = [(⟨4, 4⟩, 3), (⟨8, 8⟩, 4)] ∧ L.alignment = 8 ∧ (L.offset 1).toNat = 16 ∧ L.allocSize.toNat = 48 ∧
    (∀ x ∈ L, x.1.Legal) ∧ (L.map fun x => x.1.size.toNat * x.2.toNat + x.1.align.toNat).sum ≤ 2 ^ 64 ∧
    L.allocSize.toNat + L.alignment.toNat ≤ 2 ^ 64 ∧ Block L 4096 := by
  refine ⟨_, rfl, by decide, by decide, by decide, ?_, by decide, by decide, show _ = _ by decide⟩
  intro x hx
  simp only [List.mem_cons, List.not_mem_nil, or_false] at hx
  rcases hx with rfl | rfl
  · exact ⟨by decide, ⟨2, by decide, by decide⟩, ⟨1, by decide⟩⟩
  · exact ⟨by decide, ⟨3, by decide, by decide⟩, ⟨1, by decide⟩⟩

variable {α κ : Type}

/-- `MakeLayout(capacity)` (phmap.hpp:1544-1549): control bytes and slots. -/
def tableLayout (W : Nat) (slot : Elt) (capacity : Nat) : Mem.Layout :=
  [(⟨1, 1⟩, BitVec.ofNat 64 (capacity + W + 1)), (slot, BitVec.ofNat 64 capacity)]

/-- The block of a hash table: every control byte and every slot of every reachable table lies in the block that was
allocated for its capacity, the slots are aligned, and nothing overlaps, for every size and alignment of the slots, unless
the table is larger than the address space. -/
theorem C74_table_partial [BEq α] [LawfulBEq α] {C : Cfg α κ} (h : Contract C) {t : Tbl α} (hr : Reachable C t) (hcap : t.capacity ≠ 0)
    {slot : Elt} (hs : slot.Legal)
    (hfit : (t.capacity + C.G.W + 1) + slot.size.toNat * t.capacity + 2 * slot.align.toNat < 2 ^ 64) {base : Nat}
    (hb : Block (tableLayout C.G.W slot t.capacity) base) :
    ∃ ctrl slots bytes : Nat, bytes = blockBytes (tableLayout C.G.W slot t.capacity).alignment (tableLayout C.G.W slot t.capacity).allocSize ∧
      ctrl = base ∧ slots = base + ((tableLayout C.G.W slot t.capacity).offset 1).toNat ∧
      t.ctrl.length = t.capacity + C.G.W + 1 ∧ t.slots.length = t.capacity ∧
      ctrl + t.ctrl.length ≤ slots ∧
      (∀ j, j < t.slots.length → (slots + slot.size.toNat * j) % slot.align.toNat = 0) ∧
      slots + slot.size.toNat * t.slots.length ≤ base + bytes := by
  obtain ⟨⟨c, hi⟩, _⟩ := hr.sim h
  have e1 : t.ctrl.length = t.capacity + C.G.W + 1 := hi.core.raw.alloc hcap
  have e2 : t.slots.length = t.capacity := hi.core.sync.slen
  have hsz := hs.size_pos
  have hmul : t.capacity ≤ slot.size.toNat * t.capacity := Nat.le_mul_of_pos_left _ hsz
  have b1 : (BitVec.ofNat 64 (t.capacity + C.G.W + 1)).toNat = t.capacity + C.G.W + 1 := by
    rw [BitVec.toNat_ofNat]; omega
  have b2 : (BitVec.ofNat 64 t.capacity).toNat = t.capacity := by rw [BitVec.toNat_ofNat]; omega
  obtain ⟨k, _, hk⟩ := hs.pow2
  have hap : 0 < slot.align.toNat := by rw [hk]; exact Nat.pow_pos (by decide)
  have one : (1 : U64).toNat = 1 := rfl
  have hone : (⟨1, 1⟩ : Elt).Legal := ⟨by decide, ⟨0, by decide, by decide⟩, ⟨1, by decide⟩⟩
  generalize hL : tableLayout C.G.W slot t.capacity = L at *
  have hL' : L = [(⟨1, 1⟩, BitVec.ofNat 64 (t.capacity + C.G.W + 1)), (slot, BitVec.ofNat 64 t.capacity)] := hL.symm
  have hne : L ≠ [] := by rw [hL']; simp
  have hl : ∀ x ∈ L, x.1.Legal := by
    intro x hx
    rw [hL'] at hx
    simp only [List.mem_cons, List.not_mem_nil, or_false] at hx
    rcases hx with rfl | rfl
    · exact hone
    · exact hs
  have hneed : L.need ≤ 2 ^ 64 := by
    rw [hL']
    simp only [Mem.Layout.need, List.map_cons, List.map_nil, List.sum_cons, List.sum_nil, b1, b2, one]
    omega
  have hal : L.alignment = slot.align := by
    rw [hL']
    show (if slot.align < 1 then (1 : U64) else slot.align) = slot.align
    rw [if_neg]
    intro hc
    have : slot.align.toNat < 1 := hc
    omega
  have hlen : L.length = 2 := by rw [hL']; rfl
  have x0 : (L.elt 0).size.toNat = 1 ∧ (L.count 0).toNat = t.capacity + C.G.W + 1 := by rw [hL']; exact ⟨rfl, b1⟩
  have x1 : L.elt 1 = slot ∧ (L.count 1).toNat = t.capacity := by rw [hL']; exact ⟨rfl, b2⟩
  have st := Mem.Layout.offset_step hl hneed (n := 0) (by omega)
  have hasz := Mem.Layout.allocSize_toNat hl hneed hne
  rw [hlen, show 2 - 1 = 1 from rfl, x1.1, x1.2] at hasz
  rw [Nat.zero_add, x0.1, x0.2, x1.1, Nat.one_mul] at st
  have o0 : (L.offset 0).toNat = 0 := rfl
  rw [o0] at st
  obtain ⟨p1, p2, _, _⟩ := C74_layout hne hl hneed (by rw [hal]; omega) hb
  have hbb := roundUp_spec (n := L.allocSize.toNat) (m := L.alignment.toNat) (by rw [hal]; exact hap)
  have hbytes : blockBytes L.alignment L.allocSize = (L.allocSize.toNat + L.alignment.toNat - 1) / L.alignment.toNat * L.alignment.toNat := by
    unfold blockBytes; rw [blocks_toNat (by rw [hal]; exact hap) (by rw [hal]; omega)]
  refine ⟨base, base + (L.offset 1).toNat, _, rfl, rfl, rfl, e1, e2, by omega, ?_, ?_⟩
  · intro j hj
    have := (p1 1 j ⟨by omega, by rw [x1.2, ← e2]; exact hj⟩).1
    rw [x1.1] at this
    unfold place at this
    rw [x1.1, ← Nat.add_assoc] at this
    exact this
  · rw [e2, hbytes]; omega

/-- A map from ints to doubles with 41 elements. -/
example : ∃ (t : Tbl (Nat × Nat)), Reachable (exCfg (groupSse2 true)) t ∧ t.size = 41 ∧ t.capacity ≠ 0 ∧ (⟨16, 8⟩ : Elt).Legal ∧
    Block (tableLayout 16 ⟨16, 8⟩ t.capacity) 4096 := by
  obtain ⟨t, h1, h2, _⟩ := exReach (.inl rfl)
  refine ⟨t, h1, h2, ?_, ⟨by decide, ⟨3, by decide, by decide⟩, ⟨2, by decide⟩⟩, ?_⟩
  rotate_left
  · have e : (tableLayout 16 ⟨16, 8⟩ t.capacity).alignment = 8 := rfl
    unfold Block; rw [e]; rfl
  intro hc
  obtain ⟨⟨c, hi⟩, _⟩ := h1.sim (exCfg_contract (.inl rfl))
  have h3 := hi.core.counts
  have := hi.size_eq
  omega

/-- A table made with a bucket count. -/
theorem reachable_create [BEq α] [LawfulBEq α] (C : Cfg α κ) {n : Nat} (hn : n ≠ 0) :
    ∃ t : Tbl α, Reachable C t ∧ t.capacity = normalizeCapacity n := by
  refine ⟨Tbl.withBuckets C n, ⟨[.create 0 n], _, _, 0, by simp [Spec.WOp.Valid], rfl, rfl⟩, ?_⟩
  unfold Tbl.withBuckets
  rw [if_neg hn]; rfl

/-- Without the last hypothesis it is false. Slots of 7 bytes (packed structs), `reserve` or a constructor with a bucket
count of 2^61 - 1: the number of bytes wraps around, a block of 9 bytes is allocated, and the initialization of 2^61 + 16
control bytes writes behind it. The code checks no maximum. -/
theorem C74_overflow_refuted : ∃ (t : Tbl (Nat × Nat)) (slot : Elt), Reachable (exCfg (groupSse2 true)) t ∧ t.capacity ≠ 0 ∧ slot.Legal ∧
    blockBytes (tableLayout 16 slot t.capacity).alignment (tableLayout 16 slot t.capacity).allocSize = 9 ∧
    t.ctrl.length = 2 ^ 61 + 16 := by
  obtain ⟨t, h1, h2⟩ := reachable_create (exCfg (groupSse2 true)) (n := 2 ^ 61 - 1) (by decide)
  have hcap : t.capacity = 2 ^ 61 - 1 := by rw [h2]; decide +kernel
  obtain ⟨⟨c, hi⟩, _⟩ := h1.sim (exCfg_contract (.inl rfl))
  have h0 : t.capacity ≠ 0 := by rw [hcap]; decide
  have e1 : t.ctrl.length = t.capacity + (exCfg (groupSse2 true)).G.W + 1 := hi.core.raw.alloc h0
  refine ⟨t, ⟨7, 1⟩, h1, h0, ⟨by decide, ⟨0, by decide, by decide⟩, ⟨7, by decide⟩⟩, ?_, ?_⟩
  · rw [hcap]; decide +kernel
  · rw [e1, hcap]; rfl

/-! ## C75 -/

/-- A node holds as many values as fit in the target size, and at least 3. -/
theorem C75_node_values {c : NodeCfg} (h : c.Legal) : 3 ≤ c.nodeValues ∧
    (3 < c.nodeValues → (c.leafLayout c.nodeValues).allocSize.toNat ≤ c.target.toNat) ∧
    c.target.toNat < (c.leafLayout (c.nodeValues + 1)).allocSize.toNat :=
  let ⟨h1, h2, h3, _⟩ := NodeCfg.nodeValues_spec h
  ⟨h1, h2, h3⟩

/-- The containers of the library have nodes of 256 bytes; slots of 4, 16, 32 and 1000 bytes. -/
example : (⟨256, ⟨4, 4⟩⟩ : NodeCfg).nodeValues = 61 ∧ (⟨256, ⟨16, 8⟩⟩ : NodeCfg).nodeValues = 15 ∧
    (⟨256, ⟨32, 8⟩⟩ : NodeCfg).nodeValues = 7 ∧ (⟨256, ⟨1000, 8⟩⟩ : NodeCfg).nodeValues = 3 ∧ (⟨256, ⟨16, 8⟩⟩ : NodeCfg).Legal :=
  ⟨by decide +kernel, by decide +kernel, by decide +kernel, by decide +kernel,
    ⟨by decide, ⟨3, by decide, by decide⟩, ⟨2, by decide⟩⟩, by decide, by decide⟩

/-- The memory of nodes, for leaves with room for `m` values (the root can have less room than other leaves) and for inner
nodes: they consist of the pointer to the parent, the four counters, the values and the children; all these are aligned, in the block and do not
overlap, and the parent, the counters and the values are found at the same place in both kinds of nodes (the code uses the
layout of inner nodes for both). -/
theorem C75_nodes {c : NodeCfg} (h : c.Legal) {L : Mem.Layout} {room children : Nat}
    (hL : (L = c.internalLayout ∧ room = c.nodeValues ∧ children = c.nodeValues + 1) ∨
      (L = c.leafLayout room ∧ room ≤ c.nodeValues ∧ children = 0)) {base : Nat} (hb : Block L base) :
    L.map (fun x => (x.1.size.toNat, x.1.align, x.2.toNat)) =
      [(8, 8, 1), (c.fieldSize.toNat, c.fieldSize, 4), (c.slot.size.toNat, c.slot.align, room), (8, 8, children)] ∧
    (∀ i j, IsElem L i j → (base + place L i j) % (L.elt i).align.toNat = 0 ∧
      place L i j + (L.elt i).size.toNat ≤ blockBytes L.alignment L.allocSize) ∧
    (∀ i j i' j', IsElem L i j → IsElem L i' j' → (i, j) ≠ (i', j') →
      place L i j + (L.elt i).size.toNat ≤ place L i' j' ∨ place L i' j' + (L.elt i').size.toNat ≤ place L i j) ∧
    (∀ i j, i < 3 → place L i j = place c.internalLayout i j) := by
  obtain ⟨_, _, _, hK⟩ := NodeCfg.nodeValues_spec h
  have main : ∀ v k : Nat, v ≤ c.nodeValues → k ≤ c.nodeValues + 1 → L = c.nodeLayout (BitVec.ofNat 64 v) (BitVec.ofNat 64 k) →
      (∀ x ∈ L, x.1.Legal) ∧ L.need ≤ 2 ^ 64 ∧ L.allocSize.toNat + L.alignment.toNat ≤ 2 ^ 64 := by
    intro v k hv hk e
    have bv : (BitVec.ofNat 64 v).toNat = v := by rw [BitVec.toNat_ofNat]; omega
    have bk : (BitVec.ofNat 64 k).toNat = k := by rw [BitVec.toNat_ofNat]; omega
    have hl := NodeCfg.layout_legal h (BitVec.ofNat 64 v) (BitVec.ofNat 64 k)
    have hn := NodeCfg.need_layout h (n := BitVec.ofNat 64 v) (k := BitVec.ofNat 64 k) (by omega) (by omega)
    rw [← e] at hl hn
    have hne : L ≠ [] := by rw [e]; unfold NodeCfg.nodeLayout; simp
    refine ⟨hl, hn, ?_⟩
    have hn' := NodeCfg.need_layout' h (n := BitVec.ofNat 64 v) (k := BitVec.ofNat 64 k) (by omega) (by omega)
    rw [← e] at hn'
    have hlen : L.length = 4 := by rw [e]; rfl
    have h1 := Mem.Layout.allocSize_toNat hl hn hne
    have h2 := (Mem.Layout.offset_bound hl hn (n := 3) (by omega)).1
    have h3 := Mem.Layout.need_take_le L 4
    rw [hlen, show 4 - 1 = 3 from rfl] at h1
    obtain ⟨⟨x, hx, ex⟩, _⟩ := Mem.Layout.alignment_spec hne
    have hsm := h.small
    have ha := NodeCfg.align_le h
    have hx' : x.1.align.toNat ≤ 2 ^ 32 := by
      rw [e] at hx
      simp only [NodeCfg.nodeLayout, List.mem_cons, List.not_mem_nil, or_false] at hx
      rcases hx with rfl | rfl | rfl | rfl
      · decide
      · show c.fieldSize.toNat ≤ _
        rcases c.fieldSize_toNat with e | e <;> omega
      · show c.slot.align.toNat ≤ _
        omega
      · show (8 : U64).toNat ≤ _
        decide
    rw [show 3 + 1 = 4 from rfl] at h2
    rw [ex]
    omega
  have key : room ≤ c.nodeValues ∧ children ≤ c.nodeValues + 1 ∧ L = c.nodeLayout (BitVec.ofNat 64 room) (BitVec.ofNat 64 children) := by
    rcases hL with ⟨e, e1, e2⟩ | ⟨e, hm, e2⟩
    · exact ⟨by omega, by omega, by rw [e, e1, e2]; rfl⟩
    · exact ⟨hm, by omega, by rw [e, e2]; rfl⟩
  obtain ⟨hv, hk, e⟩ := key
  obtain ⟨hl, hn, hf⟩ := main room children hv hk e
  have hne : L ≠ [] := by rw [e]; unfold NodeCfg.nodeLayout; simp
  obtain ⟨p1, p2, _, _⟩ := C74_layout hne hl hn hf hb
  refine ⟨?_, p1, p2, ?_⟩
  · have bv : (BitVec.ofNat 64 room).toNat = room := by rw [BitVec.toNat_ofNat]; omega
    have bk : (BitVec.ofNat 64 children).toNat = children := by rw [BitVec.toNat_ofNat]; omega
    have e1 : (1 : U64).toNat = 1 := rfl
    have e4 : (4 : U64).toNat = 4 := rfl
    have e8 : (8 : U64).toNat = 8 := rfl
    rw [e]
    simp only [NodeCfg.nodeLayout, NodeCfg.ptr, NodeCfg.field, List.map_cons, List.map_nil, bv, bk, e1, e4, e8]
  intro i j hi
  unfold place
  rw [e]
  unfold NodeCfg.internalLayout
  rw [NodeCfg.offset_two_eq c _ _ (BitVec.ofNat 64 c.nodeValues) (BitVec.ofNat 64 (c.nodeValues + 1)) hi]
  have h : i = 0 ∨ i = 1 ∨ i = 2 := by omega
  rcases h with rfl | rfl | rfl <;> rfl

/-- Slots of 16 bytes in nodes of 256 bytes: the values begin at 16, the children of inner nodes at 256; a leaf takes 256
bytes and an inner node 384; a new root with room for one value takes 32. -/
example : ∃ c : NodeCfg, c.Legal ∧ c = ⟨256, ⟨16, 8⟩⟩ ∧ c.nodeValues = 15 ∧ (c.leafLayout 15).allocSize = 256 ∧
    c.internalLayout.allocSize = 384 ∧ (c.leafLayout 1).allocSize = 32 ∧ place c.internalLayout 2 0 = 16 ∧
    place c.internalLayout 3 0 = 256 ∧ Block c.internalLayout 4096 ∧ Block (c.leafLayout 1) 4096 :=
  ⟨_, ⟨⟨by decide, ⟨3, by decide, by decide⟩, ⟨2, by decide⟩⟩, by decide, by decide⟩, rfl, by decide +kernel, by decide +kernel,
    by decide +kernel, by decide +kernel, by decide +kernel, by decide +kernel, show _ = _ by decide +kernel, show _ = _ by decide +kernel⟩

/-- The counters of a node are stored in one or two bytes each. They are large enough in every state of every container of
the library: the number of values, the room, and the position below the parent are read back as they were stored. In
particular a leaf, which has room for at least one value, is not mistaken for an inner node, for which 0 is stored. -/
theorem C75_counters {α κ : Type} {c : Btree.Cfg α κ} {nc : NodeCfg} (h : nc.Legal) (ht : nc.target = 256) (hK : c.K = nc.nodeValues)
    (o : Spec.SortedSeq.StrictWeak c.lt) (ops : List (Spec.SortedSeq.Op α κ)) (hs : Spec.SortedSeq.Safe c.multi c.key c.lt [] ops) :
    ∃ rs t, Btree.execAll c Btree.Tree.empty ops = some (rs, t) ∧
      ∀ n nd, t.heap.get n = some nd → n ≠ 0 → nc.toField nd.vals.length = nd.vals.length ∧
        nc.toField nd.maxCount = nd.maxCount ∧ (n ≠ t.root → nc.toField nd.position = nd.position) := by
  have hsz := h.slot.size_pos
  have e256 : (256 : U64).toNat = 256 := rfl
  have hf := NodeCfg.nodeValues_field h (by rw [ht, e256]; omega)
  have h3 := (NodeCfg.nodeValues_spec h).1
  obtain ⟨rs, t, L, e, _, hh⟩ := Btree.execAll_ok (by omega) o ops (Btree.holds_empty c) hs
  refine ⟨rs, t, e, ?_⟩
  have fld : ∀ m, m ≤ c.K → nc.toField m = m := by
    intro m hm
    unfold NodeCfg.toField
    exact Nat.mod_eq_of_lt (by omega)
  rcases hh.1 with ⟨he, _⟩ | ⟨H, hgt, g, _⟩
  · intro n nd en n0
    exact absurd (he.only n nd en) n0
  · intro n nd en n0
    refine ⟨fld _ ?_, fld _ ?_, fun hr => fld _ ?_⟩
    · rcases g.wf.shape n nd en n0 with s | s <;> omega
    · rcases g.wf.shape n nd en n0 with s | s <;> omega
    · obtain ⟨p0, pd, ep, hk⟩ := g.wf.par n nd en n0 hr
      have := (List.getElem?_eq_some_iff.1 hk).1
      rcases g.wf.shape _ pd ep p0 with s | s
      · rw [s.2.2.1] at this; simp at this
      · omega

/-- A set of 32-bit integers: 61 values in a node, in one byte each of the counters. -/
example : ∃ (c : Btree.Cfg Nat Nat) (nc : NodeCfg), nc = ⟨256, ⟨4, 4⟩⟩ ∧ nc.Legal ∧ c.K = nc.nodeValues ∧ nc.fieldSize = 1 ∧
    Spec.SortedSeq.StrictWeak c.lt ∧ Spec.SortedSeq.Safe c.multi c.key c.lt [] [.insertAll (List.range 100), .insert 7, .size] ∧
    (Btree.execAll c Btree.Tree.empty [.insertAll (List.range 100), .insert 7, .size]).map (·.1) =
      some [.done, .posNew 7 false, .num 100] := by
  refine ⟨⟨61, false, false, false, id, fun a b => decide (a < b)⟩, _, rfl, ⟨⟨by decide, ⟨2, by decide, by decide⟩, ⟨1, by decide⟩⟩, by decide, by decide⟩,
    by decide +kernel, by decide +kernel, ?_, ?_, by decide +kernel⟩
  · constructor <;> simp <;> omega
  · simp only [Spec.SortedSeq.Safe, Spec.SortedSeq.Ok, Spec.SortedSeq.Step, true_and]
    simp

end Gtl.Props.Layout
