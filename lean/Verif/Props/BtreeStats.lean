import Verif.Btree.StatsProof
import Verif.Props.BtreeAlloc
import Verif.Mem.Node
/-
C96: what B-tree containers tell about themselves. `t.live` are the nodes that have been allocated and not freed.
-/
namespace Gtl.Props.BtreeStats
open Gtl.Btree Gtl.Spec.SortedSeq Gtl.Mem
variable {α κ : Type} {c : Cfg α κ}

/-- After every history each container holds a sorted sequence. -/
theorem all_hold (hK : 3 ≤ c.K) (o : StrictWeak c.lt) (eq less : α → α → Bool) (ops : List (WOp α κ))
    (hs : WSafe c.multi c.key c.lt eq less [] ops) :
    ∃ rs w, wexecAll c eq less [] ops = some (rs, w) ∧ ∀ t ∈ w, ∃ L, Rep c t L ∧ InOrder c L := by
  obtain ⟨rs, w, W, e, h, hh⟩ := wexecAll_ok hK o eq less ops (w := []) (W := []) ⟨rfl, by simp⟩ hs
  refine ⟨rs, w, e, fun t ht => ?_⟩
  obtain ⟨i, hi, rfl⟩ := List.mem_iff_getElem.1 ht
  obtain ⟨t', L, et, _, hr, hs⟩ := hh.get (i := i) (by rw [← hh.1]; exact hi)
  rw [List.getElem?_eq_getElem hi] at et
  cases et
  exact ⟨L, hr, inOrder_of_sorted o hs⟩

theorem count_split (l : List (Node α)) : l.length = l.countP Node.leaf + l.countP fun n => !n.leaf := by
  induction l with
  | nil => rfl
  | cons a l ih =>
    rw [List.length_cons, List.countP_cons, List.countP_cons]
    cases a.leaf <;> simp <;> omega

/-- C96: verify() on any container after any history: no assertion fails. -/
theorem C96_verify (hK : 3 ≤ c.K) (o : StrictWeak c.lt) (eq less : α → α → Bool) (ops : List (WOp α κ))
    (hs : WSafe c.multi c.key c.lt eq less [] ops) :
    ∃ rs w, wexecAll c eq less [] ops = some (rs, w) ∧ ∀ t ∈ w, t.verify c = some () := by
  obtain ⟨rs, w, e, h⟩ := all_hold hK o eq less ops hs
  refine ⟨rs, w, e, fun t ht => ?_⟩
  obtain ⟨L, ⟨e, rfl⟩ | ⟨H, hgt, g, hz⟩, ho⟩ := h t ht
  · exact e.verify
  · exact g.verify hz ho

/-- C96: the numbers of nodes and bytes are those of the nodes that are allocated; height() is 0 for empty containers, and else
the number of nodes on the way from the root to any leaf. -/
theorem C96_stats (hK : 3 ≤ c.K) (o : StrictWeak c.lt) (eq less : α → α → Bool) (z : Sizes) (ops : List (WOp α κ))
    (hs : WSafe c.multi c.key c.lt eq less [] ops) :
    ∃ rs w, wexecAll c eq less [] ops = some (rs, w) ∧ ∀ t ∈ w,
      t.leafNodes = some (t.live.countP fun nd => nd.kids.isEmpty) ∧
      t.internalNodes = some (t.live.countP fun nd => !nd.kids.isEmpty) ∧
      t.nodes = some t.live.length ∧
      t.bytesUsed c z = some (z.tree + (t.live.map fun nd => if nd.kids.isEmpty then z.leaf nd.maxCount else z.internal).sum) ∧
      ((t.size = 0 ∧ t.live = [] ∧ t.height = some 0) ∨ ∃ D, Balanced c t D ∧ t.height = some (D + 1)) := by
  obtain ⟨rs, w, e, h⟩ := all_hold hK o eq less ops hs
  refine ⟨rs, w, e, fun t ht => ?_⟩
  obtain ⟨L, ⟨e, rfl⟩ | ⟨H, hgt, g, hz⟩, ho⟩ := h t ht
  · have hl := e.live
    refine ⟨?_, ?_, ?_, ?_, .inl ⟨e.size, hl, ?_⟩⟩
    · simp [Tree.leafNodes, e.stats, hl]
    · simp [Tree.internalNodes, e.stats, hl]
    · simp [Tree.nodes, e.stats, hl]
    · simp [Tree.bytesUsed, e.stats, hl]
    · simp [Tree.height, e.size]
  · have hst := g.stats hz
    have hleaf : ∀ nd ∈ t.live, nd.leaf = nd.kids.isEmpty := by
      intro nd hnd
      obtain ⟨n, en, n0⟩ := g.live_mem hnd
      by_cases h0 : hgt n = 0
      · rw [(g.wf.leaf_iff en n0).2 h0, g.wf.kids_nil en n0 h0]; rfl
      · have := g.wf.kids_len en n0 (by omega)
        rw [g.wf.leaf_false en n0 (by omega)]
        cases hk : nd.kids
        · rw [hk] at this; simp at this
        · rfl
    have e1 : t.live.countP Node.leaf = t.live.countP fun nd => nd.kids.isEmpty :=
      List.countP_congr fun nd hnd => by simp [hleaf nd hnd]
    have e2 : (t.live.countP fun nd => !nd.leaf) = t.live.countP fun nd => !nd.kids.isEmpty :=
      List.countP_congr fun nd hnd => by simp [hleaf nd hnd]
    have e3 : t.live.map z.node = t.live.map fun nd => if nd.kids.isEmpty then z.leaf nd.maxCount else z.internal :=
      List.map_congr_left fun nd hnd => by simp [Sizes.node, hleaf nd hnd]
    refine ⟨?_, ?_, ?_, ?_, .inr ⟨H, g.balanced hz, g.height hz⟩⟩
    · simp [Tree.leafNodes, hst, e1]
    · simp [Tree.internalNodes, hst, e2]
    · simp only [Tree.nodes, hst, Option.bind_eq_bind, Option.bind_some]
      rw [← count_split]
    · rw [g.bytesUsed hz z, e3]

/-- C96: fullness() is 0 for empty containers, and else a fraction between `1 / K` and 1. -/
theorem C96_fullness (hK : 3 ≤ c.K) (o : StrictWeak c.lt) (eq less : α → α → Bool) (ops : List (WOp α κ))
    (hs : WSafe c.multi c.key c.lt eq less [] ops) :
    ∃ rs w, wexecAll c eq less [] ops = some (rs, w) ∧ ∀ t ∈ w,
      (t.size = 0 ∧ t.fullness c = some none) ∨
      (0 < t.size ∧ t.fullness c = some (some (t.size, t.live.length * c.K)) ∧ t.size ≤ t.live.length * c.K ∧
        t.live.length ≤ t.size) := by
  obtain ⟨rs, w, e, h⟩ := all_hold hK o eq less ops hs
  refine ⟨rs, w, e, fun t ht => ?_⟩
  obtain ⟨L, ⟨e, rfl⟩ | ⟨H, hgt, g, hz⟩, ho⟩ := h t ht
  · exact .inl ⟨e.size, by simp [Tree.fullness, e.size]⟩
  · have hne : t.size ≠ 0 := by rw [hz]; exact fun h => g.ne_nil (List.length_eq_zero_iff.1 h)
    have hv := g.live_vals
    rw [← hz] at hv
    have hle : ∀ l : List (Node α), (∀ nd ∈ l, nd ∈ t.live) → (l.map fun nd => nd.vals.length).sum ≤ l.length * c.K ∧
        l.length ≤ (l.map fun nd => nd.vals.length).sum := by
      intro l hl
      induction l with
      | nil => simp
      | cons nd l ih =>
        obtain ⟨n, en, n0⟩ := g.live_mem (hl nd (by simp))
        have h1 := g.wf.vals_le en n0
        have h2 := g.full n nd en n0 (by simp)
        have h3 := ih fun x hx => hl x (by simp [hx])
        simp only [List.map_cons, List.sum_cons, List.length_cons, Nat.add_mul]
        omega
    have := hle t.live fun _ h => h
    refine .inr ⟨by omega, ?_, by omega, by omega⟩
    unfold Tree.fullness
    rw [if_neg hne]
    simp only [Tree.nodes, g.stats hz, Option.bind_eq_bind, Option.bind_some]
    rw [← count_split]

/-- The sizes that the compiler computes for the nodes (C75). -/
def sizesOf (nc : NodeCfg) (tree : Nat) : Sizes :=
  ⟨tree, fun m => (nc.leafLayout m).allocSize.toNat, nc.internalLayout.allocSize.toNat⟩

/-- Nodes have room for the values they can hold. -/
theorem sizesOf_room {nc : NodeCfg} (h : nc.Legal) (tree : Nat) : (∀ m, m ≤ nc.nodeValues → m * nc.slot.size.toNat ≤ (sizesOf nc tree).leaf m) ∧
    nc.nodeValues * nc.slot.size.toNat ≤ (sizesOf nc tree).internal := by
  obtain ⟨_, _, _, hK⟩ := NodeCfg.nodeValues_spec h
  have main : ∀ v k : Nat, v ≤ nc.nodeValues → k ≤ nc.nodeValues + 1 →
      v * nc.slot.size.toNat ≤ (nc.nodeLayout (BitVec.ofNat 64 v) (BitVec.ofNat 64 k)).allocSize.toNat := by
    intro v k hv hk
    have hb : (BitVec.ofNat 64 v).toNat = v := by rw [BitVec.toNat_ofNat]; omega
    have hb' : (BitVec.ofNat 64 k).toNat = k := by rw [BitVec.toNat_ofNat]; omega
    have hl := NodeCfg.layout_legal h (BitVec.ofNat 64 v) (BitVec.ofNat 64 k)
    have hf := NodeCfg.need_layout h (n := BitVec.ofNat 64 v) (k := BitVec.ofNat 64 k) (by omega) (by omega)
    have := Layout.allocSize_lt hl hf (by unfold NodeCfg.nodeLayout; simp) (n := 2) (by unfold NodeCfg.nodeLayout; simp)
    have e2 : ((nc.nodeLayout (BitVec.ofNat 64 v) (BitVec.ofNat 64 k)).elt 2).size = nc.slot.size := rfl
    have ec : ((nc.nodeLayout (BitVec.ofNat 64 v) (BitVec.ofNat 64 k)).count 2) = BitVec.ofNat 64 v := rfl
    rw [e2, ec, hb, Nat.mul_comm] at this
    omega
  exact ⟨fun m hm => main m 0 hm (by omega), main _ _ (Nat.le_refl _) (Nat.le_refl _)⟩

/-- C96: overhead() never subtracts more than there is: with the sizes of the nodes that the compiler computes it is 0 for empty
containers, and else `bytes_used()` without the bytes of the elements, divided by their number. -/
theorem C96_overhead {nc : NodeCfg} (h : nc.Legal) (hK : c.K = nc.nodeValues) (tree : Nat) (o : StrictWeak c.lt)
    (eq less : α → α → Bool) (ops : List (WOp α κ)) (hs : WSafe c.multi c.key c.lt eq less [] ops) :
    ∃ rs w, wexecAll c eq less [] ops = some (rs, w) ∧ ∀ t ∈ w,
      (t.size = 0 ∧ t.overhead c (sizesOf nc tree) nc.slot.size.toNat = some none) ∨
      (0 < t.size ∧ ∃ b, t.bytesUsed c (sizesOf nc tree) = some b ∧ tree + t.size * nc.slot.size.toNat ≤ b ∧
        t.overhead c (sizesOf nc tree) nc.slot.size.toNat = some (some (b - t.size * nc.slot.size.toNat, t.size))) := by
  have h3 := (NodeCfg.nodeValues_spec h).1
  obtain ⟨r1, r2⟩ := sizesOf_room h tree
  obtain ⟨rs, w, e, hw⟩ := all_hold (c := c) (by omega) o eq less ops hs
  refine ⟨rs, w, e, fun t ht => ?_⟩
  obtain ⟨L, ⟨e, rfl⟩ | ⟨H, hgt, g, hz⟩, ho⟩ := hw t ht
  · exact .inl ⟨e.size, by simp [Tree.overhead, e.size]⟩
  · have hne : t.size ≠ 0 := by rw [hz]; exact fun h => g.ne_nil (List.length_eq_zero_iff.1 h)
    have hv := g.live_vals
    rw [← hz] at hv
    have hle : ∀ l : List (Node α), (∀ nd ∈ l, nd ∈ t.live) →
        (l.map fun nd => nd.vals.length).sum * nc.slot.size.toNat ≤ (l.map (sizesOf nc tree).node).sum := by
      intro l hl
      induction l with
      | nil => simp
      | cons nd l ih =>
        obtain ⟨n, en, n0⟩ := g.live_mem (hl nd (by simp))
        have h3 := ih fun x hx => hl x (by simp [hx])
        have hnode : nd.vals.length * nc.slot.size.toNat ≤ (sizesOf nc tree).node nd := by
          unfold Sizes.node
          rcases g.wf.shape n nd en n0 with s | s
          · have hleaf := (g.wf.leaf_iff en n0).2 s.1
            rw [if_pos hleaf]
            have h1 : nd.vals.length ≤ nd.maxCount := s.2.2.2.1
            exact Nat.le_trans (Nat.mul_le_mul_right _ h1) (r1 _ (by rw [← hK]; exact s.2.2.2.2.1))
          · rw [g.wf.leaf_false en n0 s.1]
            have h1 := s.2.2.2
            rw [hK] at h1
            exact Nat.le_trans (Nat.mul_le_mul_right _ h1) r2
        simp only [List.map_cons, List.sum_cons, Nat.add_mul]
        omega
    have hh := hle t.live fun _ h => h
    rw [← hv] at hh
    have hb := g.bytesUsed hz (sizesOf nc tree)
    have ht : (sizesOf nc tree).tree = tree := rfl
    refine .inr ⟨by omega, _, hb, by rw [ht]; omega, ?_⟩
    unfold Tree.overhead
    rw [if_neg hne, hb]
    simp only [Option.bind_eq_bind, Option.bind_some]
    rw [check_of (decide_eq_true (by omega))]
    rfl

/-! ### After an allocation has failed -/

/-- C96 needs that no allocation failed: the insertion of 40 into a set with 10, 20 and 30 is left by the exception of the second
allocation. The set still holds 10, 20 and 30, but verify() finds a node without values, and nodes() counts it. -/
theorem C96_alloc_refuted : ∃ outs t,
    execAllA Btree.numSet Tree.empty [Btree.ample (.insertAll [10, 20, 30]), ⟨.insert 40, 1⟩] = some (outs, t) ∧
    outs.map Btree.failedCall = [false, true] ∧ t.toList = some [10, 20, 30] ∧ t.verify Btree.numSet = none ∧
    t.nodes = some 2 := by
  refine ⟨_, _, rfl, by decide +kernel, by decide +kernel, by decide +kernel, by decide +kernel⟩

/-! ### Cases -/

/-- Two sets, the second made of the first and with less elements. -/
def history : List (WOp Nat Nat) :=
  [.make, .on 0 (.insertAll [5, 1, 9, 3, 7, 2, 8, 6, 4, 11, 12, 13, 14, 15, 16, 17, 18, 19, 20, 21]), .copy 0, .on 1 (.eraseKey 5), .on 1 (.eraseKey 1), .make, .make,
    .on 3 (.insert 1)]

/-- What a set says. -/
def report (t : Tree Nat) : Option (List Nat) := do
  t.verify Btree.numSet
  let h ← t.height
  let l ← t.leafNodes
  let i ← t.internalNodes
  let b ← t.bytesUsed Btree.numSet ⟨48, fun m => 16 + 8 * m, 80⟩
  some [t.size, h, l, i, b]

/-- Sets of several levels, an empty one and one of a single small leaf. -/
theorem C96_case : (wexecAll Btree.numSet (· == ·) (· < ·) [] history).map (fun x => x.2.map report) =
    some [some [20, 3, 6, 3, 528], some [18, 3, 6, 3, 528], some [0, 0, 0, 0, 48], some [1, 1, 1, 0, 72]] := by decide +kernel

end Gtl.Props.BtreeStats
