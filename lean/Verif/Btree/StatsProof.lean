import Verif.Btree.Stats
import Verif.Btree.Balance
/-
verify() succeeds on well-formed trees, and the statistics count the nodes that are allocated.
-/
set_option linter.unusedSectionVars false
namespace Gtl.Btree
open Gtl.Spec.SortedSeq
variable {α κ : Type}
variable {c : Cfg α κ} {t : Tree α} {H : Nat} {ht : Nat → Nat} {L : List α}

/-- The nodes that have been allocated and not freed, other than EmptyNode(). -/
def Tree.live (t : Tree α) : List (Node α) := t.heap.tail.filterMap id

/-! ### Loops that add up -/

theorem foldlM_add {β : Type} (f : β → Nat → Option β) (add : β → Nat → β)
    : ∀ (l : List Nat) (s : β), (∀ i ∈ l, ∀ s, f s i = some (add s i)) → l.foldlM f s = some (l.foldl add s)
  | [], s, _ => rfl
  | i :: l, s, h => by
    rw [List.foldlM_cons, h i (by simp)]
    exact foldlM_add f add l _ fun j hj => h j (by simp [hj])

theorem foldl_nat (g : Nat → Nat) : ∀ (l : List Nat) (s : Nat), l.foldl (fun s i => s + g i) s = s + (l.map g).sum
  | [], s => by simp
  | i :: l, s => by simp [foldl_nat g l, Nat.add_assoc]

theorem foldl_stats (g : Nat → NodeStats) : ∀ (l : List Nat) (s : NodeStats),
    l.foldl (fun s i => ⟨s.leaf + (g i).leaf, s.internal + (g i).internal⟩) s =
      ⟨s.leaf + (l.map fun i => (g i).leaf).sum, s.internal + (l.map fun i => (g i).internal).sum⟩
  | [], s => by simp
  | i :: l, s => by simp [foldl_stats g l, Nat.add_assoc]

/-- Indices of a list instead of its elements. -/
theorem range_map_get {β γ : Type} (l : List β) (g : β → γ) (d : γ) :
    (List.range l.length).map (fun i => (l[i]?).elim d g) = l.map g := by
  apply List.ext_getElem
  · simp
  · intro i h1 h2
    simp at h1
    simp [h1]

theorem inter_length : ∀ (ks : List (List α)) (vs : List α), ks.length = vs.length + 1 →
    (inter ks vs).length = vs.length + (ks.map List.length).sum
  | [k], [], _ => by simp
  | k :: k' :: ks, v :: vs, hl => by
    have := inter_length (k' :: ks) vs (by simpa using hl)
    rw [inter_cons, List.length_append, List.length_cons, this]
    simp; omega
  | [], _, hl => by simp at hl
  | [_], _ :: _, hl => by simp at hl
  | _ :: _ :: _, [], hl => by simp at hl

theorem mem_zF {v : α} : ∀ (ks : List (List α)) (vs : List α), ks.length = vs.length → v ∈ vs → v ∈ zF ks vs
  | k :: ks, w :: vs, hl, h => by
    rcases List.mem_cons.1 h with rfl | h
    · simp
    · have := mem_zF ks vs (by simpa using hl) h
      simp [this]
  | [], [], _, h => by simp at h
  | [], _ :: _, hl, _ => by simp at hl
  | _ :: _, [], hl, _ => by simp at hl

theorem mem_zB {v : α} : ∀ (vs : List α) (ks : List (List α)), ks.length = vs.length → v ∈ vs → v ∈ zB vs ks
  | w :: vs, k :: ks, hl, h => by
    rcases List.mem_cons.1 h with rfl | h
    · simp
    · have := mem_zB vs ks (by simpa using hl) h
      simp [this]
  | [], [], _, h => by simp at h
  | [], _ :: _, hl, _ => by simp at hl
  | _ :: _, [], hl, _ => by simp at hl

/-! ### height -/

section
variable (g : Good c t (Loose False ht) H ht L)
include g

theorem heightUp_ok : ∀ (d f : Nat) {n : Nat} {nd : Node α}, t.heap.get n = some nd → n ≠ 0 → ht n + d = H → 0 < d → d ≤ f →
    heightUp t.heap t.root f n = some d
  | 0, _, _, _, _, _, _, h0, _ => by omega
  | d + 1, 0, _, _, _, _, _, _, hf => by omega
  | d + 1, f + 1, n, nd, e, n0, hd, _, hf => by
    have hr : n ≠ t.root := by rintro rfl; rw [g.wf.rootHt] at hd; omega
    obtain ⟨p0, pd, ep, hk⟩ := g.wf.par n nd e n0 hr
    have hp := g.wf.par_ht e n0 hr
    unfold heightUp
    simp only [e, Option.bind_eq_bind, Option.bind_some]
    by_cases hd0 : d = 0
    · have : nd.parent = t.root := g.wf.root_of_ht ep p0 (by omega)
      rw [if_pos this, hd0]
    · rw [if_neg, heightUp_ok d f ep p0 (by omega) (by omega) (by omega)]
      · rfl
      · intro h
        rw [h, g.wf.rootHt] at hp
        omega

theorem Good.height (hs : t.size = L.length) : t.height = some (H + 1) := by
  have hne : t.size ≠ 0 := by rw [hs]; exact fun h => g.ne_nil (List.length_eq_zero_iff.1 h)
  obtain ⟨rn, er, hp⟩ := g.left
  obtain ⟨ld, el, l0, hl⟩ := lm_live g.wf H er g.wf.root0 g.wf.rootHt
  have hlt := g.wf.height_lt
  unfold Tree.height
  rw [if_neg hne]
  unfold heightUp
  simp only [er, Option.bind_eq_bind, Option.bind_some, hp]
  by_cases h0 : H = 0
  · have : lm t.heap H t.root = t.root := g.wf.root_of_ht el l0 (by omega)
    rw [if_pos this, h0]
  · rw [if_neg, heightUp_ok g H _ el l0 (by omega) (by omega) (by omega)]
    · rfl
    · intro h
      rw [h, g.wf.rootHt] at hl
      omega

/-! ### The numbers of nodes -/

/-- Node `n` is a leaf. -/
def leafAt (h : Heap α) (n : Nat) : Bool := match h.get n with | some nd => nd.leaf | none => false

theorem internalStats_ok (hs : t.size ≠ 0) : ∀ (k f : Nat) {n : Nat} {nd : Node α}, t.heap.get n = some nd → n ≠ 0 → ht n = k →
    k < f → t.internalStats f n = some ⟨(desc t.heap k n).countP (leafAt t.heap), (desc t.heap k n).countP (fun n => !leafAt t.heap n)⟩
  | _, 0, _, _, _, _, _, h => by omega
  | 0, f + 1, n, nd, e, n0, hk, _ => by
    have hleaf := (g.wf.leaf_iff e n0).2 hk
    unfold Tree.internalStats
    rw [if_neg (fun h => hs h.2)]
    simp [e, hleaf, desc, leafAt]
  | k + 1, f + 1, n, nd, e, n0, hk, hf => by
    have hleaf := g.wf.leaf_false e n0 (by omega)
    have hl := g.wf.kids_len e n0 (by omega)
    unfold Tree.internalStats
    rw [if_neg (fun h => hs h.2)]
    simp only [e, Option.bind_eq_bind, Option.bind_some, hleaf, Bool.false_eq_true, if_false]
    let G : Nat → NodeStats := fun i => (nd.kids[i]?).elim ⟨0, 0⟩ fun x =>
      ⟨(desc t.heap k x).countP (leafAt t.heap), (desc t.heap k x).countP (fun n => !leafAt t.heap n)⟩
    rw [foldlM_add _ (fun s i => ⟨s.leaf + (G i).leaf, s.internal + (G i).internal⟩)]
    · rw [foldl_stats G]
      have hc : nd.count + 1 = nd.kids.length := hl.symm
      rw [hc]
      have e1 : (List.range nd.kids.length).map (fun i => (G i).leaf) =
          nd.kids.map fun x => (desc t.heap k x).countP (leafAt t.heap) := by
        rw [← range_map_get nd.kids _ 0]
        apply List.map_congr_left
        intro i _
        simp only [G]
        cases nd.kids[i]? <;> rfl
      have e2 : (List.range nd.kids.length).map (fun i => (G i).internal) =
          nd.kids.map fun x => (desc t.heap k x).countP (fun n => !leafAt t.heap n) := by
        rw [← range_map_get nd.kids _ 0]
        apply List.map_congr_left
        intro i _
        simp only [G]
        cases nd.kids[i]? <;> rfl
      rw [e1, e2]
      simp [desc, kidsOf_eq e, List.countP_append, List.countP_flatMap, leafAt, e, hleaf, Function.comp_def, Nat.add_comm]
    · intro i hi s
      have hi' : i < nd.kids.length := by
        have := List.mem_range.1 hi
        rw [hl]; exact this
      have hx : nd.kids[i]? = some nd.kids[i] := List.getElem?_eq_getElem hi'
      obtain ⟨x0, _, hxk, xd, ex, _⟩ := g.wf.kid _ _ _ _ e n0 hx
      simp only [hx, Option.bind_some, internalStats_ok hs k f ex x0 (by omega) (by omega), G, Option.elim_some]

theorem Good.live_perm : ((desc t.heap H t.root).filterMap t.heap.get).Perm t.live := by
  obtain ⟨rn, er⟩ := g.wf.rootLive
  have hz := Heap.get_lt g.wf.zero
  have hheap : t.live = (List.range' 1 (t.heap.length - 1)).filterMap t.heap.get := by
    have : t.heap.tail = (List.range' 1 (t.heap.length - 1)).map t.heap.get := by
      apply List.ext_getElem
      · simp
      · intro i h1 h2
        simp at h1
        simp only [List.getElem_tail, List.getElem_map, List.getElem_range', Heap.get]
        rw [List.getElem?_eq_getElem (by omega)]
        simp [Nat.add_comm]
    unfold Tree.live
    rw [this, List.filterMap_map]
    rfl
  rw [hheap]
  have hf : ∀ l : List Nat, l.filterMap t.heap.get = (l.filter fun n => (t.heap.get n).isSome).filterMap t.heap.get := by
    intro l
    induction l with
    | nil => rfl
    | cons a l ih =>
      rw [List.filter_cons]
      cases h : t.heap.get a with
      | none => simp [h, ih]
      | some x => simp [h, ih]
  rw [hf (List.range' _ _)]
  apply List.Perm.filterMap
  rw [List.perm_ext_iff_of_nodup (desc_nodup g.wf H er g.wf.root0 g.wf.rootHt) ((List.nodup_range').filter _)]
  intro x
  simp only [List.mem_filter, List.mem_range', Nat.one_mul]
  constructor
  · intro hx
    obtain ⟨⟨xd, ex⟩, x0, _⟩ := desc_mem g.wf H er g.wf.root0 g.wf.rootHt hx
    have := Heap.get_lt ex
    exact ⟨⟨x - 1, by omega, by omega⟩, by simp [ex]⟩
  · rintro ⟨⟨i, hi, rfl⟩, hx⟩
    obtain ⟨xd, ex⟩ := Option.isSome_iff_exists.1 hx
    have hb := g.wf.bound _ _ ex (by omega)
    obtain ⟨h2, h3, ⟨_, h4⟩, h5⟩ := mem_desc g.wf (H - ht (1 + i)) (k := H) ex (by omega) (by omega) (Nat.le_refl _) rfl
    rw [g.wf.root_of_ht h4 h3 h5] at h2
    exact h2

theorem countP_get (p : Node α → Bool) (l : List Nat) (hl : ∀ n ∈ l, ∃ nd, t.heap.get n = some nd) :
    (l.filterMap t.heap.get).countP p = l.countP fun n => match t.heap.get n with | some nd => p nd | none => false := by
  induction l with
  | nil => rfl
  | cons a l ih =>
    obtain ⟨nd, e⟩ := hl a (by simp)
    rw [List.filterMap_cons, e, List.countP_cons, List.countP_cons, ih (fun n hn => hl n (by simp [hn]))]
    simp [e]

theorem Good.stats (hs : t.size = L.length) :
    t.stats = some ⟨t.live.countP Node.leaf, t.live.countP fun n => !n.leaf⟩ := by
  have hne : t.size ≠ 0 := by rw [hs]; exact fun h => g.ne_nil (List.length_eq_zero_iff.1 h)
  obtain ⟨rn, er⟩ := g.wf.rootLive
  have hlt := g.wf.height_lt
  unfold Tree.stats
  have hmem : ∀ n ∈ desc t.heap H t.root, ∃ nd, t.heap.get n = some nd := fun n hn =>
    (desc_mem g.wf H er g.wf.root0 g.wf.rootHt hn).1
  rw [internalStats_ok g hne H _ er g.wf.root0 g.wf.rootHt (by omega), ← g.live_perm.countP_eq, ← g.live_perm.countP_eq,
    countP_get g _ _ hmem, countP_get g _ _ hmem]
  congr 2
  apply List.countP_congr
  intro n hn
  obtain ⟨nd, e⟩ := hmem n hn
  simp [leafAt, e]

/-- Live nodes are nodes of the tree. -/
theorem Good.live_mem {nd : Node α} (h : nd ∈ t.live) : ∃ n, t.heap.get n = some nd ∧ n ≠ 0 := by
  obtain ⟨rn, er⟩ := g.wf.rootLive
  obtain ⟨n, hn, e⟩ := List.mem_filterMap.1 (g.live_perm.mem_iff.2 h)
  exact ⟨n, e, (desc_mem g.wf H er g.wf.root0 g.wf.rootHt hn).2.1⟩

/-! ### The values are in the nodes -/

theorem elems_length : ∀ (k : Nat) {n : Nat} {nd : Node α}, t.heap.get n = some nd → n ≠ 0 → ht n = k →
    (elems t.heap k n).length = ((desc t.heap k n).map fun m => (valsOf t.heap m).length).sum
  | 0, n, nd, e, n0, hk => by simp [elems, desc]
  | k + 1, n, nd, e, n0, hk => by
    have hl := g.wf.kids_len e n0 (by omega)
    simp only [elems, desc, kidsOf_eq e, valsOf_eq e]
    rw [inter_length _ _ (by simpa using hl), List.map_append, List.sum_append, List.map_flatMap]
    simp only [List.map_cons, List.map_nil, List.sum_cons, List.sum_nil, valsOf_eq e, List.map_map, Nat.add_zero]
    rw [Nat.add_comm]
    congr 1
    have : ∀ ks : List Nat, (∀ x ∈ ks, x ∈ nd.kids) → (ks.map (List.length ∘ elems t.heap k)).sum =
        (ks.flatMap fun a => (desc t.heap k a).map fun m => (valsOf t.heap m).length).sum := by
      intro ks hks
      induction ks with
      | nil => rfl
      | cons x ks ih =>
        obtain ⟨x0, _, hx', xd, ex, _⟩ := g.wf.kid_mem e n0 (hks x (by simp))
        rw [List.map_cons, List.sum_cons, List.flatMap_cons, List.sum_append, ih (fun y hy => hks y (by simp [hy])),
          Function.comp_apply, elems_length k ex x0 (by omega)]
    exact this _ fun _ h => h

theorem Good.live_vals : L.length = (t.live.map fun nd => nd.vals.length).sum := by
  obtain ⟨rn, er⟩ := g.wf.rootLive
  rw [← g.seq, elems_length g H er g.wf.root0 g.wf.rootHt, ← (g.live_perm.map fun nd => nd.vals.length).sum_nat]
  have : ∀ l : List Nat, (∀ n ∈ l, ∃ nd, t.heap.get n = some nd) → (l.map fun m => (valsOf t.heap m).length).sum =
      ((l.filterMap t.heap.get).map fun nd => nd.vals.length).sum := by
    intro l hl
    induction l with
    | nil => rfl
    | cons a l ih =>
      obtain ⟨nd, e⟩ := hl a (by simp)
      rw [List.filterMap_cons, e]
      simp [ih (fun n hn => hl n (by simp [hn])), valsOf_eq e]
  exact this _ fun n hn => (desc_mem g.wf H er g.wf.root0 g.wf.rootHt hn).1

/-! ### Bytes -/

/-- The bytes of a node. -/
def Sizes.node (z : Sizes) (nd : Node α) : Nat := if nd.leaf then z.leaf nd.maxCount else z.internal

theorem sum_two (z : Sizes) (K : Nat) : ∀ l : List (Node α), (∀ nd ∈ l, nd.leaf = true → nd.maxCount = K) →
    (l.map z.node).sum = l.countP Node.leaf * z.leaf K + (l.countP fun n => !n.leaf) * z.internal
  | [], _ => by simp
  | nd :: l, h => by
    rw [List.map_cons, List.sum_cons, sum_two z K l fun x hx => h x (by simp [hx]), List.countP_cons, List.countP_cons]
    unfold Sizes.node
    cases hl : nd.leaf
    · simp [Nat.add_mul]; omega
    · simp [Nat.add_mul, h nd (by simp) hl]; omega

theorem Good.bytesUsed (hs : t.size = L.length) (z : Sizes) :
    t.bytesUsed c z = some (z.tree + (t.live.map z.node).sum) := by
  obtain ⟨rn, er⟩ := g.wf.rootLive
  unfold Tree.bytesUsed
  simp only [g.stats hs, Option.bind_eq_bind, Option.bind_some, er]
  by_cases h0 : H = 0
  · have hlive : t.live = [rn] := by
      have := g.live_perm
      rw [h0] at this
      simp only [desc, List.filterMap_cons, er, List.filterMap_nil] at this
      exact List.perm_singleton.1 this.symm
    have hleaf := (g.wf.leaf_iff er g.wf.root0).2 (by rw [g.wf.rootHt, h0])
    have hm : rn.maxCount ≠ 0 := by simpa [Node.leaf] using hleaf
    simp [hlive, hleaf, Sizes.node, Node.cap, hm]
  · have hleaf := g.wf.leaf_false er g.wf.root0 (by rw [g.wf.rootHt]; omega)
    have hin : rn ∈ t.live := g.live_perm.mem_iff.1 (List.mem_filterMap.2
      ⟨t.root, (mem_desc g.wf 0 er g.wf.root0 (by rw [g.wf.rootHt]; rfl) (Nat.le_refl _) rfl).1, er⟩)
    have hpos : 0 < t.live.countP fun n => !n.leaf := List.countP_pos_iff.2 ⟨rn, hin, by simp [hleaf]⟩
    rw [if_neg (by omega), sum_two g z c.K]
    · rw [Nat.add_assoc]
    · intro nd hnd hl
      obtain ⟨n, e, n0⟩ := g.live_mem hnd
      have hh := (g.wf.leaf_iff e n0).1 hl
      have hm : nd.maxCount ≠ 0 := by simpa [Node.leaf] using hl
      have := g.wf.cap_eq e n0 (.inl (by rintro rfl; rw [g.wf.rootHt] at hh; exact h0 hh))
      simpa [Node.cap, hm] using this

/-! ### verify -/

/-- No element is less than one before it. -/
def InOrder (c : Cfg α κ) (l : List α) : Prop := l.Pairwise fun a b => c.lt (c.key b) (c.key a) = false

theorem orderedVals_ok : ∀ l : List α, InOrder c l → orderedVals c l = true
  | [], _ => rfl
  | [_], _ => rfl
  | a :: b :: l, h => by
    obtain ⟨h1, h2⟩ := List.pairwise_cons.1 h
    simp [orderedVals, h1 b (by simp), orderedVals_ok (b :: l) h2]

theorem internalVerify_ok : ∀ (k f : Nat) {n : Nat} {nd : Node α} (lo hi : Option κ), t.heap.get n = some nd → n ≠ 0 → ht n = k →
    k < f → InOrder c (elems t.heap k n) → (∀ x ∈ lo, ∀ v ∈ elems t.heap k n, c.lt (c.key v) x = false) →
    (∀ x ∈ hi, ∀ v ∈ elems t.heap k n, c.lt x (c.key v) = false) →
    internalVerify c t.heap f n lo hi = some (elems t.heap k n).length
  | _, 0, _, _, _, _, _, _, _, h, _, _, _ => by omega
  | k, f + 1, n, nd, lo, hi, e, n0, hk, hf, ho, hlo, hhi => by
    have hfull : 1 ≤ nd.vals.length := g.full n nd e n0 (by simp)
    have hcap := g.wf.vals_le_cap e n0
    have hsub : nd.vals.Sublist (elems t.heap k n) := by
      cases k with
      | zero => simp [elems, valsOf_eq e]
      | succ k =>
        simp only [elems, valsOf_eq e, kidsOf_eq e]
        exact vals_sublist_inter _ _ (by simpa using g.wf.kids_len e n0 (by omega))
    have ha : nd.vals[0]? = some nd.vals[0] := List.getElem?_eq_getElem hfull
    have hb : nd.vals[nd.count - 1]? = some (nd.vals[nd.count - 1]'(by simp only [Node.count]; omega)) :=
      List.getElem?_eq_getElem _
    have c3 : (lo.all fun lo => !c.lt (c.key nd.vals[0]) lo) = true := by
      cases lo with
      | none => rfl
      | some x => simp [hlo x rfl _ (hsub.subset (List.getElem_mem _))]
    have c4 : (hi.all fun hi => !c.lt hi (c.key (nd.vals[nd.count - 1]'(by simp only [Node.count]; omega)))) = true := by
      cases hi with
      | none => rfl
      | some x => simp [hhi x rfl _ (hsub.subset (List.getElem_mem _))]
    unfold internalVerify
    rw [e]
    simp only [Option.bind_eq_bind, Option.bind_some, ha, hb, c3, c4,
      check_of (show decide (0 < nd.count) = true from decide_eq_true hfull),
      check_of (show decide (nd.count ≤ nd.cap c) = true from decide_eq_true hcap), check_of rfl,
      check_of (orderedVals_ok g _ (ho.sublist hsub))]
    cases k with
    | zero =>
      have hleaf := (g.wf.leaf_iff e n0).2 hk
      simp [hleaf, elems, valsOf_eq e, Node.count]
    | succ k =>
      have hleaf := g.wf.leaf_false e n0 (by omega)
      have hl := g.wf.kids_len e n0 (by omega)
      simp only [hleaf, Bool.false_eq_true, if_false]
      let G : Nat → Nat := fun i => (nd.kids[i]?).elim 0 fun x => (elems t.heap k x).length
      rw [foldlM_add _ (fun s i => s + G i)]
      · have hc : nd.count + 1 = nd.kids.length := hl.symm
        rw [foldl_nat, hc, range_map_get nd.kids (fun x => (elems t.heap k x).length) 0]
        simp only [elems, valsOf_eq e, kidsOf_eq e]
        rw [inter_length _ _ (by simpa using hl), List.map_map]
        rfl
      · intro i hi s
        have hi2 : i < nd.vals.length + 1 := List.mem_range.1 hi
        have hi' : i < nd.kids.length := by omega
        have hx : nd.kids[i]? = some nd.kids[i] := List.getElem?_eq_getElem hi'
        obtain ⟨x0, _, hxk, xd, ex, hpar, hpos⟩ := g.wf.kid _ _ _ _ e n0 hx
        have hsplit := elems_kid (k := k) e hl hx
        rw [hsplit] at ho hlo hhi
        obtain ⟨_, ho2, ho3⟩ := List.pairwise_append.1 ho
        obtain ⟨ho4, _, ho5⟩ := List.pairwise_append.1 ho2
        simp only [hx, Option.bind_some, ex, hpar, hpos, BEq.rfl, check_of rfl]
        rw [internalVerify_ok k f _ _ ex x0 (by omega) (by omega) ho4]
        · simp only [Option.bind_some, G, hx, Option.elim_some]
        · intro y hy v hv
          by_cases hi0 : i = 0
          · rw [if_pos hi0] at hy
            exact hlo y hy v (by simp [hv])
          · rw [if_neg hi0] at hy
            obtain ⟨u, hu, rfl⟩ := Option.map_eq_some_iff.1 hy
            refine ho3 u (mem_zF _ _ (by simp; omega) ?_) v (by simp [hv])
            exact List.mem_of_getElem? (i := i - 1) (by rw [List.getElem?_take_of_lt (by omega)]; exact hu)
        · intro y hy v hv
          by_cases hic : i = nd.count
          · rw [if_pos hic] at hy
            exact hhi y hy v (by simp [hv])
          · rw [if_neg hic] at hy
            obtain ⟨u, hu, rfl⟩ := Option.map_eq_some_iff.1 hy
            have : i ≠ nd.vals.length := hic
            refine ho5 v hv u (mem_zB _ _ (by simp; omega) ?_)
            exact List.mem_of_getElem? (i := 0) (by rw [List.getElem?_drop]; exact hu)

theorem Good.verify (hs : t.size = L.length) (ho : InOrder c L) : t.verify c = some () := by
  have hne : t.size ≠ 0 := by rw [hs]; exact fun h => g.ne_nil (List.length_eq_zero_iff.1 h)
  obtain ⟨rn, pn, er, ep, hleaf, hp⟩ := g.root_leaf
  have hlt := g.wf.height_lt
  obtain ⟨_, ld, x, el, _⟩ := g.rm_last
  obtain ⟨_, el', l0, hl0⟩ := x.live g.wf
  rw [el] at el'; cases el'
  have hll := (g.wf.leaf_iff el l0).2 hl0
  have hv := internalVerify_ok g H (t.heap.length + 1) none none er g.wf.root0 g.wf.rootHt (by omega) (by rw [g.seq]; exact ho)
    (by simp) (by simp)
  rw [g.seq, ← hs] at hv
  have hfull : 1 ≤ rn.vals.length := g.full _ _ er g.wf.root0 (by simp)
  have hfirst : t.firstNode = some rn.parent := by
    unfold Tree.firstNode
    rw [er, hp]
    by_cases h0 : H = 0
    · have := (g.wf.leaf_iff er g.wf.root0).2 (by rw [g.wf.rootHt, h0])
      have hc : 0 < rn.count := hfull
      simp [this, hc, h0, lm]
    · have hl := g.wf.leaf_false er g.wf.root0 (by rw [g.wf.rootHt]; omega)
      have hd := descendFirst_ok g H (t.heap.length + 2) er g.wf.root0 g.wf.rootHt (by omega)
      unfold descendFirst at hd
      simpa [er, hl] using hd
  have hlast : t.lastNode = some t.rightmost := by
    unfold Tree.lastNode
    rw [er, g.right]
    by_cases h0 : H = 0
    · have := (g.wf.leaf_iff er g.wf.root0).2 (by rw [g.wf.rootHt, h0])
      have hc : 1 ≤ rn.count := hfull
      simp [this, hc, h0, rm, ep, check]
    · have hl := g.wf.leaf_false er g.wf.root0 (by rw [g.wf.rootHt]; omega)
      have hd := descendLast_ok g H (t.heap.length + 2) er g.wf.root0 g.wf.rootHt (by omega)
      unfold descendLast at hd
      simpa [er, hl] using hd
  unfold Tree.verify
  simp [er, el, hne, hv, hfirst, hlast, ep, hleaf, hll, check]

end

theorem inOrder_of_sorted {multi : Bool} (o : StrictWeak c.lt) (h : Sorted multi c.key c.lt L) : InOrder c L := by
  unfold Sorted at h
  cases multi
  · refine List.Pairwise.imp ?_ h
    intro a b hab
    cases hb : c.lt (c.key b) (c.key a)
    · rfl
    · have := o.trans _ _ _ hab hb
      rw [o.irrefl] at this
      cases this
  · exact h

theorem Empty.verify (e : Empty t) : t.verify c = some () := by
  unfold Tree.verify
  simp [e.root, e.rightmost, e.size, e.zero, emptyNode, Tree.firstNode, Tree.lastNode, Node.leaf, Node.count, check, incrementEmpty, climb]

theorem Empty.live (e : Empty t) : t.live = [] := by
  unfold Tree.live
  rw [List.filterMap_eq_nil_iff]
  intro a ha
  cases a with
  | none => rfl
  | some nd =>
    obtain ⟨i, hi, h⟩ := List.mem_iff_getElem.1 ha
    rw [List.getElem_tail] at h
    have := e.only (i + 1) nd (by
      unfold Heap.get
      rw [List.getElem?_eq_getElem (by simp at hi; omega), h]
      rfl)
    omega

theorem Empty.stats (e : Empty t) : t.stats = some ⟨0, 0⟩ := by
  simp [Tree.stats, Tree.internalStats, e.size]

end Gtl.Btree
