import Verif.Btree.Throw
import Verif.Props.Btree
/-
C66: constructing the new element throws while it is inserted into a B-tree container. The model of such
an insertion is `insertThrow` (`Verif/Btree/Throw.lean`); its slots are `some v` or raw (`none`).
-/
set_option linter.unusedSectionVars false
namespace Gtl.Props.Btree
open Gtl.Btree Gtl.Spec.SortedSeq
variable {α κ : Type} {c : Cfg α κ}

/-- The element with key `k` is going to be constructed in slot `i` of a leaf with `n` elements. -/
def GoesTo (c : Cfg α κ) (t : Tree α) (k : κ) (i n : Nat) : Prop :=
  ∃ place t' it nd, insertPlace c t k = some (.inr place) ∧ makeRoom c (firstRoot t) place = some (t', it) ∧
    t'.heap.get it.node = some nd ∧ it.pos = i ∧ nd.vals.length = n

theorem firstRoot_of_size {t : Tree α} (h : t.size ≠ 0) : firstRoot t = t := by
  unfold firstRoot
  rw [if_neg h]

/-- Where the insertion of a new element into a container that is not empty goes. -/
theorem throw_at (hK : 3 ≤ c.K) (o : StrictWeak c.lt) {t : Tree α} {L : List α} (r : Rep c t L)
    (so : Sorted c.multi c.key c.lt L) (hL : L ≠ []) {k : κ} {i n : Nat} (hg : GoesTo c t k i n) :
    ∃ t' it H ht nd, insertThrow c t k = internalEmplaceThrow c t it ∧ (∃ it', makeRoom c t it = some (t', it') ∧
      it'.pos = i ∧ Good c t' (· = it'.node) H ht L ∧ t'.size = t.size ∧ t'.heap.get it'.node = some nd ∧ it'.node ≠ 0 ∧
      nd.leaf = true ∧ nd.vals.length < nd.cap c ∧ nd.vals.length = n ∧ i ≤ n) := by
  obtain ⟨H, ht, g, hs⟩ := r.good hL
  have hfr : firstRoot t = t := firstRoot_of_size (by
    rw [hs]; exact fun h => hL (List.length_eq_zero_iff.1 h))
  obtain ⟨place, t', it, nd, e1, e2, e3, e4, e5⟩ := hg
  rw [hfr] at e2
  have hp : ∃ k X Y, Pt t.heap t.root H k place.node place.pos X Y := by
    unfold insertPlace at e1
    rw [hfr] at e1
    by_cases hm : c.multi = true
    · rw [if_pos hm] at e1
      obtain ⟨r, X, Y, f1, hr, ⟨it, f2, k', p, _⟩, _⟩ := internalUpperBound_ok g o so k
      simp only [f1, Option.bind_eq_bind, Option.bind_some, f2] at e1
      cases e1
      exact ⟨k', X, Y, p⟩
    · rw [if_neg hm] at e1
      obtain ⟨it, eq, found, f1, hf, h⟩ := locate_found_ok g o so k
      simp only [f1, Option.bind_eq_bind, Option.bind_some] at e1
      rw [hf] at e1
      cases found with
      | some r => cases e1
      | none =>
        cases e1
        obtain ⟨X, Y, p, h1, h2⟩ := h
        exact ⟨_, X, Y, p⟩
  obtain ⟨k', X, Y, p⟩ := hp
  obtain ⟨t1, it1, H1, ht1, nd1, f1, f2, f3, f4, f5, f6, f7, f8⟩ := makeRoom_ok hK g (.inl (by simp)) p
  have f1 : makeRoom c t place = some (t1, it1) := f1
  rw [e2] at f1
  cases f1
  rw [e3] at f5
  cases f5
  obtain ⟨nd2, en2, _, _, hi⟩ := f4.live f2.wf
  rw [e3] at en2
  cases en2
  refine ⟨t', place, H1, ht1, nd, ?_, it, e2, e4, f2, f3, e3, f6, f7, f8, e5, by omega⟩
  unfold insertThrow
  rw [e1, hfr]
  rfl

/-- C66: after every history, in a container without duplicates: if the key is there, nothing is constructed, so that
nothing throws; the call gives the place of the element with that key, and the container is as it was. -/
theorem C66_present (hK : 3 ≤ c.K) (o : StrictWeak c.lt) (hm : c.multi = false) (ops : List (Op α κ))
    (hs : Safe c.multi c.key c.lt [] ops) :
    ∃ rs t L, execAll c Tree.empty ops = some (rs, t) ∧ t.toList = some L ∧
      ∀ k, L.any (same c.key c.lt k) = true →
        ∃ it v, insertThrow c t k = some (.found it t) ∧ deref t.heap it = some v ∧ v ∈ L ∧ same c.key c.lt k v = true := by
  obtain ⟨rs, t, L, e, _, r, so⟩ := execAll_ok hK o ops (holds_empty c) hs
  refine ⟨rs, t, L, e, r.toList, ?_⟩
  intro k hk
  obtain ⟨v, hv, hsame⟩ := List.any_eq_true.1 hk
  have hL : L ≠ [] := by rintro rfl; cases hv
  obtain ⟨H, ht, g, hsz⟩ := r.good hL
  have hfr : firstRoot t = t := firstRoot_of_size (by
    rw [hsz]; exact fun h => hL (List.length_eq_zero_iff.1 h))
  obtain ⟨it, eq, found, f1, hf, h⟩ := locate_found_ok g o so k
  have hs' : c.lt (c.key v) k = false ∧ c.lt k (c.key v) = false := by
    simpa [same] using hsame
  cases found with
  | none =>
    obtain ⟨X, Y, p, h1, h2⟩ := h
    have ht' := p.total g.wf
    rw [g.seq] at ht'
    rw [← ht'] at hv
    rcases List.mem_append.1 hv with hx | hy
    · rw [h1 v hx] at hs'; cases hs'.1
    · rw [h2 v hy] at hs'; cases hs'.2
  | some r' =>
    obtain ⟨X, w, Y, q, hw⟩ := h
    refine ⟨r', w, ?_, q.deref g, ?_, ?_⟩
    · unfold insertThrow insertPlace
      simp only [hm, Bool.false_eq_true, if_false, hfr, f1, Option.bind_eq_bind, Option.bind_some]
      rw [hf]
      rfl
    · obtain ⟨k', p, _⟩ := q
      have := p.total g.wf
      rw [g.seq] at this
      rw [← this]; simp
    · obtain ⟨a, b⟩ := hw
      simp [same, a, b]

theorem insertIdx_append_left {β : Type} (l r : List β) (i : Nat) (a : β) (h : i ≤ l.length) :
    (l ++ r).insertIdx i a = l.insertIdx i a ++ r := by
  induction l generalizing i with
  | nil => simp at h; subst h; simp
  | cons x l ih => cases i with
    | zero => simp
    | succ i => simp at h; simp [ih i h]

/-- C66, partial: after every history, if the new element is constructed behind the last element of a leaf
that is not empty, then the exception leaves no trace: no element is lost, the iteration gives the same
elements, every further sequence of calls answers as if the insertion had not been tried, and the container
can be destroyed and leaves no node behind. Missing: all other places (below). -/
theorem C66_end_partial (hK : 3 ≤ c.K) (o : StrictWeak c.lt) (ops : List (Op α κ)) (hs : Safe c.multi c.key c.lt [] ops) :
    ∃ rs t L, execAll c Tree.empty ops = some (rs, t) ∧ t.toList = some L ∧
      ∀ k n, L ≠ [] → 0 < n → GoesTo c t k n n →
        ∃ t', insertThrow c t k = some (.threw t'.slots []) ∧ t'.toList = some L ∧ t'.size = t.size ∧
          (∀ ops', Safe c.multi c.key c.lt L ops' →
            ∃ rs' t'' L'', execAll c t' ops' = some (rs', t'') ∧ Run c.multi c.key c.lt L ops' rs' L'' ∧ t''.toList = some L'') ∧
          ∃ t'', t'.slots.destroy = some t'' ∧ ∀ m md, t''.heap.get m = some md → m = 0 := by
  obtain ⟨rs, t, L, e, _, r, so⟩ := execAll_ok hK o ops (holds_empty c) hs
  refine ⟨rs, t, L, e, r.toList, ?_⟩
  intro k n hL hn hg
  obtain ⟨t', it, H, ht, nd, e1, it', e2, hpos, g, hsz, en, n0, hleaf, hroom, hlen, _⟩ := throw_at hK o r so hL hg
  have g' : Good c t' (Loose False ht) H ht L := ⟨g.wf, g.left, g.right, fun m md em m0 _ => by
    by_cases hm : m = it'.node
    · subst hm
      rw [en] at em
      cases em
      omega
    · exact g.full m md em m0 hm, g.seq⟩
  have r' : Rep c t' L := .inr ⟨H, ht, g', by rw [hsz]; exact r.size⟩
  have hth : insertThrow c t k = some (.threw t'.slots []) := by
    rw [e1]
    unfold internalEmplaceThrow emplaceLeafThrow
    simp only [e2, Option.bind_eq_bind, Option.bind_some, en]
    rw [check_of (b := nd.leaf && decide (it'.pos ≤ nd.count) && decide (nd.count < nd.cap c)) (by
      rw [hleaf]
      exact (Bool.and_eq_true _ _).mpr ⟨decide_eq_true (by show it'.pos ≤ nd.vals.length; omega), decide_eq_true hroom⟩)]
    have h1 : ((nd.slots.vals.insertIdx it'.pos none).take nd.count) = nd.slots.vals := by
      rw [hpos, ← hlen]
      have : nd.vals.length = nd.slots.vals.length := by simp [Node.slots]
      rw [this, List.insertIdx_length_self]
      simp [Node.slots, Node.count]
    have h2 : ((nd.slots.vals.insertIdx it'.pos none).drop nd.count).filterMap (fun v => v) = [] := by
      rw [hpos, ← hlen]
      have : nd.vals.length = nd.slots.vals.length := by simp [Node.slots]
      rw [this, List.insertIdx_length_self]
      simp [Node.slots, Node.count]
    rw [h1, h2]
    have h3 : t'.heap.slots.set it'.node { nd.slots with vals := nd.slots.vals } = t'.heap.slots := by
      have hg := Heap.get_slots t'.heap it'.node
      rw [en] at hg
      have hlt := Heap.get_lt hg
      unfold Heap.set
      apply List.ext_getElem?
      intro j
      rw [List.getElem?_set]
      by_cases hj : it'.node = j
      · subst hj
        rw [if_pos rfl, if_pos hlt]
        unfold Heap.get at hg
        rw [List.getElem?_eq_getElem hlt] at hg ⊢
        simp only [Option.join_some, Option.map_some] at hg
        rw [hg]
      · rw [if_neg hj]
    simp only [Option.bind_some]
    rw [h3]
    rfl
  refine ⟨t', hth, r'.toList, hsz, ?_, Tree.destroy_slots r'⟩
  intro ops' hs'
  obtain ⟨rs', t'', L'', e', h', hh'⟩ := execAll_ok hK o ops' ⟨r', so⟩ hs'
  exact ⟨rs', t'', L'', e', h', hh'.1.toList⟩

/-- C66, refuted at every other place: after every history, if elements of the leaf come after the new one, then
the exception leaves a raw slot among the elements and one element outside of the nodes, which nobody will destroy;
and destroying the container is undefined behaviour. -/
theorem C66_inside_refuted (hK : 3 ≤ c.K) (o : StrictWeak c.lt) (ops : List (Op α κ)) (hs : Safe c.multi c.key c.lt [] ops) :
    ∃ rs t L, execAll c Tree.empty ops = some (rs, t) ∧ t.toList = some L ∧
      ∀ k i n, L ≠ [] → i < n → GoesTo c t k i n →
        ∃ b v, insertThrow c t k = some (.threw b [v]) ∧ v ∈ L ∧ b.size = t.size ∧ b.destroy = none := by
  obtain ⟨rs, t, L, e, _, r, so⟩ := execAll_ok hK o ops (holds_empty c) hs
  refine ⟨rs, t, L, e, r.toList, ?_⟩
  intro k i n hL hin hg
  obtain ⟨t', it, H, ht, nd, e1, it', e2, hpos, g, hsz, en, n0, hleaf, hroom, hlen, _⟩ := throw_at hK o r so hL hg
  have hcount : nd.count = nd.slots.vals.length := by simp [Node.slots, Node.count]
  have hne : nd.vals ≠ [] := by intro h; rw [h] at hlen; simp at hlen; omega
  obtain ⟨w, v, hv⟩ : ∃ w v, nd.vals = w ++ [v] := by
    rcases List.eq_nil_or_concat nd.vals with h | ⟨w, v, h⟩
    · exact absurd h hne
    · exact ⟨w, v, by simpa using h⟩
  have hw : w.length + 1 = n := by rw [← hlen, hv]; simp
  have hafter : nd.slots.vals.insertIdx it'.pos none = (w.map some).insertIdx it'.pos none ++ [some v] := by
    have : nd.slots.vals = w.map some ++ [some v] := by simp [Node.slots, hv]
    rw [this, insertIdx_append_left _ _ _ _ (by simp; omega)]
  have hl : ((w.map some).insertIdx it'.pos none).length = nd.count := by
    rw [List.length_insertIdx, if_pos (by simp; omega), List.length_map]
    show w.length + 1 = nd.vals.length
    omega
  refine ⟨{ t'.slots with heap := t'.heap.slots.set it'.node { nd.slots with vals := (w.map some).insertIdx it'.pos none } },
    v, ?_, ?_, hsz, ?_⟩
  · rw [e1]
    unfold internalEmplaceThrow emplaceLeafThrow
    simp only [e2, Option.bind_eq_bind, Option.bind_some, en]
    rw [check_of (b := nd.leaf && decide (it'.pos ≤ nd.count) && decide (nd.count < nd.cap c)) (by
      rw [hleaf]
      exact (Bool.and_eq_true _ _).mpr ⟨decide_eq_true (by show it'.pos ≤ nd.vals.length; omega), decide_eq_true hroom⟩)]
    rw [hafter, ← hl, List.take_left, List.drop_left]
    rfl
  · have hm : v ∈ elems t'.heap (ht it'.node) it'.node := by
      rw [(g.wf.leaf_iff en n0).1 hleaf]
      simp [elems, valsOf_eq en, hv]
    obtain ⟨A, B, x⟩ := g.wf.ctx' en n0
    have := x.total g.wf
    rw [g.seq] at this
    rw [this]
    simp [hm]
  · have w' : WF c.slots (t'.heap.slots.set it'.node { nd.slots with vals := (w.map some).insertIdx it'.pos none })
        t'.root H ht := by
      refine set_wf g.wf.slots (by rw [Heap.get_slots, en]; rfl) n0 _ ?_
      have := g.wf.slots.shape it'.node nd.slots (by rw [Heap.get_slots, en]; rfl) n0
      unfold Shape at this ⊢
      dsimp only at this ⊢
      rw [hl, hcount]
      exact this
    refine Tree.destroy_raw (n := it'.node) w' ?_ (Heap.get_set _ (by rw [Heap.get_slots, en]; rfl) _ |>.trans (if_pos rfl)) n0 ?_
    · show t'.size ≠ 0
      rw [hsz, r.size]
      exact fun h => hL (List.length_eq_zero_iff.1 h)
    · exact List.mem_insertIdx (by simp; omega) |>.2 (.inl rfl)

/-- C66, refuted for empty containers: the first insertion allocates a node before it constructs the element; after an
exception the container does not know of the node, and nobody will free it. -/
theorem C66_first_refuted (hK : 3 ≤ c.K) (o : StrictWeak c.lt) (ops : List (Op α κ)) (hs : Safe c.multi c.key c.lt [] ops) :
    ∃ rs t L, execAll c Tree.empty ops = some (rs, t) ∧ t.toList = some L ∧
      (L = [] → ∀ k, ∃ b, insertThrow c t k = some (.threw b []) ∧ b.size = 0 ∧
        ∃ b', b.destroy = some b' ∧ ∃ m md, b'.heap.get m = some md ∧ m ≠ 0) := by
  obtain ⟨rs, t, L, e, _, r, so⟩ := execAll_ok hK o ops (holds_empty c) hs
  refine ⟨rs, t, L, e, r.toList, ?_⟩
  rintro rfl k
  have em := r.empty
  obtain ⟨g, sz, nd, en, room⟩ := em.first (c := c) hK
  obtain ⟨place, e1, k', X, Y, p⟩ : ∃ place, insertPlace c t k = some (.inr place) ∧
      ∃ k' X Y, Pt (firstRoot t).heap (firstRoot t).root 0 k' place.node place.pos X Y := by
    unfold insertPlace
    by_cases hm : c.multi = true
    · rw [if_pos hm]
      obtain ⟨r, X, Y, f1, hr, ⟨it, f2, k', p, _⟩, _⟩ :=
        internalUpperBound_ok g o (by unfold Sorted; split <;> simp) k
      exact ⟨it, by simp [f1, f2], k', X, Y, p⟩
    · rw [if_neg hm]
      obtain ⟨it, eq, found, f1, hf, h⟩ := locate_found_ok g o (by unfold Sorted; split <;> simp) k
      cases found with
      | some r =>
        obtain ⟨X, v', Y, ⟨k, q, _⟩, _⟩ := h
        have := q.total g.wf
        rw [g.seq] at this
        simp at this
      | none =>
        obtain ⟨X, Y, p, h1, h2⟩ := h
        refine ⟨it, ?_, _, X, Y, p⟩
        simp only [f1, Option.bind_eq_bind, Option.bind_some]
        rw [hf]
        rfl
  obtain ⟨nd', en', n0, hk, _⟩ := p.live g.wf
  have hn : place.node = (firstRoot t).root := by
    rcases g.wf.only_root _ nd' en' with h | h
    · exact absurd h n0
    · exact h
  obtain ⟨t1, it1, H1, ht1, nd1, f1, f2, f3, f4, f5, f6, f7, f8⟩ := makeRoom_ok hK g
    (.inr ⟨hk.symm, fun m h => by rw [hn]; exact h, nd, by rw [hn]; exact en, room⟩) p
  have f1 : makeRoom c (firstRoot t) place = some (t1, it1) := f1
  obtain ⟨nd2, en2, _, _, hi⟩ := f4.live f2.wf
  rw [f5] at en2
  cases en2
  have hv : nd1.vals = [] := by
    obtain ⟨A, B, x⟩ := f2.wf.ctx' f5 f6
    have := x.total f2.wf
    rw [f2.seq, (f2.wf.leaf_iff f5 f6).1 f7] at this
    have := this.symm
    simp only [List.append_eq_nil_iff, elems, valsOf_eq f5] at this
    exact this.2.1
  have hpos : it1.pos = 0 := by rw [hv] at hi; simpa using hi
  refine ⟨{ t1.slots with heap := t1.heap.slots.set it1.node nd1.slots }, ?_, by show t1.size = 0; rw [f3, sz], ?_⟩
  · unfold insertThrow internalEmplaceThrow emplaceLeafThrow
    rw [e1]
    simp only [Option.bind_eq_bind, Option.bind_some, f1, f5]
    rw [check_of (b := nd1.leaf && decide (it1.pos ≤ nd1.count) && decide (nd1.count < nd1.cap c)) (by
      rw [f7]
      exact (Bool.and_eq_true _ _).mpr ⟨decide_eq_true (by show it1.pos ≤ nd1.vals.length; omega), decide_eq_true f8⟩)]
    simp [hpos, hv, Node.count, Node.slots]
  · refine ⟨⟨t1.heap.slots.set it1.node nd1.slots, 0, 0, 0⟩, ?_, it1.node, nd1.slots, ?_, f6⟩
    · have : t1.size = 0 := by rw [f3, sz]
      simp [Tree.destroy, Tree.slots, this]
    · exact Heap.get_set _ (by rw [Heap.get_slots, f5]; rfl) _ |>.trans (if_pos rfl)

/-! ### Cases -/

/-- The container of a sequence of calls. -/
def after (c : Cfg Nat Nat) (ops : List (Op Nat Nat)) : Tree Nat := ((execAll c Tree.empty ops).map (·.2)).getD Tree.empty

/-- C66, refuted: `s.insert(2)` into a multiset with 1 and 3, where the copy of the element throws. -/
theorem C66_refuted : ∃ b, insertThrow nums (after nums [.insert 1, .insert 3]) 2 = some (.threw b [3]) ∧ b.destroy = none :=
  ⟨_, rfl, by decide +kernel⟩

/-- C66, refuted, in another way: when a full leaf is split, the exception leaves a leaf without elements. Here the first
one, of a multiset with 1, 2 and 3 into which 0 is inserted: the container claims to have three elements, and reading the
first one, `*s.begin()`, is undefined behaviour. -/
theorem C66_empty_leaf_refuted : ∃ b, insertThrow nums (after nums [.insertAll [1, 2, 3]]) 0 = some (.threw b []) ∧
    b.size = 3 ∧ (b.begin.bind fun it => deref b.heap it) = none :=
  ⟨_, rfl, rfl, by decide +kernel⟩

/-- The hypotheses of the partial theorem can be met: 7 comes behind 5 and 6. -/
example : GoesTo nums (after nums [.insertAll [1, 2, 3, 4, 5, 6]]) 7 2 2 :=
  ⟨_, _, _, _, rfl, rfl, rfl, rfl, rfl⟩

example : insertThrow nums (after nums [.insertAll [1, 2, 3, 4, 5]]) 6 =
    some (.threw (after nums [.insertAll [1, 2, 3, 4, 5]]).slots []) := by decide +kernel

example : ∃ it, insertThrow { nums with multi := false } (after { nums with multi := false } [.insertAll [1, 2, 3, 4, 5]]) 4 =
    some (.found it (after { nums with multi := false } [.insertAll [1, 2, 3, 4, 5]])) := ⟨_, rfl⟩

/-- And those of the refutation. -/
example : GoesTo nums (after nums [.insert 1, .insert 3]) 2 1 2 :=
  ⟨_, _, _, _, rfl, rfl, rfl, rfl, rfl⟩

end Gtl.Props.Btree
