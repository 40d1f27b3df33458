import Verif.Btree.Balance
/-
C43, C44, C60-C62: `gtl::btree_set`, `btree_map`, `btree_multiset`, `btree_multimap`. The specification
is `Verif/Spec/SortedSeq.lean`; `exec` and `wexec` (`Verif/Btree/Machine.lean`) are the calls on the
model, from which `none` is undefined behaviour. A container is given by its parameters `c`: the values
per node `c.K`, whether it has duplicates `c.multi`, how nodes are searched (`c.linear`, `c.cmpTo`),
what is compared (`c.key`) and how (`c.lt`). The code makes sure that `3 ≤ c.K` (btree.hpp:887).
-/
namespace Gtl.Props.Btree
open Gtl.Btree Gtl.Spec.SortedSeq
variable {α κ : Type} {c : Cfg α κ}

/-! ### C43: histories -/

/-- C43: for every strict weak order, every node size, every kind of search, with and without
duplicates, and for every sequence of calls that keeps the rules, no call has undefined behaviour and
all of them answer and do what they do on a sorted sequence. -/
theorem C43_history (hK : 3 ≤ c.K) (o : StrictWeak c.lt) (ops : List (Op α κ))
    (hs : Safe c.multi c.key c.lt [] ops) :
    ∃ rs t L, execAll c Tree.empty ops = some (rs, t) ∧ Run c.multi c.key c.lt [] ops rs L ∧ t.toList = some L := by
  obtain ⟨rs, t, L, e, h, hh⟩ := execAll_ok hK o ops (holds_empty c) hs
  exact ⟨rs, t, L, e, h, hh.1.toList⟩

/-! ### C44: order and balance -/

/-- C44: after every sequence of calls the iteration gives the elements in order, without duplicates
unless the container has them; and the tree is empty and no node is allocated, or all its leaves are
at the same depth `D`, all nodes hold between 1 and `K` values, inner nodes have one child more than
values, and the depth is logarithmic in the size. -/
theorem C44_sorted_balanced (hK : 3 ≤ c.K) (o : StrictWeak c.lt) (ops : List (Op α κ))
    (hs : Safe c.multi c.key c.lt [] ops) :
    ∃ rs t, execAll c Tree.empty ops = some (rs, t) ∧
      (∃ L, t.toList = some L ∧ t.size = L.length ∧ Sorted c.multi c.key c.lt L) ∧
      ((t.size = 0 ∧ ∀ n nd, t.heap.get n = some nd → n = 0) ∨ ∃ D, Balanced c t D) := by
  obtain ⟨rs, t, L, e, h, hh⟩ := execAll_ok hK o ops (holds_empty c) hs
  exact ⟨rs, t, e, ⟨L, hh.1.toList, hh.1.size, hh.2⟩, hh.1.balanced⟩

/-- The number of nodes on the way to any value is at most the logarithm of the size. -/
theorem C44_depth {t : Tree α} {D : Nat} (b : Balanced c t D) {n d : Nat} (h : Depth t n d) :
    2 ^ (d + 1) ≤ t.size + 1 := by
  have hd : d ≤ D := by
    obtain ⟨_, _, _, _, _, h | h⟩ := b.nodes n d h <;> omega
  exact Nat.le_trans (Nat.pow_le_pow_right (by omega) (by omega)) b.low

/-! ### C60: several containers -/

/-- C60: containers are values. Copies and assigned containers are independent of where they came
from, moves and swaps exchange, `merge` moves over what is lacking (all, with duplicates), `==` and
`<` compare the sequences; also between calls on single containers, in any order. -/
theorem C60_containers (hK : 3 ≤ c.K) (o : StrictWeak c.lt) (eq less : α → α → Bool) (ops : List (WOp α κ))
    (hs : WSafe c.multi c.key c.lt eq less [] ops) :
    ∃ rs w W, wexecAll c eq less [] ops = some (rs, w) ∧ WRun c.multi c.key c.lt eq less [] ops rs W ∧
      w.map Tree.toList = W.map some := by
  obtain ⟨rs, w, W, e, h, hh⟩ := wexecAll_ok hK o eq less ops (w := []) (W := []) ⟨rfl, by simp⟩ hs
  refine ⟨rs, w, W, e, h, ?_⟩
  apply List.ext_getElem?
  intro i
  rw [List.getElem?_map, List.getElem?_map]
  by_cases hi : i < W.length
  · obtain ⟨t, L, et, eL, ht⟩ := hh.get hi
    rw [et, eL]
    simp [ht.1.toList]
  · rw [List.getElem?_eq_none (by rw [hh.1]; omega), List.getElem?_eq_none (by omega)]
    rfl

/-- C60: `merge` from a container of another kind, with its own order and with or without duplicates,
into one without: it takes over what it lacks and leaves the rest. -/
theorem C60_merge {cs : Cfg α κ} (hK : 3 ≤ c.K) (hKs : 3 ≤ cs.K) (o : StrictWeak c.lt) (os : StrictWeak cs.lt)
    (hm : c.multi = false) (ops ops' : List (Op α κ)) (hs : Safe c.multi c.key c.lt [] ops)
    (hs' : Safe cs.multi cs.key cs.lt [] ops') :
    ∃ rs t rs' s, execAll c Tree.empty ops = some (rs, t) ∧ execAll cs Tree.empty ops' = some (rs', s) ∧
      ∃ L L' t' s', t.toList = some L ∧ s.toList = some L' ∧ mergeUnique c cs t s = some (t', s') ∧
        t'.toList = some (mergeInto c.key c.lt L L').1 ∧ s'.toList = some (mergeInto c.key c.lt L L').2 := by
  obtain ⟨rs, t, L, e, _, hh⟩ := execAll_ok hK o ops (holds_empty c) hs
  obtain ⟨rs', s, L', e', _, hh'⟩ := execAll_ok hKs os ops' (holds_empty cs) hs'
  obtain ⟨t', s', em, r, r', _⟩ := mergeUnique_ok hK hKs o hm hh.1 hh.2 hh'.1
  exact ⟨rs, t, rs', s, e, e', L, L', t', s', hh.1.toList, hh'.1.toList, em, r.toList, r'.toList⟩

/-- Nothing is lost by `merge` and nothing comes twice. -/
theorem C60_merge_perm (key : α → κ) (lt : κ → κ → Bool) : ∀ (l l' : List α),
    ((mergeInto key lt l l').1 ++ (mergeInto key lt l l').2).Perm (l ++ l')
  | l, [] => by simp [mergeInto]
  | l, v :: l' => by
    rw [mergeInto]
    by_cases h : (addUnique key lt l v).2.1 = true
    · rw [if_pos h]
      refine (C60_merge_perm key lt _ l').trans ?_
      have : (addUnique key lt l v).2.2.Perm (v :: l) := by
        unfold addUnique at h ⊢
        dsimp only at h ⊢
        by_cases ha : l.any (same key lt (key v)) = true
        · rw [if_pos ha] at h; cases h
        · rw [if_neg ha]
          exact List.perm_insertIdx _ _ (List.countP_le_length)
      exact (this.append_right l').trans List.perm_middle.symm
    · rw [if_neg h]
      exact List.perm_middle.trans (((C60_merge_perm key lt l l').cons v).trans List.perm_middle.symm)

/-! ### C61: memory -/

/-- C61: after every sequence of calls on containers, every node that was allocated and not freed is
in the tree of its container (no leak), every node in the tree is allocated (nothing dangling), and
clearing a container frees all its nodes. -/
theorem C61_nodes (hK : 3 ≤ c.K) (o : StrictWeak c.lt) (eq less : α → α → Bool) (ops : List (WOp α κ))
    (hs : WSafe c.multi c.key c.lt eq less [] ops) :
    ∃ rs w, wexecAll c eq less [] ops = some (rs, w) ∧ ∀ t ∈ w,
      ((t.size = 0 ∧ ∀ n nd, t.heap.get n = some nd → n = 0) ∨
        (0 < t.size ∧ (∀ n nd, t.heap.get n = some nd → n ≠ 0 → ∃ d, Depth t n d) ∧
          ∀ n d, Depth t n d → ∃ nd, t.heap.get n = some nd)) ∧
      ∃ t', t.clear = some t' ∧ ∀ n nd, t'.heap.get n = some nd → n = 0 := by
  obtain ⟨rs, w, W, e, h, hh⟩ := wexecAll_ok hK o eq less ops (w := []) (W := []) ⟨rfl, by simp⟩ hs
  refine ⟨rs, w, e, fun t ht => ?_⟩
  obtain ⟨i, hi⟩ := List.getElem?_of_mem ht
  obtain ⟨t1, L, et, eL, hL⟩ := hh.get (show i < W.length by rw [← hh.1]; exact (List.getElem?_eq_some_iff.1 hi).1)
  rw [hi] at et; cases et
  refine ⟨?_, ?_⟩
  · rcases hL.1.balanced with b | ⟨D, b⟩
    · exact .inl b
    · refine .inr ⟨?_, b.inTree, fun n d hd => ?_⟩
      · have := b.low
        have h2 : 2 ^ 1 ≤ 2 ^ (D + 1) := Nat.pow_le_pow_right (by omega) (by omega)
        omega
      · obtain ⟨_, nd, e, _⟩ := b.nodes n d hd
        exact ⟨nd, e⟩
  · obtain ⟨t', e, h⟩ := Tree.clear_ok hL.1
    exact ⟨t', e, h.only⟩

/-! ### C62: inserting an element of the container itself -/

/-- C62, partial: in containers without duplicates inserting an element of the container itself, given
by a reference into it, with or without a hint, changes nothing and answers the place of the element.
Missing: containers with duplicates, where it is wrong (below). -/
theorem C62_own_element_partial (hK : 3 ≤ c.K) (o : StrictWeak c.lt) (hm : c.multi = false) (ops : List (Op α κ))
    (hs : Safe c.multi c.key c.lt [] ops) :
    ∃ rs t L, execAll c Tree.empty ops = some (rs, t) ∧ t.toList = some L ∧
      ∀ (i h : Nat) v own hint, L[i]? = some v → t.iterAt i = some own → h ≤ L.length → t.iterAt h = some hint →
        insertUnique c t (c.key v) (.ref own.node own.pos) = some ((own, false), t) ∧
        insertHintUnique c t hint (c.key v) (.ref own.node own.pos) = some ((own, false), t) := by
  obtain ⟨rs, t, L, e, _, r, so⟩ := execAll_ok hK o ops (holds_empty c) hs
  refine ⟨rs, t, L, e, r.toList, ?_⟩
  intro i h v own hint hv ho hh hi
  obtain ⟨X, v', Y, rfl, rfl⟩ := split_at L (List.getElem?_eq_some_iff.1 hv).1
  obtain rfl : v' = v := by simpa using hv
  have ha : addUnique c.key c.lt (X ++ v' :: Y) v' = (X.length, false, X ++ v' :: Y) :=
    addUnique_found o (hm ▸ so) ⟨o.irrefl _, o.irrefl _⟩
  have same : ∀ it t', t' = t → t'.index it = some X.length → (∃ j, j ≤ (X ++ v' :: Y).length ∧ t.iterAt j = some it) →
      it = own := by
    rintro it t' rfl hx ⟨j, hj, hit⟩
    rw [r.index hj hit] at hx
    cases hx
    rw [ho] at hit
    exact (Option.some.inj hit).symm
  constructor
  · rcases insertUnique_ok hK o r so v' with ⟨X', w, Y', it, hL, hk, er, hit⟩ | ⟨X', Y', it, t', hL, hX, hY, _⟩
    · obtain ⟨it', t', er', _, hx, _, ht⟩ := insertUnique_add hK o r so hm v'
      rw [ha] at er' hx ht
      obtain rfl := ht rfl
      have : it = it' := by rw [er] at er'; cases er'; rfl
      subst this
      rw [← same it t' rfl hx ⟨X'.length, by rw [hL]; simp, hit⟩]
      exact insertUnique_arg er
    · exfalso
      have : v' ∈ X' ++ Y' := by rw [← hL]; simp
      rcases List.mem_append.1 this with h1 | h1
      · have := hX _ h1; rw [o.irrefl] at this; cases this
      · have := hY _ h1; rw [o.irrefl] at this; cases this
  · have hl : ((X ++ v' :: Y).take h).length = h := by simp at hh ⊢; omega
    rcases insertHintUnique_ok hK o r so v' (X := (X ++ v' :: Y).take h) (Y := (X ++ v' :: Y).drop h)
      (by rw [List.take_append_drop]) (by rw [hl]; exact hi) with ⟨X', w, Y', it, hL, hk, er, hit⟩ | ⟨X', Y', it, t', hL, hX, hY, _⟩
    · obtain ⟨it', t', er', _, hx, _, ht⟩ := insertHintUnique_add hK o r so hm hh hi v'
      rw [ha] at er' hx ht
      obtain rfl := ht rfl
      have : it = it' := by rw [er] at er'; cases er'; rfl
      subst this
      rw [← same it t' rfl hx ⟨X'.length, by rw [hL]; simp, hit⟩]
      exact insertHintUnique_arg er
    · exfalso
      have : v' ∈ X' ++ Y' := by rw [← hL]; simp
      rcases List.mem_append.1 this with h1 | h1
      · have := hX _ h1; rw [o.irrefl] at this; cases this
      · have := hY _ h1; rw [o.irrefl] at this; cases this

/-- Numbers, 3 to a node, with duplicates, searched from left to right. -/
def nums : Cfg Nat Nat := ⟨3, true, true, false, id, fun a b => decide (a < b)⟩

theorem nums_order : StrictWeak nums.lt := by
  constructor
  · simp [nums]
  · intro a b c h1 h2
    simp [nums] at h1 h2 ⊢; omega
  · intro a b c h
    simp [nums] at h ⊢; omega

/-- C62, refuted: `s.insert(*s.begin())` into a multiset with one element reads the element after the
leaf that held it was freed: the outcome is undefined behaviour. -/
theorem C62_own_element_refuted :
    ∃ rs t it, execAll nums Tree.empty [.insert 5] = some (rs, t) ∧ t.begin = some it ∧
      insertMulti nums t 5 (.ref it.node it.pos) = none :=
  ⟨_, _, _, rfl, rfl, by decide +kernel⟩

/-- The same for a hint. -/
theorem C62_own_element_hint_refuted :
    ∃ rs t it e, execAll nums Tree.empty [.insert 5] = some (rs, t) ∧ t.begin = some it ∧ t.end = some e ∧
      insertHintMulti nums t e 5 (.ref it.node it.pos) = none :=
  ⟨_, _, _, _, rfl, rfl, rfl, by decide +kernel⟩

/-! ### Cases -/

/-- The rules can be kept: a sequence of calls with splits, merges and erasures. -/
def calls : List (Op Nat Nat) :=
  [.insertAll [5, 3, 9, 1, 7, 5, 2, 8, 4, 6], .insertHint 0 5, .eraseKey 5, .insert 5, .lowerBound 5, .eraseRange 1 4,
    .eraseAt 0, .values, .reversed, .find 9, .size]

example : Safe nums.multi nums.key nums.lt [] calls := by
  simp only [calls, Safe, Ok, Step, nums, if_true, true_and]
  rintro r l' ⟨rfl, rfl⟩
  refine ⟨by decide, ?_⟩
  rintro r l' ⟨j, hj, hj', _, rfl, rfl⟩ r l' ⟨rfl, rfl⟩ r l' ⟨rfl, rfl⟩ r l' ⟨rfl, rfl⟩
  have : j = 4 ∨ j = 5 ∨ j = 6 := by
    have h1 : 4 ≤ j := hj
    have h2 : j ≤ 6 := hj'
    omega
  rcases this with rfl | rfl | rfl <;>
  · refine ⟨by decide, ?_⟩
    rintro r l' ⟨rfl, rfl⟩
    refine ⟨by decide, ?_⟩
    simp

deriving instance DecidableEq for Res

example : (execAll nums Tree.empty calls).map (·.1) = some [.done, .pos 6, .num 3, .pos 4, .pos 4, .pos 1, .pos 0,
    .vals [5, 6, 7, 8, 9], .vals [9, 8, 7, 6, 5], .pos 4, .num 5] := by decide +kernel

/-- And on several containers. -/
example : (wexecAll nums (· == ·) (fun a b => decide (a < b)) [] [.make, .on 0 (.insertAll [3, 1, 2]), .copy 0,
      .on 1 (.eraseAt 0), .eq 0 1, .less 0 1, .merge 0 1, .on 0 .values, .on 1 .size, .swap 0 1, .on 0 .size]).map (·.1) =
    some [.num 0, .done, .num 1, .pos 0, .bool false, .bool true, .done, .vals [1, 2, 2, 3, 3], .num 0, .done, .num 0] := by
  decide +kernel

example : WSafe nums.multi nums.key nums.lt (· == ·) (fun a b => decide (a < b)) []
    [.make, .on 0 (.insertAll [3, 1, 2]), .copy 0, .swap 0 1, .merge 0 1] := by
  simp only [WSafe, WOk, WStep, Ok, Step]
  refine ⟨trivial, ?_⟩
  rintro r w ⟨rfl, rfl⟩
  refine ⟨⟨[], rfl, trivial⟩, ?_⟩
  rintro r w ⟨l, l', hl, ⟨rfl, rfl⟩, rfl⟩
  cases hl
  refine ⟨by simp, ?_⟩
  rintro r w ⟨l, hl, rfl, rfl⟩
  cases hl
  refine ⟨by simp, ?_⟩
  rintro r w ⟨l, l', hl, hl', rfl, rfl⟩
  refine ⟨by simp, ?_⟩
  simp

/-- Without duplicates and with binary search. -/
def keys : Cfg (Nat × Nat) Nat := ⟨3, false, false, true, (·.1), fun a b => decide (a < b)⟩

example : (execAll keys Tree.empty [.insert (2, 7), .insert (1, 8), .insert (2, 9), .put 1 (2, 5), .values,
    .extractKey 1, .contains 1, .count 2]).map (·.1) =
    some [.posNew 0 true, .posNew 0 true, .posNew 1 false, .done, .vals [(1, 8), (2, 5)], .val (1, 8), .bool false, .num 1] := by
  decide +kernel

/-- The outcome of an insertion of an own element is not always undefined: it is not when the leaf has room. -/
example : ∃ t, insertMulti nums t 5 (.ref 1 0) ≠ none :=
  ⟨⟨[some emptyNode, some ⟨1, 0, 2, [5], []⟩], 1, 1, 1⟩, by decide +kernel⟩

end Gtl.Props.Btree
