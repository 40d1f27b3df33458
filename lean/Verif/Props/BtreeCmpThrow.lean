import Verif.Btree.CmpThrowCount
import Verif.Props.Btree
/-
C88: B-tree containers whose comparison of keys throws. `wexecAllT` is the program of C60 with a number for
each call: how many comparisons it makes before the one that throws. What an exception leaves is `WThrow`
in `Verif/Spec/SortedSeqThrow.lean`.
-/
namespace Gtl.Props.BtreeCmpThrow
open Gtl.Btree Gtl.Spec.SortedSeq Gtl.Props.Btree
variable {α κ : Type} {c : Cfg α κ}

/-- C88: for every strict weak order, every node size and kind of search, with and without duplicates, in every
history of calls on several containers and wherever the comparison throws: nothing is undefined, each call
either does what it is for or throws and leaves what `WThrow` says, and all goes on from there. What is
missing: a merge of containers with duplicates whose elements are moved together with their keys (see
`C88_order_refuted`). -/
theorem C88_history_partial (hK : 3 ≤ c.K) (o : StrictWeak c.lt) (eq less : α → α → Bool) (moved : α → α)
    (ops : List (WOp α κ × Nat)) (hs : WSafeT c.multi c.key c.lt eq less moved [] (ops.map Prod.fst))
    (hk : c.multi = true → (∃ i j k, (.merge i j, k) ∈ ops) → ∀ v, c.key (moved v) = c.key v) :
    ∃ rs w W, wexecAllT c eq less moved [] ops = some (rs, w) ∧
      WRunT c.multi c.key c.lt eq less moved [] (ops.map Prod.fst) rs W ∧
      w.map Tree.toList = W.map some ∧ ∀ l ∈ W, Sorted c.multi c.key c.lt l := by
  obtain ⟨rs, w, W, e, h, hh⟩ := wexecAllT_ok hK o eq less moved ops (w := []) (W := []) ⟨rfl, by simp⟩ hs (by
    rintro ⟨op, k⟩ hop
    cases op with
    | merge i j => exact fun hm => hk hm ⟨i, j, k, hop⟩
    | _ => trivial)
  refine ⟨rs, w, W, e, h, ?_, ?_⟩
  · apply List.ext_getElem?
    intro i
    rw [List.getElem?_map, List.getElem?_map]
    by_cases hi : i < W.length
    · obtain ⟨t, L, et, eL, ht⟩ := hh.get hi
      rw [et, eL]
      simp [ht.1.toList]
    · rw [List.getElem?_eq_none (by rw [hh.1]; omega), List.getElem?_eq_none (by omega)]
      rfl
  · intro l hl
    obtain ⟨i, hi, rfl⟩ := List.mem_iff_getElem.1 hl
    obtain ⟨t, L, et, eL, ht⟩ := hh.get hi
    rw [List.getElem?_eq_getElem hi] at eL
    cases eL
    exact ht.2

/-- C88: an exception in a call on one container, other than the insertion of a range, leaves all containers
exactly as they were: the same nodes with the same elements, so every iterator stays valid too. -/
theorem C88_unchanged (hK : 3 ≤ c.K) (o : StrictWeak c.lt) (eq less : α → α → Bool) (moved : α → α)
    (ops : List (WOp α κ × Nat)) (hs : WSafeT c.multi c.key c.lt eq less moved [] (ops.map Prod.fst))
    (hk : c.multi = true → (∃ i j k, (.merge i j, k) ∈ ops) → ∀ v, c.key (moved v) = c.key v) :
    ∃ rs w W, wexecAllT c eq less moved [] ops = some (rs, w) ∧ w.map Tree.toList = W.map some ∧
      ∀ i op k w', WOk c.key W (.on i op) → (∀ vs, op ≠ .insertAll vs) →
        wexecT c eq less moved w (.on i op) k = some (.threw w') → w' = w := by
  obtain ⟨rs, w, W, e, _, hh⟩ := wexecAllT_ok hK o eq less moved ops (w := []) (W := []) ⟨rfl, by simp⟩ hs (by
    rintro ⟨op, k⟩ hop
    cases op with
    | merge i j => exact fun hm => hk hm ⟨i, j, k, hop⟩
    | _ => trivial)
  refine ⟨rs, w, W, e, ?_, ?_⟩
  · apply List.ext_getElem?
    intro i
    rw [List.getElem?_map, List.getElem?_map]
    by_cases hi : i < W.length
    · obtain ⟨t, L, et, eL, ht⟩ := hh.get hi
      rw [et, eL]
      simp [ht.1.toList]
    · rw [List.getElem?_eq_none (by rw [hh.1]; omega), List.getElem?_eq_none (by omega)]
      rfl
  · rintro i op k w' ⟨L, hL, hok⟩ hno he
    obtain ⟨t, L', et, eL, ht⟩ := hh.get (List.getElem?_eq_some_iff.1 hL).1
    rw [hL] at eL; cases eL
    obtain ⟨r, t', L', e1, _, _⟩ := exec_ok hK o ht op hok
    have hT : Ends (wexecT c eq less moved w (.on i op)) (fun _ => True) (· = w) := by
      refine Ends.bindPlain et (Ends.bind (((execT_tri (fun t => w.set i t) c t op).mono fun s hs => ?_).ends e1) fun _ _ => .pure trivial)
      cases op with
      | insertAll vs => exact absurd rfl (hno vs)
      | _ => rw [hs.2]; exact hh.set_self et
    rcases hT k with ⟨b, k', h1, _⟩ | ⟨s, h1, h2⟩
    · rw [h1] at he; cases he
    · rw [h1] at he; cases he; exact h2

/-- C88: which calls on one container throw. After any history without exceptions (C43), if the call makes `n`
comparisons (C85), then it throws if the comparison after the first `k` throws and `k < n`, and otherwise does
what it does without exceptions. -/
theorem C88_when (hK : 3 ≤ c.K) (o : StrictWeak c.lt) (ops : List (Op α κ)) (hs : Safe c.multi c.key c.lt [] ops) :
    ∃ rs t L, execAll c Tree.empty ops = some (rs, t) ∧ t.toList = some L ∧
      ∀ op, Ok c.key L op → ∃ r t' n, exec c t op = some (r, t') ∧ count (execW c t op) = some ((r, t'), n) ∧
        ∀ k, (n ≤ k → execT id c t op k = some (.done (r, t') (k - n))) ∧
          (k < n → ∃ t'', execT id c t op k = some (.threw t'')) := by
  obtain ⟨rs, t, L, e, _, hh⟩ := execAll_ok hK o ops (holds_empty c) hs
  refine ⟨rs, t, L, e, hh.1.toList, fun op hok => ?_⟩
  obtain ⟨r, t1, L1, e1, _, _⟩ := exec_ok hK o hh op hok
  have same := exec_same c t op 0
  cases em : execW c t op 0 with
  | none => rw [em, e1] at same; cases same
  | some x =>
    obtain ⟨x, n⟩ := x
    rw [em, e1] at same
    cases same
    refine ⟨r, t1, n, e1, em, fun k => ?_⟩
    obtain ⟨_, h1, h2⟩ := exec_exact c t id op k 0 _ n em
    exact ⟨fun h => by simpa using h1 (by omega), fun h => h2 (by omega)⟩

/-- C88: an exception in a merge of containers without duplicates loses nothing and leaves nothing twice. -/
theorem C88_merge_keeps {key : α → κ} {lt : κ → κ → Bool} {moved : α → α} {w w' : List (List α)} {i j : Nat}
    (hij : i ≠ j) (h : WThrow false key lt moved w (.merge i j) w') :
    ∃ l l' d s, w[i]? = some l ∧ w[j]? = some l' ∧ w'[i]? = some d ∧ w'[j]? = some s ∧ (d ++ s).Perm (l ++ l') := by
  obtain ⟨l, l', n, hl, hl', hn, rfl⟩ := h
  have hi := (List.getElem?_eq_some_iff.1 hl).1
  have hj := (List.getElem?_eq_some_iff.1 hl').1
  refine ⟨l, l', (mergeInto key lt l (l'.take n)).1, (mergeInto key lt l (l'.take n)).2 ++ l'.drop n, hl, hl', ?_, ?_, ?_⟩
  rotate_left 2
  · have := (C60_merge_perm key lt l (l'.take n)).append_right (l'.drop n)
    rwa [List.append_assoc, List.append_assoc, List.take_append_drop] at this
  · simp [List.getElem?_set, hij.symm, hi]
  · simp [List.getElem?_set, hj]

/-- C88: a merge of containers with duplicates, after any history of each: if the comparison throws, then the
destination has the first `n` elements of the source as well, and the source has what is left of them where
they were. -/
theorem C88_merge_multi (hK : 3 ≤ c.K) (o : StrictWeak c.lt) (hm : c.multi = true) (moved : α → α) (ops ops' : List (Op α κ))
    (hs : Safe c.multi c.key c.lt [] ops) (hs' : Safe c.multi c.key c.lt [] ops') :
    ∃ rs t L rs' s M, execAll c Tree.empty ops = some (rs, t) ∧ execAll c Tree.empty ops' = some (rs', s) ∧
      t.toList = some L ∧ s.toList = some M ∧ ∀ k,
        (∃ t' s' k', mergeT Prod.mk c moved t s k = some (.done (t', s') k') ∧
          t'.toList = some (M.foldl (fun l v => (addMulti c.key c.lt l v).2) L) ∧ s'.toList = some []) ∨
        (∃ t' s' n, mergeT Prod.mk c moved t s k = some (.threw (t', s')) ∧ n < M.length ∧
          t'.toList = some ((M.take n).foldl (fun l v => (addMulti c.key c.lt l v).2) L) ∧
          s'.toList = some ((M.take n).map moved ++ M.drop n)) := by
  obtain ⟨rs, t, L, e, _, ht⟩ := execAll_ok hK o ops (holds_empty c) hs
  obtain ⟨rs', s, M, e', _, hx⟩ := execAll_ok hK o ops' (holds_empty c) hs'
  refine ⟨rs, t, L, rs', s, M, e, e', ht.1.toList, hx.1.toList, ?_⟩
  obtain ⟨b, eb, ib⟩ := hx.1.begin_ok
  have hl := mergeMultiLoopT_ends hK o hm Prod.mk moved s.size (X := []) (Y := M) ht hx.1 ib (by rw [hx.1.size])
  have hE : Ends (mergeT Prod.mk c moved t s)
      (fun y => y.1.toList = some (M.foldl (fun l v => (addMulti c.key c.lt l v).2) L) ∧ y.2.toList = some [])
      (fun y => ∃ n, n < M.length ∧ y.1.toList = some ((M.take n).foldl (fun l v => (addMulti c.key c.lt l v).2) L) ∧
        y.2.toList = some ((M.take n).map moved ++ M.drop n)) := by
    refine Ends.bindPlain eb ?_
    rw [if_pos hm]
    refine Ends.bind (hl.mono (fun _ h => h) ?_) ?_
    · rintro _ ⟨n, t', s', h1, rfl, h3, h4⟩
      exact ⟨n, h1, h3.1.toList, h4.toList⟩
    · rintro y ⟨h1, h2⟩
      obtain ⟨s', e', h'⟩ := Tree.clear_ok h2
      have r' : Rep c s' [] := .inl ⟨h', rfl⟩
      exact Ends.bindPlain e' (.pure ⟨h1.1.toList, r'.toList⟩)
  intro k
  rcases hE k with ⟨⟨t', s'⟩, k', h1, h2, h3⟩ | ⟨⟨t', s'⟩, h1, n, h2, h3, h4⟩
  · exact .inl ⟨t', s', k', h1, h2, h3⟩
  · exact .inr ⟨t', s', n, h1, h2, h3, h4⟩

/-- C88, refuted for containers with duplicates: 1, 2, 3, 4 are merged into 10 and the sixth comparison
throws; then 1 and 2 are in both containers. (For numbers, what is left of a moved one is the number.) -/
theorem C88_merge_multi_refuted :
    ∃ rs t rs' s t' s', execAll nums Tree.empty [.insert 10] = some (rs, t) ∧
      execAll nums Tree.empty [.insertAll [1, 2, 3, 4]] = some (rs', s) ∧
      mergeT Prod.mk nums id t s 5 = some (.threw (t', s')) ∧ t'.toList = some [1, 2, 10] ∧ s'.toList = some [1, 2, 3, 4] :=
  ⟨_, _, _, _, _, _, rfl, rfl, by rfl, by decide +kernel, by decide +kernel⟩

/-- Numbers, 3 to a node, with duplicates, the greatest first. -/
def down : Cfg Nat Nat := ⟨3, true, true, false, id, fun a b => decide (b < a)⟩

/-- C88, refuted: when what is left of a moved element is 0 (as an empty string is left of a string), an
exception in a merge leaves a source that is out of order: it holds 3, and says that it does not. -/
theorem C88_order_refuted :
    ∃ rs t rs' s t' s', execAll down Tree.empty [.insert 9] = some (rs, t) ∧
      execAll down Tree.empty [.insertAll [4, 3, 2]] = some (rs', s) ∧
      mergeT Prod.mk down (fun _ => 0) t s 1 = some (.threw (t', s')) ∧ s'.toList = some [0, 3, 2] ∧
      s'.contains down 3 = some false :=
  ⟨_, _, _, _, _, _, rfl, rfl, by rfl, by decide +kernel, by decide +kernel⟩

/-! ### Cases -/

theorem grows {multi : Bool} {key : α → κ} {lt : κ → κ → Bool} {eq less : α → α → Bool} {moved : α → α} {w w' : List (List α)}
    {op : WOp α κ} {r : Outcome α} (h : WStepT multi key lt eq less moved w op r w') : w.length ≤ w'.length := by
  cases h with
  | returned h =>
    cases op <;> simp only [WStep] at h
    case on => obtain ⟨_, _, _, _, rfl⟩ := h; simp
    case make => obtain ⟨_, rfl⟩ := h; simp
    case copy => obtain ⟨_, _, _, rfl⟩ := h; simp
    case assign => obtain ⟨_, _, _, rfl⟩ := h; simp
    case move => obtain ⟨_, _, _, rfl⟩ := h; split <;> simp
    case swap => obtain ⟨_, _, _, _, _, rfl⟩ := h; simp
    case merge => obtain ⟨_, _, _, _, _, rfl⟩ := h; split <;> simp
    case eq => obtain ⟨_, _, _, _, rfl, _⟩ := h; simp
    case less => obtain ⟨_, _, _, _, rfl, _⟩ := h; simp
  | threw h =>
    cases op with
    | on i op =>
      cases op
      case insertAll => obtain ⟨_, _, _, _, rfl⟩ := h; simp
      all_goals
        obtain ⟨_, rfl⟩ := h
        simp
    | merge i j => obtain ⟨_, _, _, _, _, _, rfl⟩ := h; split <;> simp
    | _ => exact h.elim

/-- Calls that two containers always allow are safe. -/
theorem safe_of {multi : Bool} {key : α → κ} {lt : κ → κ → Bool} {eq less : α → α → Bool} {moved : α → α} :
    ∀ {ops : List (WOp α κ)} {w : List (List α)}, 2 ≤ w.length → (∀ op ∈ ops, ∀ w : List (List α), 2 ≤ w.length → WOk key w op) →
    WSafeT multi key lt eq less moved w ops
  | [], _, _, _ => trivial
  | op :: ops, w, hw, h => ⟨h op (.head _) w hw, fun r w' hs => safe_of (Nat.le_trans hw (grows hs)) fun op ho => h op (.tail _ ho)⟩

/-- What is done in the case below: in the fourth call the fifth comparison throws, in the sixth the fourth, in the
seventh the second, and in the ninth the first. -/
def session : List (WOp Nat Nat × Nat) :=
  [(.make, 0), (.make, 0), (.on 0 (.insertAll [7, 3, 9]), 100), (.on 0 (.insertAll [5, 8, 1]), 4), (.on 1 (.insertAll [1, 2, 9, 11]), 100),
    (.merge 0 1, 3), (.on 1 (.insert 4), 1), (.on 0 (.contains 3), 100), (.on 0 (.eraseKey 3), 0), (.on 0 .values, 0), (.on 1 .values, 0)]

/-- The same as lists of numbers: 0 for an exception. -/
def brief : Outcome Nat → List Nat
  | .threw => [0]
  | .got (.vals vs) => vs
  | .got (.bool b) => [if b then 1 else 2]
  | .got _ => []

/-- The range is inserted up to 5, the merge has treated 1, which is in both now, and the rest is as it was. -/
example : (wexecAllT nums (· == ·) (fun a b => decide (a < b)) id [] session).map (fun x => x.1.map brief) =
    some [[], [], [], [0], [], [0], [0], [1], [0], [1, 3, 5, 7, 9], [1, 2, 9, 11]] := by
  decide +kernel

/-- It meets the hypotheses. -/
example : 3 ≤ nums.K ∧ WSafeT nums.multi nums.key nums.lt (· == ·) (fun a b => decide (a < b)) id [] (session.map Prod.fst) ∧
    ∀ v, nums.key (id v) = nums.key v := by
  refine ⟨by decide, ⟨trivial, fun r w h => ⟨trivial, fun r w' h' => safe_of ?_ ?_⟩⟩, fun _ => rfl⟩
  · cases h with
    | threw h => exact h.elim
    | returned h =>
      obtain ⟨_, rfl⟩ := h
      cases h' with
      | threw h => exact h.elim
      | returned h => obtain ⟨_, rfl⟩ := h; simp
  · intro op ho w hw
    have h0 : ∃ l, w[0]? = some l := ⟨w[0], List.getElem?_eq_getElem (by omega)⟩
    have h1 : ∃ l, w[1]? = some l := ⟨w[1], List.getElem?_eq_getElem (by omega)⟩
    simp only [List.map_cons, List.map_nil, List.mem_cons, List.not_mem_nil, or_false] at ho
    rcases ho with rfl | rfl | rfl | rfl | rfl | rfl | rfl | rfl | rfl <;> simp only [WOk, Ok, and_true]
    all_goals first | exact h0 | exact h1 | (refine ⟨by omega, by omega, by omega⟩)

end Gtl.Props.BtreeCmpThrow
