import Verif.Btree.CostCalls
import Verif.Props.Btree
/-
C85: how often the B-tree containers call the user's comparison. `execAllW` is the program of C43 with
a counter in front of every call of the comparison (`Verif/Btree/Cost.lean`); what each call may cost
is `Cheap` in `Verif/Spec/SortedSeqCost.lean`, where `lookup` is logarithmic in the number of elements.
-/
namespace Gtl.Props.BtreeCost
open Gtl.Btree Gtl.Spec.SortedSeq Gtl.Props.Btree
variable {α κ : Type} {c : Cfg α κ}

/-- C85: for every strict weak order, every node size and kind of search, with and without duplicates,
and in every history of calls: each call answers what it does without the counter (C43), and makes no
more comparisons than `Cheap` says. A search, an insertion and a removal by key take a number of them
that is logarithmic in the size; a good hint takes two; a sorted range after the end takes one for each
element; and what goes by iterators takes none. -/
theorem C85_comparisons (hK : 3 ≤ c.K) (o : StrictWeak c.lt) (ops : List (Op α κ)) (hs : Safe c.multi c.key c.lt [] ops) :
    ∃ rs t L, execAllW c Tree.empty ops = some (rs, t) ∧ execAll c Tree.empty ops = some (rs.map Prod.fst, t) ∧
      CheapRun c.multi c.key c.lt (perNode c.linear c.K) [] ops rs L := by
  obtain ⟨rs, t, L, e, e', h, _⟩ := execAll_cheap hK o ops (holds_empty c) hs
  exact ⟨rs, t, L, e, e', h⟩

/-- C85: one call after any history; the container holds `L`, and the call makes `n` comparisons. -/
theorem C85_call (hK : 3 ≤ c.K) (o : StrictWeak c.lt) (ops : List (Op α κ)) (hs : Safe c.multi c.key c.lt [] ops) :
    ∃ rs t L, execAll c Tree.empty ops = some (rs, t) ∧ t.toList = some L ∧
      ∀ op, Ok c.key L op → ∃ r t' n, exec c t op = some (r, t') ∧ count (execW c t op) = some ((r, t'), n) ∧
        Cheap c.multi c.key c.lt (perNode c.linear c.K) L op n := by
  obtain ⟨rs, t, L, e, _, hh⟩ := execAll_ok hK o ops (holds_empty c) hs
  refine ⟨rs, t, L, e, hh.1.toList, fun op hok => ?_⟩
  obtain ⟨r, t1, L1, e1, _, _⟩ := exec_ok hK o hh op hok
  have same := exec_same c t op 0
  cases em : execW c t op 0 with
  | none => rw [em, e1] at same; cases same
  | some x =>
    obtain ⟨x, n⟩ := x
    rw [em, e1] at same
    cases same
    exact ⟨r, t1, n, e1, em, exec_cheap hK o hh op hok em⟩

/-- C85: a container made from a sorted range of `n` values makes `n` comparisons at most, not
`n * log n`. -/
theorem C85_sorted_range (hK : 3 ≤ c.K) (o : StrictWeak c.lt) (vs : List α) (hv : Sorted c.multi c.key c.lt vs) :
    ∃ r t n, count (execW c Tree.empty (.insertAll vs)) = some ((r, t), n) ∧ t.toList = some vs ∧ n ≤ vs.length := by
  obtain ⟨rs, t, L, e1, e2, h⟩ := C85_call hK o [] trivial
  cases e1
  have : L = [] := by
    have e : (Tree.empty : Tree α).toList = some [] := (holds_empty c).1.toList
    rw [e] at e2; exact (Option.some.inj e2).symm
  subst this
  obtain ⟨r, t', n, e3, e4, hc⟩ := h (.insertAll vs) trivial
  obtain ⟨r', t2, L2, e5, s5, h5⟩ := exec_ok hK o (holds_empty c) (.insertAll vs) trivial
  rw [e3] at e5; cases e5
  refine ⟨r, t', n, e4, ?_, hc.2 (by simpa using hv)⟩
  have hl : ∀ (ws : List α) (l : List α), Sorted c.multi c.key c.lt (l ++ ws) →
      ws.foldl (fun l v => if c.multi then (addMulti c.key c.lt l v).2 else (addUnique c.key c.lt l v).2.2) l = l ++ ws := by
    intro ws
    induction ws with
    | nil => simp
    | cons w ws ih =>
      intro l hs
      rw [List.foldl_cons]
      have hb := (sorted_between hs).1
      have : (if c.multi then (addMulti c.key c.lt l w).2 else (addUnique c.key c.lt l w).2.2) = l ++ [w] := by
        by_cases hm : c.multi = true
        · rw [if_pos hm]
          have := addMulti_at (key := c.key) (lt := c.lt) (X := l) (Y := []) (v := w) (by simpa [hm] using hb) (by simp)
          rw [List.append_nil] at this
          rw [this]
        · rw [if_neg hm]
          have := addUnique_new (key := c.key) o (X := l) (Y := []) (v := w) (by simpa [hm] using hb) (by simp)
          rw [List.append_nil] at this
          rw [this]
      rw [this, ih _ (by simpa using hs)]
      simp
  have := h5.1.toList
  rw [s5.2, hl vs [] (by simpa using hv)] at this
  simpa using this

/-! ### Cases -/

/-- Numbers, 4 to a node, without duplicates, searched by halving. -/
def halving : Cfg Nat Nat := ⟨4, false, false, false, id, fun a b => decide (a < b)⟩

theorem halving_order : StrictWeak halving.lt := by
  constructor
  · simp [halving]
  · intro a b c h1 h2
    simp [halving] at h1 h2 ⊢; omega
  · intro a b c h
    simp [halving] at h ⊢; omega

/-- What is done in the case below. -/
def session : List (Op Nat Nat) := [.insertAll (List.range 20), .find 7, .eraseKey 7, .insertHint 7 7, .insertHint 0 12, .eraseAt 4]

/-- Twenty numbers in order take nineteen comparisons, a search six, the hint that is right two, one
that is wrong eight, and removal by iterator none. -/
example : (execAllW halving Tree.empty session).map (fun x => x.1.map Prod.snd) = some [19, 6, 6, 2, 8, 0] := by decide +kernel

/-- It meets the hypotheses. -/
example : 3 ≤ halving.K ∧ Safe halving.multi halving.key halving.lt [] session := by
  refine ⟨by decide, trivial, fun r l h => ?_⟩
  obtain ⟨_, rfl⟩ := h
  refine ⟨trivial, fun r l h => ?_⟩
  obtain ⟨rfl, _⟩ := h
  refine ⟨trivial, fun r l h => ?_⟩
  obtain ⟨_, rfl⟩ := h
  refine ⟨?_, fun r l h => ?_⟩
  · show 7 ≤ _
    decide +kernel
  obtain ⟨_, rfl⟩ := h
  refine ⟨Nat.zero_le _, fun r l h => ?_⟩
  obtain ⟨_, rfl⟩ := h
  refine ⟨?_, fun r l h => trivial⟩
  show 4 < _
  decide +kernel

example : lookup (perNode halving.linear halving.K) 20 = 13 := by decide +kernel

example : Sorted halving.multi halving.key halving.lt (List.range 20) := by
  unfold Sorted
  decide +kernel

end Gtl.Props.BtreeCost
