import Verif.Btree.AllocFail
import Verif.Props.Btree
/-
C76: an allocation of a node fails while elements are inserted into a B-tree container, or while it is copied.
The model is `Caller.run` (`Verif/Btree/AllocFail.lean`), the spec is `Verif/Spec/SortedSeqAlloc.lean`: each call
comes with the number of allocations that succeed before one throws, and may depend on how the calls before ended.
-/
set_option linter.unusedSectionVars false
namespace Gtl.Props.Btree
open Gtl.Btree Gtl.Spec.SortedSeq
variable {α κ : Type} {c : Cfg α κ}

/-- C76, partial: the first `n` calls of every caller, each with any number of allocations that succeed, are free of
undefined behaviour. Each call returns what it should, or is an insertion that is left by the exception and has changed
nothing (of a range, the first elements have been inserted); the iteration gives the elements of the spec, in
order, and the container can be cleared or destroyed then and leaves no node behind. Missing: taking out elements
after an insertion has failed that had allocated some nodes already, before the next clear() (see below). -/
theorem C76_history_partial (hK : 3 ≤ c.K) (o : StrictWeak c.lt) {who : Caller α κ} (hs : who.Safe c.multi c.key c.lt) (n : Nat) :
    ∃ outs t L d, Caller.run c who n = some (outs, t) ∧ Sees c.multi c.key c.lt who outs L d ∧
      t.toList = some L ∧ t.size = L.length ∧ Sorted c.multi c.key c.lt L ∧
      ∃ t', t.clear = some t' ∧ t'.size = 0 ∧ ∀ n nd, t'.heap.get n = some nd → n = 0 := by
  obtain ⟨outs, t, L, d, e, h, r, s⟩ := Caller.run_ok hK o hs n
  obtain ⟨t', e', h'⟩ := Tree.clear_ok r
  exact ⟨outs, t, L, d, e, h, r.toList, r.size, s, t', e', h'.size, h'.only⟩

/-- C76: after all these histories, each call does what it does without failures as soon as enough allocations
succeed. -/
theorem C76_enough (hK : 3 ≤ c.K) (o : StrictWeak c.lt) {who : Caller α κ} (hs : who.Safe c.multi c.key c.lt) (n : Nat) :
    ∃ outs t L, Caller.run c who n = some (outs, t) ∧ t.toList = some L ∧
      ∀ op, Ok c.key L op → ∃ N, ∀ b, N ≤ b → execA c b t op = (exec c t op).map fun x => (.ok x.1, x.2) := by
  obtain ⟨outs, t, L, d, e, h, r, s⟩ := Caller.run_ok hK o hs n
  exact ⟨outs, t, L, e, r.toList, fun op hok => execA_enough hK o ⟨r, s⟩ op hok⟩

/-- C76: copying the container after any of these histories gives a container with the same elements, or is left
by the exception and leaves no node behind; the latter only if not enough allocations succeed. -/
theorem C76_copy (hK : 3 ≤ c.K) (o : StrictWeak c.lt) {who : Caller α κ} (hs : who.Safe c.multi c.key c.lt) (n : Nat) :
    ∃ outs t L, Caller.run c who n = some (outs, t) ∧ t.toList = some L ∧
      ∃ N, ∀ b, (∃ t' left, t.copyA c b = some (.done t' left) ∧ t'.toList = some L ∧ t'.size = t.size) ∨
        ∃ t', t.copyA c b = some (.failed t') ∧ b < N ∧ ∀ n nd, t'.heap.get n = some nd → n = 0 := by
  obtain ⟨outs, t, L, d, e, h, r, s⟩ := Caller.run_ok hK o hs n
  obtain ⟨N, t', e1, r1, h1⟩ := copyA_ok hK o r
  refine ⟨outs, t, L, e, r.toList, N, fun b => ?_⟩
  rcases h1 b with ⟨left, e2⟩ | ⟨t2, e2, hb, h2⟩
  · exact .inl ⟨t', left, e2, r1.toList, by rw [r1.size, r.size]⟩
  · exact .inr ⟨t2, e2, hb, h2.only⟩

/-- C76: assigning one container to another, both after any of these histories, gives the other one the elements
of the first, or is left by the exception; then the other one holds the first elements only. In both cases
clearing or destroying it leaves no node behind. -/
theorem C76_assign (hK : 3 ≤ c.K) (o : StrictWeak c.lt) {who who' : Caller α κ} (hs : who.Safe c.multi c.key c.lt)
    (hs' : who'.Safe c.multi c.key c.lt) (n n' : Nat) :
    ∃ outs t outs' x L, Caller.run c who n = some (outs, t) ∧ Caller.run c who' n' = some (outs', x) ∧
      x.toList = some L ∧ ∃ N, ∀ b, ∃ t',
        ((∃ left, t.assignA c b x = some (.done t' left) ∧ t'.toList = some L ∧ t'.size = L.length) ∨
          ∃ n, t.assignA c b x = some (.failed t') ∧ b < N ∧ n < L.length ∧ t'.toList = some (L.take n) ∧ t'.size = n) ∧
        ∃ t'', t'.clear = some t'' ∧ ∀ n nd, t''.heap.get n = some nd → n = 0 := by
  obtain ⟨outs, t, L', d, e, h, r, s⟩ := Caller.run_ok hK o hs n
  obtain ⟨outs', x, L, d', e', h', r', s'⟩ := Caller.run_ok hK o hs' n'
  obtain ⟨N, t', e1, r1, h1⟩ := assignA_ok hK o r r'
  refine ⟨outs, t, outs', x, L, e, e', r'.toList, N, fun b => ?_⟩
  rcases h1 b with ⟨left, e2⟩ | ⟨t2, n, e2, hb, hn, r2⟩
  · obtain ⟨t3, e3, h3⟩ := Tree.clear_ok r1
    exact ⟨t', .inl ⟨left, e2, r1.toList, r1.size⟩, t3, e3, h3.only⟩
  · obtain ⟨t3, e3, h3⟩ := Tree.clear_ok r2
    exact ⟨t2, .inr ⟨n, e2, hb, hn, r2.toList, by rw [r2.size]; simp; omega⟩, t3, e3, h3.only⟩

/-! ### Refutations -/

/-- Sets of numbers, three to a node. -/
def numSet : Cfg Nat Nat := ⟨3, false, true, false, id, fun a b => decide (a < b)⟩

/-- A call in which a hundred allocations succeed. -/
def ample (op : Op Nat Nat) : Call Nat Nat := ⟨op, 100⟩

/-- How a call ended. -/
def failedCall : Out Nat → Bool
  | .badAlloc => true
  | .ok _ => false

/-- C76, refuted for erasing: in a set with 10, 20 and 30 the insertion of 40 needs two nodes; the first is
allocated, the second allocation throws. The set still holds 10, 20 and 30; but when the three are erased and the set
is cleared, two nodes are never freed. -/
theorem C76_leak_refuted : ∃ outs t t',
    execAllA numSet Tree.empty [ample (.insertAll [10, 20, 30]), ⟨.insert 40, 1⟩, ample (.eraseKey 10), ample (.eraseKey 20),
      ample (.eraseKey 30)] = some (outs, t) ∧ outs.map failedCall = [false, true, false, false, false] ∧
    t.toList = some [] ∧ t.size = 0 ∧ t.clear = some t' ∧ (∃ n m, 0 < n ∧ n < m ∧ (t'.heap.get n).isSome ∧ (t'.heap.get m).isSome) := by
  refine ⟨_, _, _, rfl, by decide +kernel, by decide +kernel, by decide +kernel, rfl, 3, 4, by decide, by decide, ?_, ?_⟩
  all_goals decide +kernel

/-- C76, refuted for erasing, in another way: the insertion of 5 into a set with twelve elements fails after two
allocations. The set still holds the twelve; but when the first three of them are erased, reading the first element of the
nine that are left, `*s.begin()`, is undefined behaviour. -/
theorem C76_begin_refuted : ∃ outs t,
    execAllA numSet Tree.empty [ample (.insertAll [10, 20, 30, 40, 50, 60, 70, 80, 90, 100, 110, 120]), ⟨.insert 5, 2⟩,
      ample (.eraseKey 10), ample (.eraseKey 20), ample (.eraseKey 30)] = some (outs, t) ∧
    outs.map failedCall = [false, true, false, false, false] ∧ t.size = 9 ∧
    (t.begin.bind fun it => deref t.heap it) = none := by
  refine ⟨_, _, rfl, ?_, ?_, ?_⟩
  all_goals decide +kernel

/-! ### Cases -/

theorem numSet_order : StrictWeak numSet.lt := by
  constructor
  · simp [numSet]
  · intro a b c h1 h2
    simp [numSet] at h1 h2 ⊢; omega
  · intro a b c h
    simp [numSet] at h ⊢; omega

/-- A caller that fills a set, and then takes out an element only if that has gone well. -/
def careful (room : Nat) : Caller Nat Nat
  | [] => some ⟨.insert 1, 0⟩
  | [_] => some ⟨.insertAll [1, 2, 3, 4, 5, 6, 7], room⟩
  | .ok _ :: [_] => some ⟨.eraseKey 3, 0⟩
  | .badAlloc :: [_] => some ⟨.insert 8, 9⟩
  | _ :: [_, _] => some ⟨.clear, 0⟩
  | _ :: [_, _, _] => some ⟨.eraseKey 5, 0⟩
  | _ => none

/-- The hypotheses of the partial theorem can be met. -/
example (room : Nat) : (careful room).Safe numSet.multi numSet.key numSet.lt := by
  intro outs l d call h hw
  cases h with
  | start => cases hw; exact ⟨trivial, by simp⟩
  | @call _ _ _ _ out1 _ h1 hw1 st1 =>
    cases h1 with
    | start => cases hw; cases hw1; exact ⟨trivial, fun _ => rfl⟩
    | @call _ _ _ _ out2 _ h2 hw2 st2 =>
      cases h2 with
      | start =>
        cases hw2; cases hw1
        cases out1 with
        | ok r =>
          cases hw
          refine ⟨trivial, fun hd => ?_⟩
          cases out2 <;> simp [midway] at hd
        | badAlloc => cases hw; exact ⟨trivial, fun _ => rfl⟩
      | call h3 hw3 st3 =>
        cases h3 with
        | start => cases hw; exact ⟨trivial, fun _ => rfl⟩
        | call h4 hw4 st4 =>
          cases h4 with
          | start =>
            cases hw1
            cases out1 with
            | badAlloc => cases st1
            | ok r => cases hw; exact ⟨trivial, fun hd => by simp [midway] at hd⟩
          | call => cases hw

example : (Caller.run numSet (careful 4) 3).map (fun x => (x.1.map failedCall, x.2.toList)) =
    some ([false, true, true], some [1, 2, 3, 8]) := by decide +kernel

example : (Caller.run numSet (careful 40) 3).map (fun x => (x.1.map failedCall, x.2.toList)) =
    some ([false, false, true], some [1, 2, 4, 5, 6, 7]) := by decide +kernel

/-- Copies fail midway, too. -/
example : ∃ t, (execAllA numSet Tree.empty [ample (.insertAll [1, 2, 3, 4, 5, 6, 7])]).map (·.2) = some t ∧
    (∃ t', t.copyA numSet 3 = some (.failed t')) ∧ ∃ t' left, t.copyA numSet 20 = some (.done t' left) :=
  ⟨_, rfl, ⟨_, rfl⟩, _, _, rfl⟩

end Gtl.Props.Btree
