import Verif.Props.Parallel
import Verif.Swiss.Asked
import Verif.Parallel.Asked
import Verif.Btree.Asked
import Verif.Btree.History
/-
C106: `erase_if` with predicates that throw or have a memory, for hash containers, parallel hash containers and B-tree
containers. The specification is `Spec/Asked.lean`.
-/
namespace Gtl.Props.Asked
open Gtl.Spec.Asked
variable {α κ σ : Type}

/-! ### About the specification -/

theorem left_sublist (pred : Pred σ α) : ∀ (s : σ) (l : List α), (left pred s l).1.Sublist l
  | _, [] => List.Sublist.refl _
  | s, a :: l => by
    rw [left]
    rcases pred s a with ⟨an, s'⟩
    cases an with
    | throw => exact List.Sublist.refl _
    | erase => exact (left_sublist pred s' l).cons a
    | keep => exact (left_sublist pred s' l).cons_cons a

/-- A predicate without memory that does not throw: `erase_if` removes the elements it is true of. -/
theorem C106_pure (p : α → Bool) : ∀ (l : List α),
    left (fun (_ : Unit) a => (if p a then Answer.erase else .keep, ())) () l = (l.filter (fun a => !p a), (), false)
  | [] => rfl
  | a :: l => by
    rw [left]
    cases h : p a with
    | true => simp [C106_pure p l, h]
    | false => simp [C106_pure p l, h]

/-- A predicate that writes down what it is asked about. -/
def logging (pred : Pred σ α) : Pred (List α × σ) α := fun s a => ((pred s.2 a).1, s.1 ++ [a], (pred s.2 a).2)

theorem left_logging (pred : Pred σ α) : ∀ (s : σ) (lg l : List α),
    ∃ asked rest, l = asked ++ rest ∧ (left (logging pred) (lg, s) l).2.1.1 = lg ++ asked ∧
      ((left (logging pred) (lg, s) l).2.2 = false → rest = []) ∧
      ((left (logging pred) (lg, s) l).2.2 = true → ∃ a before, asked = before ++ [a] ∧
        ∃ kept, kept.Sublist before ∧ (left (logging pred) (lg, s) l).1 = kept ++ a :: rest)
  | s, lg, [] => ⟨[], [], rfl, by simp [left], by simp, by simp [left]⟩
  | s, lg, a :: l => by
    rw [left]
    rcases h : pred s a with ⟨an, s'⟩
    have hl : logging pred (lg, s) a = (an, lg ++ [a], s') := by simp [logging, h]
    rw [hl]
    cases an with
    | throw => exact ⟨[a], l, rfl, rfl, by simp, fun _ => ⟨a, [], rfl, [], List.Sublist.refl _, rfl⟩⟩
    | erase =>
      obtain ⟨asked, rest, e1, e2, e3, e4⟩ := left_logging pred s' (lg ++ [a]) l
      refine ⟨a :: asked, rest, by simp [e1], by simp [e2], e3, fun ht => ?_⟩
      obtain ⟨b, before, e5, kept, e6, e7⟩ := e4 ht
      exact ⟨b, a :: before, by simp [e5], kept, e6.cons a, e7⟩
    | keep =>
      obtain ⟨asked, rest, e1, e2, e3, e4⟩ := left_logging pred s' (lg ++ [a]) l
      refine ⟨a :: asked, rest, by simp [e1], by simp [e2], e3, fun ht => ?_⟩
      obtain ⟨b, before, e5, kept, e6, e7⟩ := e4 ht
      exact ⟨b, a :: before, by simp [e5], a :: kept, e6.cons_cons a, by simp [e7]⟩

/-- C106: what a predicate is asked about is the beginning of the traversal, once each, and all of it unless it
throws; when it throws, the element it threw for and all elements it has not seen stay. -/
theorem C106_asked_once (pred : Pred σ α) (s : σ) (l : List α) :
    ∃ asked rest, l = asked ++ rest ∧ (left (logging pred) ([], s) l).2.1.1 = asked ∧
      ((left (logging pred) ([], s) l).2.2 = false → rest = []) ∧
      ((left (logging pred) ([], s) l).2.2 = true → ∃ a before, asked = before ++ [a] ∧
        ∃ kept, kept.Sublist before ∧ (left (logging pred) ([], s) l).1 = kept ++ a :: rest) := by
  simpa using left_logging pred s [] l

/-! ### Hash containers -/

section hash
open Gtl.Swiss Gtl.Props.Hash

/-- C106, hash containers: for every predicate `erase_if` visits the elements in iteration order, erases what it is told
to, and when the predicate throws leaves the rest where it is; the container behaves from then on as one with the
elements that are left, in the same order. Without an exception it returns how many it erased. -/
theorem C106_hash [BEq α] [LawfulBEq α] {C : Cfg α κ} (h : Contract C) {t : Tbl α} (hr : Reachable C t)
    (pred : Pred σ α) (s : σ) :
    ∃ l t' n, t.iterate C = .ok l ∧ t.eraseAsk C pred s = .ok (t', (left pred s l).2.1, n) ∧
      (n = none ↔ (left pred s l).2.2 = true) ∧ (∀ k, n = some k → k + (left pred s l).1.length = l.length) ∧
      t'.iterate C = .ok (left pred s l).1 ∧ BehavesAs C t' (left pred s l).1 := by
  have hs := hr.sim h
  obtain ⟨⟨c, hi⟩, _⟩ := id hs
  obtain ⟨t', c', e1, e2, e3⟩ := eraseAsk_spec h.cfgOk hi pred s
  refine ⟨elems t, t', _, sim_iterate h hs, e1, ?_, ?_, ?_, sim_behaves h ⟨⟨c', e2⟩, by rw [e3]⟩⟩
  · cases (left pred s (elems t)).2.2 <;> simp
  · have := (left_sublist pred s (elems t)).length_le
    cases (left pred s (elems t)).2.2
    · intro k hk
      simp only [Bool.false_eq_true, if_false, Option.some.injEq] at hk
      omega
    · intro k hk; simp at hk
  · rw [iterate_spec h.cfgOk.group e2.core, e3]

end hash

/-! ### Parallel hash containers -/

section parallel
open Gtl.Swiss Gtl.Parallel Gtl.Props.Hash Gtl.Props.Parallel

/-- C106, parallel hash containers (one thread): the same. -/
theorem C106_parallel [BEq α] [LawfulBEq α] {P : PCfg α κ} (h : Contract P.C) {p : PTbl α} (hr : PReachable P p)
    (pred : Pred σ α) (s : σ) :
    ∃ l p' n, p.iterate P = .ok l ∧ p.eraseAsk P pred s = .ok (p', (left pred s l).2.1, n) ∧
      (n = none ↔ (left pred s l).2.2 = true) ∧ (∀ k, n = some k → k + (left pred s l).1.length = l.length) ∧
      p'.iterate P = .ok (left pred s l).1 ∧ PBehavesAs P p' (left pred s l).1 := by
  have hs := hr.sim h
  obtain ⟨p', e1, e2, e3⟩ := eraseAsk_wf h.cfgOk hs.wf pred s
  have hs' : PSim P p' (left pred s (flat p)).1 := e2.sim (by rw [e3])
  have hs0 : PSim P p (flat p) := hs.wf.sim (List.Perm.refl _)
  refine ⟨flat p, p', _, psim_iterate h hs, e1, ?_, ?_, ?_, psim_behaves h hs'⟩
  · cases (left pred s (flat p)).2.2 <;> simp
  · have := (left_sublist pred s (flat p)).length_le
    cases (left pred s (flat p)).2.2
    · intro k hk
      simp only [Bool.false_eq_true, if_false, Option.some.injEq] at hk
      rw [hs0.size, hs'.size] at hk
      omega
    · intro k hk; simp at hk
  · rw [psim_iterate h hs', e3]

end parallel

/-! ### B-tree containers -/

section btree
open Gtl.Btree Gtl.Spec.SortedSeq

/-- C106, B-tree containers: the same, after every sequence of calls, and all later sequences of calls do what they do on
the sequence that is left; no call has undefined behaviour. -/
theorem C106_btree {c : Btree.Cfg α κ} (hK : 3 ≤ c.K) (o : StrictWeak c.lt) (ops : List (Op α κ))
    (hs : Safe c.multi c.key c.lt [] ops) (pred : Pred σ α) (s : σ) :
    ∃ rs t L t', execAll c Tree.empty ops = some (rs, t) ∧ t.toList = some L ∧
      t.eraseAsk c pred s = some (t', (left pred s L).2) ∧ t'.toList = some (left pred s L).1 ∧
      t'.size = (left pred s L).1.length ∧
      ∀ ops', Safe c.multi c.key c.lt (left pred s L).1 ops' →
        ∃ rs' t'' L'', execAll c t' ops' = some (rs', t'') ∧
          Run c.multi c.key c.lt (left pred s L).1 ops' rs' L'' ∧ t''.toList = some L'' := by
  obtain ⟨rs, t, L, e, _, hh⟩ := execAll_ok hK o ops (holds_empty c) hs
  obtain ⟨t', e', r'⟩ := eraseAsk_ok hK hh.1 pred s
  refine ⟨rs, t, L, t', e, hh.1.toList, e', r'.toList, r'.size, fun ops' hs' => ?_⟩
  obtain ⟨rs', t'', L'', e1, e2, e3⟩ := execAll_ok hK o ops' ⟨r', hh.2.sub (left_sublist pred s L)⟩ hs'
  exact ⟨rs', t'', L'', e1, e2, e3.1.toList⟩

end btree

/-! ### Examples -/

/-- Erase every third element one is asked about, and throw at the eighth. -/
def third : Pred Nat α := fun i _ => (if i = 7 then .throw else if i % 3 = 2 then .erase else .keep, i + 1)

example : left third 0 [10, 20, 30, 40, 50, 60, 70, 80, 90] = ([10, 20, 40, 50, 70, 80, 90], 8, true) := by decide
example : left third 0 [10, 20, 30, 40] = ([10, 20, 40], 4, false) := by decide

theorem third_many {l : List α} (h : 8 ≤ l.length) :
    (left third 0 l).2 = (8, true) ∧ (left third 0 l).1.length + 2 = l.length := by
  match l, h with
  | a :: b :: c :: d :: e :: f :: g :: i :: l, _ => simp [left, third]

section
open Gtl.Swiss Gtl.Parallel Gtl.Props.Hash Gtl.Props.Parallel

/-- A container with 41 elements: the call throws after two erasures. -/
example : ∃ (t t' : Tbl (Nat × Nat)), Reachable (exCfg groupPortable) t ∧ t.size = 41 ∧
    t.eraseAsk (exCfg groupPortable) third 0 = .ok (t', 8, none) ∧ t'.size = 39 := by
  have hc := exCfg_contract (G := groupPortable) (.inr (.inr rfl))
  obtain ⟨t, h1, h2, _⟩ := exReach (G := groupPortable) (.inr (.inr rfl))
  obtain ⟨l, t', n, e1, e2, e3, _, _, e4⟩ := C106_hash hc h1 (third (α := Nat × Nat)) 0
  have hl : l.length = 41 := by
    have hs := h1.sim hc
    rw [sim_iterate hc hs] at e1
    cases e1
    rw [← hs.1.choose_spec.size_eq, h2]
  obtain ⟨h3, h4⟩ := third_many (l := l) (by omega)
  rw [h3] at e2 e3
  obtain rfl := e3.2 rfl
  obtain ⟨_, f1, _, f2, _⟩ := e4 [] (by simp)
  cases f1
  exact ⟨t, t', h1, h2, e2, by rw [f2]; simp only [Spec.run]; omega⟩

example : ∃ (p p' : PTbl (Nat × Nat)), PReachable (exP groupPortable) p ∧ p.size = 40 ∧
    p.eraseAsk (exP groupPortable) third 0 = .ok (p', 8, none) ∧ p'.size = 38 := by
  have hc := exP_contract (G := groupPortable) (.inr (.inr rfl))
  obtain ⟨p, _, h1, _, h2, _⟩ := exPReach (G := groupPortable) (.inr (.inr rfl))
  obtain ⟨l, p', n, e1, e2, e3, _, _, e4⟩ := C106_parallel hc h1 (third (α := Nat × Nat)) 0
  have hl : l.length = 40 := by
    have hs := h1.sim hc
    rw [psim_iterate hc hs] at e1
    cases e1
    rw [← hs.size, h2]
  obtain ⟨h3, h4⟩ := third_many (l := l) (by omega)
  rw [h3] at e2 e3
  obtain rfl := e3.2 rfl
  obtain ⟨_, f1, _, f2⟩ := e4 [] (by simp)
  cases f1
  exact ⟨p, p', h1, h2, e2, by rw [f2]; simp only [specPrun]; omega⟩

end

section
open Gtl.Btree Gtl.Spec.SortedSeq

/-- Numbers with duplicates, three values per node. -/
def bnums : Btree.Cfg Nat Nat := { K := 3, multi := true, linear := true, cmpTo := false, key := id, lt := fun a b => decide (a < b) }

def bcalls : List (Op Nat Nat) := [.insertAll [5, 3, 9, 1, 7, 2, 8, 6, 4, 0]]

example : StrictWeak bnums.lt ∧ Safe bnums.multi bnums.key bnums.lt [] bcalls := by
  refine ⟨⟨fun a => by simp [bnums], fun a b c h1 h2 => by simp [bnums] at *; omega, fun a b c h1 => by
    simp [bnums] at *; omega⟩, ?_⟩
  simp [bcalls, Safe, Ok]

example : (do let (_, t) ← execAll bnums Tree.empty bcalls
              let (t, s, b) ← t.eraseAsk bnums third 0
              let L ← t.toList
              some (L, s, b)) = some ([0, 1, 3, 4, 6, 7, 8, 9], 8, true) := by decide +kernel

end
end Gtl.Props.Asked
