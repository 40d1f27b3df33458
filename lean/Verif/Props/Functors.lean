import Verif.Parallel.FunctorProof
import Verif.Props.HashTable
import Verif.Props.Parallel
/-!
# Property theorems C94: hash function objects of their own

Containers of one type may hold different hash function objects, for instance with different seeds. The answers do not depend on
them. Copies, moves and swaps take the function along, and `hash_function()` says which one a container has.

The code does not keep all of this: it also moves the function object out of a container that is moved from, which its own
comment (phmap.hpp:1840-1842) rules out, and the parallel containers cannot be merged or compared if their functions differ.
-/

namespace Gtl.Props.Functors

open Gtl.Swiss Gtl.Parallel
open Gtl.Spec (Op POp Resp FOp FResp)
open Gtl.Props.Hash (Contract)

variable {α κ S : Type}

/-- The key comparison is an equivalence, and every hash function there may be respects it. -/
structure FContract (C : Cfg α κ) (F : Fns S κ) : Prop where
  refl : ∀ k, C.eqv k k = true
  symm : ∀ k l, C.eqv k l = true → C.eqv l k = true
  trans : ∀ k l m, C.eqv k l = true → C.eqv l m = true → C.eqv k m = true
  hash_congr : ∀ s h, F.call s = some h → ∀ k l, C.eqv k l = true → h k = h l
  group : C.G = groupSse2 true ∨ C.G = groupSse2 false ∨ C.G = groupPortable

theorem FContract.good {C : Cfg α κ} {F : Fns S κ} (h : FContract C F) : Box.Good C F := by
  intro s
  have hc : Contract (Box.cfg C F s) := by
    refine ⟨h.refl, h.symm, h.trans, fun k l e => ?_, h.group⟩
    show (F.call s).getD (fun _ => 0) k = (F.call s).getD (fun _ => 0) l
    cases hs : F.call s with
    | none => rfl
    | some f => exact h.hash_congr s f hs k l e
  exact hc.cfgOk

/-- The history according to the specification; all containers start empty, with function object `s0`. -/
def expected [BEq α] (C : Cfg α κ) (F : Fns S κ) (moved : S → S) (s0 : S) (ops : List (FOp S (Op α κ))) :=
  Spec.fwrun C.key C.eqv (Spec.calls C.key C.eqv) (fun s => (F.call s).isSome) moved moved (fun _ => (s0, [])) ops

/-- A valid history. -/
def ValidHist (C : Cfg α κ) (ops : List (FOp S (Op α κ))) : Prop := ∀ op ∈ ops, op.Valid (Op.Valid C.key) false

/-- The history in the model of the code. -/
def history [BEq α] (C : Cfg α κ) (F : Fns S κ) (s0 : S) (ops : List (FOp S (Op α κ))) :=
  Box.wrun C F (fun _ => ⟨s0, Tbl.empty⟩) ops

/-- What one sees of a container with function `x.1` and elements `x.2`. -/
def Shows (C : Cfg α κ) (b : Box S α) (x : S × List α) : Prop :=
  b.fn = x.1 ∧ (∃ vs, b.tbl.iterate C = .ok vs ∧ vs.Perm x.2) ∧ b.tbl.size = x.2.length ∧ ∃ u, b.tbl.destroySlots = .ok u

/-- All histories over any number of containers with any function objects: the answers, the functions and the elements are as
specified, where `F.moved` says what is left of a function object that was moved from. -/
theorem C94_history [BEq α] [LawfulBEq α] {C : Cfg α κ} {F : Fns S κ} (h : FContract C F) (s0 : S)
    {ops : List (FOp S (Op α κ))} (hv : ValidHist C ops) :
    ∃ w, history C F s0 ops = .ok (w, (expected C F F.moved s0 ops).2) ∧
      ∀ i, Shows C (w i) ((expected C F F.moved s0 ops).1 i) := by
  obtain ⟨w, h1, h2⟩ := Box.wrun_fsim h.good ops (w := fun _ => ⟨s0, Tbl.empty⟩) (m := fun _ => (s0, []))
    (fun _ => Box.empty_fsim h.good s0) hv
  refine ⟨w, h1, fun i => ?_⟩
  obtain ⟨g1, g2, _⟩ := id (h2 i)
  obtain ⟨vs, g3, g4⟩ := iterate_sim (h.good _) g2
  refine ⟨g1, ⟨vs, ?_, g4⟩, g2.size, Box.destroy_fsim h.good (h2 i)⟩
  rw [← iterate_using C]; exact g3

/-- When function objects that were moved from are as before, as those that are copied by their move constructor, containers
that were moved from keep their function. Missing: other function objects, refuted below. -/
theorem C94_plain_partial [BEq α] [LawfulBEq α] {C : Cfg α κ} {F : Fns S κ} (h : FContract C F) (hm : ∀ s, F.moved s = s) (s0 : S)
    {ops : List (FOp S (Op α κ))} (hv : ValidHist C ops) :
    ∃ w, history C F s0 ops = .ok (w, (expected C F id s0 ops).2) ∧ ∀ i, Shows C (w i) ((expected C F id s0 ops).1 i) := by
  have : F.moved = id := funext hm
  rw [← this]
  exact C94_history h s0 hv

/-- The function objects a history passes to constructors. -/
def Given (ops : List (FOp S (Op α κ))) (s : S) : Prop := ∃ i n, FOp.create i s n ∈ ops

theorem fwrun_can [BEq α] {key : α → κ} {eqv : κ → κ → Bool} {can : S → Bool} {moved : S → S}
    (hm : ∀ s, can s = true → can (moved s) = true) : ∀ (ops : List (FOp S (Op α κ))) (w : Nat → S × List α),
    (∀ i, can (w i).1 = true) → (∀ i s n, FOp.create i s n ∈ ops → can s = true) →
    FResp.threw ∉ (Spec.fwrun key eqv (Spec.calls key eqv) can moved moved w ops).2
  | [], w, _, _ => by simp [Spec.fwrun]
  | op :: ops, w, hw, hg => by
    have hput : ∀ (v : Nat → S × List α) i x, (∀ j, can (v j).1 = true) → can x.1 = true → ∀ j, can (Spec.put v i x j).1 = true := by
      intro v i x hv hx j
      unfold Spec.put
      split
      · exact hx
      · exact hv j
    have key' : (Spec.fwstep key eqv (Spec.calls key eqv) can moved moved w op).2 ≠ .threw ∧
        ∀ j, can ((Spec.fwstep key eqv (Spec.calls key eqv) can moved moved w op).1 j).1 = true := by
      cases op with
      | on i op =>
        have e : (can (w i).1 || !(Spec.calls key eqv).needsHash op) = true := by rw [hw i]; rfl
        unfold Spec.fwstep
        simp only [if_pos e]
        exact ⟨by simp, hput _ _ _ hw (hw i)⟩
      | create i s n => exact ⟨by simp [Spec.fwstep], hput _ _ _ hw (hg i s n List.mem_cons_self)⟩
      | copy i j => exact ⟨by simp [Spec.fwstep], hput _ _ _ hw (hw j)⟩
      | take i j => exact ⟨by simp [Spec.fwstep], hput _ _ _ (hput _ _ _ hw (hm _ (hw j))) (hw j)⟩
      | move i j => exact ⟨by simp [Spec.fwstep], hput _ _ _ (hput _ _ _ hw (hm _ (hw j))) (hw j)⟩
      | swap i j => exact ⟨by simp [Spec.fwstep], hput _ _ _ (hput _ _ _ hw (hw j)) (hw i)⟩
      | merge i j =>
        have e : (can (w i).1 || (w j).2.isEmpty) = true := by rw [hw i]; rfl
        unfold Spec.fwstep
        simp only [if_pos e]
        exact ⟨by simp, hput _ _ _ (hput _ _ _ hw (hw i)) (hw j)⟩
      | equal i j => exact ⟨by simp [Spec.fwstep], hw⟩
      | fn i => exact ⟨by simp [Spec.fwstep], hw⟩
    have ih := fwrun_can (key := key) (eqv := eqv) hm ops _ key'.2 (fun i s n hs => hg i s n (List.mem_cons_of_mem _ hs))
    simp only [Spec.fwrun, List.mem_cons, not_or]
    exact ⟨fun e => key'.1 e.symm, ih⟩

/-- No call throws if the function objects the program uses can be called, also after they were moved from. -/
theorem C94_usable [BEq α] [LawfulBEq α] {C : Cfg α κ} {F : Fns S κ} (h : FContract C F)
    (hm : ∀ s, (F.call s).isSome = true → (F.call (F.moved s)).isSome = true) {s0 : S} (h0 : (F.call s0).isSome = true)
    {ops : List (FOp S (Op α κ))} (hv : ValidHist C ops) (hg : ∀ s, Given ops s → (F.call s).isSome = true) :
    ∃ w rs, history C F s0 ops = .ok (w, rs) ∧ FResp.threw ∉ rs := by
  obtain ⟨w, h1, _⟩ := C94_history h s0 hv
  exact ⟨w, _, h1, fwrun_can hm ops _ (fun _ => h0) (fun i s n hs => hg s ⟨i, n, hs⟩)⟩

/-! ### Function objects that are empty after a move -/

/-- In every state that a program can reach: after `c_i = std::move(c_j)`, every call on `c_j` that looks for a key throws, if the
function object does so once it was moved from. -/
theorem C94_moved_from [BEq α] [LawfulBEq α] {C : Cfg α κ} {F : Fns S κ} (h : FContract C F) {s0 : S}
    {ops : List (FOp S (Op α κ))} (hv : ValidHist C ops) {w : Nat → Box S α} {rs : List (FResp S α)}
    (hw : history C F s0 ops = .ok (w, rs)) {i j : Nat} (hij : i ≠ j) (hj : F.call (F.moved (w j).fn) = none) :
    ∃ w1, Box.wstep C F w (.move i j) = .ok (w1, .got .unit) ∧
      ∀ op : Op α κ, op.Valid C.key → op.needsHash = true → ∃ w2, Box.wstep C F w1 (.on j op) = .ok (w2, .threw) := by
  obtain ⟨w', h1, h2⟩ := Box.wrun_fsim h.good ops (w := fun _ => ⟨s0, Tbl.empty⟩) (m := fun _ => (s0, []))
    (fun _ => Box.empty_fsim h.good s0) hv
  have e : w' = w := by
    unfold history at hw
    rw [hw] at h1; cases h1; rfl
  subst e
  obtain ⟨w1, g1, g2⟩ := Box.wstep_fsim h.good h2 (.move i j) trivial
  refine ⟨w1, g1, fun op hop hn => ?_⟩
  obtain ⟨w2, g3, _⟩ := Box.wstep_fsim h.good g2 (.on j op) hop
  refine ⟨w2, ?_⟩
  rw [g3]
  congr 2
  have hji : ¬ j = i := fun e => hij e.symm
  have hf := (h2 j).1
  unfold Box.spec Spec.fwstep
  simp only
  rw [if_neg ?_]
  simp only [Spec.put, if_neg hji, if_true]
  rw [← hf, hj]
  show ¬ (false || !op.needsHash) = true
  rw [hn]
  simp

/-- Hash functions with a seed, held by an object that is empty after a move, like `std::function`. -/
def seeded : Fns (Option Nat) Nat where
  call := fun o => o.map (fun s k => (k + s) * 2654435769)
  moved := fun _ => none

/-- The same, held by an object that is copied when it is moved. -/
def seededCopy : Fns (Option Nat) Nat where
  call := fun o => o.map (fun s k => (k + s) * 2654435769)
  moved := id

/-- Sets of numbers. -/
def cfg0 : Cfg Nat Nat := { key := id, hash := fun _ => 0, eqv := (· == ·), G := groupPortable }

theorem seeded_ok : FContract cfg0 seeded := by
  refine ⟨by simp [cfg0], by simp [cfg0], by simp [cfg0], ?_, .inr (.inr rfl)⟩
  intro s h _ k l e
  have : k = l := by simpa [cfg0] using e
  rw [this]

theorem seededCopy_ok : FContract cfg0 seededCopy := by
  refine ⟨by simp [cfg0], by simp [cfg0], by simp [cfg0], ?_, .inr (.inr rfl)⟩
  intro s h _ k l e
  have : k = l := by simpa [cfg0] using e
  rw [this]

/-- Two containers with different functions, a copy, a merge, a comparison, a move, and calls on the container that was moved
from. -/
def demo : List (FOp (Option Nat) (Op Nat Nat)) :=
  [.create 0 (some 1) 0, .create 1 (some 2) 10, .on 0 (.insert 5), .on 1 (.insert 5), .on 1 (.insert 6), .equal 0 1,
   .copy 2 0, .merge 0 1, .on 0 .size, .on 1 .size, .fn 2, .swap 1 2, .fn 2, .equal 1 2, .move 3 0, .on 3 (.contains 6), .fn 3,
   .on 0 .size, .fn 0, .on 0 (.insert 7)]

def demoAnswers (r : FResp (Option Nat) Nat) (s : Option Nat) : List (FResp (Option Nat) Nat) :=
  [.got .unit, .got .unit, .got (.ins 5 true), .got (.ins 5 true), .got (.ins 6 true), .got (.bool false), .got .unit,
   .got .unit, .got (.nat 2), .got (.nat 1), .fn (some 1), .got .unit, .fn (some 2), .got (.bool true), .got .unit,
   .got (.bool true), .fn (some 1), .got (.nat 0), .fn s, r]

theorem demo_valid : ValidHist cfg0 demo := by
  intro op hop
  simp only [demo, List.mem_cons, List.not_mem_nil, or_false] at hop
  rcases hop with rfl | rfl | rfl | rfl | rfl | rfl | rfl | rfl | rfl | rfl | rfl | rfl | rfl | rfl | rfl | rfl | rfl | rfl | rfl | rfl
  all_goals (simp [FOp.Valid, Op.Valid])

/-- A function object that is copied when it is moved: the last insertion into the container that was moved from works. -/
example : ∃ w, history cfg0 seededCopy none demo = .ok (w, demoAnswers (.got (.ins 7 true)) (some 1)) := by
  obtain ⟨w, h1, _⟩ := C94_plain_partial seededCopy_ok (fun _ => rfl) none demo_valid
  exact ⟨w, h1.trans (congrArg (fun x => Res.ok (w, x)) (by decide +kernel))⟩

/-- One that is empty after a move: it throws. -/
theorem demo_throws : ∃ w, history cfg0 seeded none demo = .ok (w, demoAnswers .threw none) := by
  obtain ⟨w, h1, _⟩ := C94_history seeded_ok none demo_valid
  exact ⟨w, h1.trans (congrArg (fun x => Res.ok (w, x)) (by decide +kernel))⟩

/-- Containers that were moved from do not keep their function. -/
theorem C94_moved_from_refuted : ¬ ∀ (F : Fns (Option Nat) Nat), FContract cfg0 F → ∀ ops, ValidHist cfg0 ops →
    ∃ w, history cfg0 F none ops = .ok (w, (expected cfg0 F id none ops).2) := by
  intro hall
  obtain ⟨w, h1⟩ := hall seeded seeded_ok demo demo_valid
  obtain ⟨w', h2⟩ := demo_throws
  rw [h1] at h2
  have h3 : (expected cfg0 seeded id none demo).2 = demoAnswers .threw none := by
    injection h2 with h2; exact congrArg Prod.snd h2
  exact absurd h3 (by decide +kernel)

/-- The hypotheses of `C94_usable` and of `C94_moved_from` hold of these objects. -/
example : (∀ s, (seededCopy.call s).isSome = true → (seededCopy.call (seededCopy.moved s)).isSome = true) ∧
    (∀ s, seeded.call (seeded.moved s) = none) ∧ (Op.insert 7 : Op Nat Nat).needsHash = true :=
  ⟨fun _ h => h, fun _ => rfl, rfl⟩

/-! ### Parallel containers -/

/-- The history in the model of the code. -/
def phistory [BEq α] (P : PCfg α κ) (F : Fns S κ) (s0 : S) (ops : List (FOp S (POp α κ))) :=
  PBox.wrun P F (fun _ => ⟨s0, PTbl.empty P⟩) ops

/-- The history according to the specification; a construction from `std::move(c)` copies the function object. -/
def pexpected [BEq α] (P : PCfg α κ) (F : Fns S κ) (s0 : S) (ops : List (FOp S (POp α κ))) :=
  Spec.fwrun P.C.key P.C.eqv (Spec.pcalls P.C.key P.C.eqv) (fun s => (F.call s).isSome) F.moved id (fun _ => (s0, [])) ops

/-- A valid history. -/
def PValidHist (P : PCfg α κ) (ops : List (FOp S (POp α κ))) : Prop :=
  ∀ op ∈ ops, op.Valid (POp.Valid P.C.key (2 ^ P.N)) (Parallel.hasLocks P)

/-- Objects that hold the same function, or none. -/
def SameFn (F : Fns S κ) (s s' : S) : Prop := F.call s = none ∨ F.call s' = none ∨ F.call s = F.call s'

/-- Parallel containers are merged and compared only if they have the same function. -/
def OnlyAlike [BEq α] (P : PCfg α κ) (F : Fns S κ) (s0 : S) (ops : List (FOp S (POp α κ))) : Prop :=
  Spec.Alike P.C.key P.C.eqv (Spec.pcalls P.C.key P.C.eqv) (fun s => (F.call s).isSome) F.moved id (SameFn F)
    (fun _ => (s0, [])) ops

/-- What one sees of a parallel container. -/
def PShows (P : PCfg α κ) (b : PBox S α) (x : S × List α) : Prop :=
  b.fn = x.1 ∧ (∃ vs, b.tbl.forEach P = .ok vs ∧ vs.Perm x.2) ∧ b.tbl.size = x.2.length

/-- All histories over any number of parallel containers with any function objects, one thread. Missing: `merge` and `==` between
containers with different functions, refuted below. -/
theorem C94_parallel_partial [BEq α] [LawfulBEq α] {P : PCfg α κ} {F : Fns S κ} (h : FContract P.C F) (s0 : S)
    {ops : List (FOp S (POp α κ))} (hv : PValidHist P ops) (hs : OnlyAlike P F s0 ops) :
    ∃ w, phistory P F s0 ops = .ok (w, (pexpected P F s0 ops).2) ∧ ∀ i, PShows P (w i) ((pexpected P F s0 ops).1 i) := by
  obtain ⟨w, h1, h2⟩ := PBox.wrun_pfsim h.good ops (w := fun _ => ⟨s0, PTbl.empty P⟩) (m := fun _ => (s0, []))
    (fun _ => ⟨rfl, empty_psim (P := PBox.pcfg P F s0) (h.good s0).group, fun _ => rfl⟩) hv hs
  refine ⟨w, h1, fun i => ?_⟩
  obtain ⟨g1, g2, _⟩ := id (h2 i)
  refine ⟨g1, ⟨_, ?_, g2.flat⟩, g2.size⟩
  have := forEach_psim (h.good _) g2
  rw [← this]
  unfold PTbl.forEach
  congr 2
  funext t
  exact (iterate_using P.C _ t).symm

/-- Hash functions with a seed, of a parallel container: key `k` is in submap `k + s`. -/
def rotated : Fns Nat Nat where
  call := fun s => some (fun k => (k + s) * 256)
  moved := id

/-- Two submaps. -/
def pcfg0 (m : Mtx) : PCfg Nat Nat := { C := cfg0, N := 1, mtx := m }

theorem rotated_ok : FContract cfg0 rotated := by
  refine ⟨by simp [cfg0], by simp [cfg0], by simp [cfg0], ?_, .inr (.inr rfl)⟩
  intro s h _ k l e
  have : k = l := by simpa [cfg0] using e
  rw [this]

/-- A merge between containers with different functions. -/
def mergeDemo : List (FOp Nat (POp Nat Nat)) :=
  [.create 0 0 0, .create 1 1 0, .on 1 (.base (.insert 4)), .merge 0 1, .on 0 (.base .size), .on 0 (.base (.contains 4)),
   .on 0 (.base (.insert 4)), .on 0 (.base .size)]

theorem mergeDemo_valid (m : Mtx) : PValidHist (pcfg0 m) mergeDemo := by
  intro op hop
  simp only [mergeDemo, List.mem_cons, List.not_mem_nil, or_false] at hop
  rcases hop with rfl | rfl | rfl | rfl | rfl | rfl | rfl | rfl
  all_goals (simp [FOp.Valid, POp.Valid])

/-- The element that was merged is counted but not found, and it can be inserted a second time. -/
theorem mergeDemo_runs (m : Mtx) : ∃ w, phistory (pcfg0 m) rotated 0 mergeDemo = .ok (w, [.got .unit, .got .unit, .got (.ins 4 true),
    .got .unit, .got (.nat 1), .got (.bool false), .got (.ins 4 true), .got (.nat 2)]) ∧
    (w 0).tbl.forEach (pcfg0 m) = .ok [4, 4] := by
  have : (phistory (pcfg0 m) rotated 0 mergeDemo >>= fun x => (x.1 0).tbl.forEach (pcfg0 m) >>= fun l => Res.ok (x.2, l)) =
      .ok ([.got .unit, .got .unit, .got (.ins 4 true), .got .unit, .got (.nat 1), .got (.bool false),
        .got (.ins 4 true), .got (.nat 2)], [4, 4]) := by cases m <;> decide +kernel
  obtain ⟨⟨w, rs⟩, h1, h2⟩ := Res.bind_eq_ok.1 this
  obtain ⟨l, h3, h4⟩ := Res.bind_eq_ok.1 h2
  cases h4
  exact ⟨w, h1, h3⟩

/-- Two containers with the same element and different functions. -/
def equalDemo : List (FOp Nat (POp Nat Nat)) :=
  [.create 0 0 0, .create 1 1 0, .on 0 (.base (.insert 4)), .on 1 (.base (.insert 4)), .equal 0 1]

theorem equalDemo_valid (m : Mtx) : PValidHist (pcfg0 m) equalDemo := by
  intro op hop
  simp only [equalDemo, List.mem_cons, List.not_mem_nil, or_false] at hop
  rcases hop with rfl | rfl | rfl | rfl | rfl
  all_goals (simp [FOp.Valid, POp.Valid])

/-- They compare as different. -/
theorem equalDemo_runs (m : Mtx) : ∃ w, phistory (pcfg0 m) rotated 0 equalDemo =
    .ok (w, [.got .unit, .got .unit, .got (.ins 4 true), .got (.ins 4 true), .got (.bool false)]) := by
  have : (phistory (pcfg0 m) rotated 0 equalDemo >>= fun x => Res.ok x.2) =
      .ok [.got .unit, .got .unit, .got (.ins 4 true), .got (.ins 4 true), .got (.bool false)] := by
    cases m <;> decide +kernel
  obtain ⟨⟨w, rs⟩, h1, h2⟩ := Res.bind_eq_ok.1 this
  cases h2
  exact ⟨w, h1⟩

/-- `merge` between parallel containers with different functions does not give the union: with every mutex there is a history
in which only `merge` joins containers with different functions, and the answers are wrong. -/
theorem C94_parallel_merge_refuted (m : Mtx) : ∃ ops, PValidHist (pcfg0 m) ops ∧ (∀ i j, FOp.equal i j ∉ ops) ∧
    ∀ w, phistory (pcfg0 m) rotated 0 ops ≠ .ok (w, (pexpected (pcfg0 m) rotated 0 ops).2) := by
  refine ⟨mergeDemo, mergeDemo_valid m, by simp [mergeDemo], fun w hw => ?_⟩
  obtain ⟨w', h1, _⟩ := mergeDemo_runs m
  rw [hw] at h1
  injection h1 with h1
  have := congrArg Prod.snd h1
  dsimp only at this
  clear h1 hw
  exact absurd this (by cases m <;> decide +kernel)

/-- `==` between parallel containers with different functions is false although they hold the same elements. -/
theorem C94_parallel_equal_refuted (m : Mtx) : ∃ ops, PValidHist (pcfg0 m) ops ∧ (∀ i j, FOp.merge i j ∉ ops) ∧
    ∀ w, phistory (pcfg0 m) rotated 0 ops ≠ .ok (w, (pexpected (pcfg0 m) rotated 0 ops).2) := by
  refine ⟨equalDemo, equalDemo_valid m, by simp [equalDemo], fun w hw => ?_⟩
  obtain ⟨w', h1⟩ := equalDemo_runs m
  rw [hw] at h1
  injection h1 with h1
  have := congrArg Prod.snd h1
  dsimp only at this
  clear h1 hw
  exact absurd this (by cases m <;> decide +kernel)

/-- The hypotheses of `C94_parallel_partial`: two containers with different functions, whose contents change hands by a move, and
then a merge between containers with the same function. -/
def alikeDemo : List (FOp Nat (POp Nat Nat)) :=
  [.create 0 0 0, .create 1 1 0, .on 0 (.base (.insert 4)), .on 1 (.base (.insert 5)), .take 2 1, .fn 1, .copy 0 2,
   .on 0 (.base (.insert 7)), .merge 2 0, .on 2 (.base (.contains 7)), .on 0 (.base .size)]

theorem alikeDemo_ok : PValidHist (pcfg0 .excl) alikeDemo ∧ OnlyAlike (pcfg0 .excl) rotated 0 alikeDemo := by
  constructor
  · intro op hop
    simp only [alikeDemo, List.mem_cons, List.not_mem_nil, or_false] at hop
    rcases hop with rfl | rfl | rfl | rfl | rfl | rfl | rfl | rfl | rfl | rfl | rfl
    all_goals (simp [FOp.Valid, POp.Valid])
  · refine ⟨trivial, trivial, trivial, trivial, trivial, trivial, trivial, trivial, .inr (.inr ?_), trivial, trivial, trivial⟩
    rfl

example : ∃ w, phistory (pcfg0 .excl) rotated 0 alikeDemo = .ok (w, [.got .unit, .got .unit, .got (.ins 4 true),
    .got (.ins 5 true), .got .unit, .fn 1, .got .unit, .got (.ins 7 true), .got .unit, .got (.bool true), .got (.nat 1)]) := by
  obtain ⟨w, h1, _⟩ := C94_parallel_partial rotated_ok 0 alikeDemo_ok.1 alikeDemo_ok.2
  exact ⟨w, h1.trans (congrArg (fun x => Res.ok (w, x)) (by decide +kernel))⟩

end Gtl.Props.Functors
