import Verif.Alloc.Par
/-
C89: memory goes back to the allocator that it came from, and containers have the allocator that the standard
says. The rules are `Rules.standard`, `Ok` and `Step` in `Verif/Spec/AllocOwner.lean`; the programs are
`execAll` over `hashLib`, `parLib`, `btreeLib` and `vecLib` in `Verif/Alloc/Model.lean`, where `none` is an
allocator that is given a block it has not handed out, or no longer has outstanding.
-/
namespace Gtl.Props.AllocOwner
open Gtl.Alloc Gtl.Spec.AllocOwner
variable {A α S : Type} [DecidableEq A] {e : Env A α}

/-- A program of this kind, from no containers and no memory, is always defined and follows the rules `r`; the
blocks outstanding are, once each, those that the containers hold, each with the allocator of the container; and
no two blocks have the same address. -/
def Obeys (lib : Lib A α S) (r : Rules A) : Prop :=
  ∀ ops : List (Op A × (Nat → Pick α)), Safe (α := α) r [] (ops.map Prod.fst) →
    ∃ cs h, execAll lib [] ⟨0, []⟩ ops = some (cs, h) ∧ Run r [] (ops.map Prod.fst) (cs.map lib.get) ∧
      h.live.Perm (cs.flatMap lib.held) ∧ (h.live.map Prod.fst).Nodup

omit [DecidableEq A] in
/-- In particular, when there are no containers left every allocator has got back all it has handed out. -/
theorem C89_no_leak [DecidableEq A] {lib : Lib A α S} {r : Rules A} (o : Obeys lib r)
    (ops : List (Op A × (Nat → Pick α))) (hs : Safe (α := α) r [] (ops.map Prod.fst)) (h : Heap A)
    (he : execAll lib [] ⟨0, []⟩ ops = some ([], h)) : h.live = [] := by
  obtain ⟨cs, h', e', -, hp, -⟩ := o ops hs
  rw [he] at e'
  cases e'
  simpa using hp

theorem obeys {lib : Lib A α S} {inv : S → Prop} {r : Rules A} (L : Lawful lib inv r) : Obeys lib r := by
  intro ops hs
  obtain ⟨cs, h, e1, g, rn⟩ := execAll_ok L ops [] ⟨0, []⟩ ⟨by simp, ⟨by simp, by simp⟩, by simp⟩ hs
  exact ⟨cs, h, e1, rn, by simpa using g.live, g.wf.1⟩

/-- C89 for `gtl::vector`: for all traits of the allocator. -/
theorem C89_vector : Obeys (vecLib e) (Rules.standard e.tr e.select) := obeys vec_lawful

/-- C89 for the hash containers, if `swap` exchanges allocators whenever copy or move assignment takes them. What
is missing: the other traits, for which it is false (`C89_hash_refuted`). -/
theorem C89_hash_partial (hm : e.tr.moveAssign = true → e.tr.swap = true)
    (hc : e.tr.copyAssign = true → e.tr.swap = true) : Obeys (hashLib e) (Rules.standard e.tr e.select) :=
  obeys (hash_lawful hm hc)

/-- What B-tree containers do, whatever the traits: no memory is ever given to a wrong allocator; a copy has the
allocator of the original; and move assignment takes the allocator when copy assignment does. -/
theorem C89_btree_memory : Obeys (btreeLib e)
    { copied := fun a => a, moved := fun a => a, movedWith := fun a => a, copyAssign := e.tr.copyAssign,
      moveAssign := e.tr.copyAssign, swap := e.tr.swap, withAlloc := false } := obeys btree_lawful

/-- C89 for the B-tree containers, if copy and move assignment agree on whether the allocator is taken, and a copy
is to have the allocator of the original. What is missing: the other allocators, for which it is false
(`C89_btree_refuted`), and the constructors with an allocator, which B-tree containers do not have. -/
theorem C89_btree_partial (hm : e.tr.moveAssign = e.tr.copyAssign) (hc : ∀ a, e.select a = a) :
    Obeys (btreeLib e) { Rules.standard e.tr e.select with withAlloc := false } := by
  have : ({ Rules.standard e.tr e.select with withAlloc := false } : Rules A) = btreeRules e.tr := by
    have : e.select = fun a => a := funext hc
    simp [Rules.standard, btreeRules, hm, this]
  rw [this]
  exact obeys btree_lawful

/-- What the parallel containers do, for any number of submaps, if `swap` exchanges allocators whenever an
assignment takes them: the memory is right; a container made by moving has a default allocator, unless move
assignment takes allocators. -/
theorem C89_parallel_memory {n : Nat} (hn : 0 < n) (hm : e.tr.moveAssign = true → e.tr.swap = true)
    (hc : e.tr.copyAssign = true → e.tr.swap = true) : Obeys (parLib e n)
    { Rules.standard e.tr e.select with
      moved := fun a => if e.tr.moveAssign then a else e.dflt
      movedWith := fun a => if e.tr.moveAssign then a else e.dflt } := obeys (par_lawful hn hm hc)

/-- C89 for the parallel containers, if move assignment takes the allocator and `swap` exchanges them. What is
missing: the other traits, for which it is false (`C89_parallel_refuted`, `C89_parallel_memory_refuted`). -/
theorem C89_parallel_partial {n : Nat} (hn : 0 < n) (hm : e.tr.moveAssign = true) (hs : e.tr.swap = true) :
    Obeys (parLib e n) (Rules.standard e.tr e.select) := by
  have := C89_parallel_memory (e := e) hn (fun _ => hs) (fun _ => hs)
  simpa [Rules.standard, hm] using this

/-! ### What is false -/

/-- What the sizes decide: one block for each container, everything is kept, and nothing fits. -/
def pick : Nat → Pick Nat := fun _ => ⟨fun _ => true, 1, false, [7]⟩

/-- Allocators are numbers; the default one is 0. -/
def env (copyAssign moveAssign swap : Bool) (select : Nat → Nat := id) : Env Nat Nat :=
  ⟨⟨copyAssign, moveAssign, swap⟩, select, 0, id⟩

/-- Two containers with different allocators, and some memory each. -/
def two : List (Op Nat × (Nat → Pick Nat)) := [(.make 1, pick), (.make 2, pick), (.use 0, pick), (.use 1, pick)]

theorem two_safe {r : Rules Nat} {ops : List (Op Nat)}
    (h : ∀ us vs : List Nat, Safe r [(1, us), (2, vs)] ops) : Safe (α := Nat) r [] (two.map Prod.fst ++ ops) := by
  refine ⟨trivial, ?_⟩
  rintro _ ⟨⟩
  refine ⟨trivial, ?_⟩
  rintro _ ⟨⟩
  refine ⟨by simp [Ok], ?_⟩
  intro w h1
  cases h1 with
  | use e1 =>
  refine ⟨by simp [Ok], ?_⟩
  intro w h2
  cases h2 with
  | use e2 =>
  simp at e1 e2
  obtain ⟨rfl, -⟩ := e1
  obtain ⟨rfl, -⟩ := e2
  exact h _ _

/-- A move assignment of a hash container whose allocator is taken by move assignment but not exchanged by `swap`
is undefined: the memory of the
target goes to the allocator of the source. The same for copy assignment. -/
theorem C89_hash_refuted :
    ¬ Obeys (hashLib (env false true false)) (Rules.standard ⟨false, true, false⟩ id) ∧
    ¬ Obeys (hashLib (env true false false)) (Rules.standard ⟨true, false, false⟩ id) := by
  constructor
  · intro h
    obtain ⟨cs, h', e1, -⟩ := h (two ++ [(.moveAssign 0 1, pick)]) (by
      rw [List.map_append]
      exact two_safe fun us vs => ⟨by simp [Ok], fun _ _ => trivial⟩)
    have : execAll (hashLib (env false true false)) [] ⟨0, []⟩ (two ++ [(.moveAssign 0 1, pick)]) = none := by
      decide +kernel
    rw [this] at e1
    cases e1
  · intro h
    obtain ⟨cs, h', e1, -⟩ := h (two ++ [(.copyAssign 0 1, pick)]) (by
      rw [List.map_append]
      exact two_safe fun us vs => ⟨by simp [Ok], fun _ _ => trivial⟩)
    have : execAll (hashLib (env true false false)) [] ⟨0, []⟩ (two ++ [(.copyAssign 0 1, pick)]) = none := by
      decide +kernel
    rw [this] at e1
    cases e1

/-- The allocators of the containers after a program. -/
def allocs (lib : Lib Nat Nat S) (ops : List (Op Nat × (Nat → Pick Nat))) : Option (List Nat) :=
  (execAll lib [] ⟨0, []⟩ ops).map fun r => r.1.map fun s => (lib.get s).1

/-- If a program is safe and every run of the rules ends with allocators that satisfy `P`, so must the program. -/
theorem allocs_spec {lib : Lib Nat Nat S} {r : Rules Nat} (h : Obeys lib r) {ops} (hs : Safe (α := Nat) r [] (ops.map Prod.fst))
    {P : List Nat → Prop} (hP : ∀ w : List (Nat × List Nat), Run r [] (ops.map Prod.fst) w → P (w.map Prod.fst))
    {as : List Nat} (ha : allocs lib ops = some as) : P as := by
  obtain ⟨cs, h', e1, rn, -⟩ := h ops hs
  have := hP _ rn
  unfold allocs at ha
  rw [e1] at ha
  simp only [Option.map_some, Option.some.injEq] at ha
  rw [← ha]
  simpa [Function.comp_def] using this

/-- B-tree containers: move assignment keeps the allocator although the traits say that it is taken; and a copy does
not have the allocator that `select_on_container_copy_construction` gives. -/
theorem C89_btree_refuted :
    ¬ Obeys (btreeLib (env false true true)) { Rules.standard ⟨false, true, true⟩ id with withAlloc := false } ∧
    ¬ Obeys (btreeLib (env true true true (· + 10)))
      { Rules.standard ⟨true, true, true⟩ (· + 10) with withAlloc := false } := by
  constructor
  · intro h
    have hs : Safe (α := Nat) { Rules.standard ⟨false, true, true⟩ id with withAlloc := false } []
        (([(.make 1, pick), (.make 2, pick), (.moveAssign 0 1, pick)] : List (Op Nat × (Nat → Pick Nat))).map Prod.fst) := by
      refine ⟨trivial, ?_⟩
      rintro _ ⟨⟩
      refine ⟨trivial, ?_⟩
      rintro _ ⟨⟩
      exact ⟨by simp [Ok], fun _ _ => trivial⟩
    have := allocs_spec h hs (P := fun as => as[0]? = some 2) (by
      rintro w (_ | ⟨s1, r1⟩)
      cases s1
      rcases r1 with _ | ⟨s2, r2⟩
      cases s2
      rcases r2 with _ | ⟨s3, r3⟩
      cases s3 with
      | moveAssign h1 h2 h3 =>
        cases r3
        simp at h1 h2
        obtain ⟨rfl, -⟩ := h2
        simp [Rules.standard]) (as := [1, 2]) (by decide +kernel)
    simp at this
  · intro h
    have hs : Safe (α := Nat) { Rules.standard ⟨true, true, true⟩ (· + 10) with withAlloc := false } []
        (([(.make 1, pick), (.copy 0, pick)] : List (Op Nat × (Nat → Pick Nat))).map Prod.fst) := by
      refine ⟨trivial, ?_⟩
      rintro _ ⟨⟩
      exact ⟨by simp [Ok], fun _ _ => trivial⟩
    have := allocs_spec h hs (P := fun as => as[1]? = some 11) (by
      rintro w (_ | ⟨s1, r1⟩)
      cases s1
      rcases r1 with _ | ⟨s2, r2⟩
      cases s2 with
      | copy h1 =>
        cases r2
        simp at h1
        obtain ⟨rfl, -⟩ := h1
        simp [Rules.standard]) (as := [1, 1]) (by decide +kernel)
    simp at this

/-- Parallel containers: with the traits that an allocator has unless it says otherwise, a container made by moving
one with allocator 1, or by moving it and asking for allocator 2, has the default allocator 0. -/
theorem C89_parallel_refuted :
    ¬ Obeys (parLib (env false false false) 2) (Rules.standard ⟨false, false, false⟩ id) ∧
    allocs (parLib (env false false false) 2) [(.make 1, pick), (.move 0, pick), (.moveWith 0 2, pick)] =
      some [1, 0, 0] := by
  refine ⟨fun h => ?_, by decide +kernel⟩
  have hs : Safe (α := Nat) (Rules.standard ⟨false, false, false⟩ id) []
      (([(.make 1, pick), (.move 0, pick)] : List (Op Nat × (Nat → Pick Nat))).map Prod.fst) := by
    refine ⟨trivial, ?_⟩
    rintro _ ⟨⟩
    exact ⟨by simp [Ok], fun _ _ => trivial⟩
  have := allocs_spec h hs (P := fun as => as[1]? = some 1) (by
    rintro w (_ | ⟨s1, r1⟩)
    cases s1
    rcases r1 with _ | ⟨s2, r2⟩
    cases s2 with
    | move h1 =>
      cases r2
      simp at h1
      obtain ⟨rfl, -⟩ := h1
      simp [Rules.standard]) (as := [1, 0]) (by decide +kernel)
  simp at this

/-- Parallel containers: if move assignment takes the allocator and `swap` does not exchange them, the memory of a
container made by moving is given back to a wrong allocator. -/
theorem C89_parallel_memory_refuted :
    ¬ Obeys (parLib (env false true false) 2) (Rules.standard ⟨false, true, false⟩ id) := by
  intro h
  obtain ⟨cs, h', e1, -⟩ := h [(.make 1, pick), (.move 0, pick), (.destroy 1, pick)] (by
    refine ⟨trivial, ?_⟩
    rintro _ ⟨⟩
    refine ⟨by simp [Ok], ?_⟩
    intro w' h
    cases h with
    | move h1 => exact ⟨by simp [Ok], fun _ _ => trivial⟩)
  have : execAll (parLib (env false true false) 2) [] ⟨0, []⟩
      [(.make 1, pick), (.move 0, pick), (.destroy 1, pick)] = none := by decide +kernel
  rw [this] at e1
  cases e1

/-! ### Programs that meet the hypotheses -/

/-- A program with each kind of call that ends with no containers. -/
def tour (withAlloc : Bool) : List (Op Nat × (Nat → Pick Nat)) :=
  two ++ [(.copy 0, pick)] ++
  (if withAlloc then [(.copyWith 0 5, pick), (.moveWith 1 6, pick)] else [(.copy 0, pick), (.move 1, pick)]) ++
  [(.move 0, pick), (.copyAssign 2 3, pick), (.moveAssign 3 2, pick), (.swap 1 4, pick)] ++
  List.replicate 6 (.destroy 0, pick)

/-- It runs to its end for all four kinds of containers and nothing is left outstanding. -/
theorem tour_runs :
    ((execAll (hashLib (env true true true)) [] ⟨0, []⟩ (tour true)).map fun r => [r.1.length, r.2.live.length, r.2.next]) = some [0, 0, 8] ∧
    ((execAll (vecLib (env false false true)) [] ⟨0, []⟩ (tour true)).map fun r => [r.1.length, r.2.live.length, r.2.next]) = some [0, 0, 9] ∧
    ((execAll (btreeLib (env true true true)) [] ⟨0, []⟩ (tour false)).map fun r => [r.1.length, r.2.live.length, r.2.next]) = some [0, 0, 7] ∧
    ((execAll (parLib (env true true true) 4) [] ⟨0, []⟩ (tour true)).map fun r => [r.1.length, r.2.live.length, r.2.next]) = some [0, 0, 32] := by
  decide +kernel

/-- Are all containers there, when there are `n` at first? -/
def fine : Nat → List (Op Nat) → Bool
  | _, [] => true
  | n, .make _ :: ops => fine (n + 1) ops
  | n, .use i :: ops => i < n && fine n ops
  | n, .copy i :: ops | n, .copyWith i _ :: ops | n, .move i :: ops | n, .moveWith i _ :: ops => i < n && fine (n + 1) ops
  | n, .copyAssign i j :: ops | n, .moveAssign i j :: ops | n, .swap i j :: ops => i < n && j < n && i ≠ j && fine n ops
  | n, .destroy i :: ops => i < n && fine (n - 1) ops

theorem fine_safe (r : Rules Nat) (hs : r.swap = true) (hw : r.withAlloc = true) : ∀ (ops : List (Op Nat))
    (w : List (Nat × List Nat)), fine w.length ops = true → Safe r w ops := by
  intro ops
  induction ops with
  | nil => intro w _; trivial
  | cons op ops ih =>
    intro w h
    refine ⟨?_, ?_⟩
    · cases op <;> simp_all [fine, Ok]
    · intro w' st
      apply ih
      cases st <;> simp_all [fine, List.length_eraseIdx]

/-- The program is within the preconditions, whatever the allocator does, if `swap` exchanges allocators. -/
theorem tour_safe (tr : Traits) (hs : tr.swap = true) (select : Nat → Nat) :
    Safe (α := Nat) (Rules.standard tr select) [] ((tour true).map Prod.fst) :=
  fine_safe _ hs rfl _ _ (by decide +kernel)

/-- So C89 says of it, for a vector, that it is defined and that no memory is left. -/
example : ∃ cs h, execAll (vecLib (env false false true)) [] ⟨0, []⟩ (tour true) = some (cs, h) ∧
    (cs = [] → h.live = []) := by
  obtain ⟨cs, h, e1, -, hp, -⟩ := C89_vector (e := env false false true) (tour true) (tour_safe _ rfl _)
  exact ⟨cs, h, e1, fun hc => by subst hc; simpa using hp⟩

end Gtl.Props.AllocOwner
