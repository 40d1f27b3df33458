import Verif.Props.Concurrent
import Verif.Parallel.ReenterProof
/-!
# Property theorems C115: callbacks that call back into the parallel container
-/

namespace Gtl.Props.Reenter

open Gtl.Swiss Gtl.Parallel
open Gtl.Spec (POp Op Resp Prog Held)
open Gtl.Props.Hash (Contract)
open Gtl.Props.Parallel
open Gtl.Props.Concurrent (exShared exExcl oneFive oneFive_excl)

variable {α κ : Type}

/-- The submap of a key. -/
def submap (P : PCfg α κ) (k : κ) : Nat := subidx P.N (P.C.hash k)

/-- Whether the container has real mutexes. -/
def mutexes (P : PCfg α κ) : Bool := P.mtx != .null

section
variable [BEq α] [LawfulBEq α] {P : PCfg α κ} (h : Contract P.C) {p : PTbl α} (hp : PReachable P p) {l : List α}
  (hl : p.iterate P = .ok l)
include h hp hl

/-- A program whose callbacks call back, to any depth, into a container in any reachable state: if no call gets in the way
of the calls in whose callbacks it is made, every call gives the answer of the abstract container, and so does the container
from then on. -/
theorem C115_callbacks {x : Prog α κ} (hv : x.Valid P.C.key (2 ^ P.N))
    (ha : x.Apart P.C.key P.C.eqv (submap P) (mutexes P) [] l) :
    ∃ p', PTbl.nrun P x [] p = .ok (p', (Spec.nrun P.C.key P.C.eqv x l).2) ∧
      PBehavesAs P p' (Spec.nrun P.C.key P.C.eqv x l).1 := by
  have hs := hp.sim h
  rw [psim_iterate h hs] at hl
  injection hl with hl
  rw [hl] at hs
  obtain ⟨p', s, -, r⟩ := nrun_good h.cfgOk x [] hs hv ha
  have := r (fun _ => none) (fun i hi => absurd rfl hi)
  rw [over_none (fun _ => rfl), over_none (fun _ => rfl)] at this
  exact ⟨p', this, psim_behaves h s⟩

/-- Without mutexes the callbacks of `modify_if`, `if_contains`, `lazy_emplace_l` and `try_emplace_l` for elements that are
there may make any calls at all. -/
theorem C115_no_mutex (hm : P.mtx = .null) {x : Prog α κ} (hx : x.Simple) (hv : x.Valid P.C.key (2 ^ P.N)) :
    ∃ p', PTbl.nrun P x [] p = .ok (p', (Spec.nrun P.C.key P.C.eqv x l).2) ∧
      PBehavesAs P p' (Spec.nrun P.C.key P.C.eqv x l).1 := by
  refine C115_callbacks h hp hl hv ?_
  have : mutexes P = false := by unfold mutexes; rw [hm]; rfl
  rw [this]
  exact apart_null x [] l hx (fun _ h => (List.not_mem_nil h).elim)

/-- For these callbacks the condition is exact: a program in which a callback makes a call that locks a submap whose lock is
held already locks a mutex twice. -/
theorem C115_locked_twice {x : Prog α κ} (hx : x.Simple) (hv : x.Valid P.C.key (2 ^ P.N)) :
    (¬ x.Apart P.C.key P.C.eqv (submap P) (mutexes P) [] l ↔ PTbl.nrun P x [] p = .ub) := by
  constructor
  · intro ha
    have hs := hp.sim h
    rw [psim_iterate h hs] at hl
    injection hl with hl
    rw [hl] at hs
    exact nrun_relock h.cfgOk x [] hx (fun _ h => (List.not_mem_nil h).elim) hs hv ha
  · intro hu ha
    obtain ⟨p', e, -⟩ := C115_callbacks h hp hl hv ha
    rw [hu] at e
    cases e

end

/-- With real mutexes every call on the same key from the callback of `modify_if` locks a mutex twice, whatever the
container holds besides. -/
theorem C115_same_key_refuted [BEq α] [LawfulBEq α] {P : PCfg α κ} (h : Contract P.C) (hm : P.mtx ≠ .null) {p : PTbl α}
    (hp : PReachable P p) {l : List α} (hl : p.iterate P = .ok l) {a : α} (ha : a ∈ l) (op : POp α κ)
    (ho : op.Valid P.C.key (2 ^ P.N)) (hk : op.Locks P.C.key (submap P) (submap P (P.C.key a))) :
    PTbl.nrun P (.modifyIf (P.C.key a) id (fun _ => .call op fun _ => .done) fun _ => .done) [] p = .ub := by
  refine (C115_locked_twice h hp hl (x := .modifyIf (P.C.key a) id (fun _ => .call op fun _ => .done) fun _ => .done)
    ⟨fun _ _ => trivial, fun _ => trivial⟩ ⟨fun _ => rfl, fun _ => ⟨ho, fun _ => trivial⟩, fun _ => trivial⟩).1 ?_
  intro hap
  simp only [Prog.Apart] at hap
  obtain ⟨-, hap⟩ := hap
  cases hb : Spec.lookup P.C.key P.C.eqv l (P.C.key a) with
  | none =>
    have := lookup_none.1 hb a ha
    rw [h.cfgOk.refl] at this
    cases this
  | some b =>
    rw [hb] at hap
    have := hap.1.1 _ List.mem_cons_self
    exact this (by unfold mutexes; simpa using hm) hk

/-! ## A concrete instance -/

/-- Eight submaps without mutexes. -/
def exNull : PCfg (Nat × Nat) Nat := { exP groupPortable with mtx := .null }

/-- The elements afterwards and the answers. -/
def outcome (P : PCfg (Nat × Nat) Nat) (r : Res (PTbl (Nat × Nat) × List (Resp (Nat × Nat)))) :
    Option (List (Nat × Nat) × List (Resp (Nat × Nat))) :=
  match r with
  | .ok (p, rs) => match p.iterate P with
    | .ok l => some (l, rs)
    | _ => none
  | _ => none

/-- Undefined? -/
def isUb {β : Type} : Res β → Bool
  | .ub => true
  | _ => false

theorem ub_of {β : Type} {r : Res β} (h : isUb r = true) : r = .ub := by
  cases r <;> first | rfl | cases h

/-- Calls on other submaps are never in the way. -/
theorem fits_of {key : α → κ} {sub : κ → Nat} {real : Bool} {H : List (Nat × Held)} {op : POp α κ} {js : List Nat}
    (h : op.reach key sub = some js) (hd : ∀ x ∈ H, x.1 ∉ js) : op.Fits key sub real H := by
  intro x hx
  have h1 : ¬ op.Locks key sub x.1 := by unfold POp.Locks; rw [h]; exact hd x hx
  have h2 : ¬ op.Touches key sub x.1 := by unfold POp.Touches; rw [h]; exact hd x hx
  split
  · exact fun _ => h1
  · exact ⟨fun _ => h1, fun e => absurd e h2⟩
  · exact h2

/-- Erases 5, and while doing so adds 17, whose creation in turn looks for 10 and adds it. -/
def nested : Prog (Nat × Nat) Nat :=
  .eraseIf 5 (fun _ => true)
    (fun b => .create (17, b.2) (.call (.base (.find 10)) fun _ => .call (.base (.insert (10, 1))) fun _ => .done) fun _ => .done)
    fun _ => .call (.base .size) fun _ => .done

theorem one_iterate : (oneFive exExcl).iterate exExcl = .ok [(5, 25)] := by decide +kernel

theorem nested_valid : nested.Valid exExcl.C.key (2 ^ exExcl.N) :=
  ⟨fun _ => ⟨⟨trivial, fun _ => ⟨trivial, fun _ => trivial⟩⟩, fun _ => trivial⟩, fun _ => ⟨trivial, fun _ => trivial⟩⟩

theorem nested_apart : nested.Apart exExcl.C.key exExcl.C.eqv (submap exExcl) (mutexes exExcl) [] [(5, 25)] := by
  have hnil : ∀ op : POp (Nat × Nat) Nat, op.Fits exExcl.C.key (submap exExcl) (mutexes exExcl) [] :=
    fun op x hx => (List.not_mem_nil hx).elim
  refine ⟨hnil _, ⟨fits_of (js := [5]) (by decide +kernel) (by decide +kernel), ?_⟩, hnil _, trivial⟩
  exact ⟨⟨fits_of (js := [3]) (by decide +kernel) (by decide +kernel),
    fits_of (js := [3]) (by decide +kernel) (by decide +kernel), trivial⟩, trivial⟩

/-- The hypotheses of `C115_callbacks` are met by a program with callbacks in callbacks, with real mutexes. -/
example : Contract exExcl.C ∧ PReachable exExcl (oneFive exExcl) ∧ (oneFive exExcl).iterate exExcl = .ok [(5, 25)] ∧
    nested.Valid exExcl.C.key (2 ^ exExcl.N) ∧ nested.Apart exExcl.C.key exExcl.C.eqv (submap exExcl) (mutexes exExcl) [] [(5, 25)] ∧
    Spec.nrun exExcl.C.key exExcl.C.eqv nested [(5, 25)] =
      ([(17, 25), (10, 1)], [.elem none, .ins (10, 1) true, .bool true, .bool true, .nat 2]) ∧
    outcome exExcl (PTbl.nrun exExcl nested [] (oneFive exExcl)) =
      some ([(10, 1), (17, 25)], [.elem none, .ins (10, 1) true, .bool true, .bool true, .nat 2]) :=
  ⟨exP_contract (.inr (.inr rfl)), oneFive_excl, one_iterate, nested_valid, nested_apart, by decide +kernel, by decide +kernel⟩

/-- The container with the single element (5, 25), without mutexes. -/
theorem oneFive_null : PReachable exNull (oneFive exNull) := Gtl.Props.Concurrent.oneFive_reach (by decide +kernel)

/-- `modify_if(5, F)` where `F` adds an element to the same submap, looks for the one it is called for, and clears the
container. -/
def wild : Prog (Nat × Nat) Nat :=
  .modifyIf 5 (fun a => (a.1, a.2 + 1))
    (fun _ => .call (.base (.insert (4, 1))) fun _ => .call (.base (.find 5)) fun _ => .call (.base .clear) fun _ =>
      .call (.base (.insert (30, 3))) fun _ => .done)
    fun _ => .call (.base .size) fun _ => .done

theorem wild_simple : wild.Simple := ⟨fun _ _ _ _ _ => trivial, fun _ _ => trivial⟩

theorem wild_valid (P : PCfg (Nat × Nat) Nat) (hk : P.C.key = Prod.fst) : wild.Valid P.C.key (2 ^ P.N) := by
  rw [hk]
  exact ⟨fun _ => rfl, fun _ => ⟨trivial, fun _ => ⟨trivial, fun _ => ⟨trivial, fun _ => ⟨trivial, fun _ => trivial⟩⟩⟩⟩,
    fun _ => ⟨trivial, fun _ => trivial⟩⟩

/-- The hypotheses of `C115_no_mutex` are met; with a mutex the same program locks a mutex twice. -/
example : Contract exNull.C ∧ PReachable exNull (oneFive exNull) ∧ exNull.mtx = .null ∧ wild.Simple ∧
    wild.Valid exNull.C.key (2 ^ exNull.N) ∧
    outcome exNull (PTbl.nrun exNull wild [] (oneFive exNull)) =
      some ([(30, 3)], [.ins (4, 1) true, .elem (some (5, 26)), .unit, .ins (30, 3) true, .bool true, .nat 1]) ∧
    wild.Valid exExcl.C.key (2 ^ exExcl.N) ∧ PTbl.nrun exExcl wild [] (oneFive exExcl) = .ub :=
  ⟨exP_contract (.inr (.inr rfl)), oneFive_null, rfl, wild_simple, wild_valid _ rfl, by decide +kernel, wild_valid _ rfl,
    ub_of (by decide +kernel)⟩

/-- Without mutexes, but with an `erase_if` whose callback adds an element to the same submap, so that the table is
reallocated: the iterator `erase_if` holds is no longer valid. -/
theorem C115_erase_if_refuted :
    PTbl.nrun exNull (.eraseIf 5 (fun _ => true) (fun _ => .call (.base (.insert (4, 1))) fun _ => .done) fun _ => .done) []
      (oneFive exNull) = .ub := ub_of (by decide +kernel)

/-- The same if the callback erases the element itself. -/
theorem C115_erase_twice_refuted :
    PTbl.nrun exNull (.eraseIf 5 (fun _ => true) (fun _ => .call (.base (.erase 5)) fun _ => .done) fun _ => .done) []
      (oneFive exNull) = .ub := ub_of (by decide +kernel)

/-- And a callback of `lazy_emplace_l` that creates an element and, before it does, adds one with the same key, puts the two
into the same place. -/
theorem C115_create_refuted :
    PTbl.nrun exNull (.call (.base (.reserve 50)) fun _ =>
      .create (17, 1) (.call (.base (.insert (17, 2))) fun _ => .done) fun _ => .done) [] (oneFive exNull) = .ub ∧
    outcome exNull (PTbl.nrun exNull (.call (.base (.reserve 50)) fun _ =>
      .create (17, 1) .done fun _ => .done) [] (oneFive exNull)) = some ([(5, 25), (17, 1)], [.unit, .bool true]) :=
  ⟨ub_of (by decide +kernel), by decide +kernel⟩

/-- With a mutex: `modify_if(5, F)` where `F` looks for 4, which is in the same submap. -/
theorem C115_other_key_refuted : submap exExcl 4 = submap exExcl 5 ∧
    PTbl.nrun exExcl (.modifyIf 5 id (fun _ => .call (.base (.contains 4)) fun _ => .done) fun _ => .done) [] (oneFive exExcl) = .ub :=
  ⟨by decide +kernel, ub_of (by decide +kernel)⟩

end Gtl.Props.Reenter
