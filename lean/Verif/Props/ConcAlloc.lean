import Verif.Props.Concurrent
import Verif.Conc.AllocProof
/-!
# Property theorems C112: memory runs out while many threads use the container
-/

namespace Gtl.Props.ConcAlloc

open Gtl.Swiss Gtl.Parallel Gtl.Conc
open Gtl.Spec (Op POp PWOp Resp Event LEvent Phase Linearizable Explains End CbOp MemOp Ended)
open Gtl.Props.Hash (Contract exEqv exCfg exCfg_contract)
open Gtl.Props.Parallel Gtl.Props.Concurrent

variable {α κ : Type}

/-- Which calls the threads make: thread safe calls with their preconditions, with any callbacks and any memory. -/
def AllowedM (P : PCfg α κ) (Q : MemOp α κ → Prop) : Prop := ∀ o, Q o → Concurrent o.cb.call ∧ o.cb.call.Valid P.C.key (2 ^ P.N)

/-- A real mutex, and no `erase` with a mutex that has shared locks (see `C112_shared_partial` for that). -/
def ProtectedM (P : PCfg α κ) (Q : MemOp α κ → Prop) : Prop := P.mtx = .excl ∨ P.mtx = .shared ∧ ∀ o, Q o → ¬ Erases o.cb.call

theorem ProtectedM.ok {P : PCfg α κ} {Q : MemOp α κ → Prop} (h : ProtectedM P Q) : P.mtx ≠ .shared ∨ ∀ o, Q o → ¬ Erases o.cb.call := by
  rcases h with h | h
  · rw [h]; exact .inl (by simp)
  · exact .inr h.2

/-- All calls that are safe from many threads, with callbacks that throw on any elements and any memory. -/
def everythingM (P : PCfg α κ) (o : MemOp α κ) : Prop := Concurrent o.cb.call ∧ o.cb.call.Valid P.C.key (2 ^ P.N)

def stepsOfM (P : PCfg α κ) (Q : MemOp α κ → Prop) (o : { o // Q o }) : Code (Tbl α) (Ended (Resp α)) := stepsM P o.1

/-! ## The theorems -/

/-- For any number of threads, any calls, any callbacks that throw, any number of allocations that succeed during each
call, any schedule and any way the code of a scope is cut into atomic actions: the history of calls, answers and
exceptions is linearizable with respect to a container in which a call that runs out of memory does nothing. Only a call
that has to add an element throws `std::bad_alloc`. No thread reaches undefined behaviour. -/
theorem C112_linearizable [BEq α] [LawfulBEq α] {P : PCfg α κ} (h : Contract P.C) {p : PTbl α} (hp : PReachable P p)
    {Q : MemOp α κ → Prop} (hQ : AllowedM P Q) (hm : ProtectedM P Q) {code : { o // Q o } → Code (Tbl α) (Ended (Resp α))}
    (hcode : ∀ o, RunsM P o.1 (code o)) {W H} (hx : Exec code (start (objects p)) H W) :
    ∃ l, p.iterate P = .ok l ∧ Linearizable (semM P) l H ∧ ∀ t o, W.th t ≠ .run o .ub := by
  have hs := hp.sim h
  have hg := good_exactM h.cfgOk hQ hm.ok (S := semM P) (fun _ _ _ _ h => h) hcode
  exact ⟨flat p, psim_iterate h hs, linearizable hg (abs_objects hs) hx, no_ub hg (abs_objects hs) hx⟩

/-- When all calls have returned or thrown, the container holds exactly what the abstract container holds, its size is
right, and it behaves like it from then on. -/
theorem C112_contents [BEq α] [LawfulBEq α] {P : PCfg α κ} (h : Contract P.C) {p : PTbl α} (hp : PReachable P p)
    {Q : MemOp α κ → Prop} (hQ : AllowedM P Q) (hm : ProtectedM P Q) {code : { o // Q o } → Code (Tbl α) (Ended (Resp α))}
    (hcode : ∀ o, RunsM P o.1 (code o)) {W H} (hx : Exec code (start (objects p)) H W) (hq : ∀ t, W.th t = .idle) :
    ∃ l E l', p.iterate P = .ok l ∧ Explains (semM P) l H E l' ∧
      (∃ l'', (ofObjects P W.obj).iterate P = .ok l'' ∧ l''.Perm l') ∧ (ofObjects P W.obj).size = l'.length ∧
      PBehavesAs P (ofObjects P W.obj) l' := by
  have hs := hp.sim h
  have hg := good_exactM h.cfgOk hQ hm.ok (S := semM P) (fun _ _ _ _ h => h) hcode
  obtain ⟨E, l', h1, h2, -⟩ := quiescent hg (abs_objects hs) hx hq
  exact ⟨flat p, E, l', psim_iterate h hs, h1, ⟨_, psim_iterate h h2, PSim.flat h2⟩, PSim.size h2, psim_behaves h h2⟩

/-- One allocation is enough for any call: if at least one succeeds in each call, no call throws `std::bad_alloc`. -/
theorem C112_enough [BEq α] [LawfulBEq α] {P : PCfg α κ} (h : Contract P.C) {p : PTbl α} (hp : PReachable P p)
    {Q : MemOp α κ → Prop} (hQ : AllowedM P Q) (hm : ProtectedM P Q) (h1 : ∀ o, Q o → 1 ≤ o.mem)
    {code : { o // Q o } → Code (Tbl α) (Ended (Resp α))}
    (hcode : ∀ o, RunsM P o.1 (code o)) {W H} (hx : Exec code (start (objects p)) H W) :
    ∃ l, p.iterate P = .ok l ∧ Linearizable (semEnough P) l H := by
  have hs := hp.sim h
  have hg := good_exactM h.cfgOk hQ hm.ok (S := semEnough P) (fun l o l' r hr => by
    rcases hr with hr | ⟨hr, -⟩
    · exact hr
    · have := h1 o.1 o.2; omega) hcode
  exact ⟨flat p, psim_iterate h hs, linearizable hg (abs_objects hs) hx⟩

/-- `std::bad_alloc` leaves no lock behind: in every reachable state, with any mutex, a thread that is not in a call
holds no lock. -/
theorem C112_released [BEq α] [LawfulBEq α] {P : PCfg α κ} (h : Contract P.C) {p : PTbl α} (hp : PReachable P p)
    {Q : MemOp α κ → Prop} (hQ : AllowedM P Q) {code : { o // Q o } → Code (Tbl α) (Ended (Resp α))}
    (hcode : ∀ o, RunsM P o.1 (code o)) {W H} (hx : Exec code (start (objects p)) H W) (t : Nat) (ht : W.th t = .idle) (i : Nat) :
    W.hold i t = none :=
  idle_free (good_weakM h.cfgOk hQ hcode) (abs_objects (hp.sim h)) hx ht i

/-- No deadlock, with any mutex: as long as a thread is in a call, some thread in a call is not waiting for a lock. -/
theorem C112_no_deadlock [BEq α] [LawfulBEq α] {P : PCfg α κ} (h : Contract P.C) {p : PTbl α} (hp : PReachable P p)
    {Q : MemOp α κ → Prop} (hQ : AllowedM P Q) {code : { o // Q o } → Code (Tbl α) (Ended (Resp α))}
    (hcode : ∀ o, RunsM P o.1 (code o)) {W H} (hx : Exec code (start (objects p)) H W) (t : Nat) (ht : W.th t ≠ .idle) :
    ∃ t', W.th t' ≠ .idle ∧ ¬ Blocked W t' :=
  progress (good_weakM h.cfgOk hQ hcode) (abs_objects (hp.sim h)) hx t ht

/-- With a mutex that has shared locks and erasing threads everything holds but the answer of an `erase` whose key has
gone (C23). -/
theorem C112_shared_partial [BEq α] [LawfulBEq α] {P : PCfg α κ} (h : Contract P.C) {p : PTbl α} (hp : PReachable P p)
    {Q : MemOp α κ → Prop} (hQ : AllowedM P Q) {code : { o // Q o } → Code (Tbl α) (Ended (Resp α))}
    (hcode : ∀ o, RunsM P o.1 (code o)) {W H} (hx : Exec code (start (objects p)) H W) :
    ∃ l, p.iterate P = .ok l ∧ Linearizable (semMWeak P) l H ∧ (∀ t o, W.th t ≠ .run o .ub) ∧
      ((∀ t, W.th t = .idle) → ∃ E l', Explains (semMWeak P) l H E l' ∧
        (∃ l'', (ofObjects P W.obj).iterate P = .ok l'' ∧ l''.Perm l') ∧ (ofObjects P W.obj).size = l'.length ∧
        PBehavesAs P (ofObjects P W.obj) l') := by
  have hs := hp.sim h
  have hg := good_weakM h.cfgOk hQ hcode
  refine ⟨flat p, psim_iterate h hs, linearizable hg (abs_objects hs) hx, no_ub hg (abs_objects hs) hx, fun hq => ?_⟩
  obtain ⟨E, l', h1, h2, -⟩ := quiescent hg (abs_objects hs) hx hq
  exact ⟨E, l', h1, ⟨_, psim_iterate h h2, PSim.flat h2⟩, PSim.size h2, psim_behaves h h2⟩

/-! ## The hypotheses are met -/

/-- `try_emplace_l(6, …)` with the given memory. -/
def addSix (P : PCfg (Nat × Nat) Nat) (h : ∀ a, P.C.key a = a.1) (mem : Nat) : { o // everythingM P o } :=
  ⟨⟨⟨.emplaceL (6, 36) (fun a => (a.1, a.2 + 1)), fun _ => false⟩, mem⟩, trivial, fun a => by rw [h, h]⟩

/-- `insert({6, 37})` with the given memory. -/
def putSix (P : PCfg (Nat × Nat) Nat) (mem : Nat) : { o // everythingM P o } :=
  ⟨⟨⟨.base (.insert (6, 37)), fun _ => false⟩, mem⟩, trivial, trivial⟩

/-- `erase(6)`. -/
def dropSix (P : PCfg (Nat × Nat) Nat) : { o // everythingM P o } :=
  ⟨⟨⟨.base (.erase 6), fun _ => false⟩, 0⟩, trivial, trivial⟩

/-- Thread 0 runs out of memory while thread 1 waits for the same lock; thread 1 then gets the lock and has the memory;
then thread 0 finds the element without allocating. -/
def schedule (P : PCfg (Nat × Nat) Nat) (h : ∀ a, P.C.key a = a.1) : List (Nat × Option { o // everythingM P o }) :=
  [(0, some (addSix P h 0)), (1, some (putSix P 1)), (0, none), (0, none), (0, none), (0, none), (0, none),
   (1, none), (1, none), (1, none), (1, none),
   (0, some (addSix P h 0)), (0, none), (0, none), (0, none), (0, none), (0, none), (0, none)]

/-- How the calls ended: out of memory, or added, or found the element. -/
def outcomes {Q : MemOp (Nat × Nat) Nat → Prop} (H : List (Event { o // Q o } (Ended (Resp (Nat × Nat))))) : List (Option (Nat × Bool)) :=
  H.filterMap fun e => match e with
    | .ret _ .badAlloc => some none
    | .ret _ (.ret (.ins a new)) => some (some (a.2, new))
    | _ => none

theorem schedule_ok : ((play (stepsOfM exExcl (everythingM exExcl)) 2 (start (objects (oneFive exExcl))) (schedule exExcl fun _ => rfl)).map fun x =>
    (outcomes x.1, (ofObjects exExcl x.2.obj).size,
    (match x.2.th 0, x.2.th 1 with | .idle, .idle => true | _, _ => false))) =
    some ([none, some (37, true), some (37, false)], 2, true) := by decide +kernel

/-- An execution in which one thread runs out of memory while another one waits. -/
example : ∃ (p : PTbl (Nat × Nat)) (code : { o // everythingM exExcl o } → Code (Tbl (Nat × Nat)) (Ended (Resp (Nat × Nat))))
    (W : World _ _ _) (H : List _),
    Contract exExcl.C ∧ PReachable exExcl p ∧ AllowedM exExcl (everythingM exExcl) ∧ ProtectedM exExcl (everythingM exExcl) ∧
    (∀ o, RunsM exExcl o.1 (code o)) ∧ Exec code (start (objects p)) H W ∧
    outcomes H = [none, some (37, true), some (37, false)] := by
  cases h : play (stepsOfM exExcl (everythingM exExcl)) 2 (start (objects (oneFive exExcl))) (schedule exExcl fun _ => rfl) with
  | none => have := schedule_ok; rw [h] at this; cases this
  | some x =>
    have hc := schedule_ok
    rw [h] at hc
    simp only [Option.map_some, Option.some.injEq, Prod.mk.injEq] at hc
    exact ⟨oneFive exExcl, stepsOfM exExcl (everythingM exExcl), x.2, x.1, exP_contract (.inr (.inr rfl)), oneFive_excl,
      fun _ h => h, .inl rfl, fun o => stepsM_runs exExcl o.2.1, play_exec _ (fun _ _ _ => rfl) h, hc.1⟩

/-- With shared locks: an insertion runs out of memory, the next one does not, the element is erased. -/
def scheduleS (P : PCfg (Nat × Nat) Nat) (h : ∀ a, P.C.key a = a.1) : List (Nat × Option { o // everythingM P o }) :=
  [(0, some (addSix P h 0)), (0, none), (0, none), (0, none), (0, none), (0, none),
   (0, some (putSix P 1)), (0, none), (0, none), (0, none), (0, none),
   (1, some (dropSix P)), (1, none), (1, none), (1, none), (1, none), (1, none), (1, none), (1, none)]

theorem scheduleS_ok : ((play (stepsOfM exShared (everythingM exShared)) 2 (start (objects (oneFive exShared))) (scheduleS exShared fun _ => rfl)).map fun x =>
    (outcomes x.1, (ofObjects exShared x.2.obj).size,
    (match x.2.th 0, x.2.th 1 with | .idle, .idle => true | _, _ => false))) =
    some ([none, some (37, true)], 1, true) := by decide +kernel

example : ∃ (p : PTbl (Nat × Nat)) (code : { o // everythingM exShared o } → Code (Tbl (Nat × Nat)) (Ended (Resp (Nat × Nat))))
    (W : World _ _ _) (H : List _),
    Contract exShared.C ∧ exShared.mtx = .shared ∧ PReachable exShared p ∧ AllowedM exShared (everythingM exShared) ∧
    (∀ o, RunsM exShared o.1 (code o)) ∧ Exec code (start (objects p)) H W ∧ outcomes H = [none, some (37, true)] := by
  cases h : play (stepsOfM exShared (everythingM exShared)) 2 (start (objects (oneFive exShared))) (scheduleS exShared fun _ => rfl) with
  | none => have := scheduleS_ok; rw [h] at this; cases this
  | some x =>
    have hc := scheduleS_ok
    rw [h] at hc
    simp only [Option.map_some, Option.some.injEq, Prod.mk.injEq] at hc
    exact ⟨oneFive exShared, stepsOfM exShared (everythingM exShared), x.2, x.1, exP_contract (.inr (.inr rfl)), rfl, oneFive_shared,
      fun _ h => h, fun o => stepsM_runs exShared o.2.1, play_exec _ (fun _ _ _ => rfl) h, hc.1⟩

/-- Calls with enough memory exist. -/
example : ∃ Q : MemOp (Nat × Nat) Nat → Prop, AllowedM exExcl Q ∧ ProtectedM exExcl Q ∧ (∀ o, Q o → 1 ≤ o.mem) ∧ Q (putSix exExcl 1).1 :=
  ⟨fun o => everythingM exExcl o ∧ 1 ≤ o.mem, fun _ h => h.1, .inl rfl, fun _ h => h.2, (putSix exExcl 1).2, Nat.le_refl _⟩

/-- There is code for every call: the locks that the calls take let them do their work. -/
theorem C112_code (P : PCfg α κ) {o : MemOp α κ} (hc : Concurrent o.cb.call) : ∃ code, RunsM P o code := ⟨_, stepsM_runs P hc⟩

end Gtl.Props.ConcAlloc
