import Verif.Props.Concurrent
import Verif.Conc.ThrowProof
/-!
# Property theorems C91: callbacks that throw while many threads use the container
-/

namespace Gtl.Props.CallbackThrow

open Gtl.Swiss Gtl.Parallel Gtl.Conc
open Gtl.Spec (Op POp PWOp Resp Event LEvent Phase Linearizable Explains End CbOp)
open Gtl.Props.Hash (Contract exEqv exCfg exCfg_contract)
open Gtl.Props.Parallel Gtl.Props.Concurrent

variable {α κ : Type}

/-- Which calls the threads make: thread safe calls with their preconditions, with any callbacks. -/
def AllowedT (P : PCfg α κ) (Q : CbOp α κ → Prop) : Prop := ∀ o, Q o → Concurrent o.call ∧ o.call.Valid P.C.key (2 ^ P.N)

/-- A real mutex, and no `erase` with a mutex that has shared locks (see `C91_shared_partial` for that). -/
def ProtectedT (P : PCfg α κ) (Q : CbOp α κ → Prop) : Prop := P.mtx = .excl ∨ P.mtx = .shared ∧ ∀ o, Q o → ¬ Erases o.call

theorem ProtectedT.ok {P : PCfg α κ} {Q : CbOp α κ → Prop} (h : ProtectedT P Q) : P.mtx ≠ .shared ∨ ∀ o, Q o → ¬ Erases o.call := by
  rcases h with h | h
  · rw [h]; exact .inl (by simp)
  · exact .inr h.2

/-- All calls that are safe from many threads, with callbacks that throw on any elements. -/
def everythingT (P : PCfg α κ) (o : CbOp α κ) : Prop := Concurrent o.call ∧ o.call.Valid P.C.key (2 ^ P.N)

def stepsOfT (P : PCfg α κ) (Q : CbOp α κ → Prop) (o : { o // Q o }) : Code (Tbl α) (End (Resp α)) := stepsT P o.1

/-! ## The theorems -/

/-- For any number of threads, any calls with callbacks that throw on any elements, any schedule and any way the code of
a scope is cut into atomic actions: the history of calls, answers and exceptions is linearizable with respect to a
container in which a throwing callback leaves behind what it did to its element and nothing else. No thread reaches
undefined behaviour. -/
theorem C91_linearizable [BEq α] [LawfulBEq α] {P : PCfg α κ} (h : Contract P.C) {p : PTbl α} (hp : PReachable P p)
    {Q : CbOp α κ → Prop} (hQ : AllowedT P Q) (hm : ProtectedT P Q) {code : { o // Q o } → Code (Tbl α) (End (Resp α))}
    (hcode : ∀ o, RunsT P o.1 (code o)) {W H} (hx : Exec code (start (objects p)) H W) :
    ∃ l, p.iterate P = .ok l ∧ Linearizable (semT P) l H ∧ ∀ t o, W.th t ≠ .run o .ub := by
  have hs := hp.sim h
  have hg := good_exactT h.cfgOk hQ hm.ok hcode
  exact ⟨flat p, psim_iterate h hs, linearizable hg (abs_objects hs) hx, no_ub hg (abs_objects hs) hx⟩

/-- When all calls have returned or thrown, the container holds exactly what the abstract container holds, its size is
right, and it behaves like it from then on. -/
theorem C91_contents [BEq α] [LawfulBEq α] {P : PCfg α κ} (h : Contract P.C) {p : PTbl α} (hp : PReachable P p)
    {Q : CbOp α κ → Prop} (hQ : AllowedT P Q) (hm : ProtectedT P Q) {code : { o // Q o } → Code (Tbl α) (End (Resp α))}
    (hcode : ∀ o, RunsT P o.1 (code o)) {W H} (hx : Exec code (start (objects p)) H W) (hq : ∀ t, W.th t = .idle) :
    ∃ l E l', p.iterate P = .ok l ∧ Explains (semT P) l H E l' ∧
      (∃ l'', (ofObjects P W.obj).iterate P = .ok l'' ∧ l''.Perm l') ∧ (ofObjects P W.obj).size = l'.length ∧
      PBehavesAs P (ofObjects P W.obj) l' := by
  have hs := hp.sim h
  have hg := good_exactT h.cfgOk hQ hm.ok hcode
  obtain ⟨E, l', h1, h2, -⟩ := quiescent hg (abs_objects hs) hx hq
  exact ⟨flat p, E, l', psim_iterate h hs, h1, ⟨_, psim_iterate h h2, PSim.flat h2⟩, PSim.size h2, psim_behaves h h2⟩

/-- An exception leaves no lock behind: in every reachable state, with any mutex, a thread that is not in a call holds
no lock. -/
theorem C91_released [BEq α] [LawfulBEq α] {P : PCfg α κ} (h : Contract P.C) {p : PTbl α} (hp : PReachable P p)
    {Q : CbOp α κ → Prop} (hQ : AllowedT P Q) {code : { o // Q o } → Code (Tbl α) (End (Resp α))}
    (hcode : ∀ o, RunsT P o.1 (code o)) {W H} (hx : Exec code (start (objects p)) H W) (t : Nat) (ht : W.th t = .idle) (i : Nat) :
    W.hold i t = none :=
  idle_free (good_weakT h.cfgOk hQ hcode) (abs_objects (hp.sim h)) hx ht i

/-- No deadlock, with any mutex: as long as a thread is in a call, some thread in a call is not waiting for a lock. -/
theorem C91_no_deadlock [BEq α] [LawfulBEq α] {P : PCfg α κ} (h : Contract P.C) {p : PTbl α} (hp : PReachable P p)
    {Q : CbOp α κ → Prop} (hQ : AllowedT P Q) {code : { o // Q o } → Code (Tbl α) (End (Resp α))}
    (hcode : ∀ o, RunsT P o.1 (code o)) {W H} (hx : Exec code (start (objects p)) H W) (t : Nat) (ht : W.th t ≠ .idle) :
    ∃ t', W.th t' ≠ .idle ∧ ¬ Blocked W t' :=
  progress (good_weakT h.cfgOk hQ hcode) (abs_objects (hp.sim h)) hx t ht

/-- With a mutex that has shared locks and erasing threads everything holds but the answer of an `erase` whose key has
gone (C23). -/
theorem C91_shared_partial [BEq α] [LawfulBEq α] {P : PCfg α κ} (h : Contract P.C) {p : PTbl α} (hp : PReachable P p)
    {Q : CbOp α κ → Prop} (hQ : AllowedT P Q) {code : { o // Q o } → Code (Tbl α) (End (Resp α))}
    (hcode : ∀ o, RunsT P o.1 (code o)) {W H} (hx : Exec code (start (objects p)) H W) :
    ∃ l, p.iterate P = .ok l ∧ Linearizable (semTWeak P) l H ∧ (∀ t o, W.th t ≠ .run o .ub) ∧
      ((∀ t, W.th t = .idle) → ∃ E l', Explains (semTWeak P) l H E l' ∧
        (∃ l'', (ofObjects P W.obj).iterate P = .ok l'' ∧ l''.Perm l') ∧ (ofObjects P W.obj).size = l'.length ∧
        PBehavesAs P (ofObjects P W.obj) l') := by
  have hs := hp.sim h
  have hg := good_weakT h.cfgOk hQ hcode
  refine ⟨flat p, psim_iterate h hs, linearizable hg (abs_objects hs) hx, no_ub hg (abs_objects hs) hx, fun hq => ?_⟩
  obtain ⟨E, l', h1, h2, -⟩ := quiescent hg (abs_objects hs) hx hq
  exact ⟨E, l', h1, ⟨_, psim_iterate h h2, PSim.flat h2⟩, PSim.size h2, psim_behaves h h2⟩

/-! ## The hypotheses are met -/

/-- `modify_if(5, …)` that adds one to the value and throws then. -/
def bumpThrow (P : PCfg (Nat × Nat) Nat) (h : ∀ a, P.C.key a = a.1) : { o // everythingT P o } :=
  ⟨⟨.modifyIf 5 (fun a => (a.1, a.2 + 1)), fun _ => true⟩, trivial, fun a => by rw [h, h]⟩

/-- `erase_if(5, …)` whose predicate throws on a value of 26. -/
def eraseThrow (P : PCfg (Nat × Nat) Nat) : { o // everythingT P o } := ⟨⟨.eraseIfKey 5 (fun _ => true), fun a => a.2 == 26⟩, trivial, trivial⟩

/-- `if_contains(5, …)` whose callback does not throw. -/
def ask (P : PCfg (Nat × Nat) Nat) : { o // everythingT P o } := ⟨⟨.ifContains 5, fun _ => false⟩, trivial, trivial⟩

/-- Thread 0 changes the element and throws while thread 1 waits; thread 1 then gets the lock, its predicate throws; then
thread 0 looks. -/
def schedule (P : PCfg (Nat × Nat) Nat) (h : ∀ a, P.C.key a = a.1) : List (Nat × Option { o // everythingT P o }) :=
  [(0, some (bumpThrow P h)), (1, some (eraseThrow P)), (0, none), (0, none), (0, none), (0, none), (0, none), (0, none),
   (1, none), (1, none), (1, none), (1, none),
   (0, some (ask P)), (0, none), (0, none), (0, none), (0, none), (0, none)]

def outcomes {Q : CbOp (Nat × Nat) Nat → Prop} (H : List (Event { o // Q o } (End (Resp (Nat × Nat))))) : List (Option Nat) :=
  H.filterMap fun e => match e with
    | .ret _ .threw => some none
    | .ret _ (.ret (.elem (some a))) => some (some a.2)
    | _ => none

theorem schedule_ok : ((play (stepsOfT exExcl (everythingT exExcl)) 2 (start (objects (oneFive exExcl))) (schedule exExcl fun _ => rfl)).map fun x =>
    (outcomes x.1, (ofObjects exExcl x.2.obj).size,
    (match x.2.th 0, x.2.th 1 with | .idle, .idle => true | _, _ => false))) = some ([none, none, some 26], 1, true) := by decide +kernel

/-- An execution with two exceptions: the change made before the first one is seen later, and the predicate that throws
does not erase. -/
example : ∃ (p : PTbl (Nat × Nat)) (code : { o // everythingT exExcl o } → Code (Tbl (Nat × Nat)) (End (Resp (Nat × Nat))))
    (W : World _ _ _) (H : List _),
    Contract exExcl.C ∧ PReachable exExcl p ∧ AllowedT exExcl (everythingT exExcl) ∧ ProtectedT exExcl (everythingT exExcl) ∧
    (∀ o, RunsT exExcl o.1 (code o)) ∧ Exec code (start (objects p)) H W ∧ outcomes H = [none, none, some 26] := by
  cases h : play (stepsOfT exExcl (everythingT exExcl)) 2 (start (objects (oneFive exExcl))) (schedule exExcl fun _ => rfl) with
  | none => have := schedule_ok; rw [h] at this; cases this
  | some x =>
    have hc := schedule_ok
    rw [h] at hc
    simp only [Option.map_some, Option.some.injEq, Prod.mk.injEq] at hc
    exact ⟨oneFive exExcl, stepsOfT exExcl (everythingT exExcl), x.2, x.1, exP_contract (.inr (.inr rfl)), oneFive_excl,
      fun _ h => h, .inl rfl, fun o => stepsT_runs exExcl o.2.1, play_exec _ (fun _ _ _ => rfl) h, hc.1⟩

/-- With shared locks: the erase looks under the shared lock, its predicate throws under the exclusive one. -/
def scheduleS (P : PCfg (Nat × Nat) Nat) (h : ∀ a, P.C.key a = a.1) : List (Nat × Option { o // everythingT P o }) :=
  [(0, some (bumpThrow P h)), (0, none), (0, none), (0, none), (0, none), (0, none), (0, none),
   (1, some (eraseThrow P)), (1, none), (1, none), (1, none), (1, none), (1, none), (1, none), (1, none),
   (0, some (ask P)), (0, none), (0, none), (0, none), (0, none), (0, none)]

theorem scheduleS_ok : ((play (stepsOfT exShared (everythingT exShared)) 2 (start (objects (oneFive exShared))) (scheduleS exShared fun _ => rfl)).map fun x =>
    (outcomes x.1, (ofObjects exShared x.2.obj).size,
    (match x.2.th 0, x.2.th 1 with | .idle, .idle => true | _, _ => false))) = some ([none, none, some 26], 1, true) := by decide +kernel

example : ∃ (p : PTbl (Nat × Nat)) (code : { o // everythingT exShared o } → Code (Tbl (Nat × Nat)) (End (Resp (Nat × Nat))))
    (W : World _ _ _) (H : List _),
    Contract exShared.C ∧ exShared.mtx = .shared ∧ PReachable exShared p ∧ AllowedT exShared (everythingT exShared) ∧
    (∀ o, RunsT exShared o.1 (code o)) ∧ Exec code (start (objects p)) H W ∧ outcomes H = [none, none, some 26] := by
  cases h : play (stepsOfT exShared (everythingT exShared)) 2 (start (objects (oneFive exShared))) (scheduleS exShared fun _ => rfl) with
  | none => have := scheduleS_ok; rw [h] at this; cases this
  | some x =>
    have hc := scheduleS_ok
    rw [h] at hc
    simp only [Option.map_some, Option.some.injEq, Prod.mk.injEq] at hc
    exact ⟨oneFive exShared, stepsOfT exShared (everythingT exShared), x.2, x.1, exP_contract (.inr (.inr rfl)), rfl, oneFive_shared,
      fun _ h => h, fun o => stepsT_runs exShared o.2.1, play_exec _ (fun _ _ _ => rfl) h, hc.1⟩

/-! ## Constructor callbacks -/

/-- A constructor callback of `lazy_emplace_l` that throws leaves a container that counts an element it does not have:
the full claim is false for it. -/
theorem C91_construct_refuted : ∃ (P : PCfg (Nat × Nat) Nat) (p : PTbl (Nat × Nat)) (t : Tbl (Nat × Nat)),
    Contract P.C ∧ PReachable P p ∧ p.size = 1 ∧
    createThrows P (objects p (kidx P 6)) 6 = .ok (t, .threw) ∧
    (ofObjects P (upd (objects p) (kidx P 6) t)).size = 2 ∧
    (ofObjects P (upd (objects p) (kidx P 6) t)).iterate P = .ok [(5, 25)] := by
  have h : (match createThrows exExcl (objects (oneFive exExcl) (kidx exExcl 6)) 6 with
      | .ok (t, .threw) => decide ((ofObjects exExcl (upd (objects (oneFive exExcl)) (kidx exExcl 6) t)).size = 2) &&
          (match (ofObjects exExcl (upd (objects (oneFive exExcl)) (kidx exExcl 6) t)).iterate exExcl with
            | .ok l => decide (l = [(5, 25)]) | _ => false)
      | _ => false) = true := by decide +kernel
  split at h
  · rename_i t ht
    rw [Bool.and_eq_true] at h
    obtain ⟨h1, h2⟩ := h
    split at h2
    · rename_i l hl
      exact ⟨exExcl, oneFive exExcl, t, exP_contract (.inr (.inr rfl)), oneFive_excl, oneFive_size.2, ht,
        of_decide_eq_true h1, by rw [hl, of_decide_eq_true h2]⟩
    · cases h2
  · cases h

/-- There is code for every call: the locks that the calls take let them do their work. -/
theorem C91_code (P : PCfg α κ) {o : CbOp α κ} (hc : Concurrent o.call) : ∃ code, RunsT P o code := ⟨_, stepsT_runs P hc⟩

end Gtl.Props.CallbackThrow
