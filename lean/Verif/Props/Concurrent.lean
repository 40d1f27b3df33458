import Verif.Props.Parallel
import Verif.Conc.Count
/-!
# Property theorems C22 and C23: parallel containers used from many threads
-/

namespace Gtl.Props.Concurrent

open Gtl.Swiss Gtl.Parallel Gtl.Conc
open Gtl.Spec (Op POp PWOp Resp Event LEvent Phase Linearizable Explains)
open Gtl.Props.Hash (Contract exEqv exCfg exCfg_contract)
open Gtl.Props.Parallel

variable {α κ : Type}

/-- Which calls the threads make: any set of thread safe calls with their preconditions. -/
def Allowed (P : PCfg α κ) (Q : POp α κ → Prop) : Prop := ∀ o, Q o → Concurrent o ∧ o.Valid P.C.key (2 ^ P.N)

/-- The container is protected by real mutexes, and is not used for `erase` with a mutex that has shared locks (see
C23 for that). -/
def Protected (P : PCfg α κ) (Q : POp α κ → Prop) : Prop := P.mtx = .excl ∨ P.mtx = .shared ∧ ∀ o, Q o → ¬ Erases o

theorem Protected.ok {P : PCfg α κ} {Q : POp α κ → Prop} (h : Protected P Q) : P.mtx ≠ .shared ∨ ∀ o, Q o → ¬ Erases o := by
  rcases h with h | h
  · rw [h]; exact .inl (by simp)
  · exact .inr h.2

/-! ## A concrete instance -/

/-- All thread safe calls. -/
def everything (P : PCfg α κ) (o : POp α κ) : Prop := Concurrent o ∧ o.Valid P.C.key (2 ^ P.N)

theorem everything_allowed (P : PCfg α κ) : Allowed P (everything P) := fun _ h => h

/-- Their code. -/
def stepsOf (P : PCfg α κ) (Q : POp α κ → Prop) (o : { o // Q o }) : Code (Tbl α) (Resp α) := steps P o.1

theorem stepsOf_runs {P : PCfg α κ} {Q : POp α κ → Prop} (h : Allowed P Q) (o : { o // Q o }) : Runs P o.1 (stepsOf P Q o) :=
  steps_runs P (h o.1 o.2).1

def exShared : PCfg (Nat × Nat) Nat := exP groupPortable
def exExcl : PCfg (Nat × Nat) Nat := { exP groupPortable with mtx := .excl }

/-- The container with the single element (5, 25). -/
def oneFive (P : PCfg (Nat × Nat) Nat) : PTbl (Nat × Nat) :=
  match PTbl.wrun P (fun _ => PTbl.empty P) [.on 0 (.base (.insert (5, 25)))] with
  | .ok (w, _) => w 0
  | _ => { sets := [] }

theorem oneFive_reach {P : PCfg (Nat × Nat) Nat} (hP : (match PTbl.wrun P (fun _ => PTbl.empty P) [.on 0 (.base (.insert (5, 25)))] with
    | .ok _ => true | _ => false) = true) : PReachable P (oneFive P) := by
  cases h : PTbl.wrun P (fun _ => PTbl.empty P) [.on 0 (.base (.insert (5, 25)))] with
  | ok r =>
    refine ⟨[.on 0 (.base (.insert (5, 25)))], r.1, r.2, 0, ?_, h, ?_⟩
    · intro op hop; simp at hop; subst hop; trivial
    · unfold oneFive; rw [h]
  | ub => rw [h] at hP; cases hP
  | hang => rw [h] at hP; cases hP

theorem oneFive_shared : PReachable exShared (oneFive exShared) := oneFive_reach (by decide +kernel)
theorem oneFive_excl : PReachable exExcl (oneFive exExcl) := oneFive_reach (by decide +kernel)

def eraseFive (P : PCfg (Nat × Nat) Nat) : { o // everything P o } := ⟨.base (.erase 5), trivial, trivial⟩

/-- Two threads erase the same key; both look before either erases. -/
def race (P : PCfg (Nat × Nat) Nat) : List (Nat × Option { o // everything P o }) :=
  [(0, some (eraseFive P)), (0, none), (0, none), (0, none),
   (1, some (eraseFive P)), (1, none), (1, none), (1, none),
   (0, none), (0, none), (0, none), (0, none), (0, none), (0, none),
   (1, none), (1, none), (1, none), (1, none)]

def raceResult (P : PCfg (Nat × Nat) Nat) := play (stepsOf P (everything P)) 2 (start (objects (oneFive P))) (race P)

theorem race_ok : ((raceResult exShared).map fun x => (reports saysErased x.1, (ofObjects exShared x.2.obj).size,
    (match x.2.th 0, x.2.th 1 with | .idle, .idle => true | _, _ => false))) = some (2, 0, true) := by decide +kernel

theorem oneFive_size : (oneFive exShared).size = 1 ∧ (oneFive exExcl).size = 1 := by decide +kernel

/-! ## C22: linearizability -/

/-- For any number of threads, any calls, any schedule, any way the code between lock and unlock is cut into atomic
actions, and any initial state of the container: the history of calls and answers is linearizable with respect to the
abstract container, and no thread reaches undefined behaviour. -/
theorem C22_linearizable [BEq α] [LawfulBEq α] {P : PCfg α κ} (h : Contract P.C) {p : PTbl α} (hp : PReachable P p)
    {Q : POp α κ → Prop} (hQ : Allowed P Q) (hm : Protected P Q) {code : { o // Q o } → Code (Tbl α) (Resp α)}
    (hcode : ∀ o, Runs P o.1 (code o)) {W H} (hx : Exec code (start (objects p)) H W) :
    ∃ l, p.iterate P = .ok l ∧ Linearizable (sem P) l H ∧ ∀ t o, W.th t ≠ .run o .ub := by
  have hs := hp.sim h
  have hg := good_exact h.cfgOk hQ hm.ok hcode
  exact ⟨flat p, psim_iterate h hs, linearizable hg (abs_objects hs) hx, no_ub hg (abs_objects hs) hx⟩

/-- When all calls have returned, the container holds exactly what the abstract container holds after the calls in the
order of the explanation, and behaves like it from then on. -/
theorem C22_contents [BEq α] [LawfulBEq α] {P : PCfg α κ} (h : Contract P.C) {p : PTbl α} (hp : PReachable P p)
    {Q : POp α κ → Prop} (hQ : Allowed P Q) (hm : Protected P Q) {code : { o // Q o } → Code (Tbl α) (Resp α)}
    (hcode : ∀ o, Runs P o.1 (code o)) {W H} (hx : Exec code (start (objects p)) H W) (hq : ∀ t, W.th t = .idle) :
    ∃ l E l', p.iterate P = .ok l ∧ Explains (sem P) l H E l' ∧
      (∃ l'', (ofObjects P W.obj).iterate P = .ok l'' ∧ l''.Perm l') ∧ (ofObjects P W.obj).size = l'.length ∧
      PBehavesAs P (ofObjects P W.obj) l' := by
  have hs := hp.sim h
  have hg := good_exact h.cfgOk hQ hm.ok hcode
  obtain ⟨E, l', h1, h2, -⟩ := quiescent hg (abs_objects hs) hx hq
  exact ⟨flat p, E, l', psim_iterate h hs, h1, ⟨_, psim_iterate h h2, PSim.flat h2⟩, PSim.size h2, psim_behaves h h2⟩

/-- No deadlock: as long as a thread is in a call, some thread in a call is not waiting for a lock. -/
theorem C22_no_deadlock [BEq α] [LawfulBEq α] {P : PCfg α κ} (h : Contract P.C) {p : PTbl α} (hp : PReachable P p)
    {Q : POp α κ → Prop} (hQ : Allowed P Q) {code : { o // Q o } → Code (Tbl α) (Resp α)}
    (hcode : ∀ o, Runs P o.1 (code o)) {W H} (hx : Exec code (start (objects p)) H W) (t : Nat) (ht : W.th t ≠ .idle) :
    ∃ t', W.th t' ≠ .idle ∧ ¬ Blocked W t' :=
  progress (good_weak h.cfgOk hQ hcode) (abs_objects (hp.sim h)) hx t ht

/-- Two threads, a mutex without shared locks; the second one gets the lock after the first one has erased. -/
def calm (P : PCfg (Nat × Nat) Nat) : List (Nat × Option { o // everything P o }) :=
  [(0, some (eraseFive P)), (1, some (eraseFive P)), (0, none), (0, none), (0, none), (0, none), (0, none), (1, none),
   (1, none), (1, none), (1, none), (0, none)]

theorem calm_ok : ((play (stepsOf exExcl (everything exExcl)) 2 (start (objects (oneFive exExcl))) (calm exExcl)).map fun x =>
    (reports saysErased x.1, (ofObjects exExcl x.2.obj).size,
    (match x.2.th 0, x.2.th 1 with | .idle, .idle => true | _, _ => false))) = some (1, 0, true) := by decide +kernel

/-- The hypotheses are met, for both kinds of mutex, by containers with elements and by the code of `steps`. -/
example : ∃ (p : PTbl (Nat × Nat)) (code : { o // everything exExcl o } → Code (Tbl (Nat × Nat)) (Resp (Nat × Nat)))
    (W : World _ _ _) (H : List _),
    PReachable exExcl p ∧ p.size = 1 ∧ Allowed exExcl (everything exExcl) ∧ Protected exExcl (everything exExcl) ∧
    (∀ o, Runs exExcl o.1 (code o)) ∧ Exec code (start (objects p)) H W ∧ reports saysErased H = 1 := by
  cases h : play (stepsOf exExcl (everything exExcl)) 2 (start (objects (oneFive exExcl))) (calm exExcl) with
  | none => have := calm_ok; rw [h] at this; cases this
  | some x =>
    have hc := calm_ok
    rw [h] at hc
    simp only [Option.map_some, Option.some.injEq, Prod.mk.injEq] at hc
    exact ⟨oneFive exExcl, stepsOf exExcl (everything exExcl), x.2, x.1, oneFive_excl, oneFive_size.2, everything_allowed _, .inl rfl,
      stepsOf_runs (everything_allowed _), play_exec _ (fun _ _ _ => rfl) h, hc.1⟩

/-! ## C23: what `erase` reports -/

/-- With a mutex without shared locks (and with any mutex if nobody erases): when all calls have returned, the number
of elements has changed by exactly the number of calls that said they added one minus the number of calls that said
they erased one. -/
theorem C23_exclusive [BEq α] [LawfulBEq α] {P : PCfg α κ} (h : Contract P.C) {p : PTbl α} (hp : PReachable P p)
    {Q : POp α κ → Prop} (hQ : Allowed P Q) (ht : ∀ a, ¬ Q (.base (.toggle a))) (hm : P.mtx = .excl)
    {code : { o // Q o } → Code (Tbl α) (Resp α)}
    (hcode : ∀ o, Runs P o.1 (code o)) {W H} (hx : Exec code (start (objects p)) H W) (hq : ∀ t, W.th t = .idle) :
    (ofObjects P W.obj).size + reports saysErased H = p.size + reports saysAdded H := by
  have hs := hp.sim h
  have hg := fun o => (good_exact h.cfgOk hQ (.inl (by rw [hm]; simp)) hcode o).strengthen
    (D := Distinct P.C) (fun A s ha => PSim.distinct h.cfgOk ha)
  obtain ⟨E, l', h1, h2, h3⟩ := quiescent hg (abs_objects hs) hx hq
  have hperm := answers_perm E (fun _ => .idle) [] h3 List.nodup_nil (by simp)
  have hc := legal_count h.cfgOk (fun o ho => (hQ o ho).1) ht h1.legal
  unfold reports
  rw [PSim.size h2, hs.size, ← h1.vis]
  rw [show (fun _ => none : Nat → Option { o // Q o }) = fun t => phaseOp ((fun _ => Phase.idle : Nat → Phase { o // Q o } (Resp α)) t) from rfl]
  rw [hperm.countP_eq, hperm.countP_eq]
  exact hc

/-- With a shared mutex only one direction holds: at least as many calls report an erasure as elements are removed.
Missing: equality, which is refuted below. -/
theorem C23_shared_partial [BEq α] [LawfulBEq α] {P : PCfg α κ} (h : Contract P.C) {p : PTbl α} (hp : PReachable P p)
    {Q : POp α κ → Prop} (hQ : Allowed P Q) (ht : ∀ a, ¬ Q (.base (.toggle a))) (_hm : P.mtx = .shared)
    {code : { o // Q o } → Code (Tbl α) (Resp α)}
    (hcode : ∀ o, Runs P o.1 (code o)) {W H} (hx : Exec code (start (objects p)) H W) (hq : ∀ t, W.th t = .idle) :
    p.size + reports saysAdded H ≤ (ofObjects P W.obj).size + reports saysErased H := by
  have hs := hp.sim h
  have hg := fun o => (good_weak h.cfgOk hQ hcode o).strengthen
    (D := Distinct P.C) (fun A s ha => PSim.distinct h.cfgOk ha)
  obtain ⟨E, l', h1, h2, h3⟩ := quiescent hg (abs_objects hs) hx hq
  have hperm := answers_perm E (fun _ => .idle) [] h3 List.nodup_nil (by simp)
  have hc := legal_count_weak h.cfgOk (fun o ho => (hQ o ho).1) ht h1.legal
  unfold reports
  rw [PSim.size h2, hs.size, ← h1.vis]
  rw [show (fun _ => none : Nat → Option { o // Q o }) = fun t => phaseOp ((fun _ => Phase.idle : Nat → Phase { o // Q o } (Resp α)) t) from rfl]
  rw [hperm.countP_eq, hperm.countP_eq]
  exact hc

/-- With a shared mutex the histories are still explained by a sequential order, except that an `erase` whose key has
gone may say that it erased; contents and all other answers are right, nothing is undefined. -/
theorem C23_shared_linearizable_partial [BEq α] [LawfulBEq α] {P : PCfg α κ} (h : Contract P.C) {p : PTbl α} (hp : PReachable P p)
    {Q : POp α κ → Prop} (hQ : Allowed P Q) (_hm : P.mtx = .shared) {code : { o // Q o } → Code (Tbl α) (Resp α)}
    (hcode : ∀ o, Runs P o.1 (code o)) {W H} (hx : Exec code (start (objects p)) H W) :
    ∃ l, p.iterate P = .ok l ∧ Linearizable (semWeak P) l H ∧ ∀ t o, W.th t ≠ .run o .ub := by
  have hs := hp.sim h
  have hg := good_weak h.cfgOk hQ hcode
  exact ⟨flat p, psim_iterate h hs, linearizable hg (abs_objects hs) hx, no_ub hg (abs_objects hs) hx⟩

/-- C23 is false for mutexes with shared locks: two threads erase the only element, both calls report an erasure. -/
theorem C23_shared_refuted : ∃ (P : PCfg (Nat × Nat) Nat) (p : PTbl (Nat × Nat)) (Q : POp (Nat × Nat) Nat → Prop)
    (code : { o // Q o } → Code (Tbl (Nat × Nat)) (Resp (Nat × Nat))) (W : World _ _ _) (H : _),
    Contract P.C ∧ P.mtx = .shared ∧ PReachable P p ∧ Allowed P Q ∧ (∀ o, Runs P o.1 (code o)) ∧
    Exec code (start (objects p)) H W ∧ (∀ t, W.th t = .idle) ∧
    p.size = 1 ∧ (ofObjects P W.obj).size = 0 ∧ reports saysErased H = 2 := by
  cases h : raceResult exShared with
  | none => have := race_ok; rw [h] at this; cases this
  | some x =>
    have hc := race_ok
    rw [h] at hc
    simp only [Option.map_some, Option.some.injEq, Prod.mk.injEq] at hc
    refine ⟨exShared, oneFive exShared, everything exShared, stepsOf _ _, x.2, x.1, exP_contract (.inr (.inr rfl)), rfl, oneFive_shared,
      everything_allowed _, stepsOf_runs (everything_allowed _), play_exec _ (fun _ _ _ => rfl) h, fun t => ?_,
      oneFive_size.1, hc.2.1, hc.1⟩
    by_cases ht : 2 ≤ t
    · rw [play_other _ h t ht]; rfl
    · have h3 := hc.2.2
      have : t = 0 ∨ t = 1 := by omega
      rcases this with rfl | rfl
      · cases h0 : x.2.th 0 with
        | idle => rfl
        | run => rw [h0] at h3; cases h3
      · cases h0 : x.2.th 0 with
        | run => rw [h0] at h3; cases h3
        | idle =>
          cases h1 : x.2.th 1 with
          | idle => rfl
          | run => rw [h0, h1] at h3; cases h3

/-- There is code for every call: the locks that the calls take let them do their work. -/
theorem C22_code (P : PCfg α κ) {o : POp α κ} (hc : Concurrent o) : ∃ code, Runs P o code := ⟨_, steps_runs P hc⟩

end Gtl.Props.Concurrent
