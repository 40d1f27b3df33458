import Verif.Conc.RacePlay
import Verif.Props.CallbackThrow
import Verif.Props.Share
import Verif.Props.LruThreads
/-!
# Property theorems C93: no data races

The functions documented as thread safe can be called from any number of threads without a data race: any two accesses
to the same part of a container from different threads, one of which may change it, are ordered by happens-before. This
is what makes the executions of `Verif.Conc.Machine`, one atomic action after another, the only ones (C++ gives a program
without data races, whose synchronisation is by mutexes, sequentially consistent executions).
-/

namespace Gtl.Props.Race

open Gtl.Swiss Gtl.Parallel Gtl.Conc
open Gtl.Spec (POp Resp)
open Gtl.Spec.HB (Before)
open Gtl.Props.Hash (Contract)
open Gtl.Props.Parallel

variable {α κ : Type}

/-! ## Calls on one key -/

/-- A reachable parallel container with a real mutex of any kind, any number of threads, any thread safe calls, any
schedule, any way the code is cut into atomic actions: conflicting accesses are ordered. -/
theorem C93_parallel [BEq α] [LawfulBEq α] {P : PCfg α κ} (h : Contract P.C) (_hm : P.mtx ≠ .null) {p : PTbl α}
    (hp : PReachable P p) {Q : POp α κ → Prop} (hQ : Concurrent.Allowed P Q) {code : { o // Q o } → Code (Tbl α) (Resp α)}
    (hcode : ∀ o, Runs P o.1 (code o)) {D W} (hx : Rec code (start (objects p)) D W) : RaceFree D :=
  race_free (good_weak h.cfgOk hQ hcode) (abs_objects (hp.sim h)) hx

/-- Also when callbacks throw. -/
theorem C93_throwing [BEq α] [LawfulBEq α] {P : PCfg α κ} (h : Contract P.C) (_hm : P.mtx ≠ .null) {p : PTbl α}
    (hp : PReachable P p) {Q : Spec.CbOp α κ → Prop} (hQ : CallbackThrow.AllowedT P Q)
    {code : { o // Q o } → Code (Tbl α) (Spec.End (Resp α))}
    (hcode : ∀ o, RunsT P o.1 (code o)) {D W} (hx : Rec code (start (objects p)) D W) : RaceFree D :=
  race_free (good_weakT h.cfgOk hQ hcode) (abs_objects (hp.sim h)) hx

/-- LRU caches, with a mutex that really excludes. Missing: `get` with a mutex that has shared locks, refuted below. -/
theorem C93_lru_partial {ν : Type} {L : Lru.LCfg κ} (h : Contract L.C) {n : Nat} {ops : List (Spec.Lru.Op κ ν)} {c : Lru.Cache κ ν}
    {rs : List (Spec.Lru.Resp ν)} (hc : Lru.history L n ops = .ok (c, rs)) {mtx : Mtx} {Q : Lru.COp κ ν → Prop}
    (hm : Lru.Guarded mtx Q) {code : { o // Q o } → Code (Lru.Cell κ ν) (Spec.Lru.Resp ν)}
    (hcode : ∀ o, Lru.CRuns L mtx c.max o.1 (code o)) {D W}
    (hx : Rec code (start (Lru.cells c (Lru.fresh ops))) D W) : RaceFree D :=
  race_free (fun o => Lru.call_good h.cfgOk (LruThreads.guarded_ok hm) o (hcode o))
    (Lru.absL_cells (LruThreads.history_eq h hc).2) hx

/-! ## Calls on whole containers -/

/-- Any number of containers, and calls on one key or on whole containers, which may hold the locks of several parts at
the same time. -/
theorem C93_whole [BEq α] [LawfulBEq α] {P : PCfg α κ} (h : Contract P.C) (_hm : P.mtx ≠ .null) {p : Nat → PTbl α}
    (hp : ∀ c, PReachable P (p c)) {Q : Spec.Share.Call α κ → Prop} (hQ : Share.Allowed P Q)
    {code : { o // Q o } → Multi.Code (Tbl α) (Spec.Share.Ans α)} (hcode : ∀ o, Multi.CodeFor P o.1 (code o)) {D W}
    (hx : Multi.Rec code (Multi.start (Multi.cells P p)) D W) : RaceFree D :=
  Multi.race_free (Share.good_any h hQ hcode) (Share.cells_abs fun c => (hp c).sim h) hx

/-! ## Nothing is left out -/

/-- Every execution has a record, and every record is one of an execution. -/
theorem C93_records {op σ ρ : Type} (code : op → Code σ ρ) (A : Nat → σ) (W : World op σ ρ) :
    (∃ H, Exec code (start A) H W) ↔ ∃ D, Rec code (start A) D W :=
  ⟨fun ⟨_, h⟩ => exec_rec h, fun ⟨_, h⟩ => rec_exec h⟩

theorem C93_records_whole {op σ ρ : Type} (code : op → Multi.Code σ ρ) (A : Nat → σ) (W : Multi.World op σ ρ) :
    (∃ H, Multi.Exec code (Multi.start A) H W) ↔ ∃ D, Multi.Rec code (Multi.start A) D W :=
  ⟨fun ⟨_, h⟩ => Multi.exec_rec h, fun ⟨_, h⟩ => Multi.rec_exec h⟩

/-! ## Cases that meet the hypotheses -/

/-- The number of elements changes. -/
def sized (t t' : Tbl α) : Bool := t'.size != t.size

theorem sized_ne (t t' : Tbl α) (h : sized t t' = true) : t' ≠ t := by
  rintro rfl; simp [sized] at h

section
open Concurrent

/-- Two threads erase the same element, one after the other: the record has two conflicting accesses. -/
theorem calm_marks : marks sized (stepsOf exExcl (everything exExcl)) 2 (start (objects (oneFive exExcl))) (calm exExcl) =
    some [.lock 0 1 .excl, .access 0 1 false, .access 0 1 false, .access 0 1 true, .unlock 0 1 .excl, .lock 1 1 .excl,
      .access 1 1 false, .unlock 1 1 .excl] := by decide +kernel

/-- The hypotheses of `C93_parallel` are met by an execution with conflicting accesses, and here is their order. -/
example : ∃ (p : PTbl (Nat × Nat)) (code : { o // everything exExcl o } → Code (Tbl (Nat × Nat)) (Resp (Nat × Nat)))
    (D : List Did) (W : World _ _ _) (a b : Did), Contract exExcl.C ∧ exExcl.mtx ≠ .null ∧ PReachable exExcl p ∧
    Allowed exExcl (everything exExcl) ∧ (∀ o, Runs exExcl o.1 (code o)) ∧ Rec code (start (objects p)) D W ∧
    D[3]? = some a ∧ D[6]? = some b ∧ Conflict a b ∧ Before (D.map Did.ev) 3 6 := by
  obtain ⟨D, W, hr, hf⟩ := marks_rec sized_ne (calm exExcl) (fun _ _ _ => rfl) .refl .nil calm_marks
  rw [List.nil_append] at hf
  obtain ⟨a, ha, ha'⟩ := forall2_at hf (k := 3) rfl
  obtain ⟨b, hb, hb'⟩ := forall2_at hf (k := 6) rfl
  have hc : Conflict a b := by
    cases a with
    | lock => exact ha'.elim
    | unlock => exact ha'.elim
    | access t r w =>
    cases b with
    | lock => exact hb'.elim
    | unlock => exact hb'.elim
    | access t' r' w' =>
    obtain ⟨rfl, -, hw⟩ := ha'
    obtain ⟨rfl, hr, -⟩ := hb'
    exact ⟨by decide, 1, .inl ⟨hw rfl, .inl hr⟩⟩
  have hrf := C93_parallel Share.exContract.2 (by decide) oneFive_excl (everything_allowed _)
    (stepsOf_runs (everything_allowed _)) hr
  exact ⟨oneFive exExcl, _, D, W, a, b, Share.exContract.2, by decide, oneFive_excl, everything_allowed _,
    stepsOf_runs (everything_allowed _), hr, ha, hb, hc, hrf 3 6 a b (by decide) ha hb hc⟩

/-- The mutex is needed: with `NullMutex`, whose functions do nothing, two calls of `erase` race. -/
theorem C93_null : ∃ (P : PCfg (Nat × Nat) Nat) (p : PTbl (Nat × Nat)) (Q : POp (Nat × Nat) Nat → Prop)
    (code : { o // Q o } → Code (Tbl (Nat × Nat)) (Resp (Nat × Nat))) (D : List Did) (W : World _ _ _),
    Contract P.C ∧ PReachable P p ∧ Allowed P Q ∧ (∀ o, Runs P o.1 (code o)) ∧
    Rec (fun o => (code o).bare) (start (objects p)) D W ∧ ¬ RaceFree D := by
  have hm : marks sized (fun o => (stepsOf exExcl (everything exExcl) o).bare) 2 (start (objects (oneFive exExcl)))
      [(0, some (eraseFive _)), (1, some (eraseFive _)), (0, none), (0, none), (0, none), (1, none)] =
      some [.access 0 1 false, .access 0 1 false, .access 0 1 true, .access 1 1 false] := by decide +kernel
  obtain ⟨D, W, hr, hf⟩ := marks_rec sized_ne _ (fun _ _ _ => rfl) .refl .nil hm
  exact ⟨exExcl, oneFive exExcl, everything exExcl, stepsOf exExcl (everything exExcl), D, W, Share.exContract.2, oneFive_excl,
    everything_allowed _, stepsOf_runs (everything_allowed _), hr, not_raceFree hf (a := 2) (b := 3) (i := 1) rfl⟩
end

open CallbackThrow Concurrent in
/-- The hypotheses of `C93_throwing` are met by an execution with two exceptions. -/
example : ∃ (D : List Did) (W : World _ _ _) (H : List _), Contract exExcl.C ∧ exExcl.mtx ≠ .null ∧ PReachable exExcl (oneFive exExcl) ∧
    AllowedT exExcl (everythingT exExcl) ∧ (∀ o, RunsT exExcl o.1 (stepsOfT exExcl (everythingT exExcl) o)) ∧
    Rec (stepsOfT exExcl (everythingT exExcl)) (start (objects (oneFive exExcl))) D W ∧
    Exec (stepsOfT exExcl (everythingT exExcl)) (start (objects (oneFive exExcl))) H W ∧ outcomes H = [none, none, some 26] := by
  cases h : play (stepsOfT exExcl (everythingT exExcl)) 2 (start (objects (oneFive exExcl))) (schedule exExcl fun _ => rfl) with
  | none => have := schedule_ok; rw [h] at this; cases this
  | some x =>
    have hc := schedule_ok
    rw [h] at hc
    simp only [Option.map_some, Option.some.injEq, Prod.mk.injEq] at hc
    have he := play_exec _ (fun _ _ _ => rfl) h
    obtain ⟨D, hD⟩ := exec_rec he
    exact ⟨D, x.2, x.1, Share.exContract.2, by decide, oneFive_excl, fun _ h => h, fun o => stepsT_runs exExcl o.2.1, hD, he, hc.1⟩

open Share in
open Concurrent (exShared) in
/-- The hypotheses of `C93_whole` are met by an execution in which one thread is in `for_each` while another inserts. -/
example : ∃ (D : List Did) (W : Multi.World { o // everything exShared o } _ _) (H : List _),
    Contract exShared.C ∧ exShared.mtx ≠ .null ∧ (∀ c, PReachable exShared (two exShared c)) ∧
    Allowed exShared (everything exShared) ∧ (∀ o, Multi.CodeFor exShared o.1 (codes exShared (everything exShared) o)) ∧
    Multi.Rec (codes exShared (everything exShared)) (Multi.start (Multi.cells exShared (two exShared))) D W ∧
    Multi.Exec (codes exShared (everything exShared)) (Multi.start (Multi.cells exShared (two exShared))) H W ∧
    reported H = [[(5, 25), (17, 2)]] := by
  cases h : walked exShared with
  | none => have := walked_ok; rw [h] at this; cases this
  | some x =>
    have hc := walked_ok
    rw [h] at hc
    simp only [Option.map_some, Option.some.injEq, Prod.mk.injEq] at hc
    obtain ⟨h1, -⟩ := Multi.play_exec _ (fun _ _ _ => rfl) h
    obtain ⟨D, hD⟩ := Multi.exec_rec h1
    exact ⟨D, x.2, x.1, exContract.1, by decide, fun c => (two_reach c).1, everything_allowed _, codes_for _ _, hD, h1, hc.1⟩

section
open LruThreads

/-- The hypotheses of `C93_lru_partial` are met by two threads that `get` the same key. -/
example : ∃ (D : List Did) (W : World _ _ _), Contract (Lru.exL groupPortable).C ∧
    Lru.history (Lru.exL groupPortable) 7 exOps = .ok (exCache, [.unit, .unit]) ∧ Gtl.Lru.Guarded .excl exAll ∧
    (∀ o, Gtl.Lru.CRuns (Lru.exL groupPortable) .excl exCache.max o.1 (exCode .excl o)) ∧
    Rec (exCode .excl) (start (Gtl.Lru.cells exCache (Lru.fresh exOps))) D W ∧ RaceFree D ∧ D ≠ [] := by
  have hm : (marks (fun a b => b.sub.lst.length != a.sub.lst.length) (exCode .excl) 2
      (start (Gtl.Lru.cells exCache (Lru.fresh exOps))) exSched).map List.length = some 14 := by decide +kernel
  cases h : marks (fun a b => b.sub.lst.length != a.sub.lst.length) (exCode .excl) 2
      (start (Gtl.Lru.cells exCache (Lru.fresh exOps))) exSched with
  | none => rw [h] at hm; cases hm
  | some ms =>
    rw [h] at hm
    obtain ⟨D, W, hr, hf⟩ := marks_rec (fun s s' hs => by rintro rfl; simp at hs) _ (fun _ _ _ => rfl) .refl .nil h
    refine ⟨D, W, Lru.exL_contract (.inr (.inr rfl)), exCache_history, .inl rfl, exCode_runs _, hr,
      C93_lru_partial (Lru.exL_contract (.inr (.inr rfl))) exCache_history (.inl rfl) (exCode_runs _) hr, ?_⟩
    rintro rfl
    have := hf.length_eq
    simp at this
    subst this
    cases hm

/-- C93 is false for caches with a mutex that has shared locks: two threads that `get` the same key, each holding a
shared lock, race, as `get` changes the list. -/
theorem C93_lru_shared_refuted : ∃ (L : Gtl.Lru.LCfg Nat) (n : Nat) (ops : List (Spec.Lru.Op Nat String))
    (c : Gtl.Lru.Cache Nat String) (rs : List (Spec.Lru.Resp String)) (Q : Gtl.Lru.COp Nat String → Prop)
    (code : { o // Q o } → Code (Gtl.Lru.Cell Nat String) (Spec.Lru.Resp String)) (D : List Did) (W : World _ _ _),
    Contract L.C ∧ Lru.history L n ops = .ok (c, rs) ∧ (∀ o, Gtl.Lru.CRuns L .shared c.max o.1 (code o)) ∧
    Rec code (start (Gtl.Lru.cells c (Lru.fresh ops))) D W ∧ ¬ RaceFree D := by
  have hm : marks (fun a b => b.sub.lst.length != a.sub.lst.length) (exCode .shared) 2
      (start (Gtl.Lru.cells exCache (Lru.fresh exOps))) exRace =
      some [.lock 0 1 .shared, .lock 1 1 .shared, .access 1 1 false, .access 1 1 false, .access 0 1 false, .access 0 1 false,
        .access 0 1 false, .access 0 1 true, .access 1 1 false] := by decide +kernel
  obtain ⟨D, W, hr, hf⟩ := marks_rec (fun s s' hs => by rintro rfl; simp at hs) _ (fun _ _ _ => rfl) .refl .nil hm
  exact ⟨Lru.exL groupPortable, 7, exOps, exCache, _, exAll, exCode .shared, D, W, Lru.exL_contract (.inr (.inr rfl)),
    exCache_history, exCode_runs _, hr, not_raceFree hf (a := 7) (b := 8) (i := 1) rfl⟩
end

end Gtl.Props.Race
