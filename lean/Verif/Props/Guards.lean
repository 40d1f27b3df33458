import Verif.Conc.GuardLemmas
/-!
# Property theorems C24: lock guards
-/

namespace Gtl.Props.Guards

open Gtl.Guards
open Gtl.Conc (Mode)

/-- Without the constructor that takes `try_to_lock`: for every history of operations on any number of guards and
mutexes, each mutex is held exactly as often as guards own it and other code holds it; no mutex is ever released
without being held and no null mutex is used; a mutex is never owned exclusively twice, nor exclusively and shared.
Missing: the constructor with `try_to_lock`, for which this is false (below). -/
theorem C24_balanced_partial {w : W} (h : Reach false w) :
    (∀ m md, w.held m md = w.env m md + owners w m md) ∧
    (∀ op, Pre w op → ¬ IsTryTo op → step w op ≠ .ub) ∧
    (∀ m, owners w m .excl ≤ 1 ∧ (owners w m .excl = 1 → owners w m .shared = 0)) := by
  have hi := reach_inv h
  refine ⟨hi.bal, fun op hp ht => (step_fine hi hp ht).1, fun m => ?_⟩
  have h1 := hi.mutex m
  have h2 := hi.bal m .excl
  have h3 := hi.bal m .shared
  omega

/-- When all guards are gone, only the locks of other code are left. -/
theorem C24_released_partial {w : W} (h : Reach false w) (hd : ∀ g ∈ w.gs, g = none) (m : Nat) (md : Mode) :
    w.held m md = w.env m md := by
  rw [(reach_inv h).bal m md]
  have : owners w m md = 0 := by
    unfold owners
    rw [List.count_eq_zero]
    intro hmem
    obtain ⟨g, hg, hm⟩ := List.mem_flatMap.1 hmem
    rw [hd g hg] at hm
    cases hm
  omega

/-- `ReadWriteLock::switch_to_unique` on a guard that owns the shared lock gives up the shared lock and ends with the
exclusive one. -/
theorem C24_switch {w w' : W} (h : Reach false w) {i m l s} (ha : Alive w i .readWrite m l s) (hs : s = true)
    (hw : step w (.switch i) = .ok w') : ∃ m', m = some m' ∧ Alive w' i .readWrite (some m') true false ∧ owners w' m' .excl = 1 := by
  have hi := reach_inv h
  have hr : Reach false w' := .step h (op := .switch i) ⟨_, _, _, _, ha, fun _ => hs⟩ (fun _ h => h) hw
  have hi' := reach_inv hr
  simp only [step, get1_ok ha, Res.ok_bind, if_true] at hw
  rw [Res.bind_eq_ok] at hw
  obtain ⟨w1, h1, h2⟩ := hw
  have ha1 := (unlockSharedG_fine hi ha).2 w1 h1
  have hl : l = false := by
    have := (hi.alive ha).2.2
    cases l with
    | false => rfl
    | true => exact absurd ⟨rfl, hs⟩ this
  subst hl
  unfold lockG at h2
  rw [get1_ok ha1, Res.ok_bind] at h2
  simp only [Bool.false_eq_true, if_false] at h2
  obtain ⟨m0, rfl⟩ := Option.ne_none_iff_exists'.1 ((hi.alive ha).2.1 hs).1
  simp only [deref, Res.ofOption_some, Res.ok_bind, Res.bind_eq_ok] at h2
  obtain ⟨w2, h3, h4⟩ := h2
  obtain ⟨rfl, hf⟩ := acquire_ok h3
  cases h4
  have ha2 : Alive (put { w1 with held := bump w1.held m0 Kind.readWrite.mode (w1.held m0 Kind.readWrite.mode + 1) } i
      (some (.one .readWrite (some m0) true false))) i .readWrite (some m0) true false := by
    simp only [Alive, put, List.getElem?_set]
    rw [if_pos trivial, if_pos (List.getElem?_eq_some_iff.1 ha1).1]
  refine ⟨m0, rfl, ha2, ?_⟩
  exact owners_alive hi' ha2

/-! ## A concrete history -/

/-- Runs a list of operations. -/
def runOps (w : W) : List Op → Res W
  | [] => .ok w
  | op :: ops => do
    let w ← step w op
    runOps w ops

def exOps : List Op :=
  [.envLock 7 .excl, .adopt .write 7, .construct .readWrite 0, .construct .read 0, .destroy 2, .switch 1, .moveCtor 1,
   .default .readWrite, .moveAssign 4 3, .defer .write 3, .tryLock 6 true]

def exW : W := match runOps init exOps with | .ok w => w | _ => init

theorem exW_facts : (match runOps init exOps with | .ok _ => true | _ => false) = true ∧
    exW.held 0 .excl = 1 ∧ exW.held 0 .shared = 0 ∧ exW.held 3 .excl = 1 ∧ exW.held 7 .excl = 1 ∧ exW.env 7 .excl = 0 := by
  decide +kernel

theorem exW_reach : Reach false exW := by
  have s0 : Reach false init := .init
  have s1 := Reach.step s0 (op := .envLock 7 .excl) trivial (fun _ h => h) rfl
  have s2 := Reach.step s1 (op := .adopt .write 7) ⟨by simp, by decide⟩ (fun _ h => h) rfl
  have s3 := Reach.step s2 (op := .construct .readWrite 0) trivial (fun _ h => h) rfl
  have s4 := Reach.step s3 (op := .construct .read 0) trivial (fun _ h => h) rfl
  have s5 := Reach.step s4 (op := .destroy 2) ⟨_, rfl⟩ (fun _ h => h) rfl
  have s6 := Reach.step s5 (op := .switch 1) ⟨_, _, _, _, rfl, fun _ => rfl⟩ (fun _ h => h) rfl
  have s7 := Reach.step s6 (op := .moveCtor 1) ⟨_, _, _, _, rfl⟩ (fun _ h => h) rfl
  have s8 := Reach.step s7 (op := .default .readWrite) trivial (fun _ h => h) rfl
  have s9 := Reach.step s8 (op := .moveAssign 4 3) ⟨_, _, _, _, _, _, _, rfl, rfl⟩ (fun _ h => h) rfl
  have s10 := Reach.step s9 (op := .defer .write 3) trivial (fun _ h => h) rfl
  have s11 := Reach.step s10 (op := .tryLock 6 true) ⟨_, _, _, _, rfl, fun _ h => by simp at h, by simp⟩ (fun _ h => h) rfl
  exact s11

example : ∃ w, Reach false w ∧ owners w 0 .excl = 1 ∧ owners w 3 .excl = 1 ∧ owners w 7 .excl = 1 := by
  refine ⟨exW, exW_reach, ?_, ?_, ?_⟩ <;> decide +kernel

/-! ## The constructor with `try_to_lock` -/

/-- C24 is false for `WriteLock(m, try_to_lock)`: when the attempt succeeds the guard does not remember it, and the mutex
stays locked after the guard is gone; nobody owns it. -/
theorem C24_try_to_lock_refuted : ∃ w, Reach true w ∧ (∀ g ∈ w.gs, g = none) ∧ w.env 0 .excl = 0 ∧ w.held 0 .excl = 1 := by
  have s0 : Reach true init := .init
  have s1 := Reach.step s0 (op := .tryTo .write 0 true) (by simp [Pre]) (fun h => by cases h) rfl
  have s2 := Reach.step s1 (op := .destroy 0) ⟨_, rfl⟩ (fun h => by cases h) rfl
  exact ⟨_, s2, by decide, rfl, rfl⟩

/-- The same for `ReadLock`. -/
theorem C24_try_to_lock_shared_refuted :
    ∃ w, Reach true w ∧ (∀ g ∈ w.gs, g = none) ∧ w.env 0 .shared = 0 ∧ w.held 0 .shared = 1 := by
  have s0 : Reach true init := .init
  have s1 := Reach.step s0 (op := .tryTo .read 0 true) (by simp [Pre]) (fun h => by cases h) rfl
  have s2 := Reach.step s1 (op := .destroy 0) ⟨_, rfl⟩ (fun h => by cases h) rfl
  exact ⟨_, s2, by decide, rfl, rfl⟩

end Gtl.Props.Guards
