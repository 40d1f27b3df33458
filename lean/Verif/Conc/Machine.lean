import Verif.Base.Res
import Verif.Spec.Linearizable
/-!
# Threads, locks and shared objects

A small concurrent machine: any number of threads, shared objects of type `σ` and a lock per object. A call runs code
made of atomic actions on objects and of lock operations; the scheduler interleaves single actions. Atomicity of the
single actions (sequentially consistent execution of data-race-free programs) is part of the trusted base.
-/

namespace Gtl.Conc

open Gtl.Spec (Event)

variable {op σ ρ : Type}

/-- Shared or exclusive. -/
inductive Mode where
  | shared
  | excl
  deriving DecidableEq

/-- The code of a call. -/
inductive Code (σ ρ : Type) where
  /-- return to the caller -/
  | ret (r : ρ)
  /-- undefined behaviour -/
  | ub
  /-- one atomic action: change object `i` by `w`, go on depending on what it was -/
  | act (i : Nat) (w : σ → σ) (k : σ → Code σ ρ)
  | lock (i : Nat) (m : Mode) (k : Code σ ρ)
  | unlock (i : Nat) (m : Mode) (k : Code σ ρ)

/-- Thread state. -/
inductive TS (op σ ρ : Type) where
  | idle
  | run (o : op) (c : Code σ ρ)

/-- The shared objects, who holds which lock, and where each thread is. -/
structure World (op σ ρ : Type) where
  obj : Nat → σ
  /-- `hold i t`: the mode in which thread `t` holds lock `i` -/
  hold : Nat → Nat → Option Mode
  th : Nat → TS op σ ρ

/-- Change a function at one point. -/
def upd {β : Type} (f : Nat → β) (i : Nat) (x : β) : Nat → β := fun j => if j = i then x else f j

/-- When lock `i` may be taken: exclusively if nobody holds it, shared if nobody holds it exclusively. -/
def Free (W : World op σ ρ) (i : Nat) : Mode → Prop
  | .excl => ∀ t, W.hold i t = none
  | .shared => ∀ t, W.hold i t ≠ some .excl

/-- One step of one thread, with the event seen by an observer. Blocked threads have no step. -/
inductive Step (code : op → Code σ ρ) : World op σ ρ → Option (Event op ρ) → World op σ ρ → Prop
  | call {W : World op σ ρ} {t o} : W.th t = .idle →
      Step code W (some (.inv t o)) { W with th := upd W.th t (.run o (code o)) }
  | act {W : World op σ ρ} {t o i w k} : W.th t = .run o (.act i w k) →
      Step code W none { W with obj := upd W.obj i (w (W.obj i)), th := upd W.th t (.run o (k (W.obj i))) }
  | lock {W : World op σ ρ} {t o i m k} : W.th t = .run o (.lock i m k) → Free W i m →
      Step code W none { W with hold := upd W.hold i (upd (W.hold i) t (some m)), th := upd W.th t (.run o k) }
  | unlock {W : World op σ ρ} {t o i m k} : W.th t = .run o (.unlock i m k) → W.hold i t = some m →
      Step code W none { W with hold := upd W.hold i (upd (W.hold i) t none), th := upd W.th t (.run o k) }
  /-- releasing a lock that is not held in that mode is undefined -/
  | unlockBad {W : World op σ ρ} {t o i m k} : W.th t = .run o (.unlock i m k) → W.hold i t ≠ some m →
      Step code W none { W with th := upd W.th t (.run o .ub) }
  | ret {W : World op σ ρ} {t o r} : W.th t = .run o (.ret r) →
      Step code W (some (.ret t r)) { W with th := upd W.th t .idle }

/-- Thread `t` waits for a lock that it cannot get. -/
def Blocked (W : World op σ ρ) (t : Nat) : Prop :=
  ∃ o i m k, W.th t = .run o (.lock i m k) ∧ ¬ Free W i m

/-- An execution with its observable history. -/
inductive Exec (code : op → Code σ ρ) : World op σ ρ → List (Event op ρ) → World op σ ρ → Prop
  | refl {W} : Exec code W [] W
  | tail {W W' W'' H e} : Exec code W H W' → Step code W' e W'' → Exec code W (H ++ e.toList) W''

/-- Nobody is in a call, no lock is held. -/
def start (obj : Nat → σ) : World op σ ρ where
  obj := obj
  hold := fun _ _ => none
  th := fun _ => .idle

/-! ## Code without lock operations -/

/-- Running code that stays on object `i` and uses no locks, alone. -/
def Code.solo : Code σ ρ → σ → Res (σ × ρ)
  | .ret r, s => .ok (s, r)
  | .ub, _ => .ub
  | .act _ w k, s => (k s).solo (w s)
  | .lock .., _ => .ub
  | .unlock .., _ => .ub

/-- The code only acts on object `i`. -/
def Code.Body (i : Nat) : Code σ ρ → Prop
  | .ret _ => True
  | .ub => True
  | .act j _ k => j = i ∧ ∀ s, (k s).Body i
  | .lock .. => False
  | .unlock .. => False

/-- The code changes nothing. -/
def Code.ReadOnly : Code σ ρ → Prop
  | .act _ w k => (∀ s, w s = s) ∧ ∀ s, (k s).ReadOnly
  | _ => True

/-- One program after another. -/
def Code.bind {ρ' : Type} : Code σ ρ → (ρ → Code σ ρ') → Code σ ρ'
  | .ret r, f => f r
  | .ub, _ => .ub
  | .act i w k, f => .act i w (fun s => (k s).bind f)
  | .lock i m k, f => .lock i m (k.bind f)
  | .unlock i m k, f => .unlock i m (k.bind f)

/-- A critical section: lock, body, unlock. -/
def Code.sec {β : Type} (i : Nat) (m : Mode) (b : Code σ β) (k : β → Code σ ρ) : Code σ ρ :=
  .lock i m (b.bind (fun x => .unlock i m (k x)))

end Gtl.Conc
