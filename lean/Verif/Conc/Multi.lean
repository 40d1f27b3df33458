import Verif.Conc.Machine
import Verif.Spec.Stepwise
/-!
# Threads that hold several locks

The machine of `Verif.Conc.Machine` for code that works on several shared objects at a time and takes several locks, one
after the other or, like `std::lock`, all at once.
-/

namespace Gtl.Conc.Multi

open Gtl.Spec (Event)

variable {op σ ρ : Type}

/-- The code of a call. -/
inductive Code (σ ρ : Type) where
  /-- return to the caller -/
  | ret (r : ρ)
  /-- undefined behaviour -/
  | ub
  /-- one atomic action: change the objects by `w`, go on depending on what they were -/
  | act (w : (Nat → σ) → Nat → σ) (k : (Nat → σ) → Code σ ρ)
  /-- wait until all these locks are free, take them -/
  | lock (ls : List (Nat × Mode)) (k : Code σ ρ)
  | unlock (i : Nat) (m : Mode) (k : Code σ ρ)

/-- Thread state. -/
inductive TS (op σ ρ : Type) where
  | idle
  | run (o : op) (c : Code σ ρ)

/-- The shared objects, who holds which lock, and where each thread is. -/
structure World (op σ ρ : Type) where
  obj : Nat → σ
  /-- `hold i t`: the mode in which thread `t` holds lock `i` -/
  hold : Nat → Nat → Option Mode
  th : Nat → TS op σ ρ

/-- When lock `i` may be taken: exclusively if nobody holds it, shared if nobody holds it exclusively. -/
def Free (W : World op σ ρ) (i : Nat) : Mode → Prop
  | .excl => ∀ t, W.hold i t = none
  | .shared => ∀ t, W.hold i t ≠ some .excl

/-- When all locks of a list may be taken together: they are free and all different. -/
def CanLock (W : World op σ ρ) (ls : List (Nat × Mode)) : Prop := (ls.map Prod.fst).Nodup ∧ ∀ l ∈ ls, Free W l.1 l.2

/-- Who holds what after thread `t` has taken the locks. -/
def grant (hold : Nat → Nat → Option Mode) (t : Nat) : List (Nat × Mode) → Nat → Nat → Option Mode
  | [] => hold
  | (i, m) :: ls => grant (upd hold i (upd (hold i) t (some m))) t ls

/-- One step of one thread, with the event seen by an observer. Blocked threads have no step. -/
inductive Step (code : op → Code σ ρ) : World op σ ρ → Option (Event op ρ) → World op σ ρ → Prop
  | call {W : World op σ ρ} {t o} : W.th t = .idle →
      Step code W (some (.inv t o)) { W with th := upd W.th t (.run o (code o)) }
  | act {W : World op σ ρ} {t o w k} : W.th t = .run o (.act w k) →
      Step code W none { W with obj := w W.obj, th := upd W.th t (.run o (k W.obj)) }
  | lock {W : World op σ ρ} {t o ls k} : W.th t = .run o (.lock ls k) → CanLock W ls →
      Step code W none { W with hold := grant W.hold t ls, th := upd W.th t (.run o k) }
  | unlock {W : World op σ ρ} {t o i m k} : W.th t = .run o (.unlock i m k) → W.hold i t = some m →
      Step code W none { W with hold := upd W.hold i (upd (W.hold i) t none), th := upd W.th t (.run o k) }
  /-- releasing a lock that is not held in that mode is undefined -/
  | unlockBad {W : World op σ ρ} {t o i m k} : W.th t = .run o (.unlock i m k) → W.hold i t ≠ some m →
      Step code W none { W with th := upd W.th t (.run o .ub) }
  | ret {W : World op σ ρ} {t o r} : W.th t = .run o (.ret r) →
      Step code W (some (.ret t r)) { W with th := upd W.th t .idle }

/-- Thread `t` waits for locks that it cannot get. -/
def Blocked (W : World op σ ρ) (t : Nat) : Prop := ∃ o ls k, W.th t = .run o (.lock ls k) ∧ ¬ CanLock W ls

/-- An execution with its observable history. -/
inductive Exec (code : op → Code σ ρ) : World op σ ρ → List (Event op ρ) → World op σ ρ → Prop
  | refl {W} : Exec code W [] W
  | tail {W W' W'' H e} : Exec code W H W' → Step code W' e W'' → Exec code W (H ++ e.toList) W''

/-- Nobody is in a call, no lock is held. -/
def start (obj : Nat → σ) : World op σ ρ where
  obj := obj
  hold := fun _ _ => none
  th := fun _ => .idle

/-- Some thread is in a call, and every thread that is waits for locks it cannot get: nobody will ever move again. -/
def Deadlock (W : World op σ ρ) : Prop := (∃ t, W.th t ≠ .idle) ∧ ∀ t, W.th t ≠ .idle → Blocked W t

/-! ## Code without lock operations -/

/-- Running code that uses no locks, alone. -/
def Code.solo : Code σ ρ → (Nat → σ) → Res ((Nat → σ) × ρ)
  | .ret r, f => .ok (f, r)
  | .ub, _ => .ub
  | .act w k, f => (k f).solo (w f)
  | .lock .., _ => .ub
  | .unlock .., _ => .ub

/-- The code takes no locks, looks only at the objects of these locks and writes only those locked exclusively. -/
def Code.Body (ls : List (Nat × Mode)) : Code σ ρ → Prop
  | .ret _ => True
  | .ub => True
  | .act w k => (∀ f j, (j, Mode.excl) ∉ ls → w f j = f j) ∧
      (∀ f g, (∀ j ∈ ls.map Prod.fst, f j = g j) → k f = k g ∧ ∀ j ∈ ls.map Prod.fst, w f j = w g j) ∧ ∀ f, (k f).Body ls
  | .lock .. => False
  | .unlock .. => False

/-- One program after another. -/
def Code.bind {ρ' : Type} : Code σ ρ → (ρ → Code σ ρ') → Code σ ρ'
  | .ret r, f => f r
  | .ub, _ => .ub
  | .act w k, f => .act w (fun s => (k s).bind f)
  | .lock ls k, f => .lock ls (k.bind f)
  | .unlock i m k, f => .unlock i m (k.bind f)

/-- Take groups of locks, one group after the other. -/
def Code.locks : List (List (Nat × Mode)) → Code σ ρ → Code σ ρ
  | [], c => c
  | g :: gs, c => .lock g (Code.locks gs c)

/-- Release locks one after the other. -/
def Code.unlocks : List (Nat × Mode) → Code σ ρ → Code σ ρ
  | [], c => c
  | (i, m) :: ls, c => .unlock i m (Code.unlocks ls c)

/-- A critical section: take the locks, run the body, release the locks. -/
def Code.sec {β : Type} (gs : List (List (Nat × Mode))) (rel : List (Nat × Mode)) (b : Code σ β) (k : β → Code σ ρ) :
    Code σ ρ :=
  .locks gs (b.bind (fun x => .unlocks rel (k x)))

end Gtl.Conc.Multi
