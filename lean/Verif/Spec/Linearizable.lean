/-!
# Specification: linearizability

A concurrent history is a list of invocations and responses.  It is linearizable when every call can be given one
instant between its invocation and its response at which it takes effect, so that the calls, in the order of these
instants, form a legal sequential history.
-/

namespace Gtl.Spec

variable {op ρ S : Type}

/-- What an observer sees: thread `t` calls `o`; thread `t` gets the answer `r`. -/
inductive Event (op ρ : Type) where
  | inv (t : Nat) (o : op)
  | ret (t : Nat) (r : ρ)
  deriving DecidableEq

/-- The same with the instants at which calls take effect. -/
inductive LEvent (op ρ : Type) where
  | inv (t : Nat) (o : op)
  | lin (t : Nat) (o : op) (r : ρ)
  | ret (t : Nat) (r : ρ)

namespace LEvent

def tid : LEvent op ρ → Nat
  | inv t _ => t
  | lin t _ _ => t
  | ret t _ => t

/-- The observable part. -/
def vis : LEvent op ρ → Option (Event op ρ)
  | inv t o => some (.inv t o)
  | lin _ _ _ => none
  | ret t r => some (.ret t r)

/-- The sequential part. -/
def eff : LEvent op ρ → Option (op × ρ)
  | lin _ o r => some (o, r)
  | _ => none

end LEvent

/-- Where a thread is: outside, in a call that has not taken effect, in a call that has taken effect and will answer
`r`. -/
inductive Phase (op ρ : Type) where
  | idle
  | pending (o : op)
  | done (o : op) (r : ρ)

/-- A thread goes through invocation, effect, response, in this order, for one and the same call and answer. -/
inductive Phase.Next : Phase op ρ → LEvent op ρ → Phase op ρ → Prop
  | inv {t o} : Next .idle (.inv t o) (.pending o)
  | lin {t o r} : Next (.pending o) (.lin t o r) (.done o r)
  | ret {t o r} : Next (.done o r) (.ret t r) .idle

/-- The events of one thread lead from one phase to another. -/
inductive Phase.Path : Phase op ρ → List (LEvent op ρ) → Phase op ρ → Prop
  | nil {p} : Path p [] p
  | cons {p q r e es} : Next p e q → Path q es r → Path p (e :: es) r

/-- `sem s o s' r`: executed alone in state `s`, call `o` may answer `r` and leave state `s'`. -/
inductive Legal (sem : S → op → S → ρ → Prop) : S → List (op × ρ) → S → Prop
  | nil {s} : Legal sem s [] s
  | cons {s s' s'' o r es} : sem s o s' r → Legal sem s' es s'' → Legal sem s ((o, r) :: es) s''

/-- `E` explains the history `H` as a sequential one that leads from `s` to `s'`. -/
structure Explains (sem : S → op → S → ρ → Prop) (s : S) (H : List (Event op ρ)) (E : List (LEvent op ρ)) (s' : S) : Prop where
  vis : E.filterMap LEvent.vis = H
  legal : Legal sem s (E.filterMap LEvent.eff) s'
  threads : ∀ t, ∃ p, Phase.Path .idle (E.filter (fun e => e.tid == t)) p

def Linearizable (sem : S → op → S → ρ → Prop) (s : S) (H : List (Event op ρ)) : Prop := ∃ E s', Explains sem s H E s'

end Gtl.Spec
