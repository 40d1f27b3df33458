import Verif.Spec.Linearizable
/-!
# Specification: calls that take effect in several instants

Some calls are not atomic: they work through a container piece by piece. Such a call is described by the sequence of
its atomic steps, its *plan*. A concurrent history is explained stepwise when every step of every call can be given one
instant between the invocation and the response of the call, in the order of the plan, so that the steps of all calls,
in the order of these instants, form a legal sequential history. A plan with one step gives linearizability.
-/

namespace Gtl.Spec

variable {op st ρ' ρ S : Type}

/-- What a call does: answer `r`, or one atomic step `s` and then something that may depend on what the step answered. -/
inductive Plan (st ρ' ρ : Type) where
  | ret (r : ρ)
  | step (s : st) (k : ρ' → Plan st ρ' ρ)

/-- Invocations, atomic steps with their answers, responses. -/
inductive SEvent (op st ρ' ρ : Type) where
  | inv (t : Nat) (o : op)
  | eff (t : Nat) (s : st) (x : ρ')
  | ret (t : Nat) (r : ρ)

namespace SEvent

def tid : SEvent op st ρ' ρ → Nat
  | inv t _ => t
  | eff t _ _ => t
  | ret t _ => t

/-- The observable part. -/
def vis : SEvent op st ρ' ρ → Option (Event op ρ)
  | inv t o => some (.inv t o)
  | eff _ _ _ => none
  | ret t r => some (.ret t r)

/-- The sequential part. -/
def step : SEvent op st ρ' ρ → Option (st × ρ')
  | eff _ s x => some (s, x)
  | _ => none

end SEvent

/-- Where a thread is: outside, or in a call with this much left to do. -/
inductive SPhase (st ρ' ρ : Type) where
  | idle
  | left (p : Plan st ρ' ρ)

/-- A thread goes through its call's plan step by step. -/
inductive SPhase.Next (plan : op → Plan st ρ' ρ) : SPhase st ρ' ρ → SEvent op st ρ' ρ → SPhase st ρ' ρ → Prop
  | inv {t o} : Next plan .idle (.inv t o) (.left (plan o))
  | eff {t s k x} : Next plan (.left (.step s k)) (.eff t s x) (.left (k x))
  | ret {t r} : Next plan (.left (.ret r)) (.ret t r) .idle

/-- The events of one thread lead from one phase to another. -/
inductive SPhase.Path (plan : op → Plan st ρ' ρ) : SPhase st ρ' ρ → List (SEvent op st ρ' ρ) → SPhase st ρ' ρ → Prop
  | nil {p} : Path plan p [] p
  | cons {p q r e es} : Next plan p e q → Path plan q es r → Path plan p (e :: es) r

/-- `E` explains the history `H` by atomic steps that lead from `s` to `s'`. -/
structure Stepwise (plan : op → Plan st ρ' ρ) (sem : S → st → S → ρ' → Prop) (s : S) (H : List (Event op ρ))
    (E : List (SEvent op st ρ' ρ)) (s' : S) : Prop where
  vis : E.filterMap SEvent.vis = H
  legal : Legal sem s (E.filterMap SEvent.step) s'
  threads : ∀ t, ∃ p, SPhase.Path plan .idle (E.filter (fun e => e.tid == t)) p

end Gtl.Spec
