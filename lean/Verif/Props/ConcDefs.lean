import Verif.Conc.Container
/-!
# Vocabulary of the properties of concurrent use
-/

namespace Gtl.Conc

open Gtl.Swiss Gtl.Parallel
open Gtl.Spec (Op POp Resp Event)

variable {α κ : Type}

/-- The specification as a relation. -/
def sem (P : PCfg α κ) {Q : POp α κ → Prop} (l : List α) (o : { o : POp α κ // Q o }) (l' : List α) (r : Resp α) : Prop :=
  (l', r) = Spec.pstep P.C.key P.C.eqv l o.1

/-- What holds for `erase` with a shared mutex: a call that finds nothing to erase may still claim that it erased. -/
def semWeak (P : PCfg α κ) {Q : POp α κ → Prop} (l : List α) (o : { o : POp α κ // Q o }) (l' : List α) (r : Resp α) : Prop :=
  sem P l o l' r ∨ ∃ k pr rep, eraseArgs o.1 = some (k, pr, rep) ∧ Spec.lookup P.C.key P.C.eqv l k = none ∧ l' = l ∧ r = rep 1

/-- The calls that have returned, each with its answer; `pend t` is the call thread `t` is in. -/
def answers {op ρ : Type} (pend : Nat → Option op) : List (Event op ρ) → List (op × ρ)
  | [] => []
  | .inv t o :: es => answers (upd pend t (some o)) es
  | .ret t r :: es => match pend t with
    | some o => (o, r) :: answers (upd pend t none) es
    | none => answers pend es

/-- The answer says that an element was added. -/
def saysAdded : POp α κ → Resp α → Bool
  | .base (.insert _), .ins _ b => b
  | .base (.insertOrAssign _ _), .ins _ b => b
  | .base (.insertNode _), .node _ b _ => b
  | .emplaceL _ _, .ins _ b => b
  | _, _ => false

/-- The answer says that an element was removed. -/
def saysErased : POp α κ → Resp α → Bool
  | .base (.erase _), .nat n => n != 0
  | .eraseIfKey _ _, .bool b => b
  | _, _ => false

/-- Number of calls in a history that returned with such an answer. -/
def reports {Q : POp α κ → Prop} (says : POp α κ → Resp α → Bool) (H : List (Event { o // Q o } (Resp α))) : Nat :=
  (answers (fun _ => none) H).countP fun x => says x.1.1 x.2

end Gtl.Conc
