import Verif.Spec.ParStay
import Verif.Spec.Room
/-!
# Specification: how much room a history on containers made of parts asks for

A container is made of `subs` parts; `part a` is the part an element belongs to. Nothing is known about hash tables.
-/

namespace Gtl.Spec

variable {α κ : Type}

/-- The calls that put at most one new element in. -/
def PInsertsOne : POp α κ → Prop
  | .base op => InsertsOne op
  | .emplaceL _ _ => True
  | _ => False

/-- The calls that put nothing in and do not ask for room. -/
def PPutsNothing : POp α κ → Prop
  | .base op => PutsNothing op
  | .ifContains _ => True
  | .modifyIf _ _ => True
  | .eraseIfKey _ _ => True
  | .forEachM _ => True
  | .emplaceL _ _ => False

/-- The room a call asks for in each of the `subs` parts: its share of the whole, rounded up and at
least one for `reserve`; a constructor with a number of buckets asks for that number in every part. -/
def paskedEach (subs : Nat) : PWOp α κ → Nat
  | .on _ (.base (.reserve n)) => max 1 ((n + (subs - 1)) / subs)
  | .on _ (.base (.rehash n)) => n / subs
  | .create _ n => n
  | _ => 0

/-- Throughout the history no part of a container ever holds more than `P` elements, and no call asks for room for
more than `P` in a part. -/
def PWithin [BEq α] (key : α → κ) (eqv : κ → κ → Bool) (part : α → Nat) (subs P : Nat) :
    (Nat → List α) → List (PWOp α κ) → Prop
  | w, [] => ∀ i j, (w i).countP (fun a => part a == j) ≤ P
  | w, op :: ops => (∀ i j, (w i).countP (fun a => part a == j) ≤ P) ∧ paskedEach subs op ≤ P ∧
      PWithin key eqv part subs P (pwstep key eqv w op).1 ops

end Gtl.Spec
