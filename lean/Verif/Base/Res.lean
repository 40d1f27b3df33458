/-!
# Outcomes of modelled C++ code

`Res α` is the result of running a piece of modelled C++ code.

* `ok a`  - the code finished with value `a`;
* `ub`    - the code performed an access outside its allocation, read raw storage, constructed over a live
            object, or otherwise ran into undefined behaviour;
* `hang`  - the code did not finish within the given number of loop iterations.
-/

namespace Gtl

/-- How a piece of modelled code ends (see above). -/
inductive Res (α : Type) where
  | ok (a : α)
  | ub
  | hang
  deriving Repr, DecidableEq

namespace Res

variable {α β : Type}

/-- One piece of code after another. -/
@[inline] def bind (x : Res α) (f : α → Res β) : Res β :=
  match x with
  | ok a => f a
  | ub => ub
  | hang => hang

instance : Monad Res where
  pure := ok
  bind := bind

instance : LawfulMonad Res := LawfulMonad.mk' Res
  (id_map := fun x => by cases x <;> rfl)
  (pure_bind := fun _ _ => rfl)
  (bind_assoc := fun x _ _ => by cases x <;> rfl)

@[simp] theorem ok_bind (a : α) (f : α → Res β) : (Res.ok a >>= f) = f a := rfl
@[simp] theorem ub_bind (f : α → Res β) : ((Res.ub : Res α) >>= f) = Res.ub := rfl
@[simp] theorem hang_bind (f : α → Res β) : ((Res.hang : Res α) >>= f) = Res.hang := rfl
@[simp] theorem pure_eq (a : α) : (pure a : Res α) = Res.ok a := rfl

theorem bind_eq_ok {x : Res α} {f : α → Res β} {b : β} :
    (x >>= f) = Res.ok b ↔ ∃ a, x = Res.ok a ∧ f a = Res.ok b := by
  cases x <;> simp

/-- `guardUb c` continues when `c` holds and is undefined behaviour otherwise. -/
def guardUb (c : Bool) : Res Unit := if c then ok () else ub

@[simp] theorem guardUb_true : guardUb true = Res.ok () := rfl
@[simp] theorem guardUb_false : guardUb false = Res.ub := rfl

theorem guardUb_of {c : Bool} (h : c = true) : guardUb c = Res.ok () := by simp [h]

/-- Lift an `Option` (a failed bounds check) to a result. -/
def ofOption (o : Option α) : Res α :=
  match o with
  | some a => ok a
  | none => ub

@[simp] theorem ofOption_some (a : α) : ofOption (some a) = Res.ok a := rfl
@[simp] theorem ofOption_none : ofOption (none : Option α) = Res.ub := rfl

end Res
end Gtl
