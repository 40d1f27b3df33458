import Verif.Spec.Throws
/-!
# Specification: a container whose hash function throws

What a user would like is that a call that throws leaves the container as it was. The relation below says what is granted
instead: a call may lose elements, but only a call that has to rearrange the container, and never does an element appear,
change or come twice. `size()` goes on counting the elements that were lost; `e` is their number.
-/

namespace Gtl.Spec

variable {α κ : Type}

/-- Calls that call the hash function. -/
def Op.Hashes : Op α κ → Prop
  | .eraseIf _ => False
  | .insertNode none => False
  | .size => False
  | .clear => False
  | _ => True

/-- Calls that may rearrange the container: they add elements or change the number of buckets. -/
def Op.Rearranges : Op α κ → Prop
  | .insert _ => True
  | .insertOrAssign _ _ => True
  | .subscript _ _ => True
  | .insertNode _ => True
  | .toggle _ => True
  | .insertRange _ => True
  | .reserve _ => True
  | .rehash _ => True
  | _ => False

/-- Calls that are given one key, or one element. -/
def Op.OneKey : Op α κ → Prop
  | .insertRange _ => False
  | .reserve _ => False
  | .rehash _ => False
  | op => op.Hashes

section
variable (key : α → κ) (eqv : κ → κ → Bool)

/-- The contents when a call is interrupted: an insertion of a range may have done a part of its work. -/
def partway (l : List α) : Op α κ → Nat → List α
  | .insertRange vs, i => (vs.take i).foldl (insert key eqv) l
  | _, _ => l

/-- One call on the contents `l`, in which the hash function may be called `k` times without throwing: the answer, the contents
and the number of lost elements. -/
inductive HStep (op : Op α κ) (k : Nat) (l : List α) (e : Nat) : TResp α → List α → Nat → Prop where
  /-- It returns, with the answer and the contents one expects; only `size()` is off. -/
  | returned : HStep op k l e (offBy e (.call op) (.got (step key eqv l op).2)) (step key eqv l op).1
      (excessAfter key eqv l e (.call op))
  /-- It throws. -/
  | threw (i : Nat) (kept lost : List α) : op.Hashes → (kept ++ lost).Perm (partway key eqv l op i) →
      (¬ op.Rearranges → lost = []) → (op.OneKey → k = 0 → lost = []) → HStep op k l e .threw kept (e + lost.length)

/-- A history. -/
inductive HRun : List α → Nat → List (Op α κ × Nat) → List (TResp α) → List α → Nat → Prop where
  | nil (l : List α) (e : Nat) : HRun l e [] [] l e
  | cons {op : Op α κ} {k e e1 e2 : Nat} {l l1 l2 : List α} {ops : List (Op α κ × Nat)} {r : TResp α} {rs : List (TResp α)} :
      HStep key eqv op k l e r l1 e1 → HRun l1 e1 ops rs l2 e2 → HRun l e ((op, k) :: ops) (r :: rs) l2 e2

end
end Gtl.Spec
