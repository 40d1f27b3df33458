import Verif.Spec.SortedSeq
/-
What the calls of an ordered container promise when the allocator may fail.
-/
namespace Gtl.Spec.SortedSeq
variable {α κ : Type}

/-- The calls that take elements out one by one. -/
def Op.erases : Op α κ → Bool
  | .eraseAt _ | .eraseRange _ _ | .eraseKey _ | .extractAt _ | .extractKey _ | .eraseIf _ => true
  | _ => false

/-- How a call ends: it returns, or it is left by the exception of the allocator. -/
inductive Out (α : Type) where
  | ok (r : Res α)
  | badAlloc

/-- A call during which the first `room` allocations succeed and the next one fails. -/
structure Call (α κ : Type) where
  op : Op α κ
  room : Nat

/-- A call that returns does what it does otherwise. Only insertions are left by an exception: the container
holds what it held before, and if it is without duplicates the key of the new element was not there; of a range
the elements before some place have been inserted. -/
def StepA (multi : Bool) (key : α → κ) (lt : κ → κ → Bool) (l : List α) (op : Op α κ) : Out α → List α → Prop
  | .ok r, l' => Step multi key lt l op r l'
  | .badAlloc, l' =>
    match op with
    | .insert v | .insertHint _ v => (multi = false → l.any (same key lt (key v)) = false) ∧ l' = l
    | .insertAll vs => ∃ n, n < vs.length ∧ Step multi key lt l (.insertAll (vs.take n)) .done l'
    | _ => False

/-- Whether, after the call, an insertion has failed that had allocated already, with no clear() since. -/
def midway (d : Bool) (call : Call α κ) : Out α → Bool
  | .badAlloc => d || call.room != 0
  | .ok _ => match call.op with
    | .clear => false
    | _ => d

/-- A caller: given how its calls ended so far, the last one first, the next call it makes. -/
def Caller (α κ : Type) := List (Out α) → Option (Call α κ)

/-- What the caller may see, the contents then, and whether an insertion has failed midway. -/
inductive Sees (multi : Bool) (key : α → κ) (lt : κ → κ → Bool) (who : Caller α κ) : List (Out α) → List α → Bool → Prop
  | start : Sees multi key lt who [] [] false
  | call {outs l d call out l'} : Sees multi key lt who outs l d → who outs = some call →
      StepA multi key lt l call.op out l' → Sees multi key lt who (out :: outs) l' (midway d call out)

/-- Whatever the caller sees, it never makes a call that is not allowed, and takes no elements out once an insertion
has failed midway, before clear(). -/
def Caller.Safe (multi : Bool) (key : α → κ) (lt : κ → κ → Bool) (who : Caller α κ) : Prop :=
  ∀ outs l d call, Sees multi key lt who outs l d → who outs = some call →
    Ok key l call.op ∧ (d = true → call.op.erases = false)

end Gtl.Spec.SortedSeq
