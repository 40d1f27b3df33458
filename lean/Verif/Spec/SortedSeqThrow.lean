import Verif.Spec.SortedSeq
/-
What sorted containers are when the comparison of keys throws in some calls.
-/
namespace Gtl.Spec.SortedSeq
variable {α κ : Type}

/-- What the caller gets from a call. -/
inductive Outcome (α : Type) where
  | got (r : Res α)
  | threw

/-- The calls that look for a key. -/
def Op.Looks : Op α κ → Prop
  | .insert _ | .insertHint _ _ | .insertAll _ | .eraseKey _ | .extractKey _ | .find _ | .contains _ | .count _
  | .lowerBound _ | .upperBound _ | .equalRange _ => True
  | _ => False

/-- What a call leaves when the comparison throws in it: everything as it was, except that an insertion of a
range has inserted a beginning of it, and a merge has treated a beginning of the source. In a container with
duplicates, `moved v` is what is left of an element `v` that was moved away. -/
def WThrow (multi : Bool) (key : α → κ) (lt : κ → κ → Bool) (moved : α → α) (w : List (List α)) :
    WOp α κ → List (List α) → Prop
  | .on i (.insertAll vs), w' => ∃ l n, w[i]? = some l ∧ n < vs.length ∧ w' = w.set i
    ((vs.take n).foldl (fun l v => if multi then (addMulti key lt l v).2 else (addUnique key lt l v).2.2) l)
  | .on _ op, w' => op.Looks ∧ w' = w
  | .merge i j, w' => ∃ l l' n, w[i]? = some l ∧ w[j]? = some l' ∧ n < l'.length ∧
    w' = if multi then (w.set i ((l'.take n).foldl (fun l v => (addMulti key lt l v).2) l)).set j ((l'.take n).map moved ++ l'.drop n)
      else (w.set i (mergeInto key lt l (l'.take n)).1).set j ((mergeInto key lt l (l'.take n)).2 ++ l'.drop n)
  | _, _ => False

/-- One call: it returns and does what it is for, or it throws. -/
inductive WStepT (multi : Bool) (key : α → κ) (lt : κ → κ → Bool) (eq less : α → α → Bool) (moved : α → α) (w : List (List α))
    (op : WOp α κ) : Outcome α → List (List α) → Prop
  | returned {r w'} : WStep multi key lt eq less w op r w' → WStepT multi key lt eq less moved w op (.got r) w'
  | threw {w'} : WThrow multi key lt moved w op w' → WStepT multi key lt eq less moved w op .threw w'

/-- A sequence of calls. -/
inductive WRunT (multi : Bool) (key : α → κ) (lt : κ → κ → Bool) (eq less : α → α → Bool) (moved : α → α) :
    List (List α) → List (WOp α κ) → List (Outcome α) → List (List α) → Prop
  | nil {w} : WRunT multi key lt eq less moved w [] [] w
  | cons {w w' w'' op r ops rs} : WStepT multi key lt eq less moved w op r w' →
      WRunT multi key lt eq less moved w' ops rs w'' → WRunT multi key lt eq less moved w (op :: ops) (r :: rs) w''

/-- The caller never makes a call that is not allowed, whatever the answers and the exceptions. -/
def WSafeT (multi : Bool) (key : α → κ) (lt : κ → κ → Bool) (eq less : α → α → Bool) (moved : α → α) :
    List (List α) → List (WOp α κ) → Prop
  | _, [] => True
  | w, op :: ops => WOk key w op ∧
    ∀ r w', WStepT multi key lt eq less moved w op r w' → WSafeT multi key lt eq less moved w' ops

end Gtl.Spec.SortedSeq
