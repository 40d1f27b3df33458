import Verif.Spec.Seq
/-
What growing a sequence one piece at a time should cost.
-/
namespace Gtl.Spec.Seq

variable {α : Type}

/-- The number of elements an operation adds to container `i`. -/
def Op.adds (i : Nat) : Op α → Nat
  | .pushBack j _ | .insert j _ _ | .emplace j _ _ => if j = i then 1 else 0
  | .insertFill j _ n _ => if j = i then n else 0
  | .insertRange j _ xs _ => if j = i then xs.length else 0
  | _ => 0

def totalAdds (i : Nat) (ops : List (Op α)) : Nat := (ops.map (Op.adds i)).sum

/-- The operations that change the size of container `i` by inserting or erasing some elements, those
that only look at it or assign to its elements, and everything done to other containers (but not the
exchange of two containers). Not: `resize`, `assign`, `reserve` and `shrink_to_fit`, and insertion of
a range that can be read only once. -/
def Op.gradual (i : Nat) : Op α → Bool
  | .swap _ _ | .moveAssign _ _ | .createMove _ _ => false
  | .pushBack _ _ | .popBack _ | .insert _ _ _ | .emplace _ _ _ | .insertFill _ _ _ _ | .erase _ _ _ | .eraseIf _ _ | .clear _
  | .write _ _ _ | .size _ | .index _ _ | .at_ _ _ | .front _ | .back _ | .equal _ _ _ | .less _ _ _ => true
  | .insertRange j _ _ input => j != i || !input
  | .create j | .createSized j _ | .createFill j _ _ | .createRange j _ _ | .createCopy j _ | .drop j | .copyAssign j _
  | .reserve j _ | .shrinkToFit j | .resize j _ | .resizeWith j _ _ | .assignFill j _ _ | .assignRange j _ _ => j != i

end Gtl.Spec.Seq
