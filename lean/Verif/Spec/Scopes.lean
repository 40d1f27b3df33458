import Verif.Utils.Scoped
/-!
# Specification: notions used to state what scoped objects do
-/

namespace Gtl.Scoped

variable {α : Type}

/-- The program does not dismiss objects named `n`. -/
def Keeps (n : Nat) : Prog α → Prop
  | .done => True
  | .act _ k => Keeps n k
  | .guard _ _ _ k => Keeps n k
  | .setUnset _ _ _ _ k => Keeps n k
  | .setValue _ _ _ _ k => Keeps n k
  | .dismiss m k => m ≠ n ∧ Keeps n k
  | .ite _ p q => Keeps n p ∧ Keeps n q
  | .block _ b k => Keeps n b ∧ Keeps n k

/-- The program declares no object named `n`. -/
def Undeclared (n : Nat) : Prog α → Prop
  | .done => True
  | .act _ k => Undeclared n k
  | .guard m _ _ k => m ≠ n ∧ Undeclared n k
  | .setUnset m _ _ _ k => m ≠ n ∧ Undeclared n k
  | .setValue m _ _ _ k => m ≠ n ∧ Undeclared n k
  | .dismiss _ k => Undeclared n k
  | .ite _ p q => Undeclared n p ∧ Undeclared n q
  | .block _ b k => Undeclared n b ∧ Undeclared n k

/-- One program after another. -/
def Prog.seq : Prog α → Prog α → Prog α
  | .done, q => q
  | .act f k, q => .act f (k.seq q)
  | .guard n f d k, q => .guard n f d (k.seq q)
  | .setUnset n a b d k, q => .setUnset n a b d (k.seq q)
  | .setValue n x v d k, q => .setValue n x v d (k.seq q)
  | .dismiss n k, q => .dismiss n (k.seq q)
  | .ite c p1 p2, q => .ite c (p1.seq q) (p2.seq q)
  | .block c b k, q => .block c b (k.seq q)

/-- Running a block. -/
def scope (moved : α → α) (p : Prog α) (st : List (Obj α)) (s : State α) : Out α := leave st.length (exec moved p st s)

end Gtl.Scoped
