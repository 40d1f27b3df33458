import Verif.Spec.Seq
/-
Sequences whose storage changes hands: a held buffer is a sequence that is not a container. Nothing here mentions memory.
-/
namespace Gtl.Spec.Handover
open Gtl.Spec.Seq
variable {α : Type}

/-- The vectors whose elements an argument refers to. -/
def _root_.Gtl.Spec.Seq.Arg.names : Arg α → List Nat
  | .ext _ => []
  | .elem j _ => [j]

/-- All vectors an operation mentions. -/
def _root_.Gtl.Spec.Seq.Op.names : Op α → List Nat
  | .create i | .createSized i _ | .drop i | .popBack i | .clear i | .reserve i _ | .shrinkToFit i | .resize i _
  | .erase i _ _ | .eraseIf i _ | .size i | .index i _ | .at_ i _ | .front i | .back i => [i]
  | .createFill i _ x | .pushBack i x | .resizeWith i _ x | .assignFill i _ x | .insert i _ x | .emplace i _ x
  | .insertFill i _ _ x | .write i _ x => i :: x.names
  | .createRange i xs _ | .assignRange i xs _ | .insertRange i _ xs _ => i :: xs.flatMap Arg.names
  | .createCopy i j | .createMove i j | .copyAssign i j | .moveAssign i j | .swap i j | .equal i j _ | .less i j _ => [i, j]

/-- Calls: those of the container; taking its buffer away and giving it to the user under the name `h`; giving the buffer
`h` of size `n` and capacity `cap` to container `i`, or to a new container `i`; freeing the buffer; and changing the size and
then giving back memory that is not needed. -/
inductive HOp (α : Type) where
  | base (op : Op α)
  | relinquish (i h : Nat)
  | attach (i h n cap : Nat)
  | adopt (i h n cap : Nat)
  | free (h : Nat)
  | compact (i n : Nat)

/-- The elements of all containers and of all buffers the user holds, after a call that ends normally, and what it
returns. `none`: the caller must not do this. -/
def effect (dflt : α) (σ : Env α) : HOp α → Option (Env α × Ans α)
  | .base op => Seq.effect dflt σ op
  | .relinquish i h => match σ i, σ h with
    | some l, none => some (put (put σ h (some l)) i (some []), .unit)
    | _, _ => none
  | .attach i h n _ => match σ i, σ h with
    | some [], some l => if l.length = n then some (put (put σ i (some l)) h none, .unit) else none
    | _, _ => none
  | .adopt i h n _ => match σ i, σ h with
    | none, some l => if l.length = n then some (put (put σ i (some l)) h none, .unit) else none
    | _, _ => none
  | .free h => (σ h).map fun _ => (put σ h none, .unit)
  | .compact i n => Seq.effect dflt σ (.resize i n)

/-- Which names are buffers the user holds, afterwards. -/
def held (loose : Nat → Bool) : HOp α → Nat → Bool
  | .relinquish _ h, k => k == h || loose k
  | .attach _ h _ _, k | .adopt _ h _ _, k | .free h, k => k != h && loose k
  | .base _, k | .compact _ _, k => loose k

end Gtl.Spec.Handover
