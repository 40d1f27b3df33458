import Verif.Spec.Parallel
/-!
# Specification: containers with hash function objects of their own

Several containers of one type may hold different hash function objects, for example with different seeds. The answers of a
container do not depend on its hash function; what a user may ask is which function it has. `can s` says whether the object in
state `s` can be called: a `std::function` that holds nothing cannot, calling it throws. What happens to a function object
that is moved from is up to its type: `moved` for `c_i = std::move(c_j)`, `left` for a construction from `std::move(c_j)`.

Users expect that a container that was moved from is empty and keeps its function (`moved s = s` and `left s = s`).
-/

namespace Gtl.Spec

variable {α κ S ο : Type}

/-- Calls on a family of containers; `ο` are the calls on one container. -/
inductive FOp (S ο : Type) where
  | on (i : Nat) (op : ο)
  /-- `c_i = Container(n, s)` -/
  | create (i : Nat) (s : S) (n : Nat)
  /-- `c_i = c_j` -/
  | copy (i j : Nat)
  /-- `c_i = Container(std::move(c_j))` -/
  | take (i j : Nat)
  /-- `c_i = std::move(c_j)` -/
  | move (i j : Nat)
  | swap (i j : Nat)
  /-- `c_i.merge(c_j)` -/
  | merge (i j : Nat)
  /-- `c_i == c_j` -/
  | equal (i j : Nat)
  /-- `c_i.hash_function()` -/
  | fn (i : Nat)

/-- An answer, a function object, or an exception. -/
inductive FResp (S α : Type) where
  | got (r : Resp α)
  | fn (s : S)
  | threw
  deriving DecidableEq

/-- Calls that look for a key, whatever is in the container. -/
def Op.needsHash : Op α κ → Bool
  | .eraseIf _ => false
  | .insertNode none => false
  | .size => false
  | .clear => false
  | .reserve _ => false
  | .rehash _ => false
  | .insertRange vs => !vs.isEmpty
  | _ => true

/-- The same for the calls of the parallel containers. -/
def POp.needsHash : POp α κ → Bool
  | .base op => op.needsHash
  | .forEachM _ => false
  | _ => true

/-- What one container is asked. -/
structure Calls (α ο : Type) where
  step : List α → ο → List α × Resp α
  needsHash : ο → Bool

/-- The calls of the ordinary containers. -/
def calls (key : α → κ) (eqv : κ → κ → Bool) : Calls α (Op α κ) := ⟨Spec.step key eqv, Op.needsHash⟩

/-- The calls of the parallel containers. -/
def pcalls (key : α → κ) (eqv : κ → κ → Bool) : Calls α (POp α κ) := ⟨Spec.pstep key eqv, POp.needsHash⟩

section
variable (key : α → κ) (eqv : κ → κ → Bool) (I : Calls α ο) (can : S → Bool) (moved left : S → S)

/-- One call: the state of a container is its function object and its elements. -/
def fwstep [BEq α] (w : Nat → S × List α) : FOp S ο → (Nat → S × List α) × FResp S α
  | .on i op =>
    if can (w i).1 || !I.needsHash op then
      (put w i ((w i).1, (I.step (w i).2 op).1), .got (I.step (w i).2 op).2)
    else (w, .threw)
  | .create i s _ => (put w i (s, []), .got .unit)
  | .copy i j => (put w i (w j), .got .unit)
  | .take i j => (put (put w j (left (w j).1, [])) i (w j), .got .unit)
  | .move i j => (put (put w j (moved (w j).1, [])) i (w j), .got .unit)
  | .swap i j => (put (put w i (w j)) j (w i), .got .unit)
  | .merge i j =>
    if can (w i).1 || (w j).2.isEmpty then
      (put (put w i ((w i).1, (w i).2 ++ (w j).2.filter (fun a => !(w i).2.any (fun b => eqv (key b) (key a)))))
        j ((w j).1, (w j).2.filter (fun a => (w i).2.any (fun b => eqv (key b) (key a)))), .got .unit)
    else (w, .threw)
  | .equal i j => (w, .got (.bool ((w i).2.isPerm (w j).2)))
  | .fn i => (w, .fn (w i).1)

/-- A history. -/
def fwrun [BEq α] (w : Nat → S × List α) : List (FOp S ο) → (Nat → S × List α) × List (FResp S α)
  | [] => (w, [])
  | op :: ops =>
    let r := fwstep key eqv I can moved left w op
    let s := fwrun r.1 ops
    (s.1, r.2 :: s.2)

/-- Preconditions. `ok` are those of the calls on one container; `locks` says whether containers have mutexes, so that they must
not be swapped or compared with themselves. -/
def FOp.Valid (ok : ο → Prop) (locks : Bool) : FOp S ο → Prop
  | .on _ op => ok op
  | .merge i j => i ≠ j
  | .swap i j => i = j → locks = false
  | .equal i j => i = j → locks = false
  | _ => True

/-- Containers are merged and compared only if `same` holds of their function objects. -/
def FOp.Alike (same : S → S → Prop) (w : Nat → S × List α) : FOp S ο → Prop
  | .merge i j => same (w i).1 (w j).1
  | .equal i j => same (w i).1 (w j).1
  | _ => True

/-- The same for every call of a history. -/
def Alike [BEq α] (same : S → S → Prop) (w : Nat → S × List α) : List (FOp S ο) → Prop
  | [] => True
  | op :: ops =>
    op.Alike same w ∧ Alike same (fwstep key eqv I can moved left w op).1 ops

end
end Gtl.Spec
