import Verif.Spec.Assoc
/-!
# Specification of the additional operations of the parallel containers

Same abstract container as in `Verif.Spec.Assoc`; only the operations that take callbacks are new.
-/

namespace Gtl.Spec

variable {α κ : Type}

inductive POp (α κ : Type) where
  /-- an operation shared with the ordinary containers -/
  | base (op : Op α κ)
  /-- `if_contains(k, f)`: the answer is the element `f` was called with -/
  | ifContains (k : κ)
  /-- `modify_if(k, f)`: the answer is the element `f` was called with (before the change) -/
  | modifyIf (k : κ) (f : α → α)
  /-- `erase_if(k, p)`: erase the element with key `k` if `p` says so -/
  | eraseIfKey (k : κ) (p : α → Bool)
  /-- `try_emplace_l(k, f, ..)` / `lazy_emplace_l(k, f, ..)`: change the element if there, otherwise add `a`. The
  answer is the element found (before the change) or created, and whether it was created. -/
  | emplaceL (a : α) (f : α → α)
  /-- `for_each_m(f)` -/
  | forEachM (f : α → α)

/-- Operations on a family of parallel containers. -/
inductive PWOp (α κ : Type) where
  | on (i : Nat) (op : POp α κ)
  | create (i n : Nat)
  | copy (i j : Nat)
  | move (i j : Nat)
  | swap (i j : Nat)
  | merge (i j : Nat)
  | equal (i j : Nat)

section
variable (key : α → κ) (eqv : κ → κ → Bool)

def pstep (l : List α) : POp α κ → List α × Resp α
  | .base op => step key eqv l op
  | .ifContains k => (l, .elem (lookup key eqv l k))
  | .modifyIf k f => (modify key eqv l k f, .elem (lookup key eqv l k))
  | .eraseIfKey k p => match lookup key eqv l k with
    | none => (l, .bool false)
    | some b => if p b then (erase key eqv l k, .bool true) else (l, .bool false)
  | .emplaceL a f => match lookup key eqv l (key a) with
    | some b => (modify key eqv l (key a) f, .ins b false)
    | none => (a :: l, .ins a true)
  | .forEachM f => (l.map f, .unit)

def pwstep [BEq α] (w : Nat → List α) : PWOp α κ → (Nat → List α) × Resp α
  | .on i op => let r := pstep key eqv (w i) op; (put w i r.1, r.2)
  | .create i n => wstep key eqv w (.create i n)
  | .copy i j => wstep key eqv w (.copy i j)
  | .move i j => wstep key eqv w (.move i j)
  | .swap i j => wstep key eqv w (.swap i j)
  | .merge i j => wstep key eqv w (.merge i j)
  | .equal i j => wstep key eqv w (.equal i j)

def pwrun [BEq α] (w : Nat → List α) : List (PWOp α κ) → (Nat → List α) × List (Resp α)
  | [] => (w, [])
  | op :: ops =>
    let r := pwstep key eqv w op
    let s := pwrun r.1 ops
    (s.1, r.2 :: s.2)

/-- Preconditions: element changes keep the key; `rehash(n)` is called with at least one bucket per submap (`subs`
submaps; see the refutation of the property for fewer). -/
def POp.Valid (subs : Nat) : POp α κ → Prop
  | .base (.insertOrAssign _ f) => ∀ b, key (f b) = key b
  | .base (.subscript _ f) => ∀ b, key (f b) = key b
  | .base (.rehash n) => subs ≤ n
  | .modifyIf _ f => ∀ b, key (f b) = key b
  | .emplaceL _ f => ∀ b, key (f b) = key b
  | .forEachM f => ∀ b, key (f b) = key b
  | _ => True

/-- Preconditions of the operations on several containers. `locks` says whether there are real mutexes: then a
container is not swapped or compared with itself (see the refutation). -/
def PWOp.Valid (subs : Nat) (locks : Bool) : PWOp α κ → Prop
  | .on _ op => POp.Valid key subs op
  | .merge i j => i ≠ j
  | .swap i j => i = j → locks = false
  | .equal i j => i = j → locks = false
  | _ => True

end
end Gtl.Spec
