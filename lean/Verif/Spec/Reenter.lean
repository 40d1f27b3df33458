import Verif.Spec.Parallel
/-!
# Specification: callbacks that call back into the container

A program of one thread on one parallel container. The callbacks it passes may make calls on the same container, whose
callbacks may do so again, to any depth. Everything may depend on all answers. The result is the container afterwards and
the answers in the order in which they come.
-/

namespace Gtl.Spec

variable {α κ : Type}

inductive Prog (α κ : Type) where
  | done
  /-- a call whose callbacks, if any, make no calls -/
  | call (op : POp α κ) (rest : Resp α → Prog α κ)
  /-- `modify_if(k, F)`, or `if_contains` with `f = id`: `F` changes the element by `f`, then makes calls -/
  | modifyIf (k : κ) (f : α → α) (inner : α → Prog α κ) (rest : Bool → Prog α κ)
  /-- `lazy_emplace_l(k, F, G)` or `try_emplace_l`: `F` changes the element that is there by `f` and makes calls; `G` only
  creates `a` -/
  | emplaceL (a : α) (f : α → α) (inner : α → Prog α κ) (rest : Bool → Prog α κ)
  /-- `erase_if(k, F)`: `F` makes calls and then answers `pr` of the element -/
  | eraseIf (k : κ) (pr : α → Bool) (inner : α → Prog α κ) (rest : Bool → Prog α κ)
  /-- `lazy_emplace_l(k, F, G)`: `G` makes calls and then creates `a`; `F` does nothing -/
  | create (a : α) (inner : Prog α κ) (rest : Bool → Prog α κ)

section
variable (key : α → κ) (eqv : κ → κ → Bool)

/-- What a user expects: the calls of a callback take place between the lookup and the end of the call that got it. -/
def nrun : Prog α κ → List α → List α × List (Resp α)
  | .done, l => (l, [])
  | .call op rest, l =>
    let s := pstep key eqv l op
    let q := nrun (rest s.2) s.1
    (q.1, s.2 :: q.2)
  | .modifyIf k f inner rest, l => match lookup key eqv l k with
    | none => let q := nrun (rest false) l; (q.1, .bool false :: q.2)
    | some b =>
      let s := nrun (inner b) (modify key eqv l k f)
      let q := nrun (rest true) s.1
      (q.1, s.2 ++ .bool true :: q.2)
  | .emplaceL a f inner rest, l => match lookup key eqv l (key a) with
    | none => let q := nrun (rest true) (a :: l); (q.1, .bool true :: q.2)
    | some b =>
      let s := nrun (inner b) (modify key eqv l (key a) f)
      let q := nrun (rest false) s.1
      (q.1, s.2 ++ .bool false :: q.2)
  | .eraseIf k pr inner rest, l => match lookup key eqv l k with
    | none => let q := nrun (rest false) l; (q.1, .bool false :: q.2)
    | some b =>
      let s := nrun (inner b) l
      let q := nrun (rest (pr b)) (if pr b then erase key eqv s.1 k else s.1)
      (q.1, s.2 ++ .bool (pr b) :: q.2)
  | .create a inner rest, l => match lookup key eqv l (key a) with
    | some _ => let q := nrun (rest false) l; (q.1, .bool false :: q.2)
    | none =>
      let s := nrun inner l
      let q := nrun (rest true) (a :: s.1)
      (q.1, s.2 ++ .bool true :: q.2)

/-- All calls meet their preconditions. -/
def Prog.Valid (subs : Nat) : Prog α κ → Prop
  | .done => True
  | .call op rest => op.Valid key subs ∧ ∀ r, (rest r).Valid subs
  | .modifyIf _ f inner rest => (∀ b, key (f b) = key b) ∧ (∀ b, (inner b).Valid subs) ∧ ∀ r, (rest r).Valid subs
  | .emplaceL _ f inner rest => (∀ b, key (f b) = key b) ∧ (∀ b, (inner b).Valid subs) ∧ ∀ r, (rest r).Valid subs
  | .eraseIf _ _ inner rest => (∀ b, (inner b).Valid subs) ∧ ∀ r, (rest r).Valid subs
  | .create _ inner rest => inner.Valid subs ∧ ∀ r, (rest r).Valid subs

end

/-! ## Which calls get in each other's way -/

/-- The submaps a call is about, `none` if it is about all. `sub` is the submap of a key. -/
def POp.reach (key : α → κ) (sub : κ → Nat) : POp α κ → Option (List Nat)
  | .base (.insert a) => some [sub (key a)]
  | .base (.insertOrAssign a _) => some [sub (key a)]
  | .base (.subscript a _) => some [sub (key a)]
  | .base (.at k) => some [sub k]
  | .base (.find k) => some [sub k]
  | .base (.contains k) => some [sub k]
  | .base (.count k) => some [sub k]
  | .base (.erase k) => some [sub k]
  | .base (.extract k) => some [sub k]
  | .base (.insertNode none) => some []
  | .base (.insertNode (some a)) => some [sub (key a)]
  | .base (.toggle a) => some [sub (key a)]
  | .base (.insertRange vs) => some (vs.map fun a => sub (key a))
  | .ifContains k => some [sub k]
  | .modifyIf k _ => some [sub k]
  | .eraseIfKey k _ => some [sub k]
  | .emplaceL a _ => some [sub (key a)]
  | _ => none

/-- `size()` and the free function `erase_if(c, pr)` take no lock. -/
def POp.lockless : POp α κ → Bool
  | .base .size => true
  | .base (.eraseIf _) => true
  | _ => false

/-- The call locks submap `i`. -/
def POp.Locks (key : α → κ) (sub : κ → Nat) (op : POp α κ) (i : Nat) : Prop :=
  match op.reach key sub with
  | some js => i ∈ js
  | none => op.lockless = false

/-- The call only looks. -/
def POp.looks : POp α κ → Bool
  | .base .size => true
  | .base (.at _) => true
  | .base (.find _) => true
  | .base (.contains _) => true
  | .base (.count _) => true
  | _ => false

/-- The call may look at submap `i`, or change it. -/
def POp.Touches (key : α → κ) (sub : κ → Nat) (op : POp α κ) (i : Nat) : Prop :=
  match op.reach key sub with
  | some js => i ∈ js
  | none => True

/-- Why a submap may not be used freely while a callback runs: its lock is held; or moreover the call has an iterator into
it (`erase_if`); or moreover a slot of it is prepared for a new element (`create`). -/
inductive Held where
  | locked
  | pinned
  | raw
  deriving DecidableEq

/-- The call does not get in the way of the calls around it. `real` says whether there are real mutexes. -/
def POp.Fits (key : α → κ) (sub : κ → Nat) (real : Bool) (held : List (Nat × Held)) (op : POp α κ) : Prop :=
  ∀ h ∈ held, match h.2 with
    | .locked => real = true → ¬ op.Locks key sub h.1
    | .pinned => (real = true → ¬ op.Locks key sub h.1) ∧ (op.Touches key sub h.1 → op.looks = true)
    | .raw => ¬ op.Touches key sub h.1

/-- No call made by a callback gets in the way of the calls around it. -/
def Prog.Apart (key : α → κ) (eqv : κ → κ → Bool) (sub : κ → Nat) (real : Bool) :
    Prog α κ → List (Nat × Held) → List α → Prop
  | .done, _, _ => True
  | .call op rest, held, l =>
    op.Fits key sub real held ∧ (rest (pstep key eqv l op).2).Apart key eqv sub real held (pstep key eqv l op).1
  | .modifyIf k f inner rest, held, l => (POp.modifyIf k f : POp α κ).Fits key sub real held ∧
    match lookup key eqv l k with
    | none => (rest false).Apart key eqv sub real held l
    | some b => (inner b).Apart key eqv sub real ((sub k, .locked) :: held) (modify key eqv l k f) ∧
      (rest true).Apart key eqv sub real held (nrun key eqv (inner b) (modify key eqv l k f)).1
  | .emplaceL a f inner rest, held, l => (POp.emplaceL a f : POp α κ).Fits key sub real held ∧
    match lookup key eqv l (key a) with
    | none => (rest true).Apart key eqv sub real held (a :: l)
    | some b => (inner b).Apart key eqv sub real ((sub (key a), .locked) :: held) (modify key eqv l (key a) f) ∧
      (rest false).Apart key eqv sub real held (nrun key eqv (inner b) (modify key eqv l (key a) f)).1
  | .eraseIf k pr inner rest, held, l => (POp.eraseIfKey k pr : POp α κ).Fits key sub real held ∧
    match lookup key eqv l k with
    | none => (rest false).Apart key eqv sub real held l
    | some b => (inner b).Apart key eqv sub real ((sub k, .pinned) :: held) l ∧
      (rest (pr b)).Apart key eqv sub real held
        (if pr b then erase key eqv (nrun key eqv (inner b) l).1 k else (nrun key eqv (inner b) l).1)
  | .create a inner rest, held, l => (POp.emplaceL a id : POp α κ).Fits key sub real held ∧
    match lookup key eqv l (key a) with
    | some _ => (rest false).Apart key eqv sub real held l
    | none => inner.Apart key eqv sub real ((sub (key a), .raw) :: held) l ∧
      (rest true).Apart key eqv sub real held (a :: (nrun key eqv inner l).1)

/-- Only callbacks of `modify_if`, `if_contains`, and for elements that are there, of `lazy_emplace_l` and `try_emplace_l`
make calls. -/
def Prog.Simple : Prog α κ → Prop
  | .done => True
  | .call _ rest => ∀ r, (rest r).Simple
  | .modifyIf _ _ inner rest => (∀ b, (inner b).Simple) ∧ ∀ r, (rest r).Simple
  | .emplaceL _ _ inner rest => (∀ b, (inner b).Simple) ∧ ∀ r, (rest r).Simple
  | .eraseIf .. => False
  | .create .. => False

end Gtl.Spec
