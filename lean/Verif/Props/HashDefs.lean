import Verif.Swiss.World
/-!
# Vocabulary of the hash container properties

Nothing here mentions the representation invariant: a container is observed through the modelled member
functions only (`iterate`, `at_`, `size`, `capacity`, ...).
-/

namespace Gtl.Props.Hash

open Gtl.Swiss Gtl.Swiss.Tbl
open Gtl.Spec (Op WOp Resp)

variable {α κ : Type}

/-- What the documentation asks of `Hash` and `Eq`: an equivalence, and equal keys have equal hashes. -/
structure Contract (C : Cfg α κ) : Prop where
  refl : ∀ k, C.eqv k k = true
  symm : ∀ k l, C.eqv k l = true → C.eqv l k = true
  trans : ∀ k l m, C.eqv k l = true → C.eqv l m = true → C.eqv k m = true
  hash_congr : ∀ k l, C.eqv k l = true → C.hash k = C.hash l
  /-- the control bytes are searched with one of the three group implementations of the library -/
  group : C.G = groupSse2 true ∨ C.G = groupSse2 false ∨ C.G = groupPortable

/-- A container state that some program can produce: any number of containers, any history of valid calls. -/
def Reachable [BEq α] (C : Cfg α κ) (t : Tbl α) : Prop :=
  ∃ (ops : List (WOp α κ)) (w : Nat → Tbl α) (rs : List (Resp α)) (i : Nat),
    (∀ op ∈ ops, op.Valid C.key) ∧ wrun C (fun _ => Tbl.empty) ops = .ok (w, rs) ∧ w i = t

/-- From now on, for every further history of calls, the container gives the answers of the abstract container
`l`, without undefined behaviour or endless loops, and always holds the elements the abstract one holds; its
destructor works. -/
def BehavesAs (C : Cfg α κ) (t : Tbl α) (l : List α) : Prop :=
  ∀ ops : List (Op α κ), (∀ op ∈ ops, op.Valid C.key) →
    ∃ t', t.run C ops = .ok (t', (Spec.run C.key C.eqv l ops).2) ∧
      (∃ l', t'.iterate C = .ok l' ∧ l'.Perm (Spec.run C.key C.eqv l ops).1) ∧
      t'.size = (Spec.run C.key C.eqv l ops).1.length ∧ ∃ u, t'.destroySlots = .ok u

/-- An iterator: `end()` or the position of an element. -/
def IsIter (t : Tbl α) (p : Nat) : Prop := p = t.capacity ∨ ∃ a, t.readSlot p = .ok a

/-- The elements an iterator will still visit. -/
def rest (C : Cfg α κ) (t : Tbl α) (p : Nat) : Res (List α) := t.collect C t.fuel p

/-- Insert the elements one after the other. -/
def insertEach (C : Cfg α κ) (t : Tbl α) (vs : List α) : Res (Tbl α) :=
  vs.foldlM (fun t v => do
    let (t, _, _) ← t.emplace C v
    Res.ok t) t

/-- Calls that never remove an element. -/
def NonErasing : Op α κ → Prop
  | .erase _ => False
  | .eraseIf _ => False
  | .extract _ => False
  | .toggle _ => False
  | _ => True

end Gtl.Props.Hash
