import Verif.Props.HashDefs
import Verif.Parallel.Table
/-!
# Vocabulary of the properties of the parallel containers
-/

namespace Gtl.Props.Parallel

open Gtl.Swiss Gtl.Parallel
open Gtl.Spec (Op POp WOp PWOp Resp)
open Gtl.Props.Hash (Contract)

variable {α κ : Type}

/-- There are real mutexes. -/
def hasLocks (P : PCfg α κ) : Bool := P.mtx != .null

/-- A valid history of calls (see `Spec.PWOp.Valid`). -/
def ValidHist (P : PCfg α κ) (ops : List (PWOp α κ)) : Prop := ∀ op ∈ ops, op.Valid P.C.key (2 ^ P.N) (hasLocks P)

/-- A state that some program with one thread can produce: any number of parallel containers, any valid history. -/
def PReachable [BEq α] (P : PCfg α κ) (p : PTbl α) : Prop :=
  ∃ (ops : List (PWOp α κ)) (w : Nat → PTbl α) (rs : List (Resp α)) (i : Nat),
    ValidHist P ops ∧ PTbl.wrun P (fun _ => PTbl.empty P) ops = .ok (w, rs) ∧ w i = p

/-- A history on one container. -/
def prun (P : PCfg α κ) (p : PTbl α) : List (POp α κ) → Res (PTbl α × List (Resp α))
  | [] => .ok (p, [])
  | op :: ops => do
    let (p, r) ← p.pstep P op
    let (p, rs) ← prun P p ops
    .ok (p, r :: rs)

/-- The same for the abstract container. -/
def specPrun (key : α → κ) (eqv : κ → κ → Bool) (l : List α) : List (POp α κ) → List α × List (Resp α)
  | [] => (l, [])
  | op :: ops =>
    let r := Spec.pstep key eqv l op
    let s := specPrun key eqv r.1 ops
    (s.1, r.2 :: s.2)

/-- From now on, for every further history of valid calls, the container gives the answers of the abstract container
`l` and holds what it holds. -/
def PBehavesAs (P : PCfg α κ) (p : PTbl α) (l : List α) : Prop :=
  ∀ ops : List (POp α κ), (∀ op ∈ ops, op.Valid P.C.key (2 ^ P.N)) →
    ∃ p', prun P p ops = .ok (p', (specPrun P.C.key P.C.eqv l ops).2) ∧
      (∃ l', p'.iterate P = .ok l' ∧ l'.Perm (specPrun P.C.key P.C.eqv l ops).1) ∧
      p'.size = (specPrun P.C.key P.C.eqv l ops).1.length

/-- The same call on a parallel container. -/
def lift : WOp α κ → PWOp α κ
  | .on i op => .on i (.base op)
  | .create i n => .create i n
  | .copy i j => .copy i j
  | .move i j => .move i j
  | .swap i j => .swap i j
  | .merge i j => .merge i j
  | .equal i j => .equal i j

end Gtl.Props.Parallel
