import Verif.Spec.Soa
/-!
# Specification: several tables of rows
-/

namespace Gtl.Spec.Soa

variable {m : Nat} {T : Fin (m + 1) → Type}

/-- Calls on the tables of a thread, which are numbered. `sort x f c lt` sorts table `x`; `f` is a number for the function that
is called: calls with the same number may have data in common. `sortThrows x f` is a sort that is left by an exception.
`copy x y` is `x = y`. All other calls on one table are `on x op`. -/
inductive TOp (T : Fin (m + 1) → Type) where
  | on (x : Nat) (op : Op T)
  | sort (x f : Nat) (c : Fin (m + 1)) (lt : T c → T c → Bool)
  | sortThrows (x f : Nat)
  | copy (x y : Nat)

/-- Sorting is done with `sort`, so that its number is known; preconditions as for one table. -/
def TOp.Valid (rows : Nat → List (Row T)) : TOp T → Prop
  | .on x op => (∀ c lt, op ≠ .sort c lt) ∧ op.Valid (rows x)
  | .sort x _ c lt => (Op.sort c lt).Valid (rows x)
  | _ => True

/-- What a call does with the rows of the tables: each table is by itself. -/
def TStep (dflt : Row T) (rows : Nat → List (Row T)) (op : TOp T) (rows' : Nat → List (Row T)) : Prop :=
  match op with
  | .on x op => Step dflt (rows x) op (rows' x) ∧ ∀ y, y ≠ x → rows' y = rows y
  | .sort x _ c lt => Step dflt (rows x) (.sort c lt) (rows' x) ∧ ∀ y, y ≠ x → rows' y = rows y
  | .sortThrows _ _ => rows' = rows
  | .copy x y => rows' x = rows y ∧ ∀ z, z ≠ x → rows' z = rows z

/-- A history. -/
inductive TRun (dflt : Row T) : (Nat → List (Row T)) → List (TOp T) → (Nat → List (Row T)) → Prop
  | nil {rows} : TRun dflt rows [] rows
  | cons {rows rows' rows'' op ops} : TStep dflt rows op rows' → TRun dflt rows' ops rows'' → TRun dflt rows (op :: ops) rows''

/-- All preconditions are met, whatever happens. -/
def TOk (dflt : Row T) : (Nat → List (Row T)) → List (TOp T) → Prop
  | _, [] => True
  | rows, op :: ops => op.Valid rows ∧ ∀ rows', TStep dflt rows op rows' → TOk dflt rows' ops

end Gtl.Spec.Soa
