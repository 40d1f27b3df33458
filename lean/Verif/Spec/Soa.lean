/-!
# Specification: a table of rows

This file knows nothing about columns stored separately. A row is a function from fields to values.
-/

namespace Gtl.Spec.Soa

/-- A comparison that `std::stable_sort` accepts for the values `dom`: a strict weak ordering on them. -/
structure StrictWeak {α : Type} (lt : α → α → Bool) (dom : α → Prop) : Prop where
  irrefl : ∀ a, dom a → lt a a = false
  trans : ∀ a b c, dom a → dom b → dom c → lt a b = true → lt b c = true → lt a c = true
  incomp : ∀ a b c, dom a → dom b → dom c → lt a b = false → lt b a = false → lt b c = false → lt c b = false →
    lt a c = false ∧ lt c a = false

/-- `l'` is `l` sorted stably: position `i` of `l'` has the value of position `o[i]` of `l`; `o` is a rearrangement of the
positions; values do not decrease, and equivalent values keep their order. -/
def StableSortOf {α : Type} (lt : α → α → Bool) (l l' : List α) : Prop :=
  ∃ o : List Nat, o.Perm (List.range l.length) ∧ l'.map some = o.map (fun (i : Nat) => l[i]?) ∧
    o.Pairwise (fun a b => ∀ x y, l[a]? = some x → l[b]? = some y → lt y x = false ∧ (lt x y = false → a < b))

variable {m : Nat} {T : Fin (m + 1) → Type}

/-- A row of a table with `m + 1` fields. -/
abbrev Row (T : Fin (m + 1) → Type) := (i : Fin (m + 1)) → T i

/-- Operations. `sort c lt` is `sort_by_field<c>(lt)`; `assign i c v` writes through `get_column<c>()[i]`, `operator[]` or
`view`. -/
inductive Op (T : Fin (m + 1) → Type) where
  | insert (r : Row T)
  | assign (i : Nat) (c : Fin (m + 1)) (v : T c)
  | resize (n : Nat)
  | reserve (n : Nat)
  | clear
  | sort (c : Fin (m + 1)) (lt : T c → T c → Bool)

/-- Precondition: indices in range, comparisons usable. Tables that are sorted must have a row: sorting a table without rows is
undefined in the code as it is, see `C39_empty_refuted`. -/
def Op.Valid (rows : List (Row T)) : Op T → Prop
  | .assign i _ _ => i < rows.length
  | .sort c lt => rows ≠ [] ∧ StrictWeak lt (fun v => ∃ r ∈ rows, r c = v)
  | _ => True

/-- What an operation does with the rows; `dflt` is the row of default values. -/
def Step (dflt : Row T) (rows : List (Row T)) : Op T → List (Row T) → Prop
  | .insert r, rows' => rows' = rows ++ [r]
  | .assign i c v, rows' => rows' = rows.modify i (fun r j => if h : j = c then h ▸ v else r j)
  | .resize n, rows' => rows' = rows.take n ++ List.replicate (n - rows.length) dflt
  | .reserve _, rows' => rows' = rows
  | .clear, rows' => rows' = []
  | .sort c lt, rows' => StableSortOf (fun r s => lt (r c) (s c)) rows rows'

/-- A sequence of operations. -/
inductive Run (dflt : Row T) : List (Row T) → List (Op T) → List (Row T) → Prop
  | nil {rows} : Run dflt rows [] rows
  | cons {rows rows' rows'' op ops} : Step dflt rows op rows' → Run dflt rows' ops rows'' → Run dflt rows (op :: ops) rows''

/-- All preconditions are met, whatever happens. -/
def Ok (dflt : Row T) : List (Row T) → List (Op T) → Prop
  | _, [] => True
  | rows, op :: ops => op.Valid rows ∧ ∀ rows', Step dflt rows op rows' → Ok dflt rows' ops

end Gtl.Spec.Soa
