import Verif.Spec.SortedSeq
/-
How often the calls of a sorted container may compare keys.
-/
namespace Gtl.Spec.SortedSeq
variable {α κ : Type}

/-- The comparisons of one search among `K` values: all of them one after the other, or by halving. -/
def perNode (linear : Bool) (K : Nat) : Nat := if linear then K else Nat.log2 K + 1

/-- The comparisons of one search among `n` elements, logarithmic in `n`. -/
def lookup (node n : Nat) : Nat := node * Nat.log2 (n + 1) + 1

/-- The number `m` of comparisons is within what the call may make on a container that holds `l`. -/
def Cheap (multi : Bool) (key : α → κ) (lt : κ → κ → Bool) (node : Nat) (l : List α) : Op α κ → Nat → Prop
  | .insert _, m | .extractKey _, m | .find _, m | .contains _, m | .lowerBound _, m | .upperBound _, m =>
    m ≤ lookup node l.length
  -- two searches, for the first and for the last, if there may be several
  | .eraseKey _, m | .count _, m => m ≤ if multi then 2 * lookup node l.length else lookup node l.length
  | .equalRange _, m => m ≤ 2 * lookup node l.length
  -- two comparisons if the value belongs where the hint says
  | .insertHint i v, m => m ≤ lookup node l.length + 3 ∧ (Sorted multi key lt (l.insertIdx i v) → m ≤ 2)
  -- one for each value if they are in order and come after all elements
  | .insertAll vs, m => m ≤ vs.length * (lookup node (l.length + vs.length) + 1) ∧
    (Sorted multi key lt (l ++ vs) → m ≤ vs.length)
  | _, m => m = 0

/-- A sequence of calls, the answers and the comparisons, and the container after. -/
inductive CheapRun (multi : Bool) (key : α → κ) (lt : κ → κ → Bool) (node : Nat) :
    List α → List (Op α κ) → List (Res α × Nat) → List α → Prop
  | nil {l} : CheapRun multi key lt node l [] [] l
  | cons {l l' l'' op r m ops rs} : Step multi key lt l op r l' → Cheap multi key lt node l op m →
      CheapRun multi key lt node l' ops rs l'' → CheapRun multi key lt node l (op :: ops) ((r, m) :: rs) l''

end Gtl.Spec.SortedSeq
