import Verif.Spec.SortedSeqThrow
/-
Several sorted containers of one type, each with a comparison object of its own: for instance one that sorts up and one that
sorts down, or one that refers to a table of priorities. `can s` says whether the object `s` can be called: one that holds a
pointer may not be after it was moved from. `ord s` is how it compares.

A container is its comparison object and the list of its elements. What is left of a comparison object is a parameter:
`taken s` after a construction from the container, `given d s` after an assignment from it to a container that had the object
`d`. Users expect that a container keeps its own (`taken s = s`, `given d s = s`).
-/
namespace Gtl.Spec.SortedSeq
variable {S α κ : Type}

/-- What a caller does with several containers, given by number. -/
inductive COp (S α κ : Type) where
  /-- a call on container `i` -/
  | on (i : Nat) (op : Op α κ)
  /-- a new container with comparison `s` -/
  | make (s : S)
  /-- a new container, copied from container `i` -/
  | copy (i : Nat)
  /-- a new container, constructed from std::move(container `i`) -/
  | take (i : Nat)
  /-- container `i` = container `j` -/
  | assign (i j : Nat)
  /-- container `i` = std::move(container `j`) -/
  | move (i j : Nat)
  | swap (i j : Nat)
  /-- container `i`.merge(container `j`) -/
  | merge (i j : Nat)
  /-- container `i` == container `j` -/
  | eq (i j : Nat)
  /-- container `i` < container `j` -/
  | less (i j : Nat)
  /-- container `i`.key_comp() -/
  | comp (i : Nat)

/-- What the caller gets. -/
inductive CRes (S α : Type) where
  | got (r : Res α)
  | comp (s : S)

/-- Which calls are allowed: those of one container, and nothing that looks for keys with an object that cannot be called.
`alike d s`: whether a container with object `s` may be moved to one with object `d`. -/
def COk (key : α → κ) (can : S → Bool) (alike : S → S → Prop) (w : List (S × List α)) : COp S α κ → Prop
  | .on i op => ∃ x, w[i]? = some x ∧ Ok key x.2 op ∧ (op.Looks → can x.1 = true)
  | .make _ => True
  | .copy i | .take i | .comp i => i < w.length
  | .assign i j | .swap i j | .eq i j | .less i j => i < w.length ∧ j < w.length
  | .move i j => ∃ x y, w[i]? = some x ∧ w[j]? = some y ∧ alike x.1 y.1
  | .merge i j => (∃ x, w[i]? = some x ∧ can x.1 = true) ∧ j < w.length ∧ i ≠ j

section
variable (multi : Bool) (key : α → κ) (ord : S → κ → κ → Bool) (eq less : α → α → Bool) (taken : S → S) (given : S → S → S)

/-- What each call answers and leaves. -/
def CStep (w : List (S × List α)) : COp S α κ → CRes S α → List (S × List α) → Prop
  | .on i op, r, w' => ∃ x r' l, w[i]? = some x ∧ Step multi key (ord x.1) x.2 op r' l ∧ r = .got r' ∧ w' = w.set i (x.1, l)
  | .make s, r, w' => r = .got (.num w.length) ∧ w' = w ++ [(s, [])]
  | .copy i, r, w' => ∃ x, w[i]? = some x ∧ r = .got (.num w.length) ∧ w' = w ++ [x]
  | .take i, r, w' => ∃ x, w[i]? = some x ∧ r = .got (.num w.length) ∧ w' = w.set i (taken x.1, []) ++ [x]
  | .assign i j, r, w' => ∃ y, w[j]? = some y ∧ r = .got .done ∧ w' = w.set i y
  | .move i j, r, w' => ∃ x y, w[i]? = some x ∧ w[j]? = some y ∧ r = .got .done ∧
    w' = if i = j then w else (w.set i y).set j (given x.1 y.1, [])
  | .swap i j, r, w' => ∃ x y, w[i]? = some x ∧ w[j]? = some y ∧ r = .got .done ∧ w' = (w.set i y).set j x
  | .merge i j, r, w' => ∃ x y, w[i]? = some x ∧ w[j]? = some y ∧ r = .got .done ∧
    w' = if multi then (w.set i (x.1, y.2.foldl (fun l v => (addMulti key (ord x.1) l v).2) x.2)).set j (y.1, [])
      else (w.set i (x.1, (mergeInto key (ord x.1) x.2 y.2).1)).set j (y.1, (mergeInto key (ord x.1) x.2 y.2).2)
  | .eq i j, r, w' => ∃ x y, w[i]? = some x ∧ w[j]? = some y ∧ w' = w ∧
    r = .got (.bool (decide (x.2.length = y.2.length) && (x.2.zip y.2).all fun z => eq z.1 z.2))
  | .less i j, r, w' => ∃ x y, w[i]? = some x ∧ w[j]? = some y ∧ w' = w ∧ r = .got (.bool (lexLess less x.2 y.2))
  | .comp i, r, w' => ∃ x, w[i]? = some x ∧ r = .comp x.1 ∧ w' = w

/-- A sequence of calls. -/
inductive CRun : List (S × List α) → List (COp S α κ) → List (CRes S α) → List (S × List α) → Prop
  | nil {w} : CRun w [] [] w
  | cons {w w' w'' op r ops rs} : CStep multi key ord eq less taken given w op r w' → CRun w' ops rs w'' →
      CRun w (op :: ops) (r :: rs) w''

/-- The caller never makes a call that is not allowed, whatever the answers. -/
def CSafe (can : S → Bool) (alike : S → S → Prop) : List (S × List α) → List (COp S α κ) → Prop
  | _, [] => True
  | w, op :: ops => COk key can alike w op ∧
    ∀ r w', CStep multi key ord eq less taken given w op r w' → CSafe can alike w' ops
end
end Gtl.Spec.SortedSeq
