/-!
# Specification: what happens to the elements in the nodes of a tree (C125)

Nodes have numbers; each has a list of elements.
-/

namespace Gtl.Spec.MapPool

/-- What can be done with the elements of nodes; `q` is the parent of the siblings `a` and `b`, and `i` is the index in it. -/
inductive Act (E : Type) where
  | insert (n i : Nat) (x : E)
  | erase (n i k : Nat)
  | toLeft (a b q i t : Nat)
  | toRight (a b q i t : Nat)
  | merge (a b q i : Nat)
  | split (a b q i e : Nat)
  | swap (a b : Nat)

variable {E : Type}

/-- The node `n` gets the list `l`. -/
def put (f : Nat → List E) (n : Nat) (l : List E) : Nat → List E := fun k => if k = n then l else f k

/-- What an action that is allowed does, in nodes with at most `cap` elements. -/
inductive Does (cap : Nat) (f : Nat → List E) : Act E → (Nat → List E) → Prop
  | insert {n i x} : i ≤ (f n).length → (f n).length < cap →
      Does cap f (.insert n i x) (put f n ((f n).take i ++ x :: (f n).drop i))
  | erase {n i k} : 1 ≤ k → i + k ≤ (f n).length → Does cap f (.erase n i k) (put f n ((f n).take i ++ (f n).drop (i + k)))
  | toLeft {a b q i t d y} : a ≠ b → q ≠ a → q ≠ b → (f q)[i]? = some d → 1 ≤ t → t ≤ (f b).length →
      (f a).length + t ≤ cap → (f a ++ d :: f b)[(f a).length + t]? = some y →
      Does cap f (.toLeft a b q i t) (put (put (put f a ((f a ++ d :: f b).take ((f a).length + t)))
        b ((f a ++ d :: f b).drop ((f a).length + t + 1))) q ((f q).set i y))
  | toRight {a b q i t d y} : a ≠ b → q ≠ a → q ≠ b → (f q)[i]? = some d → 1 ≤ t → t ≤ (f a).length →
      (f b).length + t ≤ cap → (f a ++ d :: f b)[(f a).length - t]? = some y →
      Does cap f (.toRight a b q i t) (put (put (put f a ((f a ++ d :: f b).take ((f a).length - t)))
        b ((f a ++ d :: f b).drop ((f a).length - t + 1))) q ((f q).set i y))
  | merge {a b q i d} : a ≠ b → q ≠ a → q ≠ b → (f q)[i]? = some d → (f a).length + 1 + (f b).length ≤ cap →
      Does cap f (.merge a b q i) (put (put (put f a (f a ++ d :: f b)) b []) q ((f q).take i ++ (f q).drop (i + 1)))
  | split {a b q i e x} : a ≠ b → q ≠ a → q ≠ b → f b = [] → e < (f a).length → i ≤ (f q).length → (f q).length < cap →
      (f a)[(f a).length - e - 1]? = some x →
      Does cap f (.split a b q i e) (put (put (put f a ((f a).take ((f a).length - e - 1)))
        b ((f a).drop ((f a).length - e))) q ((f q).take i ++ x :: (f q).drop i))
  | swap {a b} : a ≠ b → Does cap f (.swap a b) (put (put f a (f b)) b (f a))

/-- A sequence of allowed actions. -/
inductive DoesAll (cap : Nat) : (Nat → List E) → List (Act E) → (Nat → List E) → Prop
  | nil {f} : DoesAll cap f [] f
  | cons {f g h o os} : Does cap f o g → DoesAll cap g os h → DoesAll cap f (o :: os) h

end Gtl.Spec.MapPool
