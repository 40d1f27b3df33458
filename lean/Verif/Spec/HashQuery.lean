/-
Lookups in a hash container with something that is not a key: hash and equality are transparent, they take
keys and the thing looked up. The thing is its hash and what it answers when it is compared with every key.
-/
namespace Gtl.Spec.HashQuery

/-- What is looked up: its hash, and the keys it is equal to. -/
structure HQuery (κ : Type) where
  hash : Nat
  hits : κ → Bool

/-- What the standard asks: what is equal has the same hash. -/
def Fits {κ : Type} (hash : κ → Nat) (q : HQuery κ) : Prop := ∀ k, q.hits k = true → hash k = q.hash

/-- `q` stands for the key `k`, as a `string_view` does for the `string` with the same characters. -/
def StandsFor {κ : Type} (hash : κ → Nat) (eqv : κ → κ → Bool) (q : HQuery κ) (k : κ) : Prop :=
  q.hash = hash k ∧ ∀ a, q.hits a = eqv a k

/-- The key itself as the thing looked up. -/
def ofKey {κ : Type} (hash : κ → Nat) (eqv : κ → κ → Bool) (k : κ) : HQuery κ := ⟨hash k, fun a => eqv a k⟩

end Gtl.Spec.HashQuery
