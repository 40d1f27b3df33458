import Verif.Btree.Calls
import Verif.Spec.Asked
/-
`erase_if` of B-tree containers with a predicate that may throw and may have a memory.
-/
namespace Gtl.Btree
open Gtl.Spec.Asked
variable {α κ σ : Type} {c : Cfg α κ}

/-- The loop of erase_if (btree.hpp:3727-3735, 3785-3793, 3845-3853, 3903-3911) from `it` on, with the state `s`
of the predicate. An exception of `pred(*it)` leaves the loop. The result says whether there was one. -/
def eraseAskLoop (c : Cfg α κ) (p : Pred σ α) : Nat → Tree α → It → σ → Option (Tree α × σ × Bool)
  | 0, t, it, s => do
    let e ← t.end
    if it = e then some (t, s, false) else none
  | f + 1, t, it, s => do
    let e ← t.end
    if it = e then some (t, s, false)
    else do
      let v ← deref t.heap it
      match p s v with
      | (.throw, s) => some (t, s, true)
      | (.erase, s) => do
        let (it, t) ← eraseIt c t it
        eraseAskLoop c p f t it s
      | (.keep, s) => do
        let it ← increment t.heap it
        eraseAskLoop c p f t it s

/-- `erase_if` (btree.hpp:3727-3735, 3785-3793, 3845-3853, 3903-3911). -/
def Tree.eraseAsk (c : Cfg α κ) (t : Tree α) (p : Pred σ α) (s : σ) : Option (Tree α × σ × Bool) := do
  let b ← t.begin
  eraseAskLoop c p t.size t b s

theorem eraseAskLoop_ok (hK : 3 ≤ c.K) (p : Pred σ α) : ∀ (f : Nat) {t : Tree α} {X Y : List α} {it : It} (s : σ),
    Rep c t (X ++ Y) → t.iterAt X.length = some it → Y.length ≤ f →
    ∃ t', eraseAskLoop c p f t it s = some (t', (left p s Y).2) ∧ Rep c t' (X ++ (left p s Y).1) := by
  intro f
  induction f with
  | zero =>
    intro t X Y it s r hi hf
    obtain rfl : Y = [] := List.length_eq_zero_iff.1 (by omega)
    obtain ⟨e, ee, ie⟩ := r.end_ok
    have : it = e := (r.at_end (by simp) hi ee).2 (by simp)
    exact ⟨t, by simp [eraseAskLoop, ee, this, left], by simpa [left] using r⟩
  | succ f ih =>
    intro t X Y it s r hi hf
    obtain ⟨e, ee, ie⟩ := r.end_ok
    cases Y with
    | nil =>
      have : it = e := (r.at_end (by simp) hi ee).2 (by simp)
      exact ⟨t, by simp [eraseAskLoop, ee, this, left], by simpa [left] using r⟩
    | cons v Y =>
      have hne : it ≠ e := fun h => by
        have := (r.at_end (by simp) hi ee).1 h
        simp at this
      have hd := r.deref rfl hi
      rcases hp : p s v with ⟨an, s'⟩
      cases an with
      | throw =>
        exact ⟨t, by simp [eraseAskLoop, ee, hne, hd, hp, left], by simpa [hp, left] using r⟩
      | erase =>
        obtain ⟨it', t', e1, r1, i1⟩ := eraseIt_ok hK r rfl hi
        obtain ⟨t2, e2, r2⟩ := ih s' r1 i1 (by simpa using hf)
        refine ⟨t2, by simp [eraseAskLoop, ee, hne, hd, hp, e1, e2, left], ?_⟩
        simpa [hp, left] using r2
      | keep =>
        obtain ⟨it', e1, i1⟩ := r.increment rfl hi
        obtain ⟨t2, e2, r2⟩ := ih (X := X ++ [v]) (Y := Y) s' (by simpa using r) (by simpa using i1) (by simpa using hf)
        refine ⟨t2, by simp [eraseAskLoop, ee, hne, hd, hp, e1, e2, left], ?_⟩
        simpa [hp, left] using r2

theorem eraseAsk_ok (hK : 3 ≤ c.K) {t : Tree α} {L : List α} (r : Rep c t L) (p : Pred σ α) (s : σ) :
    ∃ t', t.eraseAsk c p s = some (t', (left p s L).2) ∧ Rep c t' (left p s L).1 := by
  obtain ⟨b, eb, ib⟩ := r.begin_ok
  obtain ⟨t', e, r'⟩ := eraseAskLoop_ok hK p t.size (X := []) (Y := L) s (by simpa using r) ib (by rw [r.size])
  exact ⟨t', by simp [Tree.eraseAsk, eb, e], by simpa using r'⟩

end Gtl.Btree
