import Verif.Parallel.Iter
import Verif.Spec.Asked
/-
`erase_if` of parallel hash containers with a predicate that may throw and may have a memory.
-/
namespace Gtl.Parallel
open Gtl.Swiss Gtl.Spec.Asked
variable {α κ σ : Type}

/-- Loop of `priv::erase_if` (phmap.hpp:5600-5606) with `erase(it)` (4084-4088): `_erase(it++)`; with the state
`s` of the predicate. An exception of `pred(*i)` leaves the loop. The result says whether there was one. -/
def PTbl.eraseAskLoop (P : PCfg α κ) (pred : Pred σ α) : Nat → PTbl α → It → σ → Res (PTbl α × σ × Bool)
  | 0, _, _, _ => .hang
  | _ + 1, p, none, s => .ok (p, s, false)
  | n + 1, p, some it, s => do
    let a ← p.deref it
    match pred s a with
    | (.throw, s) => .ok (p, s, true)
    | (.erase, s) => do
      let nxt ← p.next P it
      let p ← p.eraseAt P it
      eraseAskLoop P pred n p nxt s
    | (.keep, s) => do
      let nxt ← p.next P it
      eraseAskLoop P pred n p nxt s

/-- `erase_if(c, pred)` (phmap.hpp:5597-5608): returns `old_size - c.size()`; `none`: the exception goes on to
the caller. -/
def PTbl.eraseAsk (P : PCfg α κ) (p : PTbl α) (pred : Pred σ α) (s : σ) : Res (PTbl α × σ × Option Nat) := do
  let b ← p.begin_ P
  let (p', s, thrown) ← PTbl.eraseAskLoop P pred p.fuel p b s
  .ok (p', s, if thrown then none else some (p.size - p'.size))

theorem eraseAskLoop_at {P : PCfg α κ} (hC : CfgOk P.C) (pred : Pred σ α) :
    ∀ n (p : PTbl α) it s, WF P p → ItOk p it → (itRest p it).length < n →
    ∃ p', PTbl.eraseAskLoop P pred n p it s = .ok (p', (left pred s (itRest p it)).2) ∧ WF P p' ∧
      flat p' = itBef p it ++ (left pred s (itRest p it)).1 := by
  intro n
  induction n with
  | zero => intro p it s _ _ h; omega
  | succ n ih =>
    intro p it s hw hit hn
    cases it with
    | none => exact ⟨p, rfl, hw, by simp [itBef, itRest, left]⟩
    | some x =>
      obtain ⟨i, pos⟩ := x
      obtain ⟨t, a, h1, h2⟩ := id hit
      obtain ⟨it', r1, r2, r3, r4⟩ := next_at hC.group hw h1 h2
      unfold PTbl.eraseAskLoop
      rw [deref_at h1 h2]
      simp only [Res.ok_bind]
      rw [r1]
      simp only [Res.ok_bind]
      have e : itRest p (some (i, pos)) = a :: itRest p it' := r3
      rw [e, List.length_cons] at hn
      rw [e, left]
      rcases hp : pred s a with ⟨an, s'⟩
      cases an with
      | throw =>
        refine ⟨p, rfl, hw, ?_⟩
        dsimp only
        rw [bef_rest p hit, e]
      | erase =>
        dsimp only
        obtain ⟨p1, s1, s2, s3, s4, s5⟩ := erase_at hC hw h1 h2 r2 r4 r3
        rw [s1]
        simp only [Res.ok_bind]
        obtain ⟨p', u1, u2, u3⟩ := ih p1 it' s' s2 s3 (by rw [s4]; omega)
        rw [s4] at u1 u3
        refine ⟨p', u1, u2, ?_⟩
        rw [u3, s5]
        rfl
      | keep =>
        dsimp only
        obtain ⟨p', u1, u2, u3⟩ := ih p it' s' hw r2 (by omega)
        refine ⟨p', u1, u2, ?_⟩
        have e2 : itBef p it' = itBef p (some (i, pos)) ++ [a] := by
          apply List.append_cancel_right (bs := itRest p it')
          rw [← bef_rest p r2, bef_rest p hit, e, List.append_assoc]
          rfl
        rw [u3, e2, List.append_assoc]
        rfl

theorem eraseAsk_wf {P : PCfg α κ} (hC : CfgOk P.C) {p : PTbl α} (h : WF P p) (pred : Pred σ α) (s : σ) :
    ∃ p', p.eraseAsk P pred s = .ok (p', (left pred s (flat p)).2.1,
        if (left pred s (flat p)).2.2 then none else some (p.size - p'.size)) ∧
      WF P p' ∧ flat p' = (left pred s (flat p)).1 := by
  obtain ⟨it, r1, r2, r3⟩ := begin_at hC.group h
  obtain ⟨p', s1, s2, s3⟩ := eraseAskLoop_at hC pred p.fuel p it s h r2 (by rw [r3]; exact flat_fuel h)
  have hb : itBef p it = [] := by
    apply List.append_cancel_right (bs := itRest p it)
    rw [← bef_rest p r2, r3]; rfl
  rw [hb, List.nil_append, r3] at s3
  rw [r3] at s1
  refine ⟨p', ?_, s2, s3⟩
  unfold PTbl.eraseAsk
  rw [r1]
  simp only [Res.ok_bind]
  rw [s1]
  rfl

end Gtl.Parallel
