import Verif.Conc.WalkTrace
import Verif.Conc.SharePlay
/-!
# One possible code for traversals whose callbacks throw
-/

namespace Gtl.Conc.Multi

open Gtl.Swiss Gtl.Parallel
open Gtl.Spec.Walk (Ans)

variable {α κ : Type}

/-- One possible code for every call. -/
def walkOf (P : PCfg α κ) [BEq α] : Spec.Walk.Call α κ → Code (Tbl α) (Ans α)
  | .base o => (codeOf P o).bind fun r => .ret (.ret r)
  | .visit c cb => eachUntil (one P (readMode P) c) (fun i => [(cell P c i, readMode P)]) cb.own
      (fun i before => look (at1 (cell P c i) (visitUntil P before cb.run))) (2 ^ P.N) 0 []
  | .alter c cb => eachUntil (one P .excl c) (fun i => [(cell P c i, .excl)]) cb.own
      (fun i before => prim (at1 (cell P c i) (alterUntil P before cb.run))) (2 ^ P.N) 0 []
  | .look c i run => .sec (one P (readMode P) c i) [(cell P c i, readMode P)] (look (at1 (cell P c i) (visitUntil P [] run))) .ret
  | .script c i ops => .sec (one P .excl c i) [(cell P c i, .excl)] (prim (at1 (cell P c i) (scriptSub P ops))) fun rs => .ret (.cut rs)

theorem visitUntil_const {P : PCfg α κ} {before : List α} {run : List α → α → α × Bool} {t : Tbl α} {r}
    (h : visitUntil P before run t = .ok r) : r.1 = t := by
  unfold visitUntil at h
  rw [Res.bind_eq_ok] at h
  obtain ⟨q, -, h2⟩ := h
  rw [Res.bind_eq_ok] at h2
  obtain ⟨⟨ps, b⟩, -, h3⟩ := h2
  cases h3; rfl

theorem walkOf_for (P : PCfg α κ) [BEq α] (o : Spec.Walk.Call α κ) : WalkCode P o (walkOf P o) := by
  cases o with
  | base o => exact ⟨_, codeOf_for P o, rfl⟩
  | visit c cb => exact ⟨_, fun i before _ => look1_does _ _ _ fun _ _ => visitUntil_const, rfl⟩
  | alter c cb => exact ⟨_, fun i before _ => prim1_does _ _, rfl⟩
  | look c i run => exact ⟨_, look1_does _ _ _ fun _ _ => visitUntil_const, rfl⟩
  | script c i ops => exact ⟨_, prim1_does _ _, rfl⟩

theorem move_other {op σ ρ : Type} {code : op → Code σ ρ} {n : Nat} {W W' : World op σ ρ} {t u o e} (hu : u ≠ t)
    (h : move code n W t o = some (e, W')) : W'.th u = W.th u := by
  unfold move at h
  repeat' split at h
  all_goals first
    | (cases h; done)
    | (cases h; simp [upd, hu]; done)
    | (simp only [Option.map_eq_some_iff, Prod.mk.injEq] at h
       obtain ⟨_, _, _, rfl⟩ := h
       simp [upd, hu])

/-- A thread that was idle and is told to make a call makes it. -/
theorem play_inv {op σ ρ : Type} {code : op → Code σ ρ} {n : Nat} : ∀ (es : List (Nat × Option op)) {es2} {W W' : World op σ ρ} {H t o},
    W.th t = .idle → (∀ e ∈ es.map (·.1), e ≠ t) → play code n W (es ++ (t, some o) :: es2) = some (H, W') → .inv t o ∈ H
  | [], es2, W, W', H, t, o, hi, _, h => by
    simp only [List.nil_append, play, Option.bind_eq_bind, Option.bind_eq_some_iff] at h
    obtain ⟨⟨e, W1⟩, h1, ⟨H2, W2⟩, h2, h3⟩ := h
    cases h3
    unfold move at h1
    split at h1
    · cases h1
    · rw [hi] at h1
      cases h1
      simp
  | (u, q) :: es, es2, W, W', H, t, o, hi, hn, h => by
    simp only [List.cons_append, play, Option.bind_eq_bind, Option.bind_eq_some_iff] at h
    obtain ⟨⟨e, W1⟩, h1, ⟨H2, W2⟩, h2, h3⟩ := h
    cases h3
    have hu : t ≠ u := fun e => hn u (by simp) e.symm
    exact List.mem_append_right _ (play_inv es ((move_other hu h1).trans hi) (fun e he => hn e (by simp [he])) h2)

end Gtl.Conc.Multi
