import Verif.Conc.ShareSim
/-!
# Threads that wait for each other, or for themselves
-/

namespace Gtl.Conc.Multi

open Gtl.Swiss Gtl.Parallel
open Gtl.Spec.Share (Call Ans)
open Gtl.Conc (upd_same upd_ne)

variable {α κ : Type}

/-- Code that begins by taking locks. -/
theorem sweep_locks {P : PCfg α κ} {gs rel f done} {g : Nat → List (Nat × Mode)} {gs' : Nat → List (List (Nat × Mode))} {code : Code (Tbl α) (Ans α)}
    (h : Sweep P gs rel f done code) (hg : ∀ i, gs i = g i :: gs' i) :
    ∃ k, code = .lock (g 0) (.locks (gs' 0) k) := by
  obtain ⟨b, -, rfl⟩ := h
  obtain ⟨m, hm⟩ : ∃ m, 2 ^ P.N = m + 1 := ⟨2 ^ P.N - 1, by have := Nat.two_pow_pos P.N; omega⟩
  rw [hm, each, Code.sec, hg, Code.locks]
  exact ⟨_, rfl⟩

/-- Two threads that each hold a lock the other one wants. -/
theorem cross {op σ ρ : Type} {code : op → Code σ ρ} {A : Nat → σ} {o o' : op} {i j : Nat} {m m' n n' : Mode} {k k' : Code σ ρ}
    (hij : i ≠ j) (h : code o = .lock [(i, m)] (.lock [(j, n)] k)) (h' : code o' = .lock [(j, m')] (.lock [(i, n')] k'))
    (h1 : m = .excl ∨ n' = .excl) (h2 : m' = .excl ∨ n = .excl) :
    ∃ W, Exec code (start A) [.inv 0 o, .inv 1 o'] W ∧ Deadlock W := by
  let W1 : World op σ ρ := { (start A : World op σ ρ) with th := upd (start A : World op σ ρ).th 0 (.run o (code o)) }
  let W2 : World op σ ρ := { W1 with th := upd W1.th 1 (.run o' (code o')) }
  let W3 : World op σ ρ := { W2 with hold := grant W2.hold 0 [(i, m)], th := upd W2.th 0 (.run o (.lock [(j, n)] k)) }
  let W4 : World op σ ρ := { W3 with hold := grant W3.hold 1 [(j, m')], th := upd W3.th 1 (.run o' (.lock [(i, n')] k')) }
  have e1 : Step code (start A) (some (.inv 0 o)) W1 := .call rfl
  have e2 : Step code W1 (some (.inv 1 o')) W2 := .call (by simp [W1, start, upd])
  have hW2 : ∀ x t, W2.hold x t = none := fun _ _ => rfl
  have e3 : Step code W2 none W3 := by
    refine .lock (by simp [W2, W1, upd, h]) ⟨by simp, fun l hl => ?_⟩
    cases hm : l.2 with
    | excl => exact hW2 _
    | shared => intro t; rw [hW2]; simp
  have hW3 : ∀ t, W3.hold j t = none := by
    intro t
    show upd W2.hold i _ j t = none
    rw [upd_ne _ _ (Ne.symm hij)]; exact hW2 _ _
  have e4 : Step code W3 none W4 := by
    refine .lock (by simp [W3, W2, upd, h']) ⟨by simp, fun l hl => ?_⟩
    simp only [List.mem_singleton] at hl
    subst hl
    dsimp only
    cases m' with
    | excl => exact hW3
    | shared => intro t; rw [hW3]; simp
  have hx := Exec.tail (.tail (.tail (.tail (.refl (code := code)) e1) e2) e3) e4
  refine ⟨W4, by simpa using hx, ⟨0, by simp [W4, W3, upd]⟩, fun t ht => ?_⟩
  have hold0 : W4.hold i 0 = some m := by
    simp [W4, W3, grant, upd, hij]
  have hold1 : W4.hold j 1 = some m' := by
    simp [W4, grant, upd]
  have hnf : ∀ {x u : Nat} {m n : Mode}, W4.hold x u = some m → m = .excl ∨ n = .excl → ¬ Free W4 x n := by
    intro x u m n hh ho hf
    cases n with
    | excl => have := hf u; rw [hh] at this; cases this
    | shared =>
      rcases ho with rfl | ho
      · exact hf u hh
      · cases ho
  by_cases ht0 : t = 0
  · subst ht0
    refine ⟨o, [(j, n)], k, by simp [W4, W3, upd], fun hc => ?_⟩
    exact hnf hold1 h2 (hc.2 (j, n) (by simp))
  · by_cases ht1 : t = 1
    · subst ht1
      refine ⟨o', [(i, n')], k', by simp [W4, upd], fun hc => ?_⟩
      exact hnf hold0 h1 (hc.2 (i, n') (by simp))
    · exact absurd (by simp [W4, W3, W2, W1, start, upd, ht0, ht1]) ht

/-- A thread that wants a lock it holds. -/
theorem self_wait {op σ ρ : Type} {code : op → Code σ ρ} {A : Nat → σ} {o : op} {i : Nat} {k : Code σ ρ}
    (h : code o = .lock [(i, .excl)] (.lock [(i, .excl)] k)) : ∃ W, Exec code (start A) [.inv 0 o] W ∧ Deadlock W := by
  let W1 : World op σ ρ := { (start A : World op σ ρ) with th := upd (start A : World op σ ρ).th 0 (.run o (code o)) }
  let W2 : World op σ ρ := { W1 with hold := grant W1.hold 0 [(i, .excl)], th := upd W1.th 0 (.run o (.lock [(i, .excl)] k)) }
  have e1 : Step code (start A) (some (.inv 0 o)) W1 := .call rfl
  have e2 : Step code W1 none W2 := by
    refine .lock (by simp [W1, upd, h]) ⟨by simp, fun l hl => ?_⟩
    simp only [List.mem_singleton] at hl
    subst hl
    intro t; rfl
  have hx := Exec.tail (.tail (.refl (code := code)) e1) e2
  refine ⟨W2, by simpa using hx, ⟨0, by simp [W2, upd]⟩, fun t ht => ?_⟩
  by_cases ht0 : t = 0
  · subst ht0
    refine ⟨o, [(i, .excl)], k, by simp [W2, upd], fun hc => ?_⟩
    have := hc.2 (i, .excl) (by simp) 0
    simp [W2, grant, upd] at this
  · exact absurd (by simp [W2, W1, start, upd, ht0]) ht

/-- A thread that wants the same lock twice at once. -/
theorem twice_wait {op σ ρ : Type} {code : op → Code σ ρ} {A : Nat → σ} {o : op} {i : Nat} {m m' : Mode} {k : Code σ ρ}
    (h : code o = .lock [(i, m), (i, m')] k) : ∃ W, Exec code (start A) [.inv 0 o] W ∧ Deadlock W := by
  let W1 : World op σ ρ := { (start A : World op σ ρ) with th := upd (start A : World op σ ρ).th 0 (.run o (code o)) }
  have e1 : Step code (start A) (some (.inv 0 o)) W1 := .call rfl
  have hx := Exec.tail (.refl (code := code)) e1
  refine ⟨W1, by simpa using hx, ⟨0, by simp [W1, upd]⟩, fun t ht => ?_⟩
  by_cases ht0 : t = 0
  · subst ht0
    refine ⟨o, [(i, m), (i, m')], k, by simp [W1, upd, h], fun hc => ?_⟩
    have := hc.1
    simp at this
  · exact absurd (by simp [W1, start, upd, ht0]) ht

theorem cell_ne {P : PCfg α κ} {c d : Nat} (h : c ≠ d) : cell P c 0 ≠ cell P d 0 := fun e =>
  h (cell_inj (Nat.two_pow_pos _) (Nat.two_pow_pos _) e).1

end Gtl.Conc.Multi
