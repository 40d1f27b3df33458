import Verif.Conc.Multi
import Verif.Spec.HappensBefore
/-!
# What the threads do, event by event

The machines of `Verif.Conc.Machine` and `Verif.Conc.Multi` with a record of every lock operation and every access to
shared objects.
-/

namespace Gtl.Conc

open Gtl.Spec.HB

/-- What a thread did. -/
inductive Did where
  | lock (t i : Nat) (m : Mode)
  | unlock (t i : Nat) (m : Mode)
  /-- an access: which objects it looks at and which it may change -/
  | access (t : Nat) (reads writes : Nat → Prop)

/-- How the memory model sees it. -/
def Did.ev : Did → Ev
  | .lock t i m => ⟨t, .lock i (m == .excl)⟩
  | .unlock t i m => ⟨t, .unlock i (m == .excl)⟩
  | .access t _ _ => ⟨t, .plain⟩

/-- Two accesses that must not be concurrent: from different threads, to an object that one of them may change. -/
def Conflict : Did → Did → Prop
  | .access t r w, .access u r' w' => t ≠ u ∧ ∃ i, w i ∧ (r' i ∨ w' i) ∨ (r i ∨ w i) ∧ w' i
  | _, _ => False

/-- No data race: conflicting accesses are ordered by happens-before. -/
def RaceFree (D : List Did) : Prop :=
  ∀ (i j : Nat) (a b : Did), i < j → D[i]? = some a → D[j]? = some b → Conflict a b → Before (D.map Did.ev) i j

/-! ## One lock at a time -/

section
variable {op σ ρ : Type}

/-- The steps of `Step`, with what was done. An action on object `i` looks at it, and may change it unless it is the
identity. -/
inductive Rec1 (code : op → Code σ ρ) : World op σ ρ → List Did → World op σ ρ → Prop
  | call {W : World op σ ρ} {t o} : W.th t = .idle →
      Rec1 code W [] { W with th := upd W.th t (.run o (code o)) }
  | act {W : World op σ ρ} {t o i w k} : W.th t = .run o (.act i w k) →
      Rec1 code W [.access t (fun j => j = i) (fun j => j = i ∧ ∃ s, w s ≠ s)]
        { W with obj := upd W.obj i (w (W.obj i)), th := upd W.th t (.run o (k (W.obj i))) }
  | lock {W : World op σ ρ} {t o i m k} : W.th t = .run o (.lock i m k) → Free W i m →
      Rec1 code W [.lock t i m] { W with hold := upd W.hold i (upd (W.hold i) t (some m)), th := upd W.th t (.run o k) }
  | unlock {W : World op σ ρ} {t o i m k} : W.th t = .run o (.unlock i m k) → W.hold i t = some m →
      Rec1 code W [.unlock t i m] { W with hold := upd W.hold i (upd (W.hold i) t none), th := upd W.th t (.run o k) }
  | unlockBad {W : World op σ ρ} {t o i m k} : W.th t = .run o (.unlock i m k) → W.hold i t ≠ some m →
      Rec1 code W [] { W with th := upd W.th t (.run o .ub) }
  | ret {W : World op σ ρ} {t o r} : W.th t = .run o (.ret r) →
      Rec1 code W [] { W with th := upd W.th t .idle }

/-- An execution and its record. -/
inductive Rec (code : op → Code σ ρ) (W0 : World op σ ρ) : List Did → World op σ ρ → Prop
  | refl : Rec code W0 [] W0
  | tail {W W' D d} : Rec code W0 D W → Rec1 code W d W' → Rec code W0 (D ++ d) W'

/-- Every record is one of an execution. -/
theorem rec_exec {code : op → Code σ ρ} {W0 W : World op σ ρ} {D} (h : Rec code W0 D W) : ∃ H, Exec code W0 H W := by
  induction h with
  | refl => exact ⟨[], .refl⟩
  | tail _ hs ih =>
    obtain ⟨H, ih⟩ := ih
    cases hs with
    | call h => exact ⟨_, .tail ih (.call h)⟩
    | act h => exact ⟨_, .tail ih (.act h)⟩
    | lock h hf => exact ⟨_, .tail ih (.lock h hf)⟩
    | unlock h hf => exact ⟨_, .tail ih (.unlock h hf)⟩
    | unlockBad h hf => exact ⟨_, .tail ih (.unlockBad h hf)⟩
    | ret h => exact ⟨_, .tail ih (.ret h)⟩

/-- Every execution has a record. -/
theorem exec_rec {code : op → Code σ ρ} {W0 W : World op σ ρ} {H} (h : Exec code W0 H W) : ∃ D, Rec code W0 D W := by
  induction h with
  | refl => exact ⟨[], .refl⟩
  | tail _ hs ih =>
    obtain ⟨D, ih⟩ := ih
    cases hs with
    | call h => exact ⟨_, .tail ih (.call h)⟩
    | act h => exact ⟨_, .tail ih (.act h)⟩
    | lock h hf => exact ⟨_, .tail ih (.lock h hf)⟩
    | unlock h hf => exact ⟨_, .tail ih (.unlock h hf)⟩
    | unlockBad h hf => exact ⟨_, .tail ih (.unlockBad h hf)⟩
    | ret h => exact ⟨_, .tail ih (.ret h)⟩

end

/-! ## Several locks -/

namespace Multi

variable {op σ ρ : Type}

/-- The action looks at object `i`: what it does to the other objects, or what happens next, depends on it. -/
def Looks (w : (Nat → σ) → Nat → σ) (k : (Nat → σ) → Code σ ρ) (i : Nat) : Prop :=
  ∃ f g, (∀ j, j ≠ i → f j = g j) ∧ (k f ≠ k g ∨ ∃ j, j ≠ i ∧ w f j ≠ w g j)

/-- The action may change object `i`. -/
def Changes (w : (Nat → σ) → Nat → σ) (i : Nat) : Prop := ∃ f, w f i ≠ f i

/-- The steps of `Step`, with what was done. -/
inductive Rec1 (code : op → Code σ ρ) : World op σ ρ → List Did → World op σ ρ → Prop
  | call {W : World op σ ρ} {t o} : W.th t = .idle →
      Rec1 code W [] { W with th := upd W.th t (.run o (code o)) }
  | act {W : World op σ ρ} {t o w k} : W.th t = .run o (.act w k) →
      Rec1 code W [.access t (Looks w k) (Changes w)] { W with obj := w W.obj, th := upd W.th t (.run o (k W.obj)) }
  | lock {W : World op σ ρ} {t o ls k} : W.th t = .run o (.lock ls k) → CanLock W ls →
      Rec1 code W (ls.map fun l => .lock t l.1 l.2) { W with hold := grant W.hold t ls, th := upd W.th t (.run o k) }
  | unlock {W : World op σ ρ} {t o i m k} : W.th t = .run o (.unlock i m k) → W.hold i t = some m →
      Rec1 code W [.unlock t i m] { W with hold := upd W.hold i (upd (W.hold i) t none), th := upd W.th t (.run o k) }
  | unlockBad {W : World op σ ρ} {t o i m k} : W.th t = .run o (.unlock i m k) → W.hold i t ≠ some m →
      Rec1 code W [] { W with th := upd W.th t (.run o .ub) }
  | ret {W : World op σ ρ} {t o r} : W.th t = .run o (.ret r) →
      Rec1 code W [] { W with th := upd W.th t .idle }

/-- An execution and its record. -/
inductive Rec (code : op → Code σ ρ) (W0 : World op σ ρ) : List Did → World op σ ρ → Prop
  | refl : Rec code W0 [] W0
  | tail {W W' D d} : Rec code W0 D W → Rec1 code W d W' → Rec code W0 (D ++ d) W'

/-- Every record is one of an execution. -/
theorem rec_exec {code : op → Code σ ρ} {W0 W : World op σ ρ} {D} (h : Rec code W0 D W) : ∃ H, Exec code W0 H W := by
  induction h with
  | refl => exact ⟨[], .refl⟩
  | tail _ hs ih =>
    obtain ⟨H, ih⟩ := ih
    cases hs with
    | call h => exact ⟨_, .tail ih (.call h)⟩
    | act h => exact ⟨_, .tail ih (.act h)⟩
    | lock h hf => exact ⟨_, .tail ih (.lock h hf)⟩
    | unlock h hf => exact ⟨_, .tail ih (.unlock h hf)⟩
    | unlockBad h hf => exact ⟨_, .tail ih (.unlockBad h hf)⟩
    | ret h => exact ⟨_, .tail ih (.ret h)⟩

/-- Every execution has a record. -/
theorem exec_rec {code : op → Code σ ρ} {W0 W : World op σ ρ} {H} (h : Exec code W0 H W) : ∃ D, Rec code W0 D W := by
  induction h with
  | refl => exact ⟨[], .refl⟩
  | tail _ hs ih =>
    obtain ⟨D, ih⟩ := ih
    cases hs with
    | call h => exact ⟨_, .tail ih (.call h)⟩
    | act h => exact ⟨_, .tail ih (.act h)⟩
    | lock h hf => exact ⟨_, .tail ih (.lock h hf)⟩
    | unlock h hf => exact ⟨_, .tail ih (.unlock h hf)⟩
    | unlockBad h hf => exact ⟨_, .tail ih (.unlockBad h hf)⟩
    | ret h => exact ⟨_, .tail ih (.ret h)⟩

end Multi
end Gtl.Conc
