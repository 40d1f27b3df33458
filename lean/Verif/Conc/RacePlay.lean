import Verif.Conc.RaceProof
import Verif.Conc.Refine
/-!
# Records of concrete schedules
-/

namespace Gtl.Conc

open Gtl.Spec.HB

variable {op σ ρ : Type}

/-- A summary of `Did` that can be computed: `changed` means that the access certainly changes the object. -/
inductive Mark where
  | lock (t i : Nat) (m : Mode)
  | unlock (t i : Nat) (m : Mode)
  | access (t i : Nat) (changed : Bool)
  deriving DecidableEq

def Mark.Of : Mark → Did → Prop
  | .lock t i m, .lock t' i' m' => t = t' ∧ i = i' ∧ m = m'
  | .unlock t i m, .unlock t' i' m' => t = t' ∧ i = i' ∧ m = m'
  | .access t i c, .access t' r w => t = t' ∧ r i ∧ (c = true → w i)
  | _, _ => False

/-- What thread `t` does in its next step. -/
def mark (diff : σ → σ → Bool) (W : World op σ ρ) (t : Nat) : List Mark :=
  match W.th t with
  | .run _ (.act i w _) => [.access t i (diff (W.obj i) (w (W.obj i)))]
  | .run _ (.lock i m _) => [.lock t i m]
  | .run _ (.unlock i m _) => if W.hold i t = some m then [.unlock t i m] else []
  | _ => []

/-- The marks of a schedule. -/
def marks (diff : σ → σ → Bool) (code : op → Code σ ρ) (n : Nat) : World op σ ρ → List (Nat × Option op) → Option (List Mark)
  | _, [] => some []
  | W, (t, o) :: es => do
    let (_, W') ← move code n W t o
    let ms ← marks diff code n W' es
    some (mark diff W t ++ ms)

theorem move_rec {diff : σ → σ → Bool} (hd : ∀ s s', diff s s' = true → s' ≠ s) {code : op → Code σ ρ} {n : Nat}
    {W W' : World op σ ρ} {t o e} (hn : ∀ i u, n ≤ u → W.hold i u = none)
    (h : move code n W t o = some (e, W')) : ∃ d, Rec1 code W d W' ∧ List.Forall₂ Mark.Of (mark diff W t) d := by
  have hs := (move_step hn h).1
  unfold move at h
  split at h
  · cases h
  · split at h
    · rename_i ht
      cases o with
      | none => cases h
      | some o => cases h; exact ⟨_, .call ht, by simp only [mark, ht]; exact .nil⟩
    · rename_i o' c ht
      split at h
      · cases h; exact ⟨_, .ret ht, by simp only [mark, ht]; exact .nil⟩
      · cases h
      · cases h
        refine ⟨_, .act ht, ?_⟩
        simp only [mark, ht]
        exact .cons ⟨rfl, rfl, fun hc => ⟨rfl, _, hd _ _ hc⟩⟩ .nil
      · split at h
        · cases h
          refine ⟨_, .lock ht ?_, ?_⟩
          · rename_i i m k hf
            cases m with
            | excl =>
              intro u
              by_cases hu : u < n
              · simp only [freeFor, List.all_eq_true, List.mem_range] at hf
                simpa using hf u hu
              · exact hn i u (by omega)
            | shared =>
              intro u
              by_cases hu : u < n
              · simp only [freeFor, List.all_eq_true, List.mem_range] at hf
                simpa using hf u hu
              · rw [hn i u (by omega)]; simp
          · simp only [mark, ht]
            exact .cons ⟨rfl, rfl, rfl⟩ .nil
        · cases h
      · split at h
        · rename_i hf; cases h
          refine ⟨_, .unlock ht hf, ?_⟩
          simp only [mark, ht, if_pos hf]
          exact .cons ⟨rfl, rfl, rfl⟩ .nil
        · rename_i hf; cases h
          refine ⟨_, .unlockBad ht hf, ?_⟩
          simp only [mark, ht, if_neg hf]
          exact .nil

theorem marks_rec {diff : σ → σ → Bool} (hd : ∀ s s', diff s s' = true → s' ≠ s) {code : op → Code σ ρ} {n : Nat}
    {W0 : World op σ ρ} : ∀ (es : List (Nat × Option op)) {W : World op σ ρ} {D ms0 ms}, (∀ i u, n ≤ u → W.hold i u = none) →
    Rec code W0 D W → List.Forall₂ Mark.Of ms0 D → marks diff code n W es = some ms →
    ∃ D' W', Rec code W0 D' W' ∧ List.Forall₂ Mark.Of (ms0 ++ ms) D'
  | [], W, D, ms0, ms, _, hr, h0, h => by
    simp only [marks] at h; cases h
    exact ⟨D, W, hr, by rw [List.append_nil]; exact h0⟩
  | (t, o) :: es, W, D, ms0, ms, hn, hr, h0, h => by
    simp only [marks, Option.bind_eq_bind, Option.bind_eq_some_iff] at h
    obtain ⟨⟨e, W1⟩, h1, ms1, h2, h3⟩ := h
    cases h3
    obtain ⟨d, hd1, hd2⟩ := move_rec hd hn h1
    rw [← List.append_assoc]
    exact marks_rec hd es (move_step hn h1).2 (.tail hr hd1) (List.rel_append h0 hd2) h2

/-- A schedule that marks `a` before `b`, with a change, in different threads, and without any `unlock`: a race. -/
def racyMarks (ms : List Mark) (a b i : Nat) : Bool :=
  a < b && ms.all (fun m => match m with | .unlock .. => false | _ => true) &&
  match ms[a]?, ms[b]? with
  | some (.access t i' c), some (.access u j' _) => t != u && i' == i && j' == i && c
  | _, _ => false

theorem same_thread {tr : List Ev} (h : ∀ e ∈ tr, e.act = .plain ∨ ∃ x m, e.act = .lock x m) {i j : Nat} (hb : Before tr i j) :
    ∃ a b, tr[i]? = some a ∧ tr[j]? = some b ∧ a.thread = b.thread := by
  have one : ∀ i j, Edge tr i j → ∃ a b, tr[i]? = some a ∧ tr[j]? = some b ∧ a.thread = b.thread := by
    rintro i j ⟨-, a, b, ha, hb, hc⟩
    refine ⟨a, b, ha, hb, ?_⟩
    have hp := h a (List.mem_of_getElem? ha)
    rcases hc with hc | hc | ⟨x, hc, -⟩ | hc
    · exact hc
    · rcases hp with hp | ⟨x, m, hp⟩ <;> rw [hp] at hc <;> cases hc
    · rcases hp with hp | ⟨x, m, hp⟩ <;> rw [hp] at hc <;> exact hc.elim
    · rcases hp with hp | ⟨x, m, hp⟩ <;> rw [hp] at hc <;> exact hc.elim
  induction hb with
  | single h => exact one _ _ h
  | tail _ h ih =>
    obtain ⟨a, b, h1, h2, h3⟩ := ih
    obtain ⟨b', c, h4, h5, h6⟩ := one _ _ h
    rw [h2] at h4
    cases h4
    exact ⟨a, c, h1, h5, h3.trans h6⟩

theorem forall2_at {α β : Type} {R : α → β → Prop} {l : List α} {l' : List β} (h : List.Forall₂ R l l') {k : Nat} {x : α}
    (hx : l[k]? = some x) : ∃ y, l'[k]? = some y ∧ R x y := by
  induction h generalizing k with
  | nil => simp at hx
  | cons h _ ih =>
    cases k with
    | zero => simp at hx; subst hx; exact ⟨_, by simp, h⟩
    | succ k => simp at hx; simpa using ih hx

theorem not_raceFree {ms : List Mark} {D : List Did} (h : List.Forall₂ Mark.Of ms D) {a b i : Nat}
    (hr : racyMarks ms a b i = true) : ¬ RaceFree D := by
  unfold racyMarks at hr
  simp only [Bool.and_eq_true, decide_eq_true_eq] at hr
  obtain ⟨⟨hab, hall⟩, hm⟩ := hr
  split at hm
  · rename_i t i' c u j' c' ha hb
    simp only [Bool.and_eq_true, bne_iff_ne, beq_iff_eq] at hm
    obtain ⟨⟨⟨hne, rfl⟩, rfl⟩, rfl⟩ := hm
    obtain ⟨x, hx, hx'⟩ := forall2_at h ha
    obtain ⟨y, hy, hy'⟩ := forall2_at h hb
    cases x with
    | lock => exact hx'.elim
    | unlock => exact hx'.elim
    | access t' r w =>
    cases y with
    | lock => exact hy'.elim
    | unlock => exact hy'.elim
    | access u' r' w' =>
    obtain ⟨rfl, -, hw⟩ := hx'
    obtain ⟨rfl, hr', -⟩ := hy'
    intro hf
    have hb := hf a b _ _ hab hx hy ⟨hne, _, .inl ⟨hw rfl, .inl hr'⟩⟩
    have hp : ∀ e ∈ D.map Did.ev, e.act = .plain ∨ ∃ x m, e.act = .lock x m := by
      have key : ∀ {ms : List Mark} {D : List Did}, List.Forall₂ Mark.Of ms D →
          (ms.all (fun m => match m with | .unlock .. => false | _ => true)) = true →
          ∀ d ∈ D, d.ev.act = .plain ∨ ∃ x m, d.ev.act = .lock x m := by
        intro ms D h hall
        induction h with
        | nil => intro d hd; cases hd
        | @cons mk d _ _ h1 _ ih =>
          rw [List.all_cons, Bool.and_eq_true] at hall
          intro d' hd
          rcases List.mem_cons.1 hd with rfl | hd
          · cases d' with
            | lock t i m => exact .inr ⟨_, _, rfl⟩
            | unlock t i m => cases mk <;> first | exact h1.elim | cases hall.1
            | access t r w => exact .inl rfl
          · exact ih hall.2 d' hd
      intro e he
      obtain ⟨d, hd, rfl⟩ := List.mem_map.1 he
      exact key h hall d hd
    obtain ⟨e, f, he, hf', hef⟩ := same_thread hp hb
    rw [List.getElem?_map, hx] at he
    rw [List.getElem?_map, hy] at hf'
    cases he; cases hf'
    exact hne hef
  · cases hm

/-- The code when lock and unlock do nothing (`NullMutex`, phmap.hpp:142-152 and 555-564). -/
def Code.bare {σ ρ : Type} : Code σ ρ → Code σ ρ
  | .ret r => .ret r
  | .ub => .ub
  | .act i w k => .act i w fun s => (k s).bare
  | .lock _ _ k => k.bare
  | .unlock _ _ k => k.bare

end Gtl.Conc
