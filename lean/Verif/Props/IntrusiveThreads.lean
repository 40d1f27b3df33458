import Verif.Intrusive.ThreadSim
import Mathlib.Logic.Relation
/-!
# `intrusive_ptr` shared by threads (C42)
-/

namespace Gtl.Props.IntrusiveThreads

open Gtl.Intrusive.Threads
open Gtl.Conc (TS upd Code World Step)

/-- `n` threads that own pointers `w` at the beginning can get into state `s`. -/
def Reach (code : Op → Code Cell Unit) (n : Nat) (w : Own) (s : St) : Prop := Relation.ReflTransGen (OStep code n) (start n w) s

theorem reach_inv {n : Nat} {w : Own} (hw : ∀ i, 0 < w.total n i ∧ w.total n i < 2 ^ 32) {s : St} (hr : Reach safe n w s) : ∃ kd, Inv n kd s := by
  induction hr with
  | refl => exact ⟨_, start_inv hw⟩
  | tail _ hs ih =>
    obtain ⟨kd, hi⟩ := ih
    exact step_inv hi hs

/-- With `thread_safe_counter`, in every state of every schedule of any number of threads: no thread has used a deleted
object, no object was deleted twice, and no object that somebody owns a pointer to is deleted. -/
theorem C42_safe {n : Nat} {w : Own} (hw : ∀ i, 0 < w.total n i ∧ w.total n i < 2 ^ 32) {s : St} (hr : Reach safe n w s) :
    (∀ t o, s.1.th t ≠ .run o .ub) ∧
    ∀ i, (s.1.obj i).deletes ≤ 1 ∧ ((s.1.obj i).live = true ↔ (s.1.obj i).deletes = 0) ∧
      (0 < s.2.total n i → (s.1.obj i).live = true) := by
  obtain ⟨kd, hi⟩ := reach_inv hw hr
  refine ⟨fun t o h => ?_, fun i => ?_⟩
  · rw [hi.th t] at h
    cases hk : kd t <;> rw [hk] at h <;> cases h
  · obtain ⟨g1, g2, g3, g4⟩ := hi.obj i
    rcases Nat.eq_zero_or_pos (S n kd s.2 i) with h | h
    · have ht : s.2.total n i ≤ S n kd s.2 i := Finset.sum_le_sum (fun t _ => Nat.le_add_right _ _)
      rcases g4 h with h' | h'
      · refine ⟨by omega, ⟨fun _ => h'.2.1, fun _ => h'.1⟩, fun h0 => by omega⟩
      · refine ⟨by omega, ⟨fun e => ?_, fun e => by omega⟩, fun h0 => by omega⟩
        rw [h'.1] at e; cases e
    · have h' := g3 h
      exact ⟨by omega, ⟨fun _ => h'.2.1, fun _ => h'.1⟩, fun _ => h'.1⟩

/-- When nobody is in the middle of a call: the objects that nobody owns a pointer to have been deleted, exactly once; the
others have not, and `use_count()` is the number of pointers. -/
theorem C42_quiescent {n : Nat} {w : Own} (hw : ∀ i, 0 < w.total n i ∧ w.total n i < 2 ^ 32) {s : St} (hr : Reach safe n w s)
    (hq : ∀ t, s.1.th t = .idle) (i : Nat) :
    (s.2.total n i = 0 → (s.1.obj i).live = false ∧ (s.1.obj i).deletes = 1) ∧
    (0 < s.2.total n i → (s.1.obj i).live = true ∧ (s.1.obj i).deletes = 0 ∧ (s.1.obj i).rc = s.2.total n i) := by
  obtain ⟨kd, hi⟩ := reach_inv hw hr
  have hk : ∀ t, kd t = .idle := by
    intro t
    have := hi.th t
    rw [hq t] at this
    cases h : kd t <;> rw [h] at this <;> first | rfl | cases this
  have hk' : kd = fun _ => .idle := funext hk
  subst hk'
  obtain ⟨g1, g2, g3, g4⟩ := hi.obj i
  have e1 : S n (fun _ => Kind.idle) s.2 i = s.2.total n i := rfl
  have e2 : D n (fun _ => Kind.idle) i = 0 := by unfold D Kind.dels; simp
  rw [e1] at g1 g3 g4
  rw [e2] at g3 g4
  refine ⟨fun h => ?_, fun h => ⟨(g3 h).1, (g3 h).2.1, g1⟩⟩
  rcases g4 h with h' | h'
  · have := h'.2.2; omega
  · exact ⟨h'.1, h'.2.1⟩

/-- Threads never wait: in every state, a thread that is in a call can take a step. -/
theorem C42_progress {n : Nat} {w : Own} (hw : ∀ i, 0 < w.total n i ∧ w.total n i < 2 ^ 32) {s : St} (hr : Reach safe n w s)
    (t : Nat) (ht : s.1.th t ≠ .idle) : ∃ s', OStep safe n s s' ∧ s'.1.th t ≠ s.1.th t := by
  obtain ⟨kd, hi⟩ := reach_inv hw hr
  obtain ⟨W, w'⟩ := s
  have hth := hi.th t
  dsimp only at hth ht ⊢
  have hu : ∀ (x : TS Op Cell Unit), upd W.th t x t = x := fun x => by unfold upd; rw [if_pos rfl]
  have hact : ∀ o i f k, W.th t = .run o (.act i f k) → (k (W.obj i) ≠ .act i f k) →
      ∃ s', OStep safe n (W, w') s' ∧ s'.1.th t ≠ W.th t := by
    intro o i f k h hne
    refine ⟨_, .go (.act h), ?_⟩
    dsimp only
    rw [hu, h]
    intro e
    injection e with _ e
    exact hne e
  have hret : ∀ o, W.th t = .run o (.ret ()) → ∃ s', OStep safe n (W, w') s' ∧ s'.1.th t ≠ W.th t := by
    intro o h
    refine ⟨_, .ret h (.ret h), ?_⟩
    dsimp only
    rw [hu, h]
    intro e; cases e
  have hal : ∀ (c : Cell) k i f k', (∀ e : k = .act i f k', False) → alive c k ≠ .act i f k' := by
    intro c k i f k' h e
    unfold alive at e
    split at e
    · exact h e
    · cases e
  cases hk : kd t with
  | idle => rw [hk] at hth; exact absurd hth ht
  | copy0 i => rw [hk] at hth; exact hact _ _ _ _ hth (hal _ _ _ _ _ (fun e => by cases e))
  | copy1 i => rw [hk] at hth; exact hret _ hth
  | drop0 i =>
    rw [hk] at hth
    refine hact _ _ _ _ hth (hal _ _ _ _ _ (fun e => ?_))
    split at e
    · unfold del at e
      injection e with _ e _
      have := congrFun e { rc := 0, live := true, deletes := 0 }
      injection this with e1
      cases e1
    · cases e
  | dropDel i => rw [hk] at hth; exact hact _ _ _ _ hth (hal _ _ _ _ _ (fun e => by cases e))
  | dropRet i => rw [hk] at hth; exact hret _ hth
  | use0 i => rw [hk] at hth; exact hact _ _ _ _ hth (hal _ _ _ _ _ (fun e => by cases e))
  | useRet i => rw [hk] at hth; exact hret _ hth

/-! ## Executions -/

inductive Cmd where
  | call (t : Nat) (o : Op)
  | go (t : Nat)
  | give (t t' i : Nat)

/-- Run one command of a schedule. -/
def exec (code : Op → Code Cell Unit) (n : Nat) : Cmd → St → Option St
  | .call t o, (W, w) =>
    match W.th t with
    | .idle =>
      if t < n ∧ 0 < w t o.obj ∧ w.total n o.obj + n < 2 ^ 32 then
        some ({ W with th := upd W.th t (.run o (code o)) }, match o with | .drop i => w.sub t i | _ => w)
      else none
    | _ => none
  | .go t, (W, w) =>
    match W.th t with
    | .run _ (.ret _) => none
    | .run o (.act i f k) => some ({ W with obj := upd W.obj i (f (W.obj i)), th := upd W.th t (.run o (k (W.obj i))) }, w)
    | _ => none
  | .give t t' i, (W, w) =>
    match W.th t with
    | .idle => if t < n ∧ t' < n ∧ 0 < w t i then some (W, (w.sub t i).add t' i) else none
    | .run o (.ret _) => some ({ W with th := upd W.th t .idle }, match o with | .copy i => w.add t i | _ => w)
    | _ => none

theorem exec_step {code : Op → Code Cell Unit} {n : Nat} {c : Cmd} {s s' : St} (h : exec code n c s = some s') : OStep code n s s' := by
  obtain ⟨W, w⟩ := s
  cases c with
  | call t o =>
    unfold exec at h
    dsimp only at h
    split at h
    · rename_i hidle
      split at h
      · rename_i hc
        injection h with h
        subst h
        exact .call hc.1 hc.2.1 (fun i e => by subst e; exact hc.2.2) (.call hidle)
      · cases h
    · cases h
  | go t =>
    unfold exec at h
    dsimp only at h
    split at h
    · cases h
    · rename_i hr
      injection h with h
      subst h
      exact .go (.act hr)
    · cases h
  | give t t' i =>
    unfold exec at h
    dsimp only at h
    split at h
    · rename_i hidle
      split at h
      · rename_i hc
        injection h with h
        subst h
        exact .give hc.1 hc.2.1 hidle hc.2.2
      · cases h
    · rename_i hr
      injection h with h
      subst h
      exact .ret hr (.ret hr)
    · cases h

def play (code : Op → Code Cell Unit) (n : Nat) : List Cmd → St → Option St
  | [], s => some s
  | c :: cs, s => (exec code n c s).bind (play code n cs)

theorem play_reach {code : Op → Code Cell Unit} {n : Nat} : ∀ {cs : List Cmd} {s s' : St}, play code n cs s = some s' →
    Relation.ReflTransGen (OStep code n) s s'
  | [], s, s', h => by
    unfold play at h
    injection h with h
    subst h
    exact .refl
  | c :: cs, s, s', h => by
    unfold play at h
    obtain ⟨s1, h1, h2⟩ := Option.bind_eq_some_iff.1 h
    exact .head (exec_step h1) (play_reach h2)

/-- Two threads with one pointer each. -/
def exOwn : Own := fun t _ => if t < 2 then 1 else 0

theorem exOwn_ok : ∀ i, 0 < exOwn.total 2 i ∧ exOwn.total 2 i < 2 ^ 32 := by
  intro i
  have : exOwn.total 2 i = 2 := rfl
  rw [this]
  decide

/-- The end of a call of thread `t`. -/
abbrev fin (t : Nat) : Cmd := .give t t 0

/-- Both copy at once; thread 0 hands a pointer over and drops the other; thread 1 drops all. -/
def exSched : List Cmd :=
  [.call 0 (.copy 0), .call 1 (.copy 0), .go 0, .go 1, fin 1, fin 0, .give 0 1 0, .call 0 (.drop 0), .call 1 (.use 0), .go 1, .go 0,
   fin 1, fin 0, .call 1 (.drop 0), .go 1, fin 1, .call 1 (.drop 0), .go 1, fin 1, .call 1 (.drop 0), .go 1, .go 1, fin 1]

theorem exSched_run : (match play safe 2 exSched (start 2 exOwn) with
    | some s => decide (s.1.obj 0 = { rc := 0, live := false, deletes := 1 } ∧ s.2.total 2 0 = 0)
    | none => false) = true := by decide +kernel

/-- With `thread_unsafe_counter`: two copies at once, one increment is lost; three of the four pointers are dropped, and the
fourth is used. -/
def badSched : List Cmd :=
  [.call 0 (.copy 0), .call 1 (.copy 0), .go 0, .go 1, .go 0, .go 1, fin 1, fin 0,
   .call 0 (.drop 0), .go 0, .go 0, fin 0, .call 0 (.drop 0), .go 0, .go 0, fin 0,
   .call 1 (.drop 0), .go 1, .go 1, .go 1, fin 1, .call 1 (.use 0), .go 1]

def isUb : TS Op Cell Unit → Bool
  | .run _ .ub => true
  | _ => false

theorem badSched_run : (match play unsafe_ 2 badSched (start 2 exOwn) with
    | some s => isUb (s.1.th 1)
    | none => false) = true := by decide +kernel

/-- With `thread_unsafe_counter` a thread can use an object, through a pointer that it owns, after its deletion. -/
theorem C42_unsafe_refuted : ∃ n w s t o, (∀ i, 0 < w.total n i ∧ w.total n i < 2 ^ 32) ∧ Reach unsafe_ n w s ∧ s.1.th t = .run o .ub := by
  have h := badSched_run
  split at h
  · rename_i s hs
    have hr := play_reach hs
    cases ht : s.1.th 1 with
    | idle => rw [ht] at h; cases h
    | run o c =>
      rw [ht] at h
      cases c <;> first | (cases h; done) | exact ⟨2, exOwn, s, 1, o, exOwn_ok, hr, ht⟩
  · cases h

end Gtl.Props.IntrusiveThreads
