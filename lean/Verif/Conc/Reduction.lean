import Verif.Conc.Machine
import Mathlib.Data.List.Basic
/-!
# From critical sections to linearizability

If every call is a chain of critical sections on one lock each, where all sections but the last one change nothing that
the specification can see, and the last one does what the sequential specification says, then every execution is linearizable, no thread ever reaches
undefined behaviour, and there is no deadlock.
-/

namespace Gtl.Conc

open Gtl.Spec

variable {op σ ρ S : Type}

@[simp] theorem upd_same {β : Type} (f : Nat → β) (i x) : upd f i x i = x := by simp [upd]
theorem upd_ne {β : Type} (f : Nat → β) {i j} (x) (h : j ≠ i) : upd f i x j = f j := by simp [upd, h]
theorem upd_self {β : Type} (f : Nat → β) (i) : upd f i (f i) = f := by
  funext j; by_cases h : j = i
  · subst h; simp
  · rw [upd_ne _ _ h]

/-- Chains of at most `n` critical sections that meet the specification. -/
def Good (Abs : (Nat → σ) → S → Prop) (sem : S → op → S → ρ → Prop) (o : op) : Nat → Code σ ρ → Prop
  | 0, _ => False
  | n + 1, c => ∃ (β : Type) (i : Nat) (m : Mode) (b : Code σ β) (k : β → Code σ ρ),
      c = .sec i m b k ∧ b.Body i ∧ (m = .shared → b.ReadOnly) ∧
      ∀ A s, Abs A s → ∃ a' x, b.solo (A i) = .ok (a', x) ∧
        ((∃ r s', k x = .ret r ∧ sem s o s' r ∧ Abs (upd A i a') s') ∨ (Abs (upd A i a') s ∧ Good Abs sem o n (k x)))

/-- A thread inside a section. -/
structure Inside (Abs : (Nat → σ) → S → Prop) (sem : S → op → S → ρ → Prop) (W : World op σ ρ) (A : Nat → σ)
    (t : Nat) (o : op) (c : Code σ ρ) (n : Nat) (β : Type) (i : Nat) (m : Mode) (b0 b : Code σ β)
    (k : β → Code σ ρ) : Prop where
  code : c = b.bind (fun x => .unlock i m (k x))
  body : b.Body i
  ro : m = .shared → b.ReadOnly
  hold : W.hold i t = some m
  only : ∀ j, j ≠ i → W.hold j t = none
  run : b.solo (W.obj i) = b0.solo (A i)
  spec : ∀ A s, Abs A s → ∃ a' x, b0.solo (A i) = .ok (a', x) ∧
        ((∃ r s', k x = .ret r ∧ sem s o s' r ∧ Abs (upd A i a') s') ∨ (Abs (upd A i a') s ∧ Good Abs sem o n (k x)))

inductive TR (Abs : (Nat → σ) → S → Prop) (sem : S → op → S → ρ → Prop) (W : World op σ ρ) (A : Nat → σ) (t : Nat) :
    TS op σ ρ → Phase op ρ → Prop
  | idle : (∀ j, W.hold j t = none) → TR Abs sem W A t .idle .idle
  | waiting {o c} (n : Nat) : (∀ j, W.hold j t = none) → Good Abs sem o n c → TR Abs sem W A t (.run o c) (.pending o)
  | inside {o c n β i m b0 b k} : Inside Abs sem W A t o c n β i m b0 b k → TR Abs sem W A t (.run o c) (.pending o)
  | done {o r} : (∀ j, W.hold j t = none) → TR Abs sem W A t (.run o (.ret r)) (.done o r)

structure GInv (Abs : (Nat → σ) → S → Prop) (sem : S → op → S → ρ → Prop) (W : World op σ ρ) (A : Nat → σ) (s : S)
    (ph : Nat → Phase op ρ) : Prop where
  abs : Abs A s
  mutex : ∀ i t t', W.hold i t = some .excl → W.hold i t' ≠ none → t' = t
  same : ∀ i, (∀ t, W.hold i t ≠ some .excl) → A i = W.obj i
  th : ∀ t, TR Abs sem W A t (W.th t) (ph t)

variable {Abs : (Nat → σ) → S → Prop} {sem : S → op → S → ρ → Prop}

/-- Other threads do not notice a step that leaves their locks and the objects they protect alone. -/
theorem TR.frame {W W' : World op σ ρ} {A A' : Nat → σ} {t : Nat} {c : TS op σ ρ} {p : Phase op ρ}
    (h : TR Abs sem W A t c p) (hh : ∀ j, W'.hold j t = W.hold j t)
    (ho : ∀ j, W.hold j t ≠ none → W'.obj j = W.obj j ∧ A' j = A j) : TR Abs sem W' A' t c p := by
  cases h with
  | idle h0 => exact .idle fun j => by rw [hh, h0]
  | waiting n h0 hg => exact .waiting n (fun j => by rw [hh, h0]) hg
  | done h0 => exact .done fun j => by rw [hh, h0]
  | inside h =>
    rename_i o c n β i m b0 b k
    have := ho i (by rw [h.hold]; simp)
    exact .inside (n := n) (β := β) (i := i) (m := m) (b0 := b0) (b := b) (k := k)
      ⟨h.code, h.body, h.ro, by rw [hh, h.hold], fun j hj => by rw [hh, h.only j hj], by rw [this.1, this.2, h.run], h.spec⟩

theorem Code.solo_ro {c : Code σ ρ} : c.ReadOnly → ∀ s {s' r}, c.solo s = .ok (s', r) → s' = s := by
  induction c with
  | ret r => intro _ s s' r' h; simp only [Code.solo] at h; cases h; rfl
  | ub => intro _ s s' r' h; simp only [Code.solo] at h; cases h
  | act i w k ih =>
    intro hr s s' r' h
    simp only [Code.solo] at h
    rw [Code.ReadOnly] at hr
    have := ih s (hr.2 s) (w s) h
    rw [this, hr.1]
  | lock => intro _ s s' r' h; simp only [Code.solo] at h; cases h
  | unlock => intro _ s s' r' h; simp only [Code.solo] at h; cases h

/-- What one step does to the abstract side: nothing, or one specification event. -/
theorem step_inv {code : op → Code σ ρ} {N : op → Nat} (hcode : ∀ o, Good Abs sem o (N o) (code o))
    {W W' : World op σ ρ} {e} {A s ph} (hI : GInv Abs sem W A s ph) (hs : Step code W e W') :
    (e = none ∧ ∃ A', GInv Abs sem W' A' s ph) ∨
    ∃ (ev : LEvent op ρ) (A' : Nat → σ) (s' : S) (p : Phase op ρ), GInv Abs sem W' A' s' (upd ph ev.tid p) ∧
      Phase.Next (ph ev.tid) ev p ∧ ev.vis = e ∧ Legal sem s ev.eff.toList s' := by
  cases hs with
  | call h =>
    rename_i t o
    have ht := hI.th t
    rw [h] at ht
    generalize hp : ph t = p at ht
    cases ht with
    | idle h0 =>
      refine .inr ⟨.inv t o, A, s, .pending o, ⟨hI.abs, hI.mutex, hI.same, fun u => ?_⟩, ?_, rfl, .nil⟩
      · by_cases hu : u = t
        · subst hu
          simp only [LEvent.tid, upd_same]
          exact .waiting (N o) h0 (hcode o)
        · simp only [LEvent.tid, upd_ne _ _ hu]
          exact (hI.th u).frame (fun _ => rfl) (fun _ _ => ⟨rfl, rfl⟩)
      · simp only [LEvent.tid, hp]; exact .inv
  | ret h =>
    rename_i t o r
    have ht := hI.th t
    rw [h] at ht
    generalize hp : ph t = p at ht
    cases ht with
    | waiting n h0 hg =>
      cases n with
      | zero => exact hg.elim
      | succ n => obtain ⟨β, i, m, b, k, hc, -⟩ := hg; simp [Code.sec] at hc
    | inside hin =>
      have := hin.code
      rename_i n β i m b0 b k
      cases b <;> simp [Code.bind] at this
    | done h0 =>
      refine .inr ⟨.ret t r, A, s, .idle, ⟨hI.abs, hI.mutex, hI.same, fun u => ?_⟩, ?_, rfl, .nil⟩
      · by_cases hu : u = t
        · subst hu
          simp only [LEvent.tid, upd_same]
          exact .idle h0
        · simp only [LEvent.tid, upd_ne _ _ hu]
          exact (hI.th u).frame (fun _ => rfl) (fun _ _ => ⟨rfl, rfl⟩)
      · simp only [LEvent.tid, hp]; exact .ret
  | act h =>
    rename_i t o i w k
    have ht := hI.th t
    rw [h] at ht
    generalize hp : ph t = p at ht
    cases ht with
    | waiting n h0 hg =>
      cases n with
      | zero => exact hg.elim
      | succ n => obtain ⟨β, i, m, b, k, hc, -⟩ := hg; simp [Code.sec] at hc
    | inside hin =>
      have hc := hin.code
      rename_i n β i' m b0 b k'
      cases b with
      | act i2 w2 k2 =>
        simp only [Code.bind, Code.act.injEq] at hc
        obtain ⟨rfl, rfl, rfl⟩ := hc
        have hb := hin.body
        simp only [Code.Body] at hb
        obtain ⟨rfl, hb⟩ := hb
        have hrun := hin.run
        simp only [Code.solo] at hrun
        left
        refine ⟨rfl, A, hI.abs, hI.mutex, fun j hj => ?_, fun u => ?_⟩
        · by_cases hji : j = i
          · subst hji
            cases m with
            | excl => exact absurd hin.hold (hj t)
            | shared =>
              have := hin.ro rfl
              rw [Code.ReadOnly] at this
              simp only [upd_same, this.1]
              exact hI.same j hj
          · simp only [upd_ne _ _ hji]; exact hI.same j hj
        · by_cases hu : u = t
          · subst hu
            simp only [upd_same, hp]
            exact .inside (n := n) (β := β) (i := i) (m := m) (b0 := b0) (b := k2 (W.obj i)) (k := k')
              ⟨rfl, hb _, fun hm => by have := hin.ro hm; rw [Code.ReadOnly] at this; exact this.2 _, hin.hold,
                hin.only, by simpa using hrun, hin.spec⟩
          · simp only [upd_ne _ _ hu]
            refine (hI.th u).frame (fun _ => rfl) (fun j hj => ⟨?_, rfl⟩)
            by_cases hji : j = i
            · subst hji
              cases m with
              | excl => exact absurd (hI.mutex j t u hin.hold hj) hu
              | shared =>
                have := hin.ro rfl
                rw [Code.ReadOnly] at this
                simp only [upd_same, this.1]
            · simp only [upd_ne _ _ hji]
      | ret r => simp [Code.bind] at hc
      | ub => simp [Code.bind] at hc
      | lock => exact hin.body.elim
      | unlock => exact hin.body.elim
  | lock h hf =>
    rename_i t o i m k
    have ht := hI.th t
    rw [h] at ht
    generalize hp : ph t = p at ht
    cases ht with
    | inside hin =>
      have hc := hin.code
      have hb := hin.body
      rename_i n β i m b0 b k
      cases b with
      | lock => exact hb.elim
      | _ => simp [Code.bind] at hc
    | waiting n h0 hg =>
      cases n with
      | zero => exact hg.elim
      | succ n =>
        obtain ⟨β, i', m', b, k', hc, hbody, hro, hspec⟩ := hg
        simp only [Code.sec, Code.lock.injEq] at hc
        obtain ⟨rfl, rfl, rfl⟩ := hc
        have hsame : A i = W.obj i := by
          apply hI.same
          intro u hu
          cases m with
          | excl => rw [hf u] at hu; cases hu
          | shared => exact hf u hu
        left
        refine ⟨rfl, A, hI.abs, fun j u u' hu hu' => ?_, fun j hj => ?_, fun u => ?_⟩
        · by_cases hji : j = i
          · subst hji
            simp only [upd_same] at hu hu'
            by_cases h1 : u = t <;> by_cases h2 : u' = t
            · rw [h1, h2]
            · exfalso
              subst h1
              rw [upd_same] at hu; rw [upd_ne _ _ h2] at hu'
              cases hu
              exact hu' (hf u')
            · exfalso
              subst h2
              rw [upd_ne _ _ h1] at hu
              cases m with
              | excl => rw [hf u] at hu; cases hu
              | shared => exact hf u hu
            · rw [upd_ne _ _ h1] at hu; rw [upd_ne _ _ h2] at hu'
              exact hI.mutex j u u' hu hu'
          · simp only [upd_ne _ _ hji] at hu hu'
            exact hI.mutex j u u' hu hu'
        · by_cases hji : j = i
          · subst hji; exact hsame
          · simp only [upd_ne _ _ hji] at hj; exact hI.same j hj
        · by_cases hu : u = t
          · subst hu
            simp only [upd_same, hp]
            exact .inside (n := n) (β := β) (i := i) (m := m) (b0 := b) (b := b) (k := k')
              ⟨rfl, hbody, hro, by simp, fun j hj => by simp only [upd_ne _ _ hj]; exact h0 j, by simp only [hsame], hspec⟩
          · simp only [upd_ne _ _ hu]
            refine (hI.th u).frame (fun j => ?_) (fun _ _ => ⟨rfl, rfl⟩)
            by_cases hji : j = i
            · subst hji; simp only [upd_same, upd_ne _ _ hu]
            · simp only [upd_ne _ _ hji]
  | unlockBad h hb =>
    rename_i t o i m k
    have ht := hI.th t
    rw [h] at ht
    generalize hp : ph t = p at ht
    cases ht with
    | waiting n h0 hg =>
      cases n with
      | zero => exact hg.elim
      | succ n => obtain ⟨β, i, m, b, k, hc, -⟩ := hg; simp [Code.sec] at hc
    | inside hin =>
      have hc := hin.code
      rename_i n β i' m' b0 b k'
      cases b with
      | unlock => exact hin.body.elim
      | ret x =>
        simp only [Code.bind, Code.unlock.injEq] at hc
        obtain ⟨rfl, rfl, rfl⟩ := hc
        exact absurd hin.hold hb
      | _ => simp [Code.bind] at hc
  | unlock h hb =>
    rename_i t o i m k
    have ht := hI.th t
    rw [h] at ht
    generalize hp : ph t = p at ht
    cases ht with
    | waiting n h0 hg =>
      cases n with
      | zero => exact hg.elim
      | succ n => obtain ⟨β, i, m, b, k, hc, -⟩ := hg; simp [Code.sec] at hc
    | inside hin =>
      have hc := hin.code
      rename_i n β i' m' b0 b k'
      cases b with
      | unlock => exact hin.body.elim
      | act => simp [Code.bind] at hc
      | ub => simp [Code.bind] at hc
      | lock => simp [Code.bind] at hc
      | ret x =>
        simp only [Code.bind, Code.unlock.injEq] at hc
        obtain ⟨rfl, rfl, rfl⟩ := hc
        have hrun := hin.run
        simp only [Code.solo] at hrun
        obtain ⟨a', x', hsolo, hk⟩ := hin.spec A s hI.abs
        rw [hsolo] at hrun
        injection hrun with hrun
        injection hrun with ha hx
        subst hx
        -- the committed state of this object is now the actual one
        have hmx : ∀ (j u u' : Nat), upd W.hold i (upd (W.hold i) t none) j u = some .excl →
            upd W.hold i (upd (W.hold i) t none) j u' ≠ none → u' = u := by
          intro j u u' hu hu'
          by_cases hji : j = i
          · subst hji
            simp only [upd_same] at hu hu'
            have h1 : u ≠ t := by rintro rfl; simp at hu
            have h2 : u' ≠ t := by rintro rfl; simp at hu'
            rw [upd_ne _ _ h1] at hu; rw [upd_ne _ _ h2] at hu'
            exact hI.mutex j u u' hu hu'
          · simp only [upd_ne _ _ hji] at hu hu'
            exact hI.mutex j u u' hu hu'
        have hother : ∀ u, u ≠ t → ∀ j, upd W.hold i (upd (W.hold i) t none) j u = W.hold j u := by
          intro u hu j
          by_cases hji : j = i
          · subst hji; simp only [upd_same, upd_ne _ _ hu]
          · simp only [upd_ne _ _ hji]
        have hmine : ∀ j, upd W.hold i (upd (W.hold i) t none) j t = none := by
          intro j
          by_cases hji : j = i
          · subst hji; simp only [upd_same]
          · simp only [upd_ne _ _ hji]; exact hin.only j hji
        have hsh : m = .shared → A i = W.obj i := by
          intro hm
          apply hI.same
          intro u hu
          have := hI.mutex i u t hu (by rw [hb]; simp)
          subst this
          rw [hb, hm] at hu; cases hu
        have hsame : ∀ j, (∀ u, upd W.hold i (upd (W.hold i) t none) j u ≠ some .excl) →
            upd A i (W.obj i) j = W.obj j := by
          intro j hj
          by_cases hji : j = i
          · subst hji; simp
          · simp only [upd_ne _ _ hji] at hj ⊢; exact hI.same j hj
        have hAo : ∀ u, u ≠ t → ∀ j, W.hold j u ≠ none → upd A i (W.obj i) j = A j := by
          intro u hu j hj
          by_cases hji : j = i
          · subst hji
            cases m with
            | excl => exact absurd (hI.mutex j t u hb hj) hu
            | shared => simp [hsh rfl]
          · rw [upd_ne _ _ hji]
        rcases hk with ⟨r, s', hk, hsem, habs⟩ | ⟨hA, hg⟩
        · right
          refine ⟨.lin t o r, upd A i (W.obj i), s', .done o r, ⟨by rw [ha]; exact habs, hmx, hsame, fun u => ?_⟩, ?_, rfl, .cons hsem .nil⟩
          · by_cases hu : u = t
            · subst hu
              simp only [LEvent.tid, upd_same, hk]
              exact .done hmine
            · simp only [LEvent.tid, upd_ne _ _ hu]
              exact (hI.th u).frame (hother u hu) (fun j hj => ⟨rfl, hAo u hu j hj⟩)
          · simp only [LEvent.tid, hp]; exact .lin
        · left
          refine ⟨rfl, upd A i (W.obj i), by rw [ha]; exact hA, hmx, hsame, fun u => ?_⟩
          by_cases hu : u = t
          · subst hu
            simp only [upd_same, hp]
            exact .waiting n hmine hg
          · simp only [upd_ne _ _ hu]
            exact (hI.th u).frame (hother u hu) (fun j hj => ⟨rfl, hAo u hu j hj⟩)

theorem path_snoc {p q r : Phase op ρ} {es e} (h : Phase.Path p es q) (hn : Phase.Next q e r) :
    Phase.Path p (es ++ [e]) r := by
  induction h with
  | nil => exact .cons hn .nil
  | cons h0 _ ih => exact .cons h0 (ih hn)

theorem legal_append {s s' s'' : S} {l l' : List (op × ρ)} (h : Legal sem s l s') (h' : Legal sem s' l' s'') :
    Legal sem s (l ++ l') s'' := by
  induction h with
  | nil => exact h'
  | cons h0 _ ih => exact .cons h0 (ih h')

theorem start_inv {A : Nat → σ} {s : S} (h : Abs A s) :
    GInv Abs sem (start A : World op σ ρ) A s (fun _ => .idle) :=
  ⟨h, fun _ _ _ h => (by simp [start] at h), fun _ _ => rfl, fun _ => TR.idle fun _ => rfl⟩

/-- Every execution can be explained, and its state is related to the explanation's state. -/
theorem exec_inv {code : op → Code σ ρ} {N : op → Nat} (hcode : ∀ o, Good Abs sem o (N o) (code o)) {A : Nat → σ} {s : S}
    (h0 : Abs A s) {W H} (he : Exec code (start A) H W) :
    ∃ (E : List (LEvent op ρ)) (A' : Nat → σ) (s' : S) (ph : Nat → Phase op ρ), GInv Abs sem W A' s' ph ∧
      E.filterMap LEvent.vis = H ∧ Legal sem s (E.filterMap LEvent.eff) s' ∧
      ∀ t, Phase.Path .idle (E.filter (fun e => e.tid == t)) (ph t) := by
  induction he with
  | refl => exact ⟨[], A, s, fun _ => .idle, start_inv h0, rfl, .nil, fun t => .nil⟩
  | tail _ hs ih =>
    obtain ⟨E, A', s', ph, hI, hv, hl, ht⟩ := ih
    rcases step_inv hcode hI hs with ⟨rfl, A'', hI'⟩ | ⟨ev, A'', s'', p, hI', hn, hvis, hleg⟩
    · exact ⟨E, A'', s', ph, hI', by simp [hv], hl, ht⟩
    · refine ⟨E ++ [ev], A'', s'', upd ph ev.tid p, hI', ?_, ?_, fun t => ?_⟩
      · rw [List.filterMap_append, hv, ← hvis]
        cases ev <;> rfl
      · rw [List.filterMap_append]
        refine legal_append hl ?_
        cases ev <;> exact hleg
      · rw [List.filter_append]
        by_cases htt : t = ev.tid
        · subst htt
          rw [upd_same]
          have : [ev].filter (fun e => e.tid == ev.tid) = [ev] := by simp
          rw [this]
          exact path_snoc (ht _) hn
        · rw [upd_ne _ _ htt]
          have : [ev].filter (fun e => e.tid == t) = [] := by
            simp; exact fun h => htt h.symm
          rw [this, List.append_nil]
          exact ht t

theorem linearizable {code : op → Code σ ρ} {N : op → Nat} (hcode : ∀ o, Good Abs sem o (N o) (code o)) {A : Nat → σ} {s : S}
    (h0 : Abs A s) {W H} (he : Exec code (start A) H W) : Linearizable sem s H := by
  obtain ⟨E, A', s', ph, _, hv, hl, ht⟩ := exec_inv hcode h0 he
  exact ⟨E, s', hv, hl, fun t => ⟨_, ht t⟩⟩

/-- Nobody in a call: the objects are in the state the explanation ends in, and every call has answered. -/
theorem quiescent {code : op → Code σ ρ} {N : op → Nat} (hcode : ∀ o, Good Abs sem o (N o) (code o)) {A : Nat → σ} {s : S}
    (h0 : Abs A s) {W H} (he : Exec code (start A) H W) (hq : ∀ t, W.th t = .idle) :
    ∃ E s', Explains sem s H E s' ∧ Abs W.obj s' ∧ ∀ t, Phase.Path .idle (E.filter (fun e => e.tid == t)) .idle := by
  obtain ⟨E, A', s', ph, hI, hv, hl, ht⟩ := exec_inv hcode h0 he
  have hph : ∀ t, ph t = .idle ∧ ∀ j, W.hold j t = none := by
    intro t
    have := hI.th t
    rw [hq t] at this
    generalize hp : ph t = p at this
    cases this with
    | idle h => exact ⟨rfl, h⟩
  have hA : A' = W.obj := by
    funext i
    exact hI.same i fun t => by rw [(hph t).2]; simp
  exact ⟨E, s', ⟨hv, hl, fun t => ⟨_, ht t⟩⟩, hA ▸ hI.abs, fun t => by have := ht t; rwa [(hph t).1] at this⟩

/-- No thread ever runs into undefined behaviour. -/
theorem no_ub {code : op → Code σ ρ} {N : op → Nat} (hcode : ∀ o, Good Abs sem o (N o) (code o)) {A : Nat → σ} {s : S}
    (h0 : Abs A s) {W H} (he : Exec code (start A) H W) (t : Nat) (o : op) : W.th t ≠ .run o .ub := by
  intro hu
  obtain ⟨E, A', s', ph, hI, -⟩ := exec_inv hcode h0 he
  have ht := hI.th t
  rw [hu] at ht
  generalize hp : ph t = p at ht
  cases ht with
  | waiting n h0 hg =>
    cases n with
    | zero => exact hg.elim
    | succ n => obtain ⟨β, i, m, b, k, hc, -⟩ := hg; simp [Code.sec] at hc
  | inside hin =>
    have hc := hin.code
    have hr := hin.run
    obtain ⟨a', x, hs, -⟩ := hin.spec A' s' hI.abs
    rename_i n β i m b0 b k
    cases b with
    | ub => rw [hs] at hr; simp only [Code.solo] at hr; cases hr
    | _ => simp [Code.bind] at hc

/-- If some thread is in a call, some thread that is in a call is not waiting for a lock: no deadlock. -/
theorem progress {code : op → Code σ ρ} {N : op → Nat} (hcode : ∀ o, Good Abs sem o (N o) (code o)) {A : Nat → σ} {s : S}
    (h0 : Abs A s) {W H} (he : Exec code (start A) H W) (t : Nat) (hr : W.th t ≠ .idle) :
    ∃ t', W.th t' ≠ .idle ∧ ¬ Blocked W t' := by
  obtain ⟨E, A', s', ph, hI, -⟩ := exec_inv hcode h0 he
  by_cases hb : Blocked W t
  · obtain ⟨o, i, m, k, h, hf⟩ := hb
    have : ∃ t', W.hold i t' ≠ none := by
      by_contra hn
      push Not at hn
      apply hf
      cases m with
      | excl => exact hn
      | shared => intro u; rw [hn u]; simp
    obtain ⟨t', ht'⟩ := this
    have ht := hI.th t'
    generalize hc : W.th t' = c at ht
    generalize hp : ph t' = p at ht
    cases ht with
    | idle h => exact absurd (h i) ht'
    | waiting n h _ => exact absurd (h i) ht'
    | done h => exact absurd (h i) ht'
    | inside hin =>
      refine ⟨t', by rw [hc]; simp, ?_⟩
      rintro ⟨o', i', m', k', hl, -⟩
      rw [hc] at hl
      injection hl with _ hl
      have hco := hin.code
      have hb := hin.body
      rw [hl] at hco
      rename_i b _ _
      cases b with
      | lock => exact hb.elim
      | _ => simp [Code.bind] at hco
  · exact ⟨t, hr, hb⟩

end Gtl.Conc
