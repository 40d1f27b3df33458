import Verif.Conc.MultiRed
/-!
# From nested critical sections to stepwise explanations

Code that takes one lock after the other, releases them in reverse order, and works on the object of a lock right after
taking it. Every execution has a stepwise explanation and no thread ever reaches undefined behaviour. If locks are taken
in increasing order, there is no deadlock.
-/

namespace Gtl.Conc.Multi.Nest

open Gtl.Spec
open Gtl.Conc (upd_same upd_ne upd_self legal_append)

variable {op st σ ρ' ρ S : Type}

/-- What a section does to the specification: one step with an answer, or nothing. -/
def Meets {β : Type} (Abs : (Nat → σ) → S → Prop) (sem : S → st → S → ρ' → Prop) (s0 : st) (b : Code σ β) (ans : β → Option ρ') :
    Prop :=
  ∀ A s, Abs A s → ∃ A' x, b.solo A = .ok (A', x) ∧ match ans x with
    | some y => ∃ s', sem s s0 s' y ∧ Abs A' s'
    | none => Abs A' s

/-- What is left of a plan. -/
def after (s0 : st) (kp : ρ' → Plan st ρ' ρ) : Option ρ' → Plan st ρ' ρ
  | some y => kp y
  | none => .step s0 kp

/-- Code with nested sections that carries out a plan while holding the locks `ls`. `R` is what is known about the order in
which locks are taken. -/
inductive NGood (Abs : (Nat → σ) → S → Prop) (sem : S → st → S → ρ' → Prop) (R : List (Nat × Mode) → Nat → Prop) :
    List (Nat × Mode) → Plan st ρ' ρ → Code σ ρ → Prop
  | ret {r} : NGood Abs sem R [] (.ret r) (.ret r)
  | unlock {i m ls p k} : NGood Abs sem R ls p k → NGood Abs sem R ((i, m) :: ls) p (.unlock i m k)
  | sec {ls s0 kp i m} {β : Type} {b : Code σ β} {k : β → Code σ ρ} {ans : β → Option ρ'} : b.Body [(i, m)] →
      i ∉ ls.map Prod.fst → R ls i → Meets Abs sem s0 b ans →
      (∀ x, NGood Abs sem R ((i, m) :: ls) (after s0 kp (ans x)) (k x)) →
      NGood Abs sem R ls (.step s0 kp) (.lock [(i, m)] (b.bind k))

/-- The invariant of one thread. -/
inductive TR (Abs : (Nat → σ) → S → Prop) (sem : S → st → S → ρ' → Prop) (R : List (Nat × Mode) → Nat → Prop)
    (W : World op σ ρ) (A : Nat → σ) (t : Nat) : TS op σ ρ → SPhase st ρ' ρ → Prop
  | idle : Holds W t [] → TR Abs sem R W A t .idle .idle
  | at {o c p} (ls) : Holds W t ls → (ls.map Prod.fst).Nodup → (∀ j ∈ ls.map Prod.fst, A j = W.obj j) →
      NGood Abs sem R ls p c → TR Abs sem R W A t (.run o c) (.left p)
  | inside {o c s0 kp} (ls i m) (β : Type) (b0 b : Code σ β) (k : β → Code σ ρ) (ans : β → Option ρ') : c = b.bind k →
      (∀ x, b ≠ .ret x) → Holds W t ((i, m) :: ls) → (((i, m) :: ls).map Prod.fst).Nodup →
      (∀ j ∈ ls.map Prod.fst, A j = W.obj j) → b.Body [(i, m)] →
      (∀ g, b.solo (upd g i (W.obj i)) = b0.solo (upd g i (A i))) → Meets Abs sem s0 b0 ans →
      (∀ x, NGood Abs sem R ((i, m) :: ls) (after s0 kp (ans x)) (k x)) →
      TR Abs sem R W A t (.run o c) (.left (.step s0 kp))

structure GInv (Abs : (Nat → σ) → S → Prop) (sem : S → st → S → ρ' → Prop) (R : List (Nat × Mode) → Nat → Prop)
    (W : World op σ ρ) (A : Nat → σ) (s : S) (ph : Nat → SPhase st ρ' ρ) : Prop where
  abs : Abs A s
  mutex : ∀ i t t', W.hold i t = some .excl → W.hold i t' ≠ none → t' = t
  same : ∀ i, (∀ t, W.hold i t ≠ some .excl) → A i = W.obj i
  th : ∀ t, TR Abs sem R W A t (W.th t) (ph t)

variable {Abs : (Nat → σ) → S → Prop} {sem : S → st → S → ρ' → Prop} {R : List (Nat × Mode) → Nat → Prop}

/-- Other threads do not notice a step that leaves their locks and the objects they protect alone. -/
theorem TR.frame {W W' : World op σ ρ} {A A' : Nat → σ} {t : Nat} {c : TS op σ ρ} {p : SPhase st ρ' ρ}
    (h : TR Abs sem R W A t c p) (hh : ∀ j, W'.hold j t = W.hold j t)
    (ho : ∀ j, W.hold j t ≠ none → W'.obj j = W.obj j ∧ A' j = A j) : TR Abs sem R W' A' t c p := by
  have hH : ∀ ls, Holds W t ls → Holds W' t ls := fun ls h j => by rw [hh, h j]
  cases h with
  | idle h0 => exact .idle (hH _ h0)
  | «at» ls h1 h2 h3 h4 =>
    refine .at ls (hH _ h1) h2 (fun j hj => ?_) h4
    have := ho j (h1.held hj)
    rw [this.1, this.2, h3 j hj]
  | inside ls i m β b0 b k ans hc hr h1 h2 h3 h4 h5 h6 h7 =>
    refine .inside ls i m β b0 b k ans hc hr (hH _ h1) h2 (fun j hj => ?_) h4 (fun g => ?_) h6 h7
    · have := ho j (h1.held (by rw [List.map_cons]; exact List.mem_cons_of_mem _ hj))
      rw [this.1, this.2, h3 j hj]
    · have := ho i (h1.held (by rw [List.map_cons]; exact List.mem_cons_self))
      rw [this.1, this.2, h5 g]

/-- What one step does to the abstract side: nothing, or one event of the explanation. -/
def Outcome (Abs : (Nat → σ) → S → Prop) (sem : S → st → S → ρ' → Prop) (R : List (Nat × Mode) → Nat → Prop)
    (plan : op → Plan st ρ' ρ) (e : Option (Event op ρ)) (W' : World op σ ρ) (s : S) (ph : Nat → SPhase st ρ' ρ) : Prop :=
  (e = none ∧ ∃ A', GInv Abs sem R W' A' s ph) ∨
    ∃ (ev : SEvent op st ρ' ρ) (A' : Nat → σ) (s' : S) (p : SPhase st ρ' ρ), GInv Abs sem R W' A' s' (upd ph ev.tid p) ∧
      SPhase.Next plan (ph ev.tid) ev p ∧ ev.vis = e ∧ Legal sem s ev.step.toList s'

/-- A thread in a section whose body may have come to its end. -/
theorem settle {plan : op → Plan st ρ' ρ} {W : World op σ ρ} {A : Nat → σ} {s : S} {ph : Nat → SPhase st ρ' ρ} {t : Nat} {o : op}
    {ls : List (Nat × Mode)} {i : Nat} {m : Mode} {β : Type} {b0 b : Code σ β} {k : β → Code σ ρ} {ans : β → Option ρ'} {s0 : st}
    {kp : ρ' → Plan st ρ' ρ} (habs : Abs A s) (hmut : ∀ i t t', W.hold i t = some .excl → W.hold i t' ≠ none → t' = t)
    (hsame : ∀ i, (∀ t, W.hold i t ≠ some .excl) → A i = W.obj i) (hoth : ∀ u, u ≠ t → TR Abs sem R W A u (W.th u) (ph u))
    (ht : W.th t = .run o (b.bind k)) (hp : ph t = .left (.step s0 kp)) (h1 : Holds W t ((i, m) :: ls))
    (h2 : (((i, m) :: ls).map Prod.fst).Nodup) (h3 : ∀ j ∈ ls.map Prod.fst, A j = W.obj j) (h4 : b.Body [(i, m)])
    (h5 : ∀ g, b.solo (upd g i (W.obj i)) = b0.solo (upd g i (A i))) (h6 : Meets Abs sem s0 b0 ans)
    (h7 : ∀ x, NGood Abs sem R ((i, m) :: ls) (after s0 kp (ans x)) (k x)) : Outcome Abs sem R plan none W s ph := by
  by_cases hb : ∃ x, b = .ret x
  · obtain ⟨x, rfl⟩ := hb
    have hA : b0.solo A = .ok (upd A i (W.obj i), x) := by
      have := h5 A
      rw [upd_self] at this
      rw [← this]; rfl
    obtain ⟨A', x', hs, hans⟩ := h6 A s habs
    rw [hA] at hs
    simp only [Res.ok.injEq, Prod.mk.injEq] at hs
    obtain ⟨rfl, rfl⟩ := hs
    have hti : W.hold i t = some m := by rw [h1 i]; simp [lk]
    have hsame' : ∀ j, (∀ u, W.hold j u ≠ some .excl) → upd A i (W.obj i) j = W.obj j := by
      intro j hj
      by_cases hji : j = i
      · subst hji; rw [upd_same]
      · rw [upd_ne _ _ hji]; exact hsame j hj
    have hoth' : ∀ u, u ≠ t → TR Abs sem R W (upd A i (W.obj i)) u (W.th u) (ph u) := by
      intro u hu
      refine (hoth u hu).frame (fun _ => rfl) (fun j hj => ⟨rfl, ?_⟩)
      by_cases hji : j = i
      · subst hji
        rw [upd_same]
        cases m with
        | excl => exact absurd (hmut j t u hti hj) hu
        | shared =>
          refine (hsame j fun v hv => ?_).symm
          have := hmut j v t hv (by rw [hti]; simp)
          subst this
          rw [hti] at hv; cases hv
      · rw [upd_ne _ _ hji]
    have hme : ∀ j ∈ ((i, m) :: ls).map Prod.fst, upd A i (W.obj i) j = W.obj j := by
      intro j hj
      by_cases hji : j = i
      · subst hji; rw [upd_same]
      · rw [upd_ne _ _ hji]
        rw [List.map_cons, List.mem_cons] at hj
        exact h3 j (hj.resolve_left hji)
    cases ha : ans x with
    | none =>
      rw [ha] at hans
      refine .inl ⟨rfl, _, hans, hmut, hsame', fun u => ?_⟩
      by_cases hu : u = t
      · subst hu
        rw [ht, hp]
        have := h7 x
        rw [ha] at this
        exact .at _ h1 h2 hme this
      · exact hoth' u hu
    | some y =>
      rw [ha] at hans
      obtain ⟨s', g1, g2⟩ := hans
      refine .inr ⟨.eff t s0 y, _, s', .left (kp y), ⟨g2, hmut, hsame', fun u => ?_⟩, ?_, rfl, .cons g1 .nil⟩
      · by_cases hu : u = t
        · subst hu
          simp only [SEvent.tid, upd_same]
          rw [ht]
          have := h7 x
          rw [ha] at this
          exact .at _ h1 h2 hme this
        · simp only [SEvent.tid, upd_ne _ _ hu]
          exact hoth' u hu
      · simp only [SEvent.tid]; rw [hp]; exact .eff
  · refine .inl ⟨rfl, A, habs, hmut, hsame, fun u => ?_⟩
    by_cases hu : u = t
    · subst hu
      rw [ht, hp]
      exact .inside ls i m β b0 b k ans rfl (fun x hx => hb ⟨x, hx⟩) h1 h2 h3 h4 h5 h6 h7
    · exact hoth u hu

theorem step_inv {code : op → Code σ ρ} {plan : op → Plan st ρ' ρ} (hcode : ∀ o, NGood Abs sem R [] (plan o) (code o))
    {W W' : World op σ ρ} {e} {A s ph} (hI : GInv Abs sem R W A s ph) (hs : Step code W e W') :
    Outcome Abs sem R plan e W' s ph := by
  cases hs with
  | call h =>
    rename_i t o
    have ht := hI.th t
    rw [h] at ht
    generalize hp : ph t = p at ht
    cases ht with
    | idle h0 =>
      refine .inr ⟨.inv t o, A, s, .left (plan o), ⟨hI.abs, hI.mutex, hI.same, fun u => ?_⟩, ?_, rfl, .nil⟩
      · by_cases hu : u = t
        · subst hu
          simp only [SEvent.tid, upd_same]
          exact .at [] h0 (by simp) (by simp) (hcode o)
        · simp only [SEvent.tid, upd_ne _ _ hu]
          exact (hI.th u).frame (fun _ => rfl) (fun _ _ => ⟨rfl, rfl⟩)
      · simp only [SEvent.tid, hp]; exact .inv
  | ret h =>
    rename_i t o r
    have ht := hI.th t
    rw [h] at ht
    generalize hp : ph t = p at ht
    cases ht with
    | inside ls i m β b0 b k ans hc hr =>
      cases b with
      | ret x => exact absurd rfl (hr x)
      | _ => simp [Code.bind] at hc
    | «at» ls h1 h2 h3 h4 =>
      cases h4 with
      | ret =>
        refine .inr ⟨.ret t r, A, s, .idle, ⟨hI.abs, hI.mutex, hI.same, fun u => ?_⟩, ?_, rfl, .nil⟩
        · by_cases hu : u = t
          · subst hu
            simp only [SEvent.tid, upd_same]
            exact .idle h1
          · simp only [SEvent.tid, upd_ne _ _ hu]
            exact (hI.th u).frame (fun _ => rfl) (fun _ _ => ⟨rfl, rfl⟩)
        · simp only [SEvent.tid, hp]; exact .ret
  | act h =>
    rename_i t o w k
    have ht := hI.th t
    rw [h] at ht
    generalize hp : ph t = p at ht
    cases ht with
    | «at» ls h1 h2 h3 h4 => cases h4
    | inside ls i m β b0 b k' ans hc hr h1 h2 h3 h4 h5 h6 h7 =>
      cases b with
      | act w2 k2 =>
        simp only [Code.bind, Code.act.injEq] at hc
        obtain ⟨rfl, rfl⟩ := hc
        rw [Code.Body] at h4
        obtain ⟨hw, hl, hb⟩ := h4
        have hti : W.hold i t = some m := by rw [h1 i]; simp [lk]
        have hne : ∀ j, j ≠ i → w W.obj j = W.obj j := by
          intro j hj
          refine hw _ _ fun hm => hj ?_
          simp only [List.mem_singleton, Prod.mk.injEq] at hm
          exact hm.1
        have hnx : m ≠ .excl → w W.obj i = W.obj i := by
          intro hm
          refine hw _ _ fun hm' => hm ?_
          simp only [List.mem_singleton, Prod.mk.injEq] at hm'
          exact hm'.2.symm
        refine settle (t := t) (o := o) (A := A) (ls := ls) (i := i) (m := m) (b0 := b0) (b := k2 W.obj) (k := k') (ans := ans) (s0 := _)
          (kp := _) hI.abs hI.mutex (fun j hj => ?_) (fun u hu => ?_) ?_ hp h1 h2 (fun j hj => ?_) (hb _) (fun g => ?_) h6 h7
        · dsimp only
          by_cases hji : j = i
          · subst hji
            rw [hnx (fun hm => hj t (by rw [← hm]; exact hti))]
            exact hI.same j hj
          · rw [hne j hji]; exact hI.same j hj
        · dsimp only
          rw [upd_ne _ _ hu]
          refine (hI.th u).frame (fun _ => rfl) (fun j hj => ⟨?_, rfl⟩)
          dsimp only
          by_cases hji : j = i
          · subst hji
            refine hnx fun hm => ?_
            subst hm
            exact hu (hI.mutex j t u hti hj)
          · exact hne j hji
        · dsimp only; rw [upd_same]
        · dsimp only
          rw [hne j fun e => ?_]
          · exact h3 j hj
          · subst e
            rw [List.map_cons, List.nodup_cons] at h2
            exact h2.1 hj
        · dsimp only
          rw [← h5 g, Code.solo]
          have hag : ∀ j ∈ [(i, m)].map Prod.fst, upd g i (W.obj i) j = W.obj j := by
            intro j hj
            simp only [List.map_cons, List.map_nil, List.mem_singleton] at hj
            subst hj; rw [upd_same]
          have e1 := (hl (upd g i (W.obj i)) W.obj hag).1
          have e2 : w (upd g i (W.obj i)) = upd g i (w W.obj i) := by
            funext j
            by_cases hji : j = i
            · subst hji
              rw [upd_same]
              exact (hl _ _ hag).2 j (by simp)
            · rw [upd_ne _ _ hji]
              rw [hw _ _ (fun hm => by
                simp only [List.mem_singleton, Prod.mk.injEq] at hm
                exact hji hm.1), upd_ne _ _ hji]
          rw [e1, e2]
      | ret x => exact absurd rfl (hr x)
      | _ => simp [Code.bind] at hc
  | lock h hf =>
    rename_i t o ls' k
    have ht := hI.th t
    rw [h] at ht
    generalize hp : ph t = p at ht
    cases ht with
    | inside ls i m β b0 b k' ans hc hr h1 h2 h3 h4 h5 h6 h7 =>
      cases b with
      | ret x => exact absurd rfl (hr x)
      | lock => exact h4.elim
      | _ => simp [Code.bind] at hc
    | «at» ls h1 h2 h3 h4 =>
      cases h4 with
      | @sec _ s0 kp i m β b k' ans g1 g2 g3 g4 g5 =>
        have hfree : Free W i m := hf.2 (i, m) (List.mem_singleton.2 rfl)
        have hit : ∀ u, W.hold i u ≠ some .excl := by
          intro u hu
          cases m with
          | excl => have := hfree u; rw [hu] at this; cases this
          | shared => exact hfree u hu
        have hAi : A i = W.obj i := hI.same i hit
        have hgo : ∀ j u, u ≠ t → grant W.hold t [(i, m)] j u = W.hold j u := fun j u hu => grant_other hu j _
        have hgs : ∀ j, grant W.hold t [(i, m)] j t = lk ((i, m) :: ls) j := by
          intro j
          rw [grant_same j _ (by simp)]
          simp only [lk]
          by_cases hji : j = i
          · rw [if_pos hji, if_pos hji]; rfl
          · rw [if_neg hji, if_neg hji, h1 j]; rfl
        have hle : ∀ j u m', W.hold j u = some m' → grant W.hold t [(i, m)] j u = some m' := by
          intro j u m' hj
          by_cases hu : u = t
          · subst hu
            rw [hgs, lk, if_neg, ← h1 j, hj]
            rintro rfl
            have := h1 j
            rw [hj] at this
            rw [lk_none.2 g2] at this; cases this
          · rw [hgo j u hu, hj]
        refine settle (t := t) (o := o) (A := A) (ls := ls) (i := i) (m := m) (b0 := b) (b := b) (k := k') (ans := ans) (s0 := s0)
          (kp := kp) hI.abs (fun j u u' e1 e2 => ?_) (fun j hj => ?_) (fun u hu => ?_) ?_ hp hgs ?_ h3 g1 (fun g => ?_) g4 g5
        · dsimp only at e1 e2
          by_cases hu : u = t
          · by_cases hu' : u' = t
            · rw [hu, hu']
            · subst hu
              rw [hgo j u' hu'] at e2
              rw [hgs, lk] at e1
              split at e1
              · rename_i hji
                subst hji
                injection e1 with e1
                subst e1
                exact absurd (hfree u') e2
              · exact hI.mutex j u u' (by rw [h1 j]; exact e1) e2
          · rw [hgo j u hu] at e1
            by_cases hu' : u' = t
            · subst hu'
              rw [hgs, lk] at e2
              split at e2
              · rename_i hji
                subst hji
                exact absurd e1 (hit u)
              · exact hI.mutex j u u' e1 (by rw [h1 j]; exact e2)
            · rw [hgo j u' hu'] at e2
              exact hI.mutex j u u' e1 e2
        · exact hI.same j fun u hu => hj u (hle j u _ hu)
        · dsimp only
          rw [upd_ne _ _ hu]
          exact (hI.th u).frame (fun j => hgo j u hu) (fun _ _ => ⟨rfl, rfl⟩)
        · dsimp only; rw [upd_same]
        · rw [List.map_cons, List.nodup_cons]; exact ⟨g2, h2⟩
        · dsimp only; rw [hAi]
  | unlock h hf =>
    rename_i t o i m k
    have ht := hI.th t
    rw [h] at ht
    generalize hp : ph t = p at ht
    cases ht with
    | inside ls i m β b0 b k' ans hc hr h1 h2 h3 h4 h5 h6 h7 =>
      cases b with
      | ret x => exact absurd rfl (hr x)
      | unlock => exact h4.elim
      | _ => simp [Code.bind] at hc
    | «at» ls h1 h2 h3 h4 =>
      cases h4 with
      | @unlock _ _ ls _ _ g =>
        refine .inl ⟨rfl, A, hI.abs, mutex_release hI.mutex, fun j hj => ?_, fun u => ?_⟩
        · dsimp only at hj ⊢
          by_cases hji : j = i
          · subst hji
            exact h3 j (by rw [List.map_cons]; exact List.mem_cons_self)
          · refine hI.same j fun u => ?_
            have := hj u
            rwa [upd_ne _ _ hji] at this
        · by_cases hu : u = t
          · subst hu
            simp only [upd_same, hp]
            refine .at ls (holds_release h1 (.refl _) h2) ?_ (fun j hj => h3 j ?_) g
            · rw [List.map_cons, List.nodup_cons] at h2; exact h2.2
            · rw [List.map_cons]; exact List.mem_cons_of_mem _ hj
          · simp only [upd_ne _ _ hu]
            exact (hI.th u).frame (hold_release_other hu) (fun _ _ => ⟨rfl, rfl⟩)
  | unlockBad h hf =>
    rename_i t o i m k
    have ht := hI.th t
    rw [h] at ht
    generalize hp : ph t = p at ht
    cases ht with
    | inside ls i m β b0 b k' ans hc hr h1 h2 h3 h4 h5 h6 h7 =>
      cases b with
      | ret x => exact absurd rfl (hr x)
      | unlock => exact h4.elim
      | _ => simp [Code.bind] at hc
    | «at» ls h1 h2 h3 h4 =>
      cases h4 with
      | unlock g => exact absurd (by rw [h1 i]; simp [lk]) hf

theorem start_inv {A : Nat → σ} {s : S} (h : Abs A s) :
    GInv Abs sem R (start A : World op σ ρ) A s (fun _ => .idle) :=
  ⟨h, fun _ _ _ h => (by simp [start] at h), fun _ _ => rfl, fun _ => TR.idle fun _ => rfl⟩

/-- Every execution can be explained, and its state is related to the explanation's state. -/
theorem exec_inv {code : op → Code σ ρ} {plan : op → Plan st ρ' ρ} (hcode : ∀ o, NGood Abs sem R [] (plan o) (code o))
    {A : Nat → σ} {s : S} (h0 : Abs A s) {W H} (he : Exec code (start A) H W) :
    ∃ (E : List (SEvent op st ρ' ρ)) (A' : Nat → σ) (s' : S) (ph : Nat → SPhase st ρ' ρ), GInv Abs sem R W A' s' ph ∧
      E.filterMap SEvent.vis = H ∧ Legal sem s (E.filterMap SEvent.step) s' ∧
      ∀ t, SPhase.Path plan .idle (E.filter (fun e => e.tid == t)) (ph t) := by
  induction he with
  | refl => exact ⟨[], A, s, fun _ => .idle, start_inv h0, rfl, .nil, fun t => .nil⟩
  | tail _ hs ih =>
    obtain ⟨E, A', s', ph, hI, hv, hl, ht⟩ := ih
    rcases step_inv hcode hI hs with ⟨rfl, A'', hI'⟩ | ⟨ev, A'', s'', p, hI', hn, hvis, hleg⟩
    · exact ⟨E, A'', s', ph, hI', by simp [hv], hl, ht⟩
    · refine ⟨E ++ [ev], A'', s'', upd ph ev.tid p, hI', ?_, ?_, fun t => ?_⟩
      · rw [List.filterMap_append, hv, ← hvis]
        cases ev <;> rfl
      · rw [List.filterMap_append]
        refine legal_append hl ?_
        cases ev <;> exact hleg
      · rw [List.filter_append]
        by_cases htt : t = ev.tid
        · subst htt
          rw [upd_same]
          have : [ev].filter (fun e => e.tid == ev.tid) = [ev] := by simp
          rw [this]
          exact path_snoc (ht _) hn
        · rw [upd_ne _ _ htt]
          have : [ev].filter (fun e => e.tid == t) = [] := by
            simp; exact fun h => htt h.symm
          rw [this, List.append_nil]
          exact ht t

/-- Nobody in a call: the objects are in the state the explanation ends in, and every call has answered. -/
theorem quiescent {code : op → Code σ ρ} {plan : op → Plan st ρ' ρ} (hcode : ∀ o, NGood Abs sem R [] (plan o) (code o))
    {A : Nat → σ} {s : S} (h0 : Abs A s) {W H} (he : Exec code (start A) H W) (hq : ∀ t, W.th t = .idle) :
    ∃ E s', Stepwise plan sem s H E s' ∧ Abs W.obj s' ∧
      ∀ t, SPhase.Path plan .idle (E.filter (fun e => e.tid == t)) .idle := by
  obtain ⟨E, A', s', ph, hI, hv, hl, ht⟩ := exec_inv hcode h0 he
  have hph : ∀ t, ph t = .idle ∧ ∀ j, W.hold j t = none := by
    intro t
    have := hI.th t
    rw [hq t] at this
    generalize hp : ph t = p at this
    cases this with
    | idle h => exact ⟨rfl, fun j => by rw [h j]; rfl⟩
  have hA : A' = W.obj := by
    funext i
    exact hI.same i fun t => by rw [(hph t).2]; simp
  exact ⟨E, s', ⟨hv, hl, fun t => ⟨_, ht t⟩⟩, hA ▸ hI.abs, fun t => by have := ht t; rwa [(hph t).1] at this⟩

/-- No thread ever runs into undefined behaviour. -/
theorem no_ub {code : op → Code σ ρ} {plan : op → Plan st ρ' ρ} (hcode : ∀ o, NGood Abs sem R [] (plan o) (code o))
    {A : Nat → σ} {s : S} (h0 : Abs A s) {W H} (he : Exec code (start A) H W) (t : Nat) (o : op) :
    W.th t ≠ .run o .ub := by
  intro hu
  obtain ⟨E, A', s', ph, hI, -⟩ := exec_inv hcode h0 he
  have ht := hI.th t
  rw [hu] at ht
  generalize hp : ph t = p at ht
  cases ht with
  | «at» ls h1 h2 h3 h4 => cases h4
  | inside ls i m β b0 b k ans hc hr h1 h2 h3 h4 h5 h6 h7 =>
    cases b with
    | ub =>
      obtain ⟨a', x, hs, -⟩ := h6 A' s' hI.abs
      have := h5 A'
      rw [upd_self, hs] at this
      simp only [Code.solo] at this; cases this
    | ret x => exact absurd rfl (hr x)
    | _ => simp [Code.bind] at hc

theorem act_ne {α : Type} : ∀ (c : Code σ α) (w) (k : (Nat → σ) → Code σ α) (x : Nat → σ), c = .act w k → k x ≠ c := by
  intro c
  induction c with
  | act w k ih =>
    intro w' k' x h
    simp only [Code.act.injEq] at h
    obtain ⟨rfl, rfl⟩ := h
    intro h2
    exact ih x w k x h2 rfl
  | _ => intro w k x h; cases h

/-- While a thread holds a lock, the steps of other threads leave its object and its lock alone. -/
theorem private_step {code : op → Code σ ρ} {plan : op → Plan st ρ' ρ} (hcode : ∀ o, NGood Abs sem R [] (plan o) (code o))
    {A : Nat → σ} {s : S} (h0 : Abs A s) {W H} (he : Exec code (start A) H W) {i t : Nat} {m : Mode} (hi : W.hold i t = some m) {e W'}
    (hs : Step code W e W') (hw : W'.th t = W.th t) : W'.obj i = W.obj i ∧ W'.hold i t = some m := by
  obtain ⟨E, A', s', ph, hI, -⟩ := exec_inv hcode h0 he
  cases hs with
  | call h => exact ⟨rfl, hi⟩
  | ret h => exact ⟨rfl, hi⟩
  | unlockBad h hf => exact ⟨rfl, hi⟩
  | lock h hf =>
    rename_i u o ls k
    refine ⟨rfl, ?_⟩
    by_cases hu : t = u
    · subst hu
      have ht := hI.th t
      rw [h] at ht
      generalize hp : ph t = p at ht
      cases ht with
      | inside ls i m β b0 b k' ans hc hr h1 h2 h3 h4 h5 h6 h7 =>
        cases b with
        | ret x => exact absurd rfl (hr x)
        | lock => exact h4.elim
        | _ => simp [Code.bind] at hc
      | «at» ls h1 h2 h3 h4 =>
        cases h4 with
        | @sec _ s0 kp i' m β b k' ans g1 g2 g3 g4 g5 =>
          dsimp only
          rw [grant_same i _ (by simp)]
          simp only [lk]
          rw [if_neg, hi]; rfl
          rintro rfl
          have := h1 i
          rw [hi, lk_none.2 g2] at this
          cases this
    · dsimp only; rw [grant_other hu]; exact hi
  | unlock h hf =>
    rename_i u o j m k
    refine ⟨rfl, ?_⟩
    by_cases hu : t = u
    · subst hu
      dsimp only at hw
      rw [upd_same, h] at hw
      injection hw with _ hw
      exfalso
      have : ∀ c : Code σ ρ, c ≠ .unlock j m c := by
        intro c
        induction c with
        | unlock i' m' k' ih => intro h; injection h with h1 h2 h3; subst h1 h2; exact ih h3
        | _ => intro h; cases h
      exact this _ hw
    · exact (hold_release_other hu i).trans hi
  | act h =>
    rename_i u o w k
    refine ⟨?_, hi⟩
    by_cases hu : t = u
    · subst hu
      dsimp only at hw
      rw [upd_same, h] at hw
      injection hw with _ hw
      exact absurd hw (act_ne _ _ _ _ rfl)
    · have ht := hI.th u
      rw [h] at ht
      generalize hp : ph u = p at ht
      cases ht with
      | «at» ls h1 h2 h3 h4 => cases h4
      | inside ls i' m β b0 b k' ans hc hr h1 h2 h3 h4 h5 h6 h7 =>
        cases b with
        | act w2 k2 =>
          simp only [Code.bind, Code.act.injEq] at hc
          obtain ⟨rfl, rfl⟩ := hc
          rw [Code.Body] at h4
          dsimp only
          refine h4.1 _ _ fun hm => hu ?_
          simp only [List.mem_singleton, Prod.mk.injEq] at hm
          obtain ⟨rfl, rfl⟩ := hm
          exact hI.mutex i u t (by rw [h1 i]; simp [lk]) (by rw [hi]; simp)
        | ret x => exact absurd rfl (hr x)
        | _ => simp [Code.bind] at hc

/-- If locks are taken in increasing order there is no deadlock. -/
theorem progress {code : op → Code σ ρ} {plan : op → Plan st ρ' ρ} (hcode : ∀ o, NGood Abs sem R [] (plan o) (code o))
    (hR : ∀ ls i, R ls i → ∀ l ∈ ls, l.1 < i)
    {A : Nat → σ} {s : S} (h0 : Abs A s) {W H} (he : Exec code (start A) H W) (t : Nat) (hr : W.th t ≠ .idle) :
    ∃ t', W.th t' ≠ .idle ∧ ¬ Blocked W t' := by
  obtain ⟨M, hM⟩ := exec_bound he
  obtain ⟨E, A', s', ph, hI, -⟩ := exec_inv hcode h0 he
  have hwait : ∀ t, Blocked W t → ∃ i t', W.hold i t' ≠ none ∧ ∀ j, W.hold j t ≠ none → j < i := by
    rintro t ⟨o, ls, k, hl, hf⟩
    have ht := hI.th t
    rw [hl] at ht
    generalize hp : ph t = p at ht
    cases ht with
    | inside ls i m β b0 b k' ans hc hr h1 h2 h3 h4 h5 h6 h7 =>
      exfalso
      cases b with
      | lock => exact h4.elim
      | ret x => exact absurd rfl (hr x)
      | _ => simp [Code.bind] at hc
    | «at» ls h1 h2 h3 h4 =>
      cases h4 with
      | @sec _ s0 kp i m β b k' ans g1 g2 g3 g4 g5 =>
        have : ∃ t', W.hold i t' ≠ none := by
          by_contra hn
          push Not at hn
          refine hf ⟨by simp, fun l hl => ?_⟩
          simp only [List.mem_singleton] at hl
          subst hl
          cases m with
          | excl => exact hn
          | shared => intro u; dsimp only; rw [hn u]; simp
        obtain ⟨t', ht'⟩ := this
        refine ⟨i, t', ht', fun j hj => ?_⟩
        rw [h1 j] at hj
        cases h8 : lk ls j with
        | none => exact absurd h8 hj
        | some m' => exact hR _ _ g3 _ (lk_mem h8)
  have hidle : ∀ t j, W.hold j t ≠ none → W.th t ≠ .idle := by
    intro t j hj hid
    have ht := hI.th t
    rw [hid] at ht
    generalize hp : ph t = p at ht
    cases ht with
    | idle h => exact hj (by rw [h j]; rfl)
  have hclimb : ∀ d j t, M - j ≤ d → W.hold j t ≠ none → ∃ t', W.th t' ≠ .idle ∧ ¬ Blocked W t' := by
    intro d
    induction d with
    | zero => intro j t h1 h2; have := hM j t h2; omega
    | succ d ih =>
      intro j t h1 h2
      by_cases hb : Blocked W t
      · obtain ⟨i, t', h3, h4⟩ := hwait t hb
        have := h4 j h2
        have := hM j t h2
        exact ih i t' (by omega) h3
      · exact ⟨t, hidle t j h2, hb⟩
  by_cases hb : Blocked W t
  · obtain ⟨i, t', h3, -⟩ := hwait t hb
    exact hclimb _ i t' (Nat.le_refl _) h3
  · exact ⟨t, hr, hb⟩

end Gtl.Conc.Multi.Nest
