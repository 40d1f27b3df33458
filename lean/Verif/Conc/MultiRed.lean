import Verif.Conc.Multi
import Verif.Conc.Reduction
import Mathlib.Data.List.Basic
import Mathlib.Data.List.Perm.Basic
/-!
# From critical sections with several locks to stepwise explanations

If every call is a chain of critical sections, each of which does one step of the call's plan, or nothing that the
specification can see, then every execution has a stepwise explanation and no thread ever reaches undefined behaviour.
If, moreover, every section takes its groups of locks in increasing order, there is no deadlock.
-/

namespace Gtl.Conc.Multi

open Gtl.Spec
open Gtl.Conc (upd_same upd_ne upd_self legal_append)

variable {op st σ ρ' ρ S : Type}

/-! ## Sets of locks -/

/-- The mode in which a list of locks holds lock `j`. -/
def lk : List (Nat × Mode) → Nat → Option Mode
  | [], _ => none
  | (i, m) :: ls, j => if j = i then some m else lk ls j

theorem lk_mem : ∀ {ls : List (Nat × Mode)} {j m}, lk ls j = some m → (j, m) ∈ ls
  | [], _, _, h => by simp [lk] at h
  | (i, m') :: ls, j, m, h => by
    simp only [lk] at h
    split at h
    · rename_i hj; cases h; subst hj; simp
    · exact List.mem_cons_of_mem _ (lk_mem h)

theorem lk_none : ∀ {ls : List (Nat × Mode)} {j}, lk ls j = none ↔ j ∉ ls.map Prod.fst
  | [], _ => by simp [lk]
  | (i, m') :: ls, j => by
    simp only [lk, List.map_cons, List.mem_cons, not_or]
    split
    · rename_i hj; subst hj; simp
    · rename_i hj; rw [lk_none]; simp [hj]

theorem lk_of_mem : ∀ {ls : List (Nat × Mode)} {j m}, (ls.map Prod.fst).Nodup → (j, m) ∈ ls → lk ls j = some m
  | [], _, _, _, h => by simp at h
  | (i, m') :: ls, j, m, hn, h => by
    simp only [List.map_cons, List.nodup_cons] at hn
    simp only [lk]
    rcases List.mem_cons.1 h with h | h
    · cases h; simp
    · have : j ≠ i := by
        intro hji; exact hn.1 (List.mem_map.2 ⟨(j, m), h, hji⟩)
      rw [if_neg this]; exact lk_of_mem hn.2 h

theorem lk_perm {l l' : List (Nat × Mode)} (h : l.Perm l') (hn : (l.map Prod.fst).Nodup) (j : Nat) : lk l j = lk l' j := by
  have hn' : (l'.map Prod.fst).Nodup := (h.map _).nodup_iff.1 hn
  cases h1 : lk l j with
  | none =>
    rw [lk_none] at h1
    exact (lk_none.2 fun h2 => h1 ((h.map _).mem_iff.2 h2)).symm
  | some m => exact (lk_of_mem hn' (h.mem_iff.1 (lk_mem h1))).symm

theorem lk_append (a b : List (Nat × Mode)) (j : Nat) : lk (a ++ b) j = (lk a j).or (lk b j) := by
  induction a with
  | nil => simp [lk]
  | cons x a ih =>
    obtain ⟨i, m⟩ := x
    simp only [List.cons_append, lk]
    split
    · simp
    · exact ih

theorem grant_other {hold : Nat → Nat → Option Mode} {t u : Nat} (hu : u ≠ t) (j : Nat) :
    ∀ (ls : List (Nat × Mode)) , grant hold t ls j u = hold j u := by
  intro ls
  induction ls generalizing hold with
  | nil => rfl
  | cons x ls ih =>
    obtain ⟨i, m⟩ := x
    simp only [grant]
    rw [ih]
    by_cases hj : j = i
    · subst hj; simp only [upd_same, upd_ne _ _ hu]
    · simp only [upd_ne _ _ hj]

theorem grant_same {hold : Nat → Nat → Option Mode} {t : Nat} (j : Nat) :
    ∀ (ls : List (Nat × Mode)), (ls.map Prod.fst).Nodup → grant hold t ls j t = (lk ls j).or (hold j t) := by
  intro ls
  induction ls generalizing hold with
  | nil => intro _; simp [grant, lk]
  | cons x ls ih =>
    obtain ⟨i, m⟩ := x
    intro hn
    simp only [List.map_cons, List.nodup_cons] at hn
    simp only [grant, lk]
    rw [ih hn.2]
    by_cases hj : j = i
    · subst hj
      rw [lk_none.2 hn.1]
      simp
    · simp only [upd_ne _ _ hj, if_neg hj]

/-- `f` on the locked objects, `g` elsewhere. -/
def glue (ls : List (Nat × Mode)) (f g : Nat → σ) : Nat → σ := fun j => if j ∈ ls.map Prod.fst then f j else g j

theorem glue_self (ls : List (Nat × Mode)) (f : Nat → σ) : glue ls f f = f := by funext j; simp [glue]

/-! ## Sections that meet the specification -/

/-- The shape of a critical section. -/
structure SecOk {β : Type} (gs : List (List (Nat × Mode))) (rel : List (Nat × Mode)) (b : Code σ β) : Prop where
  ne : rel ≠ []
  perm : rel.Perm gs.flatten
  nodup : (gs.flatten.map Prod.fst).Nodup
  body : b.Body gs.flatten

/-- Chains of at most `n` critical sections that carry out a plan. `R` is what is known about how locks are taken. -/
def Good (Abs : (Nat → σ) → S → Prop) (sem : S → st → S → ρ' → Prop) (R : List (List (Nat × Mode)) → Prop) :
    Nat → Plan st ρ' ρ → Code σ ρ → Prop
  | 0, p, c => ∃ r, p = .ret r ∧ c = .ret r
  | n + 1, p, c => (∃ r, p = .ret r ∧ c = .ret r) ∨
      ∃ (β : Type) (gs : List (List (Nat × Mode))) (rel : List (Nat × Mode)) (b : Code σ β) (k : β → Code σ ρ),
        c = .sec gs rel b k ∧ SecOk gs rel b ∧ R gs ∧
        ∀ A s, Abs A s → ∃ A' x, b.solo A = .ok (A', x) ∧
          ((∃ s0 kp y s', p = .step s0 kp ∧ sem s s0 s' y ∧ Abs A' s' ∧ Good Abs sem R n (kp y) (k x)) ∨
            (Abs A' s ∧ Good Abs sem R n p (k x)))

/-- What the rest of a section has to do. -/
def Duty (Abs : (Nat → σ) → S → Prop) (sem : S → st → S → ρ' → Prop) (R : List (List (Nat × Mode)) → Prop) (n : Nat)
    (p : Plan st ρ' ρ) {β : Type} (b : Code σ β) (k : β → Code σ ρ) : Prop :=
  ∀ A s, Abs A s → ∃ A' x, b.solo A = .ok (A', x) ∧
    ((∃ s0 kp y s', p = .step s0 kp ∧ sem s s0 s' y ∧ Abs A' s' ∧ Good Abs sem R n (kp y) (k x)) ∨
      (Abs A' s ∧ Good Abs sem R n p (k x)))

/-- Thread `t` holds exactly these locks. -/
def Holds (W : World op σ ρ) (t : Nat) (ls : List (Nat × Mode)) : Prop := ∀ j, W.hold j t = lk ls j

/-- The invariant of one thread. -/
inductive TR (Abs : (Nat → σ) → S → Prop) (sem : S → st → S → ρ' → Prop) (R : List (List (Nat × Mode)) → Prop)
    (W : World op σ ρ) (A : Nat → σ) (t : Nat) : TS op σ ρ → SPhase st ρ' ρ → Prop
  | idle : Holds W t [] → TR Abs sem R W A t .idle .idle
  | done {o r} : Holds W t [] → TR Abs sem R W A t (.run o (.ret r)) (.left (.ret r))
  | rel {o c p} (n : Nat) (i m ls k) : c = .unlock i m (.unlocks ls k) → Holds W t ((i, m) :: ls) →
      (∀ j ∈ (((i, m) :: ls).map Prod.fst), A j = W.obj j) → (((i, m) :: ls).map Prod.fst).Nodup → Good Abs sem R n p k →
      TR Abs sem R W A t (.run o c) (.left p)
  | acq {o c p} (n : Nat) (β : Type) (gs1 g gs2 rel) (b : Code σ β) (k) : c = .lock g (.locks gs2 (b.bind fun x => .unlocks rel (k x))) →
      Holds W t gs1.flatten → (∀ j ∈ gs1.flatten.map Prod.fst, A j = W.obj j) → SecOk (gs1 ++ g :: gs2) rel b →
      R (gs1 ++ g :: gs2) → Duty Abs sem R n p b k → TR Abs sem R W A t (.run o c) (.left p)
  | inside {o c p} (n : Nat) (β : Type) (ls rel) (b0 b : Code σ β) (k) : c = (b.bind fun x => .unlocks rel (k x)) →
      Holds W t ls → b.Body ls → rel ≠ [] → rel.Perm ls → (ls.map Prod.fst).Nodup →
      (∀ g, b.solo (glue ls W.obj g) = b0.solo (glue ls A g)) → Duty Abs sem R n p b0 k →
      TR Abs sem R W A t (.run o c) (.left p)

structure GInv (Abs : (Nat → σ) → S → Prop) (sem : S → st → S → ρ' → Prop) (R : List (List (Nat × Mode)) → Prop)
    (W : World op σ ρ) (A : Nat → σ) (s : S) (ph : Nat → SPhase st ρ' ρ) : Prop where
  abs : Abs A s
  mutex : ∀ i t t', W.hold i t = some .excl → W.hold i t' ≠ none → t' = t
  same : ∀ i, (∀ t, W.hold i t ≠ some .excl) → A i = W.obj i
  th : ∀ t, TR Abs sem R W A t (W.th t) (ph t)

variable {Abs : (Nat → σ) → S → Prop} {sem : S → st → S → ρ' → Prop} {R : List (List (Nat × Mode)) → Prop}

theorem TR.ofGood {W : World op σ ρ} {A : Nat → σ} {t : Nat} {o : op} {n : Nat} {p : Plan st ρ' ρ} {c : Code σ ρ}
    (h0 : Holds W t []) (hg : Good Abs sem R n p c) : TR Abs sem R W A t (.run o c) (.left p) := by
  have hret : (∃ r, p = .ret r ∧ c = .ret r) → TR Abs sem R W A t (.run o c) (.left p) := by
    rintro ⟨r, rfl, rfl⟩; exact .done h0
  cases n with
  | zero => exact hret hg
  | succ n =>
    rcases hg with hg | ⟨β, gs, rel, b, k, hc, hok, hR, hd⟩
    · exact hret hg
    · cases gs with
      | nil => exact absurd (List.perm_nil.1 (by simpa using hok.perm)) hok.ne
      | cons g gs =>
        exact .acq n β [] g gs rel b k hc (by simpa using h0) (by simp) (by simpa using hok) (by simpa using hR) hd

theorem TR.ofRel {W : World op σ ρ} {A : Nat → σ} {t : Nat} {o : op} {n : Nat} {p : Plan st ρ' ρ} {c : Code σ ρ}
    {ls : List (Nat × Mode)} (h0 : Holds W t ls) (hA : ∀ j ∈ ls.map Prod.fst, A j = W.obj j) (hn : (ls.map Prod.fst).Nodup)
    (hg : Good Abs sem R n p c) : TR Abs sem R W A t (.run o (.unlocks ls c)) (.left p) := by
  cases ls with
  | nil => exact .ofGood h0 hg
  | cons x ls => obtain ⟨i, m⟩ := x; exact .rel n i m ls c rfl h0 hA hn hg

theorem Holds.held {W : World op σ ρ} {t : Nat} {ls : List (Nat × Mode)} (h : Holds W t ls) {j : Nat}
    (hj : j ∈ ls.map Prod.fst) : W.hold j t ≠ none := by
  rw [h j]; exact fun h' => lk_none.1 h' hj

/-- Other threads do not notice a step that leaves their locks and the objects they protect alone. -/
theorem TR.frame {W W' : World op σ ρ} {A A' : Nat → σ} {t : Nat} {c : TS op σ ρ} {p : SPhase st ρ' ρ}
    (h : TR Abs sem R W A t c p) (hh : ∀ j, W'.hold j t = W.hold j t)
    (ho : ∀ j, W.hold j t ≠ none → W'.obj j = W.obj j ∧ A' j = A j) : TR Abs sem R W' A' t c p := by
  have hH : ∀ ls, Holds W t ls → Holds W' t ls := fun ls h j => by rw [hh, h j]
  have hA : ∀ ls, Holds W t ls → (∀ j ∈ ls.map Prod.fst, A j = W.obj j) → ∀ j ∈ ls.map Prod.fst, A' j = W'.obj j := by
    intro ls h1 h2 j hj
    have := ho j (h1.held hj)
    rw [this.1, this.2, h2 j hj]
  cases h with
  | idle h0 => exact .idle (hH _ h0)
  | done h0 => exact .done (hH _ h0)
  | rel n i m ls k hc h1 h2 h3 h4 => exact .rel n i m ls k hc (hH _ h1) (hA _ h1 h2) h3 h4
  | acq n β gs1 g gs2 rel b k hc h1 h2 h3 h4 h5 => exact .acq n β gs1 g gs2 rel b k hc (hH _ h1) (hA _ h1 h2) h3 h4 h5
  | inside n β ls rel b0 b k hc h1 h2 h3 h4 h5 h6 h7 =>
    refine .inside n β ls rel b0 b k hc (hH _ h1) h2 h3 h4 h5 (fun g => ?_) h7
    have e1 : glue ls W'.obj g = glue ls W.obj g := by
      funext j; unfold glue; split
      · rename_i hj; exact (ho j (h1.held hj)).1
      · rfl
    have e2 : glue ls A' g = glue ls A g := by
      funext j; unfold glue; split
      · rename_i hj; exact (ho j (h1.held hj)).2
      · rfl
    rw [e1, e2, h6]

theorem hold_release_other {hold : Nat → Nat → Option Mode} {i t u : Nat} (hu : u ≠ t) (j : Nat) :
    upd hold i (upd (hold i) t none) j u = hold j u := by
  by_cases hji : j = i
  · subst hji; simp only [upd_same, upd_ne _ _ hu]
  · simp only [upd_ne _ _ hji]

theorem hold_release_le {hold : Nat → Nat → Option Mode} {i t j u : Nat} {m : Mode}
    (h : upd hold i (upd (hold i) t none) j u = some m) : hold j u = some m := by
  by_cases hu : u = t
  · subst hu
    by_cases hji : j = i
    · subst hji; simp at h
    · simpa only [upd_ne _ _ hji] using h
  · rwa [hold_release_other hu] at h

theorem holds_release {W : World op σ ρ} {t i : Nat} {m : Mode} {ls ls' : List (Nat × Mode)} (h : Holds W t ls)
    (hp : ((i, m) :: ls').Perm ls) (hn : (ls.map Prod.fst).Nodup) (j : Nat) :
    upd W.hold i (upd (W.hold i) t none) j t = lk ls' j := by
  have hn' : (((i, m) :: ls').map Prod.fst).Nodup := (hp.map _).nodup_iff.2 hn
  have := h j
  rw [← lk_perm hp hn'] at this
  by_cases hji : j = i
  · subst hji
    simp only [List.map_cons, List.nodup_cons] at hn'
    simp only [upd_same]
    exact (lk_none.2 hn'.1).symm
  · simp only [upd_ne _ _ hji]
    rw [this]; simp only [lk, if_neg hji]

theorem mutex_release {W : World op σ ρ} {i t : Nat}
    (hm : ∀ i t t', W.hold i t = some .excl → W.hold i t' ≠ none → t' = t) (j u u' : Nat)
    (h1 : upd W.hold i (upd (W.hold i) t none) j u = some .excl) (h2 : upd W.hold i (upd (W.hold i) t none) j u' ≠ none) :
    u' = u := by
  refine hm j u u' (hold_release_le h1) ?_
  intro h3
  apply h2
  cases h4 : upd W.hold i (upd (W.hold i) t none) j u' with
  | none => rfl
  | some m => rw [hold_release_le h4] at h3; cases h3

/-- What one step does to the abstract side: nothing, or one event of the explanation. -/
theorem step_inv {code : op → Code σ ρ} {plan : op → Plan st ρ' ρ} (hcode : ∀ o, ∃ n, Good Abs sem R n (plan o) (code o))
    {W W' : World op σ ρ} {e} {A s ph} (hI : GInv Abs sem R W A s ph) (hs : Step code W e W') :
    (e = none ∧ ∃ A', GInv Abs sem R W' A' s ph) ∨
    ∃ (ev : SEvent op st ρ' ρ) (A' : Nat → σ) (s' : S) (p : SPhase st ρ' ρ), GInv Abs sem R W' A' s' (upd ph ev.tid p) ∧
      SPhase.Next plan (ph ev.tid) ev p ∧ ev.vis = e ∧ Legal sem s ev.step.toList s' := by
  cases hs with
  | call h =>
    rename_i t o
    have ht := hI.th t
    rw [h] at ht
    generalize hp : ph t = p at ht
    cases ht with
    | idle h0 =>
      obtain ⟨n, hn⟩ := hcode o
      refine .inr ⟨.inv t o, A, s, .left (plan o), ⟨hI.abs, hI.mutex, hI.same, fun u => ?_⟩, ?_, rfl, .nil⟩
      · by_cases hu : u = t
        · subst hu
          simp only [SEvent.tid, upd_same]
          exact .ofGood h0 hn
        · simp only [SEvent.tid, upd_ne _ _ hu]
          exact (hI.th u).frame (fun _ => rfl) (fun _ _ => ⟨rfl, rfl⟩)
      · simp only [SEvent.tid, hp]; exact .inv
  | ret h =>
    rename_i t o r
    have ht := hI.th t
    rw [h] at ht
    generalize hp : ph t = p at ht
    cases ht with
    | rel n i m ls k hc => cases hc
    | acq n β gs1 g gs2 rel b k hc => cases hc
    | inside n β ls rel b0 b k hc h1 h2 h3 =>
      cases b with
      | ret x =>
        cases rel with
        | nil => exact absurd rfl h3
        | cons y rel => simp [Code.bind, Code.unlocks] at hc
      | _ => simp [Code.bind] at hc
    | done h0 =>
      refine .inr ⟨.ret t r, A, s, .idle, ⟨hI.abs, hI.mutex, hI.same, fun u => ?_⟩, ?_, rfl, .nil⟩
      · by_cases hu : u = t
        · subst hu
          simp only [SEvent.tid, upd_same]
          exact .idle h0
        · simp only [SEvent.tid, upd_ne _ _ hu]
          exact (hI.th u).frame (fun _ => rfl) (fun _ _ => ⟨rfl, rfl⟩)
      · simp only [SEvent.tid, hp]; exact .ret
  | act h =>
    rename_i t o w k
    have ht := hI.th t
    rw [h] at ht
    generalize hp : ph t = p at ht
    cases ht with
    | rel n i m ls k hc => cases hc
    | acq n β gs1 g gs2 rel b k hc => cases hc
    | inside n β ls rel b0 b k' hc h1 h2 h3 h4 h5 h6 h7 =>
      cases b with
      | act w2 k2 =>
        simp only [Code.bind, Code.act.injEq] at hc
        obtain ⟨rfl, rfl⟩ := hc
        rw [Code.Body] at h2
        obtain ⟨hw, hl, hb⟩ := h2
        have hnw : ∀ j, (∀ u, W.hold j u ≠ some .excl) → w W.obj j = W.obj j := by
          intro j hj
          apply hw
          intro hm
          exact hj t (by rw [h1 j]; exact lk_of_mem h5 hm)
        left
        refine ⟨rfl, A, hI.abs, hI.mutex, fun j hj => ?_, fun u => ?_⟩
        · dsimp only at hj ⊢; rw [hnw j hj]; exact hI.same j hj
        · by_cases hu : u = t
          · subst hu
            simp only [upd_same, hp]
            refine .inside n β ls rel b0 (k2 W.obj) k' rfl h1 (hb _) h3 h4 h5 (fun g => ?_) h7
            rw [← h6 g, Code.solo]
            have hag : ∀ j ∈ ls.map Prod.fst, glue ls W.obj g j = W.obj j := fun j hj => by simp only [glue, if_pos hj]
            have e1 := (hl (glue ls W.obj g) W.obj hag).1
            have e2 : w (glue ls W.obj g) = glue ls (w W.obj) g := by
              funext j
              by_cases hj : j ∈ ls.map Prod.fst
              · rw [(hl (glue ls W.obj g) W.obj hag).2 j hj]; simp only [glue, if_pos hj]
              · rw [hw _ j (fun hm => hj (List.mem_map.2 ⟨_, hm, rfl⟩))]; simp only [glue, if_neg hj]
            dsimp only
            rw [e1, e2]
          · simp only [upd_ne _ _ hu]
            refine (hI.th u).frame (fun _ => rfl) (fun j hj => ⟨?_, rfl⟩)
            dsimp only
            apply hw
            intro hm
            exact hu (hI.mutex j t u (by rw [h1 j]; exact lk_of_mem h5 hm) hj)
      | ret x =>
        cases rel with
        | nil => exact absurd rfl h3
        | cons y rel => simp [Code.bind, Code.unlocks] at hc
      | ub => simp [Code.bind] at hc
      | lock => exact h2.elim
      | unlock => exact h2.elim
  | lock h hf =>
    rename_i t o ls0 k
    have ht := hI.th t
    rw [h] at ht
    generalize hp : ph t = p at ht
    cases ht with
    | rel n i m ls k hc => cases hc
    | inside n β ls rel b0 b k' hc h1 h2 h3 h4 h5 h6 h7 =>
      exfalso
      cases b with
      | lock => exact h2.elim
      | ret x =>
        cases rel with
        | nil => exact absurd rfl h3
        | cons y rel => simp [Code.bind, Code.unlocks] at hc
      | _ => simp [Code.bind] at hc
    | acq n β gs1 g gs2 rel b k' hc h1 h2 h3 h4 h5 =>
      simp only [Code.lock.injEq] at hc
      obtain ⟨rfl, rfl⟩ := hc
      obtain ⟨hnd, hfree⟩ := hf
      have hnoex : ∀ j ∈ ls0.map Prod.fst, ∀ u, W.hold j u ≠ some .excl := by
        intro j hj u hu
        obtain ⟨⟨j', m⟩, hm, rfl⟩ := List.mem_map.1 hj
        have := hfree _ hm
        cases m with
        | excl => rw [this u] at hu; cases hu
        | shared => exact this u hu
      have hex : ∀ j, (j, Mode.excl) ∈ ls0 → ∀ u, W.hold j u = none := fun j hj => hfree _ hj
      have hfl : (gs1 ++ ls0 :: gs2).flatten = (gs1.flatten ++ ls0) ++ gs2.flatten := by simp
      have hnd2 : ((gs1.flatten ++ ls0).map Prod.fst).Nodup := by
        have := h3.nodup
        rw [hfl, List.map_append] at this
        exact (List.nodup_append.1 this).1
      have hdis : ∀ j, lk ls0 j ≠ none → lk gs1.flatten j = none := by
        intro j hj
        rw [lk_none]
        intro hj'
        rw [List.map_append] at hnd2
        have hj2 : j ∈ ls0.map Prod.fst := by by_contra hn; exact hj (lk_none.2 hn)
        exact (List.nodup_append.1 hnd2).2.2 j hj' j hj2 rfl
      have hmine : ∀ j, grant W.hold t ls0 j t = lk (gs1.flatten ++ ls0) j := by
        intro j
        rw [grant_same j ls0 hnd, lk_append, h1 j]
        cases h8 : lk ls0 j with
        | none => simp
        | some m => rw [hdis j (by rw [h8]; simp)]; simp
      have hsame0 : ∀ j ∈ ls0.map Prod.fst, A j = W.obj j := fun j hj => hI.same j (hnoex j hj)
      have hsame1 : ∀ j ∈ (gs1.flatten ++ ls0).map Prod.fst, A j = W.obj j := by
        intro j hj
        rw [List.map_append, List.mem_append] at hj
        rcases hj with hj | hj
        · exact h2 j hj
        · exact hsame0 j hj
      left
      refine ⟨rfl, A, hI.abs, fun j u u' hu hu' => ?_, fun j hj => ?_, fun u => ?_⟩
      · dsimp only at hu hu'
        by_cases hj : j ∈ ls0.map Prod.fst
        · by_cases e1 : u = t <;> by_cases e2 : u' = t
          · rw [e1, e2]
          · exfalso
            subst e1
            rw [grant_other e2] at hu'
            rw [grant_same j ls0 hnd] at hu
            cases h8 : lk ls0 j with
            | none => exact lk_none.1 h8 hj
            | some m =>
              rw [h8] at hu
              simp only [Option.some_or, Option.some.injEq] at hu
              subst hu
              exact hu' (hex j (lk_mem h8) u')
          · exfalso
            rw [grant_other e1] at hu
            exact hnoex j hj u hu
          · rw [grant_other e1] at hu; rw [grant_other e2] at hu'
            exact hI.mutex j u u' hu hu'
        · have hall : ∀ u, grant W.hold t ls0 j u = W.hold j u := by
            intro u
            by_cases e1 : u = t
            · subst e1; rw [grant_same j ls0 hnd, lk_none.2 hj]; simp
            · exact grant_other e1 j ls0
          rw [hall] at hu hu'
          exact hI.mutex j u u' hu hu'
      · dsimp only at hj ⊢
        by_cases hj' : j ∈ ls0.map Prod.fst
        · exact hsame0 j hj'
        · apply hI.same
          intro u
          have := hj u
          by_cases e1 : u = t
          · subst e1; rw [grant_same j ls0 hnd, lk_none.2 hj'] at this; simpa using this
          · rwa [grant_other e1] at this
      · by_cases hu : u = t
        · subst hu
          simp only [upd_same, hp]
          cases gs2 with
          | nil =>
            have hfl' : (gs1 ++ [ls0]).flatten = gs1.flatten ++ ls0 := by simp
            have hb := h3.body
            have hpm := h3.perm
            rw [hfl'] at hb hpm
            refine .inside n β (gs1.flatten ++ ls0) rel b b k' rfl hmine hb h3.ne hpm hnd2 (fun g => ?_) h5
            have : glue (gs1.flatten ++ ls0) W.obj g = glue (gs1.flatten ++ ls0) A g := by
              funext j
              unfold glue
              split
              · rename_i hj; exact (hsame1 j hj).symm
              · rfl
            dsimp only
            rw [this]
          | cons g2 gs2 =>
            have hl : gs1 ++ ls0 :: g2 :: gs2 = (gs1 ++ [ls0]) ++ g2 :: gs2 := by simp
            refine .acq n β (gs1 ++ [ls0]) g2 gs2 rel b k' rfl ?_ ?_ (hl ▸ h3) (hl ▸ h4) h5
            · intro j; rw [show (gs1 ++ [ls0]).flatten = gs1.flatten ++ ls0 by simp]; exact hmine j
            · rw [show (gs1 ++ [ls0]).flatten = gs1.flatten ++ ls0 by simp]; exact hsame1
        · simp only [upd_ne _ _ hu]
          exact (hI.th u).frame (fun j => grant_other hu j ls0) (fun _ _ => ⟨rfl, rfl⟩)
  | unlockBad h hb =>
    rename_i t o i m k
    have ht := hI.th t
    rw [h] at ht
    generalize hp : ph t = p at ht
    exfalso
    cases ht with
    | rel n i m ls k hc h1 =>
      simp only [Code.unlock.injEq] at hc
      obtain ⟨rfl, rfl, rfl⟩ := hc
      exact hb (by rw [h1]; simp [lk])
    | acq n β gs1 g gs2 rel b k' hc => cases hc
    | inside n β ls rel b0 b k' hc h1 h2 h3 h4 h5 h6 h7 =>
      cases b with
      | unlock => exact h2.elim
      | ret x =>
        cases rel with
        | nil => exact absurd rfl h3
        | cons y rel =>
          obtain ⟨i', m'⟩ := y
          simp only [Code.bind, Code.unlocks, Code.unlock.injEq] at hc
          obtain ⟨rfl, rfl, rfl⟩ := hc
          exact hb (by rw [h1]; exact lk_of_mem h5 (h4.mem_iff.1 (by simp)))
      | _ => simp [Code.bind] at hc
  | unlock h hb =>
    rename_i t o i m k
    have ht := hI.th t
    rw [h] at ht
    generalize hp : ph t = p at ht
    cases ht with
    | acq n β gs1 g gs2 rel b k' hc => cases hc
    | rel n i m ls k hc h1 h2 h3 h4 =>
      simp only [Code.unlock.injEq] at hc
      obtain ⟨rfl, rfl, rfl⟩ := hc
      left
      refine ⟨rfl, A, hI.abs, mutex_release hI.mutex, fun j hj => ?_, fun u => ?_⟩
      · dsimp only at hj ⊢
        by_cases hji : j = i
        · subst hji; exact h2 j (by simp)
        · simp only [upd_ne _ _ hji] at hj; exact hI.same j hj
      · by_cases hu : u = t
        · subst hu
          simp only [upd_same, hp]
          refine .ofRel (holds_release h1 (.refl _) h3) (fun j hj => h2 j (by simp only [List.map_cons, List.mem_cons]; exact .inr hj)) ?_ h4
          simp only [List.map_cons, List.nodup_cons] at h3; exact h3.2
        · simp only [upd_ne _ _ hu]
          exact (hI.th u).frame (hold_release_other hu) (fun _ _ => ⟨rfl, rfl⟩)
    | inside n β ls rel b0 b k' hc h1 h2 h3 h4 h5 h6 h7 =>
      cases b with
      | unlock => exact h2.elim
      | act => simp [Code.bind] at hc
      | ub => simp [Code.bind] at hc
      | lock => simp [Code.bind] at hc
      | ret x =>
        cases rel with
        | nil => exact absurd rfl h3
        | cons y rel =>
          obtain ⟨i', m'⟩ := y
          simp only [Code.bind, Code.unlocks, Code.unlock.injEq] at hc
          obtain ⟨rfl, rfl, rfl⟩ := hc
          have hrun := h6 A
          rw [glue_self, Code.solo] at hrun
          obtain ⟨A', x', hsolo, hk⟩ := h7 A s hI.abs
          rw [hsolo] at hrun
          injection hrun with hrun
          injection hrun with hA hx
          subst hx hA
          have hrn : ((((i, m) :: rel)).map Prod.fst).Nodup := (h4.map _).nodup_iff.2 h5
          have hils : i ∈ ls.map Prod.fst := List.mem_map.2 ⟨_, h4.mem_iff.1 (List.mem_cons_self), rfl⟩
          have hsame : ∀ j, (∀ u, upd W.hold i (upd (W.hold i) t none) j u ≠ some .excl) →
              glue ls W.obj A j = W.obj j := by
            intro j hj
            by_cases hjl : j ∈ ls.map Prod.fst
            · simp only [glue, if_pos hjl]
            · simp only [glue, if_neg hjl]
              have hji : j ≠ i := fun h => hjl (h ▸ hils)
              simp only [upd_ne _ _ hji] at hj
              exact hI.same j hj
          have hAo : ∀ u, u ≠ t → ∀ j, W.hold j u ≠ none → glue ls W.obj A j = A j := by
            intro u hu j hj
            by_cases hjl : j ∈ ls.map Prod.fst
            · simp only [glue, if_pos hjl]
              refine (hI.same j fun v hv => ?_).symm
              have e1 := hI.mutex j v t hv (h1.held hjl)
              have e2 := hI.mutex j v u hv hj
              exact hu (by rw [e2, e1])
            · simp only [glue, if_neg hjl]
          have hrest : ∀ j ∈ rel.map Prod.fst, glue ls W.obj A j = W.obj j := by
            intro j hj
            have : j ∈ ls.map Prod.fst := (h4.map _).mem_iff.1 (by simp only [List.map_cons, List.mem_cons]; exact .inr hj)
            simp only [glue, if_pos this]
          have hrn2 : (rel.map Prod.fst).Nodup := by simp only [List.map_cons, List.nodup_cons] at hrn; exact hrn.2
          rcases hk with ⟨s0, kp, y, s', rfl, hsem, habs, hg⟩ | ⟨habs, hg⟩
          · right
            refine ⟨.eff t s0 y, glue ls W.obj A, s', .left (kp y), ⟨habs, mutex_release hI.mutex, hsame, fun u => ?_⟩, ?_, rfl, .cons hsem .nil⟩
            · by_cases hu : u = t
              · subst hu
                simp only [SEvent.tid, upd_same]
                exact .ofRel (holds_release h1 h4 h5) hrest hrn2 hg
              · simp only [SEvent.tid, upd_ne _ _ hu]
                exact (hI.th u).frame (hold_release_other hu) (fun j hj => ⟨rfl, hAo u hu j hj⟩)
            · simp only [SEvent.tid, hp]; exact .eff
          · left
            refine ⟨rfl, glue ls W.obj A, habs, mutex_release hI.mutex, hsame, fun u => ?_⟩
            by_cases hu : u = t
            · subst hu
              simp only [upd_same, hp]
              exact .ofRel (holds_release h1 h4 h5) hrest hrn2 hg
            · simp only [upd_ne _ _ hu]
              exact (hI.th u).frame (hold_release_other hu) (fun j hj => ⟨rfl, hAo u hu j hj⟩)

theorem path_snoc {plan : op → Plan st ρ' ρ} {p q r : SPhase st ρ' ρ} {es e} (h : SPhase.Path plan p es q)
    (hn : SPhase.Next plan q e r) : SPhase.Path plan p (es ++ [e]) r := by
  induction h with
  | nil => exact .cons hn .nil
  | cons h0 _ ih => exact .cons h0 (ih hn)

theorem start_inv {A : Nat → σ} {s : S} (h : Abs A s) :
    GInv Abs sem R (start A : World op σ ρ) A s (fun _ => .idle) :=
  ⟨h, fun _ _ _ h => (by simp [start] at h), fun _ _ => rfl, fun _ => TR.idle fun _ => rfl⟩

/-- Every execution can be explained, and its state is related to the explanation's state. -/
theorem exec_inv {code : op → Code σ ρ} {plan : op → Plan st ρ' ρ} (hcode : ∀ o, ∃ n, Good Abs sem R n (plan o) (code o))
    {A : Nat → σ} {s : S} (h0 : Abs A s) {W H} (he : Exec code (start A) H W) :
    ∃ (E : List (SEvent op st ρ' ρ)) (A' : Nat → σ) (s' : S) (ph : Nat → SPhase st ρ' ρ), GInv Abs sem R W A' s' ph ∧
      E.filterMap SEvent.vis = H ∧ Legal sem s (E.filterMap SEvent.step) s' ∧
      ∀ t, SPhase.Path plan .idle (E.filter (fun e => e.tid == t)) (ph t) := by
  induction he with
  | refl => exact ⟨[], A, s, fun _ => .idle, start_inv h0, rfl, .nil, fun t => .nil⟩
  | tail _ hs ih =>
    obtain ⟨E, A', s', ph, hI, hv, hl, ht⟩ := ih
    rcases step_inv hcode hI hs with ⟨rfl, A'', hI'⟩ | ⟨ev, A'', s'', p, hI', hn, hvis, hleg⟩
    · exact ⟨E, A'', s', ph, hI', by simp [hv], hl, ht⟩
    · refine ⟨E ++ [ev], A'', s'', upd ph ev.tid p, hI', ?_, ?_, fun t => ?_⟩
      · rw [List.filterMap_append, hv, ← hvis]
        cases ev <;> rfl
      · rw [List.filterMap_append]
        refine legal_append hl ?_
        cases ev <;> exact hleg
      · rw [List.filter_append]
        by_cases htt : t = ev.tid
        · subst htt
          rw [upd_same]
          have : [ev].filter (fun e => e.tid == ev.tid) = [ev] := by simp
          rw [this]
          exact path_snoc (ht _) hn
        · rw [upd_ne _ _ htt]
          have : [ev].filter (fun e => e.tid == t) = [] := by
            simp; exact fun h => htt h.symm
          rw [this, List.append_nil]
          exact ht t

theorem stepwise {code : op → Code σ ρ} {plan : op → Plan st ρ' ρ} (hcode : ∀ o, ∃ n, Good Abs sem R n (plan o) (code o))
    {A : Nat → σ} {s : S} (h0 : Abs A s) {W H} (he : Exec code (start A) H W) : ∃ E s', Stepwise plan sem s H E s' := by
  obtain ⟨E, A', s', ph, _, hv, hl, ht⟩ := exec_inv hcode h0 he
  exact ⟨E, s', hv, hl, fun t => ⟨_, ht t⟩⟩

/-- Nobody in a call: the objects are in the state the explanation ends in, and every call has answered. -/
theorem quiescent {code : op → Code σ ρ} {plan : op → Plan st ρ' ρ} (hcode : ∀ o, ∃ n, Good Abs sem R n (plan o) (code o))
    {A : Nat → σ} {s : S} (h0 : Abs A s) {W H} (he : Exec code (start A) H W) (hq : ∀ t, W.th t = .idle) :
    ∃ E s', Stepwise plan sem s H E s' ∧ Abs W.obj s' ∧
      ∀ t, SPhase.Path plan .idle (E.filter (fun e => e.tid == t)) .idle := by
  obtain ⟨E, A', s', ph, hI, hv, hl, ht⟩ := exec_inv hcode h0 he
  have hph : ∀ t, ph t = .idle ∧ ∀ j, W.hold j t = none := by
    intro t
    have := hI.th t
    rw [hq t] at this
    generalize hp : ph t = p at this
    cases this with
    | idle h => exact ⟨rfl, fun j => by rw [h j]; rfl⟩
  have hA : A' = W.obj := by
    funext i
    exact hI.same i fun t => by rw [(hph t).2]; simp
  exact ⟨E, s', ⟨hv, hl, fun t => ⟨_, ht t⟩⟩, hA ▸ hI.abs, fun t => by have := ht t; rwa [(hph t).1] at this⟩

/-- No thread ever runs into undefined behaviour. -/
theorem no_ub {code : op → Code σ ρ} {plan : op → Plan st ρ' ρ} (hcode : ∀ o, ∃ n, Good Abs sem R n (plan o) (code o))
    {A : Nat → σ} {s : S} (h0 : Abs A s) {W H} (he : Exec code (start A) H W) (t : Nat) (o : op) :
    W.th t ≠ .run o .ub := by
  intro hu
  obtain ⟨E, A', s', ph, hI, -⟩ := exec_inv hcode h0 he
  have ht := hI.th t
  rw [hu] at ht
  generalize hp : ph t = p at ht
  cases ht with
  | rel n i m ls k hc => cases hc
  | acq n β gs1 g gs2 rel b k hc => cases hc
  | inside n β ls rel b0 b k hc h1 h2 h3 h4 h5 h6 h7 =>
    cases b with
    | ub =>
      obtain ⟨a', x, hs, -⟩ := h7 A' s' hI.abs
      have := h6 A'
      rw [glue_self, hs] at this
      simp only [Code.solo] at this; cases this
    | ret x =>
      cases rel with
      | nil => exact absurd rfl h3
      | cons y rel => simp [Code.bind, Code.unlocks] at hc
    | _ => simp [Code.bind] at hc

/-! ## Deadlock -/

/-- Every group of locks lies above all groups taken before it. -/
def Ordered (gs : List (List (Nat × Mode))) : Prop :=
  ∀ gs1 g gs2, gs = gs1 ++ g :: gs2 → ∀ l ∈ gs1.flatten, ∀ l' ∈ g, l.1 < l'.1

theorem grant_bound {hold : Nat → Nat → Option Mode} {t : Nat} {M : Nat} (h : ∀ j u, hold j u ≠ none → j < M) :
    ∀ (ls : List (Nat × Mode)), ∃ M', ∀ j u, grant hold t ls j u ≠ none → j < M' := by
  intro ls
  induction ls generalizing hold M with
  | nil => exact ⟨M, h⟩
  | cons x ls ih =>
    obtain ⟨i, m⟩ := x
    refine ih (M := max M (i + 1)) (hold := upd hold i (upd (hold i) t (some m))) fun j u hj => ?_
    by_cases hji : j = i
    · omega
    · rw [upd_ne _ _ hji] at hj; have := h j u hj; omega

/-- Only finitely many locks are held. -/
theorem exec_bound {code : op → Code σ ρ} {A : Nat → σ} {W H} (he : Exec code (start A) H W) :
    ∃ M, ∀ j u, W.hold j u ≠ none → j < M := by
  induction he with
  | refl => exact ⟨0, fun j u h => absurd rfl h⟩
  | tail _ hs ih =>
    obtain ⟨M, hM⟩ := ih
    cases hs with
    | call => exact ⟨M, hM⟩
    | act => exact ⟨M, hM⟩
    | lock h hf => exact grant_bound hM _
    | unlock h hf =>
      refine ⟨M, fun j u hj => ?_⟩
      cases h1 : upd _ _ (upd _ _ none) j u with
      | none => exact absurd h1 hj
      | some m => exact hM j u (by rw [hold_release_le h1]; simp)
    | unlockBad => exact ⟨M, hM⟩
    | ret => exact ⟨M, hM⟩

/-- If some thread is in a call, some thread that is in a call is not waiting for a lock: no deadlock. -/
theorem progress {code : op → Code σ ρ} {plan : op → Plan st ρ' ρ} (hcode : ∀ o, ∃ n, Good Abs sem R n (plan o) (code o))
    (hR : ∀ gs, R gs → Ordered gs)
    {A : Nat → σ} {s : S} (h0 : Abs A s) {W H} (he : Exec code (start A) H W) (t : Nat) (hr : W.th t ≠ .idle) :
    ∃ t', W.th t' ≠ .idle ∧ ¬ Blocked W t' := by
  obtain ⟨M, hM⟩ := exec_bound he
  obtain ⟨E, A', s', ph, hI, -⟩ := exec_inv hcode h0 he
  -- a blocked thread waits for a lock that somebody holds and that lies above all its own
  have hwait : ∀ t, Blocked W t → ∃ i t', W.hold i t' ≠ none ∧ ∀ j, W.hold j t ≠ none → j < i := by
    rintro t ⟨o, ls, k, hl, hf⟩
    have ht := hI.th t
    rw [hl] at ht
    generalize hp : ph t = p at ht
    cases ht with
    | rel n i m ls k hc => cases hc
    | inside n β ls rel b0 b k' hc h1 h2 h3 h4 h5 h6 h7 =>
      exfalso
      cases b with
      | lock => exact h2.elim
      | ret x =>
        cases rel with
        | nil => exact absurd rfl h3
        | cons y rel => simp [Code.bind, Code.unlocks] at hc
      | _ => simp [Code.bind] at hc
    | acq n β gs1 g gs2 rel b k' hc h1 h2 h3 h4 h5 =>
      simp only [Code.lock.injEq] at hc
      obtain ⟨rfl, rfl⟩ := hc
      have hnd : (ls.map Prod.fst).Nodup := by
        have := h3.nodup
        rw [List.flatten_append, List.flatten_cons, List.map_append, List.map_append] at this
        exact (List.nodup_append.1 (List.nodup_append.1 this).2.1).1
      have : ∃ l ∈ ls, ¬ Free W l.1 l.2 := by
        by_contra hn
        push Not at hn
        exact hf ⟨hnd, hn⟩
      obtain ⟨⟨i, m⟩, hm, hnf⟩ := this
      have : ∃ t', W.hold i t' ≠ none := by
        by_contra hn
        push Not at hn
        apply hnf
        cases m with
        | excl => exact hn
        | shared => intro u; dsimp only; rw [hn u]; simp
      obtain ⟨t', ht'⟩ := this
      refine ⟨i, t', ht', fun j hj => ?_⟩
      rw [h1 j] at hj
      have : ∃ m', (j, m') ∈ gs1.flatten := by
        cases h8 : lk gs1.flatten j with
        | none => exact absurd h8 hj
        | some m' => exact ⟨m', lk_mem h8⟩
      obtain ⟨m', hm'⟩ := this
      exact hR _ h4 gs1 ls gs2 rfl _ hm' _ hm
  have hidle : ∀ t j, W.hold j t ≠ none → W.th t ≠ .idle := by
    intro t j hj hid
    have ht := hI.th t
    rw [hid] at ht
    generalize hp : ph t = p at ht
    cases ht with
    | idle h => exact hj (by rw [h j]; rfl)
  -- the holder of the highest lock is not blocked
  have hclimb : ∀ d j t, M - j ≤ d → W.hold j t ≠ none → ∃ t', W.th t' ≠ .idle ∧ ¬ Blocked W t' := by
    intro d
    induction d with
    | zero => intro j t h1 h2; have := hM j t h2; omega
    | succ d ih =>
      intro j t h1 h2
      by_cases hb : Blocked W t
      · obtain ⟨i, t', h3, h4⟩ := hwait t hb
        have := h4 j h2
        have := hM j t h2
        exact ih i t' (by omega) h3
      · exact ⟨t, hidle t j h2, hb⟩
  by_cases hb : Blocked W t
  · obtain ⟨i, t', h3, -⟩ := hwait t hb
    exact hclimb _ i t' (Nat.le_refl _) h3
  · exact ⟨t, hr, hb⟩

/-- The same if every section takes all its locks at once or takes only shared locks. -/
theorem progress_shared {code : op → Code σ ρ} {plan : op → Plan st ρ' ρ} (hcode : ∀ o, ∃ n, Good Abs sem R n (plan o) (code o))
    (hR : ∀ gs, R gs → gs.length ≤ 1 ∨ ∀ l ∈ gs.flatten, l.2 = .shared)
    {A : Nat → σ} {s : S} (h0 : Abs A s) {W H} (he : Exec code (start A) H W) (t : Nat) (hr : W.th t ≠ .idle) :
    ∃ t', W.th t' ≠ .idle ∧ ¬ Blocked W t' := by
  obtain ⟨E, A', s', ph, hI, -⟩ := exec_inv hcode h0 he
  have hidle : ∀ t j, W.hold j t ≠ none → W.th t ≠ .idle := by
    intro t j hj hid
    have ht := hI.th t
    rw [hid] at ht
    generalize hp : ph t = p at ht
    cases ht with
    | idle h => exact hj (by rw [h j]; rfl)
  -- a blocked thread waits for a lock that somebody holds; if it holds locks itself, they are shared and it waits for a
  -- lock that somebody holds exclusively
  have hwait : ∀ t, Blocked W t → (∃ i t', W.hold i t' ≠ none) ∧ ∀ j, W.hold j t ≠ none →
      W.hold j t = some .shared ∧ ∃ i t', W.hold i t' = some .excl := by
    rintro t ⟨o, ls, k, hl, hf⟩
    have ht := hI.th t
    rw [hl] at ht
    generalize hp : ph t = p at ht
    cases ht with
    | rel n i m ls k hc => cases hc
    | inside n β ls rel b0 b k' hc h1 h2 h3 h4 h5 h6 h7 =>
      exfalso
      cases b with
      | lock => exact h2.elim
      | ret x =>
        cases rel with
        | nil => exact absurd rfl h3
        | cons y rel => simp [Code.bind, Code.unlocks] at hc
      | _ => simp [Code.bind] at hc
    | acq n β gs1 g gs2 rel b k' hc h1 h2 h3 h4 h5 =>
      simp only [Code.lock.injEq] at hc
      obtain ⟨rfl, rfl⟩ := hc
      have hnd : (ls.map Prod.fst).Nodup := by
        have := h3.nodup
        rw [List.flatten_append, List.flatten_cons, List.map_append, List.map_append] at this
        exact (List.nodup_append.1 (List.nodup_append.1 this).2.1).1
      have : ∃ l ∈ ls, ¬ Free W l.1 l.2 := by
        by_contra hn
        push Not at hn
        exact hf ⟨hnd, hn⟩
      obtain ⟨⟨i, m⟩, hm, hnf⟩ := this
      refine ⟨?_, fun j hj => ?_⟩
      · by_contra hn
        push Not at hn
        apply hnf
        cases m with
        | excl => exact hn i
        | shared => intro u; dsimp only; rw [hn i u]; simp
      · rw [h1 j] at hj ⊢
        cases h8 : lk gs1.flatten j with
        | none => exact absurd h8 hj
        | some m' =>
          have hj' := lk_mem h8
          rcases hR _ h4 with h | h
          · cases gs1 with
            | nil => simp at hj'
            | cons g' gs1 => simp at h
          · have e1 : m' = .shared := h (j, m') (by simp only [List.flatten_append, List.mem_append]; exact .inl hj')
            have e2 : m = .shared := h (i, m) (by simp only [List.flatten_append, List.flatten_cons, List.mem_append]; exact .inr (.inl hm))
            subst e1 e2
            refine ⟨rfl, ?_⟩
            by_contra hn
            push Not at hn
            exact hnf fun u => hn i u
  have hex : ∀ i t, W.hold i t = some .excl → W.th t ≠ .idle ∧ ¬ Blocked W t := by
    intro i t h
    refine ⟨hidle t i (by rw [h]; simp), fun hb => ?_⟩
    have := ((hwait t hb).2 i (by rw [h]; simp)).1
    rw [h] at this; cases this
  by_cases hb : Blocked W t
  · obtain ⟨⟨i, t', h1⟩, -⟩ := hwait t hb
    by_cases hb' : Blocked W t'
    · obtain ⟨-, j, u, h2⟩ := (hwait t' hb').2 i h1
      exact ⟨u, hex j u h2⟩
    · exact ⟨t', hidle t' i h1, hb'⟩
  · exact ⟨t, hr, hb⟩

end Gtl.Conc.Multi
