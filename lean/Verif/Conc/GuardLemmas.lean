import Verif.Props.GuardDefs
import Mathlib.Data.List.Basic
/-!
# Invariant of the lock guards
-/

namespace Gtl.Guards

open Gtl.Conc (Mode)

def GOk : Guard → Prop
  | .one k m l s => (l = true → m ≠ none) ∧ (s = true → m ≠ none ∧ k = .readWrite) ∧ ¬ (l = true ∧ s = true)
  | .pair _ _ _ => True

structure Inv (w : W) : Prop where
  bal : ∀ m md, w.held m md = w.env m md + owners w m md
  ok : ∀ g, some g ∈ w.gs → GOk g
  mutex : ∀ m, w.held m .excl ≤ 1 ∧ (w.held m .excl = 1 → w.held m .shared = 0)

theorem count_set {gs : List (Option Guard)} {i : Nat} {x : Option Guard} (y : Option Guard) (p : Nat × Mode) (h : gs[i]? = some x) :
    ((gs.set i y).flatMap ownedO).count p + (ownedO x).count p = (gs.flatMap ownedO).count p + (ownedO y).count p := by
  induction gs generalizing i with
  | nil => cases h
  | cons a gs ih =>
    cases i with
    | zero =>
      simp only [List.getElem?_cons_zero, Option.some.injEq] at h
      subst h
      simp only [List.set_cons_zero, List.flatMap_cons, List.count_append]
      omega
    | succ i =>
      simp only [List.getElem?_cons_succ] at h
      have := ih h
      simp only [List.set_cons_succ, List.flatMap_cons, List.count_append]
      omega

theorem owners_push (w : W) (g : Guard) (m : Nat) (md : Mode) :
    owners (push w g) m md = owners w m md + (owned g).count (m, md) := by
  simp [owners, push, List.flatMap_append, List.count_append, ownedO]

/-- Changing one guard along with the mutexes. -/
theorem Inv.put {w : W} (h : Inv w) {i : Nat} {x : Option Guard} {y : Option Guard} {held' : Nat → Mode → Nat}
    (hx : w.gs[i]? = some x) (hb : ∀ m md, held' m md + (ownedO x).count (m, md) = w.held m md + (ownedO y).count (m, md))
    (hy : ∀ g, y = some g → GOk g) (hm : ∀ m, held' m .excl ≤ 1 ∧ (held' m .excl = 1 → held' m .shared = 0)) :
    Inv { held := held', env := w.env, gs := w.gs.set i y } := by
  refine ⟨fun m md => ?_, fun g hg => ?_, hm⟩
  · have h1 := h.bal m md
    have h2 := hb m md
    have h3 := count_set y (m, md) hx
    simp only [owners] at h1 ⊢
    omega
  · rcases List.mem_or_eq_of_mem_set hg with hg | hg
    · exact h.ok g hg
    · exact hy g hg.symm

theorem Inv.push {w : W} (h : Inv w) {g : Guard} {held' env' : Nat → Mode → Nat}
    (hb : ∀ m md, held' m md + w.env m md = w.held m md + env' m md + (owned g).count (m, md))
    (hg : GOk g) (hm : ∀ m, held' m .excl ≤ 1 ∧ (held' m .excl = 1 → held' m .shared = 0)) :
    Inv { held := held', env := env', gs := w.gs ++ [some g] } := by
  refine ⟨fun m md => ?_, fun g' hg' => ?_, hm⟩
  · have h1 := h.bal m md
    have h2 := hb m md
    have h3 := owners_push w g m md
    simp only [Guards.push, owners] at h1 h3 ⊢
    omega
  · rcases List.mem_append.1 hg' with hg' | hg'
    · exact h.ok g' hg'
    · simp only [List.mem_singleton, Option.some.injEq] at hg'; subst hg'; exact hg

theorem acquire_ok {w w' : W} {m md} (h : acquire w m md = .ok w') :
    w' = { w with held := bump w.held m md (w.held m md + 1) } ∧ free w m md = true := by
  unfold acquire at h
  split at h
  · cases h; exact ⟨rfl, by assumption⟩
  · cases h

theorem acquire_mutex {w : W} {m md} (hm : ∀ m, w.held m .excl ≤ 1 ∧ (w.held m .excl = 1 → w.held m .shared = 0))
    (hf : free w m md = true) (m' : Nat) :
    bump w.held m md (w.held m md + 1) m' .excl ≤ 1 ∧
      (bump w.held m md (w.held m md + 1) m' .excl = 1 → bump w.held m md (w.held m md + 1) m' .shared = 0) := by
  have := hm m'
  cases md with
  | excl =>
    simp only [free, Bool.and_eq_true, beq_iff_eq] at hf
    simp only [bump]
    by_cases e : m' = m
    · subst e; simp; omega
    · simp [e]; omega
  | shared =>
    simp only [free, beq_iff_eq] at hf
    simp only [bump]
    by_cases e : m' = m
    · subst e; simp; omega
    · simp [e]; omega

theorem release_mutex {w : W} {m md} (hm : ∀ m, w.held m .excl ≤ 1 ∧ (w.held m .excl = 1 → w.held m .shared = 0)) (m' : Nat) :
    bump w.held m md (w.held m md - 1) m' .excl ≤ 1 ∧
      (bump w.held m md (w.held m md - 1) m' .excl = 1 → bump w.held m md (w.held m md - 1) m' .shared = 0) := by
  have := hm m'
  cases md with
  | excl =>
    simp only [bump]
    by_cases e : m' = m
    · subst e; simp; omega
    · simp [e]; omega
  | shared =>
    simp only [bump]
    by_cases e : m' = m
    · subst e; simp; omega
    · simp [e]; omega

/-- A guard that owns a lock really holds it. -/
theorem Inv.holds {w : W} (h : Inv w) {i : Nat} {g : Guard} (hi : w.gs[i]? = some (some g)) (m : Nat) (md : Mode) :
    (owned g).count (m, md) ≤ w.held m md := by
  have h1 := h.bal m md
  have h2 := count_set none (m, md) hi
  simp only [owners] at h1
  have : (ownedO (some g)).count (m, md) = (owned g).count (m, md) := rfl
  have h3 : (ownedO none).count (m, md) = 0 := rfl
  omega

theorem release_ok {w : W} {m md} (h : 0 < w.held m md) :
    release w m md = .ok { w with held := bump w.held m md (w.held m md - 1) } := by
  unfold release; rw [if_neg (by omega)]

theorem get1_ok {w : W} {i k m l s} (h : Alive w i k m l s) : get1 w i = .ok (k, m, l, s) := by
  unfold get1; rw [h]

theorem Inv.alive {w : W} (h : Inv w) {i k m l s} (hi : Alive w i k m l s) : GOk (.one k m l s) :=
  h.ok _ (List.mem_of_getElem? hi)

theorem count_single (a b : Nat × Mode) : List.count a [b] = if b = a then 1 else 0 := by
  rw [List.count_cons, List.count_nil]; simp

theorem owners_alive {w : W} (h : Inv w) {i m s} (hi : Alive w i .readWrite (some m) true s) : owners w m .excl = 1 := by
  have h6 := h.mutex m
  have h7 := count_set none (m, .excl) hi
  have h8 := h.bal m .excl
  have h9 : 1 ≤ (ownedO (some (.one .readWrite (some m) true s))).count (m, .excl) := by
    simp [ownedO, owned, Kind.mode, List.count_cons]
  have h10 : (ownedO none).count (m, .excl) = 0 := rfl
  simp only [owners] at h8 ⊢
  omega

theorem bump_eq (f : Nat → Mode → Nat) (m md n m' md') : bump f m md n m' md' = if (m, md) = (m', md') then n else f m' md' := by
  unfold bump
  by_cases h : m' = m ∧ md' = md
  · rw [if_pos h, if_pos (by rw [h.1, h.2])]
  · rw [if_neg h, if_neg (by intro e; injection e with e1 e2; exact h ⟨e1.symm, e2.symm⟩)]

/-- The result of an operation: fine or waiting, never undefined. -/
def Fine (r : Res W) : Prop := r ≠ .ub ∧ ∀ w', r = .ok w' → Inv w'

theorem fine_ok {w : W} (h : Inv w) : Fine (.ok w) := ⟨by simp, fun w' e => by cases e; exact h⟩

theorem fine_acquire {w : W} (h : Inv w) (m md) {f : W → Res W}
    (hf : free w m md = true → Fine (f { w with held := bump w.held m md (w.held m md + 1) })) :
    Fine (acquire w m md >>= f) := by
  unfold acquire
  split
  · exact hf (by assumption)
  · exact ⟨by simp, fun w' e => by cases e⟩

theorem destroy_fine {w : W} (h : Inv w) {i : Nat} {g : Guard} (hi : w.gs[i]? = some (some g)) : Fine (destroy w i) := by
  unfold destroy get
  rw [hi]
  simp only [Res.ok_bind]
  have hok := h.ok g (List.mem_of_getElem? hi)
  have hh := h.holds hi
  cases g with
  | one k m l s =>
    simp only
    obtain ⟨h1, h2, h3⟩ := hok
    split
    · rename_i hs
      obtain ⟨m0, rfl⟩ := Option.ne_none_iff_exists'.1 (h2 hs.2).1
      have hl : l = false := by cases l with | false => rfl | true => exact absurd ⟨rfl, hs.2⟩ h3
      have h4 := hh m0 .shared
      simp only [owned, hs.2, hl, if_true, Bool.false_eq_true, if_false, List.nil_append, count_single] at h4
      simp only [deref, Res.ofOption_some, Res.ok_bind]
      have h4 : 1 ≤ w.held m0 .shared := by simpa using h4
      rw [release_ok h4, Res.ok_bind]
      refine fine_ok (h.put hi (fun m md => ?_) (by simp) (release_mutex h.mutex))
      simp only [ownedO, owned, hs.2, hl, if_true, Bool.false_eq_true, if_false, List.nil_append, count_single, bump_eq, List.count_nil]
      split
      · rename_i e; injection e with e1 e2; subst e1; subst e2; omega
      · omega
    · rename_i hs
      split
      · rename_i hl
        obtain ⟨m0, rfl⟩ := Option.ne_none_iff_exists'.1 (h1 hl)
        have hs' : s = false := by cases s with | false => rfl | true => exact absurd ⟨hl, rfl⟩ h3
        have h4 := hh m0 k.mode
        simp only [owned, hl, hs', if_true, Bool.false_eq_true, if_false, List.append_nil, count_single] at h4
        have h4 : 1 ≤ w.held m0 k.mode := by simpa using h4
        simp only [deref, Res.ofOption_some, Res.ok_bind]
        rw [release_ok h4, Res.ok_bind]
        refine fine_ok (h.put hi (fun m md => ?_) (by simp) (release_mutex h.mutex))
        simp only [ownedO, owned, hl, hs', if_true, Bool.false_eq_true, if_false, List.append_nil, count_single, bump_eq, List.count_nil]
        split
        · rename_i e; injection e with e1 e2; subst e1; subst e2; omega
        · omega
      · rename_i hl
        have hl : l = false := by simpa using hl
        have hs' : s = false := by
          cases s with
          | false => rfl
          | true => exact absurd ⟨(h2 rfl).2, rfl⟩ hs
        refine fine_ok (h.put hi (fun m' md => ?_) (by simp) h.mutex)
        cases m <;> simp [ownedO, owned, hl, hs']
  | pair md m1 m2 =>
    simp only
    have h4 := hh m1 md
    have h5 := hh m2 md
    simp only [owned, List.count_cons, List.count_nil] at h4 h5
    have h6 : 1 ≤ w.held m1 md := by
      simp at h4; omega
    rw [release_ok h6, Res.ok_bind]
    have h7 : 0 < bump w.held m1 md (w.held m1 md - 1) m2 md := by
      rw [bump_eq]
      split
      · rename_i e
        injection e with e1 _
        subst e1
        simp at h4
        omega
      · simp at h5; omega
    rw [release_ok h7, Res.ok_bind]
    refine fine_ok (h.put hi (fun m md' => ?_) (by simp)
      (release_mutex (w := { w with held := bump w.held m1 md (w.held m1 md - 1) }) (release_mutex h.mutex)))
    simp only [ownedO, owned, bump_eq, List.count_nil, List.count_cons] at h7 ⊢
    by_cases e1 : (m1, md) = (m, md') <;> by_cases e2 : (m2, md) = (m, md')
    · injection e1 with e11 e12
      injection e2 with e21 _
      subst e11; subst e12; subst e21
      simp only [if_true, beq_self_eq_true] at h7 ⊢
      omega
    · injection e1 with e11 e12
      subst e11; subst e12
      simp only [if_true, beq_self_eq_true, if_neg e2, beq_iff_eq]
      omega
    · injection e2 with e21 e22
      subst e21; subst e22
      simp only [if_true, beq_self_eq_true, if_neg e1, beq_iff_eq] at h7 ⊢
      omega
    · simp only [if_neg e1, if_neg e2, beq_iff_eq]

theorem lockG_fine {w : W} (h : Inv w) {i k m l s} (hi : Alive w i k m l s) (hm : l = false → m ≠ none)
    (hs : s = false) : Fine (lockG w i) := by
  unfold lockG
  rw [get1_ok hi, Res.ok_bind]
  simp only
  split
  · exact fine_ok h
  · rename_i hl
    have hl : l = false := by simpa using hl
    obtain ⟨m0, rfl⟩ := Option.ne_none_iff_exists'.1 (hm hl)
    simp only [deref, Res.ofOption_some, Res.ok_bind]
    refine fine_acquire h m0 k.mode fun hf => ?_
    refine fine_ok (h.put hi (fun m md => ?_) ?_ (acquire_mutex h.mutex hf))
    · simp only [ownedO, owned, hl, hs, if_true, Bool.false_eq_true, if_false, List.append_nil, count_single, bump_eq, List.count_nil]
      split
      · rename_i e; injection e with e1 e2; subst e1; subst e2; omega
      · omega
    · rintro g ⟨⟩
      simp [GOk, hs]

theorem unlockG_fine {w : W} (h : Inv w) {i k m l s} (hi : Alive w i k m l s) : Fine (unlockG w i) := by
  unfold unlockG
  rw [get1_ok hi, Res.ok_bind]
  simp only
  obtain ⟨h1, h2, h3⟩ := h.alive hi
  split
  · rename_i hl
    obtain ⟨m0, rfl⟩ := Option.ne_none_iff_exists'.1 (h1 hl)
    have hs' : s = false := by cases s with | false => rfl | true => exact absurd ⟨hl, rfl⟩ h3
    have h4 := h.holds hi m0 k.mode
    simp only [owned, hl, hs', if_true, Bool.false_eq_true, if_false, List.append_nil, count_single] at h4
    simp only [deref, Res.ofOption_some, Res.ok_bind]
    rw [release_ok h4, Res.ok_bind]
    refine fine_ok (h.put hi (fun m md => ?_) ?_ (release_mutex h.mutex))
    · simp only [ownedO, owned, hl, hs', if_true, Bool.false_eq_true, if_false, List.append_nil, count_single, bump_eq, List.count_nil]
      split
      · rename_i e; injection e with e1 e2; subst e1; subst e2; omega
      · omega
    · rintro g ⟨⟩
      simp [GOk, hs']
  · exact fine_ok h

theorem unlockSharedG_fine {w : W} (h : Inv w) {i m l s} (hi : Alive w i .readWrite m l s) :
    Fine (unlockSharedG w i) ∧ ∀ w', unlockSharedG w i = .ok w' → Alive w' i .readWrite m l false := by
  unfold unlockSharedG
  rw [get1_ok hi, Res.ok_bind]
  simp only
  obtain ⟨h1, h2, h3⟩ := h.alive hi
  split
  · rename_i hs
    obtain ⟨m0, rfl⟩ := Option.ne_none_iff_exists'.1 (h2 hs).1
    have hl : l = false := by cases l with | false => rfl | true => exact absurd ⟨rfl, hs⟩ h3
    have h4 := h.holds hi m0 .shared
    simp only [owned, hl, hs, if_true, Bool.false_eq_true, if_false, List.nil_append, count_single] at h4
    simp only [deref, Res.ofOption_some, Res.ok_bind]
    rw [release_ok h4, Res.ok_bind]
    refine ⟨fine_ok (h.put hi (fun m md => ?_) ?_ (release_mutex h.mutex)), ?_⟩
    · simp only [ownedO, owned, hl, hs, if_true, Bool.false_eq_true, if_false, List.nil_append, count_single, bump_eq, List.count_nil]
      split
      · rename_i e; injection e with e1 e2; subst e1; subst e2; omega
      · omega
    · rintro g ⟨⟩
      simp [GOk, hl]
    · intro w' e
      cases e
      simp only [Alive, Guards.put, List.getElem?_set]
      rw [if_pos trivial, if_pos (List.getElem?_eq_some_iff.1 hi).1]
  · rename_i hs
    have hs : s = false := by simpa using hs
    subst hs
    exact ⟨fine_ok h, fun w' e => by cases e; exact hi⟩

theorem count_none (p : Nat × Mode) (k : Kind) : (owned (.one k none false false)).count p = 0 := rfl

theorem null_ok (k : Kind) : GOk (.one k none false false) := by simp [GOk]

theorem push_null {w : W} (h : Inv w) (k : Kind) : Inv (Guards.push w (.one k none false false)) :=
  h.push (fun m md => by rw [count_none]; omega) (null_ok k) h.mutex

/-- Moving the contents of guard `i` to a new guard. -/
theorem moved_inv {w : W} (h : Inv w) {i k m l s} (hi : Alive w i k m l s) :
    Inv (Guards.push (Guards.put w i (some (.one k none false false))) (.one k m l s)) := by
  have ho : ∀ m' md', owners (Guards.push (Guards.put w i (some (.one k none false false))) (.one k m l s)) m' md' = owners w m' md' := by
    intro m' md'
    rw [owners_push]
    have := count_set (some (.one k none false false)) (m', md') hi
    simp only [ownedO, count_none] at this
    simp only [owners, Guards.put]
    omega
  refine ⟨fun m' md' => by rw [ho]; exact h.bal m' md', fun g hg => ?_, h.mutex⟩
  simp only [Guards.push, Guards.put, List.mem_append, List.mem_singleton, Option.some.injEq] at hg
  rcases hg with hg | rfl
  · rcases List.mem_or_eq_of_mem_set hg with hg | hg
    · exact h.ok g hg
    · cases hg; exact null_ok k
  · exact h.alive hi

theorem swapped_inv {w : W} (h : Inv w) {i j k m l s k' m' l' s'} (hi : Alive w i k m l s) (hj : Alive w j k' m' l' s') :
    Inv (Guards.put (Guards.put w i (some (.one k' m' l' s'))) j (some (.one k m l s))) := by
  have hj2 : (w.gs.set i (some (.one k' m' l' s')))[j]? = some (some (.one k' m' l' s')) := by
    rw [List.getElem?_set]
    split
    · rw [if_pos (List.getElem?_eq_some_iff.1 hi).1]
    · exact hj
  have ho : ∀ a md, owners (Guards.put (Guards.put w i (some (.one k' m' l' s'))) j (some (.one k m l s))) a md = owners w a md := by
    intro a md
    have h1 := count_set (some (.one k' m' l' s')) (a, md) hi
    have h2 := count_set (some (.one k m l s)) (a, md) hj2
    simp only [owners, Guards.put]
    omega
  refine ⟨fun a md => by rw [ho]; exact h.bal a md, fun g hg => ?_, h.mutex⟩
  simp only [Guards.put] at hg
  rcases List.mem_or_eq_of_mem_set hg with hg | hg
  · rcases List.mem_or_eq_of_mem_set hg with hg | hg
    · exact h.ok g hg
    · cases hg; exact h.alive hj
  · cases hg; exact h.alive hi

theorem init_inv : Inv init := ⟨fun _ _ => rfl, fun _ h => by simp [init] at h, fun _ => by simp [init]⟩

theorem step_fine {w : W} (h : Inv w) {op : Op} (hp : Pre w op) (ht : ¬ IsTryTo op) : Fine (step w op) := by
  cases op with
  | default k => exact fine_ok (push_null h k)
  | construct k m =>
    have key : ∀ k, k ≠ .readWrite → Fine (acquire w m (Kind.mode k) >>= fun w => .ok (Guards.push w (.one k (some m) true false))) := by
      intro k hk
      refine fine_acquire h m _ fun hf => fine_ok (h.push (fun a md => ?_) ?_ (acquire_mutex h.mutex hf))
      · simp only [owned, if_true, Bool.false_eq_true, if_false, List.append_nil, count_single, bump_eq]
        split
        · rename_i e; injection e with e1 e2; subst e1; subst e2; omega
        · omega
      · simp [GOk]
    cases k with
    | write => exact key .write (by simp)
    | read => exact key .read (by simp)
    | readWrite =>
      refine fine_acquire h m _ fun hf => fine_ok (h.push (fun a md => ?_) ?_ (acquire_mutex h.mutex hf))
      · simp only [owned, if_true, Bool.false_eq_true, if_false, List.nil_append, count_single, bump_eq]
        split
        · rename_i e; injection e with e1 e2; subst e1; subst e2; omega
        · omega
      · simp [GOk]
  | adopt k m =>
    refine fine_ok (h.push (fun a md => ?_) ?_ h.mutex)
    · have hp := hp.2
      simp only [owned, if_true, Bool.false_eq_true, if_false, List.append_nil, count_single, bump_eq]
      split
      · rename_i e; injection e with e1 e2; subst e1; subst e2; omega
      · omega
    · simp [GOk]
  | defer k m =>
    refine fine_ok (h.push (fun a md => ?_) ?_ h.mutex)
    · simp [owned]
    · simp [GOk]
  | tryTo k m luck => exact absurd trivial ht
  | moveCtor i =>
    obtain ⟨k, m, l, s, hi⟩ := hp
    simp only [step, get1_ok hi, Res.ok_bind]
    exact fine_ok (moved_inv h hi)
  | moveAssign i j =>
    obtain ⟨k, m, l, s, m', l', s', hi, hj⟩ := hp
    simp only [step, get1_ok hj, Res.ok_bind]
    have hi1 : ∃ mi li si, Alive (Guards.put w j (some (.one k none false false))) i k mi li si ∧ GOk (.one k mi li si) := by
      by_cases hij : j = i
      · refine ⟨none, false, false, ?_, null_ok k⟩
        subst hij
        simp only [Alive, Guards.put, List.getElem?_set]
        rw [if_pos trivial, if_pos (List.getElem?_eq_some_iff.1 hi).1]
      · refine ⟨m, l, s, ?_, h.alive hi⟩
        simp only [Alive, Guards.put, List.getElem?_set]
        rw [if_neg hij]; exact hi
    obtain ⟨mi, li, si, hi1, hok⟩ := hi1
    rw [get1_ok hi1, Res.ok_bind]
    simp only
    have hI : Inv (Guards.push (Guards.put (Guards.put w j (some (.one k none false false))) i (some (.one k m' l' s'))) (.one k mi li si)) := by
      have ho : ∀ a md, owners (Guards.push (Guards.put (Guards.put w j (some (.one k none false false))) i (some (.one k m' l' s'))) (.one k mi li si)) a md = owners w a md := by
        intro a md
        rw [owners_push]
        have h1 := count_set (some (.one k none false false)) (a, md) hj
        have h2 := count_set (some (.one k m' l' s')) (a, md) hi1
        simp only [ownedO, count_none] at h1 h2
        simp only [owners, Guards.put] at h2 ⊢
        omega
      refine ⟨fun a md => by rw [ho]; exact h.bal a md, fun g hg => ?_, h.mutex⟩
      simp only [Guards.push, Guards.put, List.mem_append, List.mem_singleton, Option.some.injEq] at hg
      rcases hg with hg | rfl
      · rcases List.mem_or_eq_of_mem_set hg with hg | hg
        · rcases List.mem_or_eq_of_mem_set hg with hg | hg
          · exact h.ok g hg
          · cases hg; exact null_ok k
        · cases hg; exact h.alive hj
      · exact hok
    refine destroy_fine hI (g := .one k mi li si) ?_
    simp [Guards.push]
  | swap i j =>
    obtain ⟨k, m, l, s, m', l', s', hi, hj⟩ := hp
    simp only [step, get1_ok hi, get1_ok hj, Res.ok_bind]
    exact fine_ok (swapped_inv h hi hj)
  | lock i =>
    obtain ⟨k, m, l, s, hi, h1, h2⟩ := hp
    refine lockG_fine h hi h1 ?_
    cases hs : s with
    | false => rfl
    | true =>
      have := (h.alive hi).2.1 hs
      rw [h2 this.2] at hs; cases hs
  | unlock i => obtain ⟨k, m, l, s, hi⟩ := hp; exact unlockG_fine h hi
  | lockShared i =>
    obtain ⟨m, l, s, hi, h1, rfl⟩ := hp
    simp only [step, get1_ok hi, Res.ok_bind]
    split
    · exact fine_ok h
    · rename_i hs
      have hs : s = false := by simpa using hs
      obtain ⟨m0, rfl⟩ := Option.ne_none_iff_exists'.1 (h1 hs)
      simp only [deref, Res.ofOption_some, Res.ok_bind]
      refine fine_acquire h m0 _ fun hf => fine_ok (h.put hi (fun m md => ?_) ?_ (acquire_mutex h.mutex hf))
      · simp only [ownedO, owned, hs, if_true, Bool.false_eq_true, if_false, List.append_nil, List.nil_append, count_single, bump_eq, List.count_nil]
        split
        · rename_i e; injection e with e1 e2; subst e1; subst e2; omega
        · omega
      · rintro g ⟨⟩
        simp [GOk]
  | unlockShared i => obtain ⟨m, l, s, hi⟩ := hp; exact (unlockSharedG_fine h hi).1
  | tryLock i luck =>
    obtain ⟨k, m, l, s, hi, h1, h2⟩ := hp
    simp only [step, get1_ok hi, Res.ok_bind]
    split
    · exact fine_ok h
    · rename_i hl
      have hl : l = false := by simpa using hl
      obtain ⟨m0, rfl⟩ := Option.ne_none_iff_exists'.1 (h1 hl)
      have hs : s = false := by
        cases hs : s with
        | false => rfl
        | true => exact absurd ((h.alive hi).2.1 hs).2 h2
      simp only [deref, Res.ofOption_some, Res.ok_bind]
      unfold tryAcquire
      split
      · rename_i hf
        rw [Bool.and_eq_true] at hf
        rw [Res.ok_bind]
        refine fine_ok (h.put hi (fun m md => ?_) ?_ (acquire_mutex h.mutex hf.1))
        · simp only [ownedO, owned, hl, hs, if_true, Bool.false_eq_true, if_false, List.append_nil, List.nil_append, count_single, bump_eq, List.count_nil]
          split
          · rename_i e; injection e with e1 e2; subst e1; subst e2; omega
          · omega
        · rintro g ⟨⟩
          simp [GOk, hs]
      · rw [Res.ok_bind]
        refine fine_ok (h.put hi (fun m md => ?_) ?_ h.mutex)
        · simp only [ownedO, owned, hl, hs]
        · rintro g ⟨⟩
          simp [GOk, hs]
  | switch i =>
    obtain ⟨k, m, l, s, hi, h1⟩ := hp
    simp only [step, get1_ok hi, Res.ok_bind]
    split
    · rename_i hk
      subst hk
      obtain ⟨hf, ha⟩ := unlockSharedG_fine h hi
      cases hu : unlockSharedG w i with
      | ub => exact absurd hu hf.1
      | hang => exact ⟨by simp, fun w' e => by cases e⟩
      | ok w' =>
        rw [Res.ok_bind]
        exact lockG_fine (hf.2 w' hu) (ha w' hu) (fun _ => ((h.alive hi).2.1 (h1 rfl)).1) rfl
    · exact fine_ok h
  | destroy i => obtain ⟨g, hi⟩ := hp; exact destroy_fine h hi
  | pair md m1 m2 =>
    refine fine_acquire h m1 md fun hf => ?_
    unfold acquire
    split
    · rename_i hf2
      rw [Res.ok_bind]
      refine fine_ok (h.push (fun a md' => ?_) trivial
        (acquire_mutex (w := { w with held := bump w.held m1 md (w.held m1 md + 1) }) (acquire_mutex h.mutex hf) hf2))
      simp only [owned, bump_eq, List.count_nil, List.count_cons, beq_iff_eq]
      by_cases e1 : (m1, md) = (a, md') <;> by_cases e2 : (m2, md) = (a, md')
      · injection e1 with e11 e12
        injection e2 with e21 _
        subst e11; subst e12; subst e21
        simp only [if_true]
        omega
      · injection e1 with e11 e12
        subst e11; subst e12
        simp only [if_true, if_neg e2]
        omega
      · injection e2 with e21 e22
        subst e21; subst e22
        simp only [if_true, if_neg e1]
        omega
      · simp only [if_neg e1, if_neg e2]
        omega
    · exact ⟨by simp, fun w' e => by cases e⟩
  | pairAdopt md m1 m2 =>
    obtain ⟨p1, p2, p3⟩ := hp
    refine fine_ok (h.push (fun a md' => ?_) trivial h.mutex)
    simp only [owned, bump_eq, List.count_nil, List.count_cons, beq_iff_eq]
    by_cases e1 : (m1, md) = (a, md') <;> by_cases e2 : (m2, md) = (a, md')
    · injection e1 with e11 e12
      injection e2 with e21 _
      subst e11; subst e12; subst e21
      have := p3 rfl
      simp only [if_true]
      omega
    · injection e1 with e11 e12
      subst e11; subst e12
      simp only [if_true, if_neg e2]
      omega
    · injection e2 with e21 e22
      subst e21; subst e22
      simp only [if_true, if_neg e1]
      omega
    · simp only [if_neg e1, if_neg e2]
      omega
  | envLock m md =>
    refine fine_acquire h m md fun hf => fine_ok ⟨fun a md' => ?_, h.ok, acquire_mutex h.mutex hf⟩
    have := h.bal a md'
    simp only [owners, bump_eq] at this ⊢
    split
    · rename_i e; injection e with e1 e2; subst e1; subst e2; omega
    · omega
  | envUnlock m md =>
    have hp : 0 < w.env m md := hp
    have hb := h.bal m md
    simp only [step]
    rw [release_ok (by omega), Res.ok_bind]
    refine fine_ok ⟨fun a md' => ?_, h.ok, release_mutex h.mutex⟩
    have := h.bal a md'
    simp only [owners, bump_eq] at this hb ⊢
    split
    · rename_i e; injection e with e1 e2; subst e1; subst e2; omega
    · omega

theorem reach_inv {w : W} (h : Reach false w) : Inv w := by
  induction h with
  | init => exact init_inv
  | step _ hp ht hs ih => exact (step_fine ih hp (ht rfl)).2 _ hs

end Gtl.Guards
