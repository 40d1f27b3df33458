import Verif.Conc.RacePlay
import Verif.Utils.TimestampSim
/-!
# Timestamps used by several threads

All timestamps share the clock, a static member that is not atomic (utils.hpp:207), so that calls on different timestamps
meet. Object 0 is the clock, object `i + 1` is `stamp_` of timestamp `i`.
-/

namespace Gtl.Conc.Times

open Gtl.Timestamp (Op)
open Gtl.Spec.HB

/-- The code of the calls on existing timestamps, one access to a variable after another; constructing a timestamp in
place of an old one is a `touch`: `touch` (utils.hpp:167, 172; `++clock_` reads and writes), `touch(o)` (173), `reset` (175), `is_set`,
`is_newer_than`, `is_older_than`, `==` (177-181), `|=` (186-190). `set_with_ts` (196-203) compares variables of the caller and then
touches. Copies and constructors of further timestamps do nothing here. -/
def bare : Op → Code Nat Bool
  | .touch i => .act 0 id fun c => .act 0 (fun _ => (c + 1) % 2 ^ 64) fun _ => .act (i + 1) (fun _ => (c + 1) % 2 ^ 64) fun _ => .ret false
  | .touchFrom i j => .act (j + 1) id fun s => .act (i + 1) (fun _ => s) fun _ => .ret false
  | .reset i => .act (i + 1) (fun _ => 0) fun _ => .ret false
  | .merge i j => .act (i + 1) id fun s => .act (j + 1) id fun r => .act (i + 1) (fun _ => if s > r then s else r) fun _ => .ret false
  | .setWithTs i old new =>
    if old ≠ new then
      .act 0 id fun c => .act 0 (fun _ => (c + 1) % 2 ^ 64) fun _ => .act (i + 1) (fun _ => (c + 1) % 2 ^ 64) fun _ => .ret true
    else .ret false
  | .isSet i => .act (i + 1) id fun s => .ret (decide (s ≠ 0))
  | .newer i j => .act (i + 1) id fun s => .act (j + 1) id fun r => .ret (decide (s > r))
  | .older i j => .act (i + 1) id fun s => .act (j + 1) id fun r => .ret (decide (s < r))
  | .same i j => .act (i + 1) id fun s => .act (j + 1) id fun r => .ret (decide (s = r))
  | .create => .ret false
  | .createWith _ => .ret false
  | .copy _ => .ret false

/-- A thread has changed the clock. -/
def Ticked (D : List Did) (t : Nat) : Prop := ∃ (i : Nat) (r w : Nat → Prop), D[i]? = some (.access t r w) ∧ w 0

/-- A thread has looked at the clock or changed it. -/
def Met (D : List Did) (t : Nat) : Prop := ∃ (i : Nat) (r w : Nat → Prop), D[i]? = some (.access t r w) ∧ (r 0 ∨ w 0)

/-- Code that uses no locks. -/
def NoLock {σ ρ : Type} : Code σ ρ → Prop
  | .ret _ => True
  | .ub => True
  | .act _ _ k => ∀ s, NoLock (k s)
  | .lock .. => False
  | .unlock .. => False

theorem bare_noLock (o : Op) : NoLock (bare o) := by
  cases o <;> simp only [bare, NoLock] <;> (try intros) <;> (try trivial)
  split <;> simp only [NoLock] <;> intros <;> trivial

/-- Without locks a record consists of accesses. -/
theorem rec_accesses {op σ ρ : Type} {code : op → Code σ ρ} (hc : ∀ o, NoLock (code o)) {A : Nat → σ} {D W}
    (h : Rec code (start A) D W) : (∀ t o c, W.th t = .run o c → NoLock c) ∧ ∀ d ∈ D, ∃ t r w, d = .access t r w := by
  induction h with
  | refl => exact ⟨(by intro t o c h; cases h), (by simp)⟩
  | tail _ hs ih =>
    obtain ⟨i1, i2⟩ := ih
    have key : ∀ {th : Nat → TS op σ ρ} {t : Nat} {x : TS op σ ρ}, (∀ t o c, th t = .run o c → NoLock c) →
        (∀ o c, x = .run o c → NoLock c) → ∀ u o c, upd th t x u = .run o c → NoLock c := by
      intro th t x h1 h2 u o c h
      unfold upd at h
      split at h
      · exact h2 o c h
      · exact h1 u o c h
    cases hs with
    | call h => exact ⟨key i1 (fun o c e => by cases e; exact hc _), by simpa using i2⟩
    | act h =>
      refine ⟨key i1 (fun o c e => by cases e; exact (i1 _ _ _ h) _), ?_⟩
      intro d hd
      rcases List.mem_append.1 hd with hd | hd
      · exact i2 d hd
      · rw [List.mem_singleton] at hd; exact ⟨_, _, _, hd⟩
    | lock h => exact (i1 _ _ _ h).elim
    | unlock h => exact (i1 _ _ _ h).elim
    | unlockBad h => exact (i1 _ _ _ h).elim
    | ret h => exact ⟨key i1 (by intro o c e; cases e), by simpa using i2⟩

/-- Conflicting accesses of code without locks are never ordered. -/
theorem noLock_races {op σ ρ : Type} {code : op → Code σ ρ} (hc : ∀ o, NoLock (code o)) {A : Nat → σ} {D W}
    (h : Rec code (start A) D W) {i j : Nat} {a b : Did} (hij : i < j) (ha : D[i]? = some a) (hb : D[j]? = some b) (hx : Conflict a b) :
    ¬ RaceFree D := by
  intro hf
  have hD := (rec_accesses hc h).2
  have hbef := hf i j a b hij ha hb hx
  obtain ⟨x, y, h1, h2, h3⟩ := same_thread (by
    intro e he
    obtain ⟨d, hd, rfl⟩ := List.mem_map.1 he
    obtain ⟨t, r, w, rfl⟩ := hD d hd
    exact .inl rfl) hbef
  rw [List.getElem?_map, ha] at h1
  rw [List.getElem?_map, hb] at h2
  cases h1
  cases h2
  cases a with
  | lock => exact hx
  | unlock => exact hx
  | access t r w =>
    cases b with
    | lock => exact hx
    | unlock => exact hx
    | access u r' w' => exact hx.1 h3

/-- Where a call of `touch` is, and whether it has changed the clock. -/
def Where (D : List Did) (t i : Nat) (c : Code Nat Bool) : Prop :=
  c = bare (.touch i) ∨ (∃ n : Nat, c = .act 0 (fun _ => (n + 1) % 2 ^ 64) fun _ => .act (i + 1) (fun _ => (n + 1) % 2 ^ 64) fun _ => .ret false) ∨
    Ticked D t

theorem Ticked.mono {D : List Did} {t : Nat} (h : Ticked D t) (d : List Did) : Ticked (D ++ d) t := by
  obtain ⟨i, r, w, h1, h2⟩ := h
  refine ⟨i, r, w, ?_, h2⟩
  rw [List.getElem?_append_left (List.getElem?_eq_some_iff.1 h1).1]
  exact h1

theorem where_ok {A : Nat → Nat} {D W} (h : Rec bare (start A) D W) :
    ∀ t i c, W.th t = .run (.touch i) c → Where D t i c := by
  induction h with
  | refl => intro t i c h; cases h
  | @tail W1 W2 D d _ hs ih =>
    have keep : ∀ {t i c}, Where D t i c → Where (D ++ d) t i c := by
      rintro t i c (h | h | h)
      · exact .inl h
      · exact .inr (.inl h)
      · exact .inr (.inr (h.mono d))
    intro t i c ht
    cases hs with
    | @call t' o h =>
      simp only [upd] at ht
      split at ht
      · cases ht; exact .inl rfl
      · exact keep (ih t i c ht)
    | @act t' o j w k h =>
      simp only [upd] at ht
      split at ht
      · next e =>
        subst e
        injection ht with e1 e2
        subst e1
        rcases ih t i _ h with hw | ⟨n, hw⟩ | hw
        · simp only [bare, Code.act.injEq] at hw
          obtain ⟨rfl, rfl, rfl⟩ := hw
          exact .inr (.inl ⟨_, e2.symm⟩)
        · simp only [Code.act.injEq] at hw
          obtain ⟨rfl, rfl, rfl⟩ := hw
          refine .inr (.inr ⟨D.length, fun j => j = 0, fun j => j = 0 ∧ ∃ s, (fun _ => (n + 1) % 2 ^ 64) s ≠ s,
            (by rw [List.getElem?_append_right (Nat.le_refl _), Nat.sub_self]; rfl), rfl, ?_⟩)
          refine ⟨(n + 1) % 2 ^ 64 + 1, ?_⟩
          intro he
          have he' : (n + 1) % 2 ^ 64 = (n + 1) % 2 ^ 64 + 1 := he
          exact absurd he' (Nat.ne_of_lt (Nat.lt_succ_self _))
        · exact keep (.inr (.inr hw))
      · exact keep (ih t i c ht)
    | @lock t' o j m k h hf =>
      simp only [upd] at ht
      split at ht
      · next e =>
        subst e
        injection ht with e1 e2
        subst e1
        rcases ih t i _ h with hw | ⟨n, hw⟩ | hw
        · simp [bare] at hw
        · cases hw
        · exact keep (.inr (.inr hw))
      · exact keep (ih t i c ht)
    | @unlock t' o j m k h hf =>
      simp only [upd] at ht
      split at ht
      · next e =>
        subst e
        injection ht with e1 e2
        subst e1
        rcases ih t i _ h with hw | ⟨n, hw⟩ | hw
        · simp [bare] at hw
        · cases hw
        · exact keep (.inr (.inr hw))
      · exact keep (ih t i c ht)
    | @unlockBad t' o j m k h hf =>
      simp only [upd] at ht
      split at ht
      · next e =>
        subst e
        injection ht with e1 e2
        subst e1
        rcases ih t i _ h with hw | ⟨n, hw⟩ | hw
        · simp [bare] at hw
        · cases hw
        · exact keep (.inr (.inr hw))
      · exact keep (ih t i c ht)
    | @ret t' o r h =>
      simp only [upd] at ht
      split at ht
      · cases ht
      · exact keep (ih t i c ht)

/-! ## Calls that only look -/

/-- Calls that change nothing. -/
def Looking : Op → Prop
  | .isSet _ => True
  | .newer _ _ => True
  | .older _ _ => True
  | .same _ _ => True
  | _ => False

theorem looking_readOnly {o : Op} (h : Looking o) : (bare o).ReadOnly := by
  cases o <;> first
    | exact h.elim
    | exact ⟨fun _ => rfl, fun _ => trivial⟩
    | exact ⟨fun _ => rfl, fun _ => ⟨fun _ => rfl, fun _ => trivial⟩⟩

/-- Code that changes nothing has no races. -/
theorem readOnly_free {op σ ρ : Type} {code : op → Code σ ρ} (hc : ∀ o, NoLock (code o)) (hr : ∀ o, (code o).ReadOnly) {A : Nat → σ} {D W}
    (h : Rec code (start A) D W) : RaceFree D := by
  have key : (∀ t o c, W.th t = .run o c → c.ReadOnly) ∧ ∀ d ∈ D, ∃ t r w, d = .access t r w ∧ ∀ i, ¬ w i := by
    induction h with
    | refl => exact ⟨(by intro t o c h; cases h), (by simp)⟩
    | tail hd hs ih =>
      obtain ⟨i1, i2⟩ := ih
      have hn := (rec_accesses hc hd).1
      have key : ∀ {th : Nat → TS op σ ρ} {t : Nat} {x : TS op σ ρ}, (∀ t o c, th t = .run o c → c.ReadOnly) →
          (∀ o c, x = .run o c → c.ReadOnly) → ∀ u o c, upd th t x u = .run o c → c.ReadOnly := by
        intro th t x h1 h2 u o c h
        unfold upd at h
        split at h
        · exact h2 o c h
        · exact h1 u o c h
      cases hs with
      | call h => exact ⟨key i1 (fun o c e => by cases e; exact hr _), by simpa using i2⟩
      | act h =>
        have hro := i1 _ _ _ h
        refine ⟨key i1 (fun o c e => by cases e; exact hro.2 _), ?_⟩
        intro d hd
        rcases List.mem_append.1 hd with hd | hd
        · exact i2 d hd
        · rw [List.mem_singleton] at hd
          exact ⟨_, _, _, hd, fun i hi => by obtain ⟨_, s, hs⟩ := hi; exact hs (hro.1 s)⟩
      | lock h => exact (hn _ _ _ h).elim
      | unlock h => exact (hn _ _ _ h).elim
      | unlockBad h => exact (hn _ _ _ h).elim
      | ret h => exact ⟨key i1 (by intro o c e; cases e), by simpa using i2⟩
  intro i j a b _ ha hb hx
  obtain ⟨t, r, w, rfl, h1⟩ := key.2 a (List.mem_of_getElem? ha)
  obtain ⟨u, r', w', rfl, h2⟩ := key.2 b (List.mem_of_getElem? hb)
  obtain ⟨_, k, ⟨hk, _⟩ | ⟨_, hk⟩⟩ := hx
  · exact (h1 k hk).elim
  · exact (h2 k hk).elim

/-! ## With a mutex -/

/-- The caller takes a mutex around each call. The object is all timestamps and the clock; the body is the code of the
call, cut into actions in any way. -/
def Guarded (o : Op) (c : Code Timestamp.World Bool) : Prop :=
  ∃ b : Code Timestamp.World Bool, c = .sec 0 .excl b (fun r => .ret r) ∧ b.Body 0 ∧ ∀ s, b.solo s = .ok (s.step o)

/-- Sequential meaning of a call. -/
def sem (s : Timestamp.World) (o : Op) (s' : Timestamp.World) (r : Bool) : Prop := s.step o = (s', r)

theorem guarded_good {o : Op} {c : Code Timestamp.World Bool} (h : Guarded o c) :
    Good (fun A s => A 0 = s) sem o 1 c := by
  obtain ⟨b, rfl, h1, h2⟩ := h
  refine ⟨Bool, 0, .excl, b, _, rfl, h1, (by intro e; cases e), ?_⟩
  rintro A s rfl
  refine ⟨((A 0).step o).1, ((A 0).step o).2, by rw [h2], .inl ⟨_, ((A 0).step o).1, rfl, rfl, ?_⟩⟩
  simp [upd]

theorem legal_run : ∀ {es : List (Op × Bool)} {s s' : Timestamp.World}, Spec.Legal sem s es s' →
    s.run (es.map Prod.fst) = (s', es.map Prod.snd)
  | [], s, s', h => by cases h; rfl
  | (o, r) :: es, s, s', h => by
    cases h with
    | cons h1 h2 =>
      have ih := legal_run h2
      simp only [List.map_cons, Timestamp.World.run]
      rw [show s.step o = _ from h1]
      simp only [ih]

end Gtl.Conc.Times
