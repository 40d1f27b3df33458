import Verif.Conc.Timestamps
import Verif.Props.Utils
/-!
# Property theorems C120: timestamps in several threads
-/

namespace Gtl.Props.Timestamps

open Gtl.Conc Gtl.Conc.Times
open Gtl.Timestamp (Op)
open Gtl.Spec (Event LEvent Explains)

/-! ## Without a mutex -/

/-- Any number of threads, any calls, any schedule: if one thread has changed the clock and another one has used it, there is a
data race, even if no timestamp is shared. -/
theorem C120_clock {A : Nat → Nat} {D W} (h : Rec bare (start A) D W) {t u : Nat} (htu : t ≠ u) (ht : Ticked D t) (hu : Met D u) :
    ¬ RaceFree D := by
  obtain ⟨i, r, w, h1, h2⟩ := ht
  obtain ⟨j, r', w', h3, h4⟩ := hu
  rcases Nat.lt_trichotomy i j with hij | hij | hij
  · exact noLock_races bare_noLock h hij h1 h3 ⟨htu, 0, .inl ⟨h2, h4⟩⟩
  · subst hij
    rw [h1] at h3
    cases h3
    exact absurd rfl htu
  · exact noLock_races bare_noLock h hij h3 h1 ⟨fun e => htu e.symm, 0, .inr ⟨h4, h2⟩⟩

/-- In particular, whenever two threads have each made a call of `touch`, on any timestamps. -/
theorem C120_touch_refuted {A : Nat → Nat} {D W} (h : Rec bare (start A) D W) {t u i j : Nat} (htu : t ≠ u) {r r' : Bool}
    (ht : W.th t = .run (.touch i) (.ret r)) (hu : W.th u = .run (.touch j) (.ret r')) : ¬ RaceFree D := by
  have tick : ∀ {t i r}, W.th t = .run (.touch i) (.ret r) → Ticked D t := by
    intro t i r ht
    rcases where_ok h t i _ ht with e | ⟨n, e⟩ | e
    · simp [bare] at e
    · cases e
    · exact e
  obtain ⟨k, a, b, h1, h2⟩ := tick hu
  exact C120_clock h htu (tick ht) ⟨k, a, b, h1, .inr h2⟩

/-- Two threads, each with its own timestamp. -/
def exRace : List (Nat × Option Op) :=
  [(0, some (.touch 0)), (1, some (.touch 1)), (0, none), (1, none), (0, none), (1, none), (0, none), (1, none)]

/-- Both touches are made, the clock has advanced by one, and the timestamps are equal: an update is lost even if the single
accesses are atomic. Then both threads meet the hypotheses above. -/
theorem C120_lost : ∃ (D : List Did) (H : List (Event Op Bool)) (W : World Op Nat Bool),
    Rec bare (start fun _ => 0) D W ∧ Exec bare (start fun _ => 0) H W ∧
    W.obj 0 = 1 ∧ W.obj 1 = 1 ∧ W.obj 2 = 1 ∧ (∃ r, W.th 0 = .run (.touch 0) (.ret r)) ∧ (∃ r, W.th 1 = .run (.touch 1) (.ret r)) ∧
    ¬ RaceFree D := by
  have hx : ∃ x, play bare 2 (start fun _ => 0) exRace = some x ∧ x.2.obj 0 = 1 ∧ x.2.obj 1 = 1 ∧ x.2.obj 2 = 1 ∧
      (∃ r, x.2.th 0 = .run (.touch 0) (.ret r)) ∧ (∃ r, x.2.th 1 = .run (.touch 1) (.ret r)) :=
    ⟨_, rfl, rfl, rfl, rfl, ⟨_, rfl⟩, ⟨_, rfl⟩⟩
  obtain ⟨x, h0, h1, h2, h3, ⟨r, h4⟩, ⟨r', h5⟩⟩ := hx
  have he := play_exec _ (fun _ _ _ => rfl) h0
  obtain ⟨D, hD⟩ := exec_rec he
  exact ⟨D, x.1, x.2, hD, he, h1, h2, h3, ⟨r, h4⟩, ⟨r', h5⟩, C120_touch_refuted hD (by decide) h4 h5⟩

/-- Calls that only look at timestamps can be made by any number of threads without a race. -/
theorem C120_looking {A : Nat → Nat} {D W} (h : Rec (fun o : { o // Looking o } => bare o.1) (start A) D W) : RaceFree D :=
  readOnly_free (fun o : { o // Looking o } => bare_noLock o.1) (fun o : { o // Looking o } => looking_readOnly o.2) h

/-- Two threads compare the same timestamps. -/
example : ∃ (D : List Did) (H : List (Event { o // Looking o } Bool)) (W : World { o // Looking o } Nat Bool),
    Rec (fun o : { o // Looking o } => bare o.1) (start fun i => i) D W ∧ Exec (fun o : { o // Looking o } => bare o.1) (start fun i => i) H W ∧
    H = [.inv 0 ⟨.newer 1 0, trivial⟩, .inv 1 ⟨.newer 0 1, trivial⟩, .ret 0 true, .ret 1 false] := by
  have hx : ∃ x, play (fun o : { o // Looking o } => bare o.1) 2 (start fun i => i)
      [(0, some ⟨.newer 1 0, trivial⟩), (1, some ⟨.newer 0 1, trivial⟩), (0, none), (1, none), (0, none), (1, none), (0, none), (1, none)] = some x ∧
      x.1 = [.inv 0 ⟨.newer 1 0, trivial⟩, .inv 1 ⟨.newer 0 1, trivial⟩, .ret 0 true, .ret 1 false] :=
    ⟨_, rfl, rfl⟩
  obtain ⟨x, h0, h1⟩ := hx
  have he := play_exec _ (fun _ _ _ => rfl) h0
  obtain ⟨D, hD⟩ := exec_rec he
  exact ⟨D, x.1, x.2, hD, he, h1⟩

/-! ## One thread -/

/-- The variables hold the clock and the `n` timestamps. -/
def Vars (n : Nat) (A : Nat → Nat) (w : Timestamp.World) : Prop :=
  w.stamps.length = n ∧ A 0 = w.clock ∧ ∀ i, i < n → A (i + 1) = w.get i

/-- A call on the first `n` timestamps. -/
def On (n : Nat) : Op → Prop
  | .touch i => i < n
  | .touchFrom i j => i < n ∧ j < n
  | .reset i => i < n
  | .merge i j => i < n ∧ j < n
  | .setWithTs i _ _ => i < n
  | .isSet i => i < n
  | .newer i j => i < n ∧ j < n
  | .older i j => i < n ∧ j < n
  | .same i j => i < n ∧ j < n
  | _ => False

/-- What the rest of a call will do if nothing intervenes. -/
def alone : Code Nat Bool → (Nat → Nat) → Option ((Nat → Nat) × Bool)
  | .ret r, A => some (A, r)
  | .act i w k, A => alone (k (A i)) (upd A i (w (A i)))
  | _, _ => none

theorem vars_put {n : Nat} {A : Nat → Nat} {w : Timestamp.World} (h : Vars n A w) {i : Nat} (hi : i < n) (x : Nat) :
    Vars n (upd A (i + 1) x) (w.put i x) := by
  obtain ⟨h1, h2, h3⟩ := h
  refine ⟨by simp [Timestamp.World.put, h1], by simp [upd, Timestamp.World.put, h2], fun j hj => ?_⟩
  by_cases c : j = i
  · subst c
    simp [upd, Timestamp.World.put, Timestamp.World.get, List.getD, h1, hi]
  · have : ¬ i = j := fun e => c e.symm
    have h4 := h3 j hj
    simp only [Timestamp.World.get] at h4
    simp [upd, Timestamp.World.put, Timestamp.World.get, List.getD, List.getElem?_set, c, this, h4]

theorem vars_tick {n : Nat} {A : Nat → Nat} {w : Timestamp.World} (h : Vars n A w) (c : Nat) :
    Vars n (upd A 0 c) { w with clock := c } := by
  obtain ⟨h1, h2, h3⟩ := h
  refine ⟨h1, by simp [upd], fun j hj => ?_⟩
  simp only [upd]
  rw [if_neg (by omega)]
  exact h3 j hj

theorem upd_same {β : Type} (f : Nat → β) (i : Nat) : upd f i (f i) = f := by
  funext j
  unfold upd
  split
  · rename_i e; rw [e]
  · rfl

theorem alone_bare {n : Nat} {A : Nat → Nat} {w : Timestamp.World} (h : Vars n A w) {o : Op} (ho : On n o) :
    ∃ A', alone (bare o) A = some (A', (w.step o).2) ∧ Vars n A' (w.step o).1 := by
  have hc := h.2.1
  have hg := h.2.2
  have touch : ∀ i, i < n → Vars n (upd (upd (upd A 0 (A 0)) 0 ((A 0 + 1) % 2 ^ 64)) (i + 1) ((A 0 + 1) % 2 ^ 64))
      ((Timestamp.tick w).1.put i (Timestamp.tick w).2) := by
    intro i hi
    rw [upd_same, hc]
    exact vars_put (vars_tick h _) hi _
  cases o with
  | create => exact ho.elim
  | createWith _ => exact ho.elim
  | copy _ => exact ho.elim
  | touch i => exact ⟨_, rfl, touch i ho⟩
  | touchFrom i j =>
    refine ⟨_, rfl, ?_⟩
    simp only [id, upd_same]
    rw [hg j ho.2]
    exact vars_put h ho.1 _
  | reset i => exact ⟨_, rfl, vars_put h ho 0⟩
  | merge i j =>
    refine ⟨_, rfl, ?_⟩
    simp only [id, upd_same]
    rw [hg j ho.2, hg i ho.1]
    exact vars_put h ho.1 _
  | setWithTs i old new =>
    by_cases c : old = new
    · subst c
      exact ⟨A, by simp [bare, alone, Timestamp.World.step], by simpa [Timestamp.World.step] using h⟩
    · have e : (w.step (.setWithTs i old new)) = ((Timestamp.tick w).1.put i (Timestamp.tick w).2, true) := by
        simp [Timestamp.World.step, c]
      have e2 : bare (.setWithTs i old new) = .act 0 id fun c => .act 0 (fun _ => (c + 1) % 2 ^ 64) fun _ =>
          .act (i + 1) (fun _ => (c + 1) % 2 ^ 64) fun _ => .ret true := by
        simp [bare, c]
      rw [e, e2]
      exact ⟨_, rfl, touch i ho⟩
  | isSet i =>
    refine ⟨A, ?_, h⟩
    simp only [bare, alone, id, upd_same, Timestamp.World.step]
    rw [hg i ho]
  | newer i j =>
    refine ⟨A, ?_, h⟩
    simp only [bare, alone, id, upd_same, Timestamp.World.step]
    rw [hg i ho.1, hg j ho.2]
  | older i j =>
    refine ⟨A, ?_, h⟩
    simp only [bare, alone, id, upd_same, Timestamp.World.step]
    rw [hg i ho.1, hg j ho.2]
  | same i j =>
    refine ⟨A, ?_, h⟩
    simp only [bare, alone, id, upd_same, Timestamp.World.step]
    rw [hg i ho.1, hg j ho.2]

theorem run_snoc (o : Op) : ∀ (ops : List Op) (w : Timestamp.World),
    w.run (ops ++ [o]) = (((w.run ops).1.step o).1, (w.run ops).2 ++ [((w.run ops).1.step o).2])
  | [], w => rfl
  | o' :: ops, w => by
    simp only [List.cons_append, Timestamp.World.run]
    rw [run_snoc o ops]

/-- The history of the calls of one thread, one after the other. -/
def calls (t : Nat) (L : List (Op × Bool)) : List (Event Op Bool) := L.flatMap fun x => [.inv t x.1, .ret t x.2]

/-- **One thread**: if only one thread makes calls, on timestamps that exist, the single accesses to the variables give
the answers of the model of C51, whatever the clock and the timestamps are. -/
theorem C120_one_thread {n : Nat} {A : Nat → Nat} {w : Timestamp.World} (hA : Vars n A w) {t : Nat} {H W}
    (h : Exec bare (start A) H W) (hH : ∀ u o, Event.inv u o ∈ H → u = t ∧ On n o) (hW : W.th t = .idle) :
    ∃ L : List (Op × Bool), H = calls t L ∧ (w.run (L.map Prod.fst)).2 = L.map Prod.snd ∧
      Vars n W.obj (w.run (L.map Prod.fst)).1 := by
  have key : (∀ u, u ≠ t → W.th u = .idle) ∧ ∃ L : List (Op × Bool), (w.run (L.map Prod.fst)).2 = L.map Prod.snd ∧
      ((W.th t = .idle ∧ H = calls t L ∧ Vars n W.obj (w.run (L.map Prod.fst)).1) ∨
        ∃ o c A', W.th t = .run o c ∧ H = calls t L ++ [.inv t o] ∧
          alone c W.obj = some (A', ((w.run (L.map Prod.fst)).1.step o).2) ∧ Vars n A' ((w.run (L.map Prod.fst)).1.step o).1) := by
    clear hW
    induction h with
    | refl => exact ⟨fun _ _ => rfl, [], rfl, .inl ⟨rfl, rfl, hA⟩⟩
    | @tail W1 W2 H1 e _ hstep ih =>
      obtain ⟨hi, L, hL, hc⟩ := ih (fun u o hm => hH u o (List.mem_append_left _ hm))
      have keep : ∀ {u : Nat} {x : TS Op Nat Bool}, u = t → ∀ v, v ≠ t → upd W1.th u x v = .idle := by
        intro u x hu v hv
        unfold upd
        rw [if_neg (by rw [hu]; exact hv)]
        exact hi v hv
      have me : ∀ {u o c}, W1.th u = .run o c → u = t := by
        intro u o c hr
        by_cases e : u = t
        · exact e
        · rw [hi u e] at hr; cases hr
      cases hstep with
      | @call u o hu =>
        obtain ⟨rfl, ho⟩ := hH u o (by simp)
        refine ⟨keep rfl, L, hL, .inr ?_⟩
        rcases hc with ⟨_, h2, h3⟩ | ⟨_, _, _, h1, _⟩
        · obtain ⟨A', g1, g2⟩ := alone_bare h3 ho
          exact ⟨o, bare o, A', by simp [upd], by rw [h2]; rfl, g1, g2⟩
        · rw [hu] at h1; cases h1
      | @act u o i wr k hu =>
        obtain rfl := me hu
        refine ⟨keep rfl, L, hL, .inr ?_⟩
        rcases hc with ⟨h1, _⟩ | ⟨o', c, A', h1, h2, h3, h4⟩
        · rw [hu] at h1; cases h1
        · rw [hu] at h1
          cases h1
          exact ⟨o, _, A', by simp [upd], by simpa using h2, h3, h4⟩
      | @lock u o i md k hu _ =>
        obtain rfl := me hu
        rcases hc with ⟨h1, _⟩ | ⟨o', c, A', h1, h2, h3, h4⟩
        · rw [hu] at h1; cases h1
        · rw [hu] at h1
          cases h1
          cases h3
      | @unlock u o i md k hu _ =>
        obtain rfl := me hu
        rcases hc with ⟨h1, _⟩ | ⟨o', c, A', h1, h2, h3, h4⟩
        · rw [hu] at h1; cases h1
        · rw [hu] at h1
          cases h1
          cases h3
      | @unlockBad u o i md k hu _ =>
        obtain rfl := me hu
        rcases hc with ⟨h1, _⟩ | ⟨o', c, A', h1, h2, h3, h4⟩
        · rw [hu] at h1; cases h1
        · rw [hu] at h1
          cases h1
          cases h3
      | @ret u o r hu =>
        obtain rfl := me hu
        rcases hc with ⟨h1, _⟩ | ⟨o', c, A', h1, h2, h3, h4⟩
        · rw [hu] at h1; cases h1
        · rw [hu] at h1
          cases h1
          simp only [alone, Option.some.injEq, Prod.mk.injEq] at h3
          obtain ⟨rfl, h3⟩ := h3
          refine ⟨keep rfl, L ++ [(o, r)], ?_, .inl ⟨by simp [upd], ?_, ?_⟩⟩
          · rw [List.map_append, List.map_append, List.map_cons, List.map_nil, run_snoc, hL, ← h3]; rfl
          · rw [h2]; simp [calls]
          · rw [List.map_append, List.map_cons, List.map_nil, run_snoc]; exact h4
  obtain ⟨_, L, hL, ⟨_, h2, h3⟩ | ⟨_, _, _, h1, _⟩⟩ := key
  · exact ⟨L, h2, hL, h3⟩
  · rw [hW] at h1; cases h1

/-- Thread 3 touches the first timestamp and compares it with the second. -/
example : Vars 2 (fun i => if i = 0 then 7 else 5) ⟨7, [5, 5]⟩ ∧ ∃ H W,
    Exec bare (start fun i => if i = 0 then 7 else 5) H W ∧ H = calls 3 [(.touch 0, false), (.newer 0 1, true)] ∧
    (∀ u o, Event.inv u o ∈ H → u = 3 ∧ On 2 o) ∧ W.th 3 = .idle := by
  refine ⟨⟨rfl, rfl, fun i hi => ?_⟩, ?_⟩
  · match i, hi with
    | 0, _ => rfl
    | 1, _ => rfl
  · have hx : ∃ x, play bare 4 (start fun i => if i = 0 then 7 else 5)
        [(3, some (.touch 0)), (3, none), (3, none), (3, none), (3, none), (3, some (.newer 0 1)), (3, none), (3, none), (3, none)] = some x ∧
        x.1 = calls 3 [(.touch 0, false), (.newer 0 1, true)] ∧ x.2.th 3 = .idle :=
      ⟨_, rfl, rfl, rfl⟩
    obtain ⟨x, h0, h1, h2⟩ := hx
    refine ⟨x.1, x.2, play_exec _ (fun _ _ _ => rfl) h0, h1, fun u o hm => ?_, h2⟩
    rw [h1] at hm
    simp [calls] at hm
    rcases hm with ⟨rfl, rfl⟩ | ⟨rfl, rfl⟩
    · exact ⟨rfl, (by decide : 0 < 2)⟩
    · exact ⟨rfl, (by decide : 0 < 2), (by decide : 1 < 2)⟩

/-! ## With a mutex -/

/-- If the callers take a mutex around every call, there is no race, no undefined behaviour and no deadlock, and the calls have the
answers of a sequential order that agrees with the order of calls that do not overlap: answers of moments, as in C51, for
histories of fewer than 2^64 calls that construct no timestamp from a number. -/
theorem C120_guarded {code : Op → Code Timestamp.World Bool} (hcode : ∀ o, Guarded o (code o)) :
    (∀ D W, Rec code (start fun _ => Timestamp.World.init) D W → RaceFree D) ∧
    (∀ H W, Exec code (start fun _ => Timestamp.World.init) H W →
      (∀ t o, W.th t ≠ .run o .ub) ∧ (∀ t, W.th t ≠ .idle → ∃ t', W.th t' ≠ .idle ∧ ¬ Blocked W t') ∧
      ∃ (E : List (LEvent Op Bool)) (s' : Timestamp.World), Explains (fun s o s' r => s.step o = (s', r)) Timestamp.World.init H E s' ∧
        ((E.filterMap LEvent.eff).length < 2 ^ 64 → (∀ n, Op.createWith n ∉ (E.filterMap LEvent.eff).map Prod.fst) →
          (E.filterMap LEvent.eff).map Prod.snd = (Spec.Times.run 0 [] ((E.filterMap LEvent.eff).map Prod.fst)).2)) := by
  have hg : ∀ o, Good (fun (A : Nat → Timestamp.World) s => A 0 = s) sem o 1 (code o) := fun o => guarded_good (hcode o)
  refine ⟨fun D W h => race_free (N := fun _ => 1) hg rfl h, fun H W h => ⟨fun t o => no_ub (N := fun _ => 1) hg rfl h t o,
    fun t ht => progress (N := fun _ => 1) hg rfl h t ht, ?_⟩⟩
  obtain ⟨E, s', hE⟩ := linearizable (N := fun _ => 1) hg (A := fun _ => Timestamp.World.init) rfl h
  refine ⟨E, s', hE, fun h1 h2 => ?_⟩
  have hl := legal_run hE.legal
  have := Utils.C51_moments ((E.filterMap LEvent.eff).map Prod.fst) (by simpa using h1) h2
  rw [hl] at this
  exact this

/-- The code of the calls under a mutex, each in one action. -/
def exGuarded (o : Op) : Code Timestamp.World Bool := .sec 0 .excl (.act 0 (fun s => (s.step o).1) fun s => .ret (s.step o).2) (fun r => .ret r)

example : (∀ o, Guarded o (exGuarded o)) ∧ ∃ H W, Exec exGuarded (start fun _ => Timestamp.World.init) H W ∧
    H = [.inv 0 .create, .inv 1 .create, .ret 0 false, .ret 1 false, .inv 1 (.newer 1 0), .ret 1 true] := by
  refine ⟨fun o => ⟨_, rfl, ⟨rfl, fun _ => trivial⟩, fun s => rfl⟩, ?_⟩
  have hx : ∃ x, play exGuarded 2 (start fun _ => Timestamp.World.init)
      [(0, some .create), (1, some .create), (0, none), (0, none), (0, none), (1, none), (1, none), (0, none), (1, none), (1, none),
       (1, some (.newer 1 0)), (1, none), (1, none), (1, none), (1, none)] = some x ∧
      x.1 = [.inv 0 .create, .inv 1 .create, .ret 0 false, .ret 1 false, .inv 1 (.newer 1 0), .ret 1 true] :=
    ⟨_, rfl, rfl⟩
  obtain ⟨x, h0, h1⟩ := hx
  exact ⟨x.1, x.2, play_exec _ (fun _ _ _ => rfl) h0, h1⟩

end Gtl.Props.Timestamps
