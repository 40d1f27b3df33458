import Verif.Props.Share
import Verif.Conc.WalkPlay
/-!
# Property theorems C110: traversals of parallel containers whose callbacks throw, while other threads use the containers
-/

namespace Gtl.Props.Walk

open Gtl.Swiss Gtl.Parallel Gtl.Conc.Multi
open Gtl.Spec (POp Resp Event SEvent Stepwise)
open Gtl.Spec.Walk (Cb Call Ans Atom plan sem after During Instant Served assigned tell)
open Gtl.Props.Hash (Contract)
open Gtl.Props.Parallel
open Gtl.Props.Concurrent (exShared exExcl)
open Gtl.Props.Share (container cells_abs container_sim two two_reach exContract idle2 idle2_all)

variable {α κ : Type}

/-- Which calls the threads make: any set of thread safe calls with their preconditions. -/
def Allowed (P : PCfg α κ) (Q : Call α κ → Prop) : Prop :=
  ∀ o, Q o → WalkSafe o ∧ o.Valid P.C.key (kidx P) (2 ^ P.N)

/-- The effect of the atomic steps on the abstract containers. -/
def tsem (P : PCfg α κ) : (Nat → List α) → Atom α κ → (Nat → List α) → Ans α → Prop :=
  sem P.C.key P.C.eqv (kidx P) (decide (P.mtx = .shared))

/-- The plans of the calls. -/
def plans (P : PCfg α κ) (Q : Call α κ → Prop) (o : { o // Q o }) := plan (2 ^ P.N) o.1

section
variable [BEq α] [LawfulBEq α] {P : PCfg α κ} (h : Contract P.C) (_hm : P.mtx ≠ .null) {p : Nat → PTbl α}
  (hp : ∀ c, PReachable P (p c)) {Q : Call α κ → Prop} (hQ : Allowed P Q)
  {code : { o // Q o } → Code (Tbl α) (Ans α)} (hcode : ∀ o, WalkCode P o.1 (code o))

include h hQ hcode in
theorem good_any (o : { o // Q o }) : ∃ n, Good (AbsW P) (tsem P) (fun _ => True) n (plans P Q o) (code o) :=
  walk_good h.cfgOk (hQ o.1 o.2).1 (hQ o.1 o.2).2 (hcode o) (fun _ _ => trivial) (fun _ _ _ => trivial)
    (fun _ _ _ _ => trivial) (fun _ _ _ _ => trivial)

include h _hm hp hQ hcode

/-- Any number of threads make thread safe calls, among them traversals whose callbacks change elements and throw, under
any schedule. Every history can be explained by atomic steps: a traversal takes one step for each part until its callback
throws; the step shows the elements of the part one by one, and an element keeps what was assigned to it if it was shown.
No thread reaches undefined behaviour. -/
theorem C110_stepwise {W H} (hx : Exec code (start (cells P p)) H W) :
    ∃ w, (∀ c, (p c).iterate P = .ok (w c)) ∧ (∃ E w', Stepwise (plans P Q) (tsem P) w H E w') ∧
      ∀ t o, W.th t ≠ .run o .ub := by
  have hs := fun c => (hp c).sim h
  have hg := good_any h hQ hcode
  exact ⟨fun c => flat (p c), fun c => psim_iterate h (hs c), stepwise hg (cells_abs hs) hx, no_ub hg (cells_abs hs) hx⟩

/-- When all calls have returned or thrown, each container holds exactly what the specification says, and behaves like it
from then on. -/
theorem C110_contents {W H} (hx : Exec code (start (cells P p)) H W) (hq : ∀ t, W.th t = .idle) :
    ∃ w E w', (∀ c, (p c).iterate P = .ok (w c)) ∧ Stepwise (plans P Q) (tsem P) w H E w' ∧
      ∀ c, (∃ l, (container P W.obj c).iterate P = .ok l ∧ l.Perm (w' c)) ∧ (container P W.obj c).size = (w' c).length ∧
        PBehavesAs P (container P W.obj c) (w' c) := by
  have hs := fun c => (hp c).sim h
  have hg := good_any h hQ hcode
  obtain ⟨E, w', h1, h2, -⟩ := quiescent hg (cells_abs hs) hx hq
  refine ⟨fun c => flat (p c), E, w', fun c => psim_iterate h (hs c), h1, fun c => ?_⟩
  have h3 := container_sim h2 c
  exact ⟨⟨_, psim_iterate h h3, PSim.flat h3⟩, PSim.size h3, psim_behaves h h3⟩

/-- What a traversal guarantees while other threads change the containers, whether its callback throws or not. -/
theorem C110_during {W H} (hx : Exec code (start (cells P p)) H W) :
    ∃ w E w', (∀ c, (p c).iterate P = .ok (w c)) ∧ Stepwise (plans P Q) (tsem P) w H E w' ∧
      ∀ t o r E1 E2, During E t o r E1 E2 → ∀ at_, at_ = Instant P.C.key P.C.eqv (kidx P) w E1 E2 →
        (∀ c cb, o.1 = .visit c cb ∨ o.1 = .alter c cb → ∃ ps threw, r = .shown ps threw ∧
          -- no key is shown twice
          (ps.map (·.1)).Pairwise (fun a b => P.C.eqv (P.C.key a) (P.C.key b) = false) ∧
          -- only elements that are in the container at some instant are shown, and what is assigned to them gets there,
          -- also if the callback throws later or at once
          (∀ q ∈ ps, (∃ m, at_ m ∧ q.1 ∈ m c) ∧ ∃ m, at_ m ∧ q.2 ∈ m c) ∧
          -- the callback decided what to assign and when to throw; nothing is shown after an exception
          Served P.C.key (kidx P) cb ps threw ∧
          -- without an exception, every element that is there all the time is shown
          (threw = false → ∀ a, (∀ m, at_ m → a ∈ m c) → a ∈ ps.map (·.1))) ∧
        -- `with_submap`: the callback sees one instant
        (∀ c i run, o.1 = .look c i run → ∃ m l, at_ m ∧ l.Perm (Spec.Share.inside P.C.key (kidx P) (m c) i) ∧
          r = .shown (tell run [] l).1 (tell run [] l).2) ∧
        -- `with_submap_m`: what the callback did before it threw has happened at one instant
        (∀ c i ops, o.1 = .script c i ops → ∃ m m', at_ m ∧ at_ m' ∧ r = .cut (Spec.run P.C.key P.C.eqv (m c) ops).2 ∧
          m' c = (Spec.run P.C.key P.C.eqv (m c) ops).1) := by
  have hs := fun c => (hp c).sim h
  have hg := good_any h hQ hcode
  obtain ⟨E, w', hE⟩ := stepwise hg (cells_abs hs) hx
  refine ⟨fun c => flat (p c), E, w', fun c => psim_iterate h (hs c), hE, ?_⟩
  rintro t ⟨o, ho⟩ r E1 E2 hd _ rfl
  have hsub : ∀ k, kidx P k < 2 ^ P.N := fun k => subidx_lt _ _
  have heq : ∀ k k', P.C.eqv k k' = true → kidx P k = kidx P k' := by
    intro k k' hk; unfold kidx; rw [h.cfgOk.hash_congr _ _ hk]
  dsimp only
  refine ⟨?_, ?_, ?_⟩
  · rintro c cb (rfl | rfl)
    · obtain ⟨ps, b, e, g⟩ := Spec.Walk.visit_end hE hd hsub heq (hQ _ ho).2 rfl
      exact ⟨ps, b, e, g.distinct, g.there, g.served, g.all⟩
    · obtain ⟨ps, b, e, g⟩ := Spec.Walk.alter_end hE hd h.cfgOk.refl hsub heq rfl
      exact ⟨ps, b, e, g.distinct, g.there, g.served, g.all⟩
  · rintro c i run rfl
    obtain ⟨x, m, e2, ⟨l, g1, g2, g3⟩, e4, e5⟩ := Spec.Walk.single_end hE hd (s := .visit c i [] run) (k := .ret) rfl
    exact ⟨m, l, e2, g1, (e5 _ rfl).trans g3⟩
  · rintro c i ops rfl
    obtain ⟨x, m, e2, e3, e4, e5⟩ := Spec.Walk.single_end hE hd (s := .base (.script c i ops))
      (k := fun x => match x with | .ret (.many rs) => .ret (.cut rs) | x => .ret x) rfl
    obtain ⟨y, rfl, g⟩ := e3
    have g' : y = .many (Spec.run P.C.key P.C.eqv (m c) ops).2 := g
    subst g'
    refine ⟨m, _, e2, e4, e5 _ rfl, ?_⟩
    simp only [Spec.Walk.next, Spec.Share.next, Spec.put, if_true]

/-- A traversal that changes elements while no other thread does anything: if its callback throws, the elements that were
shown have what was assigned to them, all others are as they were, and so are the other containers. -/
theorem C110_alone {W H} (hx : Exec code (start (cells P p)) H W) :
    ∃ w E w', (∀ c, (p c).iterate P = .ok (w c)) ∧ Stepwise (plans P Q) (tsem P) w H E w' ∧
      ∀ t o r E1 E2 c cb, During E t o r E1 E2 → o.1 = .alter c cb → (∀ e ∈ E2, e.tid = t) →
        ∀ m m', m = after P.C.key P.C.eqv (kidx P) w E1 → m' = after P.C.key P.C.eqv (kidx P) w (E1 ++ E2) →
        ∃ ps threw, r = .shown ps threw ∧ m' c = (m c).map (assigned P.C.key P.C.eqv ps) ∧ (∀ d, d ≠ c → m' d = m d) ∧
          (threw = false → ∀ a ∈ m c, a ∈ ps.map (·.1)) := by
  have hs := fun c => (hp c).sim h
  have hg := good_any h hQ hcode
  obtain ⟨E, w', hE⟩ := stepwise hg (cells_abs hs) hx
  refine ⟨fun c => flat (p c), E, w', fun c => psim_iterate h (hs c), hE, ?_⟩
  rintro t ⟨o, ho⟩ r E1 E2 c cb hd ho' hq _ _ rfl rfl
  have hsub : ∀ k, kidx P k < 2 ^ P.N := fun k => subidx_lt _ _
  have heq : ∀ k k', P.C.eqv k k' = true → kidx P k = kidx P k' := by
    intro k k' hk; unfold kidx; rw [h.cfgOk.hash_congr _ _ hk]
  dsimp only at ho'
  subst ho'
  exact Spec.Walk.alter_alone hE hd hsub heq (hQ _ ho).2 rfl hq

/-- A thread that is not in a call holds no lock, whether its calls returned or threw. -/
theorem C110_released {W H} (hx : Exec code (start (cells P p)) H W) (t : Nat) (ht : W.th t = .idle) (i : Nat) : W.hold i t = none :=
  idle_holds (good_any h hQ hcode) (cells_abs fun c => (hp c).sim h) hx ht i

/-- Nobody waits for ever because of an exception: if nobody swaps containers (C72), then as long as a thread is in a call,
some thread in a call is not waiting for a lock. -/
theorem C110_no_deadlock (hns : ∀ c d, ¬ Q (.base (.swap c d))) {W H} (hx : Exec code (start (cells P p)) H W) (t : Nat)
    (ht : W.th t ≠ .idle) : ∃ t', W.th t' ≠ .idle ∧ ¬ Blocked W t' := by
  have hs := fun c => (hp c).sim h
  refine progress_shared (R := fun gs => gs.length ≤ 1 ∨ ∀ l ∈ gs.flatten, l.2 = .shared) (plan := plans P Q)
    (sem := tsem P) (fun o => ?_) (fun _ h => h) (cells_abs hs) hx t ht
  refine walk_good h.cfgOk (hQ o.1 o.2).1 (hQ o.1 o.2).2 (hcode o) (fun _ _ => .inl (by simp)) (fun _ _ _ => .inl (by simp [both]))
    (fun c d e => absurd (e ▸ o.2) (hns c d)) (fun c d _ i => ?_)
  unfold bothRead
  split
  · exact .inr (by simp)
  · exact .inl (by simp [both])

end

/-! ## A concrete instance -/

/-- All thread safe calls. -/
def everything (P : PCfg α κ) (o : Call α κ) : Prop := WalkSafe o ∧ o.Valid P.C.key (kidx P) (2 ^ P.N)

theorem everything_allowed (P : PCfg α κ) : Allowed P (everything P) := fun _ h => h

/-- Their code. -/
def codes (P : PCfg α κ) [BEq α] (Q : Call α κ → Prop) (o : { o // Q o }) : Code (Tbl α) (Ans α) := walkOf P o.1

theorem codes_for (P : PCfg α κ) [BEq α] (Q : Call α κ → Prop) (o : { o // Q o }) : WalkCode P o.1 (codes P Q o) := walkOf_for P o.1

/-- What the callbacks have been shown, and whether they threw. -/
def reported {op : Type} : List (Event op (Ans (Nat × Nat))) → List (List ((Nat × Nat) × (Nat × Nat)) × Bool)
  | .ret _ (.shown ps b) :: H => (ps, b) :: reported H
  | _ :: H => reported H
  | [] => []

/-- Adds 100 to the value and throws at the second element it is shown. -/
def second (own : Bool) : Cb (Nat × Nat) := ⟨own, fun before a => ((a.1, a.2 + 100), before.length == 1)⟩

theorem second_valid (own : Bool) : everything exExcl (.alter 0 (second own)) := ⟨trivial, fun _ _ => rfl⟩

/-- Thread 1 inserts 17, which belongs to another submap than 5; thread 0 calls `for_each_m`, in the middle of which thread 1
inserts 4, which belongs to the same submap as 5. -/
def shake (own : Bool) : List (Nat × Option { o // everything exExcl o }) :=
  [(1, some ⟨.base (.on 0 (.base (.insert (17, 2)))), trivial, trivial⟩)] ++ List.replicate 4 (1, none) ++
  [(0, some ⟨.alter 0 (second own), second_valid own⟩)] ++ List.replicate 6 (0, none) ++
  [(1, some ⟨.base (.on 0 (.base (.insert (4, 1)))), trivial, trivial⟩)] ++ List.replicate 4 (1, none)

/-- Steps of thread 0 after this. -/
def shaken (own : Bool) (n : Nat) :=
  play (codes exExcl (everything exExcl)) 2 (start (cells exExcl (two exExcl))) (shake own ++ List.replicate n (0, none))

/-- What iterating over a container shows, if it is defined. -/
def listed : Res (List (Nat × Nat)) → Option (List (Nat × Nat))
  | .ok l => some l
  | _ => none

theorem listed_ok {r : Res (List (Nat × Nat))} {l} (h : listed r = some l) : r = .ok l := by
  cases r with
  | ok => cases h; rfl
  | _ => cases h

set_option synthInstance.maxSize 512 in
theorem shaken_ref : ((shaken false 13).map fun x =>
    (reported x.1, listed ((container exExcl x.2.obj 0).iterate exExcl), idle2 x.2)) =
    some ([([((5, 25), (5, 125)), ((17, 2), (17, 102))], true)], some [(5, 125), (4, 1), (17, 102)], true) := by decide +kernel

set_option synthInstance.maxSize 512 in
theorem shaken_own : ((shaken true 19).map fun x =>
    (reported x.1, listed ((container exExcl x.2.obj 0).iterate exExcl), idle2 x.2)) =
    some ([([((5, 25), (5, 125)), ((17, 2), (17, 102))], false)], some [(5, 125), (4, 1), (17, 102)], true) := by decide +kernel

/-- The hypotheses of the theorems above are met by an execution in which the callback of `for_each_m` throws after another
thread has inserted an element into a submap that was already passed: both elements that were shown keep what was assigned
to them. -/
example : ∃ (W : World { o // everything exExcl o } _ _) (H : List _),
    Contract exExcl.C ∧ exExcl.mtx ≠ .null ∧ (∀ c, PReachable exExcl (two exExcl c)) ∧ Allowed exExcl (everything exExcl) ∧
    (∀ o, WalkCode exExcl o.1 (codes exExcl (everything exExcl) o)) ∧
    Exec (codes exExcl (everything exExcl)) (start (cells exExcl (two exExcl))) H W ∧ (∀ t, W.th t = .idle) ∧
    reported H = [([((5, 25), (5, 125)), ((17, 2), (17, 102))], true)] ∧
    (container exExcl W.obj 0).iterate exExcl = .ok [(5, 125), (4, 1), (17, 102)] := by
  cases h : shaken false 13 with
  | none => have := shaken_ref; rw [h] at this; cases this
  | some x =>
    have hc := shaken_ref
    rw [h] at hc
    simp only [Option.map_some, Option.some.injEq, Prod.mk.injEq] at hc
    obtain ⟨h1, h2⟩ := play_exec _ (fun _ _ _ => rfl) h
    exact ⟨x.2, x.1, exContract.2, by decide, fun c => (two_reach c).2, everything_allowed _, codes_for _ _, h1,
      idle2_all hc.2.2 h2, hc.1, listed_ok hc.2.1⟩

/-- A callback that keeps its state in itself is not called as one would expect: a function object that counts the elements
it is shown and throws at the second is shown two elements and does not throw, because every submap is shown to a copy of
its own. -/
theorem C110_copied_refuted : ∃ (cb : Cb (Nat × Nat)) (W : World { o // everything exExcl o } _ _) (H : List _) (ps : _) (a b : _)
    (X Y : List _), Exec (codes exExcl (everything exExcl)) (start (cells exExcl (two exExcl))) H W ∧ (∀ t, W.th t = .idle) ∧
    reported H = [(ps, false)] ∧ (∃ (h : everything exExcl (.alter 0 cb)), ∃ t, .inv t ⟨.alter 0 cb, h⟩ ∈ H) ∧
    ps = X ++ (a, b) :: Y ∧ (cb.run (X.map (·.1)) a).2 = true := by
  cases h : shaken true 19 with
  | none => have := shaken_own; rw [h] at this; cases this
  | some x =>
    have hc := shaken_own
    rw [h] at hc
    simp only [Option.map_some, Option.some.injEq, Prod.mk.injEq] at hc
    obtain ⟨h1, h2⟩ := play_exec _ (fun _ _ _ => rfl) h
    refine ⟨second true, x.2, x.1, _, (17, 2), (17, 102), [((5, 25), (5, 125))], [], h1, idle2_all hc.2.2 h2, hc.1,
      ⟨second_valid true, 0, ?_⟩, rfl, rfl⟩
    refine play_inv (code := codes exExcl (everything exExcl)) (n := 2) ([(1, some ⟨.base (.on 0 (.base (.insert (17, 2)))), trivial, trivial⟩)] ++ List.replicate 4 (1, none))
      (W := start (cells exExcl (two exExcl))) rfl (by decide) (W' := x.2) ?_ (es2 := List.replicate 6 (0, none) ++
        [(1, some ⟨.base (.on 0 (.base (.insert (4, 1)))), trivial, trivial⟩)] ++ List.replicate 4 (1, none) ++
        List.replicate 19 (0, none))
    have := h
    unfold shaken shake at this
    simpa only [List.append_assoc, List.singleton_append, List.cons_append, List.nil_append] using this

/-- Without `swap`, everything else is allowed. -/
example : (∀ c d : Nat, ¬ ((fun o => everything exExcl o ∧ ∀ c d, o ≠ .base (.swap c d)) (.base (.swap c d)))) ∧
    Allowed exExcl (fun o => everything exExcl o ∧ ∀ c d, o ≠ .base (.swap c d)) ∧
    everything exExcl (.alter 0 (second true)) :=
  ⟨fun c d h => h.2 c d rfl, fun _ h => h.1, second_valid true⟩

/-- There is code for every call: the locks that the calls take let them do their work. -/
theorem C110_code (P : PCfg α κ) [BEq α] (o : Call α κ) : ∃ code, WalkCode P o code := ⟨_, walkOf_for P o⟩

end Gtl.Props.Walk
