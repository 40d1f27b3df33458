import Verif.Props.Share
import Verif.Conc.Spread
/-!
# Property theorems C104: traversals of parallel containers with an execution policy

`for_each(policy, f)` and `for_each_m(policy, f)` hand each submap to some worker thread exactly once.
-/

namespace Gtl.Props.Share

open Gtl.Swiss Gtl.Parallel Gtl.Conc.Multi
open Gtl.Conc (objects ofObjects)
open Gtl.Spec (Event SEvent Stepwise)
open Gtl.Spec.Share (Call Ans Atom plan Spread Instant invoked answered shown)
open Gtl.Props.Hash (Contract)
open Gtl.Props.Parallel
open Gtl.Props.Concurrent (exShared exExcl oneFive oneFive_shared oneFive_excl)

variable {α κ : Type} [BEq α] [LawfulBEq α] {P : PCfg α κ}

theorem kidx_lt (k : κ) : kidx P k < 2 ^ P.N := subidx_lt _ _

/-- Any number of threads use the containers in any thread safe way. For every traversal with a policy, whoever does its parts and
in whatever order: `for_each` calls back at most once per key, only for elements that are in the container at some instant
between its beginning and its end, and for every element that is in it all the time; if nobody changes the container meanwhile,
exactly for its elements. `for_each_m` changes every element that is there all the time. -/
theorem C104_during (h : Contract P.C) (_hm : P.mtx ≠ .null) {p : Nat → PTbl α} (hp : ∀ c, PReachable P (p c))
    {Q : Call α κ → Prop} (hQ : Allowed P Q) {code : { o // Q o } → Code (Tbl α) (Ans α)} (hcode : ∀ o, CodeFor P o.1 (code o))
    {W H} (hx : Exec code (start (cells P p)) H W) :
    ∃ w E w', (∀ c, (p c).iterate P = .ok (w c)) ∧ Stepwise (plans P Q) (wsem P) w H E w' ∧
      ∀ o r E1 E2, Spread E (2 ^ P.N) o r E1 E2 → ∀ at_, at_ = Instant P.C.key P.C.eqv (kidx P) w E1 E2 →
        (∀ c, (∀ i, i < 2 ^ P.N → (o i).1 = .visitPart c i) →
          ∃ ls : Nat → List α, (∀ i, i < 2 ^ P.N → r i = .elems (ls i)) ∧ ∀ L, L = (List.range (2 ^ P.N)).flatMap ls →
            L.Pairwise (fun a b => P.C.eqv (P.C.key a) (P.C.key b) = false) ∧ (∀ a ∈ L, ∃ m, at_ m ∧ a ∈ m c) ∧
            (∀ a, (∀ m, at_ m → a ∈ m c) → a ∈ L) ∧ ∀ l, (∀ m, at_ m → m c = l) → L.Perm l) ∧
        (∀ c f, (∀ i, i < 2 ^ P.N → (o i).1 = .changePart c i f) →
          ∀ a, (∀ m, at_ m → a ∈ m c) → ∃ m b, at_ m ∧ b ∈ m c ∧ a = f b) := by
  have hs := fun c => (hp c).sim h
  have hg := good_any h hQ hcode
  obtain ⟨E, w', hE⟩ := stepwise hg (cells_abs hs) hx
  refine ⟨fun c => flat (p c), E, w', fun c => psim_iterate h (hs c), hE, ?_⟩
  rintro o r E1 E2 hd _ rfl
  have heq : ∀ k k', P.C.eqv k k' = true → kidx P k = kidx P k' := by
    intro k k' hk; unfold kidx; rw [h.cfgOk.hash_congr _ _ hk]
  refine ⟨fun c ho => ?_, fun c f ho a ha => ?_⟩
  · obtain ⟨ls, h1, h2⟩ := Spec.Share.spread_seen hE hd kidx_lt heq (c := c) (fun i hi => by
      show plan _ (o i).1 = _
      rw [ho i hi]; rfl)
    exact ⟨ls, h1, fun L hL => by rw [hL]; exact h2⟩
  · rcases Spec.Share.spread_changed hE hd kidx_lt (c := c) (f := f) (fun i hi => by
      show plan _ (o i).1 = _
      rw [ho i hi]; rfl) a with ⟨m, h1, h2⟩ | h1
    · exact absurd (ha m h1) h2
    · exact h1

/-- If nothing happens but one `for_each(policy, f)` on container `c`, which each part was given to a worker for, then the callbacks of
all workers together see every element of `c` exactly once, and no container is changed. -/
theorem C104_visit_alone (h : Contract P.C) (_hm : P.mtx ≠ .null) {p : Nat → PTbl α} (hp : ∀ c, PReachable P (p c)) (c : Nat)
    {code : { o : Call α κ // ∃ i, i < 2 ^ P.N ∧ o = .visitPart c i } → Code (Tbl α) (Ans α)}
    (hcode : ∀ o, CodeFor P o.1 (code o)) {W H} (hx : Exec code (start (cells P p)) H W) (hq : ∀ t, W.th t = .idle)
    (hall : ((H.filterMap invoked).map Subtype.val).Perm ((List.range (2 ^ P.N)).map fun i => .visitPart c i)) :
    ∃ w : Nat → List α, (∀ d, (p d).iterate P = .ok (w d)) ∧ ((H.filterMap answered).flatMap shown).Perm (w c) ∧
      ∀ d, ∃ l, (container P W.obj d).iterate P = .ok l ∧ l.Perm (w d) := by
  have hs := fun c => (hp c).sim h
  have hg := good_any (P := P) h (Q := fun o => ∃ i, i < 2 ^ P.N ∧ o = .visitPart c i)
    (by rintro o ⟨i, hi, rfl⟩; exact ⟨trivial, hi⟩) hcode
  obtain ⟨E, w', h1, h2, h3⟩ := quiescent hg (cells_abs hs) hx hq
  obtain ⟨h4, h5⟩ := Spec.Share.after_visits (c := c) kidx_lt (g := fun o : { o : Call α κ // ∃ i, i < 2 ^ P.N ∧ o = .visitPart c i } =>
      match o.1 with | .visitPart c i => .visit c i | _ => .visit 0 0)
    (by rintro ⟨o, i, hi, rfl⟩; rfl) h1 h3 (by
      have := hall.map (fun o : Call α κ => match o with | .visitPart c i => (.visit c i : Atom α κ) | _ => .visit 0 0)
      rw [List.map_map, List.map_map] at this
      exact this)
  subst h4
  exact ⟨fun c => flat (p c), fun c => psim_iterate h (hs c), h5, fun d =>
    ⟨_, psim_iterate h (container_sim h2 d), PSim.flat (container_sim h2 d)⟩⟩

/-- If nothing happens but one `for_each_m(policy, f)` on container `c`, then `f` is applied to every element of `c` exactly once and
no other container is changed. -/
theorem C104_change_alone (h : Contract P.C) (_hm : P.mtx ≠ .null) {p : Nat → PTbl α} (hp : ∀ c, PReachable P (p c)) (c : Nat)
    {f : α → α} (hf : ∀ a, P.C.key (f a) = P.C.key a)
    {code : { o : Call α κ // ∃ i, i < 2 ^ P.N ∧ o = .changePart c i f } → Code (Tbl α) (Ans α)}
    (hcode : ∀ o, CodeFor P o.1 (code o)) {W H} (hx : Exec code (start (cells P p)) H W) (hq : ∀ t, W.th t = .idle)
    (hall : ((H.filterMap invoked).map Subtype.val).Perm ((List.range (2 ^ P.N)).map fun i => .changePart c i f)) :
    ∃ w : Nat → List α, (∀ d, (p d).iterate P = .ok (w d)) ∧ (∃ l, (container P W.obj c).iterate P = .ok l ∧ l.Perm ((w c).map f)) ∧
      ∀ d, d ≠ c → ∃ l, (container P W.obj d).iterate P = .ok l ∧ l.Perm (w d) := by
  have hs := fun c => (hp c).sim h
  have hg := good_any (P := P) h (Q := fun o => ∃ i, i < 2 ^ P.N ∧ o = .changePart c i f)
    (by rintro o ⟨i, hi, rfl⟩; exact ⟨trivial, hi, hf⟩) hcode
  obtain ⟨E, w', h1, h2, h3⟩ := quiescent hg (cells_abs hs) hx hq
  have h4 := Spec.Share.after_changes (c := c) (f := f) hf kidx_lt
    (g := fun o : { o : Call α κ // ∃ i, i < 2 ^ P.N ∧ o = .changePart c i f } =>
      match o.1 with | .changePart c i f => .change c i f | _ => .visit 0 0)
    (by rintro ⟨o, i, hi, rfl⟩; rfl) h1 h3 (by
      have := hall.map (fun o : Call α κ => match o with | .changePart c i f => (.change c i f : Atom α κ) | _ => .visit 0 0)
      rw [List.map_map, List.map_map] at this
      exact this)
  subst h4
  refine ⟨fun c => flat (p c), fun c => psim_iterate h (hs c), ⟨_, psim_iterate h (container_sim h2 c), ?_⟩, fun d hd =>
    ⟨_, psim_iterate h (container_sim h2 d), ?_⟩⟩
  · have := PSim.flat (container_sim h2 c)
    rwa [Spec.put, if_pos rfl] at this
  · have := PSim.flat (container_sim h2 d)
    rwa [Spec.put, if_neg hd] at this

/-- A traversal with a policy cannot be part of a deadlock, if nobody swaps containers (C72): as long as a worker is not done, some
thread can go on. -/
theorem C104_progress (h : Contract P.C) (hm : P.mtx ≠ .null) {p : Nat → PTbl α} (hp : ∀ c, PReachable P (p c))
    {Q : Call α κ → Prop} (hQ : Allowed P Q) {code : { o // Q o } → Code (Tbl α) (Ans α)} (hcode : ∀ o, CodeFor P o.1 (code o))
    (hns : ∀ c d, ¬ Q (.swap c d)) {W H} (hx : Exec code (start (cells P p)) H W) (t : Nat) (ht : W.th t ≠ .idle) :
    ∃ t', W.th t' ≠ .idle ∧ ¬ Blocked W t' := C72_without_swap_partial h hm hp hQ hcode hns hx t ht

/-! ## Concrete instances -/

/-- An explanation of a traversal of two parts by threads 0 and 1, while thread 2 inserts a row in between. The instants of the
traversal are those with and without the row. -/
def exSpread : List (SEvent (Call (Nat × Nat) Nat) (Atom (Nat × Nat) Nat) (Ans (Nat × Nat)) (Ans (Nat × Nat))) :=
  [.inv 2 (.on 0 (.base (.insert (1, 1)))), .inv 0 (.visitPart 0 1), .eff 0 (.visit 0 1) (.elems []),
   .eff 2 (.on 0 (.base (.insert (1, 1)))) (.one .unit), .inv 1 (.visitPart 0 0), .ret 0 (.elems []), .ret 2 (.one .unit),
   .eff 1 (.visit 0 0) (.elems [(4, 4)]), .ret 1 (.elems [(4, 4)])]

/-- The form of the hypothesis of `C104_during`. -/
example : Spread exSpread 2 (fun i => .visitPart 0 i) (fun i => if i = 0 then .elems [(4, 4)] else .elems [])
    (exSpread.take 1) (exSpread.drop 1) := by
  refine ⟨⟨[], by simp [exSpread]⟩, fun i hi => ?_⟩
  match i, hi with
  | 0, _ =>
    refine ⟨1, (exSpread.drop 1).take 3, (exSpread.drop 5).take 3, [], rfl, ⟨[], rfl⟩, ?_⟩
    simp [exSpread, SEvent.tid]
  | 1, _ =>
    refine ⟨0, [], (exSpread.drop 2).take 3, exSpread.drop 6, rfl, ⟨exSpread.drop 6, rfl⟩, ?_⟩
    simp [exSpread, SEvent.tid]

/-- Two workers visit the parts of container 0: one 7, 5, 3, 1, the other 0, 2, 4, 6; their steps alternate. -/
def workers (Q : Call (Nat × Nat) Nat → Prop)
    (o : (i : Nat) → i < 8 → { o // Q o }) : List (Nat × Option { o // Q o }) :=
  [((7 : Fin 8), (0 : Fin 8)), (5, 2), (3, 4), (1, 6)].flatMap fun x =>
    [(0, some (o x.1 x.1.2)), (1, some (o x.2 x.2.2))] ++ (List.replicate 4 [(0, none), (1, none)]).flatten

/-- Calls of `for_each(policy, f)`. -/
def Visits (P : PCfg (Nat × Nat) Nat) (o : Call (Nat × Nat) Nat) : Prop := ∃ i, i < 2 ^ P.N ∧ o = .visitPart 0 i

def visitRun (P : PCfg (Nat × Nat) Nat) (hP : 2 ^ P.N = 8) :=
  play (codes P (Visits P)) 2 (start (cells P (two P))) (workers (Visits P) fun i hi => ⟨.visitPart 0 i, i, by omega, rfl⟩)

theorem visitRun_ok : ((visitRun exShared rfl).map fun x =>
    ((x.1.filterMap answered).flatMap shown, idle2 x.2, (x.1.filterMap invoked).map fun o => match o.1 with
      | .visitPart 0 i => i | _ => 9)) = some ([(5, 25)], true, [7, 0, 5, 2, 3, 4, 1, 6]) := by decide +kernel

/-- The part of a call. -/
theorem visits_all {P : PCfg (Nat × Nat) Nat} (hP : 2 ^ P.N = 8) (l : List { o // Visits P o })
    (hl : (l.map fun o => match o.1 with | .visitPart 0 i => i | _ => 9) = [7, 0, 5, 2, 3, 4, 1, 6]) :
    (l.map Subtype.val).Perm ((List.range (2 ^ P.N)).map fun i => .visitPart 0 i) := by
  have h1 : l.map Subtype.val = ((l.map fun o => match o.1 with | .visitPart 0 i => i | _ => 9).map fun i => Call.visitPart 0 i) := by
    rw [List.map_map]
    apply List.map_congr_left
    rintro ⟨o, i, hi, rfl⟩ _
    rfl
  rw [h1, hl, hP]
  exact List.Perm.map _ (by decide)

/-- The hypotheses of `C104_visit_alone` are met by an execution of two workers, whose callbacks see the one element. -/
example : ∃ (W : World { o // Visits exShared o } _ _) (H : List _), Contract exShared.C ∧ exShared.mtx ≠ .null ∧
    (∀ c, PReachable exShared (two exShared c)) ∧ (∀ o, CodeFor exShared o.1 (codes exShared (Visits exShared) o)) ∧
    Exec (codes exShared (Visits exShared)) (start (cells exShared (two exShared))) H W ∧ (∀ t, W.th t = .idle) ∧
    ((H.filterMap invoked).map Subtype.val).Perm ((List.range (2 ^ exShared.N)).map fun i => .visitPart 0 i) ∧
    (H.filterMap answered).flatMap shown = [(5, 25)] := by
  cases h : visitRun exShared rfl with
  | none => have := visitRun_ok; rw [h] at this; cases this
  | some x =>
    have hc := visitRun_ok
    rw [h] at hc
    simp only [Option.map_some, Option.some.injEq, Prod.mk.injEq] at hc
    obtain ⟨h1, h2⟩ := play_exec _ (fun _ _ _ => rfl) h
    exact ⟨x.2, x.1, exContract.1, by decide, fun c => (two_reach c).1, codes_for _ _, h1, idle2_all hc.2.1 h2,
      visits_all rfl _ hc.2.2, hc.1⟩

/-- Add one to the value. -/
def bump (a : Nat × Nat) : Nat × Nat := (a.1, a.2 + 1)

/-- Calls of `for_each_m(policy, f)`. -/
def Changes (P : PCfg (Nat × Nat) Nat) (o : Call (Nat × Nat) Nat) : Prop := ∃ i, i < 2 ^ P.N ∧ o = .changePart 0 i bump

def changeRun (P : PCfg (Nat × Nat) Nat) (hP : 2 ^ P.N = 8) :=
  play (codes P (Changes P)) 2 (start (cells P (two P)))
    (workers (Changes P) fun i hi => ⟨.changePart 0 i bump, i, by omega, rfl⟩)

theorem changeRun_ok : ((changeRun exExcl rfl).map fun x =>
    ((container exExcl x.2.obj 0).iterate exExcl, idle2 x.2, (x.1.filterMap invoked).map fun o => match o.1 with
      | .changePart 0 i _ => i | _ => 9)) = some (.ok [(5, 26)], true, [7, 0, 5, 2, 3, 4, 1, 6]) := by decide +kernel

theorem changes_all {P : PCfg (Nat × Nat) Nat} (hP : 2 ^ P.N = 8) (l : List { o // Changes P o })
    (hl : (l.map fun o => match o.1 with | .changePart 0 i _ => i | _ => 9) = [7, 0, 5, 2, 3, 4, 1, 6]) :
    (l.map Subtype.val).Perm ((List.range (2 ^ P.N)).map fun i => .changePart 0 i bump) := by
  have h1 : l.map Subtype.val =
      ((l.map fun o => match o.1 with | .changePart 0 i _ => i | _ => 9).map fun i => Call.changePart 0 i bump) := by
    rw [List.map_map]
    apply List.map_congr_left
    rintro ⟨o, i, hi, rfl⟩ _
    rfl
  rw [h1, hl, hP]
  exact List.Perm.map _ (by decide)

/-- The hypotheses of `C104_change_alone` are met. -/
example : ∃ (W : World { o // Changes exExcl o } _ _) (H : List _), Contract exExcl.C ∧ exExcl.mtx ≠ .null ∧
    (∀ c, PReachable exExcl (two exExcl c)) ∧ (∀ o, CodeFor exExcl o.1 (codes exExcl (Changes exExcl) o)) ∧
    (∀ a, exExcl.C.key (bump a) = exExcl.C.key a) ∧
    Exec (codes exExcl (Changes exExcl)) (start (cells exExcl (two exExcl))) H W ∧ (∀ t, W.th t = .idle) ∧
    ((H.filterMap invoked).map Subtype.val).Perm ((List.range (2 ^ exExcl.N)).map fun i => .changePart 0 i bump) ∧
    (container exExcl W.obj 0).iterate exExcl = .ok [(5, 26)] := by
  cases h : changeRun exExcl rfl with
  | none => have := changeRun_ok; rw [h] at this; cases this
  | some x =>
    have hc := changeRun_ok
    rw [h] at hc
    simp only [Option.map_some, Option.some.injEq, Prod.mk.injEq] at hc
    obtain ⟨h1, h2⟩ := play_exec _ (fun _ _ _ => rfl) h
    exact ⟨x.2, x.1, exContract.2, by decide, fun c => (two_reach c).2, codes_for _ _, fun _ => rfl, h1, idle2_all hc.2.1 h2,
      changes_all rfl _ hc.2.2, hc.1⟩

end Gtl.Props.Share
