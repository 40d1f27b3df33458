import Verif.Props.Share
import Verif.Conc.NestedProof
/-!
# Property theorems C116: callbacks that call back into a parallel container used from many threads
-/

namespace Gtl.Props.Nested

open Gtl.Swiss Gtl.Parallel Gtl.Conc.Multi Gtl.Conc.Multi.Nest
open Gtl.Conc (Mode objects ofObjects upd upd_same Concurrent submap Abs abs_objects body_abs)
open Gtl.Spec (POp Resp Event SEvent Stepwise SPhase)
open Gtl.Spec.Nest (Prog plan alone run seen)
open Gtl.Props.Hash (Contract)
open Gtl.Props.Parallel
open Gtl.Props.Concurrent (exShared exExcl oneFive)

variable {α κ : Type}

/-- Which programs the threads run: any set of programs of thread safe calls with their preconditions, in which no call is
about the submap of a call around it. -/
def Allowed (P : PCfg α κ) (Q : Prog α κ → Prop) : Prop :=
  ∀ p, Q p → p.All (CallOk P) ∧ p.Apart P.C.key (kidx P)

section
variable [BEq α] [LawfulBEq α] {P : PCfg α κ} (h : Contract P.C) (_hm : P.mtx ≠ .null) {p : PTbl α} (hp : PReachable P p) {Q : Prog α κ → Prop}
  (hQ : Allowed P Q) {K : Cutting α κ} (hK : K.Ok P)

include h hQ hK in
theorem good (o : { o // Q o }) :
    NGood (Abs P) (stepSem P) (fun ls i => i ∉ ls.map Prod.fst) [] (plan o.1) (code P K o.1) :=
  code_good h.cfgOk hK (ok := fun held i => i ∉ held) (fun _ _ h => h) (hQ o.1 o.2).1 (hQ o.1 o.2).2

include h _hm hp hQ hK

/-- Any number of threads run programs whose callbacks call back into the container, in any order and under any schedule.
Every history can be explained by giving each call, also those made by callbacks, one instant: the container then passes
through the states of the specification. No thread reaches undefined behaviour. -/
theorem C116_nested_calls {W H} (hx : Exec (fun o : { o // Q o } => code P K o.1) (start (objects p)) H W) :
    ∃ l, p.iterate P = .ok l ∧ (∃ E l', Stepwise (fun o : { o // Q o } => plan o.1) (stepSem P) l H E l') ∧
      ∀ t o, W.th t ≠ .run o .ub := by
  have hs := hp.sim h
  obtain ⟨E, A', l', ph, -, h1, h2, h3⟩ := exec_inv (good h hQ hK) (abs_objects hs) hx
  exact ⟨_, psim_iterate h hs, ⟨E, l', h1, h2, fun t => ⟨_, h3 t⟩⟩, no_ub (good h hQ hK) (abs_objects hs) hx⟩

/-- When all programs have ended, the container holds what the specification says, and every program has gone through its
whole plan. -/
theorem C116_contents {W H} (hx : Exec (fun o : { o // Q o } => code P K o.1) (start (objects p)) H W)
    (hq : ∀ t, W.th t = .idle) :
    ∃ l E l', p.iterate P = .ok l ∧ Stepwise (fun o : { o // Q o } => plan o.1) (stepSem P) l H E l' ∧
      (∀ t, SPhase.Path (fun o : { o // Q o } => plan o.1) .idle (E.filter (fun e => e.tid == t)) .idle) ∧
      (∃ m, (ofObjects P W.obj).iterate P = .ok m ∧ m.Perm l') ∧ (ofObjects P W.obj).size = l'.length ∧
      PBehavesAs P (ofObjects P W.obj) l' := by
  have hs := hp.sim h
  obtain ⟨E, l', h1, h2, h3⟩ := quiescent (good h hQ hK) (abs_objects hs) hx hq
  exact ⟨_, E, l', psim_iterate h hs, h1, h3, ⟨_, psim_iterate h h2, PSim.flat h2⟩, PSim.size h2, psim_behaves h h2⟩

/-- A thread whose callback is running holds the lock of the submap, and as long as it does no step of another thread
changes that submap. -/
theorem C116_undisturbed {W H} (hx : Exec (fun o : { o // Q o } => code P K o.1) (start (objects p)) H W) {t i : Nat} {m : Mode}
    (hi : W.hold i t = some m) {e W'} (hs : Step (fun o : { o // Q o } => code P K o.1) W e W') (ht : W'.th t = W.th t) :
    W'.obj i = W.obj i ∧ W'.hold i t = some m :=
  private_step (good h hQ hK) (abs_objects (hp.sim h)) hx hi hs ht

/-- If moreover every call made by a callback is about a submap with a greater number than those of the calls around it,
then there is no deadlock: as long as some program is running, some thread can go on. -/
theorem C116_upwards (hup : ∀ q, Q q → q.Upwards P.C.key (kidx P)) {W H}
    (hx : Exec (fun o : { o // Q o } => code P K o.1) (start (objects p)) H W) : ¬ Deadlock W := by
  rintro ⟨⟨t, ht⟩, hd⟩
  have hg : ∀ o : { o // Q o }, NGood (Abs P) (stepSem P) (fun ls i => ∀ j ∈ ls.map Prod.fst, j < i) [] (plan o.1)
      (code P K o.1) := fun o => code_good h.cfgOk hK (ok := fun held i => ∀ j ∈ held, j < i)
    (fun held i hi hm => Nat.lt_irrefl _ (hi i hm)) (hQ o.1 o.2).1 (hup o.1 o.2)
  obtain ⟨t', h1, h2⟩ := progress hg (fun ls i hi l hl => hi _ (List.mem_map_of_mem hl)) (abs_objects (hp.sim h)) hx t ht
  exact h2 (hd t' h1)

end

/-- The plan of a program, carried out without interruption, is what a user expects: the calls of a callback take place before
the call that got it returns. -/
theorem C116_alone (key : α → κ) (eqv : κ → κ → Bool) (q : Prog α κ) (l : List α) :
    alone key eqv (plan q) l = run key eqv q l := by
  unfold plan
  rw [alone_steps]; rfl

/-! ## The hypotheses can be met -/

/-- The container with the elements (5, 25) and (10, 30), which are in different submaps. -/
def fiveTen (P : PCfg (Nat × Nat) Nat) : PTbl (Nat × Nat) :=
  match PTbl.wrun P (fun _ => PTbl.empty P) [.on 0 (.base (.insert (5, 25))), .on 0 (.base (.insert (10, 30)))] with
  | .ok (w, _) => w 0
  | _ => { sets := [] }

theorem fiveTen_reach {P : PCfg (Nat × Nat) Nat} (hP : (match PTbl.wrun P (fun _ => PTbl.empty P)
      [.on 0 (.base (.insert (5, 25))), .on 0 (.base (.insert (10, 30)))] with | .ok _ => true | _ => false) = true) :
    PReachable P (fiveTen P) := by
  cases h : PTbl.wrun P (fun _ => PTbl.empty P) [.on 0 (.base (.insert (5, 25))), .on 0 (.base (.insert (10, 30)))] with
  | ok r =>
    refine ⟨[.on 0 (.base (.insert (5, 25))), .on 0 (.base (.insert (10, 30)))], r.1, r.2, 0, ?_, h, ?_⟩
    · intro op hop
      simp at hop
      rcases hop with rfl | rfl <;> trivial
    · unfold fiveTen; rw [h]
  | ub => rw [h] at hP; cases hP
  | hang => rw [h] at hP; cases hP

theorem fiveTen_shared : PReachable exShared (fiveTen exShared) := fiveTen_reach (by decide +kernel)
theorem fiveTen_excl : PReachable exExcl (fiveTen exExcl) := fiveTen_reach (by decide +kernel)

/-- `modify_if(5, ..)` whose callback adds one to the value and calls `if_contains(10, ..)`, whose callback inserts `(14, v)`
with the value `v` it got. -/
def copyUp : Prog (Nat × Nat) Nat :=
  .visit (.modifyIf 5 fun b => (b.1, b.2 + 1))
    (fun _ => .visit (.ifContains 10) (fun b => .call (.base (.insert (14, b.2))) fun _ => .done) fun _ => .done) fun _ => .done

/-- `erase(10)`, then `contains(14)`. -/
def eraseTen : Prog (Nat × Nat) Nat := .call (.base (.erase 10)) fun _ => .call (.base (.contains 14)) fun _ => .done

/-- Programs of calls that may be made concurrently, with their preconditions, that go upwards. -/
def upwards (P : PCfg (Nat × Nat) Nat) (q : Prog (Nat × Nat) Nat) : Prop := q.All (CallOk P) ∧ q.Upwards P.C.key (kidx P)

theorem nests_mono {key : α → κ} {sub : κ → Nat} {ok ok' : List Nat → Nat → Prop} (ho : ∀ held i, ok held i → ok' held i) :
    ∀ (q : Prog α κ) (held : List Nat), q.Nests key sub ok held → q.Nests key sub ok' held := by
  intro q
  induction q with
  | done => intro _ _; trivial
  | call op rest ih =>
    intro held hq
    obtain ⟨⟨i, h1, h2⟩, h3⟩ := hq
    exact ⟨⟨i, h1, ho _ _ h2⟩, fun r => ih r held (h3 r)⟩
  | visit op inner rest ih1 ih2 =>
    intro held hq
    obtain ⟨⟨i, h1, h2, h3⟩, h4⟩ := hq
    exact ⟨⟨i, h1, ho _ _ h2, fun b => ih1 b _ (h3 b)⟩, fun r => ih2 r held (h4 r)⟩

theorem upwards_allowed (P : PCfg (Nat × Nat) Nat) : Allowed P (upwards P) := fun q hq =>
  ⟨hq.1, nests_mono (ok' := fun held i => i ∉ held) (fun _ i h hm => Nat.lt_irrefl _ (h i hm)) _ _ hq.2⟩

theorem copyUp_ok {P : PCfg (Nat × Nat) Nat} (hk : P.C.key = Prod.fst) (h1 : kidx P 5 < kidx P 10) (h2 : kidx P 10 < kidx P 14) :
    upwards P copyUp := by
  refine ⟨⟨⟨⟨trivial, fun b => by rw [hk]⟩, trivial⟩, fun _ => ⟨⟨⟨trivial, trivial⟩, trivial⟩, fun _ =>
    ⟨⟨trivial, trivial⟩, fun _ => trivial⟩, fun _ => trivial⟩, fun _ => trivial⟩, ?_⟩
  refine ⟨⟨_, rfl, by simp, fun _ => ⟨⟨_, rfl, by simpa using h1, fun b => ⟨⟨_, rfl, ?_⟩, fun _ => trivial⟩⟩, fun _ => trivial⟩⟩,
    fun _ => trivial⟩
  intro j hj
  simp only [List.mem_cons, List.not_mem_nil, or_false] at hj
  rw [hk]
  rcases hj with rfl | rfl
  · exact h2
  · exact Nat.lt_trans h1 h2

theorem eraseTen_ok {P : PCfg (Nat × Nat) Nat} : upwards P eraseTen :=
  ⟨⟨⟨trivial, trivial⟩, fun _ => ⟨⟨trivial, trivial⟩, fun _ => trivial⟩⟩,
    ⟨_, rfl, by simp⟩, fun _ => ⟨⟨_, rfl, by simp⟩, fun _ => trivial⟩⟩

theorem copyUp_shared : upwards exShared copyUp := copyUp_ok rfl (by decide +kernel) (by decide +kernel)
theorem copyUp_excl : upwards exExcl copyUp := copyUp_ok rfl (by decide +kernel) (by decide +kernel)

/-- Thread 0 runs `copyUp`, thread 1 `eraseTen`; thread 1 runs while thread 0 is still in the callback of its first call. -/
def mixed (P : PCfg (Nat × Nat) Nat) (h : upwards P copyUp) (n : Nat) : List (Nat × Option { q // upwards P q }) :=
  [(0, some ⟨copyUp, h⟩), (1, some ⟨eraseTen, eraseTen_ok⟩)] ++ List.replicate 8 (0, none) ++ List.replicate n (1, none) ++
    [(0, none), (0, none)]

def mixedResult (P : PCfg (Nat × Nat) Nat) (h : upwards P copyUp) (n : Nat) :=
  play (fun o : { q // upwards P q } => code P (wholes P) o.1) 2 (start (objects (fiveTen P))) (mixed P h n)

/-- Are all threads idle, and the elements afterwards. -/
def outcome (P : PCfg (Nat × Nat) Nat) (h : upwards P copyUp) (n : Nat) : Option (Bool × List (Nat × Nat)) :=
  (mixedResult P h n).map fun x => ((match x.2.th 0, x.2.th 1 with | .idle, .idle => true | _, _ => false),
    (match (ofObjects P x.2.obj).iterate P with | .ok l => l | _ => []))

theorem outcome_shared : outcome exShared copyUp_shared 10 = some (true, [(5, 26), (14, 30)]) := by decide +kernel
theorem outcome_excl : outcome exExcl copyUp_excl 7 = some (true, [(5, 26), (14, 30)]) := by decide +kernel

theorem outcome_exec {P : PCfg (Nat × Nat) Nat} {h : upwards P copyUp} {n : Nat} {L} (ho : outcome P h n = some (true, L)) :
    ∃ W H, Exec (fun o : { q // upwards P q } => code P (wholes P) o.1) (start (objects (fiveTen P))) H W ∧
      (∀ t, W.th t = .idle) ∧ (match (ofObjects P W.obj).iterate P with | .ok l => l | _ => []) = L := by
  unfold outcome at ho
  cases hr : mixedResult P h n with
  | none => rw [hr] at ho; cases ho
  | some x =>
    rw [hr] at ho
    simp only [Option.map_some, Option.some.injEq, Prod.mk.injEq] at ho
    obtain ⟨h1, h2⟩ := play_exec _ (fun _ _ _ => rfl) hr
    refine ⟨x.2, x.1, h1, fun t => ?_, ho.2⟩
    by_cases ht : 2 ≤ t
    · rw [h2 t ht]; rfl
    · have h3 := ho.1
      revert h3
      have : t = 0 ∨ t = 1 := by omega
      rcases this with rfl | rfl
      · cases x.2.th 0 with
        | idle => intro _; rfl
        | run => intro h; cases h
      · cases x.2.th 0 with
        | run => intro h; cases h
        | idle => cases x.2.th 1 with
          | idle => intro _; rfl
          | run => intro h; cases h

/-- The hypotheses are met, for both kinds of mutex: nested callbacks to depth two, and another thread that runs to its end
while the callback is running. -/
example : Contract exShared.C ∧ exShared.mtx ≠ .null ∧ PReachable exShared (fiveTen exShared) ∧
    Allowed exShared (upwards exShared) ∧ (wholes exShared).Ok exShared ∧
    ∃ W H, Exec (fun o : { q // upwards exShared q } => code exShared (wholes exShared) o.1) (start (objects (fiveTen exShared))) H W ∧
      (∀ t, W.th t = .idle) ∧
      (match (ofObjects exShared W.obj).iterate exShared with | .ok l => l | _ => []) = [(5, 26), (14, 30)] :=
  ⟨exP_contract (.inr (.inr rfl)), by decide, fiveTen_shared, upwards_allowed _, wholes_ok _, outcome_exec outcome_shared⟩

example : Contract exExcl.C ∧ exExcl.mtx ≠ .null ∧ PReachable exExcl (fiveTen exExcl) ∧
    Allowed exExcl (upwards exExcl) ∧ (wholes exExcl).Ok exExcl ∧
    ∃ W H, Exec (fun o : { q // upwards exExcl q } => code exExcl (wholes exExcl) o.1) (start (objects (fiveTen exExcl))) H W ∧
      (∀ t, W.th t = .idle) ∧
      (match (ofObjects exExcl W.obj).iterate exExcl with | .ok l => l | _ => []) = [(5, 26), (14, 30)] :=
  ⟨exP_contract (.inr (.inr rfl)), by decide, fiveTen_excl, upwards_allowed _, wholes_ok _, outcome_exec outcome_excl⟩

/-! ## What the conditions are for -/

/-- `modify_if(k, F)` where `F` asks whether the container contains `k'`. -/
def askInside (k k' : κ) : Prog α κ :=
  .visit (.modifyIf k id) (fun _ => .call (.base (.contains k')) fun _ => .done) fun _ => .done

theorem callCode_contains (P : PCfg α κ) (K : Cutting α κ) {ρ : Type} (k' : κ) (f : Resp α → Code (Tbl α) ρ) :
    ∃ m c, callCode P K (.base (.contains k')) f = .lock [(kidx P k', m)] c := by
  unfold callCode
  split
  · rename_i he; cases he
  · exact ⟨_, _, rfl⟩

/-- The code of `askInside` in one action per section. -/
theorem askInside_code (P : PCfg α κ) (k k' : κ) :
    ∃ w q, code P (wholes P) (askInside k k') = .lock [(kidx P k, .excl)] (.act w q) ∧
      ∀ A A' b, at1 (kidx P k) (Gtl.Conc.body P (.modifyIf k id)) A = .ok (A', .elem (some b)) →
        w A = A' ∧ ∃ m c, q A = .lock [(kidx P k', m)] c := by
  have hw : (wholes P).body (.modifyIf k id) = Gtl.Conc.Multi.prim (at1 (submap P (.modifyIf k id)) (Gtl.Conc.body P (.modifyIf k id))) := rfl
  unfold code askInside
  rw [progCode, hw, Gtl.Conc.Multi.prim, Code.bind]
  refine ⟨_, _, rfl, fun A A' b hb => ?_⟩
  have hb' : at1 (submap P (.modifyIf k id)) (Gtl.Conc.body P (.modifyIf k id)) A = .ok (A', .elem (some b)) := hb
  simp only [hb']
  refine ⟨trivial, ?_⟩
  rw [Code.bind]
  simp only [seen]
  rw [progCode]
  exact callCode_contains P (wholes P) k' _

theorem modify_at {P : PCfg α κ} (h : Contract P.C) {A : Nat → Tbl α} {l : List α} (ha : Abs P A l) {k : κ} {b : α}
    (hb : Spec.lookup P.C.key P.C.eqv l k = some b) :
    ∃ A' l', at1 (kidx P k) (Gtl.Conc.body P (.modifyIf k id)) A = .ok (A', .elem (some b)) ∧ Abs P A' l' ∧
      ∀ k', Spec.lookup P.C.key P.C.eqv l' k' = Spec.lookup P.C.key P.C.eqv l k' := by
  obtain ⟨t', h1, h2⟩ := body_abs h.cfgOk ha (o := .modifyIf k id) trivial (fun _ => rfl)
  refine ⟨_, _, by unfold at1; rw [show kidx P k = submap P (.modifyIf k id) from rfl, h1]; simp only [Spec.pstep, hb]; rfl, h2, fun k' => ?_⟩
  simp [Spec.pstep, Spec.modify]

/-- Two threads whose callbacks use each other's submap wait for each other forever: although no call is about the submap of a
call around it. -/
theorem C116_opposite_refuted [BEq α] [LawfulBEq α] {P : PCfg α κ} (h : Contract P.C) (_hm : P.mtx ≠ .null) {p : PTbl α} (hp : PReachable P p) {l}
    (hl : p.iterate P = .ok l) {k k' : κ} (hk : (Spec.lookup P.C.key P.C.eqv l k).isSome) (hk' : (Spec.lookup P.C.key P.C.eqv l k').isSome)
    (hs : kidx P k ≠ kidx P k') :
    (∀ q ∈ [askInside k k', askInside k' k], q.All (CallOk P) ∧ q.Apart P.C.key (kidx P)) ∧
    ∃ K : Cutting α κ, K.Ok P ∧ ∃ W, Exec (code P K) (start (objects p)) [.inv 0 (askInside k k'), .inv 1 (askInside k' k)] W ∧
      Deadlock W := by
  constructor
  · intro q hq
    simp only [List.mem_cons, List.not_mem_nil, or_false] at hq
    rcases hq with rfl | rfl
    · refine ⟨⟨⟨⟨trivial, fun _ => rfl⟩, trivial⟩, fun _ => ⟨⟨trivial, trivial⟩, fun _ => trivial⟩, fun _ => trivial⟩, ?_⟩
      refine ⟨⟨_, rfl, by simp, fun _ => ⟨⟨_, rfl, ?_⟩, fun _ => trivial⟩⟩, fun _ => trivial⟩
      simpa using fun e => hs e.symm
    · refine ⟨⟨⟨⟨trivial, fun _ => rfl⟩, trivial⟩, fun _ => ⟨⟨trivial, trivial⟩, fun _ => trivial⟩, fun _ => trivial⟩, ?_⟩
      refine ⟨⟨_, rfl, by simp, fun _ => ⟨⟨_, rfl, ?_⟩, fun _ => trivial⟩⟩, fun _ => trivial⟩
      simpa using hs
  · have hsim := hp.sim h
    rw [psim_iterate h hsim] at hl
    cases hl
    obtain ⟨b, hb⟩ := Option.isSome_iff_exists.1 hk
    obtain ⟨b', hb'⟩ := Option.isSome_iff_exists.1 hk'
    obtain ⟨w, q, hc, hq⟩ := askInside_code P k k'
    obtain ⟨w', q', hc', hq'⟩ := askInside_code P k' k
    obtain ⟨A', l', g1, g2, g3⟩ := modify_at h (abs_objects hsim) hb
    obtain ⟨A'', l'', f1, -⟩ := modify_at h g2 (k := k') (b := b') (by rw [g3]; exact hb')
    obtain ⟨ew, m, c, e⟩ := hq _ _ _ g1
    obtain ⟨-, m', c', e'⟩ := hq' _ _ _ f1
    refine ⟨wholes P, wholes_ok P, cross_act hs hc hc' e (k' := c') (m' := m') ?_⟩
    rw [ew]; exact e'

/-- A thread whose callback uses the submap of its own call waits for itself forever. -/
theorem C116_same_submap_refuted [BEq α] [LawfulBEq α] {P : PCfg α κ} (h : Contract P.C) (_hm : P.mtx ≠ .null) {p : PTbl α} (hp : PReachable P p) {l}
    (hl : p.iterate P = .ok l) {k k' : κ} (hk : (Spec.lookup P.C.key P.C.eqv l k).isSome) (hs : kidx P k = kidx P k') :
    ∃ K : Cutting α κ, K.Ok P ∧ ∃ W, Exec (code P K) (start (objects p)) [.inv 0 (askInside k k')] W ∧ Deadlock W := by
  have hsim := hp.sim h
  rw [psim_iterate h hsim] at hl
  cases hl
  obtain ⟨b, hb⟩ := Option.isSome_iff_exists.1 hk
  obtain ⟨w, q, hc, hq⟩ := askInside_code P k k'
  obtain ⟨A', l', g1, -⟩ := modify_at h (abs_objects hsim) hb
  obtain ⟨ew, m, c, e⟩ := hq _ _ _ g1
  exact ⟨wholes P, wholes_ok P, self_act hc (by rw [← hs] at e; exact e)⟩

/-- The hypotheses of the refutations are met: the keys 5 and 10 are there, in different submaps, 4 is in the submap of 5. -/
example : (match (fiveTen exShared).iterate exShared with
      | .ok l => (Spec.lookup exShared.C.key exShared.C.eqv l 5).isSome && (Spec.lookup exShared.C.key exShared.C.eqv l 10).isSome
      | _ => false) = true ∧
    kidx exShared 5 ≠ kidx exShared 10 ∧ kidx exShared 5 = kidx exShared 4 := by decide +kernel

/-- The sections can be cut into actions: the locks that the calls take let them do their work. -/
theorem C116_code (P : PCfg α κ) : ∃ K : Cutting α κ, K.Ok P := ⟨_, wholes_ok P⟩

end Gtl.Props.Nested
