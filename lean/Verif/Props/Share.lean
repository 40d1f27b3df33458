import Verif.Props.Concurrent
import Verif.Conc.ShareTrace
import Verif.Conc.SharePlay
import Verif.Conc.ShareLocks
/-!
# Property theorems C69 to C72: whole parallel containers used from many threads
-/

namespace Gtl.Props.Share

open Gtl.Swiss Gtl.Parallel Gtl.Conc.Multi
open Gtl.Conc (Mode isConst objects ofObjects upd upd_same upd_ne)
open Gtl.Spec (POp Resp Event SEvent Stepwise SPhase)
open Gtl.Spec.Share (Call Ans Atom plan sem has after During Instant)
open Gtl.Props.Hash (Contract)
open Gtl.Props.Parallel
open Gtl.Props.Concurrent (exShared exExcl oneFive oneFive_shared oneFive_excl)

variable {α κ : Type}

/-- Which calls the threads make: any set of thread safe calls with their preconditions. -/
def Allowed (P : PCfg α κ) (Q : Call α κ → Prop) : Prop :=
  ∀ o, Q o → Threadsafe o ∧ o.Valid P.C.key (kidx P) (2 ^ P.N)

/-- The effect of the atomic steps on the abstract containers; with a shared mutex `erase` may say that it erased though
the key had gone (see C23). -/
def wsem (P : PCfg α κ) : (Nat → List α) → Atom α κ → (Nat → List α) → Ans α → Prop :=
  sem P.C.key P.C.eqv (kidx P) (decide (P.mtx = .shared))

/-- The plans of the calls. -/
def plans (P : PCfg α κ) (Q : Call α κ → Prop) (o : { o // Q o }) := plan (2 ^ P.N) o.1

/-- Container `c` when the shared objects are as given. -/
def container (P : PCfg α κ) (obj : Nat → Tbl α) (c : Nat) : PTbl α := ofObjects P fun i => obj (cell P c i)

theorem cells_abs {P : PCfg α κ} {p : Nat → PTbl α} {w : Nat → List α} (h : ∀ c, PSim P (p c) (w c)) : AbsW P (cells P p) w := by
  intro c i hi
  have h1 : cell P c i / 2 ^ P.N = c := by
    unfold cell; rw [Nat.mul_comm, Nat.mul_add_div (Nat.two_pow_pos _), Nat.div_eq_of_lt hi]; rfl
  have h2 : cell P c i % 2 ^ P.N = i := by
    unfold cell; rw [Nat.mul_comm, Nat.mul_add_mod, Nat.mod_eq_of_lt hi]
  unfold cells
  rw [h1, h2]
  exact abs_iff.1 (Gtl.Conc.abs_objects (h c)) i hi

theorem container_sim {P : PCfg α κ} {A : Nat → Tbl α} {w : Nat → List α} (h : AbsW P A w) (c : Nat) :
    PSim P (container P A c) (w c) := abs_iff.2 fun i hi => h c i hi

section
variable [BEq α] [LawfulBEq α] {P : PCfg α κ} (h : Contract P.C) (_hm : P.mtx ≠ .null) {p : Nat → PTbl α}
  (hp : ∀ c, PReachable P (p c)) {Q : Call α κ → Prop} (hQ : Allowed P Q)
  {code : { o // Q o } → Code (Tbl α) (Ans α)} (hcode : ∀ o, CodeFor P o.1 (code o))

include h hQ hcode in
theorem good_any (o : { o // Q o }) : ∃ n, Good (AbsW P) (wsem P) (fun _ => True) n (plans P Q o) (code o) :=
  call_good h.cfgOk (hQ o.1 o.2).1 (hQ o.1 o.2).2 (hcode o) (fun _ _ => trivial) (fun _ _ _ => trivial)
    (fun _ _ _ _ => trivial) (fun _ _ _ _ => trivial)

include h _hm hp hQ hcode

/-! ## C69: every history is explained by atomic steps -/

/-- Any number of threads call operations on single keys and on whole containers, in any order and under any schedule.
Every history of calls and answers can be explained by giving each call the atomic steps of its plan, one for each part
of the container, at instants between its invocation and its response: the containers then pass through the states of
the specification. No thread reaches undefined behaviour. -/
theorem C69_stepwise {W H} (hx : Exec code (start (cells P p)) H W) :
    ∃ w, (∀ c, (p c).iterate P = .ok (w c)) ∧ (∃ E w', Stepwise (plans P Q) (wsem P) w H E w') ∧
      ∀ t o, W.th t ≠ .run o .ub := by
  have hs := fun c => (hp c).sim h
  have hg := good_any h hQ hcode
  exact ⟨fun c => flat (p c), fun c => psim_iterate h (hs c), stepwise hg (cells_abs hs) hx, no_ub hg (cells_abs hs) hx⟩

/-- When all calls have returned, each container holds exactly what the specification says, and behaves like it from
then on. -/
theorem C69_contents {W H} (hx : Exec code (start (cells P p)) H W) (hq : ∀ t, W.th t = .idle) :
    ∃ w E w', (∀ c, (p c).iterate P = .ok (w c)) ∧ Stepwise (plans P Q) (wsem P) w H E w' ∧
      ∀ c, (∃ l, (container P W.obj c).iterate P = .ok l ∧ l.Perm (w' c)) ∧ (container P W.obj c).size = (w' c).length ∧
        PBehavesAs P (container P W.obj c) (w' c) := by
  have hs := fun c => (hp c).sim h
  have hg := good_any h hQ hcode
  obtain ⟨E, w', h1, h2, -⟩ := quiescent hg (cells_abs hs) hx hq
  refine ⟨fun c => flat (p c), E, w', fun c => psim_iterate h (hs c), h1, fun c => ?_⟩
  have h3 := container_sim h2 c
  exact ⟨⟨_, psim_iterate h h3, PSim.flat h3⟩, PSim.size h3, psim_behaves h h3⟩

/-! ## C70: what a call on a whole container guarantees while others change it -/

/-- The explanation of C69 together with what it says about every completed call on whole containers. -/
theorem C70_during {W H} (hx : Exec code (start (cells P p)) H W) :
    ∃ w E w', (∀ c, (p c).iterate P = .ok (w c)) ∧ Stepwise (plans P Q) (wsem P) w H E w' ∧
      ∀ t o r E1 E2, During E t o r E1 E2 → ∀ at_, at_ = Instant P.C.key P.C.eqv (kidx P) w E1 E2 →
        -- `for_each` calls back at most once per key, only for elements that are in the container at some instant
        -- during the call, and for every element that is in it all the time
        (∀ c, o.1 = .forEach c → ∃ L, r = .elems L ∧ L.Pairwise (fun a b => P.C.eqv (P.C.key a) (P.C.key b) = false) ∧
          (∀ a ∈ L, ∃ m, at_ m ∧ a ∈ m c) ∧ ∀ a, (∀ m, at_ m → a ∈ m c) → a ∈ L) ∧
        -- `for_each_m` changes every element that is there all the time
        (∀ c f, o.1 = .forEachM c f → ∀ a, (∀ m, at_ m → a ∈ m c) → ∃ m b, at_ m ∧ b ∈ m c ∧ a = f b) ∧
        -- `clear`: no element survives the call
        (∀ c, o.1 = .clear c → ∀ a, ¬ ∀ m, at_ m → a ∈ m c) ∧
        -- `c.merge(d)`: an element stays in `d` only if its key is in `c` at some instant
        (∀ c d, o.1 = .merge c d → ∀ a, (∀ m, at_ m → a ∈ m d) → ∃ m, at_ m ∧ has P.C.key P.C.eqv (m c) a = true) ∧
        -- `c == d`: "no" means that they differ at some instant; "yes" means that no element is in one of them and not
        -- in the other all the time
        (∀ c d, o.1 = .equal c d → ∃ b, r = .one (.bool b) ∧ (b = false → ∃ m, at_ m ∧ ¬ (m c).Perm (m d)) ∧
          (b = true → ∀ a, ∃ m, at_ m ∧ (a ∈ m c ↔ a ∈ m d))) := by
  have hs := fun c => (hp c).sim h
  have hg := good_any h hQ hcode
  obtain ⟨E, w', hE⟩ := stepwise hg (cells_abs hs) hx
  refine ⟨fun c => flat (p c), E, w', fun c => psim_iterate h (hs c), hE, ?_⟩
  rintro t ⟨o, ho⟩ r E1 E2 hd _ rfl
  have hsub : ∀ k, kidx P k < 2 ^ P.N := fun k => subidx_lt _ _
  have heq : ∀ k k', P.C.eqv k k' = true → kidx P k = kidx P k' := by
    intro k k' hk; unfold kidx; rw [h.cfgOk.hash_congr _ _ hk]
  dsimp only
  refine ⟨?_, ?_, ?_, ?_, ?_⟩
  · rintro c rfl
    exact Spec.Share.forEach_seen hE hd hsub heq rfl
  · rintro c f rfl a ha
    rcases Spec.Share.forEachM_changed hE hd hsub (hQ _ ho).2 rfl a with ⟨m, h1, h2⟩ | h1
    · exact absurd (ha m h1) h2
    · exact h1
  · rintro c rfl a ha
    obtain ⟨m, h1, h2⟩ := Spec.Share.clear_gone hE hd hsub rfl a
    exact h2 (ha m h1)
  · rintro c d rfl a ha
    rcases Spec.Share.merge_gone hE hd hsub (hQ _ ho).2 rfl a with ⟨m, h1, h2⟩ | h1
    · exact absurd (ha m h1) h2
    · exact h1
  · rintro c d rfl
    exact Spec.Share.equal_says hE hd hsub rfl

/-! ## C71: merge and swap lose nothing -/

omit [LawfulBEq α] h _hm hp hQ hcode in
/-- Calls that move elements between the containers below `n`, or only look at them. -/
def Moving (n : Nat) : Call α κ → Prop
  | .merge c d => c < n ∧ d < n
  | .swap c d => c < n ∧ d < n
  | .forEach _ => True
  | .withSubmap _ _ => True
  | .rehash _ _ => True
  | .reserve _ _ => True
  | .equal _ _ => True
  | .on _ (.base (.contains _)) => True
  | .on _ (.base (.count _)) => True
  | .on _ (.ifContains _) => True
  | _ => False

/-- If all threads only move elements between containers, then, whatever they do at the same time, no element is lost
or duplicated: when all calls have returned, the containers together hold the same elements as before. -/
theorem C71_conserved {n : Nat} (hn : ∀ o, Q o → Moving n o) {W H} (hx : Exec code (start (cells P p)) H W)
    (hq : ∀ t, W.th t = .idle) :
    ∃ w w', (∀ c, (p c).iterate P = .ok (w c)) ∧ (∀ c, (container P W.obj c).iterate P = .ok (w' c)) ∧
      ((List.range n).flatMap w').Perm ((List.range n).flatMap w) := by
  have hs := fun c => (hp c).sim h
  have hg := good_any h hQ hcode
  obtain ⟨E, w', h1, h2, -⟩ := quiescent hg (cells_abs hs) hx hq
  refine ⟨fun c => flat (p c), fun c => flat (container P W.obj c), fun c => psim_iterate h (hs c),
    fun c => psim_iterate h (container_sim h2 c), ?_⟩
  refine .trans ?_ (Spec.Share.legal_moves (n := n) h1.legal (Spec.Share.stepwise_all (fun o => ?_) h1))
  · exact List.Perm.flatMap_left _ fun c _ => PSim.flat (container_sim h2 c)
  · obtain ⟨o, ho⟩ := o
    have hv := (hQ o ho).2
    have hmv := hn o ho
    unfold plans
    cases o with
    | on c o =>
      refine .step ?_ fun _ => .ret
      cases o with
      | base op => cases op <;> first | exact rfl | exact hmv.elim
      | ifContains k => exact rfl
      | _ => exact hmv.elim
    | forEach c => exact Spec.Share.sweep_all (fun _ => trivial) _ _ _
    | withSubmap c i => exact .step trivial fun _ => .ret
    | rehash c m => exact Spec.Share.sweep_all (fun _ => trivial) _ _ _
    | reserve c m => exact Spec.Share.sweep_all (fun _ => trivial) _ _ _
    | merge c d => exact Spec.Share.sweep_all (fun _ => ⟨hv, hmv⟩) _ _ _
    | swap c d => exact Spec.Share.sweep_all (fun _ => ⟨hv, hmv⟩) _ _ _
    | equal c d => exact Spec.Share.compare_all (fun _ => trivial) _ _
    | _ => exact hmv.elim

/-! ## C72: deadlock -/

/-- If nobody swaps containers, there is no deadlock: as long as a thread is in a call, some thread in a call is not
waiting for a lock. Missing: `swap`, refuted below. -/
theorem C72_without_swap_partial (hns : ∀ c d, ¬ Q (.swap c d)) {W H} (hx : Exec code (start (cells P p)) H W) (t : Nat)
    (ht : W.th t ≠ .idle) : ∃ t', W.th t' ≠ .idle ∧ ¬ Blocked W t' := by
  have hs := fun c => (hp c).sim h
  refine progress_shared (R := fun gs => gs.length ≤ 1 ∨ ∀ l ∈ gs.flatten, l.2 = .shared) (plan := plans P Q)
    (sem := wsem P) (fun o => ?_) (fun _ h => h) (cells_abs hs) hx t ht
  refine call_good h.cfgOk (hQ o.1 o.2).1 (hQ o.1 o.2).2 (hcode o) (fun _ _ => .inl (by simp)) (fun _ _ _ => .inl (by simp [both]))
    (fun c d e => absurd (e ▸ o.2) (hns c d)) (fun c d _ i => ?_)
  unfold bothRead
  split
  · exact .inr (by simp)
  · exact .inl (by simp [both])

/-- If every `swap`, and with a shared mutex every `==`, names its containers in the same order everywhere, there is no
deadlock. -/
theorem C72_ordered_partial (hsw : ∀ c d, Q (.swap c d) → c < d) (heq : P.mtx = .shared → ∀ c d, Q (.equal c d) → c < d)
    {W H} (hx : Exec code (start (cells P p)) H W) (t : Nat) (ht : W.th t ≠ .idle) :
    ∃ t', W.th t' ≠ .idle ∧ ¬ Blocked W t' := by
  have hs := fun c => (hp c).sim h
  have hone : ∀ g : List (Nat × Mode), Ordered [g] := by
    intro g gs1 g' gs2 e l hl
    cases gs1 with
    | nil => simp at hl
    | cons x gs1 => simp at e
  have htwo : ∀ (a b : Nat) (m m' : Mode), a < b → Ordered [[(a, m)], [(b, m')]] := by
    intro a b m m' hab gs1 g' gs2 e l hl l' hl'
    cases gs1 with
    | nil => simp at hl
    | cons x gs1 =>
      cases gs1 with
      | nil =>
        simp only [List.cons_append, List.nil_append, List.cons.injEq] at e
        obtain ⟨rfl, rfl, -⟩ := e
        simp at hl hl'
        subst hl hl'
        exact hab
      | cons y gs1 => simp at e
  refine progress (R := Ordered) (plan := plans P Q)
    (sem := wsem P) (fun o => ?_) (fun _ h => h) (cells_abs hs) hx t ht
  refine call_good h.cfgOk (hQ o.1 o.2).1 (hQ o.1 o.2).2 (hcode o) (fun _ _ => hone _) (fun _ _ _ => hone _)
    (fun c d e i => htwo _ _ _ _ (cell_lt (hsw c d (e ▸ o.2)))) (fun c d e i => ?_)
  unfold bothRead
  split
  · rename_i hm; exact htwo _ _ _ _ (cell_lt (heq hm c d (e ▸ o.2)))
  · exact hone _

end

/-- C72 is false: for any two containers in any state, if one thread calls `c.swap(d)` while another calls `d.swap(c)`,
there is a schedule after which both wait for ever. -/
theorem C72_swap_refuted [BEq α] (P : PCfg α κ) (p : Nat → PTbl α) {Q : Call α κ → Prop}
    {code : { o // Q o } → Code (Tbl α) (Ans α)} (hcode : ∀ o, CodeFor P o.1 (code o)) {c d : Nat} (hcd : c ≠ d)
    (h1 : Q (.swap c d)) (h2 : Q (.swap d c)) :
    ∃ W, Exec code (start (cells P p)) [.inv 0 ⟨_, h1⟩, .inv 1 ⟨_, h2⟩] W ∧ Deadlock W := by
  obtain ⟨k, hk⟩ := sweep_locks (hcode ⟨_, h1⟩) (fun i => rfl)
  obtain ⟨k', hk'⟩ := sweep_locks (hcode ⟨_, h2⟩) (fun i => rfl)
  exact cross (cell_ne hcd) hk hk' (.inl rfl) (.inl rfl)

/-- Nor is it enough that `swap` names its containers in a fixed order: with a shared mutex `d == c` in one thread and
`c.swap(d)` in another can wait for each other. -/
theorem C72_equal_refuted [BEq α] (P : PCfg α κ) (hm : P.mtx = .shared) (p : Nat → PTbl α) {Q : Call α κ → Prop}
    {code : { o // Q o } → Code (Tbl α) (Ans α)} (hcode : ∀ o, CodeFor P o.1 (code o)) {c d : Nat} (hcd : c ≠ d)
    (h1 : Q (.swap c d)) (h2 : Q (.equal d c)) :
    ∃ W, Exec code (start (cells P p)) [.inv 0 ⟨_, h1⟩, .inv 1 ⟨_, h2⟩] W ∧ Deadlock W := by
  obtain ⟨k, hk⟩ := sweep_locks (hcode ⟨_, h1⟩) (fun i => rfl)
  obtain ⟨b, -, hb⟩ := hcode ⟨_, h2⟩
  obtain ⟨m, hm2⟩ : ∃ m, 2 ^ P.N = m + 1 := ⟨2 ^ P.N - 1, by have := Nat.two_pow_pos P.N; omega⟩
  rw [hm2, eachEqual, Code.sec, bothRead, if_pos hm] at hb
  exact cross (cell_ne hcd) hk hb (.inl rfl) (.inr rfl)

/-- One thread is enough: `c.swap(c)` waits for the lock it holds itself. -/
theorem C72_self_swap_refuted [BEq α] (P : PCfg α κ) (p : Nat → PTbl α) {Q : Call α κ → Prop}
    {code : { o // Q o } → Code (Tbl α) (Ans α)} (hcode : ∀ o, CodeFor P o.1 (code o)) {c : Nat} (h : Q (.swap c c)) :
    ∃ W, Exec code (start (cells P p)) [.inv 0 ⟨_, h⟩] W ∧ Deadlock W := by
  obtain ⟨k, hk⟩ := sweep_locks (hcode ⟨_, h⟩) (fun i => rfl)
  exact self_wait hk

/-- And so does `c == c` with a mutex without shared locks. -/
theorem C72_self_equal_refuted [BEq α] (P : PCfg α κ) (hm : P.mtx ≠ .shared) (p : Nat → PTbl α) {Q : Call α κ → Prop}
    {code : { o // Q o } → Code (Tbl α) (Ans α)} (hcode : ∀ o, CodeFor P o.1 (code o)) {c : Nat} (h : Q (.equal c c)) :
    ∃ W, Exec code (start (cells P p)) [.inv 0 ⟨_, h⟩] W ∧ Deadlock W := by
  obtain ⟨b, -, hb⟩ := hcode ⟨_, h⟩
  obtain ⟨m, hm2⟩ : ∃ m, 2 ^ P.N = m + 1 := ⟨2 ^ P.N - 1, by have := Nat.two_pow_pos P.N; omega⟩
  rw [hm2, eachEqual, Code.sec, bothRead, if_neg hm, both] at hb
  exact twice_wait hb

/-! ## A concrete instance -/

/-- All thread safe calls. -/
def everything (P : PCfg α κ) (o : Call α κ) : Prop := Threadsafe o ∧ o.Valid P.C.key (kidx P) (2 ^ P.N)

theorem everything_allowed (P : PCfg α κ) : Allowed P (everything P) := fun _ h => h

/-- Their code. -/
def codes (P : PCfg α κ) [BEq α] (Q : Call α κ → Prop) (o : { o // Q o }) : Code (Tbl α) (Ans α) := codeOf P o.1

theorem codes_for (P : PCfg α κ) [BEq α] (Q : Call α κ → Prop) (o : { o // Q o }) : CodeFor P o.1 (codes P Q o) := codeOf_for P o.1

/-- C69: every call has code of the kind the theorems speak of, so that none of them holds for lack of executions. In
particular each section takes the locks that its reads and writes need. -/
theorem C69_code (P : PCfg α κ) [BEq α] (o : Call α κ) : ∃ code, CodeFor P o code := ⟨_, codeOf_for P o⟩

/-- Container 0 holds (5, 25), the others are empty. -/
def two (P : PCfg (Nat × Nat) Nat) (c : Nat) : PTbl (Nat × Nat) := if c = 0 then oneFive P else PTbl.empty P

theorem empty_reach {P : PCfg (Nat × Nat) Nat} : PReachable P (PTbl.empty P) :=
  ⟨[], fun _ => PTbl.empty P, [], 0, fun _ h => (List.not_mem_nil h).elim, rfl, rfl⟩

theorem two_reach (c : Nat) : PReachable exShared (two exShared c) ∧ PReachable exExcl (two exExcl c) := by
  unfold two
  split
  · exact ⟨oneFive_shared, oneFive_excl⟩
  · exact ⟨empty_reach, empty_reach⟩

theorem exContract : Contract exShared.C ∧ Contract exExcl.C := ⟨exP_contract (.inr (.inr rfl)), exP_contract (.inr (.inr rfl))⟩

/-- Thread 0 is in `for_each` and has passed two of the eight submaps when thread 1 inserts 4, which belongs to the
second submap, and 17, which belongs to the sixth. -/
def walk (P : PCfg (Nat × Nat) Nat) : List (Nat × Option { o // everything P o }) :=
  [(0, some ⟨.forEach 0, trivial, trivial⟩)] ++ List.replicate 6 (0, none) ++
  [(1, some ⟨.on 0 (.base (.insert (4, 1))), trivial, trivial⟩)] ++ List.replicate 4 (1, none) ++
  [(1, some ⟨.on 0 (.base (.insert (17, 2))), trivial, trivial⟩)] ++ List.replicate 4 (1, none) ++
  List.replicate 19 (0, none)

/-- What the callbacks have seen. -/
def reported {op : Type} : List (Event op (Ans (Nat × Nat))) → List (List (Nat × Nat))
  | .ret _ (.elems l) :: H => l :: reported H
  | _ :: H => reported H
  | [] => []

def idle2 {op σ ρ : Type} (W : World op σ ρ) : Bool := match W.th 0, W.th 1 with | .idle, .idle => true | _, _ => false

def walked (P : PCfg (Nat × Nat) Nat) := play (codes P (everything P)) 2 (start (cells P (two P))) (walk P)

theorem walked_ok : ((walked exShared).map fun x => (reported x.1, (container exShared x.2.obj 0).size, idle2 x.2)) =
    some ([[(5, 25), (17, 2)]], 3, true) := by decide +kernel

theorem idle2_all {op σ ρ : Type} {W : World op σ ρ} (h : idle2 W = true) (h' : ∀ u, 2 ≤ u → W.th u = .idle) (t : Nat) :
    W.th t = .idle := by
  unfold idle2 at h
  split at h
  · rename_i h0 h1
    match t with
    | 0 => exact h0
    | 1 => exact h1
    | t + 2 => exact h' _ (by omega)
  · cases h

/-- The hypotheses of C69 and C70 are met by an execution in which `for_each` reports an element that was inserted
during the call and misses another one. -/
example : ∃ (W : World { o // everything exShared o } _ _) (H : List _),
    Contract exShared.C ∧ exShared.mtx ≠ .null ∧ (∀ c, PReachable exShared (two exShared c)) ∧
    Allowed exShared (everything exShared) ∧ (∀ o, CodeFor exShared o.1 (codes exShared (everything exShared) o)) ∧
    Exec (codes exShared (everything exShared)) (start (cells exShared (two exShared))) H W ∧ (∀ t, W.th t = .idle) ∧
    reported H = [[(5, 25), (17, 2)]] ∧ (container exShared W.obj 0).size = 3 := by
  cases h : walked exShared with
  | none => have := walked_ok; rw [h] at this; cases this
  | some x =>
    have hc := walked_ok
    rw [h] at hc
    simp only [Option.map_some, Option.some.injEq, Prod.mk.injEq] at hc
    obtain ⟨h1, h2⟩ := play_exec _ (fun _ _ _ => rfl) h
    exact ⟨x.2, x.1, exContract.1, by decide, fun c => (two_reach c).1, everything_allowed _, codes_for _ _, h1,
      idle2_all hc.2.2 h2, hc.1, hc.2.1⟩

/-- Calls of `merge` and `swap` on the containers 0 and 1. -/
def movers (P : PCfg (Nat × Nat) Nat) (o : Call (Nat × Nat) Nat) : Prop := everything P o ∧ Moving 2 o

/-- Thread 0 merges container 0 into container 1; when it has passed four of the eight submaps, thread 1 swaps them. -/
def stir (P : PCfg (Nat × Nat) Nat) : List (Nat × Option { o // movers P o }) :=
  [(0, some ⟨.merge 1 0, ⟨trivial, show (1:Nat) ≠ 0 by decide⟩, show 1 < 2 ∧ 0 < 2 by decide⟩)] ++ List.replicate 16 (0, none) ++
  [(1, some ⟨.swap 0 1, ⟨trivial, show (0:Nat) ≠ 1 by decide⟩, show 0 < 2 ∧ 1 < 2 by decide⟩)] ++ List.replicate 41 (1, none) ++ List.replicate 17 (0, none)

def stirred (P : PCfg (Nat × Nat) Nat) := play (codes P (movers P)) 2 (start (cells P (two P))) (stir P)

theorem stirred_ok : ((stirred exExcl).map fun x =>
    ((container exExcl x.2.obj 0).size, (container exExcl x.2.obj 1).size, idle2 x.2)) = some (1, 0, true) := by decide +kernel

/-- The hypotheses of C71 are met by a merge that is overtaken by a swap: the element ends in container 0. -/
example : ∃ (W : World { o // movers exExcl o } _ _) (H : List _),
    (∀ c, PReachable exExcl (two exExcl c)) ∧ Allowed exExcl (movers exExcl) ∧ (∀ o, movers exExcl o → Moving 2 o) ∧
    Exec (codes exExcl (movers exExcl)) (start (cells exExcl (two exExcl))) H W ∧ (∀ t, W.th t = .idle) ∧
    (container exExcl W.obj 0).size = 1 ∧ (container exExcl W.obj 1).size = 0 := by
  cases h : stirred exExcl with
  | none => have := stirred_ok; rw [h] at this; cases this
  | some x =>
    have hc := stirred_ok
    rw [h] at hc
    simp only [Option.map_some, Option.some.injEq, Prod.mk.injEq] at hc
    obtain ⟨h1, h2⟩ := play_exec _ (fun _ _ _ => rfl) h
    exact ⟨x.2, x.1, fun c => (two_reach c).2, fun o ho => ho.1, fun o ho => ho.2, h1, idle2_all hc.2.2 h2, hc.1, hc.2.1⟩

/-- The deadlock happens with the concrete code and the concrete containers. -/
example : ∃ W : World { o // everything exExcl o } _ _, (∃ H, Exec (codes exExcl (everything exExcl)) (start (cells exExcl (two exExcl))) H W) ∧
    Deadlock W := by
  obtain ⟨W, h1, h2⟩ := C72_swap_refuted exExcl (two exExcl) (codes_for exExcl (everything exExcl)) (c := 0) (d := 1) (by decide)
    ⟨trivial, show (0:Nat) ≠ 1 by decide⟩ ⟨trivial, show (1:Nat) ≠ 0 by decide⟩
  exact ⟨W, ⟨_, h1⟩, h2⟩

example : (∃ (W : World { o : Call (Nat × Nat) Nat // True } _ _) (H : List _), Exec (codes exExcl fun _ => True) (start (cells exExcl (two exExcl))) H W ∧ Deadlock W) ∧
    ∃ (W : World { o : Call (Nat × Nat) Nat // True } _ _) (H : List _), Exec (codes exShared fun _ => True) (start (cells exShared (two exShared))) H W ∧ Deadlock W := by
  obtain ⟨W, h1, h2⟩ := C72_self_equal_refuted exExcl (by decide) (two exExcl) (codes_for exExcl fun _ => True) (c := 0) trivial
  obtain ⟨W', h3, h4⟩ := C72_equal_refuted exShared rfl (two exShared) (codes_for exShared fun _ => True) (c := 0) (d := 1) (by decide) trivial trivial
  exact ⟨⟨W, _, h1, h2⟩, W', _, h3, h4⟩

/-- Without `swap`, everything else is allowed; with `swap 0 1` only, there is an order. -/
example : (∀ c d : Nat, ¬ ((fun o => everything exShared o ∧ ∀ c d, o ≠ .swap c d) (.swap c d))) ∧
    Allowed exShared (fun o => everything exShared o ∧ ∀ c d, o ≠ .swap c d) ∧
    (∀ c d : Nat, (fun o => o = .swap 0 1 ∨ o = .clear 1 ∨ o = .merge 1 0) (.swap c d : Call (Nat × Nat) Nat) → c < d) ∧
    Allowed exExcl (fun o => o = .swap 0 1 ∨ o = .clear 1 ∨ o = .merge 1 0) := by
  refine ⟨fun c d h => h.2 c d rfl, fun o h => h.1, ?_, ?_⟩
  · rintro c d (h | h | h)
    · cases h; omega
    · cases h
    · cases h
  · rintro o (rfl | rfl | rfl)
    · exact ⟨trivial, show (0:Nat) ≠ 1 by decide⟩
    · exact ⟨trivial, trivial⟩
    · exact ⟨trivial, show (1:Nat) ≠ 0 by decide⟩

end Gtl.Props.Share
