import Verif.Props.Lru
import Verif.Props.Memo
import Verif.Lru.ThreadSim
import Verif.Conc.Count
/-!
# Property theorems C67 and C68: LRU caches and memoized functions with limited memory, used from many threads
-/

namespace Gtl.Props.LruThreads

open Gtl.Swiss Gtl.Parallel Gtl.Lru Gtl.Conc
open Gtl.Spec (Event LEvent Phase Linearizable Explains)
open Gtl.Spec.Lru (Op Resp latest)
open Gtl.Props.Hash (Contract exEqv)
open Gtl.Props.Lru (history fresh history_sim refOk exL exL_contract C26_reference)

variable {κ ν : Type} {L : LCfg κ}

/-! ## Bridge -/

theorem guarded_ok {mtx : Mtx} {Q : COp κ ν → Prop} (h : Guarded mtx Q) : mtx ≠ .shared ∨ ∀ k, ¬ Q (.get k) := by
  rcases h with h | h
  · rw [h]; exact .inl (by simp)
  · exact .inr h.2

/-- Before a call takes effect it was made. -/
theorem path_inv {op ρ : Type} {p q : Phase op ρ} {es : List (LEvent op ρ)} (h : Phase.Path p es q) :
    ∀ t o r, LEvent.lin t o r ∈ es → p = .pending o ∨ ∃ t', LEvent.inv t' o ∈ es := by
  induction h with
  | nil => intro t o r h; cases h
  | cons h0 _ ih =>
    intro t o r h
    rcases List.mem_cons.1 h with e | h
    · subst e; cases h0; exact .inl rfl
    · rcases ih t o r h with e | ⟨t', e⟩
      · subst e; cases h0; exact .inr ⟨_, List.mem_cons_self⟩
      · exact .inr ⟨t', List.mem_cons_of_mem _ e⟩

theorem eff_inv {op ρ S : Type} {sem : S → op → S → ρ → Prop} {s s' : S} {H : List (Event op ρ)} {E : List (LEvent op ρ)}
    (h : Explains sem s H E s') {o : op} {r : ρ} (ho : (o, r) ∈ E.filterMap LEvent.eff) : ∃ t, Event.inv t o ∈ H := by
  rw [List.mem_filterMap] at ho
  obtain ⟨e, h1, h2⟩ := ho
  cases e with
  | inv t o' => cases h2
  | ret t r' => cases h2
  | lin t o' r' =>
    simp only [LEvent.eff, Option.some.injEq, Prod.mk.injEq] at h2
    obtain ⟨rfl, rfl⟩ := h2
    obtain ⟨p, hp⟩ := h.threads t
    rcases path_inv hp t o' r' (List.mem_filter.2 ⟨h1, by simp [LEvent.tid]⟩) with e | ⟨t', e⟩
    · cases e
    · refine ⟨t', ?_⟩
      rw [← h.vis, List.mem_filterMap]
      exact ⟨_, (List.mem_filter.1 e).1, rfl⟩

theorem history_eq (h : Contract L.C) {n : Nat} {ops : List (Op κ ν)} {c : Cache κ ν} {rs : List (Resp ν)}
    (hc : history L n ops = .ok (c, rs)) :
    rs = ((Spec.Lru.Cache.new n).run L.eqv L.shard (2 ^ L.N) ops).2 ∧
      CacheSim L c ((Spec.Lru.Cache.new n).run L.eqv L.shard (2 ^ L.N) ops).1 (fresh ops) := by
  obtain ⟨c', h1, h2⟩ := history_sim h n ops
  rw [hc] at h1
  injection h1 with h1
  injection h1 with h1 h3
  subst h1
  exact ⟨h3, h2⟩

theorem latest_mem {eqv : κ → κ → Bool} {ops : List (Op κ ν)} {k : κ} {v : ν} (h : latest eqv ops k = some v) :
    ∃ k', eqv k' k = true ∧ Op.insert k' v ∈ ops := by
  induction ops using List.reverseRecOn with
  | nil => cases h
  | append_singleton ops op ih =>
    rw [Ref.latest_append] at h
    have step : latest eqv ops k = some v → ∃ k', eqv k' k = true ∧ Op.insert k' v ∈ ops ++ [op] := fun h => by
      obtain ⟨k', h1, h2⟩ := ih h
      exact ⟨k', h1, List.mem_append_left _ h2⟩
    cases op with
    | insert k' w =>
      dsimp only at h
      split at h
      · rename_i hk
        injection h with h
        subst h
        exact ⟨k', hk, by simp⟩
      · exact step h
    | _ => exact step h

/-! ## C67: the cache -/

/-- A cache after any history, then any number of threads, any calls of `insert`, `get` and `exists`, any schedule, any
way the code between lock and unlock is cut into atomic actions: the history of calls and answers is linearizable with
respect to the reference cache, and no thread reaches undefined behaviour. -/
theorem C67_linearizable (h : Contract L.C) {n : Nat} {ops : List (Op κ ν)} {c : Cache κ ν} {rs : List (Resp ν)}
    (hc : history L n ops = .ok (c, rs)) {mtx : Mtx} {Q : COp κ ν → Prop} (hm : Guarded mtx Q)
    {code : { o // Q o } → Code (Cell κ ν) (Resp ν)} (hcode : ∀ o, CRuns L mtx c.max o.1 (code o)) {W H}
    (hx : Exec code (start (cells c (fresh ops))) H W) :
    Linearizable (semL L) ((Spec.Lru.Cache.new n).run L.eqv L.shard (2 ^ L.N) ops).1 H ∧ ∀ t o, W.th t ≠ .run o .ub := by
  have h0 := absL_cells (history_eq h hc).2
  have hg := fun o => call_good h.cfgOk (guarded_ok hm) o (hcode o)
  exact ⟨linearizable hg h0 hx, no_ub hg h0 hx⟩

/-- No deadlock. -/
theorem C67_no_deadlock (h : Contract L.C) {n : Nat} {ops : List (Op κ ν)} {c : Cache κ ν} {rs : List (Resp ν)}
    (hc : history L n ops = .ok (c, rs)) {mtx : Mtx} {Q : COp κ ν → Prop} (hm : Guarded mtx Q)
    {code : { o // Q o } → Code (Cell κ ν) (Resp ν)} (hcode : ∀ o, CRuns L mtx c.max o.1 (code o)) {W H}
    (hx : Exec code (start (cells c (fresh ops))) H W) (t : Nat) (ht : W.th t ≠ .idle) :
    ∃ t', W.th t' ≠ .idle ∧ ¬ Blocked W t' :=
  progress (fun o => call_good h.cfgOk (guarded_ok hm) o (hcode o)) (absL_cells (history_eq h hc).2) hx t ht

/-- When all calls have returned: there is an order of them, compatible with the history, such that a cache used by one
thread in that order gives the same answers; and the cache answers all later calls like that one. So C26 to C28 hold. -/
theorem C67_as_one_thread (h : Contract L.C) {n : Nat} {ops : List (Op κ ν)} {c : Cache κ ν} {rs : List (Resp ν)}
    (hc : history L n ops = .ok (c, rs)) {mtx : Mtx} {Q : COp κ ν → Prop} (hm : Guarded mtx Q)
    {code : { o // Q o } → Code (Cell κ ν) (Resp ν)} (hcode : ∀ o, CRuns L mtx c.max o.1 (code o)) {W H}
    (hx : Exec code (start (cells c (fresh ops))) H W) (hq : ∀ t, W.th t = .idle) :
    ∃ (E : List (LEvent { o // Q o } (Resp ν))) (m : Nat), E.filterMap LEvent.vis = H ∧
      (∀ t, Phase.Path .idle (E.filter (fun e => e.tid == t)) .idle) ∧
      ∀ (later : List (Op κ ν)) (next : Nat), m ≤ next → ∃ c' rs',
        (ofCells L c.max W.obj).run L next later = .ok (c', rs') ∧
        Lru.answers L n (ops ++ (E.filterMap LEvent.eff).map (fun x => x.1.1.seq) ++ later) =
          .ok (rs ++ (E.filterMap LEvent.eff).map Prod.snd ++ rs') := by
  obtain ⟨e1, h2⟩ := history_eq h hc
  obtain ⟨E, a', h3, h4, h5⟩ := quiescent (fun o => call_good h.cfgOk (guarded_ok hm) o (hcode o)) (absL_cells h2) hx hq
  obtain ⟨m, h6⟩ := ofCells_csim h4
  refine ⟨E, m, h3.vis, h5, fun later next hn => ?_⟩
  obtain ⟨c', h7, -⟩ := run_csim h.cfgOk later _ _ next (h6 next hn)
  refine ⟨c', _, h7, ?_⟩
  rw [C26_reference h, run_append', run_append', legal_run h3.legal, ← e1]

/-- What `get` returns, at any time, was inserted for that key before: in the history before the threads, or by a call
made by one of them. -/
theorem C67_get_inserted (h : Contract L.C) {n : Nat} {ops : List (Op κ ν)} {c : Cache κ ν} {rs : List (Resp ν)}
    (hc : history L n ops = .ok (c, rs)) {mtx : Mtx} {Q : COp κ ν → Prop} (hm : Guarded mtx Q)
    {code : { o // Q o } → Code (Cell κ ν) (Resp ν)} (hcode : ∀ o, CRuns L mtx c.max o.1 (code o)) {W H}
    (hx : Exec code (start (cells c (fresh ops))) H W) (o : { o // Q o }) (k : κ) (v : ν) (ho : o.1 = .get k)
    (hr : (o, Resp.val (some v)) ∈ Conc.answers (fun _ => none) H) :
    ∃ k', L.eqv k' k = true ∧
      (Op.insert k' v ∈ ops ∨ ∃ (t : Nat) (o' : { o // Q o }), o'.1 = .insert k' v ∧ Event.inv t o' ∈ H) := by
  obtain ⟨E, a', hE⟩ := (C67_linearizable h hc hm hcode hx).1
  obtain ⟨X, hX⟩ := explained_answers hE
  have hmem := hX.subset (List.mem_append_left X hr)
  obtain ⟨l1, l2, hl⟩ := List.append_of_mem hmem
  have hleg := legal_run hE.legal
  rw [hl, List.map_append, List.map_cons, run_append'] at hleg
  have hans := congrArg Prod.snd hleg
  dsimp only at hans
  rw [List.map_append, List.map_cons] at hans
  have hlen : ((((Spec.Lru.Cache.new n).run L.eqv L.shard (2 ^ L.N) ops).1).run L.eqv L.shard (2 ^ L.N)
      (l1.map fun x => x.1.1.seq)).2.length = (l1.map Prod.snd).length := by
    rw [Ref.run_length, List.length_map, List.length_map]
  have hans2 := (List.append_inj hans hlen).2
  simp only [Spec.Lru.Cache.run, ho] at hans2
  rw [show (COp.get k : COp κ ν).seq = .get k from rfl] at hans2
  simp only [Spec.Lru.Cache.step] at hans2
  injection hans2 with hans2 _
  injection hans2 with hans2
  have hrun : (((Spec.Lru.Cache.new n).run L.eqv L.shard (2 ^ L.N) ops).1).run L.eqv L.shard (2 ^ L.N) (l1.map fun x => x.1.1.seq) =
      ((((Spec.Lru.Cache.new n).run L.eqv L.shard (2 ^ L.N) (ops ++ l1.map fun x => x.1.1.seq)).1),
        ((((Spec.Lru.Cache.new n).run L.eqv L.shard (2 ^ L.N) ops).1).run L.eqv L.shard (2 ^ L.N) (l1.map fun x => x.1.1.seq)).2) := by
    rw [run_append']
  rw [hrun] at hans2
  dsimp only at hans2
  unfold Spec.Lru.get at hans2
  cases hk : Spec.lookup Prod.fst L.eqv
      (((Spec.Lru.Cache.new n).run L.eqv L.shard (2 ^ L.N) (ops ++ l1.map fun x => x.1.1.seq)).1.shards (L.shard k)) k with
  | none => rw [hk] at hans2; cases hans2
  | some e =>
    rw [hk] at hans2
    injection hans2 with hans2
    have := Ref.latest_run (refOk h) n _ k e hk
    rw [hans2] at this
    obtain ⟨k', h1, h2⟩ := latest_mem this
    refine ⟨k', h1, ?_⟩
    rcases List.mem_append.1 h2 with h2 | h2
    · exact .inl h2
    · right
      obtain ⟨x, h3, h4⟩ := List.mem_map.1 h2
      have h5 : (x.1, x.2) ∈ E.filterMap LEvent.eff := by rw [hl]; exact List.mem_append_left _ h3
      obtain ⟨t, h6⟩ := eff_inv hE h5
      refine ⟨t, x.1, ?_, h6⟩
      cases hx1 : x.1.1 with
      | insert k1 v1 => rw [hx1] at h4; simp only [COp.seq, Op.insert.injEq] at h4; rw [h4.1, h4.2]
      | get k1 => rw [hx1] at h4; cases h4
      | «exists» k1 => rw [hx1] at h4; cases h4

/-! ### Executions with two threads -/

def exAll : COp Nat String → Prop := fun _ => True

def exOps : List (Op Nat String) := [.insert 1 "a", .insert 3 "c"]

/-- The cache with keys 1 and 3, in the same shard. -/
def exCache : Cache Nat String :=
  match history (exL groupPortable) 7 exOps with
  | .ok (c, _) => c
  | _ => Cache.blank (exL groupPortable)

theorem exCache_history : history (exL groupPortable) 7 exOps = .ok (exCache, [.unit, .unit]) := by
  obtain ⟨c, h1, -⟩ := history_sim (exL_contract (.inr (.inr rfl))) 7 exOps
  have h2 : ((Spec.Lru.Cache.new 7).run (exL groupPortable).eqv (exL groupPortable).shard (2 ^ (exL groupPortable).N) exOps).2 =
      [.unit, .unit] := rfl
  rw [h2] at h1
  unfold exCache
  rw [h1]

def exCode (mtx : Mtx) (o : { o // exAll o }) : Code (Cell Nat String) (Resp String) :=
  callSteps (exL groupPortable) mtx exCache.max o.1

theorem exCode_runs (mtx : Mtx) (o : { o // exAll o }) : CRuns (exL groupPortable) mtx exCache.max o.1 (exCode mtx o) :=
  callSteps_runs _ _ _ _

def exGet : { o // exAll o } := ⟨.get 101, trivial⟩

/-- Two threads get the same key; the second one waits for the first one. -/
def exSched : List (Nat × Option { o // exAll o }) :=
  [(0, some exGet), (1, some exGet), (0, none), (0, none), (0, none), (0, none), (0, none), (0, none), (0, none), (0, none),
   (1, none), (1, none), (1, none), (1, none), (1, none), (1, none), (1, none), (1, none)]

theorem exSched_ok : ((play (exCode .excl) 2 (start (cells exCache (fresh exOps))) exSched).map fun x =>
    (Conc.answers (fun _ => none) x.1).map Prod.snd) = some [.val (some "a"), .val (some "a")] := by decide +kernel

/-- The hypotheses are met. -/
example : ∃ H W, Guarded .excl exAll ∧ (∀ o, CRuns (exL groupPortable) .excl exCache.max o.1 (exCode .excl o)) ∧
    Exec (exCode .excl) (start (cells exCache (fresh exOps))) H W ∧
    (Conc.answers (fun _ => none) H).map Prod.snd = [.val (some "a"), .val (some "a")] := by
  cases h : play (exCode .excl) 2 (start (cells exCache (fresh exOps))) exSched with
  | none => have := exSched_ok; rw [h] at this; cases this
  | some x =>
    have := exSched_ok
    rw [h] at this
    simp only [Option.map_some, Option.some.injEq] at this
    exact ⟨x.1, x.2, .inl rfl, exCode_runs _, play_exec _ (fun _ _ _ => rfl) h, this⟩

/-- Two threads get the same key, both holding a shared lock: the first one has taken the entry out of the list when
the second one looks at it. -/
def exRace : List (Nat × Option { o // exAll o }) :=
  [(0, some exGet), (1, some exGet), (0, none), (1, none), (1, none), (1, none), (0, none), (0, none), (0, none), (0, none),
   (1, none)]

theorem exRace_ok : ((play (exCode .shared) 2 (start (cells exCache (fresh exOps))) exRace).map fun x =>
    match x.2.th 1 with | .run _ .ub => true | _ => false) = some true := by decide +kernel

/-- C67 is false for a mutex with shared locks: `get` changes the list while it holds a shared lock only, so of two
threads that `get` a key that is in the cache one reaches undefined behaviour. -/
theorem C67_shared_refuted : ∃ (L : LCfg Nat) (n : Nat) (ops : List (Op Nat String)) (c : Cache Nat String) (rs : List (Resp String))
    (Q : COp Nat String → Prop) (code : { o // Q o } → Code (Cell Nat String) (Resp String)) (W : World _ _ _) (H : _)
    (t : Nat) (o : { o // Q o }),
    Contract L.C ∧ history L n ops = .ok (c, rs) ∧ (∀ o, CRuns L .shared c.max o.1 (code o)) ∧
    Exec code (start (cells c (fresh ops))) H W ∧ (∀ t o, Event.inv t o ∈ H → o.1 = .get 101) ∧ W.th t = .run o .ub := by
  cases h : play (exCode .shared) 2 (start (cells exCache (fresh exOps))) exRace with
  | none => have := exRace_ok; rw [h] at this; cases this
  | some x =>
    have hr := exRace_ok
    rw [h] at hr
    simp only [Option.map_some, Option.some.injEq] at hr
    have hinv : ∀ (es : List (Nat × Option { o // exAll o })) (W W' : World _ _ _) (H : _),
        (∀ e ∈ es, ∀ o, e.2 = some o → o = exGet) → play (exCode .shared) 2 W es = some (H, W') →
        ∀ t o, Event.inv t o ∈ H → o = exGet := by
      intro es
      induction es with
      | nil => intro W W' H _ h t o ho; simp only [play] at h; cases h; cases ho
      | cons e es ih =>
        intro W W' H he h t o ho
        simp only [play, Option.bind_eq_bind, Option.bind_eq_some_iff] at h
        obtain ⟨⟨ev, W1⟩, h1, ⟨H2, W2⟩, h2, h3⟩ := h
        cases h3
        rcases List.mem_append.1 ho with ho | ho
        · unfold move at h1
          split at h1
          · cases h1
          · split at h1
            · cases he2 : e.2 with
              | none => rw [he2] at h1; cases h1
              | some o' =>
                rw [he2] at h1
                cases h1
                simp only [Option.toList, List.mem_singleton] at ho
                injection ho with _ ho
                subst ho
                exact he _ List.mem_cons_self _ he2
            · split at h1
              · cases h1; simp [Option.toList] at ho
              · cases h1
              · cases h1; simp [Option.toList] at ho
              · split at h1
                · cases h1; simp [Option.toList] at ho
                · cases h1
              · split at h1
                · cases h1; simp [Option.toList] at ho
                · cases h1; simp [Option.toList] at ho
        · exact ih _ _ _ (fun e' he' => he e' (List.mem_cons_of_mem _ he')) h2 t o ho
    have h1 : ∃ o, x.2.th 1 = .run o .ub := by
      generalize x.2.th 1 = s at hr
      match s, hr with
      | .run o .ub, _ => exact ⟨o, rfl⟩
    obtain ⟨o, h1⟩ := h1
    refine ⟨exL groupPortable, 7, exOps, exCache, _, exAll, exCode .shared, x.2, x.1, 1, o, exL_contract (.inr (.inr rfl)),
      exCache_history, exCode_runs _, play_exec _ (fun _ _ _ => rfl) h, ?_, h1⟩
    intro t o ho
    rw [hinv exRace _ _ _ ?_ h t o ho]
    · rfl
    · intro e he o ho
      simp only [exRace, List.mem_cons, List.not_mem_nil, or_false] at he
      rcases he with rfl | rfl | rfl | rfl | rfl | rfl | rfl | rfl | rfl | rfl | rfl <;> cases ho <;> rfl

/-! ## C68: the memoized function that remembers only the arguments used last -/

/-- The cache of a newly memoized function after the calls `ops`, and the answers. -/
def memoHistory (L : LCfg κ) (f : κ → ν) (n : Nat) (ops : List (Spec.MemoLru.Op κ)) :
    Res (Cache κ ν × List (Spec.MemoLru.Resp ν)) := do
  let c ← Cache.new L n
  Memo.lruRun L f c 0 ops

theorem memoHistory_eq (h : Contract L.C) {f : κ → ν} (hf : ∀ k l, L.eqv k l = true → f k = f l) {n : Nat}
    {ops : List (Spec.MemoLru.Op κ)} {c : Cache κ ν} {rs} (hc : memoHistory L f n ops = .ok (c, rs)) :
    rs = (Spec.MemoLru.run L.eqv L.shard (2 ^ L.N) f (Spec.Lru.Cache.new n) ops).2 ∧
      CacheSim L c (Spec.MemoLru.run L.eqv L.shard (2 ^ L.N) f (Spec.Lru.Cache.new n) ops).1 ops.length ∧
      ∀ i, Memo.Vals f ((Spec.MemoLru.run L.eqv L.shard (2 ^ L.N) f (Spec.Lru.Cache.new n) ops).1.shards i) := by
  obtain ⟨c0, h1, h2⟩ := new_csim (ν := ν) h.cfgOk n
  obtain ⟨c', h3, h4, h5⟩ := Memo.lruRun_sim h.cfgOk hf ops c0 _ 0 h2 (fun i e he => by cases he)
  rw [Nat.zero_add] at h4
  unfold memoHistory at hc
  rw [h1, Res.ok_bind, h3] at hc
  injection hc with hc
  injection hc with h6 h7
  subst h6
  exact ⟨h7.symm, h4, h5⟩

/-- Any number of threads calling the memoized function, or asking whether a value is remembered, after any history, with
either kind of mutex: the history is linearizable with respect to the reference, nothing is undefined, there is no deadlock. -/
theorem C68_linearizable (h : Contract L.C) {f : κ → ν} (hf : ∀ k l, L.eqv k l = true → f k = f l) {n : Nat}
    {ops : List (Spec.MemoLru.Op κ)} {c : Cache κ ν} {rs} (hc : memoHistory L f n ops = .ok (c, rs)) {mtx : Mtx} (_hm : mtx ≠ .null)
    {code : MOp κ → Code (Cell κ ν) (Spec.MemoLru.Resp ν)} (hcode : ∀ o, MRuns L mtx c.max f o (code o)) {W H}
    (hx : Exec code (start (cells c ops.length)) H W) :
    Linearizable (semM L f) (Spec.MemoLru.run L.eqv L.shard (2 ^ L.N) f (Spec.Lru.Cache.new n) ops).1 H ∧
    (∀ t o, W.th t ≠ .run o .ub) ∧ ∀ t, W.th t ≠ .idle → ∃ t', W.th t' ≠ .idle ∧ ¬ Blocked W t' := by
  obtain ⟨-, h1, h2⟩ := memoHistory_eq h hf hc
  have h0 : AbsL L c.max (cells c ops.length) _ ∧ _ := ⟨absL_cells h1, h2⟩
  have hg := fun o => memo_good h.cfgOk hf o (hcode o)
  exact ⟨linearizable hg h0 hx, no_ub hg h0 hx, fun t ht => progress hg h0 hx t ht⟩

/-- Every call returns the value of the function, and what `contains` returns is the value of the function. -/
theorem C68_value (h : Contract L.C) {f : κ → ν} (hf : ∀ k l, L.eqv k l = true → f k = f l) {n : Nat}
    {ops : List (Spec.MemoLru.Op κ)} {c : Cache κ ν} {rs} (hc : memoHistory L f n ops = .ok (c, rs)) {mtx : Mtx} (_hm : mtx ≠ .null)
    {code : MOp κ → Code (Cell κ ν) (Spec.MemoLru.Resp ν)} (hcode : ∀ o, MRuns L mtx c.max f o (code o)) {W H}
    (hx : Exec code (start (cells c ops.length)) H W) (k : κ) :
    (∀ r, (MOp.call k, r) ∈ Conc.answers (fun _ => none) H → ∃ ran, r = .val (f k) ran) ∧
    (∀ r, (MOp.contains k, r) ∈ Conc.answers (fun _ => none) H → r = .opt none ∨ r = .opt (some (f k))) := by
  obtain ⟨-, h1, h2⟩ := memoHistory_eq h hf hc
  have h0 : AbsL L c.max (cells c ops.length) _ ∧ _ := ⟨absL_cells h1, h2⟩
  have hg : ∀ o, Good (fun A a => AbsL L c.max A a ∧ ∀ i, Memo.Vals f (a.shards i))
      (fun a o a' r => semM L f a o a' r ∧ ∀ i, Memo.Vals f (a.shards i)) o 1 (code o) := by
    intro o
    obtain ⟨β, i, m, b, k, g1, g2, g3, g4⟩ := memo_good h.cfgOk hf o (hcode o)
    refine ⟨β, i, m, b, k, g1, g2, g3, fun A a hA => ?_⟩
    obtain ⟨a', x, g5, g6⟩ := g4 A a hA
    refine ⟨a', x, g5, ?_⟩
    rcases g6 with ⟨r, s', g7, g8, g9⟩ | ⟨-, g7⟩
    · exact .inl ⟨r, s', g7, ⟨g8, hA.2⟩, g9⟩
    · exact g7.elim
  have hl := linearizable hg h0 hx
  refine ⟨fun r hr => ?_, fun r hr => ?_⟩
  · obtain ⟨a, a', hs, -⟩ := answers_sem hl _ hr
    unfold semM at hs
    injection hs with _ hs
    exact ⟨_, hs⟩
  · obtain ⟨a, a', hs, hv⟩ := answers_sem hl _ hr
    unfold semM at hs
    injection hs with _ hs
    dsimp only [MOp.seq, Spec.MemoLru.step] at hs
    rw [hs]
    cases hk : Spec.lookup Prod.fst L.eqv (a.shards (L.shard k)) k with
    | none => exact .inl rfl
    | some e =>
      right
      have h3 := hv (L.shard k) e (List.mem_of_find?_eq_some hk)
      have h4 := Ref.lookup_some_eqv hk
      simp only [Option.map_some]
      rw [h3, hf _ _ h4]

/-- When all calls have returned: there is an order of them, compatible with the history, in which a single thread gets
the same answers (so C31 holds), with the function run by the same calls. -/
theorem C68_as_one_thread (h : Contract L.C) {f : κ → ν} (hf : ∀ k l, L.eqv k l = true → f k = f l) {n : Nat}
    {ops : List (Spec.MemoLru.Op κ)} {c : Cache κ ν} {rs} (hc : memoHistory L f n ops = .ok (c, rs)) {mtx : Mtx} (_hm : mtx ≠ .null)
    {code : MOp κ → Code (Cell κ ν) (Spec.MemoLru.Resp ν)} (hcode : ∀ o, MRuns L mtx c.max f o (code o)) {W H}
    (hx : Exec code (start (cells c ops.length)) H W) (hq : ∀ t, W.th t = .idle) :
    ∃ (E : List (LEvent (MOp κ) (Spec.MemoLru.Resp ν))) (m : Nat), E.filterMap LEvent.vis = H ∧
      (∀ t, Phase.Path .idle (E.filter (fun e => e.tid == t)) .idle) ∧
      ∀ (later : List (Spec.MemoLru.Op κ)) (next : Nat), m ≤ next → ∃ c' rs' c'',
        Memo.lruRun L f (ofCells L c.max W.obj) next later = .ok (c', rs') ∧
        memoHistory L f n (ops ++ (E.filterMap LEvent.eff).map (fun x => x.1.seq) ++ later) =
          .ok (c'', rs ++ (E.filterMap LEvent.eff).map Prod.snd ++ rs') := by
  obtain ⟨e1, h1, h2⟩ := memoHistory_eq h hf hc
  have h0 : AbsL L c.max (cells c ops.length) _ ∧ _ := ⟨absL_cells h1, h2⟩
  obtain ⟨E, a', h3, h4, h5⟩ := quiescent (fun o => memo_good h.cfgOk hf o (hcode o)) h0 hx hq
  obtain ⟨m, h6⟩ := ofCells_csim h4.1
  refine ⟨E, m, h3.vis, h5, fun later next hn => ?_⟩
  obtain ⟨c', h7, -⟩ := Memo.lruRun_sim h.cfgOk hf later _ _ next (h6 next hn) h4.2
  obtain ⟨c0, g1, g2⟩ := new_csim (ν := ν) h.cfgOk n
  obtain ⟨c'', g3, -⟩ := Memo.lruRun_sim h.cfgOk hf (ops ++ (E.filterMap LEvent.eff).map (fun x => x.1.seq) ++ later) c0 _ 0 g2
    (fun i e he => by cases he)
  refine ⟨c', _, c'', h7, ?_⟩
  unfold memoHistory
  rw [g1, Res.ok_bind, g3, mrun_append', mrun_append', legal_mrun h3.legal, ← e1]

/-! ### An execution with two threads -/

def exF (k : Nat) : Nat := (k % 100) * (k % 100)

def exMemo : Cache Nat Nat :=
  match memoHistory (exL groupPortable) exF 9 [.call 1] with
  | .ok (c, _) => c
  | _ => Cache.blank (exL groupPortable)

theorem exMemo_history : memoHistory (exL groupPortable) exF 9 [.call 1] = .ok (exMemo, [.val 1 true]) := by
  have hf : ∀ k l, (exL groupPortable).eqv k l = true → exF k = exF l := by
    intro k l h
    simp only [exL, exEqv, beq_iff_eq] at h
    unfold exF; rw [h]
  obtain ⟨c0, h1, h2⟩ := new_csim (ν := Nat) (exL_contract (.inr (.inr rfl)) : Contract (exL groupPortable).C).cfgOk 9
  obtain ⟨c', h3, -⟩ := Memo.lruRun_sim (exL_contract (.inr (.inr rfl)) : Contract (exL groupPortable).C).cfgOk hf [.call 1] c0 _ 0 h2
    (fun i e he => by cases he)
  have h4 : (Spec.MemoLru.run (exL groupPortable).eqv (exL groupPortable).shard (2 ^ (exL groupPortable).N) exF
      (Spec.Lru.Cache.new 9) [.call 1]).2 = [.val 1 true] := by decide +kernel
  rw [h4] at h3
  have h5 : memoHistory (exL groupPortable) exF 9 [.call 1] = .ok (c', [.val 1 true]) := by
    unfold memoHistory
    rw [h1]; exact h3
  unfold exMemo
  rw [h5]

def exMCode (mtx : Mtx) : MOp Nat → Code (Cell Nat Nat) (Spec.MemoLru.Resp Nat) :=
  memoSteps (exL groupPortable) mtx exMemo.max exF

/-- Two threads ask for the same value, a third one looks. -/
def exMSched : List (Nat × Option (MOp Nat)) :=
  [(0, some (.call 5)), (1, some (.call 105)), (2, some (.contains 5)), (0, none), (0, none), (0, none), (1, none), (1, none),
   (1, none), (2, none), (2, none), (2, none), (0, none), (1, none), (2, none)]

theorem exMSched_ok : ((play (exMCode .shared) 3 (start (cells exMemo 1)) exMSched).map fun x =>
    Conc.answers (fun _ => none) x.1) =
    some [(.call 5, .val 25 true), (.call 105, .val 25 false), (.contains 5, .opt (some 25))] := by decide +kernel

/-- The hypotheses are met. -/
example : ∃ H W, (∀ o, MRuns (exL groupPortable) .shared exMemo.max exF o (exMCode .shared o)) ∧
    Exec (exMCode .shared) (start (cells exMemo 1)) H W ∧
    Conc.answers (fun _ => none) H = [(.call 5, .val 25 true), (.call 105, .val 25 false), (.contains 5, .opt (some 25))] := by
  cases h : play (exMCode .shared) 3 (start (cells exMemo 1)) exMSched with
  | none => have := exMSched_ok; rw [h] at this; cases this
  | some x =>
    have := exMSched_ok
    rw [h] at this
    simp only [Option.map_some, Option.some.injEq] at this
    exact ⟨x.1, x.2, fun o => memoSteps_runs _ _ _ _ _, play_exec _ (fun _ _ _ => rfl) h, this⟩

end Gtl.Props.LruThreads
