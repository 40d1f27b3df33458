import Verif.Props.LruThreadDefs
import Verif.Lru.Sim
import Verif.Memo.LruSim
import Verif.Conc.Refine
/-!
# The critical sections of caches and memoized functions do what the reference cache does
-/

namespace Gtl.Lru

open Gtl.Swiss Gtl.Parallel Gtl.Conc
open Gtl.Spec (lookup Legal)
open Gtl.Spec.Lru (Resp)

variable {κ ν : Type} {L : LCfg κ}

/-- The shared objects are those of the reference cache. -/
structure AbsL (L : LCfg κ) (max : Nat) (A : Nat → Cell κ ν) (a : Spec.Lru.Cache κ ν) : Prop where
  sub : ∀ i, i < 2 ^ L.N → SubSim L (A i).sub (A i).next ∧ (A i).sub.abs = a.shards i
  max : max = a.max / 2 ^ L.N

theorem absL_upd {max : Nat} {A : Nat → Cell κ ν} {a : Spec.Lru.Cache κ ν} (h : AbsL L max A a) {i : Nat} {c : Cell κ ν}
    {l : List (κ × ν)} (h1 : SubSim L c.sub c.next) (h2 : c.sub.abs = l) :
    AbsL L max (upd A i c) { a with shards := Spec.put a.shards i l } := by
  refine ⟨fun j hj => ?_, h.max⟩
  unfold Spec.put
  dsimp only
  by_cases e : j = i
  · subst e; rw [upd_same, if_pos rfl]; exact ⟨h1, h2⟩
  · rw [upd_ne _ _ e, if_neg e]; exact h.sub j hj

theorem callSec_abs (hC : CfgOk L.C) {max : Nat} {A : Nat → Cell κ ν} {a : Spec.Lru.Cache κ ν} (h : AbsL L max A a) (o : COp κ ν) :
    ∃ c', callSec L max o (A (L.shard o.key)) = .ok (c', (a.step L.eqv L.shard (2 ^ L.N) o.seq).2) ∧
      AbsL L max (upd A (L.shard o.key) c') (a.step L.eqv L.shard (2 ^ L.N) o.seq).1 := by
  obtain ⟨h1, h2⟩ := h.sub (L.shard o.key) (shard_lt L _)
  cases o with
  | insert k v =>
    dsimp only [COp.key] at h1 h2
    obtain ⟨s', e1, e2, e3⟩ := insert_sub hC h1 max k v
    refine ⟨⟨s', (A (L.shard k)).next + 1⟩, ?_, ?_⟩
    · simp only [callSec, COp.key]
      rw [e1]; rfl
    · refine absL_upd h e2 ?_
      rw [e3, h.max]
      show Spec.Lru.insert _ _ (A (L.shard k)).sub.abs k v = _
      rw [show (A (L.shard k)).sub.abs = a.shards (L.shard k) from h2]
  | get k =>
    dsimp only [COp.key] at h1 h2
    obtain ⟨s', e1, e2, e3⟩ := get_sub hC h1 k
    have h2' : (A (L.shard k)).sub.abs = a.shards (L.shard k) := h2
    refine ⟨⟨s', (A (L.shard k)).next⟩, ?_, ?_⟩
    · simp only [callSec, COp.key, COp.seq, Spec.Lru.Cache.step]
      rw [show ((A (L.shard k)).sub.get L k) = _ from e1, h2']; rfl
    · refine absL_upd h e2 ?_
      rw [e3]
      show (Spec.Lru.get L.eqv (A (L.shard k)).sub.abs k).1 = _
      rw [h2']
  | «exists» k =>
    dsimp only [COp.key] at h1 h2
    have e1 := exists_sub hC h1 k
    have h2' : (A (L.shard k)).sub.abs = a.shards (L.shard k) := h2
    refine ⟨A (L.shard k), ?_, ?_⟩
    · simp only [callSec, COp.key, COp.seq, Spec.Lru.Cache.step]
      rw [show ((A (L.shard k)).sub.exists L k) = _ from e1]
      simp only [COp.key, h2', Res.ok_bind]
    · dsimp only [COp.key]; rw [upd_self]; exact h

theorem memoSec_abs (hC : CfgOk L.C) {f : κ → ν} (hf : ∀ k l, L.eqv k l = true → f k = f l) {max : Nat} {A : Nat → Cell κ ν}
    {a : Spec.Lru.Cache κ ν} (h : AbsL L max A a) (hv : ∀ i, Memo.Vals f (a.shards i)) (o : MOp κ) :
    ∃ c', memoSec L max f o (A (L.shard o.key)) = .ok (c', (Spec.MemoLru.step L.eqv L.shard (2 ^ L.N) f a o.seq).2) ∧
      AbsL L max (upd A (L.shard o.key) c') (Spec.MemoLru.step L.eqv L.shard (2 ^ L.N) f a o.seq).1 ∧
      ∀ i, Memo.Vals f ((Spec.MemoLru.step L.eqv L.shard (2 ^ L.N) f a o.seq).1.shards i) := by
  obtain ⟨h1, h2⟩ := h.sub (L.shard o.key) (shard_lt L _)
  cases o with
  | call k =>
    dsimp only [MOp.key] at h1 h2
    have h2' : (A (L.shard k)).sub.abs = a.shards (L.shard k) := h2
    obtain ⟨s', e1, e2, e3⟩ := Memo.subCall_sim hC hf h1 (by rw [h2]; exact hv _) max k
    refine ⟨⟨s', (A (L.shard k)).next + 1⟩, ?_, ?_, ?_⟩
    · simp only [memoSec, MOp.key, MOp.seq, Spec.MemoLru.step]
      rw [show Memo.subCall L (A (L.shard k)).sub max (A (L.shard k)).next k (f k) = _ from e1]
      simp only [MOp.key, h2', Res.ok_bind]
    · refine absL_upd h e2 ?_
      rw [e3, h.max]
      show Spec.Lru.insert _ _ (A (L.shard k)).sub.abs k (f k) = _
      rw [h2']
    · intro i
      simp only [MOp.seq, Spec.MemoLru.step, Spec.put]
      split
      · exact Memo.vals_insert hf (hv _) _ _
      · exact hv i
  | contains k =>
    dsimp only [MOp.key] at h1 h2
    have e1 := peek_sub hC h1 k
    have h2' : (A (L.shard k)).sub.abs = a.shards (L.shard k) := h2
    refine ⟨A (L.shard k), ?_, ?_, hv⟩
    · simp only [memoSec, MOp.key, MOp.seq, Spec.MemoLru.step]
      rw [show ((A (L.shard k)).sub.peek L k) = _ from e1]
      simp only [MOp.key, h2', Res.ok_bind]
    · dsimp only [MOp.key]; rw [upd_self]; exact h

/-- Calls with a mutex that makes writers exclusive. -/
theorem call_good (hC : CfgOk L.C) {mtx : Mtx} {max : Nat} {Q : COp κ ν → Prop}
    (hm : mtx ≠ .shared ∨ ∀ k, ¬ Q (.get k)) (o : { o // Q o }) {c : Code (Cell κ ν) (Resp ν)} (hc : CRuns L mtx max o.1 c) :
    Good (AbsL L max) (semL L) o 1 c := by
  obtain ⟨b, ⟨d1, d2, d3⟩, rfl⟩ := hc
  refine ⟨_, _, _, b, _, rfl, d1, ?_, fun A a hA => ?_⟩
  · intro h
    apply d2
    obtain ⟨o, ho⟩ := o
    cases o with
    | insert k v => cases h
    | «exists» k => rfl
    | get k =>
      rcases hm with hm | hm
      · simp only [COp.mode, if_neg hm] at h; cases h
      · exact absurd ho (hm k)
  · obtain ⟨c', e1, e2⟩ := callSec_abs hC hA o.1
    exact ⟨c', _, d3 _ _ e1, .inl ⟨_, _, rfl, rfl, e2⟩⟩

theorem memo_good (hC : CfgOk L.C) {f : κ → ν} (hf : ∀ k l, L.eqv k l = true → f k = f l) {mtx : Mtx} {max : Nat} (o : MOp κ)
    {c : Code (Cell κ ν) (Spec.MemoLru.Resp ν)} (hc : MRuns L mtx max f o c) :
    Good (fun A a => AbsL L max A a ∧ ∀ i, Memo.Vals f (a.shards i)) (semM L f) o 1 c := by
  obtain ⟨b, ⟨d1, d2, d3⟩, rfl⟩ := hc
  refine ⟨_, _, _, b, _, rfl, d1, ?_, fun A a hA => ?_⟩
  · intro h
    apply d2
    cases o with
    | call k => cases h
    | contains k => rfl
  · obtain ⟨c', e1, e2, e3⟩ := memoSec_abs hC hf hA.1 hA.2 o
    exact ⟨c', _, d3 _ _ e1, .inl ⟨_, _, rfl, rfl, e2, e3⟩⟩

theorem absL_cells {c : Cache κ ν} {a : Spec.Lru.Cache κ ν} {next : Nat} (h : CacheSim L c a next) : AbsL L c.max (cells c next) a := by
  refine ⟨fun i hi => ?_, h.max⟩
  obtain ⟨s, h1, h2, h3⟩ := h.get hi
  unfold cells
  rw [h1]
  exact ⟨h2, h3⟩

theorem le_sum : ∀ {l : List Nat} {x : Nat}, x ∈ l → x ≤ l.sum
  | a :: l, x, h => by
    rw [List.sum_cons]
    rcases List.mem_cons.1 h with rfl | h
    · omega
    · have := le_sum h; omega

theorem ofCells_csim {max : Nat} {A : Nat → Cell κ ν} {a : Spec.Lru.Cache κ ν} (h : AbsL L max A a) :
    ∃ m, ∀ next, m ≤ next → CacheSim L (ofCells L max A) a next := by
  refine ⟨((List.range (2 ^ L.N)).map fun i => (A i).next).sum, fun next hn => ⟨by simp [ofCells], ?_, h.max⟩⟩
  intro i s hs
  unfold ofCells at hs
  dsimp only at hs
  rw [List.getElem?_map, Option.map_eq_some_iff] at hs
  obtain ⟨j, h1, rfl⟩ := hs
  rw [List.getElem?_eq_some_iff] at h1
  obtain ⟨h1, h2⟩ := h1
  rw [List.getElem_range] at h2
  subst h2
  rw [List.length_range] at h1
  obtain ⟨h3, h4⟩ := h.sub i h1
  refine ⟨h3.mono (Nat.le_trans ?_ hn), h4⟩
  exact le_sum (List.mem_map.2 ⟨i, List.mem_range.2 h1, rfl⟩)

/-- A legal sequence of calls is a sequential history of the reference cache. -/
theorem legal_run {Q : COp κ ν → Prop} {a a' : Spec.Lru.Cache κ ν} {l : List ({ o // Q o } × Resp ν)} (h : Legal (semL L) a l a') :
    a.run L.eqv L.shard (2 ^ L.N) (l.map fun x => x.1.1.seq) = (a', l.map Prod.snd) := by
  induction h with
  | nil => rfl
  | cons h0 _ ih =>
    unfold semL at h0
    simp only [List.map_cons, Spec.Lru.Cache.run]
    rw [← h0]
    dsimp only
    rw [ih]

theorem legal_mrun {f : κ → ν} {a a' : Spec.Lru.Cache κ ν} {l : List (MOp κ × Spec.MemoLru.Resp ν)} (h : Legal (semM L f) a l a') :
    Spec.MemoLru.run L.eqv L.shard (2 ^ L.N) f a (l.map fun x => x.1.seq) = (a', l.map Prod.snd) := by
  induction h with
  | nil => rfl
  | cons h0 _ ih =>
    unfold semM at h0
    simp only [List.map_cons, Spec.MemoLru.run]
    rw [← h0]
    dsimp only
    rw [ih]

theorem run_append' {eqv : κ → κ → Bool} {shard : κ → Nat} {S : Nat} (c : Spec.Lru.Cache κ ν) (h h' : List (Spec.Lru.Op κ ν)) :
    c.run eqv shard S (h ++ h') =
      (((c.run eqv shard S h).1.run eqv shard S h').1, (c.run eqv shard S h).2 ++ ((c.run eqv shard S h).1.run eqv shard S h').2) := by
  induction h generalizing c with
  | nil => rfl
  | cons o h ih => simp only [List.cons_append, Spec.Lru.Cache.run, ih]

theorem mrun_append' {eqv : κ → κ → Bool} {shard : κ → Nat} {S : Nat} {f : κ → ν} (c : Spec.Lru.Cache κ ν)
    (h h' : List (Spec.MemoLru.Op κ)) :
    Spec.MemoLru.run eqv shard S f c (h ++ h') =
      ((Spec.MemoLru.run eqv shard S f (Spec.MemoLru.run eqv shard S f c h).1 h').1,
       (Spec.MemoLru.run eqv shard S f c h).2 ++ (Spec.MemoLru.run eqv shard S f (Spec.MemoLru.run eqv shard S f c h).1 h').2) := by
  induction h generalizing c with
  | nil => rfl
  | cons o h ih => simp only [List.cons_append, Spec.MemoLru.run, ih]

/-! ## The concrete code -/

theorem unlink_link (it : Nat) (c : Cell κ ν) {l : List (Node κ ν)} (h : splice c.sub.lst it = .ok l) :
    ∃ c' n, unlink it c = .ok (c', n) ∧ link n c' = .ok ({ c with sub := { c.sub with lst := l } }, ()) := by
  unfold splice at h
  unfold unlink link
  cases hf : c.sub.lst.find? (fun n => n.1 == it) with
  | none => rw [hf] at h; cases h
  | some n =>
    rw [hf] at h
    simp only [Res.ok.injEq] at h
    subst h
    exact ⟨_, n, rfl, rfl⟩

theorem getSteps_solo (i : Nat) (k : κ) (max : Nat) {c : Cell κ ν} {r} (h : callSec L max (.get k) c = .ok r) :
    (getSteps L i k).solo c = .ok r := by
  unfold callSec Sub.get Sub.ifContains at h
  unfold getSteps
  apply look_solo
  simp only [Res.bind_eq_ok] at h
  obtain ⟨⟨s, o⟩, ⟨r1, h1, h2⟩, h3⟩ := h
  rw [h1, Res.ok_bind]
  cases r1 with
  | none =>
    simp only [Res.ok.injEq, Prod.mk.injEq] at h2
    obtain ⟨rfl, rfl⟩ := h2
    exact h3
  | some off =>
    simp only [Res.bind_eq_ok] at h2 ⊢
    obtain ⟨e, h4, ⟨l, v⟩, ⟨e', h5, l', h6, h7⟩, h8⟩ := h2
    simp only [Res.ok.injEq, Prod.mk.injEq] at h7 h8
    obtain ⟨rfl, rfl⟩ := h7
    obtain ⟨rfl, rfl⟩ := h8
    obtain ⟨c', n, u1, u2⟩ := unlink_link _ _ h6
    apply look_solo
    rw [h4, Res.ok_bind]
    apply look_solo
    rw [h5, Res.ok_bind]
    apply prim_solo
    rw [u1, Res.ok_bind]
    apply prim_solo
    rw [u2, Res.ok_bind]
    exact h3

theorem getSteps_body (i : Nat) (k : κ) : (getSteps (ν := ν) L i k).Body i := by
  unfold getSteps
  refine look_body fun r => ?_
  cases r with
  | none => trivial
  | some off => exact look_body fun e => look_body fun v => prim_body fun n => prim_body fun _ => trivial

/-- `exists` leaves the submap as it is. -/
theorem exists_same {k : κ} {s s' : Sub κ ν} {b : Bool} (h : s.exists L k = .ok (s', b)) : s' = s := by
  unfold Sub.exists Sub.ifContains at h
  simp only [Res.bind_eq_ok] at h
  obtain ⟨⟨s1, o⟩, ⟨r, h1, h2⟩, h3⟩ := h
  simp only [Res.ok.injEq, Prod.mk.injEq] at h3
  obtain ⟨rfl, rfl⟩ := h3
  cases r with
  | none =>
    simp only [Res.ok.injEq, Prod.mk.injEq] at h2
    exact h2.1.symm
  | some off =>
    simp only [Res.bind_eq_ok] at h2
    obtain ⟨e, h4, ⟨l, v⟩, h5, h6⟩ := h2
    simp only [Res.ok.injEq, Prod.mk.injEq] at h5 h6
    obtain ⟨rfl, -⟩ := h5
    exact h6.1.symm

theorem peek_same {k : κ} {s s' : Sub κ ν} {b : Option ν} (h : s.peek L k = .ok (s', b)) : s' = s := by
  unfold Sub.peek Sub.ifContains at h
  simp only [Res.bind_eq_ok] at h
  obtain ⟨r, h1, h2⟩ := h
  cases r with
  | none =>
    simp only [Res.ok.injEq, Prod.mk.injEq] at h2
    exact h2.1.symm
  | some off =>
    simp only [Res.bind_eq_ok] at h2
    obtain ⟨e, h4, ⟨l, v⟩, ⟨e', h5, h7⟩, h6⟩ := h2
    simp only [Res.ok.injEq, Prod.mk.injEq] at h7 h6
    obtain ⟨rfl, rfl⟩ := h7
    exact h6.1.symm

theorem callSteps_runs (L : LCfg κ) (mtx : Mtx) (max : Nat) (o : COp κ ν) : CRuns L mtx max o (callSteps L mtx max o) := by
  cases o with
  | insert k v =>
    refine ⟨prim (L.shard k) (callSec L max (.insert k v)) .ret,
      ⟨prim_body fun _ => trivial, fun h => (by cases h), fun s r h => prim_solo ?_⟩, rfl⟩
    rw [h]; rfl
  | get k => exact ⟨_, ⟨getSteps_body _ _, fun h => (by cases h), fun s r h => getSteps_solo _ _ max h⟩, rfl⟩
  | «exists» k =>
    refine ⟨look (L.shard k) (fun c => do let (_, b) ← c.sub.exists L k; .ok b) fun b => .ret (.bool b),
      ⟨look_body fun _ => trivial, fun _ => look_ro fun _ => trivial, fun s r h => look_solo ?_⟩, rfl⟩
    unfold callSec at h
    simp only [Res.bind_eq_ok] at h ⊢
    obtain ⟨⟨s', b⟩, h1, h2⟩ := h
    refine ⟨b, ⟨(s', b), h1, rfl⟩, ?_⟩
    have := exists_same h1
    subst this
    exact h2

theorem memoSteps_runs (L : LCfg κ) (mtx : Mtx) (max : Nat) (f : κ → ν) (o : MOp κ) : MRuns L mtx max f o (memoSteps L mtx max f o) := by
  cases o with
  | call k =>
    refine ⟨prim (L.shard k) (memoSec L max f (.call k)) .ret,
      ⟨prim_body fun _ => trivial, fun h => (by cases h), fun s r h => prim_solo ?_⟩, rfl⟩
    rw [h]; rfl
  | contains k =>
    refine ⟨look (L.shard k) (fun c => do let (_, o) ← c.sub.peek L k; .ok o) fun o => .ret (.opt o),
      ⟨look_body fun _ => trivial, fun _ => look_ro fun _ => trivial, fun s r h => look_solo ?_⟩, rfl⟩
    unfold memoSec at h
    simp only [Res.bind_eq_ok] at h ⊢
    obtain ⟨⟨s', b⟩, h1, h2⟩ := h
    refine ⟨b, ⟨(s', b), h1, rfl⟩, ?_⟩
    have := peek_same h1
    subst this
    exact h2

end Gtl.Lru
