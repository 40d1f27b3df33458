import Verif.Memo.ThrowSim
import Verif.Memo.NonRec
import Verif.Memo.LruThrowSim
import Verif.Props.Memo
import Verif.Props.HashThrow
/-!
# Property theorem C82: memoized functions that throw

The specifications are `Verif.Spec.MemoThrow` and `Verif.Spec.MemoLruThrow`.
-/

namespace Gtl.Props.MemoThrow

open Gtl.Swiss Gtl.Parallel Gtl.Memo
open Gtl.Spec.Memo (Prog TOp TResp Value eval doneSince)
open Gtl.Props.Hash (Contract)
open Gtl.Props.Memo (exM exM_contract fib fib_respects)

variable {κ ν : Type}

/-! ## Recursive functions, or no mutex -/

section
variable {M : MCfg κ} {body : κ → Prog κ ν}

/-- Make the calls `ops` on a newly memoized function; `n` bounds the depth of the recursion. The answers, each with the
arguments at which the function was run to its end during the call. -/
def historyT (M : MCfg κ) (body : κ → Prog κ ν) (n : Nat) (ops : List (TOp κ)) : Res (List (TResp ν × List κ)) := do
  let (_, rs) ← runT M body n (PTbl.empty M.P) ops
  .ok rs

/-- The answer `r` to `op`, if the function has been run to its end at the arguments `D` since the last `clear`: a call returns
the value of the function, or throws if the function throws and has not been run at this argument; it runs the function only if
it has not been; `contains` finds the values of `D`; `size` is their number. -/
def Answers (M : MCfg κ) (body : κ → Prog κ ν) (D : List κ) (op : TOp κ) (r : TResp ν × List κ) : Prop :=
  match op with
  | .call k fail => (r.1 = .threw ∧ fail ≠ none ∧ ¬ ∃ k' ∈ D, M.eqv k' k = true) ∨
      ∃ v, r.1 = .val v ∧ Value body k v ∧ ((∃ k' ∈ D, M.eqv k' k = true) → r.2 = []) ∧
        (∃ k' ∈ D ++ r.2, M.eqv k' k = true)
  | .contains k => ((¬ ∃ k' ∈ D, M.eqv k' k = true) ∧ r = (.opt none, [])) ∨
      (∃ k' ∈ D, M.eqv k' k = true) ∧ ∃ v, r = (.opt (some v), []) ∧ Value body k v
  | .size => r = (.nat D.length, [])
  | _ => r = (.unit, [])

theorem answers_of_right {D : List κ} {op : TOp κ} {r : TResp ν × List κ} (h : RightT M body D op r) : Answers M body D op r := by
  cases op with
  | call k fail =>
    obtain ⟨h1, h2⟩ := h
    have hD : (∃ k' ∈ D, M.eqv k' k = true) ↔ D.any (fun k' => M.eqv k' k) = true := by rw [List.any_eq_true]
    rcases h1 with ⟨h1, h3⟩ | ⟨v, h1, h3, h4⟩
    · exact .inl ⟨h1, h3, fun hh => (h2 (hD.1 hh)).2 h1⟩
    · exact .inr ⟨v, h1, h3, fun hh => (h2 (hD.1 hh)).1, List.any_eq_true.1 h4⟩
  | contains k =>
    obtain ⟨h1, o, h2, h3, h4⟩ := h
    have hD : (∃ k' ∈ D, M.eqv k' k = true) ↔ D.any (fun k' => M.eqv k' k) = true := by rw [List.any_eq_true]
    cases o with
    | none =>
      refine .inl ⟨fun hh => ?_, Prod.ext h2 h1⟩
      rw [hD.1 hh] at h3; cases h3
    | some v => exact .inr ⟨hD.2 h3.symm, v, Prod.ext h2 h1, h4 v rfl⟩
  | clear => exact h
  | reserve n => exact h
  | size => exact h

/-- C82, first part. A function that is recursive or memoized without a mutex may throw at any point of any call. Every call of
every history returns the value of the function or throws; it throws only if the function did. Nothing that was computed is
lost, in the calls that threw neither: the arguments at which the body came to its end are answered from then on without running
anything, they are the ones `contains` finds and `size` counts, and no two of them are equal. `hang` stands for a recursion that
needs more than depth `n`. -/
theorem C82_recursive (h : Contract (M.P (ν := ν)).C) (hb : Respects M.eqv body) (n : Nat) (ops : List (TOp κ)) :
    historyT M body n ops = .hang ∨ ∃ rs, historyT M body n ops = .ok rs ∧ rs.length = ops.length ∧
      (∀ (i : Nat) op r, ops[i]? = some op → rs[i]? = some r →
        Answers M body (doneSince ((ops.take i).zip (rs.take i))) op r) ∧
      (doneSince (ops.zip rs)).Pairwise (fun a b => M.eqv a b = false) := by
  unfold historyT
  rcases runT_inv h.cfgOk hb n ops _ _ (inv_empty h.cfgOk) with ⟨e, -⟩ | ⟨p, rs, e, h1, h2⟩
  · rw [e]; exact .inl rfl
  · rw [e]
    refine .inr ⟨rs, rfl, h2.length, fun i op r ho hr => ?_, ?_⟩
    · have := h2.get i op r ho hr
      rw [afterAllT_eq] at this
      exact answers_of_right this
    · have := h1.apart h.cfgOk
      rw [afterAllT_eq] at this
      exact this

/-- If the function comes to an end at the arguments of the calls when it does not throw, every history comes to an end. -/
theorem C82_recursive_ends (h : Contract (M.P (ν := ν)).C) (hb : Respects M.eqv body) (ops : List (TOp κ))
    (ht : ∀ k fail, TOp.call k fail ∈ ops → ∃ v, Value body k v) :
    ∃ n rs, ∀ m, n ≤ m → historyT M body m ops = .ok rs := by
  obtain ⟨d, hd⟩ : ∃ d, ∀ k j, TOp.call k j ∈ ops → eval body d k ≠ none := by
    clear h
    induction ops with
    | nil => exact ⟨0, fun k j hk => by cases hk⟩
    | cons op ops ih =>
      obtain ⟨d, hd⟩ := ih (fun k j hk => ht k j (List.mem_cons_of_mem _ hk))
      by_cases hop : ∃ k j, op = .call k j
      · obtain ⟨k, j, rfl⟩ := hop
        obtain ⟨v, m, hm⟩ := ht k j List.mem_cons_self
        refine ⟨max d m, fun k' j' hk' => ?_⟩
        rcases List.mem_cons.1 hk' with hk' | hk'
        · injection hk' with hk' _
          subst hk'
          rw [eval_mono (Nat.le_max_right d m) hm]; simp
        · cases he : eval body d k' with
          | none => exact absurd he (hd k' j' hk')
          | some w => rw [eval_mono (Nat.le_max_left d m) he]; simp
      · refine ⟨d, fun k j hk => ?_⟩
        rcases List.mem_cons.1 hk with hk | hk
        · exact absurd ⟨k, j, hk.symm⟩ hop
        · exact hd k j hk
  have hok : ∃ p rs, runT M body d (PTbl.empty M.P) ops = .ok (p, rs) := by
    rcases runT_inv h.cfgOk hb d ops _ _ (inv_empty h.cfgOk) with ⟨e, k, j, hk, p, D, hi, hh⟩ | ⟨p, rs, e, -, -⟩
    · exact absurd hh (callT_ends h.cfgOk hb d d (Nat.le_refl _) p D j k hi (hd k j hk))
    · exact ⟨p, rs, e⟩
  obtain ⟨p, rs, e⟩ := hok
  refine ⟨d, rs, fun m hm => ?_⟩
  unfold historyT
  rw [runT_mono hm _ _ _ e]; rfl

end

/-- Fibonacci numbers; an exception after eight steps, then after no step, then none. -/
def fibOpsT : List (TOp Nat) :=
  [.call 6 (some 8), .size, .contains 101, .contains 4, .call 1 (some 0), .call 6 (some 0), .call 6 none, .call 106 (some 0), .size,
   .clear, .call 3 (some 100), .size]

/-- The first call throws after it has found fib(1) and fib(0), which are kept. -/
theorem fibOpsT_run : historyT (exM groupPortable .null) fib 10 fibOpsT =
    .ok [(.threw, [1, 0]), (.nat 2, []), (.opt (some 1), []), (.opt none, []), (.val 1, []), (.threw, []),
      (.val 8, [2, 3, 4, 5, 6]), (.val 8, []), (.nat 7, []), (.unit, []), (.val 2, [1, 0, 2, 3]), (.nat 4, [])] := by
  decide +kernel

example : (∀ k fail, TOp.call k fail ∈ fibOpsT → ∃ v, Value fib k v) ∧ Respects (exM groupPortable .null).eqv fib ∧
    Contract ((exM groupPortable .null).P (ν := Nat)).C := by
  refine ⟨?_, fib_respects _ _, exM_contract (.inr (.inr rfl)) _⟩
  intro k fail hk
  simp [fibOpsT] at hk
  rcases hk with ⟨rfl, _⟩ | ⟨rfl, _⟩ | ⟨rfl, _⟩ | ⟨rfl, _⟩ | ⟨rfl, _⟩ | ⟨rfl, _⟩
  · exact ⟨8, 10, by decide +kernel⟩
  · exact ⟨1, 10, by decide +kernel⟩
  · exact ⟨8, 10, by decide +kernel⟩
  · exact ⟨8, 10, by decide +kernel⟩
  · exact ⟨8, 10, by decide +kernel⟩
  · exact ⟨2, 10, by decide +kernel⟩

/-! ## Functions that are not recursive, with a mutex -/

section
variable {M : MCfg κ} {f : κ → ν}

/-- Make the calls `ops` on a newly memoized function. -/
def historyN (M : MCfg κ) (f : κ → ν) (ops : List (TOp κ)) : Res (List (TResp ν)) := do
  let (_, rs) ← runN M f (PTbl.empty M.P) ops
  .ok rs

/-- C82, second part. A function memoized with a mutex, not recursive: however often it throws, every call of every history
answers as if the calls that threw had not been made, but for `size()`, which is too large by the number of exceptions since the
last `clear()`. Missing: `size()` (`C82_size_refuted`). -/
theorem C82_mutex_partial (h : Contract (M.P (ν := ν)).C) (hf : ∀ k l, M.eqv k l = true → f k = f l) (ops : List (TOp κ)) :
    historyN M f ops = .ok (Spec.Memo.nrun M.eqv f [] 0 ops) := by
  obtain ⟨p, e⟩ := runN_sim h.cfgOk hf ops _ [] 0 (NSim.empty h.cfgOk.group)
  unfold historyN
  rw [e]; rfl

end

/-- 30 exceptions, then a value: it is kept, and the memoized function says it keeps 31. -/
def sizeOps : List (TOp Nat) := List.replicate 30 (.call 5 (some 0)) ++ [.call 5 none, .call 105 (some 0), .contains 5, .size]

theorem C82_size_refuted : historyN (exM groupPortable .excl) (fun k => k % 100 + 7) sizeOps =
    .ok (List.replicate 30 .threw ++ [.val 12, .val 12, .opt (some 12), .nat 31]) := by decide +kernel

example : Contract ((exM groupPortable .excl).P (ν := Nat)).C ∧
    ∀ k l, (exM groupPortable .excl).eqv k l = true → (fun k => k % 100 + 7) k = (fun k => k % 100 + 7) l := by
  refine ⟨exM_contract (.inr (.inr rfl)) _, ?_⟩
  intro k l h
  simp only [exM, Hash.exEqv, beq_iff_eq] at h
  show k % 100 + 7 = l % 100 + 7
  rw [h]

/-! ## A size limit -/

section
open Gtl.Lru

variable {L : LCfg κ} {f : κ → ν}

/-- Make the calls `ops` on a newly memoized function with size limit `n`. -/
def lruHistoryT (L : LCfg κ) (f : κ → ν) (n : Nat) (ops : List (Spec.MemoLru.TOp κ)) : Res (List (Spec.MemoLru.TResp ν)) := do
  let c ← Cache.new L n
  let (_, rs) ← lruRunT L f c 0 ops
  .ok rs

/-- C82, third part, where it holds. A function memoized with a size limit that throws at most seven times: every call of every
history answers as if the calls that threw had not been made, but for `size()`, which is too large by the number of exceptions.
Missing: more exceptions (`C82_hang_refuted`), and `size()`. -/
theorem C82_lru_partial (h : Contract L.C) (hf : ∀ k l, L.eqv k l = true → f k = f l) (n : Nat)
    (ops : List (Spec.MemoLru.TOp κ)) (hfew : ops.countP Spec.MemoLru.TOp.Throws ≤ 7) :
    lruHistoryT L f n ops = .ok (Spec.MemoLru.trun L.eqv L.shard (2 ^ L.N) f (Spec.Lru.Cache.new n) 0 ops) := by
  obtain ⟨c, h1, h2⟩ := new_csim (ν := ν) h.cfgOk n
  obtain ⟨c', h3⟩ := lruRunT_sim h.cfgOk hf ops c _ 0 0 0 (CacheP.of_sim h2) (fun i e he => by cases he) (by omega)
  unfold lruHistoryT
  rw [h1]
  simp only [Res.ok_bind]
  rw [h3]
  rfl

end

open Gtl.Lru

/-- Arguments with the hash 129 k, one shard. -/
def badL (G : Group) : LCfg Nat where
  hash k := k * 129
  eqv a b := a == b
  N := 0
  G := G
  scale n := n * 11 / 10

theorem badL_contract {G : Group} (hG : G = groupSse2 true ∨ G = groupSse2 false ∨ G = groupPortable) :
    Contract (badL G).C where
  refl k := by simp [badL, LCfg.C]
  symm k l h := by simp only [badL, LCfg.C, beq_iff_eq] at *; exact h.symm
  trans k l m h1 h2 := by simp only [badL, LCfg.C, beq_iff_eq] at *; omega
  hash_congr k l h := by simp only [badL, LCfg.C, beq_iff_eq] at *; rw [h]
  group := hG

/-- The function is called at 0, ..., 24; it throws 40 times at 2, whose value has been dropped; it is called at 25, ..., 71. -/
def badLOps : List (Spec.MemoLru.TOp Nat) :=
  (List.range 25).map (fun i => .call (.call i)) ++ List.replicate 40 (.throwing 2) ++
  (List.range 47).map (fun i => .call (.call (25 + i)))

/-- The end of the history: values kept, `size()`, slots; whether the search for 72 is stuck. -/
def badLEnd (G : Group) : Res (List Nat × Bool) := do
  let c ← Cache.new (ν := Nat) (badL G) 20
  let (c, _) ← lruRunT (badL G) (fun k => k) c 0 badLOps
  match c.subs with
  | [s] => .ok ([s.lst.length, c.size, s.tbl.capacity], HashThrow.stuck (badL G).C s.tbl 72)
  | _ => .ub

set_option maxRecDepth 20000 in
theorem badLEnd_eq : (badLEnd (groupSse2 true) = .ok ([19, 59, 63], true) ∧ badLEnd (groupSse2 false) = .ok ([19, 59, 63], true)) ∧
    badLEnd groupPortable = .ok ([19, 59, 63], true) := by decide +kernel

/-- The third part is false for the library: a function memoized with a size limit of 20 is called at 72 arguments in turn and
throws 40 times; then the call at one more argument never ends. -/
theorem C82_hang_refuted (G : Group) (hG : G = groupSse2 true ∨ G = groupSse2 false ∨ G = groupPortable) :
    ∃ c rs s, Cache.new (ν := Nat) (badL G) 20 >>= (fun c => lruRunT (badL G) (fun k => k) c 0 badLOps) = .ok (c, rs) ∧
      c.subs = [s] ∧ (∀ id, lruStep (badL G) (fun k => k) c id (.call 72) = .hang) ∧
      ∀ fuel, s.tbl.probeFind (badL G).C (fun a => (badL G).eqv a.1 72) (H2 ((badL G).hash 72)) fuel
        (Probe.start ((badL G).hash 72) s.tbl.capacity) = .hang := by
  have key : badLEnd G = .ok ([19, 59, 63], true) := by
    obtain ⟨⟨h1, h2⟩, h3⟩ := badLEnd_eq
    rcases hG with rfl | rfl | rfl
    · exact h1
    · exact h2
    · exact h3
  unfold badLEnd at key
  generalize hops : badLOps = ops at key ⊢
  rw [Res.bind_eq_ok] at key
  obtain ⟨c0, h0, key⟩ := key
  rw [Res.bind_eq_ok] at key
  obtain ⟨⟨c, rs⟩, h1, key⟩ := key
  dsimp only at key
  split at key
  · rename_i s hs
    have hst : HashThrow.stuck (badL G).C s.tbl 72 = true := by
      injection key with key
      exact (Prod.mk.inj key).2
    have hh := HashThrow.stuck_hang hst
    refine ⟨c, rs, s, by rw [h0]; exact h1, hs, fun id => ?_, hh⟩
    have hf : s.tbl.findHash (badL G).C 72 ((badL G).hash 72) = .hang := hh s.tbl.fuel
    have h0 : (badL G).shard 72 = 0 := by
      have := shard_lt (badL G) 72
      exact Nat.lt_one_iff.1 this
    simp only [lruStep, Cache.withSub, h0, hs]
    simp only [List.getElem?_cons_zero, Res.ofOption_some, Res.ok_bind, subCall, hf]
    rfl
  · cases key

/-- Six exceptions in two shards of two: the hypotheses, and answers. -/
def lruOpsT : List (Spec.MemoLru.TOp Nat) :=
  [.call (.call 1), .throwing 2, .throwing 102, .call (.call 2), .throwing 2, .throwing 3, .call (.call 4), .throwing 1,
   .call (.contains 1), .call .size, .throwing 7, .throwing 8, .call (.reserve 30), .call (.call 8), .call .size]

theorem lruOpsT_run : lruHistoryT (Lru.exL groupPortable) (fun k => k % 100 + 7) 6 lruOpsT =
    .ok [.got (.val 8 true), .threw, .threw, .got (.val 9 true), .got (.val 9 false), .threw, .got (.val 11 true),
      .got (.val 8 false), .got (.opt (some 8)), .got (.nat 6), .threw, .threw, .got .unit, .got (.val 15 true),
      .got (.nat 8)] := by decide +kernel

example : lruOpsT.countP Spec.MemoLru.TOp.Throws ≤ 7 := by decide

end Gtl.Props.MemoThrow
