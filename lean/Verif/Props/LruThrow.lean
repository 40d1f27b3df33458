import Verif.Props.Lru
import Verif.Lru.ThrowSim
import Verif.Lru.ThrowRef
/-!
# Properties of the LRU cache when insertions throw (C103)

The property: if an insertion throws, the cache can be used on as if it had not been made. The library keeps it only in part.
-/

namespace Gtl.Props.Lru

open Gtl.Swiss Gtl.Lru
open Gtl.Spec.LruThrow (TOp TResp Fault)
open Gtl.Props.Hash (Contract exEqv)

variable {κ ν : Type} {L : LCfg κ}

/-- Construct a cache of size `n` and make the calls `ops`, some of which may throw: the answers. -/
def historyT (L : LCfg κ) (n : Nat) (ops : List (TOp κ ν)) : Res (List (TResp ν)) := do
  let c ← Cache.new L n
  let (_, rs) ← c.runT L 0 ops
  .ok rs

/-! ## Concrete instances -/

/-- Keys are numbers, one shard. -/
def oneL (G : Group) : LCfg Nat where
  hash k := k * 256
  eqv a b := a == b
  N := 0
  G := G
  scale n := n * 11 / 10

theorem oneL_contract {G : Group} (hG : G = groupSse2 true ∨ G = groupSse2 false ∨ G = groupPortable) :
    Contract (oneL G).C where
  refl k := by simp [oneL, LCfg.C]
  symm k l h := by simp only [oneL, LCfg.C, beq_iff_eq] at *; exact h.symm
  trans k l m h1 h2 := by simp only [oneL, LCfg.C, beq_iff_eq] at *; omega
  hash_congr k l h := by simp only [oneL, LCfg.C, beq_iff_eq] at *; rw [h]
  group := hG

/-- Two shards of two entries; the second insertion for 1 and one for 3 throw, another for 3 throws late. -/
def exThrows : List (TOp Nat String) :=
  [.call (.insert 1 "a"), .throwing 101 "b" .value, .throwing 3 "c" .entry, .call (.get 3), .call (.insert 2 "d"),
   .throwing 3 "e" .victim, .call (.get 1), .throwing 201 "f" .entry]

/-- Only exceptions of kind `value`. -/
def exMild : List (TOp Nat String) :=
  [.call (.insert 1 "a"), .throwing 101 "b" .value, .call (.insert 3 "c"), .throwing 5 "d" .value, .call (.insert 2 "e"),
   .call (.get 1), .call (.insert 7 "f"), .call (.get 3)]

/-! ## The answers of every history -/

/-- As long as at most seven insertions throw, and none of them while it hands out the key of the entry it has just dropped,
the cache answers like the reference cache. In particular it never runs into undefined behaviour and every call ends.
Missing: histories with more throwing insertions (a search of the cache may then never end, as for C82), and those that throw late
(`C103_answer_refuted`). -/
theorem C103_history_partial (h : Contract L.C) (n : Nat) (ops : List (TOp κ ν)) (hlate : ∀ op ∈ ops, op.Late = false)
    (hfew : ops.countP TOp.Throws ≤ 7) :
    historyT L n ops = .ok ((Spec.LruThrow.Cache.new n).run L.eqv L.shard (2 ^ L.N) 0 ops) := by
  obtain ⟨c, h1, h2⟩ := new_cg (ν := ν) h.cfgOk n
  obtain ⟨c', e', r', h3, _⟩ := runT_sim h.cfgOk ops c _ 0 0 0 h2 hlate (by omega)
  unfold historyT
  rw [h1]
  show (do let (_, rs) ← c.runT L 0 ops; .ok rs) = _
  rw [h3]
  rfl

example : historyT (exL groupPortable) 5 (exThrows ++ [.call .size]) =
    .ok [.got .unit, .threw, .threw, .got (.val none), .got .unit, .threw, .got (.val (some "a")), .got .unit,
      .got (.nat 4)] := by
  rw [C103_history_partial (exL_contract (.inr (.inr rfl))) _ _ (by decide) (by decide)]
  decide +kernel

/-! ## Only the latest value -/

/-- Whatever throws, `get(k)` returns nothing or the value of the last insertion for `k` that did not throw. -/
theorem C103_latest_partial (h : Contract L.C) (n : Nat) (ops : List (TOp κ ν)) (hlate : ∀ op ∈ ops, op.Late = false)
    (hfew : ops.countP TOp.Throws ≤ 7) (k : κ) :
    ∃ rs o, historyT L n (ops ++ [.call (.get k)]) = .ok (rs ++ [.got (.val o)]) ∧ historyT L n ops = .ok rs ∧
      (o = none ∨ o = Spec.LruThrow.latest L.eqv (ops.zip rs) k) := by
  have h1 := C103_history_partial h n ops hlate hfew
  have h2 := C103_history_partial h n (ops ++ [.call (.get k)])
    (fun op ho => (List.mem_append.1 ho).elim (hlate op) (fun ho => by rw [List.mem_singleton.1 ho]; rfl))
    (by rw [List.countP_append]; simpa [TOp.Throws] using hfew)
  obtain ⟨e', h3⟩ := ThrowRef.run_append (eqv := L.eqv) (shard := L.shard) (S := 2 ^ L.N)
    (Spec.LruThrow.Cache.new n : Spec.LruThrow.Cache κ ν) ops (.call (.get k)) 0
  rw [h3] at h2
  refine ⟨_, _, h2, h1, ?_⟩
  have hi := ThrowRef.inv_run (S := 2 ^ L.N) (refOk h) n ops hlate
  unfold Spec.LruThrow.get
  cases hf : Spec.LruThrow.find L.eqv
    (((Spec.LruThrow.Cache.new n : Spec.LruThrow.Cache κ ν).after L.eqv L.shard (2 ^ L.N) ops).shards (L.shard k)) k with
  | none => exact .inl rfl
  | some e =>
    right
    have h4 := List.find?_some hf
    rw [Bool.and_eq_true] at h4
    rw [← ThrowRef.latest_congr (refOk h) _ h4.2]
    exact ((hi _ e (List.mem_of_find?_eq_some hf)).2 h4.1).symm

example : ∃ rs, historyT (exL groupPortable) 5 (exThrows ++ [.call (.get 301)]) = .ok (rs ++ [.got (.val (some "f"))]) ∧
    Spec.LruThrow.latest exEqv (exThrows.zip rs) 301 = some "f" := by
  refine ⟨[.got .unit, .threw, .threw, .got (.val none), .got .unit, .threw, .got (.val (some "a")), .got .unit], ?_, ?_⟩
  · rw [C103_history_partial (exL_contract (.inr (.inr rfl))) _ _ (by decide) (by decide)]
    decide +kernel
  · decide

/-! ## Copying the value, or getting memory, throws -/

/-- If what throws is the copying of the key or the value into the cache, or the allocation of the entry, then all answers
but that of `size()` are as if the insertions that threw had not been made. `size()` counts the keys that were not
inserted, too. -/
theorem C103_mild_partial (h : Contract L.C) (n : Nat) (ops : List (TOp κ ν)) (hmild : ∀ op ∈ ops, op.Mild = true)
    (hfew : ops.countP TOp.Throws ≤ 7) :
    historyT L n ops = .ok (Spec.LruThrow.calm L.eqv L.shard (2 ^ L.N) (Spec.Lru.Cache.new n) 0 ops) := by
  rw [C103_history_partial h n ops (fun op ho => ?_) hfew]
  · congr 1
    exact ThrowRef.run_calm (refOk h) ops _ _ 0 ⟨rfl, fun i => ⟨rfl, List.Pairwise.nil⟩⟩ hmild
  · have := hmild op ho
    cases op with
    | call op => rfl
    | throwing k v w =>
      have hw : w = .value := by simpa [TOp.Mild] using this
      subst hw
      rfl

example : historyT (exL groupPortable) 5 (exMild ++ [.call .size]) =
    .ok [.got .unit, .threw, .got .unit, .threw, .got .unit, .got (.val (some "a")), .got .unit, .got (.val none),
      .got (.nat 4)] := by
  rw [C103_mild_partial (exL_contract (.inr (.inr rfl))) _ _ (by decide) (by decide)]
  decide +kernel

/-! ## How many keys are found -/

/-- Every insertion that throws lets the cache exceed its size by at most one: keys that are found at the same time, none equal to
another, are at most as many as the size of the cache and the number of insertions that may have thrown. -/
theorem C103_bound_partial (h : Contract L.C) (n : Nat) (ops : List (TOp κ ν)) (hlate : ∀ op ∈ ops, op.Late = false)
    (hfew : ops.countP TOp.Throws ≤ 7) (hsize : ∀ m, TOp.call (.setSize m) ∉ ops) (ks : List κ)
    (hks : ks.Pairwise (fun a b => L.eqv a b = false))
    (hfound : ∀ k ∈ ks, ∃ rs, historyT L n (ops ++ [.call (.exists k)]) = .ok (rs ++ [.got (.bool true)])) :
    ks.length ≤ n + ops.countP TOp.Throws := by
  refine ThrowRef.bound_keys (S := 2 ^ L.N) (refOk h) (fun k => shard_lt L k) n ops hsize ks hks (fun k hk => ?_)
  obtain ⟨rs, h1⟩ := hfound k hk
  rw [C103_history_partial h n (ops ++ [.call (.exists k)])
    (fun op ho => (List.mem_append.1 ho).elim (hlate op) (fun ho => by rw [List.mem_singleton.1 ho]; rfl))
    (by rw [List.countP_append]; simpa [TOp.Throws] using hfew)] at h1
  obtain ⟨e', h3⟩ := ThrowRef.run_append (eqv := L.eqv) (shard := L.shard) (S := 2 ^ L.N)
    (Spec.LruThrow.Cache.new n : Spec.LruThrow.Cache κ ν) ops (.call (.exists k)) 0
  rw [h3] at h1
  injection h1 with h1
  have h4 := (List.append_inj' h1 rfl).2
  simp only [Spec.LruThrow.Cache.step, Spec.LruThrow.offBy, List.cons.injEq, TResp.got.injEq, Spec.Lru.Resp.bool.injEq,
    and_true] at h4
  exact h4

/-- One insertion throws, and the cache of size 3 holds four keys. -/
def exOver : List (TOp Nat String) :=
  [.call (.insert 1 "a"), .call (.insert 2 "b"), .call (.insert 3 "c"), .throwing 4 "d" .entry, .call (.insert 5 "e"),
   .call (.insert 6 "f"), .call (.insert 7 "g"), .call (.insert 8 "h")]

theorem exOver_found {G : Group} (hG : G = groupSse2 true ∨ G = groupSse2 false ∨ G = groupPortable) :
    ∀ k ∈ [5, 6, 7, 8], ∃ rs, historyT (oneL G) 3 (exOver ++ [.call (.exists k)]) = .ok (rs ++ [.got (.bool true)]) := by
  intro k hk
  refine ⟨[.got .unit, .got .unit, .got .unit, .threw, .got .unit, .got .unit, .got .unit, .got .unit], ?_⟩
  rw [C103_history_partial (oneL_contract hG) _ _ ?_ ?_]
  · rw [show (oneL G).eqv = (oneL groupPortable).eqv from rfl, show (oneL G).shard = (oneL groupPortable).shard from rfl,
      show (oneL G).N = 0 from rfl]
    simp only [List.mem_cons, List.not_mem_nil, or_false] at hk
    rcases hk with rfl | rfl | rfl | rfl <;> decide +kernel
  · intro op ho
    rcases List.mem_append.1 ho with ho | ho
    · exact (by decide : ∀ op ∈ exOver, op.Late = false) op ho
    · rw [List.mem_singleton.1 ho]; rfl
  · rw [List.countP_append]; exact Nat.le_of_lt (by decide : 1 < 7)

example : ([5, 6, 7, 8] : List Nat).length ≤ 3 + exOver.countP TOp.Throws :=
  C103_bound_partial (oneL_contract (.inr (.inr rfl))) 3 exOver (by decide) (by decide) (by intro m; simp [exOver]) [5, 6, 7, 8]
    (by decide) (exOver_found (.inr (.inr rfl)))

/-! ## What the library does not keep -/

/-- The cache exceeds its size for good: after one insertion has thrown, four keys are found in a cache of size 3. -/
theorem C103_bound_refuted {G : Group} (hG : G = groupSse2 true ∨ G = groupSse2 false ∨ G = groupPortable) :
    ¬ ∀ (n : Nat) (ops : List (TOp Nat String)) (ks : List Nat), (∀ op ∈ ops, op.Late = false) → ops.countP TOp.Throws ≤ 1 →
      (∀ m, TOp.call (.setSize m) ∉ ops) → ks.Nodup →
      (∀ k ∈ ks, ∃ rs, historyT (oneL G) n (ops ++ [.call (.exists k)]) = .ok (rs ++ [.got (.bool true)])) → ks.length ≤ n := by
  intro h
  have := h 3 exOver [5, 6, 7, 8] (by decide) (by decide) (by intro m; simp [exOver]) (by decide) (exOver_found hG)
  revert this
  decide

/-- A key may be lost: an insertion for 1 throws, then 1, 2 and 3 are inserted in a cache of size 3, and 1 is not found.
Without the first call it would be. -/
theorem C103_lost_refuted {G : Group} (hG : G = groupSse2 true ∨ G = groupSse2 false ∨ G = groupPortable) :
    historyT (oneL G) 3 [.throwing 1 "a" .entry, .call (.insert 1 "b"), .call (.insert 2 "c"), .call (.insert 3 "d"),
      .call (.get 1)] = .ok [.threw, .got .unit, .got .unit, .got .unit, .got (.val none)] ∧
    historyT (oneL G) 3 [.call (.insert 1 "b"), .call (.insert 2 "c"), .call (.insert 3 "d"), .call (.get 1)] =
      .ok [.got .unit, .got .unit, .got .unit, .got (.val (some "b"))] := by
  constructor
  · rw [C103_history_partial (oneL_contract hG) _ _ (by decide) (by decide)]
    rw [show (oneL G).eqv = (oneL groupPortable).eqv from rfl, show (oneL G).shard = (oneL groupPortable).shard from rfl,
      show (oneL G).N = 0 from rfl]
    decide +kernel
  · rw [C103_history_partial (oneL_contract hG) _ _ (by decide) (by decide)]
    rw [show (oneL G).eqv = (oneL groupPortable).eqv from rfl, show (oneL G).shard = (oneL groupPortable).shard from rfl,
      show (oneL G).N = 0 from rfl]
    decide +kernel

/-- If an insertion throws while it hands out the key of the entry it has dropped, the next call for this key uses an entry
that is gone: undefined behaviour. -/
theorem C103_answer_refuted {G : Group} (hG : G = groupSse2 true ∨ G = groupSse2 false ∨ G = groupPortable) :
    historyT (oneL G) 3 [.call (.insert 1 "a"), .call (.insert 2 "b"), .call (.insert 3 "c"), .throwing 4 "d" .answer,
      .call (.get 1)] = .ub := by
  have : (historyT (oneL (groupSse2 true)) 3 [.call (.insert 1 "a"), .call (.insert 2 "b"), .call (.insert 3 "c"),
      .throwing 4 "d" .answer, .call (.get 1)] = .ub ∧
    historyT (oneL (groupSse2 false)) 3 [.call (.insert 1 "a"), .call (.insert 2 "b"), .call (.insert 3 "c"),
      .throwing 4 "d" .answer, .call (.get 1)] = .ub) ∧
    historyT (oneL groupPortable) 3 [.call (.insert 1 "a"), .call (.insert 2 "b"), .call (.insert 3 "c"),
      .throwing 4 "d" .answer, .call (.get 1)] = .ub := by decide +kernel
  rcases hG with rfl | rfl | rfl
  · exact this.1.1
  · exact this.1.2
  · exact this.2

end Gtl.Props.Lru
