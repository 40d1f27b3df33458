import Verif.Props.LruDefs
import Verif.Props.HashTable
import Verif.Lru.Copy
import Verif.Lru.Ref
/-!
# Properties of the LRU cache (C26, C27, C28)
-/

namespace Gtl.Props.Lru

open Gtl.Swiss Gtl.Lru
open Gtl.Spec.Lru (Op Resp latest sizeAfter recency ofShard)
open Gtl.Props.Hash (Contract exEqv)

variable {κ ν : Type} {L : LCfg κ}

/-! ## Bridge -/

theorem refOk (h : Contract L.C) : Ref.Ok L.eqv L.shard where
  refl := h.refl
  symm := h.symm
  trans := h.trans
  shard k l e := by
    have : L.hash k = L.hash l := h.hash_congr k l e
    unfold LCfg.shard
    rw [this]

theorem history_sim (h : Contract L.C) (n : Nat) (ops : List (Op κ ν)) :
    ∃ c, history L n ops = .ok (c, ((Spec.Lru.Cache.new n).run L.eqv L.shard (2 ^ L.N) ops).2) ∧
      CacheSim L c ((Spec.Lru.Cache.new n).run L.eqv L.shard (2 ^ L.N) ops).1 ops.length := by
  obtain ⟨c, h1, h2⟩ := new_csim (ν := ν) h.cfgOk n
  obtain ⟨c', h3, h4⟩ := run_csim h.cfgOk ops c _ 0 h2
  rw [Nat.zero_add] at h4
  exact ⟨c', by unfold history; rw [h1]; exact h3, h4⟩

/-! ## A concrete instance for the examples -/

/-- Keys modulo 100, two shards. -/
def exL (G : Group) : LCfg Nat where
  hash k := (k % 100) * 256
  eqv := exEqv
  N := 1
  G := G
  scale n := n + n / 10

theorem exL_contract {G : Group} (hG : G = groupSse2 true ∨ G = groupSse2 false ∨ G = groupPortable) :
    Contract (exL G).C where
  refl k := by simp [exL, LCfg.C, exEqv]
  symm k l h := by simp only [exL, LCfg.C, exEqv, beq_iff_eq] at *; exact h.symm
  trans k l m h1 h2 := by simp only [exL, LCfg.C, exEqv, beq_iff_eq] at *; omega
  hash_congr k l h := by simp only [exL, LCfg.C, exEqv, beq_iff_eq] at *; omega
  group := hG

def exHist : List (Op Nat String) :=
  [.insert 1 "a", .insert 2 "b", .insert 3 "c", .insert 5 "d", .get 101, .insert 7 "e", .get 3, .insert 5 "f", .exists 1,
   .size]

/-! ## The cache is the reference cache -/

/-- For every history the cache answers like the reference cache (most recently used entry first, the last entry
dropped when a shard gets too long), without undefined behaviour. -/
theorem C26_reference (h : Contract L.C) (n : Nat) (ops : List (Op κ ν)) :
    answers L n ops = .ok ((Spec.Lru.Cache.new n).run L.eqv L.shard (2 ^ L.N) ops).2 := by
  obtain ⟨c, h1, _⟩ := history_sim h n ops
  unfold answers
  rw [h1]
  rfl

example : answers (exL groupPortable) 7 exHist =
    .ok [.unit, .unit, .unit, .unit, .val (some "a"), .unit, .val none, .unit, .bool true, .nat 4] := by
  rw [C26_reference (exL_contract (.inr (.inr rfl)))]
  decide +kernel

/-! ## C26: only the latest value -/

/-- After any history, `get(k)` returns nothing or the value most recently inserted for `k`. -/
theorem C26_get_latest (h : Contract L.C) (n : Nat) (ops : List (Op κ ν)) (k : κ) :
    ∃ rs o, answers L n (ops ++ [.get k]) = .ok (rs ++ [.val o]) ∧ answers L n ops = .ok rs ∧
      (o = none ∨ o = latest L.eqv ops k) := by
  refine ⟨_, ?_, ?_, C26_reference h n ops, ?_⟩
  · exact (Spec.Lru.get L.eqv (((Spec.Lru.Cache.new n).run L.eqv L.shard (2 ^ L.N) ops).1.shards (L.shard k)) k).2
  · rw [C26_reference h, Ref.run_append]; rfl
  · unfold Spec.Lru.get
    cases hl : Spec.lookup Prod.fst L.eqv
      (((Spec.Lru.Cache.new n).run L.eqv L.shard (2 ^ L.N) ops).1.shards (L.shard k)) k with
    | none => exact .inl rfl
    | some e => exact .inr (Ref.latest_run (refOk h) n ops k e hl).symm

/-- Directly after `insert(k, v)` it returns `v`, if the configured size gives each shard room for one entry. -/
theorem C26_get_inserted (h : Contract L.C) (n : Nat) (ops : List (Op κ ν)) (k : κ) (v : ν)
    (hroom : 1 ≤ perShard L (sizeAfter n ops)) :
    ∃ rs, answers L n (ops ++ [.insert k v] ++ [.get k]) = .ok (rs ++ [.val (some v)]) := by
  refine ⟨?_, ?_⟩
  · exact ((Spec.Lru.Cache.new n).run L.eqv L.shard (2 ^ L.N) (ops ++ [.insert k v])).2
  · rw [C26_reference h, Ref.run_append]
    have hm := Ref.max_run (κ := κ) (ν := ν) (eqv := L.eqv) (shard := L.shard) (S := 2 ^ L.N) n ops
    have hl : ((Spec.Lru.Cache.new n).run L.eqv L.shard (2 ^ L.N) (ops ++ [.insert k v])).1.shards (L.shard k) =
        Spec.Lru.insert L.eqv (perShard L (sizeAfter n ops))
          (((Spec.Lru.Cache.new n).run L.eqv L.shard (2 ^ L.N) ops).1.shards (L.shard k)) k v := by
      rw [Ref.run_append]
      simp only [Spec.Lru.Cache.step, Spec.put, if_true, hm]
      rfl
    simp only [Spec.Lru.Cache.step]
    rw [hl]
    unfold Spec.Lru.get
    obtain ⟨e, h1, h2⟩ := Ref.lookup_insert (refOk h) hroom
      (((Spec.Lru.Cache.new n).run L.eqv L.shard (2 ^ L.N) ops).1.shards (L.shard k)) k v
    rw [h1]
    simp only [h2]

example : 1 ≤ perShard (exL groupPortable) (sizeAfter 7 exHist) ∧ latest exEqv exHist 105 = some "f" ∧
    latest exEqv exHist 4 = none := by decide

/-! ## C27: the least recently used entry goes -/

/-- The size being fixed at `n`, a key is in the cache exactly if it is one of the `n / shards` most recently used keys
of its shard. A key is used by `insert`, and by a `get` that finds it. -/
theorem C27_most_recent (h : Contract L.C) (n : Nat) (ops : List (Op κ ν)) (hfix : ∀ m, Op.setSize m ∉ ops) (k : κ) :
    ∃ rs, answers L n ops = .ok rs ∧
      answers L n (ops ++ [.exists k]) = .ok (rs ++
        [.bool (((recency L.eqv (ofShard L.shard (L.shard k) (ops.zip rs))).take (perShard L n)).any (fun k' => L.eqv k' k))]) := by
  refine ⟨_, C26_reference h n ops, ?_⟩
  rw [C26_reference h, Ref.run_append]
  obtain ⟨_, h2⟩ := Ref.recency_run (refOk h) n ops hfix (L.shard k) (S := 2 ^ L.N)
  simp only [Spec.Lru.Cache.step]
  rw [Ref.rel_any (refOk h) h2 k]
  rfl

/-- `get(k)` finds a key under the same condition. -/
theorem C27_get_most_recent (h : Contract L.C) (n : Nat) (ops : List (Op κ ν)) (hfix : ∀ m, Op.setSize m ∉ ops) (k : κ) :
    ∃ rs o, answers L n ops = .ok rs ∧ answers L n (ops ++ [.get k]) = .ok (rs ++ [.val o]) ∧
      o.isSome = ((recency L.eqv (ofShard L.shard (L.shard k) (ops.zip rs))).take (perShard L n)).any (fun k' => L.eqv k' k) := by
  refine ⟨_, ?_, C26_reference h n ops, ?_, ?_⟩
  · exact (Spec.Lru.get L.eqv (((Spec.Lru.Cache.new n).run L.eqv L.shard (2 ^ L.N) ops).1.shards (L.shard k)) k).2
  · rw [C26_reference h, Ref.run_append]; rfl
  · obtain ⟨_, h2⟩ := Ref.recency_run (refOk h) n ops hfix (L.shard k) (S := 2 ^ L.N)
    refine Eq.trans ?_ (Ref.rel_any (refOk h) h2 k)
    unfold Spec.Lru.get
    cases Spec.lookup Prod.fst L.eqv
      (((Spec.Lru.Cache.new n).run L.eqv L.shard (2 ^ L.N) ops).1.shards (L.shard k)) k <;> rfl

/-- Each shard has the smaller of its share and the number of distinct keys used in it; so `size()` is at most the
configured size. -/
theorem C27_size (h : Contract L.C) (n : Nat) (ops : List (Op κ ν)) (hfix : ∀ m, Op.setSize m ∉ ops) :
    ∃ rs, answers L n ops = .ok rs ∧
      answers L n (ops ++ [.size]) = .ok (rs ++ [.nat ((List.range (2 ^ L.N)).map
        (fun i => min (perShard L n) (recency L.eqv (ofShard L.shard i (ops.zip rs))).length)).sum]) ∧
      ((List.range (2 ^ L.N)).map
        (fun i => min (perShard L n) (recency L.eqv (ofShard L.shard i (ops.zip rs))).length)).sum ≤ n := by
  refine ⟨_, C26_reference h n ops, ?_, ?_⟩
  · rw [C26_reference h, Ref.run_append]
    simp only [Spec.Lru.Cache.step]
    congr 5
    apply List.map_congr_left
    intro i _
    exact Ref.rel_length (Ref.recency_run (refOk h) n ops hfix i).2
  · have : ∀ (f : Nat → Nat) m, ((List.range m).map (fun i => min (perShard L n) (f i))).sum ≤ m * perShard L n := by
      intro f m
      induction m with
      | zero => simp
      | succ m ih =>
        rw [List.range_succ, List.map_append, List.sum_append, Nat.succ_mul]
        simp only [List.map_cons, List.map_nil, List.sum_cons, List.sum_nil, Nat.add_zero]
        have := Nat.min_le_left (perShard L n) (f m)
        omega
    exact Nat.le_trans (this _ _) (Nat.mul_div_le n (2 ^ L.N))

example : (∀ m, Op.setSize m ∉ exHist) ∧
    recency exEqv (ofShard (exL groupPortable).shard 1 (exHist.zip
      ((Spec.Lru.Cache.new 7).run exEqv (exL groupPortable).shard 2 exHist).2)) = [5, 7, 101, 3] ∧
    perShard (exL groupPortable) 7 = 3 := ⟨by intro m; simp [exHist], by decide +kernel, by decide⟩

/-! ## C28: copies and moved-to caches do not work -/

/-- The property fails: the lists are neither copied nor moved, so the map of the new cache points into the lists of
the old one. Asking the copy for any key it holds, or inserting such a key again, is undefined behaviour. -/
theorem C28_copy_refuted (h : Contract L.C) (n : Nat) (ops : List (Op κ ν)) (k : κ) (v : ν) (rs : List (Resp ν))
    (hk : answers L n (ops ++ [.exists k]) = .ok (rs ++ [.bool true])) :
    ∃ c d, history L n ops = .ok (c, rs) ∧ copyOf L c = .ok d ∧
      d.step L (fresh ops) (.get k) = .ub ∧ d.step L (fresh ops) (.insert k v) = .ub := by
  obtain ⟨c, h1, h2⟩ := history_sim h n ops
  rw [C26_reference h, Ref.run_append] at hk
  injection hk with hk
  obtain ⟨hk1, hk2⟩ := List.append_inj' hk rfl
  simp only [Spec.Lru.Cache.step, List.cons.injEq, Resp.bool.injEq, and_true] at hk2
  obtain ⟨d, d1, d2⟩ := copy_orphan h.cfgOk h2
  rw [hk1] at h1
  exact ⟨c, d, h1, d1, orphan_ub h.cfgOk h2 d2 hk2 _ v⟩

/-- The same after a move. -/
theorem C28_move_refuted (h : Contract L.C) (n : Nat) (ops : List (Op κ ν)) (k : κ) (v : ν) (rs : List (Resp ν))
    (hk : answers L n (ops ++ [.exists k]) = .ok (rs ++ [.bool true])) :
    ∃ c d c', history L n ops = .ok (c, rs) ∧ moveOf L c = .ok (d, c') ∧
      d.step L (fresh ops) (.get k) = .ub ∧ d.step L (fresh ops) (.insert k v) = .ub := by
  obtain ⟨c, h1, h2⟩ := history_sim h n ops
  rw [C26_reference h, Ref.run_append] at hk
  injection hk with hk
  obtain ⟨hk1, hk2⟩ := List.append_inj' hk rfl
  simp only [Spec.Lru.Cache.step, List.cons.injEq, Resp.bool.injEq, and_true] at hk2
  obtain ⟨d, c', d1, d2⟩ := move_orphan h.cfgOk h2
  rw [hk1] at h1
  exact ⟨c, d, c', h1, d1, orphan_ub h.cfgOk h2 d2 hk2 _ v⟩

/-- A history after which the two theorems above apply. -/
theorem C28_refuted_instance : answers (exL groupPortable) 7 (exHist ++ [.exists 5]) =
    .ok ([.unit, .unit, .unit, .unit, .val (some "a"), .unit, .val none, .unit, .bool true, .nat 4] ++ [.bool true]) := by
  rw [C26_reference (exL_contract (.inr (.inr rfl)))]
  decide +kernel

/-- What is left of the property: the copy, and the moved-to cache, know which keys they hold and how many. Everything
that uses an entry is missing. -/
theorem C28_exists_partial (h : Contract L.C) (n : Nat) (ops : List (Op κ ν)) :
    ∃ c rs d m c', history L n ops = .ok (c, rs) ∧ copyOf L c = .ok d ∧ moveOf L c = .ok (m, c') ∧
      d.size = c.size ∧ m.size = c.size ∧
      ∀ k, ∃ b, answers L n (ops ++ [.exists k]) = .ok (rs ++ [.bool b]) ∧
        d.step L (fresh ops) (.exists k) = .ok (d, .bool b) ∧ m.step L (fresh ops) (.exists k) = .ok (m, .bool b) := by
  obtain ⟨c, h1, h2⟩ := history_sim h n ops
  obtain ⟨d, d1, d2⟩ := copy_orphan h.cfgOk h2
  obtain ⟨m, c', m1, m2⟩ := move_orphan h.cfgOk h2
  refine ⟨c, _, d, m, c', h1, d1, m1, orphan_size h2 d2, orphan_size h2 m2, fun k => ⟨_, ?_, orphan_exists h.cfgOk h2 d2 k _,
    orphan_exists h.cfgOk h2 m2 k _⟩⟩
  rw [C26_reference h, Ref.run_append]
  rfl

end Gtl.Props.Lru
