import Verif.Lru.Sub
/-!
# A cache behaves like the reference cache
-/

namespace Gtl.Lru

open Gtl.Swiss Gtl.Parallel
open Gtl.Spec.Lru (Op Resp)
open Gtl.Spec (lookup)

variable {κ ν : Type} {L : LCfg κ}

structure CacheSim (L : LCfg κ) (c : Cache κ ν) (a : Spec.Lru.Cache κ ν) (next : Nat) : Prop where
  len : c.subs.length = 2 ^ L.N
  sub : ∀ (i : Nat) s, c.subs[i]? = some s → SubSim L s next ∧ s.abs = a.shards i
  max : c.max = a.max / 2 ^ L.N

theorem CacheSim.get {c : Cache κ ν} {a : Spec.Lru.Cache κ ν} {next : Nat} (h : CacheSim L c a next) {i : Nat}
    (hi : i < 2 ^ L.N) : ∃ s, c.subs[i]? = some s ∧ SubSim L s next ∧ s.abs = a.shards i := by
  have hi' : i < c.subs.length := by rw [h.len]; exact hi
  exact ⟨c.subs[i], List.getElem?_eq_getElem hi', h.sub i _ (List.getElem?_eq_getElem hi')⟩

theorem shard_lt (L : LCfg κ) (k : κ) : L.shard k < 2 ^ L.N := subidx_lt _ _

theorem CacheSim.set {c : Cache κ ν} {a : Spec.Lru.Cache κ ν} {next next' : Nat} (h : CacheSim L c a next)
    (hn : next ≤ next') {i : Nat} {s : Sub κ ν} {l : List (κ × ν)} (hs : SubSim L s next') (hl : s.abs = l) :
    CacheSim L { c with subs := c.subs.set i s } { a with shards := Spec.put a.shards i l } next' := by
  refine ⟨by rw [List.length_set]; exact h.len, ?_, h.max⟩
  intro j u hu
  unfold Spec.put
  dsimp only at hu ⊢
  rw [List.getElem?_set] at hu
  by_cases hij : i = j
  · rw [if_pos hij] at hu
    split at hu
    · injection hu with hu
      rw [← hu, if_pos hij.symm]
      exact ⟨hs, hl⟩
    · cases hu
  · rw [if_neg hij] at hu
    rw [if_neg (fun e => hij e.symm)]
    obtain ⟨h1, h2⟩ := h.sub j u hu
    exact ⟨h1.mono hn, h2⟩

theorem CacheSim.mono {c : Cache κ ν} {a : Spec.Lru.Cache κ ν} {m n : Nat} (h : CacheSim L c a m) (hm : m ≤ n) :
    CacheSim L c a n :=
  ⟨h.len, fun i s hs => ⟨(h.sub i s hs).1.mono hm, (h.sub i s hs).2⟩, h.max⟩

theorem CacheSim.withSub {β : Type} {c : Cache κ ν} {a : Spec.Lru.Cache κ ν} {next next' : Nat} (h : CacheSim L c a next)
    (hn : next ≤ next') {i : Nat} (hi : i < 2 ^ L.N) {f : Sub κ ν → Res (Sub κ ν × β)} {l : List (κ × ν)} {b : β}
    (hf : ∀ s, SubSim L s next → s.abs = a.shards i → ∃ s', f s = .ok (s', b) ∧ SubSim L s' next' ∧ s'.abs = l) :
    ∃ c', c.withSub i f = .ok (c', b) ∧ CacheSim L c' { a with shards := Spec.put a.shards i l } next' := by
  obtain ⟨s, h1, h2, h3⟩ := h.get hi
  obtain ⟨s', f1, f2, f3⟩ := hf s h2 h3
  refine ⟨{ c with subs := c.subs.set i s' }, ?_, h.set hn f2 f3⟩
  unfold Cache.withSub
  rw [h1]
  simp only [Res.ofOption_some, Res.ok_bind]
  rw [f1]
  rfl

theorem put_same {β : Type} (f : Nat → β) (i : Nat) : Spec.put f i (f i) = f := by
  funext j
  unfold Spec.put
  split
  · rename_i e; rw [e]
  · rfl

theorem reserve_csim (hC : CfgOk L.C) {c : Cache κ ν} {a : Spec.Lru.Cache κ ν} {next : Nat} (h : CacheSim L c a next)
    (n : Nat) : ∃ c', c.reserve L n = .ok c' ∧ CacheSim L c' a next ∧ c'.max = c.max := by
  unfold Cache.reserve
  dsimp only
  generalize hb : (if 2 ^ L.N * normalizeCapacity (L.scale n / 2 ^ L.N) > growthToLowerboundCapacity L.G.W (L.scale n) then
    2 ^ L.N * normalizeCapacity (L.scale n / 2 ^ L.N) else growthToLowerboundCapacity L.G.W (L.scale n)) = buckets
  have h1 : 2 ^ L.N ≤ 2 ^ L.N * normalizeCapacity (L.scale n / 2 ^ L.N) :=
    Nat.le_mul_of_pos_right _ (normalizeCapacity_pos _)
  have h2 : 2 ^ L.N ≤ buckets := by rw [← hb]; split <;> omega
  have h0 : buckets / 2 ^ L.N ≠ 0 := by
    have := Nat.div_pos h2 (Nat.two_pow_pos L.N)
    omega
  obtain ⟨ss, r1, r2, r3⟩ := mapRes_spec (f := fun s : Sub κ ν => do
      let t ← s.tbl.rehash L.C (buckets / 2 ^ L.N)
      Res.ok { s with tbl := t }) c.subs (fun i s => SubSim L s next ∧ s.abs = a.shards i) (fun i s hs => by
    obtain ⟨g1, g2⟩ := h.sub i s hs
    obtain ⟨t', e1, e2⟩ := step_sim hC g1.sim (.rehash (buckets / 2 ^ L.N)) h0
    unfold Tbl.step at e1
    rw [Res.bind_eq_ok] at e1
    obtain ⟨t1, e3, e4⟩ := e1
    simp only [Res.ok.injEq, Prod.mk.injEq] at e4
    rw [← e4.1] at e2
    refine ⟨{ s with tbl := t1 }, ?_, ⟨e2, g1.nodup, g1.bound⟩, g2⟩
    rw [e3]; rfl)
  rw [r1]
  exact ⟨_, rfl, ⟨r2.trans h.len, r3, h.max⟩, rfl⟩

theorem blank_csim (hC : CfgOk L.C) : CacheSim L (Cache.blank L) (⟨fun _ => [], 0⟩ : Spec.Lru.Cache κ ν) 0 := by
  refine ⟨by simp [Cache.blank], ?_, by simp [Cache.blank]⟩
  intro i s hs
  have : s = { tbl := Tbl.empty, lst := [] } := by
    unfold Cache.blank at hs
    exact List.eq_of_mem_replicate (List.mem_of_getElem? hs)
  rw [this]
  refine ⟨⟨sim_empty hC.group, List.nodup_nil, ?_⟩, rfl⟩
  intro n hn
  cases hn

theorem new_csim (hC : CfgOk L.C) (n : Nat) :
    ∃ c : Cache κ ν, Cache.new L n = .ok c ∧ CacheSim L c (Spec.Lru.Cache.new n) 0 := by
  obtain ⟨c, h1, h2, _⟩ := reserve_csim hC (blank_csim (ν := ν) hC) n
  unfold Cache.new
  rw [h1]
  exact ⟨c.setSize L n, rfl, h2.len, h2.sub, rfl⟩

theorem size_csim {c : Cache κ ν} {a : Spec.Lru.Cache κ ν} {next : Nat} (h : CacheSim L c a next) :
    c.size = ((List.range (2 ^ L.N)).map (fun i => (a.shards i).length)).sum := by
  unfold Cache.size
  congr 1
  apply List.ext_getElem
  · simp [h.len]
  · intro i h1 h2
    simp only [List.getElem_map, List.getElem_range]
    rw [List.length_map] at h1
    obtain ⟨g1, g2⟩ := h.sub i c.subs[i] (List.getElem?_eq_getElem h1)
    rw [g1.sim.size, ← g2]
    simp [index, Sub.abs]

theorem step_csim (hC : CfgOk L.C) {c : Cache κ ν} {a : Spec.Lru.Cache κ ν} {next : Nat} (h : CacheSim L c a next)
    (op : Op κ ν) :
    ∃ c', c.step L next op = .ok (c', (a.step L.eqv L.shard (2 ^ L.N) op).2) ∧
      CacheSim L c' (a.step L.eqv L.shard (2 ^ L.N) op).1 (next + 1) := by
  cases op with
  | insert k v =>
    refine h.withSub (Nat.le_succ _) (shard_lt L k) (fun s hs ha => ?_)
    obtain ⟨s', r1, r2, r3⟩ := insert_sub hC hs c.max k v
    rw [r1]
    refine ⟨s', rfl, r2, ?_⟩
    rw [r3, ha, h.max]
  | get k =>
    refine h.withSub (Nat.le_succ _) (shard_lt L k) (fun s hs ha => ?_)
    obtain ⟨s', r1, r2, r3⟩ := get_sub hC hs k
    rw [r1, ha]
    refine ⟨s', rfl, r2.mono (Nat.le_succ _), ?_⟩
    rw [r3, ha]
  | «exists» k =>
    have := h.withSub (Nat.le_succ _) (shard_lt L k) (f := fun s => do
      let (s, b) ← s.exists L k
      .ok (s, Resp.bool b)) (l := a.shards (L.shard k))
      (b := (Resp.bool (lookup Prod.fst L.eqv (a.shards (L.shard k)) k).isSome : Resp ν)) (fun s hs ha => by
        rw [exists_sub hC hs, ha]
        exact ⟨s, rfl, hs.mono (Nat.le_succ _), ha⟩)
    rw [put_same] at this
    exact this
  | setSize n => exact ⟨_, rfl, h.len, fun i s hs => ⟨(h.sub i s hs).1.mono (Nat.le_succ _), (h.sub i s hs).2⟩, rfl⟩
  | reserve n =>
    obtain ⟨c', r1, r2, _⟩ := reserve_csim hC h n
    refine ⟨c', ?_, r2.mono (Nat.le_succ _)⟩
    unfold Cache.step
    dsimp only
    rw [r1]; rfl
  | size =>
    refine ⟨c, ?_, h.mono (Nat.le_succ _)⟩
    unfold Cache.step
    dsimp only
    rw [size_csim h]; rfl

theorem run_csim (hC : CfgOk L.C) : ∀ (ops : List (Op κ ν)) (c : Cache κ ν) (a : Spec.Lru.Cache κ ν) (next : Nat),
    CacheSim L c a next →
    ∃ c', c.run L next ops = .ok (c', (a.run L.eqv L.shard (2 ^ L.N) ops).2) ∧
      CacheSim L c' (a.run L.eqv L.shard (2 ^ L.N) ops).1 (next + ops.length)
  | [], c, a, next, h => ⟨c, rfl, h⟩
  | op :: ops, c, a, next, h => by
    obtain ⟨c1, h1, h2⟩ := step_csim hC h op
    obtain ⟨c2, h3, h4⟩ := run_csim hC ops c1 _ (next + 1) h2
    refine ⟨c2, ?_, ?_⟩
    · unfold Cache.run
      rw [h1]
      simp only [Res.ok_bind]
      rw [h3]
      rfl
    · rw [show next + (op :: ops).length = next + 1 + ops.length by simp; omega]
      exact h4

end Gtl.Lru
