import Verif.Lru.Sim
/-!
# Copies of a cache have the map but not the lists
-/

namespace Gtl.Lru

open Gtl.Swiss Gtl.Parallel
open Gtl.Spec.Lru (Op Resp)
open Gtl.Spec (lookup)

variable {κ ν : Type} {L : LCfg κ}

/-- `d` has the map of `c` but empty lists. -/
structure Orphan (L : LCfg κ) (c d : Cache κ ν) : Prop where
  len : d.subs.length = 2 ^ L.N
  max : d.max = c.max
  sub : ∀ (i : Nat) s, d.subs[i]? = some s → ∃ u, c.subs[i]? = some u ∧ Sim L.C s.tbl (index u.lst) ∧ s.lst = []

theorem blank_sub {i : Nat} {s : Sub κ ν} (h : (Cache.blank L).subs[i]? = some s) : s = { tbl := Tbl.empty, lst := [] } := by
  unfold Cache.blank at h
  exact List.eq_of_mem_replicate (List.mem_of_getElem? h)

theorem copy_orphan (hC : CfgOk L.C) {c : Cache κ ν} {a : Spec.Lru.Cache κ ν} {next : Nat} (h : CacheSim L c a next) :
    ∃ d, (Cache.blank L).copyAssign L c = .ok d ∧ Orphan L c d := by
  obtain ⟨ss, h1, h2, h3⟩ := zipRes_spec (f := fun (s u : Sub κ ν) => do
      let t ← Tbl.copyAssign L.C s.tbl u.tbl
      Res.ok { s with tbl := t }) (Cache.blank L : Cache κ ν).subs c.subs
    (fun i s => ∃ u, c.subs[i]? = some u ∧ Sim L.C s.tbl (index u.lst) ∧ s.lst = [])
    (by rw [h.len]; simp [Cache.blank])
    (fun i s u hs hu => by
      obtain ⟨d, hd⟩ := destroySlots_sim hC (sim_empty (α := κ × Nat) hC.group)
      obtain ⟨⟨cc, hi⟩, hperm⟩ := (h.sub i u hu).1.sim
      obtain ⟨t', c', g1, g2, g3, _⟩ := copy_spec hC hi
      rw [blank_sub hs]
      refine ⟨{ tbl := t', lst := [] }, ?_, u, hu, ⟨⟨c', g2⟩, g3.trans hperm⟩, rfl⟩
      simp only [Tbl.copyAssign, Tbl.swap, g1, hd, Res.ok_bind])
  refine ⟨{ subs := ss, max := c.max }, by unfold Cache.copyAssign; rw [h1]; rfl, ?_, rfl, h3⟩
  show ss.length = _
  rw [h2]; simp [Cache.blank]

theorem move_orphan (hC : CfgOk L.C) {c : Cache κ ν} {a : Spec.Lru.Cache κ ν} {next : Nat} (h : CacheSim L c a next) :
    ∃ d c', (Cache.blank L).moveAssign c = .ok (d, c') ∧ Orphan L c d := by
  obtain ⟨ss, h1, h2, h3⟩ := zipRes_spec (f := fun (s u : Sub κ ν) => do
      let (t, u') ← Tbl.moveAssign s.tbl u.tbl
      Res.ok (({ s with tbl := t } : Sub κ ν), ({ u with tbl := u' } : Sub κ ν))) (Cache.blank L : Cache κ ν).subs c.subs
    (fun i x => ∃ u, c.subs[i]? = some u ∧ Sim L.C x.1.tbl (index u.lst) ∧ x.1.lst = [])
    (by rw [h.len]; simp [Cache.blank])
    (fun i s u hs hu => by
      obtain ⟨d, hd⟩ := destroySlots_sim hC (sim_empty (α := κ × Nat) hC.group)
      rw [blank_sub hs]
      refine ⟨({ tbl := u.tbl, lst := [] }, { u with tbl := Tbl.empty }), ?_, u, hu, (h.sub i u hu).1.sim, rfl⟩
      simp only [Tbl.moveAssign, Tbl.move, Tbl.swap, hd, Res.ok_bind])
  refine ⟨{ subs := ss.map Prod.fst, max := c.max }, { subs := ss.map Prod.snd, max := c.max },
    by unfold Cache.moveAssign; rw [h1]; rfl, ?_, rfl, ?_⟩
  · show (ss.map Prod.fst).length = _
    rw [List.length_map, h2]; simp [Cache.blank]
  · intro i s hs
    simp only [List.getElem?_map, Option.map_eq_some_iff] at hs
    obtain ⟨x, hx, rfl⟩ := hs
    exact h3 i x hx

/-- Using an entry of the copy is undefined behaviour. -/
theorem orphan_ub (hC : CfgOk L.C) {c d : Cache κ ν} {a : Spec.Lru.Cache κ ν} {next : Nat} (h : CacheSim L c a next)
    (ho : Orphan L c d) {k : κ} (hk : (lookup Prod.fst L.eqv (a.shards (L.shard k)) k).isSome = true) (id : Nat) (v : ν) :
    d.step L id (.get k) = .ub ∧ d.step L id (.insert k v) = .ub := by
  have hi : L.shard k < d.subs.length := by rw [ho.len]; exact shard_lt L k
  obtain ⟨u, hu, g1, g2⟩ := ho.sub (L.shard k) _ (List.getElem?_eq_getElem hi)
  have hs := List.getElem?_eq_getElem hi
  generalize d.subs[L.shard k] = s at hs g1 g2
  obtain ⟨t, l⟩ := s
  dsimp only at g1 g2
  subst g2
  obtain ⟨s1, s2⟩ := h.sub _ u hu
  rw [← s2] at hk
  rcases find_sub hC s1 k with ⟨i, n, _, _, h3, h4, _⟩ | ⟨_, h5⟩
  · rcases find_sim hC g1 k with ⟨i, b, f1, f2, _, _, _⟩ | ⟨_, f2, _⟩
    · constructor
      · simp only [Cache.step, Cache.withSub]
        rw [hs]
        simp only [Res.ofOption_some, Res.ok_bind, Sub.get, Sub.ifContains]
        rw [f1]
        simp only [Res.ok_bind]
        rw [readSlot_ok' f2]
        rfl
      · simp only [Cache.step, Cache.withSub]
        rw [hs]
        simp only [Res.ofOption_some, Res.ok_bind, Sub.insert, Sub.emplace]
        rw [show Tbl.findHash L.C t k (L.hash k) = .ok (some i) from f1]
        simp only [Res.ok_bind]
        rw [readSlot_ok' f2]
        rfl
    · have := f2 (n.2.1, n.1) (List.mem_map.2 ⟨n, h3, rfl⟩)
      rw [show L.C.eqv (L.C.key (n.2.1, n.1)) k = L.eqv n.2.1 k from rfl, h4] at this
      cases this
  · rw [h5] at hk
    cases hk

theorem lookup_index_isSome (hC : CfgOk L.C) {l : List (Node κ ν)} (hd : Distinct L.C (index l)) (k : κ) :
    (lookup L.C.key L.C.eqv (index l) k).isSome = (lookup Prod.fst L.eqv (l.map Prod.snd) k).isSome := by
  unfold lookup index
  rw [List.find?_map, List.find?_map]
  simp only [Option.isSome_map]
  rfl

/-- `exists` and `size()` do not touch the lists. -/
theorem orphan_exists (hC : CfgOk L.C) {c d : Cache κ ν} {a : Spec.Lru.Cache κ ν} {next : Nat} (h : CacheSim L c a next)
    (ho : Orphan L c d) (k : κ) (id : Nat) :
    d.step L id (.exists k) = .ok (d, .bool (lookup Prod.fst L.eqv (a.shards (L.shard k)) k).isSome) := by
  have hi : L.shard k < d.subs.length := by rw [ho.len]; exact shard_lt L k
  obtain ⟨u, hu, g1, g2⟩ := ho.sub (L.shard k) _ (List.getElem?_eq_getElem hi)
  have hs := List.getElem?_eq_getElem hi
  have hset : d.subs.set (L.shard k) d.subs[L.shard k] = d.subs := List.set_getElem_self hi
  generalize d.subs[L.shard k] = s at hs g1 g2 hset
  obtain ⟨s1, s2⟩ := h.sub _ u hu
  have hl := lookup_index_isSome (κ := κ) (ν := ν) hC (s1.sim.distinct hC) k
  rw [← s2]
  simp only [Cache.step, Cache.withSub]
  rw [hs]
  simp only [Res.ofOption_some, Res.ok_bind, Sub.exists, Sub.ifContains]
  unfold Sub.abs
  rw [← hl]
  rcases find_sim hC g1 k with ⟨i, b, f1, f2, _, _, f5⟩ | ⟨f1, _, f5⟩
  · rw [f1, f5]
    simp only [Res.ok_bind]
    rw [readSlot_ok' f2]
    simp only [Res.ok_bind]
    rw [show ({ tbl := s.tbl, lst := s.lst } : Sub κ ν) = s from rfl, hset]
    rfl
  · rw [f1, f5]
    simp only [Res.ok_bind]
    rw [hset]
    rfl

theorem orphan_size {c d : Cache κ ν} {a : Spec.Lru.Cache κ ν} {next : Nat} (h : CacheSim L c a next)
    (ho : Orphan L c d) : d.size = c.size := by
  unfold Cache.size
  congr 1
  apply List.ext_getElem
  · simp [h.len, ho.len]
  · intro i h1 h2
    simp only [List.getElem_map]
    rw [List.length_map] at h1 h2
    obtain ⟨u, hu, g1, _⟩ := ho.sub i d.subs[i] (List.getElem?_eq_getElem h1)
    have : c.subs[i] = u := by
      rw [List.getElem?_eq_getElem h2] at hu
      injection hu
    rw [g1.size, this, (h.sub i u hu).1.sim.size]

end Gtl.Lru
