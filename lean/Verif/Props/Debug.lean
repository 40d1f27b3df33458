import Verif.Swiss.Debug
import Verif.Swiss.CostHist
import Verif.Props.Parallel
/-!
# Property theorems C118: what the debug interface of the hash containers reports
-/

namespace Gtl.Props.Debug

open Gtl.Mem Gtl.Swiss Gtl.Swiss.Tbl Gtl.Parallel Gtl.Props.Hash Gtl.Props.Layout
open Gtl.Props.Parallel (PReachable exP exP_contract exPReach)

variable {α κ : Type}

/-- `n` is the number of probes of a lookup of `k` that ends with `r`: `find` compares the elements `seen` of the container
with the key and loads `groups` groups of control bytes; the probes are the comparisons that fail and the groups after
the first one. -/
def ProbesOf (C : Cfg α κ) (t : Tbl α) (k : κ) (n : Nat) : Prop :=
  ∃ r seen groups l, t.find C k = .ok r ∧ t.findTrace C k = .ok (r, seen, groups) ∧ t.iterate C = .ok l ∧
    (∀ a ∈ seen, a ∈ l) ∧ 1 ≤ groups ∧ groups ≤ t.capacity + 1 ∧
    n = seen.countP (fun a => !C.eqv (C.key a) k) + (groups - 1) ∧
    (r = none → ∀ a ∈ seen, C.eqv (C.key a) k = false) ∧
    (∀ o, r = some o → ∃ ms a, seen = ms ++ [a] ∧ t.readSlot o = .ok a ∧ C.eqv (C.key a) k = true ∧
      ∀ m ∈ ms, C.eqv (C.key m) k = false)

/-! ## Glue -/

theorem probesOf_sim {C : Cfg α κ} (h : Contract C) {t : Tbl α} {l : List α} (hs : Sim C t l) (k : κ) :
    ∃ n, t.getNumProbes C k = .ok n ∧ ProbesOf C t k n := by
  have hit' := sim_iterate h hs
  have : ∃ r, t.find C k = .ok r := by
    rcases find_sim h.cfgOk hs k with ⟨i, a, h1, _⟩ | ⟨h1, _⟩
    · exact ⟨_, h1⟩
    · exact ⟨_, h1⟩
  obtain ⟨r, hr⟩ := this
  have hr' := hr
  unfold Tbl.find Tbl.findHash at hr'
  obtain ⟨seen, g, h1, ⟨c1, c2, c3⟩, h3, h4, h5, h6⟩ := probe_trace hr'
  have h7 := h6 0
  refine ⟨_, h7, r, seen, g, _, hr, h1, hit', c1, h4, h5, ?_, c2, ?_⟩
  · cases r with
    | none =>
      have : seen.countP (fun a => !C.eqv (C.key a) k) = seen.length := by
        rw [List.countP_eq_length]
        intro a ha
        simp [c2 rfl a ha]
      rw [this]
      simp [hit]
    | some o =>
      obtain ⟨ms, a, rfl, _, e2, e3⟩ := c3 o rfl
      have : ms.countP (fun a => !C.eqv (C.key a) k) = ms.length := by
        rw [List.countP_eq_length]
        intro a ha
        simp [e3 a ha]
      simp [hit, List.countP_append, this, e2]
  · intro o e
    obtain ⟨ms, a, e1, e2, e3, e4⟩ := c3 o e
    exact ⟨ms, a, e1, readSlot_ok e2, e3, e4⟩

/-! ## Probes -/

/-- `GetNumProbes` on every reachable container, for every key, ends without undefined behaviour and reports the work that
`find` does for this key: the comparisons that fail, and the groups of control bytes after the first one. -/
theorem C118_probes [BEq α] [LawfulBEq α] {C : Cfg α κ} (h : Contract C) {t : Tbl α} (hr : Reachable C t) (k : κ) :
    ∃ n, t.getNumProbes C k = .ok n ∧ ProbesOf C t k n :=
  probesOf_sim h (hr.sim h) k

example : ∃ (t : Tbl (Nat × Nat)) (n : Nat), t.size = 41 ∧ t.getNumProbes (exCfg groupPortable) 150 = .ok n ∧
    ProbesOf (exCfg groupPortable) t 150 n := by
  obtain ⟨t, h1, h2, _⟩ := exReach (.inr (.inr rfl))
  obtain ⟨n, h3, h4⟩ := C118_probes (exCfg_contract (.inr (.inr rfl))) h1 150
  exact ⟨t, n, h2, h3, h4⟩

/-- The same for parallel containers, in the submap that the key belongs to. -/
theorem C118_parallel [BEq α] [LawfulBEq α] {P : PCfg α κ} (h : Contract P.C) {p : PTbl α} (hr : PReachable P p) (k : κ) :
    ∃ t n, p.sets[subidx P.N (P.C.hash k)]? = some t ∧ p.getNumProbes P k = .ok n ∧ ProbesOf P.C t k n := by
  have hs := hr.sim h
  obtain ⟨t, t1, t2⟩ := hs.get (subidx_lt P.N (P.C.hash k))
  obtain ⟨n, h1, h2⟩ := probesOf_sim h t2 k
  refine ⟨t, n, t1, ?_, h2⟩
  unfold PTbl.getNumProbes
  rw [t1]; exact h1

example : ∃ (p : PTbl (Nat × Nat)) (n : Nat), p.size = 40 ∧ p.getNumProbes (exP groupPortable) 7 = .ok n := by
  obtain ⟨p, _, h1, _, h2, _⟩ := exPReach (.inr (.inr rfl))
  obtain ⟨_, n, _, h3, _⟩ := C118_parallel (exP_contract (.inr (.inr rfl))) h1 7
  exact ⟨p, n, h2, h3⟩

/-- In a new container no lookup needs a probe. -/
theorem C118_new {C : Cfg α κ} (h : Contract C) (k : κ) : (Tbl.empty : Tbl α).getNumProbes C k = .ok 0 := by
  obtain ⟨n, h1, r, seen, g, l, _, _, h4, h5, h6, h7, h8, _⟩ := probesOf_sim h (sim_empty (α := α) h.cfgOk.group) k
  have hl := sim_iterate h (sim_empty (α := α) h.cfgOk.group)
  rw [h4] at hl
  cases hl
  have e : seen = [] := by
    rcases seen with _ | ⟨a, s⟩
    · rfl
    · have := h5 a List.mem_cons_self
      simp [elems, Tbl.empty] at this
  have hc : (Tbl.empty : Tbl α).capacity = 0 := rfl
  rw [h1, h8, e]
  simp only [List.countP_nil]
  congr 1
  omega

/-! ## Bytes -/

/-- `AllocatedByteSize` of every reachable container: nothing for a container that has allocated nothing; otherwise the bytes
of the array of the table, and those of the elements behind the slots, all of them and each one once. -/
theorem C118_bytes [BEq α] [LawfulBEq α] {C : Cfg α κ} (h : Contract C) {t : Tbl α} (hr : Reachable C t) (slot : Elt) (per : U64)
    (used : α → U64) :
    (t.capacity = 0 → t.allocatedByteSize C slot per used = .ok 0) ∧
    (t.capacity ≠ 0 → per ≠ ~~~(0 : U64) →
      t.allocatedByteSize C slot per used = .ok ((tableLayout C.G.W slot t.capacity).allocSize + per * BitVec.ofNat 64 t.size)) ∧
    (t.capacity ≠ 0 → per = ~~~(0 : U64) → ∃ l, t.iterate C = .ok l ∧
      t.allocatedByteSize C slot per used = .ok ((tableLayout C.G.W slot t.capacity).allocSize + (l.map used).foldl (· + ·) 0)) := by
  refine ⟨fun h0 => ?_, fun h0 hp => ?_, fun h0 hp => ⟨elems t, sim_iterate h (hr.sim h), ?_⟩⟩
  · unfold Tbl.allocatedByteSize; rw [if_pos h0]
  · unfold Tbl.allocatedByteSize; rw [if_neg h0]; dsimp only; rw [if_pos hp]
  · obtain ⟨⟨c, hi⟩, _⟩ := hr.sim h
    unfold Tbl.allocatedByteSize; rw [if_neg h0]; dsimp only; rw [if_neg (by simp [hp])]
    exact bytes_loop h.cfgOk hi used _

example : ∃ (t : Tbl (Nat × Nat)), Reachable (exCfg groupPortable) t ∧ t.capacity ≠ 0 ∧
    t.allocatedByteSize (exCfg groupPortable) ⟨8, 8⟩ 16 (fun _ => 16) =
      .ok ((tableLayout 8 ⟨8, 8⟩ t.capacity).allocSize + 16 * 41) := by
  obtain ⟨t, h1, h2, _⟩ := exReach (.inr (.inr rfl))
  have hc := exCfg_contract (G := groupPortable) (.inr (.inr rfl))
  have h0 : t.capacity ≠ 0 := by
    obtain ⟨⟨c, hi⟩, _⟩ := h1.sim hc
    have h3 := hi.core.counts
    have := hi.size_eq
    omega
  refine ⟨t, h1, h0, ?_⟩
  rw [(C118_bytes hc h1 ⟨8, 8⟩ 16 (fun _ => 16)).2.1 h0 (by decide), h2]
  rfl

/-- The bytes that are reported for the array of a table are those that the allocator is asked for, up to less than one
alignment. -/
theorem C118_block [BEq α] [LawfulBEq α] {C : Cfg α κ} (h : Contract C) {t : Tbl α} (hr : Reachable C t) (hcap : t.capacity ≠ 0)
    {slot : Elt} (hs : slot.Legal)
    (hfit : (t.capacity + C.G.W + 1) + slot.size.toNat * t.capacity + 2 * slot.align.toNat < 2 ^ 64) (used : α → U64) :
    ∃ (m : U64) (asked : Nat), t.allocatedByteSize C slot 0 used = .ok m ∧
      asked = blockBytes (tableLayout C.G.W slot t.capacity).alignment (tableLayout C.G.W slot t.capacity).allocSize ∧
      m.toNat ≤ asked ∧ asked < m.toNat + slot.align.toNat ∧ t.capacity * slot.size.toNat + t.capacity ≤ m.toNat := by
  obtain ⟨e1, e2⟩ := tableLayout_bytes hs hfit
  obtain ⟨k, hk1, hk⟩ := hs.pow2
  have hap : 0 < slot.align.toNat := by rw [hk]; exact Nat.pow_pos (by decide)
  refine ⟨(tableLayout C.G.W slot t.capacity).allocSize, _, ?_, rfl, ?_⟩
  · rw [(C118_bytes h hr slot 0 used).2.1 hcap (by decide)]
    simp
  · have r1 := roundUp_spec (n := t.capacity + C.G.W + 1) (m := slot.align.toNat) hap
    have r2 := roundUp_spec (n := (tableLayout C.G.W slot t.capacity).allocSize.toNat) (m := slot.align.toNat) hap
    have hb : blockBytes (tableLayout C.G.W slot t.capacity).alignment (tableLayout C.G.W slot t.capacity).allocSize =
        ((tableLayout C.G.W slot t.capacity).allocSize.toNat + slot.align.toNat - 1) / slot.align.toNat * slot.align.toNat := by
      unfold blockBytes
      rw [e2, blocks_toNat hap (by omega)]
    have hmc := Nat.mul_comm t.capacity slot.size.toNat
    rw [hb]
    refine ⟨by omega, by omega, by omega⟩

/-- `LowerBoundAllocatedByteSize(n)` is a lower bound: no reachable container with `n` or more elements reports fewer
bytes, whatever was done to it. The sizes must not exceed the address space. -/
theorem C118_lower [BEq α] [LawfulBEq α] {C : Cfg α κ} (h : Contract C) {t : Tbl α} (hr : Reachable C t) {slot : Elt} (hs : slot.Legal)
    (per : U64) (used : α → U64) {l : List α} (hl : t.iterate C = .ok l)
    (hfit : (t.capacity + C.G.W + 1) + slot.size.toNat * t.capacity + 2 * slot.align.toNat +
      (if per ≠ ~~~(0 : U64) then per.toNat * t.size else (l.map fun a => (used a).toNat).sum) < 2 ^ 64)
    {n : Nat} (hn : n ≤ t.size) :
    ∃ m, t.allocatedByteSize C slot per used = .ok m ∧ (lowerBoundAllocatedByteSize C.G.W slot per n).toNat ≤ m.toNat := by
  have hsim := hr.sim h
  obtain ⟨⟨c, hi⟩, _⟩ := id hsim
  have hg := hi.growth
  have hle : growthToLowerboundCapacity C.G.W n ≤ t.capacity := lowerbound_le hi.core.raw.pow (by omega)
  have hll := sim_iterate h hsim
  rw [hl] at hll
  cases hll
  have hcap : t.size ≤ t.capacity := by have := hi.core.counts; have := hi.size_eq; omega
  obtain ⟨b1, b2, b3⟩ := C118_bytes h hr slot per used
  by_cases h0 : growthToLowerboundCapacity C.G.W n = 0
  · have : ∃ m, t.allocatedByteSize C slot per used = .ok m := by
      by_cases hc : t.capacity = 0
      · exact ⟨_, b1 hc⟩
      · by_cases hp : per = ~~~(0 : U64)
        · obtain ⟨l, _, e⟩ := b3 hc hp; exact ⟨_, e⟩
        · exact ⟨_, b2 hc hp⟩
    obtain ⟨m, hm⟩ := this
    refine ⟨m, hm, ?_⟩
    unfold lowerBoundAllocatedByteSize
    dsimp only
    rw [if_pos h0]; exact Nat.zero_le _
  · have hc : t.capacity ≠ 0 := by omega
    have hnc := normalizeCapacity_le hi.core.raw.pow h0 hle
    unfold lowerBoundAllocatedByteSize
    dsimp only
    rw [if_neg h0]
    generalize normalizeCapacity (growthToLowerboundCapacity C.G.W n) = q at *
    have hmul : slot.size.toNat * q ≤ slot.size.toNat * t.capacity := Nat.mul_le_mul_left _ hnc
    have hmulc : t.capacity ≤ slot.size.toNat * t.capacity := Nat.le_mul_of_pos_left _ hs.size_pos
    obtain ⟨k, hk1, hk⟩ := hs.pow2
    have hap : 0 < slot.align.toNat := by rw [hk]; exact Nat.pow_pos (by decide)
    obtain ⟨e1, _⟩ := tableLayout_bytes (W := C.G.W) hs (show t.capacity + C.G.W + 1 + slot.size.toNat * t.capacity + 2 * slot.align.toNat < 2 ^ 64 by omega)
    obtain ⟨e2, _⟩ := tableLayout_bytes (W := C.G.W) (cap := q) hs (by omega)
    have hru := roundUp_mono (m := slot.align.toNat) (show q + C.G.W + 1 ≤ t.capacity + C.G.W + 1 by omega)
    have r1 := roundUp_spec (n := t.capacity + C.G.W + 1) (m := slot.align.toNat) hap
    by_cases hp : per = ~~~(0 : U64)
    · obtain ⟨l, hl2, e⟩ := b3 hc hp
      rw [hl] at hl2
      cases hl2
      refine ⟨_, e, ?_⟩
      rw [if_neg (by simp [hp])] at hfit ⊢
      have := usum_toNat ((elems t).map used) (by rw [List.map_map]; show ((elems t).map fun a => (used a).toNat).sum < _; omega)
      unfold usum at this
      rw [List.map_map] at this
      have e3 : ((elems t).map (BitVec.toNat ∘ used)).sum = ((elems t).map fun a => (used a).toNat).sum := rfl
      rw [BitVec.toNat_add, this, e1, e2, e3]
      rw [Nat.mod_eq_of_lt (by omega)]
      omega
    · refine ⟨_, b2 hc hp, ?_⟩
      rw [if_pos hp] at hfit ⊢
      have hpm : per.toNat * n ≤ per.toNat * t.size := Nat.mul_le_mul_left _ hn
      have m1 : (per * BitVec.ofNat 64 n).toNat = per.toNat * n := by
        rw [BitVec.toNat_mul, BitVec.toNat_ofNat, Nat.mod_eq_of_lt (a := n) (by omega), Nat.mod_eq_of_lt (by omega)]
      have m2 : (per * BitVec.ofNat 64 t.size).toNat = per.toNat * t.size := by
        rw [BitVec.toNat_mul, BitVec.toNat_ofNat, Nat.mod_eq_of_lt (a := t.size) (by omega), Nat.mod_eq_of_lt (by omega)]
      rw [BitVec.toNat_add, BitVec.toNat_add, m1, m2, e1, e2, Nat.mod_eq_of_lt (by omega), Nat.mod_eq_of_lt (by omega)]
      omega

/-- A history of three insertions. -/
def exThree : List (Spec.WOp (Nat × Nat) Nat) := [.on 0 (.insert (1, 1)), .on 0 (.insert (2, 2)), .on 0 (.insert (3, 3))]

/-- A node map of three elements of 16 bytes. -/
example : ∃ (t : Tbl (Nat × Nat)) (l : List (Nat × Nat)) (m : U64), Reachable (exCfg groupPortable) t ∧ t.size = 3 ∧ t.capacity = 3 ∧
    t.iterate (exCfg groupPortable) = .ok l ∧
    t.allocatedByteSize (exCfg groupPortable) ⟨8, 8⟩ 16 (fun _ => 16) = .ok m ∧
    (lowerBoundAllocatedByteSize 8 ⟨8, 8⟩ 16 3).toNat ≤ m.toNat ∧ (lowerBoundAllocatedByteSize 8 ⟨8, 8⟩ 16 3).toNat = 88 := by
  have hc := exCfg_contract (G := groupPortable) (.inr (.inr rfl))
  have hrun : (do
      let r ← wrun (exCfg groupPortable) (fun _ => Tbl.empty) exThree
      Res.ok ((r.1 0).size, (r.1 0).capacity)) = .ok (3, 3) := by decide +kernel
  rw [Res.bind_eq_ok] at hrun
  obtain ⟨⟨w, rs⟩, e, hrun⟩ := hrun
  simp only [Res.ok.injEq, Prod.mk.injEq] at hrun
  have hr : Reachable (exCfg groupPortable) (w 0) := ⟨exThree, w, rs, 0, by simp [exThree, Spec.WOp.Valid, Spec.Op.Valid], e, rfl⟩
  obtain ⟨m, h1, h2⟩ := C118_lower hc hr (slot := ⟨8, 8⟩) ⟨by decide, ⟨3, by decide, by decide⟩, ⟨1, by decide⟩⟩ 16 (fun _ => 16)
    (sim_iterate hc (hr.sim hc)) (by rw [hrun.1, hrun.2, if_pos (by decide)]; decide) (n := 3) (by rw [hrun.1])
  exact ⟨w 0, _, m, hr, hrun.1, hrun.2, sim_iterate hc (hr.sim hc), h1, h2, by decide⟩

end Gtl.Props.Debug
