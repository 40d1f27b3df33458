import Verif.Props.HashDefs
import Verif.Swiss.More
/-!
# Property theorems C01-C15, C18-C20: hash containers
-/

namespace Gtl.Props.Hash

open Gtl.Swiss Gtl.Swiss.Tbl
open Gtl.Spec (Op WOp Resp)

variable {α κ ν : Type}

/-! ## Glue -/

theorem Contract.cfgOk {C : Cfg α κ} (h : Contract C) : CfgOk C where
  refl := h.refl
  symm := h.symm
  trans := h.trans
  hash_congr := h.hash_congr
  group := by
    rcases h.group with e | e | e <;> rw [e]
    · exact groupSse2_spec true
    · exact groupSse2_spec false
    · exact groupPortable_spec

theorem wsim_start {C : Cfg α κ} (h : Contract C) : WSim C (fun _ => (Tbl.empty : Tbl α)) (fun _ => []) :=
  fun _ => sim_empty h.cfgOk.group

theorem Reachable.sim [BEq α] [LawfulBEq α] {C : Cfg α κ} (h : Contract C) {t : Tbl α} (hr : Reachable C t) :
    Sim C t (elems t) := by
  obtain ⟨ops, w, rs, i, hv, hw, rfl⟩ := hr
  obtain ⟨w', h1, h2⟩ := wrun_sim h.cfgOk ops (wsim_start h) hv
  rw [hw] at h1
  cases h1
  exact ⟨(h2 i).1, List.Perm.refl _⟩

theorem sim_behaves {C : Cfg α κ} (h : Contract C) {t : Tbl α} {l : List α} (hs : Sim C t l) : BehavesAs C t l := by
  intro ops hv
  obtain ⟨t', h1, h2⟩ := run_sim h.cfgOk ops hs hv
  refine ⟨t', h1, ?_, ?_, destroySlots_sim h.cfgOk h2⟩
  · obtain ⟨⟨c, hi⟩, hp⟩ := h2
    exact ⟨elems t', iterate_spec h.cfgOk.group hi.core, hp⟩
  · exact h2.size

theorem sim_iterate {C : Cfg α κ} (h : Contract C) {t : Tbl α} {l : List α} (hs : Sim C t l) :
    t.iterate C = .ok (elems t) := by
  obtain ⟨⟨c, hi⟩, hp⟩ := id hs
  exact iterate_spec h.cfgOk.group hi.core

theorem sim_at {C : Cfg α κ} (h : Contract C) {t : Tbl α} {l : List α} (hs : Sim C t l) (k : κ) :
    t.at_ C k = .ok (Spec.lookup C.key C.eqv l k) := by
  unfold at_
  rcases find_sim h.cfgOk hs k with ⟨i, a, h1, h2, h3, h4, h5⟩ | ⟨h1, h2, h3⟩
  · rw [h1, h5]; simp only [Res.ok_bind, readSlot_ok' h2]
  · rw [h1, h3]; rfl

theorem reachable_of_valid [BEq α] [LawfulBEq α] {C : Cfg α κ} (h : Contract C) (ops : List (WOp α κ))
    (hv : ∀ op ∈ ops, op.Valid C.key) (i : Nat) :
    ∃ t, Reachable C t ∧ Sim C t ((Spec.wrun C.key C.eqv (fun _ => []) ops).1 i) := by
  obtain ⟨w', h1, h2⟩ := wrun_sim h.cfgOk ops (wsim_start h) hv
  exact ⟨w' i, ⟨ops, w', _, i, hv, h1, rfl⟩, h2 i⟩

/-! ## A concrete instance for the examples -/

/-- Equality modulo 100. -/
def exEqv (k l : Nat) : Bool := k % 100 == l % 100

/-- A map whose keys are compared modulo 100 (a coarse equality), with badly colliding hashes. -/
def exCfg (G : Group) : Cfg (Nat × Nat) Nat where
  key := Prod.fst
  hash k := (k % 100) * 3
  eqv := exEqv
  G := G

theorem exCfg_contract {G : Group} (hG : G = groupSse2 true ∨ G = groupSse2 false ∨ G = groupPortable) :
    Contract (exCfg G) where
  refl k := by simp [exCfg, exEqv]
  symm k l h := by simp only [exCfg, exEqv, beq_iff_eq] at *; exact h.symm
  trans k l m h1 h2 := by simp only [exCfg, exEqv, beq_iff_eq] at *; omega
  hash_congr k l h := by simp only [exCfg, exEqv, beq_iff_eq] at *; omega
  group := hG

/-- 40 insertions, some erasures, a second container, a merge and a copy. -/
def exOps : List (WOp (Nat × Nat) Nat) :=
  (List.range 40).map (fun i => .on 0 (.insert (i, i * i))) ++
  [.on 0 (.erase 107), .on 0 (.insertOrAssign (3, 5) (fun b => (b.1, 5))), .create 1 20,
   .on 1 (.insertRange [(7, 0), (203, 1)]), .merge 0 1, .copy 2 0, .equal 2 0, .on 2 (.eraseIf (fun a => a.2 % 2 == 0)),
   .on 0 (.subscript (50, 0) (fun b => (b.1, 9))), .on 0 (.at 150), .move 3 1, .swap 3 0, .on 3 .size]

theorem exOps_valid {G : Group} : ∀ op ∈ exOps, WOp.Valid (exCfg G).key op := by
  intro op hop
  simp only [exOps, List.mem_append, List.mem_map, List.mem_cons, List.not_mem_nil, or_false] at hop
  rcases hop with ⟨i, _, rfl⟩ | rfl | rfl | rfl | rfl | rfl | rfl | rfl | rfl | rfl | rfl | rfl | rfl | rfl <;>
    simp [WOp.Valid, Op.Valid, exCfg]

/-- The abstract contents after the history above. -/
def exSpec (i : Nat) : List (Nat × Nat) := (Spec.wrun Prod.fst exEqv (fun _ => []) exOps).1 i

theorem exSpec_facts : (exSpec 3).length = 41 ∧ Spec.lookup Prod.fst exEqv (exSpec 3) 150 = some (50, 9) ∧
    Spec.lookup Prod.fst exEqv (exSpec 3) 3 = some (3, 5) ∧ Spec.lookup Prod.fst exEqv (exSpec 3) 60 = none ∧
    Spec.lookup Prod.fst exEqv (exSpec 3) 1 = some (1, 1) ∧
    (Spec.wrun Prod.fst exEqv (fun _ => []) exOps).2.length = 53 := by decide +kernel

/-- The reachable state used by the examples below has 41 elements. -/
theorem exReach {G : Group} (hG : G = groupSse2 true ∨ G = groupSse2 false ∨ G = groupPortable) :
    ∃ t : Tbl (Nat × Nat), Reachable (exCfg G) t ∧ t.size = 41 ∧
      t.at_ (exCfg G) 150 = .ok (some (50, 9)) ∧ t.at_ (exCfg G) 3 = .ok (some (3, 5)) ∧ t.at_ (exCfg G) 60 = .ok none := by
  obtain ⟨t, h1, h2⟩ := reachable_of_valid (exCfg_contract hG) exOps exOps_valid 3
  refine ⟨t, h1, ?_, ?_, ?_, ?_⟩
  · rw [h2.size]; exact exSpec_facts.1
  · rw [sim_at (exCfg_contract hG) h2]; exact congrArg _ exSpec_facts.2.1
  · rw [sim_at (exCfg_contract hG) h2]; exact congrArg _ exSpec_facts.2.2.1
  · rw [sim_at (exCfg_contract hG) h2]; exact congrArg _ exSpec_facts.2.2.2.1

/-! ## C01: history equivalence -/

/-- Every history of calls on any number of containers (including copies, moves, swaps, merges, comparisons) gives
the answers of the abstract containers, and every container holds exactly what its abstract counterpart holds. -/
theorem C01_history [BEq α] [LawfulBEq α] {C : Cfg α κ} (h : Contract C) (ops : List (WOp α κ))
    (hv : ∀ op ∈ ops, op.Valid C.key) :
    ∃ w, wrun C (fun _ => Tbl.empty) ops = .ok (w, (Spec.wrun C.key C.eqv (fun _ => []) ops).2) ∧
      ∀ i, ∃ l, (w i).iterate C = .ok l ∧ l.Perm ((Spec.wrun C.key C.eqv (fun _ => []) ops).1 i) ∧
        (w i).size = ((Spec.wrun C.key C.eqv (fun _ => []) ops).1 i).length ∧
        ∀ k, (w i).at_ C k = .ok (Spec.lookup C.key C.eqv ((Spec.wrun C.key C.eqv (fun _ => []) ops).1 i) k) := by
  obtain ⟨w', h1, h2⟩ := wrun_sim h.cfgOk ops (wsim_start h) hv
  refine ⟨w', h1, fun i => ⟨elems (w' i), sim_iterate h (h2 i), (h2 i).2, (h2 i).size, fun k => sim_at h (h2 i) k⟩⟩

/-- Every reachable container behaves, for ever, like the abstract container with its elements. -/
theorem C01_behaves [BEq α] [LawfulBEq α] {C : Cfg α κ} (h : Contract C) {t : Tbl α} (hr : Reachable C t) :
    ∃ l, t.iterate C = .ok l ∧ BehavesAs C t l :=
  ⟨elems t, sim_iterate h (hr.sim h), sim_behaves h (hr.sim h)⟩

example : ∃ w rs, wrun (exCfg groupPortable) (fun _ => Tbl.empty) exOps = .ok (w, rs) ∧ rs.length = 53 ∧
    (w 3).at_ (exCfg groupPortable) 1 = .ok (some (1, 1)) := by
  obtain ⟨w, h1, h2⟩ := C01_history (exCfg_contract (.inr (.inr rfl))) exOps exOps_valid
  obtain ⟨l, _, _, _, h3⟩ := h2 3
  exact ⟨w, _, h1, exSpec_facts.2.2.2.2.2, by rw [h3]; exact congrArg _ exSpec_facts.2.2.2.2.1⟩

/-! The abstract container is the usual finite map. -/

/-- Looking up after an insertion. -/
theorem spec_lookup_insert {C : Cfg α κ} (h : Contract C) (l : List α) (a : α) (k : κ) :
    Spec.lookup C.key C.eqv (Spec.insert C.key C.eqv l a) k =
      if C.eqv (C.key a) k then (Spec.lookup C.key C.eqv l (C.key a)).or (some a) else Spec.lookup C.key C.eqv l k := by
  have hc : C.eqv (C.key a) k = true → ∀ b, C.eqv (C.key b) (C.key a) = C.eqv (C.key b) k := by
    intro e b
    cases h1 : C.eqv (C.key b) (C.key a) with
    | true => exact (h.trans _ _ _ h1 e).symm
    | false =>
      cases h2 : C.eqv (C.key b) k with
      | false => rfl
      | true => rw [h.trans _ _ _ h2 (h.symm _ _ e)] at h1; cases h1
  unfold Spec.insert
  cases hl : Spec.lookup C.key C.eqv l (C.key a) with
  | some b =>
    simp only [Option.some_or]
    split
    · rename_i e
      rw [← hl]; unfold Spec.lookup
      congr 1; funext b; exact (hc e b).symm
    · rfl
  | none =>
    simp only [Option.none_or]
    unfold Spec.lookup
    rw [List.find?_cons]
    cases C.eqv (C.key a) k <;> rfl

/-- Looking up after an erasure. -/
theorem spec_lookup_erase {C : Cfg α κ} (h : Contract C) (l : List α) (k k' : κ) :
    Spec.lookup C.key C.eqv (Spec.erase C.key C.eqv l k) k' =
      if C.eqv k k' then none else Spec.lookup C.key C.eqv l k' := by
  unfold Spec.lookup Spec.erase
  rw [List.find?_filter]
  split
  · rename_i e
    rw [List.find?_eq_none]
    intro a _ h'
    simp only [Bool.and_eq_true, Bool.not_eq_eq_eq_not, Bool.not_true, decide_eq_true_eq] at h'
    rw [h.trans _ _ _ h'.2 (h.symm _ _ e)] at h'
    exact absurd h'.1 (by simp)
  · rename_i e
    congr 1
    funext a
    cases h1 : C.eqv (C.key a) k' with
    | false => simp
    | true =>
      cases h2 : C.eqv (C.key a) k with
      | false => simp
      | true => exact absurd (h.trans _ _ _ (h.symm _ _ h2) h1) e

/-- Looking up after a modification that keeps keys. -/
theorem spec_lookup_modify {C : Cfg α κ} (h : Contract C) (l : List α) (k k' : κ) (f : α → α)
    (hf : ∀ b, C.key (f b) = C.key b) :
    Spec.lookup C.key C.eqv (Spec.modify C.key C.eqv l k f) k' =
      if C.eqv k k' then (Spec.lookup C.key C.eqv l k').map f else Spec.lookup C.key C.eqv l k' := by
  unfold Spec.lookup Spec.modify
  induction l with
  | nil => simp
  | cons a l ih =>
    have hkey : C.key (if C.eqv (C.key a) k = true then f a else a) = C.key a := by
      split
      · exact hf a
      · rfl
    rw [List.map_cons, List.find?_cons, hkey, List.find?_cons]
    cases h1 : C.eqv (C.key a) k' with
    | false => exact ih
    | true =>
      simp only [Option.map_some]
      cases h2 : C.eqv (C.key a) k with
      | true => rw [h.trans _ _ _ (h.symm _ _ h2) h1]; simp
      | false =>
        have : C.eqv k k' = false := by
          cases h3 : C.eqv k k' with
          | false => rfl
          | true => rw [h.trans _ _ _ h1 (h.symm _ _ h3)] at h2; cases h2
        rw [this]; simp

/-! ## C02: calls terminate and touch only valid memory -/

/-- Every valid call on a reachable container returns (no out-of-bounds access, no access to a raw slot, no
endless loop), and so does the destructor. -/
theorem C02_calls_return [BEq α] [LawfulBEq α] {C : Cfg α κ} (h : Contract C) {t : Tbl α} (hr : Reachable C t) :
    (∀ op : Op α κ, op.Valid C.key → ∃ t' r, t.step C op = .ok (t', r)) ∧
    (∀ (k : κ) (hashval : Nat), ∃ r, t.findHash C k hashval = .ok r) ∧
    (∃ l, t.iterate C = .ok l) ∧ ∃ u, t.destroySlots = .ok u := by
  have hs := hr.sim h
  refine ⟨fun op hv => ?_, fun k hashval => ?_, ⟨_, sim_iterate h hs⟩, destroySlots_sim h.cfgOk hs⟩
  · obtain ⟨t', h1, _⟩ := step_sim h.cfgOk hs op hv
    exact ⟨t', _, h1⟩
  · obtain ⟨⟨c, hi⟩, _⟩ := id hs
    obtain ⟨r, h1⟩ := find_bound h.cfgOk hi (fun a => C.eqv (C.key a) k) hashval
    refine ⟨r, probeFind_mono h1 _ ?_⟩
    unfold fuel
    have hW : 1 ≤ C.G.W := by rcases h.cfgOk.group.width with e | e <;> omega
    calc (t.capacity + C.G.W) / C.G.W = t.capacity / C.G.W + 1 := by
          rw [Nat.add_div_right _ (by omega)]
      _ ≤ t.capacity + 1 := by have := Nat.div_le_self t.capacity C.G.W; omega

example : ∃ t : Tbl (Nat × Nat), Reachable (exCfg (groupSse2 true)) t ∧ t.size = 41 :=
  let ⟨t, h1, h2, _⟩ := exReach (.inl rfl); ⟨t, h1, h2⟩

/-! ## C03: insertion never overwrites -/

theorem C03_insert [BEq α] [LawfulBEq α] {C : Cfg α κ} (h : Contract C) {t : Tbl α} (hr : Reachable C t) (a : α) :
    ∃ old l, t.at_ C (C.key a) = .ok old ∧ t.iterate C = .ok l ∧
    match old with
    | some b => ∃ i, t.emplace C a = .ok (t, i, false) ∧ t.readSlot i = .ok b
    | none => ∃ t' i l', t.emplace C a = .ok (t', i, true) ∧ t'.readSlot i = .ok a ∧ t'.iterate C = .ok l' ∧
        l'.Perm (a :: l) ∧ t'.at_ C (C.key a) = .ok (some a) := by
  have hs := hr.sim h
  refine ⟨_, elems t, sim_at h hs (C.key a), sim_iterate h hs, ?_⟩
  rcases emplace_sim h.cfgOk hs a with ⟨i, b, h1, h2, h3, h4, h5⟩ | ⟨t', i, h1, h2, h3, h4⟩
  · rw [h5]; exact ⟨i, h1, readSlot_ok' h2⟩
  · rw [h4]
    refine ⟨t', i, elems t', h1, readSlot_ok' h2, sim_iterate h h3, h3.2, ?_⟩
    rw [sim_at h h3]
    unfold Spec.lookup
    rw [List.find?_cons, h.refl]

theorem C03_insert_or_assign [BEq (κ × ν)] [LawfulBEq (κ × ν)] {C : Cfg (κ × ν) κ} (h : Contract C)
    (hkey : C.key = Prod.fst) {t : Tbl (κ × ν)} (hr : Reachable C t) (k : κ) (v : ν) :
    ∃ old l t' i ins l', t.at_ C k = .ok old ∧ t.iterate C = .ok l ∧
      t.insertOrAssign C (k, v) (fun b => (b.1, v)) = .ok (t', i, ins) ∧ t'.iterate C = .ok l' ∧
      match old with
      | some (k0, v0) => ins = false ∧ t'.readSlot i = .ok (k0, v) ∧ t'.size = t.size ∧
          l'.Perm (l.map (fun b => if C.eqv b.1 k then (b.1, v) else b))
      | none => ins = true ∧ t'.readSlot i = .ok (k, v) ∧ l'.Perm ((k, v) :: l) := by
  have hs := hr.sim h
  have hk : C.key (k, v) = k := by rw [hkey]
  have hst := step_sim h.cfgOk hs (.insertOrAssign (k, v) (fun b => (b.1, v))) (by intro b; rw [hkey])
  have hat := sim_at h hs k
  simp only [Tbl.step, Spec.step, hk] at hst
  obtain ⟨t', h1, h2⟩ := hst
  obtain ⟨⟨t1, i, ins⟩, h3, h4⟩ := Res.bind_eq_ok.1 h1
  obtain ⟨b, h5, h6⟩ := Res.bind_eq_ok.1 h4
  refine ⟨_, elems t, t1, i, ins, elems t1, hat, sim_iterate h hs, h3, ?_, ?_⟩
  · have : t1 = t' := by cases hl : Spec.lookup C.key C.eqv (elems t) k <;> rw [hl] at h6 <;> cases h6 <;> rfl
    rw [this]; exact sim_iterate h h2
  · cases hl : Spec.lookup C.key C.eqv (elems t) k with
    | some b0 =>
      obtain ⟨k0, v0⟩ := b0
      rw [hl] at h6 h2
      cases h6
      refine ⟨rfl, h5, ?_, ?_⟩
      · rw [h2.size, Spec.modify, List.length_map, ← hs.size]
      · have := h2.2
        simp only [Spec.modify, hkey] at this
        exact this
    | none =>
      rw [hl] at h6 h2
      cases h6
      exact ⟨rfl, h5, h2.2⟩

example : ∃ t : Tbl (Nat × Nat), Reachable (exCfg groupPortable) t ∧
    t.at_ (exCfg groupPortable) ((exCfg groupPortable).key (3, 77)) = .ok (some (3, 5)) :=
  let ⟨t, h1, _, _, h2, _⟩ := exReach (.inr (.inr rfl)); ⟨t, h1, h2⟩

/-! ## C04: size and capacity -/

theorem C04_size [BEq α] [LawfulBEq α] {C : Cfg α κ} (h : Contract C) {t : Tbl α} (hr : Reachable C t) :
    (∃ l, t.iterate C = .ok l ∧ t.size = l.length) ∧ (∃ k, t.capacity = 2 ^ k - 1) ∧
    t.size ≤ t.capacity ∧ (7 ≤ t.capacity → 8 * t.size ≤ 7 * (t.capacity + 1)) ∧ (16 ≤ t.capacity → t.size < t.capacity) := by
  have hs := hr.sim h
  obtain ⟨⟨c, hi⟩, _⟩ := id hs
  obtain ⟨k, hk⟩ := hi.core.raw.pow
  have hg := hi.growth
  have hle := capacityToGrowth_le C.G.W t.capacity
  refine ⟨⟨elems t, sim_iterate h hs, hi.size_eq⟩, ⟨k, by omega⟩, by omega, ?_, ?_⟩
  · intro h7
    have h8 : t.size ≤ capacityToGrowth C.G.W t.capacity := by omega
    have hdvd : (t.capacity + 1) % 8 = 0 := by
      have h3 : 3 ≤ k := by
        by_contra hc
        have : k = 0 ∨ k = 1 ∨ k = 2 := by omega
        rcases this with rfl | rfl | rfl <;> simp at hk <;> omega
      rw [hk, show k = 3 + (k - 3) by omega, pow_add]
      simp
    unfold capacityToGrowth at h8
    split at h8 <;> omega
  · intro h16
    have h8 : t.size ≤ capacityToGrowth C.G.W t.capacity := by omega
    unfold capacityToGrowth at h8
    split at h8 <;> omega

example : ∃ t : Tbl (Nat × Nat), Reachable (exCfg (groupSse2 false)) t ∧ t.size = 41 :=
  let ⟨t, h1, h2, _⟩ := exReach (.inr (.inl rfl)); ⟨t, h1, h2⟩

/-! ## C05: iteration -/

/-- Iteration terminates and yields every contained element exactly once, and nothing else: an element is
visited iff looking its key up gives it, and no two visited elements have equal keys. -/
theorem C05_iteration [BEq α] [LawfulBEq α] {C : Cfg α κ} (h : Contract C) {t : Tbl α} (hr : Reachable C t) :
    ∃ l, t.iterate C = .ok l ∧ l.Pairwise (fun a b => C.eqv (C.key a) (C.key b) = false) ∧
      ∀ a, a ∈ l ↔ t.at_ C (C.key a) = .ok (some a) := by
  have hs := hr.sim h
  have hd := hs.distinct h.cfgOk
  refine ⟨elems t, sim_iterate h hs, hd, fun a => ?_⟩
  rw [sim_at h hs]
  constructor
  · intro ha
    rw [lookup_of_mem h.cfgOk hd ha (h.refl _)]
  · intro he
    cases hl : Spec.lookup C.key C.eqv (elems t) (C.key a) with
    | none => rw [hl] at he; cases he
    | some b =>
      rw [hl] at he; cases he
      exact List.mem_of_find?_eq_some hl

/-! ## C06: erase while iterating -/

theorem C06_erase_iterator [BEq α] [LawfulBEq α] {C : Cfg α κ} (h : Contract C) {t : Tbl α} (hr : Reachable C t)
    {p : Nat} {a : α} (hp : t.readSlot p = .ok a) :
    ∃ t' q l1 l2, t.eraseIt C p = .ok (t', q) ∧
      t.iterate C = .ok (l1 ++ a :: l2) ∧ rest C t p = .ok (a :: l2) ∧
      t'.iterate C = .ok (l1 ++ l2) ∧ rest C t' q = .ok l2 ∧ t'.size + 1 = t.size ∧ BehavesAs C t' (l1 ++ l2) := by
  have hs := hr.sim h
  obtain ⟨⟨c, hi⟩, _⟩ := id hs
  obtain ⟨t', c', q, l1, l2, e1, e2, e3, e4, e5, e6, _⟩ := eraseIt_spec h.cfgOk hi (readSlot_inv hp)
  have hel : elems t' = l1 ++ l2 := by
    have := iterate_spec h.cfgOk.group e2.core
    rw [e5] at this; injection this with e; exact e.symm
  have hel0 : elems t = l1 ++ a :: l2 := by
    have := iterate_spec h.cfgOk.group hi.core
    rw [e3] at this; injection this with e; exact e.symm
  refine ⟨t', q, l1, l2, e1, e3, e4, e5, e6, ?_, sim_behaves h ⟨⟨c', e2⟩, by rw [hel]⟩⟩
  rw [e2.size_eq, hi.size_eq, hel, hel0]; simp only [List.length_append, List.length_cons]; omega

theorem C06_erase_if [BEq α] [LawfulBEq α] {C : Cfg α κ} (h : Contract C) {t : Tbl α} (hr : Reachable C t)
    (pred : α → Bool) :
    ∃ l t', t.iterate C = .ok l ∧ t.eraseIf C pred = .ok (t', l.countP pred) ∧
      t'.iterate C = .ok (l.filter (fun a => !pred a)) ∧ BehavesAs C t' (l.filter (fun a => !pred a)) := by
  have hs := hr.sim h
  obtain ⟨⟨c, hi⟩, _⟩ := id hs
  obtain ⟨t', c', e1, e2, e3⟩ := eraseIf_spec h.cfgOk hi pred
  refine ⟨elems t, t', sim_iterate h hs, e1, ?_, sim_behaves h ⟨⟨c', e2⟩, by rw [e3]⟩⟩
  rw [iterate_spec h.cfgOk.group e2.core, e3]

theorem C06_erase_range [BEq α] [LawfulBEq α] {C : Cfg α κ} (h : Contract C) {t : Tbl α} (hr : Reachable C t)
    {first last : Nat} (hf : IsIter t first) (hl : IsIter t last) (hle : first ≤ last) :
    ∃ t' l1 l2 l3, eraseRange C t.fuel t first last = .ok (t', last) ∧
      t.iterate C = .ok (l1 ++ l2 ++ l3) ∧ rest C t first = .ok (l2 ++ l3) ∧ rest C t last = .ok l3 ∧
      t'.iterate C = .ok (l1 ++ l3) ∧ BehavesAs C t' (l1 ++ l3) := by
  have hs := hr.sim h
  obtain ⟨⟨c, hi⟩, _⟩ := id hs
  have fit : ∀ {p}, IsIter t p → p ≤ t.capacity ∧ (p < t.capacity → ∃ a, t.slots[p]? = some (some a)) := by
    intro p hp
    rcases hp with rfl | ⟨a, ha⟩
    · exact ⟨le_refl _, fun h => absurd h (lt_irrefl _)⟩
    · have := readSlot_inv ha
      exact ⟨Nat.le_of_lt (hi.core.lt this), fun _ => ⟨a, this⟩⟩
  obtain ⟨f1, f2⟩ := fit hf
  obtain ⟨g1, g2⟩ := fit hl
  obtain ⟨t', c', e1, e2, e3, e4⟩ := eraseRange_spec h.cfgOk t.fuel t c first last hi hle g1
    (by unfold fuel; omega) f2 g2
  have hsplit : (t.slots.drop first).filterMap id =
      ((t.slots.drop first).take (last - first)).filterMap id ++ (t.slots.drop last).filterMap id := by
    conv_lhs => rw [← List.take_append_drop (last - first) (t.slots.drop first)]
    rw [List.filterMap_append, List.drop_drop]
    congr 3; omega
  refine ⟨t', (t.slots.take first).filterMap id, ((t.slots.drop first).take (last - first)).filterMap id,
    (t.slots.drop last).filterMap id, e1, ?_, ?_, ?_, ?_, sim_behaves h ⟨⟨c', e2⟩, by rw [e4]⟩⟩
  · rw [sim_iterate h hs, List.append_assoc, ← hsplit]
    unfold elems
    rw [← List.filterMap_append, List.take_append_drop]
  · rw [← hsplit]; exact collect_at h.cfgOk.group hi.core f1 f2
  · exact collect_at h.cfgOk.group hi.core g1 g2
  · rw [iterate_spec h.cfgOk.group e2.core, e4]

/-- Elements of a non-empty reachable container have positions. -/
example : ∃ (t : Tbl (Nat × Nat)) (p : Nat), Reachable (exCfg groupPortable) t ∧ t.readSlot p = .ok (3, 5) := by
  obtain ⟨t, h1, h2⟩ := reachable_of_valid (exCfg_contract (.inr (.inr rfl))) exOps exOps_valid 3
  have e := exSpec_facts.2.2.1
  rcases find_sim (exCfg_contract (.inr (.inr rfl))).cfgOk h2 3 with ⟨i, a, f1, f2, f3, f4, f5⟩ | ⟨f1, f2, f3⟩
  · have : a = (3, 5) := Option.some.inj (f5.symm.trans e)
    subst this
    exact ⟨t, i, h1, readSlot_ok' f2⟩
  · exact absurd (f3.symm.trans e) (by simp)

/-! ## C07: rehash and reserve -/

/-- The part of C07 that holds: for `n ≠ 0` (and for `n = 0` when the elements fit in the smallest capacity that
is at least `size`) the contents survive and the container stays usable. Missing: `n = 0` in general
(`C07_refuted`). -/
theorem C07_rehash_partial [BEq α] [LawfulBEq α] {C : Cfg α κ} (h : Contract C) {t : Tbl α} (hr : Reachable C t) (n : Nat)
    (hn : n ≠ 0 ∨ t.size ≤ capacityToGrowth C.G.W (normalizeCapacity t.size)) :
    ∃ t' l l', t.rehash C n = .ok t' ∧ t.iterate C = .ok l ∧ t'.iterate C = .ok l' ∧ l'.Perm l ∧ n ≤ t'.capacity ∧
      BehavesAs C t' l := by
  have hs := hr.sim h
  obtain ⟨⟨c, hi⟩, _⟩ := id hs
  obtain ⟨t', c', e1, e2, e3, e4, _⟩ := rehash_spec h.cfgOk hi n hn
  exact ⟨t', elems t, elems t', e1, sim_iterate h hs, iterate_spec h.cfgOk.group e2.core, e3, e4,
    sim_behaves h ⟨⟨c', e2⟩, e3⟩⟩

theorem C07_reserve_partial [BEq α] [LawfulBEq α] {C : Cfg α κ} (h : Contract C) {t : Tbl α} (hr : Reachable C t) (n : Nat)
    (hn : n ≠ 0) :
    ∃ t' l l', t.reserve C n = .ok t' ∧ t.iterate C = .ok l ∧ t'.iterate C = .ok l' ∧ l'.Perm l ∧
      BehavesAs C t' l := by
  have hg : growthToLowerboundCapacity C.G.W n ≠ 0 := by
    unfold growthToLowerboundCapacity; split <;> omega
  obtain ⟨t', l, l', h1, h2, h3, h4, _, h6⟩ := C07_rehash_partial h hr _ (.inl hg)
  exact ⟨t', l, l', h1, h2, h3, h4, h6⟩

/-- What goes wrong with `rehash(0)` (and `reserve(0)`, `shrink_to_fit`-style calls): whenever the number of
elements is `2^k - 1` and at least one less than the group width, the call fills the table completely, and then
looking for any absent key never ends, whatever the number of iterations granted. -/
theorem C07_rehash_zero_hangs [BEq α] [LawfulBEq α] {C : Cfg α κ} (h : Contract C) {t : Tbl α} (hr : Reachable C t)
    (hp : ∃ k, t.size + 1 = 2 ^ k) (hbig : C.G.W ≤ t.size + 1) :
    ∃ t' l, t.rehash C 0 = .ok t' ∧ t.reserve C 0 = .ok t' ∧ t.iterate C = .ok l ∧
      ∀ k, (∀ a ∈ l, C.eqv (C.key a) k = false) →
        t'.find C k = .hang ∧
        ∀ fuel, t'.probeFind C (fun a => C.eqv (C.key a) k) (H2 (C.hash k)) fuel
          (Probe.start (C.hash k) t'.capacity) = .hang := by
  have hs := hr.sim h
  obtain ⟨⟨c, hi⟩, _⟩ := id hs
  obtain ⟨t', c', e1, e2, e3, e4, e5, e6⟩ := rehash_zero_full h.cfgOk hi hp hbig
  have hres : t.reserve C 0 = .ok t' := by
    have : growthToLowerboundCapacity C.G.W 0 = 0 := by unfold growthToLowerboundCapacity; split <;> omega
    unfold reserve; rw [this, e1]
  refine ⟨t', elems t, e1, hres, sim_iterate h hs, fun k hk => ?_⟩
  have hall : ∀ fuel, t'.probeFind C (fun a => C.eqv (C.key a) k) (H2 (C.hash k)) fuel
          (Probe.start (C.hash k) t'.capacity) = .hang := by
    intro fuel
    obtain ⟨j, hj⟩ := e2.raw.pow
    rw [probe_start hj C.G.W]
    exact probeFind_hang h.cfgOk.group e2.raw e2.sync (by rw [e4]; exact hbig) e5 _
      (fun a ha => hk a (e3.mem_iff.1 ha)) _ fuel 0
  exact ⟨hall _, hall⟩

/-- Fifteen insertions. -/
def fifteen : List (WOp (Nat × Nat) Nat) := (List.range 15).map (fun i => .on 0 (.insert (i, i)))

theorem fifteen_spec : ((Spec.wrun Prod.fst exEqv (fun _ => []) fifteen).1 0).length = 15 ∧
    ∀ a ∈ (Spec.wrun Prod.fst exEqv (fun _ => []) fifteen).1 0, exEqv a.1 99 = false := by decide +kernel

theorem fifteen_reach {G : Group} (hG : G = groupSse2 true ∨ G = groupSse2 false ∨ G = groupPortable) :
    ∃ t : Tbl (Nat × Nat), Reachable (exCfg G) t ∧ t.size = 15 ∧ ∀ l, t.iterate (exCfg G) = .ok l →
      ∀ a ∈ l, (exCfg G).eqv ((exCfg G).key a) 99 = false := by
  have hv : ∀ op ∈ fifteen, WOp.Valid (exCfg G).key op := by
    intro op hop
    simp only [fifteen, List.mem_map] at hop
    obtain ⟨i, _, rfl⟩ := hop
    trivial
  obtain ⟨t, h1, h2⟩ := reachable_of_valid (exCfg_contract hG) fifteen hv 0
  refine ⟨t, h1, by rw [h2.size]; exact fifteen_spec.1, ?_⟩
  intro l hl a ha
  rw [sim_iterate (exCfg_contract hG) h2] at hl
  cases hl
  exact fifteen_spec.2 a (h2.2.mem_iff.1 ha)

/-- C07 as stated is false for the library: a reachable container, after `rehash(0)`, on which looking up an
absent key does not terminate. Holds for every group implementation. -/
theorem C07_refuted (G : Group) (hG : G = groupSse2 true ∨ G = groupSse2 false ∨ G = groupPortable) :
    ¬ (∀ t : Tbl (Nat × Nat), Reachable (exCfg G) t → ∀ n, ∃ t', t.rehash (exCfg G) n = .ok t' ∧
        ∀ k, ∃ r, t'.find (exCfg G) k = .ok r) := by
  intro hall
  obtain ⟨t, h1, h2, h3⟩ := fifteen_reach hG
  have hW : (exCfg G).G.W ≤ t.size + 1 := by
    rw [h2]; show G.W ≤ _
    rcases hG with rfl | rfl | rfl <;> simp [groupSse2, groupPortable]
  obtain ⟨t', l, e1, _, e3, e4⟩ := C07_rehash_zero_hangs (exCfg_contract hG) h1 ⟨4, by rw [h2]; rfl⟩ hW
  obtain ⟨t2, f1, f2⟩ := hall t h1 0
  rw [e1] at f1
  cases f1
  obtain ⟨r, hr⟩ := f2 99
  rw [(e4 99 (h3 l e3)).1] at hr
  cases hr

/-! ## C08: reserve -/

/-- After `reserve(n)` on a container from which nothing was ever erased, insertions do not reallocate or move
elements as long as the container holds at most `n` of them. -/
theorem C08_reserve {C : Cfg α κ} (h : Contract C) {n0 : Nat} {ops : List (Op α κ)} (hv : ∀ op ∈ ops, op.Valid C.key)
    (hne : ∀ op ∈ ops, NonErasing op) {t : Tbl α} {rs : List (Resp α)}
    (ht : (withBuckets C n0).run C ops = .ok (t, rs)) {n : Nat} (hn : n ≠ 0) :
    ∃ t1, t.reserve C n = .ok t1 ∧ ∀ vs, ∃ t2, insertEach C t1 vs = .ok t2 ∧
      (t2.size ≤ n → t2.capacity = t1.capacity ∧ ∀ i a, t1.readSlot i = .ok a → t2.readSlot i = .ok a) := by
  have hC := h.cfgOk
  have key : ∀ (ops : List (Op α κ)) (t0 : Tbl α) (l : List α) (t : Tbl α) rs, Sim C t0 l → NoTomb C t0 →
      (∀ op ∈ ops, op.Valid C.key) → (∀ op ∈ ops, NonErasing op) → t0.run C ops = .ok (t, rs) →
      ∃ l', Sim C t l' ∧ NoTomb C t := by
    intro ops
    induction ops with
    | nil => intro t0 l t rs h1 h2 _ _ h3; cases h3; exact ⟨l, h1, h2⟩
    | cons op ops ih =>
      intro t0 l t rs h1 h2 hv hne h3
      unfold Tbl.run at h3
      obtain ⟨⟨t1, r⟩, h4, h5⟩ := Res.bind_eq_ok.1 h3
      obtain ⟨⟨t2, rs'⟩, h6, h7⟩ := Res.bind_eq_ok.1 h5
      cases h7
      obtain ⟨t1', g1, g2⟩ := step_sim hC h1 op (hv op List.mem_cons_self)
      rw [h4] at g1
      cases g1
      have hgr : Growing op := by
        have := hne op List.mem_cons_self
        cases op <;> first | exact trivial | exact this
      exact ih t1 _ t rs' g2 (step_noTomb hC h1 h2 op (hv op List.mem_cons_self) hgr h4)
        (fun o ho => hv o (List.mem_cons_of_mem _ ho)) (fun o ho => hne o (List.mem_cons_of_mem _ ho)) h6
  obtain ⟨c0, hi0, he0⟩ := withBuckets_inv (α := α) (κ := κ) hC.group n0
  obtain ⟨l, hs, hT⟩ := key ops _ [] t rs ⟨⟨c0, hi0⟩, by rw [he0]⟩ (withBuckets_noTomb n0) hv hne ht
  obtain ⟨⟨c, hi⟩, hp⟩ := id hs
  have hg : growthToLowerboundCapacity C.G.W n ≠ 0 := by
    unfold growthToLowerboundCapacity; split <;> omega
  obtain ⟨t1, c1, r1, r2, r3, r4, r5, r6⟩ := rehash_spec hC hi _ (.inl hg)
  refine ⟨t1, r1, fun vs => ?_⟩
  obtain ⟨t2, g1, g2, g3⟩ := reserve_grow hC (n := n) vs t1 l ⟨⟨c1, r2⟩, r3.trans hp⟩ (r6 hT)
    (growth_reserve r4 r2.core.raw.pow)
  refine ⟨t2, g1, fun hle => ?_⟩
  obtain ⟨e1, e2⟩ := g3 hle
  exact ⟨e1, fun i a hia => readSlot_ok' (e2 i a (readSlot_inv hia))⟩

example : ∃ (t : Tbl (Nat × Nat)) (rs : List (Resp (Nat × Nat))),
    (withBuckets (exCfg groupPortable) 3).run (exCfg groupPortable)
      [.insertRange [(1, 1), (2, 2), (101, 5)], .rehash 9, .insert (4, 4), .clear, .insert (5, 6)] = .ok (t, rs) := by
  obtain ⟨c0, hi0, he0⟩ := withBuckets_inv (C := exCfg groupPortable) (groupPortable_spec) 3
  obtain ⟨t, h1, _⟩ := sim_behaves (exCfg_contract (.inr (.inr rfl))) (l := []) ⟨⟨c0, hi0⟩, by rw [he0]⟩
    [.insertRange [(1, 1), (2, 2), (101, 5)], .rehash 9, .insert (4, 4), .clear, .insert (5, 6)] (by simp [Op.Valid])
  exact ⟨t, _, h1⟩

/-! ## C09: clean-up of erased slots -/

/-- An insertion of an absent key that has to clean up erased slots (no free slot left to use, but at most half
of the allowed load are live elements) keeps the capacity and all elements. -/
theorem C09_cleanup [BEq α] [LawfulBEq α] {C : Cfg α κ} (h : Contract C) {t : Tbl α} (hr : Reachable C t) (a : α)
    (hcap : t.capacity ≠ 0) (hload : t.size ≤ capacityToGrowth C.G.W t.capacity / 2)
    (habs : t.at_ C (C.key a) = .ok none) :
    ∃ t' i l l', t.emplace C a = .ok (t', i, true) ∧ t'.capacity = t.capacity ∧ t.iterate C = .ok l ∧
      t'.iterate C = .ok l' ∧ l'.Perm (a :: l) ∧ BehavesAs C t' (a :: l) := by
  have hs := hr.sim h
  obtain ⟨⟨c, hi⟩, _⟩ := id hs
  rw [sim_at h hs] at habs
  rcases emplaceHash_spec h.cfgOk hi (C.key a) (fun _ => a) (h.refl _) with
    ⟨i, b, h1, h2, h3⟩ | ⟨h0, t', c', i, h1, h2, h3, h4, h5, h6, h7, h8⟩
  · exfalso
    have := lookup_of_mem h.cfgOk (hs.distinct h.cfgOk) (mem_elems.2 ⟨i, h2⟩) h3
    rw [this] at habs; cases habs
  · exact ⟨t', i, elems t, elems t', h1, h7 hcap hload, sim_iterate h hs, iterate_spec h.cfgOk.group h2.core, h3,
      sim_behaves h ⟨⟨c', h2⟩, h3⟩⟩

/-- The clean-up itself, on any reachable table of at least one group: nothing is lost or duplicated, the capacity
and size stay, and all free slots are usable again. -/
theorem C09_drop_deletes [BEq α] [LawfulBEq α] {C : Cfg α κ} (h : Contract C) {t : Tbl α} (hr : Reachable C t)
    (hbig : C.G.W ≤ t.capacity + 1) :
    ∃ t' l l', t.dropDeletes C = .ok t' ∧ t.iterate C = .ok l ∧ t'.iterate C = .ok l' ∧ l'.Perm l ∧
      t'.capacity = t.capacity ∧ t'.size = t.size ∧
      t'.growthLeft = capacityToGrowth C.G.W t.capacity - t.size ∧ BehavesAs C t' l := by
  have hs := hr.sim h
  obtain ⟨⟨c, hi⟩, _⟩ := id hs
  obtain ⟨t', c', e1, e2, e3, e4, e5, e6, e7⟩ := dropDeletes_inv h.cfgOk hi hbig
  exact ⟨t', elems t, elems t', e1, sim_iterate h hs, iterate_spec h.cfgOk.group e2.core, e3, e4, e5, e6,
    sim_behaves h ⟨⟨c', e2⟩, e3⟩⟩

def manyErased : List (WOp (Nat × Nat) Nat) :=
  (List.range 50).map (fun i => .on 0 (.insert (i, i))) ++ (List.range 30).map (fun i => .on 0 (.erase (i + 5)))

def manySpec : List (Nat × Nat) := (Spec.wrun Prod.fst exEqv (fun _ => []) manyErased).1 0

theorem manyErased_spec : manySpec.length = 20 := by decide +kernel

theorem manyReach {G : Group} (hG : G = groupSse2 true ∨ G = groupSse2 false ∨ G = groupPortable) :
    ∃ t : Tbl (Nat × Nat), Reachable (exCfg G) t ∧ t.size = 20 := by
  have hv : ∀ op ∈ manyErased, WOp.Valid (exCfg G).key op := by
    intro op hop
    simp only [manyErased, List.mem_append, List.mem_map] at hop
    rcases hop with ⟨i, _, rfl⟩ | ⟨i, _, rfl⟩ <;> simp [WOp.Valid, Op.Valid]
  obtain ⟨t, h1, h2⟩ := reachable_of_valid (exCfg_contract hG) _ hv 0
  rw [show (exCfg G).key = Prod.fst from rfl, show (exCfg G).eqv = exEqv from rfl] at h2
  have h3 : Sim (exCfg G) t manySpec := h2
  exact ⟨t, h1, by rw [h3.size]; exact manyErased_spec⟩

/-- Erasing all but a few of the elements of a full table gives states to which the clean-up applies. -/
example : ∃ t : Tbl (Nat × Nat), Reachable (exCfg groupPortable) t ∧ t.capacity ≠ 0 ∧ t.size = 20 ∧
    (exCfg groupPortable).G.W ≤ t.capacity + 1 ∧ t.size ≤ capacityToGrowth (exCfg groupPortable).G.W t.capacity / 2 := by
  obtain ⟨t, h1, hsz⟩ := manyReach (G := groupPortable) (.inr (.inr rfl))
  obtain ⟨ops, w, rs, i, hvo, hw, hwi⟩ := h1
  obtain ⟨t', l, l', f1, f2, f3, f4, f5, f6⟩ := C07_rehash_partial (exCfg_contract (.inr (.inr rfl)))
    ⟨ops, w, rs, i, hvo, hw, hwi⟩ 63 (.inl (by omega))
  -- one more call of rehash(63) makes the capacity visible
  have hr' : Reachable (exCfg groupPortable) t' := by
    refine ⟨ops ++ [.on i (.rehash 63)], Spec.put w i t', rs ++ [.unit], i, ?_, ?_, ?_⟩
    · intro op hop
      rcases List.mem_append.1 hop with h | h
      · exact hvo op h
      · simp only [List.mem_singleton] at h; subst h; simp [WOp.Valid, Op.Valid]
    · have app : ∀ (xs ys : List (WOp (Nat × Nat) Nat)) (w0 w1 w2 : Nat → Tbl (Nat × Nat)) r1 r2,
          wrun (exCfg groupPortable) w0 xs = .ok (w1, r1) → wrun (exCfg groupPortable) w1 ys = .ok (w2, r2) →
          wrun (exCfg groupPortable) w0 (xs ++ ys) = .ok (w2, r1 ++ r2) := by
        intro xs
        induction xs with
        | nil => intro ys w0 w1 w2 r1 r2 h1 h2; cases h1; exact h2
        | cons x xs ih =>
          intro ys w0 w1 w2 r1 r2 h1 h2
          unfold wrun at h1
          obtain ⟨⟨wa, ra⟩, g1, g2⟩ := Res.bind_eq_ok.1 h1
          obtain ⟨⟨wb, rb⟩, g3, g4⟩ := Res.bind_eq_ok.1 g2
          cases g4
          have := ih ys wa w1 w2 rb r2 g3 h2
          simp only [List.cons_append, wrun, g1, this, Res.ok_bind]
      refine app _ _ _ w _ rs [.unit] hw ?_
      simp only [wrun, wstep, Tbl.step, hwi, f1, Res.ok_bind]
    · simp [Spec.put]
  have hsz' : t'.size = 20 := by
    obtain ⟨t2, g1, g2, g3, g4⟩ := f6 [] (by simp)
    simp only [Tbl.run] at g1; cases g1
    simp only [Spec.run] at g3
    obtain ⟨⟨lt, ht1, ht2⟩, _⟩ := C04_size (exCfg_contract (.inr (.inr rfl))) ⟨ops, w, rs, i, hvo, hw, hwi⟩
    rw [f2] at ht1; cases ht1
    omega
  refine ⟨t', hr', by omega, hsz', ?_, ?_⟩
  · show 8 ≤ _; omega
  · rw [hsz']
    unfold capacityToGrowth
    split <;> omega

/-! ## C10: clear -/

theorem C10_clear [BEq α] [LawfulBEq α] {C : Cfg α κ} (h : Contract C) {t : Tbl α} (hr : Reachable C t) :
    ∃ t', t.clear C = .ok t' ∧ t'.size = 0 ∧ t'.iterate C = .ok [] ∧ (∀ k, t'.at_ C k = .ok none) ∧ BehavesAs C t' [] := by
  have hs := hr.sim h
  obtain ⟨⟨c, hi⟩, _⟩ := id hs
  obtain ⟨t', c', e1, e2, e3, e4, e5, _⟩ := clear_spec h.cfgOk hi
  have hs' : Sim C t' [] := ⟨⟨c', e2⟩, by rw [e3]⟩
  exact ⟨t', e1, e4, by rw [sim_iterate h hs', e3], fun k => sim_at h hs' k, sim_behaves h hs'⟩

/-! ## C11: copy, move, swap -/

/-- The copy holds the same elements as the source and behaves like it from then on. The source `u` is not an
output: the model of the copy constructor only reads it (independence of later changes is part of `C01_history`,
whose histories contain copies followed by changes to either container). The old contents of the target are
destroyed. -/
theorem C11_copy [BEq α] [LawfulBEq α] {C : Cfg α κ} (h : Contract C) {t u : Tbl α} (hr : Reachable C t) (hu : Reachable C u) :
    ∃ t' l l', copyAssign C t u = .ok t' ∧ u.iterate C = .ok l ∧ t'.iterate C = .ok l' ∧ l'.Perm l ∧
      t'.size = u.size ∧ BehavesAs C t' l := by
  have hs := hr.sim h
  have hus := hu.sim h
  obtain ⟨⟨c, hi⟩, _⟩ := id hus
  obtain ⟨t', c', e1, e2, e3, e4⟩ := copy_spec h.cfgOk hi
  obtain ⟨x, hx⟩ := destroySlots_sim h.cfgOk hs
  refine ⟨t', elems u, elems t', ?_, sim_iterate h hus, iterate_spec h.cfgOk.group e2.core, e3, ?_,
    sim_behaves h ⟨⟨c', e2⟩, e3⟩⟩
  · unfold copyAssign swap; rw [e1]; simp only [Res.ok_bind, hx]
  · rw [e2.size_eq, hi.size_eq, e3.length_eq]

theorem C11_move [BEq α] [LawfulBEq α] {C : Cfg α κ} (h : Contract C) {t u : Tbl α} (hr : Reachable C t) (hu : Reachable C u) :
    ∃ t' u' l, moveAssign t u = .ok (t', u') ∧ u.iterate C = .ok l ∧ t'.iterate C = .ok l ∧ BehavesAs C t' l ∧
      u'.iterate C = .ok [] ∧ u'.size = 0 ∧ BehavesAs C u' [] := by
  have hs := hr.sim h
  have hus := hu.sim h
  obtain ⟨x, hx⟩ := destroySlots_sim h.cfgOk hs
  have h0 := sim_empty (C := C) h.cfgOk.group
  refine ⟨u, Tbl.empty, elems u, ?_, sim_iterate h hus, sim_iterate h hus, sim_behaves h hus, ?_, rfl, sim_behaves h h0⟩
  · unfold moveAssign move swap; simp only [hx, Res.ok_bind]
  · rw [sim_iterate h h0]; rfl

theorem C11_swap [BEq α] [LawfulBEq α] {C : Cfg α κ} (h : Contract C) {t u : Tbl α} (hr : Reachable C t) (hu : Reachable C u) :
    ∃ l m, t.iterate C = .ok l ∧ u.iterate C = .ok m ∧ BehavesAs C (swap t u).1 m ∧ BehavesAs C (swap t u).2 l :=
  ⟨elems t, elems u, sim_iterate h (hr.sim h), sim_iterate h (hu.sim h), sim_behaves h (hu.sim h), sim_behaves h (hr.sim h)⟩

/-! ## C12: equality -/

theorem C12_equality [BEq α] [LawfulBEq α] {C : Cfg α κ} (h : Contract C) {t u : Tbl α} (hr : Reachable C t) (hu : Reachable C u) :
    ∃ b l m, beqTbl C (· == ·) t u = .ok b ∧ t.iterate C = .ok l ∧ u.iterate C = .ok m ∧
      (b = true ↔ ∀ a, a ∈ l ↔ a ∈ m) ∧ beqTbl C (· == ·) u t = .ok b := by
  have hs := hr.sim h
  have hus := hu.sim h
  obtain ⟨⟨c, hi⟩, _⟩ := id hs
  obtain ⟨⟨d, hj⟩, _⟩ := id hus
  obtain ⟨b, e1, e2⟩ := beqTbl_spec h.cfgOk hi hj
  obtain ⟨b', f1, f2⟩ := beqTbl_spec h.cfgOk hj hi
  have hb : b' = b := by
    rw [Bool.eq_iff_iff, e2, f2]; exact List.perm_comm
  subst hb
  refine ⟨b', elems t, elems u, e1, sim_iterate h hs, sim_iterate h hus, ?_, f1⟩
  rw [e2]
  have nd : ∀ {t : Tbl α}, Sim C t (elems t) → (elems t).Nodup := by
    intro t ht
    refine List.Pairwise.imp ?_ (ht.distinct h.cfgOk)
    intro x y hxy e
    subst e
    rw [h.refl] at hxy; cases hxy
  exact List.perm_ext_iff_of_nodup (nd hs) (nd hus)

theorem C12_reflexive [BEq α] [LawfulBEq α] {C : Cfg α κ} (h : Contract C) {t : Tbl α} (hr : Reachable C t) :
    beqTbl C (· == ·) t t = .ok true := by
  obtain ⟨b, l, m, h1, h2, h3, h4, _⟩ := C12_equality h hr hr
  rw [h2] at h3; cases h3
  rw [h1, h4.2 (fun _ => Iff.rfl)]

/-! ## C13: merge -/

/-- `t.merge(u)`: `t` keeps all its elements and gets those of `u` whose key it lacked; `u` keeps exactly the
elements whose key was already in `t`. -/
theorem C13_merge [BEq α] [LawfulBEq α] {C : Cfg α κ} (h : Contract C) {t u : Tbl α} (hr : Reachable C t) (hu : Reachable C u) :
    ∃ t' u' l m l' m', merge C t u = .ok (t', u') ∧ t.iterate C = .ok l ∧ u.iterate C = .ok m ∧
      t'.iterate C = .ok l' ∧ u'.iterate C = .ok m' ∧
      (∀ a, a ∈ l' ↔ a ∈ l ∨ (a ∈ m ∧ ∀ b ∈ l, C.eqv (C.key b) (C.key a) = false)) ∧
      (∀ a, a ∈ m' ↔ a ∈ m ∧ ∃ b ∈ l, C.eqv (C.key b) (C.key a) = true) ∧
      t'.size + u'.size = t.size + u.size ∧ BehavesAs C t' l' ∧ BehavesAs C u' m' := by
  have hs := hr.sim h
  have hus := hu.sim h
  obtain ⟨⟨c, hi⟩, _⟩ := id hs
  obtain ⟨⟨d, hj⟩, _⟩ := id hus
  obtain ⟨t', u', c', d', e1, e2, e3, e4, e5⟩ := merge_spec h.cfgOk hi hj
  have st : Sim C t' (elems t') := ⟨⟨c', e2⟩, List.Perm.refl _⟩
  have su : Sim C u' (elems u') := ⟨⟨d', e3⟩, List.Perm.refl _⟩
  refine ⟨t', u', elems t, elems u, elems t', elems u', e1, sim_iterate h hs, sim_iterate h hus, sim_iterate h st,
    sim_iterate h su, ?_, ?_, ?_, sim_behaves h st, sim_behaves h su⟩
  · intro a
    rw [e4.mem_iff, List.mem_append, List.mem_filter]
    simp
  · intro a
    rw [e5.mem_iff, List.mem_filter]
    simp
  · rw [e2.size_eq, e3.size_eq, hi.size_eq, hj.size_eq, e4.length_eq, e5.length_eq, List.length_append]
    have := List.length_eq_countP_add_countP (fun a => (elems t).any (fun b => C.eqv (C.key b) (C.key a))) (l := elems u)
    rw [← List.countP_eq_length_filter, ← List.countP_eq_length_filter]
    simp only [Bool.not_eq_true, Bool.decide_eq_false] at this
    omega

/-! ## C14: extract and node insertion -/

theorem C14_extract [BEq α] [LawfulBEq α] {C : Cfg α κ} (h : Contract C) {t : Tbl α} (hr : Reachable C t) (k : κ) :
    ∃ o l t' l', t.at_ C k = .ok o ∧ t.iterate C = .ok l ∧ t.extract C k = .ok (t', o) ∧ t'.iterate C = .ok l' ∧
      l.Perm (o.toList ++ l') ∧ t'.at_ C k = .ok none ∧ BehavesAs C t' l' := by
  have hs := hr.sim h
  have hst := step_sim h.cfgOk hs (.extract k) trivial
  simp only [Tbl.step, Spec.step] at hst
  obtain ⟨t1, h1, h2⟩ := hst
  obtain ⟨⟨t', o⟩, h3, h4⟩ := Res.bind_eq_ok.1 h1
  simp only [Res.ok.injEq, Prod.mk.injEq, Resp.elem.injEq] at h4
  obtain ⟨rfl, rfl⟩ := h4
  refine ⟨_, elems t, t', elems t', sim_at h hs k, sim_iterate h hs, h3, sim_iterate h h2, ?_, ?_,
    sim_behaves h ⟨h2.1, List.Perm.refl _⟩⟩
  · have hp := h2.2
    refine List.Perm.trans ?_ (List.Perm.append_left _ hp.symm)
    cases hl : Spec.lookup C.key C.eqv (elems t) k with
    | none =>
      have := lookup_none.1 hl
      have he : Spec.erase C.key C.eqv (elems t) k = elems t := by
        unfold Spec.erase
        rw [List.filter_eq_self]
        intro a ha; rw [this a ha]; rfl
      rw [he]; simp
    | some a =>
      obtain ⟨l1, l2, hl12, _⟩ : ∃ l1 l2, elems t = l1 ++ a :: l2 ∧ True := by
        obtain ⟨l1, l2, e⟩ := List.append_of_mem (List.mem_of_find?_eq_some hl)
        exact ⟨l1, l2, e, trivial⟩
      have hperm : (elems t).Perm (a :: (l1 ++ l2)) := by rw [hl12]; exact List.perm_middle
      have := erase_some h.cfgOk (hs.distinct h.cfgOk) hperm (List.find?_some (p := fun a => C.eqv (C.key a) k) hl)
      exact hperm.trans (this.symm.cons a)
  · rw [sim_at h h2, spec_lookup_erase h, h.refl, if_pos rfl]

theorem C14_insert_node [BEq α] [LawfulBEq α] {C : Cfg α κ} (h : Contract C) {t : Tbl α} (hr : Reachable C t) (a : α) :
    ∃ o l, t.at_ C (C.key a) = .ok o ∧ t.iterate C = .ok l ∧
      match o with
      | some b => ∃ i, t.insertNode C (some a) = .ok (t, some i, false, some a) ∧ t.readSlot i = .ok b
      | none => ∃ t' i l', t.insertNode C (some a) = .ok (t', some i, true, none) ∧ t'.readSlot i = .ok a ∧
          t'.iterate C = .ok l' ∧ l'.Perm (a :: l) ∧ BehavesAs C t' (a :: l) := by
  have hs := hr.sim h
  refine ⟨_, elems t, sim_at h hs (C.key a), sim_iterate h hs, ?_⟩
  rcases emplace_sim h.cfgOk hs a with ⟨i, b, h1, h2, h3, h4, h5⟩ | ⟨t', i, h1, h2, h3, h4⟩
  · rw [h5]
    unfold emplace at h1
    exact ⟨i, by unfold insertNode; simp only [h1, Res.ok_bind]; rfl, readSlot_ok' h2⟩
  · rw [h4]
    unfold emplace at h1
    exact ⟨t', i, elems t', by unfold insertNode; simp only [h1, Res.ok_bind]; rfl, readSlot_ok' h2, sim_iterate h h3,
      h3.2, sim_behaves h h3⟩

/-! ## C15: throwing constructors -/

/-- What does hold: after the exception, the container holds the same elements and every lookup gives the same
answer as before. Missing: `size()` (`C15_refuted`). -/
theorem C15_throw_partial [BEq α] [LawfulBEq α] {C : Cfg α κ} (h : Contract C) {t : Tbl α} (hr : Reachable C t) (a : α) :
    ∃ t' b l l', t.emplaceThrow C (C.key a) (C.hash (C.key a)) = .ok (t', b) ∧ t.iterate C = .ok l ∧
      t'.iterate C = .ok l' ∧ l'.Perm l ∧ (∀ k, t'.at_ C k = t.at_ C k) ∧ ∃ u, t'.destroySlots = .ok u := by
  have hs := hr.sim h
  obtain ⟨⟨c, hi⟩, _⟩ := id hs
  by_cases hex : ∃ b ∈ elems t, C.eqv (C.key b) (C.key a) = true
  · refine ⟨t, false, elems t, elems t, emplaceThrow_present h.cfgOk hi _ hex, sim_iterate h hs, sim_iterate h hs,
      List.Perm.refl _, fun _ => rfl, destroySlots_sim h.cfgOk hs⟩
  · have hnew : ∀ b ∈ elems t, C.eqv (C.key b) (C.key a) = false := by
      intro b hb
      cases e : C.eqv (C.key b) (C.key a) with
      | false => rfl
      | true => exact absurd ⟨b, hb, e⟩ hex
    obtain ⟨t1, c1, e1, e2, e3, e4, e5⟩ := emplaceThrow_spec h.cfgOk hi a hnew
    obtain ⟨u, hu, _⟩ := destroySlots_spec h.cfgOk e3
    refine ⟨t1, true, elems t, elems t1, e1, sim_iterate h hs, iterate_spec h.cfgOk.group e3, e5, ?_, ⟨u, hu⟩⟩
    intro k
    rw [sim_at h hs]
    unfold at_
    rcases find_core h.cfgOk e3 e4 k with ⟨i, x, f1, f2, f3⟩ | ⟨f1, f2⟩
    · rw [f1]
      have hx : x ∈ elems t := e5.mem_iff.1 (mem_elems.2 ⟨i, f2⟩)
      rw [lookup_of_mem h.cfgOk (hs.distinct h.cfgOk) hx f3]
      simp only [Res.ok_bind, readSlot_ok' f2]
    · rw [f1, lookup_none.2 (fun x hx => f2 x (e5.mem_iff.2 hx))]; rfl

/-- In every reachable state, a throwing insertion of an absent key leaves `size()` one too large. -/
theorem C15_size_off_by_one [BEq α] [LawfulBEq α] {C : Cfg α κ} (h : Contract C) {t : Tbl α} (hr : Reachable C t) (a : α)
    (habs : t.at_ C (C.key a) = .ok none) :
    ∃ t' l', t.emplaceThrow C (C.key a) (C.hash (C.key a)) = .ok (t', true) ∧ t'.iterate C = .ok l' ∧
      t'.size = l'.length + 1 := by
  have hs := hr.sim h
  obtain ⟨⟨c, hi⟩, _⟩ := id hs
  rw [sim_at h hs] at habs
  have hnew : ∀ b ∈ elems t, C.eqv (C.key b) (C.key a) = false := by
    apply lookup_none.1
    cases hl : Spec.lookup C.key C.eqv (elems t) (C.key a) with
    | none => rfl
    | some b => rw [hl] at habs; cases habs
  obtain ⟨t1, c1, e1, e2, e3, e4, e5⟩ := emplaceThrow_spec h.cfgOk hi a hnew
  exact ⟨t1, elems t1, e1, iterate_spec h.cfgOk.group e3, by rw [e2, hi.size_eq, e5.length_eq]⟩

/-- C15 as stated is false for the library. -/
theorem C15_refuted (G : Group) (hG : G = groupSse2 true ∨ G = groupSse2 false ∨ G = groupPortable) :
    ¬ (∀ t : Tbl (Nat × Nat), Reachable (exCfg G) t → ∀ a, ∃ t' b,
        t.emplaceThrow (exCfg G) ((exCfg G).key a) ((exCfg G).hash ((exCfg G).key a)) = .ok (t', b) ∧ t'.size = t.size) := by
  intro hall
  obtain ⟨t, h1, h2, _, _, h5⟩ := exReach hG
  obtain ⟨t', b, f1, f2⟩ := hall t h1 (60, 0)
  obtain ⟨t2, l', g1, g2, g3⟩ := C15_size_off_by_one (exCfg_contract hG) h1 (60, 0) h5
  obtain ⟨t3, b3, l, l3, k1, k2, k3, k4, _⟩ := C15_throw_partial (exCfg_contract hG) h1 (60, 0)
  obtain ⟨⟨lt, m1, m2⟩, _⟩ := C04_size (exCfg_contract hG) h1
  rw [f1] at g1 k1
  cases g1; cases k1
  rw [g2] at k3; cases k3
  rw [k2] at m1; cases m1
  have := k4.length_eq
  omega

/-- An exception during the copy constructor, at any element, makes the clean-up destroy a slot that was never
constructed (undefined behaviour). -/
theorem C15_copy_throw_refuted [BEq α] [LawfulBEq α] {C : Cfg α κ} (h : Contract C) {t : Tbl α} (hr : Reachable C t)
    {n : Nat} (hn : n < t.size) : t.copyThrow C n = .ub := by
  obtain ⟨⟨c, hi⟩, _⟩ := hr.sim h
  exact copyThrow_ub h.cfgOk hi hn

/-! ## C18: the group implementations agree -/

/-- Same history, any two group implementations: same answers, same contents. -/
theorem C18_same_results [BEq α] [LawfulBEq α] {C D : Cfg α κ} (hC : Contract C) (hD : Contract D)
    (hk : C.key = D.key) (he : C.eqv = D.eqv) (ops : List (WOp α κ)) (hv : ∀ op ∈ ops, op.Valid C.key) :
    ∃ w v rs, wrun C (fun _ => Tbl.empty) ops = .ok (w, rs) ∧ wrun D (fun _ => Tbl.empty) ops = .ok (v, rs) ∧
      ∀ i, ∃ l m, (w i).iterate C = .ok l ∧ (v i).iterate D = .ok m ∧ l.Perm m := by
  obtain ⟨w, h1, h2⟩ := C01_history hC ops hv
  obtain ⟨v, h3, h4⟩ := C01_history hD ops (by rw [← hk]; exact hv)
  rw [← hk, ← he] at h3 h4
  refine ⟨w, v, _, h1, h3, fun i => ?_⟩
  obtain ⟨l, a1, a2, _⟩ := h2 i
  obtain ⟨m, b1, b2, _⟩ := h4 i
  exact ⟨l, m, a1, b1, a2.trans b2.symm⟩

/-- The group functions, stated on the bytes: for every group of `W` control bytes and every 7-bit tag, the match
set contains all true matches and only occupied slots; the empty and empty-or-deleted masks are exact (non-zero
iff there is one, and their lowest set bit is the first one); the leading count is exact; the special conversion
is exact. -/
theorem C18_group (G : Group) (hG : G = groupSse2 true ∨ G = groupSse2 false ∨ G = groupPortable) (g : List Ctrl)
    (hlen : g.length = G.W) (hv : ∀ c ∈ g, c = kEmpty ∨ c = kDeleted ∨ c = kSentinel ∨ c.toNat < 128) :
    (∀ (h : Ctrl), h.toNat < 128 → (∀ j, g[j]? = some h → j ∈ (G.matchH2 g h).toList) ∧
      ∀ j ∈ (G.matchH2 g h).toList, ∃ c, g[j]? = some c ∧ c.toNat < 128) ∧
    ((G.matchEmpty g).toBool = true ↔ kEmpty ∈ g) ∧
    ((G.matchEmptyOrDeleted g).toBool = true ↔ kEmpty ∈ g ∨ kDeleted ∈ g) ∧
    (kEmpty ∈ g ∨ kDeleted ∈ g → (G.matchEmptyOrDeleted g).lowest = g.findIdx (fun c => c == kEmpty || c == kDeleted)) ∧
    G.countLeadingEmptyOrDeleted g = (g.takeWhile (fun c => c == kEmpty || c == kDeleted)).length ∧
    G.convertSpecial g = g.map (fun c => if c.toNat < 128 then kDeleted else kEmpty) := by
  have full : ∀ c : Ctrl, isFull c = decide (c.toNat < 128) := forall_ctrl (by decide +kernel)
  have hval : ∀ c ∈ g, Valid c := by
    intro c hc
    rcases hv c hc with e | e | e | e
    · subst e; unfold Valid; decide
    · subst e; unfold Valid; decide
    · subst e; unfold Valid; decide
    · have := full c
      rw [decide_eq_true e] at this
      unfold Valid; simp [this]
  have hS : GroupSpec G := by
    rcases hG with rfl | rfl | rfl
    · exact groupSse2_spec true
    · exact groupSse2_spec false
    · exact groupPortable_spec
  have eod : ((G.matchEmptyOrDeleted g).toBool = true ↔ kEmpty ∈ g ∨ kDeleted ∈ g) := by
    rw [hS.matchEod_bool g hlen hval]
    constructor
    · rintro ⟨j, c, h1, rfl | rfl⟩
      · exact .inl (List.mem_of_getElem? h1)
      · exact .inr (List.mem_of_getElem? h1)
    · rintro (h | h)
      · obtain ⟨j, hj⟩ := List.getElem?_of_mem h
        exact ⟨j, _, hj, .inl rfl⟩
      · obtain ⟨j, hj⟩ := List.getElem?_of_mem h
        exact ⟨j, _, hj, .inr rfl⟩
  have firstIdx : ∀ (n : Nat) (l : List Ctrl), (∀ j c, j < n → l[j]? = some c → ¬ (c = kEmpty ∨ c = kDeleted)) →
      (∃ c, l[n]? = some c ∧ (c = kEmpty ∨ c = kDeleted)) → l.findIdx (fun c => c == kEmpty || c == kDeleted) = n := by
    intro n l h1 h2
    obtain ⟨c, h3, h4⟩ := h2
    have hn : n < l.length := by rw [List.getElem?_eq_some_iff] at h3; exact h3.1
    rw [List.findIdx_eq hn]
    rw [List.getElem?_eq_getElem hn] at h3
    cases h3
    refine ⟨by simpa using h4, fun j hj => ?_⟩
    have := h1 j _ hj (List.getElem?_eq_getElem (by omega))
    simpa using this
  have lead : ∀ (n : Nat) (l : List Ctrl), n ≤ l.length → (∀ j c, j < n → l[j]? = some c → (c = kEmpty ∨ c = kDeleted)) →
      (∀ c, l[n]? = some c → ¬ (c = kEmpty ∨ c = kDeleted)) →
      n = (l.takeWhile (fun c => c == kEmpty || c == kDeleted)).length := by
    intro n
    induction n with
    | zero =>
      intro l _ _ h2
      cases l with
      | nil => rfl
      | cons a l =>
        have := h2 a (by simp)
        rw [List.takeWhile_cons_of_neg (by simpa using this)]; rfl
    | succ n ih =>
      intro l hl h1 h2
      cases l with
      | nil => simp at hl
      | cons a l =>
        have := h1 0 a (by omega) (by simp)
        rw [List.takeWhile_cons_of_pos (by simpa using this), List.length_cons]
        congr 1
        refine ih l (by simpa using hl) (fun j c hj hc => h1 (j + 1) c (by omega) (by simpa using hc)) (fun c hc => h2 c (by simpa using hc))
  refine ⟨fun h hh => ⟨fun j hj => ?_, fun j hj => ?_⟩, ?_, eod, fun he => ?_, ?_, ?_⟩
  · exact hS.matchH2_complete g h hlen hval (by rw [full]; simpa using hh) j hj
  · obtain ⟨c, h1, h2⟩ := hS.matchH2_sound g h hlen hval (by rw [full]; simpa using hh) j hj
    rw [full] at h2
    exact ⟨c, h1, by simpa using h2⟩
  · rw [hS.matchEmpty_bool g hlen hval]
    constructor
    · rintro ⟨j, hj⟩; exact List.mem_of_getElem? hj
    · intro h; exact List.getElem?_of_mem h
  · obtain ⟨h1, h2⟩ := hS.matchEod_first g hlen hval (eod.2 he)
    exact (firstIdx _ g (fun j c hj hc => h2 j hj c hc) h1).symm
  · obtain ⟨h1, h2, h3⟩ := hS.countLeading g hlen hval
    exact lead _ g (by rw [hlen]; exact h1) h2 h3
  · rw [hS.convert g hlen hval]
    apply List.map_congr_left
    intro c _
    rw [full]
    by_cases h : c.toNat < 128 <;> simp [h]

example : ([0x05#8, kEmpty, kDeleted, kSentinel, 0x7f#8, 0x05#8, 0x04#8, kEmpty] : List Ctrl).length = groupPortable.W ∧
    ∀ c ∈ ([0x05#8, kEmpty, kDeleted, kSentinel, 0x7f#8, 0x05#8, 0x04#8, kEmpty] : List Ctrl),
      c = kEmpty ∨ c = kDeleted ∨ c = kSentinel ∨ c.toNat < 128 := by decide

/-! ## C19: probing -/

/-- State of `probe_seq` after `n` calls of `next()`. -/
def probeNth (W cap hash : Nat) : Nat → Probe
  | 0 => Probe.start hash cap
  | n + 1 => (probeNth W cap hash n).next W cap

theorem probeNth_eq {cap k : Nat} (h : cap + 1 = 2 ^ k) (W hash : Nat) : ∀ n, probeNth W cap hash n = probeAt W cap hash n
  | 0 => probe_start h W hash
  | n + 1 => by rw [probeNth, probeNth_eq h W hash n, probe_next h]

/-- Every slot lies in one of the first `⌈(capacity + 1) / W⌉` groups of the probe sequence of any hash value. -/
theorem C19_probe_covers {cap k : Nat} (hcap : cap + 1 = 2 ^ k) {W : Nat} (hW : W = 8 ∨ W = 16) (hash slot : Nat)
    (hs : slot ≤ cap) : ∃ n < (cap + W) / W, ∃ j < W, (probeNth W cap hash n).at_ cap j = slot := by
  have hWpos : 0 < W := by omega
  by_cases hle : W ≤ cap + 1
  · obtain ⟨w, _, hw⟩ := width_pow hW
    obtain ⟨n, j, n1, n2, n3⟩ := off_cover hcap hw hle hash slot hs
    refine ⟨n, ?_, j, n2, ?_⟩
    · have hd : W ∣ cap + 1 := by
        rw [hcap, hw]
        apply pow_dvd_pow
        by_contra hcon
        have : 2 ^ k < 2 ^ w := Nat.pow_lt_pow_right (by omega) (by omega)
        omega
      obtain ⟨q, hq⟩ := hd
      rw [Nat.lt_div_iff_mul_lt hWpos]
      have : n < q := by
        rw [hq, Nat.mul_comm] at n1
        exact Nat.lt_of_mul_lt_mul_left n1
      have : W * (n + 1) ≤ W * q := Nat.mul_le_mul_left _ this
      rw [Nat.mul_add] at this
      omega
    · rw [probeNth_eq hcap, Probe.at_, land_cap hcap]; exact n3
  · refine ⟨0, Nat.div_pos (by omega) hWpos, ?_⟩
    have hoff := off_le W cap hash 0
    refine ⟨(slot + (cap + 1) - off W cap hash 0) % (cap + 1), ?_, ?_⟩
    · have := Nat.mod_lt (slot + (cap + 1) - off W cap hash 0) (show 0 < cap + 1 by omega)
      omega
    · rw [probeNth_eq hcap, Probe.at_, land_cap hcap]
      show (off W cap hash 0 + _) % _ = _
      rw [Nat.add_mod_mod, show off W cap hash 0 + (slot + (cap + 1) - off W cap hash 0) = slot + (cap + 1) by omega,
        Nat.add_mod_right, Nat.mod_eq_of_lt (by omega)]

/-- A lookup in a reachable container inspects at most `⌈(capacity + 1) / W⌉` groups. -/
theorem C19_lookup_bound [BEq α] [LawfulBEq α] {C : Cfg α κ} (h : Contract C) {t : Tbl α} (hr : Reachable C t) (k : κ) :
    t.probeFind C (fun a => C.eqv (C.key a) k) (H2 (C.hash k)) ((t.capacity + C.G.W) / C.G.W)
      (Probe.start (C.hash k) t.capacity) = t.find C k := by
  have hs := hr.sim h
  obtain ⟨⟨c, hi⟩, _⟩ := id hs
  obtain ⟨r, h1⟩ := find_bound h.cfgOk hi (fun a => C.eqv (C.key a) k) (C.hash k)
  rw [h1]
  unfold find findHash
  rw [probeFind_mono h1]
  unfold fuel
  have hW : 1 ≤ C.G.W := by rcases h.cfgOk.group.width with e | e <;> omega
  rw [Nat.add_div_right _ (by omega)]
  have := Nat.div_le_self t.capacity C.G.W
  omega

example : (63 : Nat) + 1 = 2 ^ 6 := rfl

/-! ## C20: precomputed hashes and coarse equality -/

/-- Looking up with any equivalent key, and with a hash computed beforehand from an equivalent key, finds the same
element. -/
theorem C20_equivalent_keys [BEq α] [LawfulBEq α] {C : Cfg α κ} (h : Contract C) {t : Tbl α} (hr : Reachable C t)
    {k k' : κ} (hk : C.eqv k k' = true) :
    t.at_ C k = t.at_ C k' ∧ t.findHash C k (C.hash k') = t.find C k ∧
    (∀ mk : Unit → α, C.eqv (C.key (mk ())) k = true → ∀ r, t.emplaceHash C k (C.hash k') mk = .ok r →
      r.2.2 = false ∧ (∃ b, t.at_ C k = .ok (some b) ∧ r.1 = t ∧ t.readSlot r.2.1 = .ok b) ∨
      r.2.2 = true ∧ t.at_ C k = .ok none ∧ r.1.at_ C k' = .ok (some (mk ()))) := by
  have hs := hr.sim h
  have hh : C.hash k' = C.hash k := (h.hash_congr _ _ hk).symm
  have same : ∀ b : α, C.eqv (C.key b) k = C.eqv (C.key b) k' := by
    intro b
    rw [Bool.eq_iff_iff]
    exact ⟨fun e => h.trans _ _ _ e hk, fun e => h.trans _ _ _ e (h.symm _ _ hk)⟩
  refine ⟨?_, by rw [hh]; rfl, ?_⟩
  · rw [sim_at h hs, sim_at h hs]
    unfold Spec.lookup
    congr 2; funext b; exact same b
  · intro mk hmk r hr'
    rw [hh] at hr'
    obtain ⟨⟨c, hi⟩, _⟩ := id hs
    rcases emplaceHash_spec h.cfgOk hi k mk hmk with ⟨i, b, h1, h2, h3⟩ | ⟨h0, t', c', i, h1, h2, h3, h4, _⟩
    · rw [h1] at hr'; cases hr'
      refine .inl ⟨rfl, b, ?_, rfl, readSlot_ok' h2⟩
      rw [sim_at h hs, lookup_of_mem h.cfgOk (hs.distinct h.cfgOk) (mem_elems.2 ⟨i, h2⟩) h3]
    · rw [h1] at hr'; cases hr'
      have hs' : Sim C t' (elems t') := ⟨⟨c', h2⟩, List.Perm.refl _⟩
      refine .inr ⟨rfl, ?_, ?_⟩
      · rw [sim_at h hs, lookup_none.2 h0]
      · show t'.at_ C k' = _
        rw [sim_at h hs', lookup_of_mem h.cfgOk (hs'.distinct h.cfgOk) (mem_elems.2 ⟨i, h4⟩) (by rw [← same]; exact hmk)]

/-- At most one element per key class, however coarse the equality. -/
theorem C20_one_per_class [BEq α] [LawfulBEq α] {C : Cfg α κ} (h : Contract C) {t : Tbl α} (hr : Reachable C t) (k : κ) :
    ∃ l, t.iterate C = .ok l ∧ (l.filter (fun a => C.eqv (C.key a) k)).length ≤ 1 := by
  have hs := hr.sim h
  refine ⟨elems t, sim_iterate h hs, ?_⟩
  rw [← List.countP_eq_length_filter]
  by_cases hex : ∃ a ∈ elems t, C.eqv (C.key a) k = true
  · obtain ⟨a, ha, ea⟩ := hex
    rw [countP_key h.cfgOk (hs.distinct h.cfgOk) ha ea]
  · rw [List.countP_eq_zero.2 (fun a ha e => hex ⟨a, ha, e⟩)]; omega

example : (exCfg groupPortable).eqv 103 3 = true ∧ (103 : Nat) ≠ 3 := by decide

end Gtl.Props.Hash
