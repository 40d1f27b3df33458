import Verif.Swiss.ThrowHist
import Verif.Props.HashTable
/-!
# Property theorem C81: a hash container is used on after exceptions

The specification of a container whose element constructors throw is `Verif.Spec.Throws`.
-/

namespace Gtl.Props.HashThrow

open Gtl.Swiss
open Gtl.Swiss.Tbl
open Gtl.Spec (Op TOp Resp TResp)
open Gtl.Props.Hash (Contract)

variable {α κ : Type}

/-! ## What holds -/

/-- The table is usable: lookups and iteration give the contents, the destructor works, and `clear()` gives a container that
answers every history of calls as a new one does. -/
structure Usable (C : Cfg α κ) (t : Tbl α) (l : List α) (excess : Nat) : Prop where
  elements : ∃ es, t.iterate C = .ok es ∧ es.Perm l
  size : t.size = l.length + excess
  lookup : ∀ k, t.at_ C k = .ok (Spec.lookup C.key C.eqv l k)
  destroy : ∃ u, t.destroySlots = .ok u
  clear : ∃ t', t.clear C = .ok t' ∧ ∀ ops : List (Op α κ), (∀ op ∈ ops, op.Valid C.key) →
    ∃ t2, t'.run C ops = .ok (t2, (Spec.run C.key C.eqv [] ops).2)

theorem usable {C : Cfg α κ} (hC : CfgOk C) {nd : Prop} {t : Tbl α} {l : List α} {p s : Nat} (h : PSim C nd t l p s) :
    Usable C t l p := by
  refine ⟨?_, h.size, ?_, ?_, ?_⟩
  · obtain ⟨c, q, hi, _, _, hp⟩ := id h
    exact ⟨elems t, iterate_spec hC.group hi.core, hp⟩
  · intro k
    unfold at_
    rcases find_psim hC h k with ⟨i, a, h1, h2, h3, h4, h5⟩ | ⟨h1, h2, h3⟩
    · rw [h1, h5]
      simp only [Res.ok_bind, readSlot_ok' h2]
    · rw [h1, h3]
      simp only [Res.ok_bind]
  · obtain ⟨c, q, hi, _, _, _⟩ := id h
    obtain ⟨u, hu, _⟩ := destroySlots_spec hC hi.core
    exact ⟨u, hu⟩
  · obtain ⟨t', h1, c, q, h2, h3, _, h4⟩ := clear_psim hC h 0
    have hq0 : q = 0 := h2.zero rfl
    subst hq0
    refine ⟨t', h1, fun ops hv => ?_⟩
    obtain ⟨t2, g1, _⟩ := run_sim hC ops (show Sim C t' [] from ⟨⟨c, h2.inv⟩, h4⟩) hv
    exact ⟨t2, g1⟩

/-- C81 where it holds. In every history of calls in which constructors throw, if no single element is ever erased or if there
are at most seven exceptions between two calls of `clear()`, every call but `size()` answers as if the calls that threw had
not been made, and `size()` answers the number of elements plus the number of exceptions since the last `clear()`. Missing:
`size()` (already refuted by `C15_refuted`), and more exceptions together with erasures (`C81_hang_refuted`). -/
theorem C81_history_partial {C : Cfg α κ} (h : Contract C) (ops : List (TOp α κ)) (hv : ∀ op ∈ ops, op.Valid C.key)
    (hfew : Spec.Few 7 0 ops ∨ ∀ op ∈ ops, ¬ op.Erases) :
    ∃ t, (Tbl.empty : Tbl α).trun C ops = .ok (t, (Spec.trun C.key C.eqv [] 0 ops).2.2) ∧
      Usable C t (Spec.trun C.key C.eqv [] 0 ops).1 (Spec.trun C.key C.eqv [] 0 ops).2.1 := by
  have hC := h.cfgOk
  rcases hfew with hf | hf
  · obtain ⟨t, s, h1, _, h2⟩ := trun_few hC ops Tbl.empty [] 0 0 (PSim.empty hC.group) (by omega) hf hv
    exact ⟨t, h1, usable hC h2⟩
  · obtain ⟨t, h1, h2⟩ := trun_grow hC ops Tbl.empty [] 0 (PSim.empty hC.group) hv hf
    exact ⟨t, h1, usable hC h2⟩

/-- The same, from any state a program without exceptions can reach. -/
theorem C81_later_partial [BEq α] [LawfulBEq α] {C : Cfg α κ} (h : Contract C) {t : Tbl α} (hr : Hash.Reachable C t)
    (ops : List (TOp α κ)) (hv : ∀ op ∈ ops, op.Valid C.key) (hfew : Spec.Few 7 0 ops) :
    ∃ l t', t.iterate C = .ok l ∧ t.trun C ops = .ok (t', (Spec.trun C.key C.eqv l 0 ops).2.2) ∧
      Usable C t' (Spec.trun C.key C.eqv l 0 ops).1 (Spec.trun C.key C.eqv l 0 ops).2.1 := by
  have hC := h.cfgOk
  have hs := hr.sim h
  obtain ⟨⟨c, hi⟩, _⟩ := id hs
  have hs' : Sim C t (elems t) := ⟨⟨c, hi⟩, List.Perm.refl _⟩
  obtain ⟨t', s, h1, _, h2⟩ := trun_few hC ops t (elems t) 0 0 (PSim.of_sim hs' id) (by omega) hfew hv
  exact ⟨elems t, t', iterate_spec hC.group hi.core, h1, usable hC h2⟩

/-! ## What does not hold -/

/-- Every group of the table is without an empty byte and without the tag of the key. -/
def stuck (C : Cfg α κ) (t : Tbl α) (k : κ) : Bool :=
  (List.range (t.capacity + 1)).all fun o => match t.load C.G.W o with
    | .ok g => !(C.G.matchEmpty g).toBool && (C.G.matchH2 g (H2 (C.hash k))).toList.isEmpty
    | _ => false

/-- The search of such a key never ends, whatever the number of iterations. -/
theorem stuck_hang {C : Cfg α κ} {t : Tbl α} {k : κ} (h : stuck C t k = true) :
    ∀ fuel, t.probeFind C (fun a => C.eqv (C.key a) k) (H2 (C.hash k)) fuel (Probe.start (C.hash k) t.capacity) = .hang := by
  have key : ∀ fuel (p : Probe), p.offset ≤ t.capacity →
      t.probeFind C (fun a => C.eqv (C.key a) k) (H2 (C.hash k)) fuel p = .hang := by
    intro fuel
    induction fuel with
    | zero => intro p _; rfl
    | succ fuel ih =>
      intro p hp
      unfold Tbl.probeFind
      have h1 := List.all_eq_true.1 h p.offset (List.mem_range.2 (by omega))
      cases hl : t.load C.G.W p.offset with
      | ub => rw [hl] at h1; cases h1
      | hang => rw [hl] at h1; cases h1
      | ok g =>
        rw [hl] at h1
        simp only [Bool.and_eq_true, Bool.not_eq_true', List.isEmpty_iff] at h1
        simp only [Res.ok_bind, h1.2, Tbl.scan, h1.1, Bool.false_eq_true, if_false]
        exact ih _ Nat.and_le_right
  exact fun fuel => key fuel _ Nat.and_le_right

/-- Keys with the hash 129 k: the probe for `k` starts at slot `k`, and the tag is `k`. -/
def badCfg (G : Group) : Cfg (Nat × Nat) Nat where
  key := Prod.fst
  hash k := k * 129
  eqv a b := a == b
  G := G

theorem badCfg_contract {G : Group} (hG : G = groupSse2 true ∨ G = groupSse2 false ∨ G = groupPortable) :
    Contract (badCfg G) where
  refl k := by simp [badCfg]
  symm k l h := by simp only [badCfg, beq_iff_eq] at *; exact h.symm
  trans k l m h1 h2 := by simp only [badCfg, beq_iff_eq] at *; omega
  hash_congr k l h := by simp only [badCfg, beq_iff_eq] at *; rw [h]
  group := hG

/-- 28 insertions fill a table of 31 slots; one element is erased from the middle; an insertion that meets the mark it left
throws, 30 times; 36 more insertions. -/
def badOps : List (TOp (Nat × Nat) Nat) :=
  (List.range 28).map (fun i => .call (.insert (i, 0))) ++ [.call (.erase 14)] ++
  List.replicate 30 (.throwing (46, 0)) ++
  (List.range 35).map (fun i => .call (.insert (28 + i, 0))) ++ [.call (.insert (14, 0))]

/-- The end of the history: elements, size, capacity, and whether the search for 100 is stuck. -/
def badEnd (G : Group) : Res (List Nat × Bool) := do
  let (t, _) ← (Tbl.empty : Tbl (Nat × Nat)).trun (badCfg G) badOps
  let es ← t.iterate (badCfg G)
  .ok ([es.length, t.size, t.capacity], stuck (badCfg G) t 100)

set_option maxRecDepth 20000 in
theorem badEnd_eq : (badEnd (groupSse2 true) = .ok ([63, 93, 63], true) ∧ badEnd (groupSse2 false) = .ok ([63, 93, 63], true)) ∧
    badEnd groupPortable = .ok ([63, 93, 63], true) := by decide +kernel

/-- C81 as stated is false for the library: a program that catches 30 exceptions, and makes only valid calls, gets a table
without a free slot, in which the search for an absent key never ends. -/
theorem C81_hang_refuted (G : Group) (hG : G = groupSse2 true ∨ G = groupSse2 false ∨ G = groupPortable) :
    (∀ op ∈ badOps, op.Valid (badCfg G).key) ∧
    ∃ t rs, (Tbl.empty : Tbl (Nat × Nat)).trun (badCfg G) badOps = .ok (t, rs) ∧
      t.step (badCfg G) (.find 100) = .hang ∧
      ∀ fuel, t.probeFind (badCfg G) (fun a => (badCfg G).eqv ((badCfg G).key a) 100) (H2 ((badCfg G).hash 100)) fuel
        (Probe.start ((badCfg G).hash 100) t.capacity) = .hang := by
  constructor
  · intro op hop
    simp only [badOps, List.mem_append, List.mem_map, List.mem_range, List.mem_replicate, List.mem_singleton] at hop
    rcases hop with (((⟨i, _, rfl⟩ | rfl) | ⟨_, rfl⟩) | ⟨i, _, rfl⟩) | rfl <;> trivial
  · have key : badEnd G = .ok ([63, 93, 63], true) := by
      obtain ⟨⟨h1, h2⟩, h3⟩ := badEnd_eq
      rcases hG with rfl | rfl | rfl <;> assumption
    unfold badEnd at key
    obtain ⟨⟨t, rs⟩, h1, key⟩ := Res.bind_eq_ok.1 key
    obtain ⟨es, h2, key⟩ := Res.bind_eq_ok.1 key
    have hst : stuck (badCfg G) t 100 = true := by
      injection key with key
      exact (Prod.mk.inj key).2
    have hh := stuck_hang hst
    refine ⟨t, rs, h1, ?_, hh⟩
    have hf : t.find (badCfg G) 100 = .hang := hh t.fuel
    simp only [Tbl.step, hf]
    rfl

/-- No history with an unbounded number of exceptions and erasures can be answered as the specification says. -/
theorem C81_refuted (G : Group) (hG : G = groupSse2 true ∨ G = groupSse2 false ∨ G = groupPortable) :
    ¬ ∀ ops : List (TOp (Nat × Nat) Nat), (∀ op ∈ ops, op.Valid (badCfg G).key) →
      ∃ t, (Tbl.empty : Tbl (Nat × Nat)).trun (badCfg G) ops =
        .ok (t, (Spec.trun (badCfg G).key (badCfg G).eqv [] 0 ops).2.2) := by
  intro hall
  obtain ⟨hv, t, rs, h1, h2, _⟩ := C81_hang_refuted G hG
  obtain ⟨t', h3⟩ := hall (badOps ++ [.call (.find 100)]) (by
    intro op hop
    rcases List.mem_append.1 hop with hop | hop
    · exact hv op hop
    · rw [List.mem_singleton] at hop; subst hop; trivial)
  have app : ∀ (a b : List (TOp (Nat × Nat) Nat)) (t u : Tbl (Nat × Nat)) rs, t.trun (badCfg G) a = .ok (u, rs) →
      u.trun (badCfg G) b = .hang → t.trun (badCfg G) (a ++ b) = .hang := by
    intro a
    induction a with
    | nil => intro b t u rs h1 h2; cases h1; exact h2
    | cons o a ih =>
      intro b t u rs h1 h2
      simp only [Tbl.trun] at h1
      obtain ⟨⟨t1, r1⟩, g1, h1⟩ := Res.bind_eq_ok.1 h1
      obtain ⟨⟨t2, r2⟩, g2, h1⟩ := Res.bind_eq_ok.1 h1
      injection h1 with h1
      obtain ⟨rfl, _⟩ := Prod.mk.inj h1
      simp only [List.cons_append, Tbl.trun, g1, Res.ok_bind, ih b t1 t2 r2 g2 h2]
      rfl
  have hbad := app badOps [.call (.find 100)] Tbl.empty t rs h1 (by
    simp only [Tbl.trun, Tbl.tstep, h2]
    rfl)
  rw [hbad] at h3
  cases h3

/-! ## The hypotheses are met -/

/-- Insertions, erasures, six exceptions, a look at the size. -/
def exOps : List (TOp (Nat × Nat) Nat) :=
  (List.range 14).map (fun i => .call (.insert (i, i * i))) ++
  [.call (.erase 3), .call (.erase 8), .throwing (35, 0), .throwing (40, 1), .throwing (5, 5), .throwing (41, 1), .call .size,
   .call (.find 5), .call (.find 35), .throwing (42, 2), .throwing (43, 2), .call (.insert (35, 35)), .call (.insert (36, 36)),
   .call (.insert (37, 37)), .call .size, .call (.count 36), .call .clear, .call .size, .throwing (1, 1), .call .size]

/-- Both the hypotheses and an answer that is wrong by the exceptions: 12 elements, size 15; after `clear()`, none and 1. -/
example : ((∀ op ∈ exOps, op.Valid (badCfg groupPortable).key) ∧ Spec.Few 7 0 exOps) ∧
    (Spec.trun (badCfg groupPortable).key (badCfg groupPortable).eqv [] 0 exOps).2.2.drop 14 =
      [.got (.nat 1), .got (.nat 1), .threw, .threw, .present, .threw, .got (.nat 15), .got (.elem (some (5, 25))),
       .got (.elem none), .threw, .threw, .got (.ins (35, 35) true), .got (.ins (36, 36) true), .got (.ins (37, 37) true),
       .got (.nat 20), .got (.nat 1), .got .unit, .got (.nat 0), .threw, .got (.nat 1)] := by
  refine ⟨⟨?_, ?_⟩, by decide +kernel⟩
  · intro op hop
    simp only [exOps, List.mem_append, List.mem_map, List.mem_range, List.mem_cons, List.not_mem_nil, or_false] at hop
    rcases hop with ⟨i, _, rfl⟩ | rfl | rfl | rfl | rfl | rfl | rfl | rfl | rfl | rfl | rfl | rfl | rfl | rfl | rfl | rfl |
      rfl | rfl | rfl | rfl | rfl <;> trivial
  · simp [exOps, Spec.Few, List.range, List.range.loop]

/-- 40 exceptions without an erasure: the other hypothesis. -/
example : ∀ op ∈ List.replicate 40 (TOp.throwing (1, 1)) ++ [TOp.call (.insert (2, 2)), TOp.call (Op.find 2)],
    ¬ (op : TOp (Nat × Nat) Nat).Erases := by
  intro op hop
  simp only [List.mem_append, List.mem_replicate, List.mem_cons, List.not_mem_nil, or_false] at hop
  rcases hop with ⟨_, rfl⟩ | rfl | rfl <;> exact id

end Gtl.Props.HashThrow
