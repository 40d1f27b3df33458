import Verif.Swiss.NullCtrlProof
import Verif.Props.HashTable
/-!
# Property theorems C90: hash containers with a user supplied allocator

With the default allocator an empty container points at a static block of control bytes; with any other allocator
it holds a null pointer.  `nil` is such a container (reading a control byte of it is `ub`), `wrunN` runs a history
on containers of that kind.
-/

namespace Gtl.Props.NullCtrl

open Gtl.Swiss Gtl.Swiss.Tbl Gtl.Props.Hash
open Gtl.Spec (Op WOp Resp)

variable {α κ : Type}

theorem width_pos {C : Cfg α κ} (h : Contract C) : 0 < C.G.W := by
  rcases h.cfgOk.group.width with e | e <;> omega

/-- Every history of calls on any number of containers with a user supplied allocator gives the answers of the
abstract containers, without ever reading through the null pointer; every container holds exactly what its
abstract counterpart holds, can be searched and iterated, and can be destroyed. -/
theorem C90_history [BEq α] [LawfulBEq α] {C : Cfg α κ} (h : Contract C) (ops : List (WOp α κ))
    (hv : ∀ op ∈ ops, op.Valid C.key) :
    ∃ w, wrunN C (fun _ => Tbl.nil) ops = .ok (w, (Spec.wrun C.key C.eqv (fun _ => []) ops).2) ∧
      ∀ i, ∃ l, (w i).iterateN C = .ok l ∧ l.Perm ((Spec.wrun C.key C.eqv (fun _ => []) ops).1 i) ∧
        (w i).size = ((Spec.wrun C.key C.eqv (fun _ => []) ops).1 i).length ∧
        (∀ k, (w i).atN C k = .ok (Spec.lookup C.key C.eqv ((Spec.wrun C.key C.eqv (fun _ => []) ops).1 i) k)) ∧
        ∃ u, (w i).destroySlotsN = .ok u := by
  obtain ⟨w', h1, h2⟩ := wrun_sim h.cfgOk ops (wsim_start h) hv
  obtain ⟨⟨w, rs⟩, h3, h4, e⟩ := wrunN_fol h.cfgOk (width_pos h) ops (fun _ => nul_empty) (wsim_start h) hv _ h1
  dsimp only at h4 e
  subst e
  refine ⟨w, h3, fun i => ?_⟩
  obtain ⟨l, hl, e⟩ := (h4 i).iterate (C := C) _ (sim_iterate h (h2 i))
  subst e
  refine ⟨elems (w' i), hl, (h2 i).2, (h4 i).size.trans (h2 i).size, fun k => ?_, ?_⟩
  · obtain ⟨o, ho, e⟩ := (h4 i).at_ (width_pos h) k _ (sim_at h (h2 i) k)
    rw [ho, e]
  · obtain ⟨u, hu⟩ := destroySlots_sim h.cfgOk (h2 i)
    obtain ⟨v, hv, _⟩ := (h4 i).destroySlots _ hu
    exact ⟨v, hv⟩

/-- The allocator makes no difference: the same history run with the default allocator gives the same answers,
and afterwards every container has the same capacity and size and is iterated in the same order. -/
theorem C90_same [BEq α] [LawfulBEq α] {C : Cfg α κ} (h : Contract C) (ops : List (WOp α κ))
    (hv : ∀ op ∈ ops, op.Valid C.key) :
    ∃ w v rs, wrun C (fun _ => Tbl.empty) ops = .ok (w, rs) ∧ wrunN C (fun _ => Tbl.nil) ops = .ok (v, rs) ∧
      ∀ i, (v i).capacity = (w i).capacity ∧ (v i).size = (w i).size ∧
        ∃ l, (w i).iterate C = .ok l ∧ (v i).iterateN C = .ok l := by
  obtain ⟨w, h1, h2⟩ := wrun_sim h.cfgOk ops (wsim_start h) hv
  obtain ⟨⟨v, rs⟩, h3, h4, e⟩ := wrunN_fol h.cfgOk (width_pos h) ops (fun _ => nul_empty) (wsim_start h) hv _ h1
  dsimp only at h4 e
  subst e
  refine ⟨w, v, _, h1, h3, fun i => ⟨(h4 i).capacity, (h4 i).size, ?_⟩⟩
  obtain ⟨l, hl, e⟩ := (h4 i).iterate (C := C) _ (sim_iterate h (h2 i))
  subst e
  exact ⟨_, sim_iterate h (h2 i), hl⟩

/-- The tests matter: on the null pointer the functions that do not test it are undefined. -/
theorem C90_untested {C : Cfg α κ} (h : Contract C) (k : κ) (n : Nat) :
    (Tbl.nil : Tbl α).findHash C k n = .ub ∧ (Tbl.nil : Tbl α).begin_ C = .ub ∧
      (Tbl.nil : Tbl α).prepareInsert C n = .ub := by
  refine ⟨probeFind_null (width_pos h) rfl _ _ _ _, skip_null rfl _ _, ?_⟩
  unfold prepareInsert; rw [findFirstNonFull_null (width_pos h) rfl]; rfl

example : ∃ w rs, wrunN (exCfg groupPortable) (fun _ => Tbl.nil) exOps = .ok (w, rs) ∧ rs.length = 53 ∧
    (w 3).atN (exCfg groupPortable) 1 = .ok (some (1, 1)) ∧ (w 7).atN (exCfg groupPortable) 1 = .ok none := by
  obtain ⟨w, h1, h2⟩ := C90_history (exCfg_contract (.inr (.inr rfl))) exOps exOps_valid
  obtain ⟨l, _, _, _, h3, _⟩ := h2 3
  obtain ⟨l, _, _, _, h4, _⟩ := h2 7
  exact ⟨w, _, h1, exSpec_facts.2.2.2.2.2, by rw [h3]; exact congrArg _ exSpec_facts.2.2.2.2.1, by rw [h4]; decide +kernel⟩

/-- Looking up in, iterating, comparing, erasing from and merging containers that never held anything, then inserting,
emptying and moving away. -/
def nilOps : List (WOp (Nat × Nat) Nat) :=
  [.on 0 (.find 3), .on 0 (.erase 3), .on 0 (.eraseIf (fun _ => true)), .equal 0 1, .copy 1 0, .merge 0 1, .on 0 (.insert (3, 4)),
   .equal 0 1, .on 0 (.clear), .on 0 (.rehash 0), .on 0 (.contains 3), .on 0 (.insert (5, 6)), .move 2 0, .on 0 (.at 5),
   .on 0 (.insertRange [(1, 1), (2, 2)]), .swap 0 3, .on 0 (.extract 1), .on 2 (.at 5)]

set_option maxRecDepth 20000 in
example : (match wrunN (exCfg (groupSse2 true)) (fun _ => Tbl.nil) nilOps with
    | .ok (w, rs) => ((w 0).ctrl.length, (w 2).size, (w 3).size, rs.length)
    | _ => (9, 9, 9, 9)) = (0, 1, 2, 18) := by decide +kernel

end Gtl.Props.NullCtrl
