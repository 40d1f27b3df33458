import Verif.Swiss.SaltProof
import Verif.Props.HashTable
/-!
# Property theorems C97: containers whose order of iteration depends on addresses

With `GTL_NON_DETERMINISTIC` the search for a key starts at a place that depends on the address of the table. Whatever addresses
the allocator returns, the answers are those of the specification; only the order of iteration may differ.
-/

namespace Gtl.Props.Salt

open Gtl.Swiss Gtl.Swiss.STbl
open Gtl.Spec (Op WOp Resp)
open Gtl.Props.Hash

variable {α κ : Type}

/-- All containers are empty at the start, and the allocator has not been asked yet. -/
def history [BEq α] (C : Cfg α κ) (H : Addrs) (ops : List (WOp α κ)) := STbl.wrun C H (fun _ => STbl.empty H) 0 ops

theorem contract_at {C : Cfg α κ} (h : Contract C) (a : Nat) : Contract (cfg C a) :=
  ⟨h.refl, h.symm, h.trans, fun k l e => congrArg (salted a) (h.hash_congr k l e), h.group⟩

/-- For all addresses, every history gives the answers of the specification; at its end every container has the elements, the size
and the lookups of the specification. -/
theorem C97_history [BEq α] [LawfulBEq α] {C : Cfg α κ} (h : Contract C) (H : Addrs) (ops : List (WOp α κ))
    (hv : ∀ op ∈ ops, op.Valid C.key) :
    ∃ w n, history C H ops = .ok (w, n, (Spec.wrun C.key C.eqv (fun _ => []) ops).2) ∧
      ∀ i, ∃ l, (w i).tbl.iterate C = .ok l ∧ l.Perm ((Spec.wrun C.key C.eqv (fun _ => []) ops).1 i) ∧
        (w i).tbl.size = ((Spec.wrun C.key C.eqv (fun _ => []) ops).1 i).length ∧
        ∀ k, (w i).tbl.at_ (cfg C (w i).addr) k =
          .ok (Spec.lookup C.key C.eqv ((Spec.wrun C.key C.eqv (fun _ => []) ops).1 i) k) := by
  obtain ⟨w, n, h1, h2⟩ := wrun_s h.cfgOk H ops 0 (fun _ => sim_empty C h.cfgOk H) hv
  refine ⟨w, n, h1, fun i => ?_⟩
  obtain ⟨⟨c, i1⟩, i2⟩ := id (h2 i)
  exact ⟨elems (w i).tbl, iterate_s h.cfgOk i1.core, i2, (h2 i).size, fun k => sim_at (contract_at h (w i).addr) (h2 i) k⟩

/-- A program cannot see the addresses in the answers: with other addresses, and with the default of searches that do not depend
on the address, the answers are the same. -/
theorem C97_answers [BEq α] [LawfulBEq α] {C : Cfg α κ} (h : Contract C) (H K : Addrs) (ops : List (WOp α κ))
    (hv : ∀ op ∈ ops, op.Valid C.key) :
    ∃ w n v m u rs, history C H ops = .ok (w, n, rs) ∧ history C K ops = .ok (v, m, rs) ∧
      Tbl.wrun C (fun _ => Tbl.empty) ops = .ok (u, rs) ∧
      ∀ i, ∃ l k j, (w i).tbl.iterate C = .ok l ∧ (v i).tbl.iterate C = .ok k ∧ (u i).iterate C = .ok j ∧ l.Perm k ∧ l.Perm j := by
  obtain ⟨w, n, h1, h2⟩ := C97_history h H ops hv
  obtain ⟨v, m, k1, k2⟩ := C97_history h K ops hv
  obtain ⟨u, j1, j2⟩ := C01_history h ops hv
  refine ⟨w, n, v, m, u, _, h1, k1, j1, fun i => ?_⟩
  obtain ⟨l, a1, a2, _⟩ := h2 i
  obtain ⟨k, b1, b2, _⟩ := k2 i
  obtain ⟨j, c1, c2, _⟩ := j2 i
  exact ⟨l, k, j, a1, b1, c1, a2.trans b2.symm, a2.trans c2.symm⟩

/-! ## A concrete case -/

/-- The storage of the first table is on one page, that of later ones elsewhere. -/
def low : Addrs := ⟨0x1000, fun n => 0x2000 * (n + 1)⟩
/-- Other addresses. -/
def high : Addrs := ⟨0x1000, fun n => 0x7f0000005000 + 0x21000 * n⟩

/-- Twenty elements, then a copy into which another container is merged. -/
def demo : List (WOp (Nat × Nat) Nat) :=
  (List.range 20).map (fun i => .on 0 (.insert (i, i))) ++ [.on 1 (.insert (50, 1)), .on 1 (.insert (103, 9)), .copy 2 0, .merge 2 1,
    .on 2 (.find 150), .on 1 (.find 3), .equal 0 2, .on 2 (.erase 50), .equal 2 0]

theorem demo_valid : ∀ op ∈ demo, op.Valid (Prod.fst : Nat × Nat → Nat) := by
  intro op hop
  simp only [demo, List.mem_append, List.mem_map, List.mem_cons, List.not_mem_nil, or_false] at hop
  rcases hop with ⟨i, _, rfl⟩ | rfl | rfl | rfl | rfl | rfl | rfl | rfl | rfl | rfl <;> first | trivial | (show (2 : Nat) ≠ 1; decide)

/-- The answers of the end of the history, and the order in which container 2 is iterated over. -/
def seen (H : Addrs) : Option (Nat × List Nat) :=
  match history (exCfg groupPortable) H demo with
  | .ok (w, n, _) => match (w 2).tbl.iterate (exCfg groupPortable) with
    | .ok l => some (n, l.map Prod.fst)
    | _ => none
  | _ => none

/-- The hypotheses hold, and the order does depend on the addresses: the two runs of the same program differ in it (and only
in it). -/
theorem C97_order : Contract (exCfg groupPortable) ∧ (∀ op ∈ demo, op.Valid (exCfg groupPortable).key) ∧
    (∃ n l k, seen low = some (n, l) ∧ seen high = some (n, k) ∧ l ≠ k ∧ l.length = 20 ∧ l.isPerm k = true) := by
  refine ⟨exCfg_contract (.inr (.inr rfl)), demo_valid, ?_⟩
  have : (seen low).isSome = true ∧ (seen high).isSome = true ∧ (seen low).map (·.1) = (seen high).map (·.1) ∧
      (seen low).map (·.2) ≠ (seen high).map (·.2) ∧ (seen low).map (·.2.length) = some 20 ∧
      ((seen low).getD (0, [])).2.isPerm ((seen high).getD (0, [])).2 = true := by decide +kernel
  obtain ⟨h1, h2, h3, h4, h5, h6⟩ := this
  obtain ⟨⟨n, l⟩, e1⟩ := Option.isSome_iff_exists.1 h1
  obtain ⟨⟨m, k⟩, e2⟩ := Option.isSome_iff_exists.1 h2
  rw [e1, e2] at h3 h4 h6
  rw [e1] at h5
  cases h3
  exact ⟨n, l, k, e1, e2, fun h => h4 (by rw [h]), Option.some.inj h5, h6⟩

/-! ## The bytes of a table mean something only at their address -/

/-- The container 0 of the demo, and its bytes as if they had been written to a file and read back to another address. -/
def reloaded (a : Nat) : Option Nat :=
  match history (exCfg groupPortable) low demo with
  | .ok (w, _, _) => match (w 0).tbl.at_ (cfg (exCfg groupPortable) a) 3 with
    | .ok (some x) => some x.2
    | _ => none
  | _ => none

/-- Why `dump` and `load` do not exist in this mode (phmap.hpp:2330, 4293, phmap_dump.hpp:47): the same bytes at another address
are a table in which elements are not found. Here the element with key 3 is found at one address and not at another. -/
theorem C97_bytes_move : ∃ a b, reloaded a = some 3 ∧ reloaded b = none := by
  refine ⟨low.fresh 4, 0x7f0000000000 + 0x3000, ?_⟩
  decide +kernel

end Gtl.Props.Salt
