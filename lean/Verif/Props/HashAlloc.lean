import Verif.Props.HashTable
import Verif.Swiss.AllocFail
/-!
# Property theorems C77: hash containers whose allocator fails
-/

namespace Gtl.Props.HashAlloc

open Gtl.Swiss Gtl.Swiss.Tbl Gtl.Props.Hash
open Gtl.Spec (Op WOp Resp Out)

variable {α κ : Type}

/-- A family of containers that a history of calls, some of which ran out of memory, can produce. -/
def ReachableA [BEq α] (C : Cfg α κ) (w : Nat → Tbl α) : Prop :=
  ∃ calls os, (∀ c ∈ calls, c.1.Valid C.key) ∧ wrunA C (fun _ => Tbl.empty) calls = .ok (w, os)

theorem ReachableA.sim [BEq α] [LawfulBEq α] {C : Cfg α κ} (h : Contract C) {w : Nat → Tbl α} (hr : ReachableA C w) :
    ∃ m, WSim C w m := by
  obtain ⟨calls, os, hv, hw⟩ := hr
  obtain ⟨w', os', m, h1, _, h3⟩ := wrunA_ok h.cfgOk calls (wsim_start h) hv
  rw [hw] at h1
  cases h1
  exact ⟨m, h3⟩

/-- Every history of calls in which any allocation may fail, the caller going on after each `std::bad_alloc`: every call
answers as on the abstract containers or throws and leaves what `Spec.WFails` allows, and every container then holds
exactly what its abstract counterpart holds, and behaves (and can be destroyed) like it ever after. -/
theorem C77_history_partial [BEq α] [LawfulBEq α] {C : Cfg α κ} (h : Contract C) (calls : List (WOp α κ × Nat))
    (hv : ∀ c ∈ calls, c.1.Valid C.key) :
    ∃ w os m, wrunA C (fun _ => Tbl.empty) calls = .ok (w, os) ∧
      Spec.WRunA C.key C.eqv (fun _ => []) (calls.map Prod.fst) os m ∧
      ∀ i, BehavesAs C (w i) (m i) ∧ (∃ l, (w i).iterate C = .ok l ∧ l.Perm (m i)) ∧ (w i).size = (m i).length ∧
        ∀ k, (w i).at_ C k = .ok (Spec.lookup C.key C.eqv (m i) k) := by
  obtain ⟨w, os, m, h1, h2, h3⟩ := wrunA_ok h.cfgOk calls (wsim_start h) hv
  exact ⟨w, os, m, h1, h2, fun i => ⟨sim_behaves h (h3 i), ⟨elems (w i), sim_iterate h (h3 i), (h3 i).2⟩, (h3 i).size,
    fun k => sim_at h (h3 i) k⟩⟩

/-- A call on one container, other than a range insertion, that throws leaves the very same table: same memory, same
positions, so that iterators and references obtained before it stay valid. -/
theorem C77_same [BEq α] [LawfulBEq α] {C : Cfg α κ} (h : Contract C) {w : Nat → Tbl α} (hr : ReachableA C w)
    (i b : Nat) (op : Op α κ) (hv : op.Valid C.key) (hop : ∀ vs, op ≠ .insertRange vs) {t' : Tbl α}
    (hf : (w i).stepA C b op = .ok (.failed t')) : t' = w i ∧ b = 0 := by
  obtain ⟨m, hm⟩ := hr.sim h
  have hr : op.isRange = false := by
    cases op <;> first | rfl | exact absurd rfl (hop _)
  rcases stepA_ok h.cfgOk (hm i) b op hv with ⟨t2, left, h1, _⟩ | ⟨h0, t2, l', h1, _, _, h4⟩
  · rw [hf] at h1; cases h1
  · rw [hf] at h1
    cases h1
    refine ⟨h4 hr, ?_⟩
    cases op <;> first | exact Nat.lt_one_iff.1 h0 | cases hr

/-- Calls that neither add elements nor ask for capacity never throw; copying and constructing throw without effect. -/
theorem C77_never [BEq α] [LawfulBEq α] {C : Cfg α κ} (h : Contract C) {w : Nat → Tbl α} (hr : ReachableA C w)
    (op : WOp α κ) (hv : op.Valid C.key)
    (hop : match op with
      | .on _ (.at _) | .on _ (.find _) | .on _ (.contains _) | .on _ (.count _) | .on _ (.erase _) | .on _ (.eraseIf _)
      | .on _ (.extract _) | .on _ .size | .on _ .clear | .move _ _ | .swap _ _ | .equal _ _ => True
      | _ => False) :
    ∃ w' r, wstepA C 0 w op = .ok (.done (w', r) 0) := by
  obtain ⟨m, hm⟩ := hr.sim h
  obtain ⟨w', h1, _⟩ := wstep_sim h.cfgOk hm op hv
  cases op with
  | on i o =>
    simp only [Tbl.wstep] at h1
    obtain ⟨⟨t, r⟩, g1, g2⟩ := Res.bind_eq_ok.1 h1
    refine ⟨Spec.put w i t, r, ?_⟩
    cases o <;> first | exact hop.elim | simp only [wstepA, stepA, Res.plain, g1, Res.ok_bind]
  | move i j => exact ⟨w', _, by simp only [wstepA, Res.plain, h1, Res.ok_bind]; rfl⟩
  | swap i j => exact ⟨w', _, by simp only [wstepA, Res.plain, h1, Res.ok_bind]; rfl⟩
  | equal i j => exact ⟨w', _, by simp only [wstepA, Res.plain, h1, Res.ok_bind]; rfl⟩
  | create i n => exact hop.elim
  | copy i j => exact hop.elim
  | merge i j => exact hop.elim

/-- For every state and call there is an amount of memory with which the call succeeds with the abstract answer. -/
theorem C77_enough [BEq α] [LawfulBEq α] {C : Cfg α κ} (h : Contract C) {w : Nat → Tbl α} (hr : ReachableA C w)
    (op : WOp α κ) (hv : op.Valid C.key) :
    ∃ N : Nat, ∀ b, N ≤ b → ∃ w' r left, wstepA C b w op = .ok (.done (w', r) left) := by
  obtain ⟨m, hm⟩ := hr.sim h
  obtain ⟨N, hN⟩ := wstepA_ok h.cfgOk hm op hv
  refine ⟨N, fun b hb => ?_⟩
  rcases hN b with ⟨w', left, h1, _⟩ | ⟨h0, _⟩
  · exact ⟨w', _, left, h1⟩
  · omega

/-- `emplace(args...)` that builds the element before it knows the key: when the table cannot grow, the element built on
the stack is never destroyed. -/
theorem C77_temporary_refuted : ¬ ∀ (C : Cfg (Nat × Nat) Nat), Contract C → ∀ w, ReachableA C w → ∀ i b a out lost,
    (w i).emplaceTempA C b a = .ok (out, lost) → lost = [] := by
  intro hall
  have := hall (exCfg groupPortable) (exCfg_contract (.inr (.inr rfl))) (fun _ => Tbl.empty)
    ⟨[], [], by simp, rfl⟩ 0 0 (3, 4) (.failed Tbl.empty) [(3, 4)] (by decide +kernel)
  cases this

/-- With memory for one more table, the element built on the stack never leaks. -/
theorem C77_temporary [BEq α] [LawfulBEq α] {C : Cfg α κ} (h : Contract C) {w : Nat → Tbl α} (hr : ReachableA C w)
    (i b : Nat) (a : α) : ∃ out, (w i).emplaceTempA C (b + 1) a = .ok (out, []) := by
  obtain ⟨m, hm⟩ := hr.sim h
  unfold emplaceTempA
  rcases emplaceA_follows (C := C) (b + 1) (w i) a with ⟨left, _, _, he⟩ | ⟨hb, _⟩
  · rcases emplace_sim h.cfgOk (hm i) a with ⟨o, _, h1, _⟩ | ⟨t', o, h1, _⟩
    · exact ⟨_, by rw [he, h1]; rfl⟩
    · exact ⟨_, by rw [he, h1]; rfl⟩
  · omega

/-! ## Examples -/

/-- Nine insertions, the last but one without memory; a range whose third element does not fit; a copy that fails; a merge
that is cut short; erasures. -/
def exCalls : List (WOp (Nat × Nat) Nat × Nat) :=
  [(.on 0 (.insert (1, 1)), 1), (.on 0 (.insert (2, 2)), 0), (.on 0 (.insert (101, 5)), 0),
   (.on 0 (.insertRange [(3, 3), (4, 4), (5, 5)]), 0), (.on 0 (.insertRange [(3, 3), (4, 4), (5, 5)]), 1), (.on 0 (.reserve 100), 0),
   (.copy 1 0, 0), (.create 1 0, 0), (.on 1 (.insert (4, 0)), 1), (.on 0 (.erase 4), 0),
   (.merge 1 0, 1), (.on 1 .size, 0), (.on 0 .size, 0), (.on 1 (.find 4), 0)]

theorem exCalls_valid : ∀ c ∈ exCalls, c.1.Valid (exCfg groupPortable).key := by
  intro c hc
  simp only [exCalls, List.mem_cons, List.not_mem_nil, or_false] at hc
  rcases hc with rfl | rfl | rfl | rfl | rfl | rfl | rfl | rfl | rfl | rfl | rfl | rfl | rfl | rfl <;>
    simp [WOp.Valid, Op.Valid]

/-- What the caller of the history above sees, and what the two containers hold afterwards. -/
def exOuts : Res (List (Out (Nat × Nat)) × List (Nat × Nat) × List (Nat × Nat)) := do
  let (w, os) ← wrunA (exCfg groupPortable) (fun _ => Tbl.empty) exCalls
  let l ← (w 0).iterate (exCfg groupPortable)
  let r ← (w 1).iterate (exCfg groupPortable)
  .ok (os, l, r)

theorem exOuts_eq : exOuts = .ok ([.ok (.ins (1, 1) true), .badAlloc, .ok (.ins (1, 1) false), .badAlloc, .ok .unit,
    .badAlloc, .badAlloc, .ok .unit, .ok (.ins (4, 0) true), .ok (.nat 1), .badAlloc, .ok (.nat 3), .ok (.nat 1),
    .ok (.elem (some (4, 0)))], [(5, 5)], [(4, 0), (1, 1), (3, 3)]) := by decide +kernel

/-- The history meets the hypotheses of `C77_history_partial`; five of its calls throw, the merge in the middle. -/
example : ∃ w os m, wrunA (exCfg groupPortable) (fun _ => Tbl.empty) exCalls = .ok (w, os) ∧
    os.count .badAlloc = 5 ∧ Spec.WRunA Prod.fst exEqv (fun _ => []) (exCalls.map Prod.fst) os m := by
  obtain ⟨w, os, m, h1, h2, _⟩ := C77_history_partial (exCfg_contract (.inr (.inr rfl))) exCalls exCalls_valid
  refine ⟨w, os, m, h1, ?_, h2⟩
  have := exOuts_eq
  unfold exOuts at this
  rw [h1] at this
  simp only [Res.ok_bind] at this
  obtain ⟨l, _, h4⟩ := Res.bind_eq_ok.1 this
  obtain ⟨r, _, h6⟩ := Res.bind_eq_ok.1 h4
  injection h6 with h6
  injection h6 with h6 _
  rw [h6]; decide

/-- A reachable table on which an insertion throws, as `C77_same` assumes. -/
example : ∃ w, ReachableA (exCfg groupPortable) w ∧ ∃ t', (w 0).stepA (exCfg groupPortable) 0 (.insert (9, 9)) = .ok (.failed t') := by
  refine ⟨fun _ => Tbl.empty, ⟨[], [], by simp, rfl⟩, Tbl.empty, by decide +kernel⟩

end Gtl.Props.HashAlloc
