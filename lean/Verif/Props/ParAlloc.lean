import Verif.Props.Parallel
import Verif.Parallel.AllocFailProof
/-!
# Property theorems C113: parallel containers whose allocator fails
-/

namespace Gtl.Props.ParAlloc

open Gtl.Swiss Gtl.Parallel Gtl.Props.Parallel
open Gtl.Spec (Op POp PWOp Resp Out)
open Gtl.Props.Hash (Contract exEqv)

variable {α κ : Type}

/-- A family of parallel containers that a history of calls, some of which ran out of memory, can produce. -/
def PReachableA [BEq α] (P : PCfg α κ) (w : Nat → PTbl α) : Prop :=
  ∃ calls os, (∀ c ∈ calls, c.1.Valid P.C.key (2 ^ P.N) (locks P)) ∧
    PTbl.wrunA P (fun _ => PTbl.empty P) calls = .ok (w, os)

theorem PReachableA.sim [BEq α] [LawfulBEq α] {P : PCfg α κ} (h : Contract P.C) {w : Nat → PTbl α} (hr : PReachableA P w) :
    ∃ m, PWSim P w m := by
  obtain ⟨calls, os, hv, hw⟩ := hr
  obtain ⟨w', os', m, h1, _, h3⟩ := pwrunA_ok h.cfgOk calls (pwsim_start h) hv
  rw [hw] at h1
  cases h1
  exact ⟨m, h3⟩

/-- Every history of calls in which any allocation may fail, the caller going on after each `std::bad_alloc`: every call
answers as on the abstract containers or throws and leaves what `Spec.PWFails` allows, and every container then holds
exactly what its abstract counterpart holds, and behaves like it ever after. -/
theorem C113_history_partial [BEq α] [LawfulBEq α] {P : PCfg α κ} (h : Contract P.C) (calls : List (PWOp α κ × Nat))
    (hv : ∀ c ∈ calls, c.1.Valid P.C.key (2 ^ P.N) (locks P)) :
    ∃ w os m, PTbl.wrunA P (fun _ => PTbl.empty P) calls = .ok (w, os) ∧
      Spec.PWRunA P.C.key P.C.eqv (fun _ => []) (calls.map Prod.fst) os m ∧
      ∀ i, PBehavesAs P (w i) (m i) ∧ (∃ l, (w i).iterate P = .ok l ∧ l.Perm (m i)) ∧ (w i).size = (m i).length := by
  obtain ⟨w, os, m, h1, h2, h3⟩ := pwrunA_ok h.cfgOk calls (pwsim_start h) hv
  exact ⟨w, os, m, h1, h2, fun i => ⟨psim_behaves h (h3 i), ⟨flat (w i), psim_iterate h (h3 i), (h3 i).flat⟩, (h3 i).size⟩⟩

/-- A call on one container, other than a range insertion, `reserve` and `rehash`, that throws leaves the very same
object: every submap with the same memory and positions, so that iterators and references stay valid. -/
theorem C113_same [BEq α] [LawfulBEq α] {P : PCfg α κ} (h : Contract P.C) {w : Nat → PTbl α} (hr : PReachableA P w)
    (i b : Nat) (op : POp α κ) (hv : op.Valid P.C.key (2 ^ P.N)) (h1 : ∀ vs, op ≠ .base (.insertRange vs))
    (h2 : ∀ n, op ≠ .base (.reserve n)) (h3 : ∀ n, op ≠ .base (.rehash n)) {p' : PTbl α}
    (hf : (w i).pstepA P b op = .ok (.failed p')) : p' = w i ∧ b = 0 := by
  obtain ⟨m, hm⟩ := hr.sim h
  have hk : oneKey op = true := by
    cases op with
    | base op => cases op <;> first | rfl | exact absurd rfl (h1 _) | exact absurd rfl (h2 _) | exact absurd rfl (h3 _)
    | _ => rfl
  have hn : pneed (2 ^ P.N) op = 1 := by
    cases op with
    | base op => cases op <;> first | rfl | cases hk
    | _ => rfl
  rcases pstepA_ok h.cfgOk (hm i) b op hv with ⟨p2, left, e1, _⟩ | ⟨e0, p2, l', e1, _, _, e4⟩
  · rw [hf] at e1; cases e1
  · rw [hf] at e1
    cases e1
    exact ⟨e4 hk, by omega⟩

/-- A `reserve` or `rehash` that throws leaves the elements as they were, whichever submaps it got to. -/
theorem C113_capacity [BEq α] [LawfulBEq α] {P : PCfg α κ} (h : Contract P.C) {w : Nat → PTbl α} (hr : PReachableA P w)
    (i b n : Nat) (op : POp α κ) (hop : op = .base (.reserve n) ∨ (op = .base (.rehash n) ∧ 2 ^ P.N ≤ n)) {p' : PTbl α}
    (hf : (w i).pstepA P b op = .ok (.failed p')) :
    b < 2 ^ P.N ∧ ∃ l l', (w i).iterate P = .ok l ∧ p'.iterate P = .ok l' ∧ l'.Perm l ∧ PBehavesAs P p' l := by
  obtain ⟨m, hm⟩ := hr.sim h
  have key : b < 2 ^ P.N ∧ PSim P p' (m i) := by
    rcases hop with rfl | ⟨rfl, hn⟩
    · rcases pstepA_ok h.cfgOk (hm i) b (.base (.reserve n)) trivial with ⟨p2, left, e1, _⟩ | ⟨e0, p2, l', e1, e2, e3, _⟩
      · rw [hf] at e1; cases e1
      · rw [hf] at e1; cases e1; cases e2; exact ⟨e0, e3⟩
    · rcases pstepA_ok h.cfgOk (hm i) b (.base (.rehash n)) hn with ⟨p2, left, e1, _⟩ | ⟨e0, p2, l', e1, e2, e3, _⟩
      · rw [hf] at e1; cases e1
      · rw [hf] at e1; cases e1; cases e2; exact ⟨e0, e3⟩
  exact ⟨key.1, flat (w i), flat p', psim_iterate h (hm i), psim_iterate h key.2, key.2.flat.trans (hm i).flat.symm,
    psim_behaves h (key.2.perm (hm i).flat.symm)⟩

/-- Calls that neither add elements nor ask for capacity never throw, even with no memory at all. -/
theorem C113_never [BEq α] [LawfulBEq α] {P : PCfg α κ} (h : Contract P.C) {w : Nat → PTbl α} (hr : PReachableA P w)
    (op : PWOp α κ) (hv : op.Valid P.C.key (2 ^ P.N) (locks P))
    (hop : match op with
      | .on _ (.base (.at _)) | .on _ (.base (.find _)) | .on _ (.base (.contains _)) | .on _ (.base (.count _))
      | .on _ (.base (.erase _)) | .on _ (.base (.eraseIf _)) | .on _ (.base (.extract _)) | .on _ (.base .size)
      | .on _ (.base .clear) | .on _ (.ifContains _) | .on _ (.modifyIf _ _) | .on _ (.eraseIfKey _ _)
      | .on _ (.forEachM _) | .move _ _ | .swap _ _ | .equal _ _ => True
      | _ => False) :
    ∃ w' r, PTbl.wstepA P 0 w op = .ok (.done (w', r) 0) := by
  obtain ⟨m, hm⟩ := hr.sim h
  obtain ⟨w', h1, _⟩ := pwstep_sim h.cfgOk hm op hv
  cases op with
  | on i o =>
    simp only [PTbl.wstep] at h1
    obtain ⟨⟨p, r⟩, g1, g2⟩ := Res.bind_eq_ok.1 h1
    refine ⟨Spec.put w i p, r, ?_⟩
    cases o with
    | base o => cases o <;> first | exact hop.elim | simp only [PTbl.wstepA, PTbl.pstepA, Res.plain, g1, Res.ok_bind]
    | emplaceL a f => exact hop.elim
    | _ => simp only [PTbl.wstepA, PTbl.pstepA, Res.plain, g1, Res.ok_bind]
  | move i j => exact ⟨w', _, by simp only [PTbl.wstepA, Res.plain, h1, Res.ok_bind]; rfl⟩
  | swap i j => exact ⟨w', _, by simp only [PTbl.wstepA, Res.plain, h1, Res.ok_bind]; rfl⟩
  | equal i j => exact ⟨w', _, by simp only [PTbl.wstepA, Res.plain, h1, Res.ok_bind]; rfl⟩
  | create i n => exact hop.elim
  | copy i j => exact hop.elim
  | merge i j => exact hop.elim

/-- For every state and call there is an amount of memory with which the call succeeds. -/
theorem C113_enough [BEq α] [LawfulBEq α] {P : PCfg α κ} (h : Contract P.C) {w : Nat → PTbl α} (hr : PReachableA P w)
    (op : PWOp α κ) (hv : op.Valid P.C.key (2 ^ P.N) (locks P)) :
    ∃ need : Nat, ∀ b, need ≤ b → ∃ w' r left, PTbl.wstepA P b w op = .ok (.done (w', r) left) := by
  obtain ⟨m, hm⟩ := hr.sim h
  obtain ⟨need, hN⟩ := pwstepA_ok h.cfgOk hm op hv
  refine ⟨need, fun b hb => ?_⟩
  rcases hN b with ⟨w', left, h1, _⟩ | ⟨h0, _⟩
  · exact ⟨w', _, left, h1⟩
  · omega

/-! ## Examples -/

abbrev exA : PCfg (Nat × Nat) Nat := exP groupPortable

theorem exA_contract : Contract exA.C := exP_contract (.inr (.inr rfl))

/-- Two containers with elements in two submaps each. -/
def exBoth : List (PWOp (Nat × Nat) Nat × Nat) :=
  [(.on 0 (.base (.insert (2, 20))), 1), (.on 0 (.base (.insert (5, 50))), 1),
   (.on 1 (.base (.insert (1, 10))), 1), (.on 1 (.base (.insert (4, 40))), 1)]

theorem exBoth_valid : ∀ c ∈ exBoth, c.1.Valid exA.C.key (2 ^ exA.N) (locks exA) := by
  intro c hc
  simp only [exBoth, List.mem_cons, List.not_mem_nil, or_false] at hc
  rcases hc with rfl | rfl | rfl | rfl <;> simp [PWOp.Valid, POp.Valid]

/-- The elements of a container, for comparing results. -/
def listed (p : PTbl (Nat × Nat)) : Option (List (Nat × Nat)) :=
  match p.iterate exA with
  | .ok l => some l
  | _ => none

/-- A copy assignment that runs out of memory after the first submap. -/
def exMix : Option (Bool × Option (List (Nat × Nat)) × Option (List (Nat × Nat))) :=
  match PTbl.wrunA exA (fun _ => PTbl.empty exA) exBoth with
  | .ok (w, _) => match PTbl.wstepA exA 1 w (.copy 0 1) with
    | .ok (.failed w') => some (true, listed (w 0), listed (w' 0))
    | _ => none
  | _ => none

theorem exMix_eq : exMix = some (true, some [(2, 20), (5, 50)], some [(1, 10), (5, 50)]) := by decide +kernel

/-- A copy assignment that throws does not leave the destination as it was (as that of the ordinary containers does). -/
theorem C113_copy_refuted : ¬ ∀ (P : PCfg (Nat × Nat) Nat), Contract P.C → ∀ w, PReachableA P w → ∀ i j b w',
    PTbl.wstepA P b w (.copy i j) = .ok (.failed w') →
    ∃ l l', (w i).iterate P = .ok l ∧ (w' i).iterate P = .ok l' ∧ l'.Perm l := by
  intro hall
  have h := exMix_eq
  unfold exMix at h
  cases h1 : PTbl.wrunA exA (fun _ => PTbl.empty exA) exBoth with
  | ub => rw [h1] at h; cases h
  | hang => rw [h1] at h; cases h
  | ok x =>
    obtain ⟨w, os⟩ := x
    rw [h1] at h
    dsimp only at h
    cases h2 : PTbl.wstepA exA 1 w (.copy 0 1) with
    | ub => rw [h2] at h; cases h
    | hang => rw [h2] at h; cases h
    | ok y =>
      cases y with
      | done z left => rw [h2] at h; cases h
      | failed w' =>
        rw [h2] at h
        simp only [Option.some.injEq, Prod.mk.injEq] at h
        obtain ⟨l, l', e1, e2, e3⟩ := hall exA exA_contract w ⟨exBoth, os, exBoth_valid, h1⟩ 0 1 1 w' h2
        unfold listed at h
        rw [e1, e2] at h
        simp only [Option.some.injEq] at h
        obtain ⟨_, rfl, rfl⟩ := h
        exact absurd (List.isPerm_iff.2 e3) (by decide)

/-- Insertions with and without memory; a range cut short; `reserve` cut short; a constructor that fails half way; a merge
that is cut short in the second submap. -/
def exCalls : List (PWOp (Nat × Nat) Nat × Nat) :=
  [(.on 0 (.base (.insert (1, 1))), 1), (.on 0 (.base (.insert (2, 2))), 0), (.on 0 (.emplaceL (4, 4) id), 0),
   (.on 0 (.emplaceL (4, 4) id), 1), (.on 0 (.base (.insertRange [(101, 9), (7, 7), (2, 2), (10, 10)])), 1),
   (.on 0 (.base (.reserve 100)), 3), (.create 1 9, 5), (.on 1 (.base (.insert (7, 0))), 1), (.merge 1 0, 1),
   (.on 1 (.base .size), 0), (.on 0 (.base .size), 0), (.copy 2 0, 0), (.swap 0 1, 0)]

theorem exCalls_valid : ∀ c ∈ exCalls, c.1.Valid exA.C.key (2 ^ exA.N) (locks exA) := by
  intro c hc
  simp only [exCalls, List.mem_cons, List.not_mem_nil, or_false] at hc
  rcases hc with rfl | rfl | rfl | rfl | rfl | rfl | rfl | rfl | rfl | rfl | rfl | rfl | rfl <;>
    simp [PWOp.Valid, POp.Valid]

def exOuts : Option (List (Out (Nat × Nat)) × Option (List (Nat × Nat)) × Option (List (Nat × Nat))) :=
  match PTbl.wrunA exA (fun _ => PTbl.empty exA) exCalls with
  | .ok (w, os) => some (os, listed (w 0), listed (w 1))
  | _ => none

theorem exOuts_eq : exOuts = some ([.ok (.ins (1, 1) true), .badAlloc, .badAlloc, .ok (.ins (4, 4) true), .badAlloc,
    .badAlloc, .badAlloc, .ok (.ins (7, 0) true), .badAlloc, .ok (.nat 2), .ok (.nat 2), .badAlloc, .ok .unit],
    some [(1, 1), (7, 0)], some [(4, 4), (7, 7)]) := by decide +kernel

/-- The history meets the hypotheses of `C113_history_partial`; seven of its calls throw. -/
example : ∃ w os m, PTbl.wrunA exA (fun _ => PTbl.empty exA) exCalls = .ok (w, os) ∧ os.count .badAlloc = 7 ∧
    Spec.PWRunA Prod.fst exEqv (fun _ => []) (exCalls.map Prod.fst) os m ∧ (w 0).size = 2 := by
  obtain ⟨w, os, m, h1, h2, h3⟩ := C113_history_partial exA_contract exCalls exCalls_valid
  have := exOuts_eq
  unfold exOuts at this
  rw [h1] at this
  simp only [Option.some.injEq, Prod.mk.injEq] at this
  obtain ⟨e1, e2, _⟩ := this
  refine ⟨w, os, m, h1, by rw [e1]; decide, h2, ?_⟩
  obtain ⟨_, ⟨l, l1, l2⟩, l3⟩ := h3 0
  unfold listed at e2
  rw [l1] at e2
  simp only [Option.some.injEq] at e2
  rw [l3, ← l2.length_eq, e2]
  rfl

/-- Containers on which an insertion and a `reserve` throw, as `C113_same` and `C113_capacity` assume. -/
example : PReachableA exA (fun _ => PTbl.empty exA) ∧
    (∃ p', (PTbl.empty exA).pstepA exA 0 (.base (.insert (9, 9))) = .ok (.failed p')) ∧
    ∃ p', (PTbl.empty exA).pstepA exA 3 (.base (.reserve 100)) = .ok (.failed p') ∧ p'.capacity > 0 := by
  have e : ∀ (b : Nat) (op : POp (Nat × Nat) Nat) (n : Nat),
      (match (PTbl.empty exA).pstepA exA b op with
        | .ok (.failed p) => some p.capacity
        | _ => none) = some n → ∃ p', (PTbl.empty exA).pstepA exA b op = .ok (.failed p') ∧ p'.capacity = n := by
    intro b op n h
    cases h1 : (PTbl.empty exA).pstepA exA b op with
    | ub => rw [h1] at h; cases h
    | hang => rw [h1] at h; cases h
    | ok y =>
      cases y with
      | done z left => rw [h1] at h; cases h
      | failed p' => rw [h1] at h; exact ⟨p', rfl, by simpa using h⟩
  refine ⟨⟨[], [], by simp, rfl⟩, ?_, ?_⟩
  · obtain ⟨p', h1, _⟩ := e 0 (.base (.insert (9, 9))) 0 (by decide +kernel)
    exact ⟨p', h1⟩
  · obtain ⟨p', h1, h2⟩ := e 3 (.base (.reserve 100)) 45 (by decide +kernel)
    exact ⟨p', h1, by omega⟩

end Gtl.Props.ParAlloc
