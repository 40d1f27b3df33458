import Verif.Props.ParallelDefs
import Verif.Props.HashTable
import Verif.Parallel.Bulk
/-!
# Property theorems C21 and C25: parallel containers used from one thread
-/

namespace Gtl.Props.Parallel

open Gtl.Swiss Gtl.Parallel
open Gtl.Spec (Op POp WOp PWOp Resp)
open Gtl.Props.Hash (Contract exEqv exCfg exCfg_contract)

variable {α κ : Type}

/-! ## Glue -/

theorem pwsim_start {P : PCfg α κ} (h : Contract P.C) : PWSim P (fun _ => PTbl.empty P) (fun _ => []) :=
  fun _ => empty_psim h.cfgOk.group

theorem PReachable.sim [BEq α] [LawfulBEq α] {P : PCfg α κ} (h : Contract P.C) {p : PTbl α} (hr : PReachable P p) :
    PSim P p (flat p) := by
  obtain ⟨ops, w, rs, i, hv, hw, rfl⟩ := hr
  obtain ⟨w', h1, h2⟩ := pwrun_sim h.cfgOk ops (pwsim_start h) hv
  rw [hw] at h1
  cases h1
  exact (h2 i).perm (h2 i).flat.symm

theorem psim_iterate {P : PCfg α κ} (h : Contract P.C) {p : PTbl α} {l : List α} (hs : PSim P p l) :
    p.iterate P = .ok (flat p) := iterate_at h.cfgOk.group hs.wf

theorem prun_sim {P : PCfg α κ} (h : Contract P.C) : ∀ (ops : List (POp α κ)) {p : PTbl α} {l : List α}, PSim P p l →
    (∀ op ∈ ops, op.Valid P.C.key (2 ^ P.N)) →
    ∃ p', prun P p ops = .ok (p', (specPrun P.C.key P.C.eqv l ops).2) ∧ PSim P p' (specPrun P.C.key P.C.eqv l ops).1
  | [], p, l, hs, _ => ⟨p, rfl, hs⟩
  | op :: ops, p, l, hs, hv => by
    obtain ⟨p1, h1, h2⟩ := pstep_sim h.cfgOk hs op (hv op List.mem_cons_self)
    obtain ⟨p2, h3, h4⟩ := prun_sim h ops h2 (fun o ho => hv o (List.mem_cons_of_mem _ ho))
    refine ⟨p2, ?_, h4⟩
    simp only [prun, specPrun, h1, h3, Res.ok_bind]

theorem psim_behaves {P : PCfg α κ} (h : Contract P.C) {p : PTbl α} {l : List α} (hs : PSim P p l) : PBehavesAs P p l := by
  intro ops hv
  obtain ⟨p', h1, h2⟩ := prun_sim h ops hs hv
  exact ⟨p', h1, ⟨flat p', psim_iterate h h2, h2.flat⟩, h2.size⟩

theorem preachable_of_valid [BEq α] [LawfulBEq α] {P : PCfg α κ} (h : Contract P.C) (ops : List (PWOp α κ))
    (hv : ValidHist P ops) (i : Nat) :
    ∃ p, PReachable P p ∧ PSim P p ((Spec.pwrun P.C.key P.C.eqv (fun _ => []) ops).1 i) := by
  obtain ⟨w', h1, h2⟩ := pwrun_sim h.cfgOk ops (pwsim_start h) hv
  exact ⟨w' i, ⟨ops, w', _, i, hv, h1, rfl⟩, h2 i⟩

/-! ## A concrete instance -/

/-- Eight submaps, a shared mutex, keys modulo 100. -/
def exP (G : Group) : PCfg (Nat × Nat) Nat where
  C := { exCfg G with hash := fun k => (k % 100) * 77 }
  N := 3
  mtx := .shared

theorem exP_contract {G : Group} (hG : G = groupSse2 true ∨ G = groupSse2 false ∨ G = groupPortable) :
    Contract (exP G).C where
  refl := (exCfg_contract hG).refl
  symm := (exCfg_contract hG).symm
  trans := (exCfg_contract hG).trans
  hash_congr k l h := by
    have h' : exEqv k l = true := h
    simp only [exEqv, beq_iff_eq] at h'
    show (k % 100) * 77 = (l % 100) * 77
    rw [h']
  group := hG

def exPOps : List (PWOp (Nat × Nat) Nat) :=
  (List.range 40).map (fun i => .on 0 (.base (.insert (i, i * i)))) ++
  [.on 0 (.base (.erase 107)), .on 0 (.eraseIfKey 8 (fun a => a.2 == 64)), .on 0 (.modifyIf 103 (fun b => (b.1, 5))),
   .create 1 20, .on 1 (.base (.insertRange [(7, 0), (203, 1)])), .merge 0 1, .copy 2 0, .equal 2 0,
   .on 2 (.base (.eraseIf (fun a => a.2 % 2 == 0))), .on 0 (.emplaceL (50, 0) (fun b => (b.1, 9))),
   .on 0 (.emplaceL (150, 0) (fun b => (b.1, 9))), .on 0 (.ifContains 150), .on 2 (.forEachM (fun b => (b.1, 0))),
   .on 0 (.base (.reserve 0)), .on 0 (.base (.rehash 500)), .move 3 1, .swap 3 0, .on 3 (.base .size)]

theorem exPOps_valid {G : Group} : ValidHist (exP G) exPOps := by
  intro op hop
  simp only [exPOps, List.mem_append, List.mem_map, List.mem_cons, List.not_mem_nil, or_false] at hop
  rcases hop with ⟨i, _, rfl⟩ | rfl | rfl | rfl | rfl | rfl | rfl | rfl | rfl | rfl | rfl | rfl | rfl | rfl | rfl | rfl | rfl |
      rfl | rfl <;>
    simp [PWOp.Valid, POp.Valid, exP, exCfg]

def exPSpec (i : Nat) : List (Nat × Nat) := (Spec.pwrun Prod.fst exEqv (fun _ => []) exPOps).1 i

theorem exPSpec_facts : (exPSpec 3).length = 40 ∧ Spec.lookup Prod.fst exEqv (exPSpec 3) 150 = some (50, 9) ∧
    (exPSpec 2).length = 19 ∧ Spec.lookup Prod.fst exEqv (exPSpec 2) 5 = some (5, 0) ∧ (exPSpec 0).length = 1 ∧
    Spec.lookup Prod.fst exEqv (exPSpec 3) 60 = none := by decide +kernel

theorem exPReach {G : Group} (hG : G = groupSse2 true ∨ G = groupSse2 false ∨ G = groupPortable) :
    ∃ p q : PTbl (Nat × Nat), PReachable (exP G) p ∧ PReachable (exP G) q ∧ p.size = 40 ∧ q.size = 19 := by
  obtain ⟨p, h1, h2⟩ := preachable_of_valid (exP_contract hG) exPOps exPOps_valid 3
  obtain ⟨q, h3, h4⟩ := preachable_of_valid (exP_contract hG) exPOps exPOps_valid 2
  exact ⟨p, q, h1, h3, by rw [h2.size]; exact exPSpec_facts.1, by rw [h4.size]; exact exPSpec_facts.2.2.1⟩

/-! ## C21: a parallel container is one container -/

/-- For every number of submaps, hash function and history of calls on any number of parallel containers, all answers
are those of the abstract finite map, and each container ends up with exactly its elements: iteration and `for_each`
visit each of them once, and `size()` counts them. -/
theorem C21_history [BEq α] [LawfulBEq α] {P : PCfg α κ} (h : Contract P.C) (ops : List (PWOp α κ)) (hv : ValidHist P ops) :
    ∃ w, PTbl.wrun P (fun _ => PTbl.empty P) ops = .ok (w, (Spec.pwrun P.C.key P.C.eqv (fun _ => []) ops).2) ∧
      ∀ i, ∃ l, (w i).iterate P = .ok l ∧ (w i).forEach P = .ok l ∧
        l.Perm ((Spec.pwrun P.C.key P.C.eqv (fun _ => []) ops).1 i) ∧
        (w i).size = ((Spec.pwrun P.C.key P.C.eqv (fun _ => []) ops).1 i).length := by
  obtain ⟨w', h1, h2⟩ := pwrun_sim h.cfgOk ops (pwsim_start h) hv
  exact ⟨w', h1, fun i => ⟨flat (w' i), psim_iterate h (h2 i), forEach_psim h.cfgOk (h2 i), (h2 i).flat, (h2 i).size⟩⟩

/-- Every reachable parallel container behaves, for ever, like the abstract container with its elements. -/
theorem C21_behaves [BEq α] [LawfulBEq α] {P : PCfg α κ} (h : Contract P.C) {p : PTbl α} (hr : PReachable P p) :
    ∃ l, p.iterate P = .ok l ∧ PBehavesAs P p l :=
  ⟨flat p, psim_iterate h (hr.sim h), psim_behaves h (hr.sim h)⟩

example : ∃ (p : PTbl (Nat × Nat)) (l : List (Nat × Nat)), p.iterate (exP groupPortable) = .ok l ∧ l.length = 40 ∧
    PBehavesAs (exP groupPortable) p l := by
  obtain ⟨p, _, h1, _, h2, _⟩ := exPReach (.inr (.inr rfl))
  obtain ⟨l, h3, h4⟩ := C21_behaves (exP_contract (.inr (.inr rfl))) h1
  refine ⟨p, l, h3, ?_, h4⟩
  have hs := h1.sim (exP_contract (.inr (.inr rfl)))
  rw [psim_iterate (exP_contract (.inr (.inr rfl))) hs] at h3
  cases h3
  rw [← hs.size, h2]

/-- The same calls on ordinary containers and on parallel containers with any number of submaps give the same
answers. -/
theorem C21_same_as_ordinary [BEq α] [LawfulBEq α] {P : PCfg α κ} (h : Contract P.C) (ops : List (WOp α κ))
    (hv : ∀ op ∈ ops, op.Valid P.C.key) (hv' : ValidHist P (ops.map lift)) :
    ∃ w w' rs, Tbl.wrun P.C (fun _ => Tbl.empty) ops = .ok (w, rs) ∧
      PTbl.wrun P (fun _ => PTbl.empty P) (ops.map lift) = .ok (w', rs) ∧
      ∀ i, ∃ l l', (w i).iterate P.C = .ok l ∧ (w' i).iterate P = .ok l' ∧ l'.Perm l := by
  obtain ⟨w, h1, h2⟩ := Hash.C01_history h ops hv
  obtain ⟨w', h3, h4⟩ := C21_history h (ops.map lift) hv'
  have hstep : ∀ (m : Nat → List α) (op : WOp α κ), Spec.pwstep P.C.key P.C.eqv m (lift op) = Spec.wstep P.C.key P.C.eqv m op := by
    intro m op
    cases op <;> rfl
  have hrun : ∀ (ops : List (WOp α κ)) (m : Nat → List α),
      Spec.pwrun P.C.key P.C.eqv m (ops.map lift) = Spec.wrun P.C.key P.C.eqv m ops := by
    intro ops
    induction ops with
    | nil => intro m; rfl
    | cons op ops ih =>
      intro m
      rw [List.map_cons]
      simp only [Spec.pwrun, Spec.wrun, hstep, ih]
  rw [hrun] at h3 h4
  refine ⟨w, w', _, h1, h3, fun i => ?_⟩
  obtain ⟨l, a1, a2, _⟩ := h2 i
  obtain ⟨l', b1, _, b2, _⟩ := h4 i
  exact ⟨l, l', a1, b1, b2.trans a2.symm⟩

example : ∃ w w' rs, Tbl.wrun (exP groupPortable).C (fun _ => Tbl.empty) (Hash.exOps) = .ok (w, rs) ∧
    PTbl.wrun (exP groupPortable) (fun _ => PTbl.empty (exP groupPortable)) (Hash.exOps.map lift) = .ok (w', rs) := by
  obtain ⟨w, w', rs, h1, h2, _⟩ := C21_same_as_ordinary (exP_contract (.inr (.inr rfl))) Hash.exOps
    (Hash.exOps_valid (G := groupPortable)) (by
      intro op hop
      simp only [Hash.exOps, List.map_append, List.map_map, List.mem_append, List.mem_map, List.map_cons, List.map_nil,
        List.mem_cons, List.not_mem_nil, or_false] at hop
      rcases hop with ⟨i, _, rfl⟩ | rfl | rfl | rfl | rfl | rfl | rfl | rfl | rfl | rfl | rfl | rfl | rfl | rfl <;>
        simp [lift, PWOp.Valid, POp.Valid, exP, exCfg])
  exact ⟨w, w', rs, h1, h2⟩

/-- Every key lives in exactly one submap: looking a key up submap by submap (as `with_submap` allows) finds it only in
the submap the key selects, and there it finds what the whole container answers. `size()` is the sum of the sizes,
and iteration goes through the submaps one after the other. -/
theorem C21_submaps [BEq α] [LawfulBEq α] {P : PCfg α κ} (h : Contract P.C) {p : PTbl α} (hr : PReachable P p) :
    p.sets.length = 2 ^ P.N ∧
    (∀ (i : Nat) t, p.sets[i]? = some t → ∀ k a, t.at_ P.C k = .ok (some a) → i = subidx P.N (P.C.hash k)) ∧
    (∀ k, ∃ t o, p.sets[subidx P.N (P.C.hash k)]? = some t ∧ t.at_ P.C k = .ok o ∧ p.step P (.at k) = .ok (p, .elem o)) ∧
    p.size = (p.sets.map Tbl.size).sum ∧
    ∃ ls, mapRes (fun t => t.iterate P.C) p.sets = .ok ls ∧ p.iterate P = .ok ls.flatten := by
  have hs := hr.sim h
  refine ⟨hs.len, ?_, ?_, rfl, ?_⟩
  · intro i t ht k a ha
    rw [Hash.sim_at h (hs.sim i t ht)] at ha
    simp only [Res.ok.injEq] at ha
    obtain ⟨h1, h2⟩ := lookup_some ha
    have := (mem_part.1 h1).2
    rw [key_idx h.cfgOk h2] at this
    exact this.symm
  · intro k
    obtain ⟨t, t1, t2⟩ := hs.get (subidx_lt P.N (P.C.hash k))
    refine ⟨t, _, t1, Hash.sim_at h t2 k, ?_⟩
    simp only [PTbl.step, PTbl.withSub, PTbl.sub, t1, Res.ofOption_some, Res.ok_bind, Tbl.step, Hash.sim_at h t2 k]
    congr 2
    obtain ⟨ss⟩ := p
    simp only [PTbl.mk.injEq]
    obtain ⟨hi, e⟩ := List.getElem?_eq_some_iff.1 t1
    rw [← e]
    exact List.set_getElem_self hi
  · have h1 := forEach_psim h.cfgOk hs
    unfold PTbl.forEach at h1
    rw [Res.bind_eq_ok] at h1
    obtain ⟨ls, g1, g2⟩ := h1
    simp only [Res.ok.injEq] at g2
    exact ⟨ls, g1, by rw [g2]; exact psim_iterate h hs⟩

example : ∃ p : PTbl (Nat × Nat), PReachable (exP groupPortable) p ∧ (p.sets.map Tbl.size).sum = 40 := by
  obtain ⟨p, _, h1, _, h2, _⟩ := exPReach (.inr (.inr rfl))
  exact ⟨p, h1, by rw [← (C21_submaps (exP_contract (.inr (.inr rfl))) h1).2.2.2.1]; exact h2⟩

/-! ## C25: bulk operations -/

/-- `a.merge(b)`: `a` gets the elements of `b` whose keys it does not have, `b` keeps the others. -/
theorem C25_merge [BEq α] [LawfulBEq α] {P : PCfg α κ} (h : Contract P.C) {p q : PTbl α} (hp : PReachable P p)
    (hq : PReachable P q) :
    ∃ p' q' l m, PTbl.merge P p q = .ok (p', q') ∧ p.iterate P = .ok l ∧ q.iterate P = .ok m ∧
      (∃ l', p'.iterate P = .ok l' ∧
        l'.Perm (l ++ m.filter (fun a => !l.any (fun b => P.C.eqv (P.C.key b) (P.C.key a))))) ∧
      (∃ m', q'.iterate P = .ok m' ∧ m'.Perm (m.filter (fun a => l.any (fun b => P.C.eqv (P.C.key b) (P.C.key a))))) ∧
      (∃ l', p'.iterate P = .ok l' ∧ PBehavesAs P p' l') ∧ (∃ m', q'.iterate P = .ok m' ∧ PBehavesAs P q' m') := by
  have sp := hp.sim h
  have sq := hq.sim h
  obtain ⟨p', q', h1, h2, h3⟩ := merge_psim h.cfgOk sp sq
  exact ⟨p', q', _, _, h1, psim_iterate h sp, psim_iterate h sq, ⟨_, psim_iterate h h2, h2.flat⟩,
    ⟨_, psim_iterate h h3, h3.flat⟩, ⟨_, psim_iterate h h2, psim_behaves h (h2.perm h2.flat.symm)⟩,
    ⟨_, psim_iterate h h3, psim_behaves h (h3.perm h3.flat.symm)⟩⟩

/-- `swap` exchanges the contents. -/
theorem C25_swap [BEq α] [LawfulBEq α] {P : PCfg α κ} (h : Contract P.C) {p q : PTbl α} (hp : PReachable P p)
    (hq : PReachable P q) : PTbl.swap p q = .ok (q, p) := by
  have sp := hp.sim h
  have sq := hq.sim h
  have hl : p.sets.length = q.sets.length := sp.len.trans sq.len.symm
  have : ∀ (ts us : List (Tbl α)), ts.length = us.length →
      zipRes (fun t u => Res.ok (Tbl.swap t u)) ts us = .ok (us.zip ts) := by
    intro ts
    induction ts with
    | nil => intro us hl; cases us with
      | nil => unfold zipRes; rfl
      | cons u us => simp at hl
    | cons t ts ih =>
      intro us hl
      cases us with
      | nil => simp at hl
      | cons u us =>
        unfold zipRes
        rw [ih us (by simpa using hl)]
        rfl
  unfold PTbl.swap
  rw [this _ _ hl]
  simp only [Res.ok_bind]
  rw [List.map_fst_zip (by omega), List.map_snd_zip (by omega)]

/-- `a == b` for two different objects is equality of the contents: the same elements, each the same number of times,
in any order. -/
theorem C25_equal [BEq α] [LawfulBEq α] {P : PCfg α κ} (h : Contract P.C) {p q : PTbl α} (hp : PReachable P p)
    (hq : PReachable P q) :
    ∃ b l m, PTbl.beqSets P p.sets q.sets = .ok b ∧ p.iterate P = .ok l ∧ q.iterate P = .ok m ∧ (b = true ↔ l.Perm m) := by
  have sp := hp.sim h
  have sq := hq.sim h
  exact ⟨_, _, _, equal_psim h.cfgOk sp sq, psim_iterate h sp, psim_iterate h sq, List.isPerm_iff⟩

/-- `clear()` leaves an empty container that works. -/
theorem C25_clear [BEq α] [LawfulBEq α] {P : PCfg α κ} (h : Contract P.C) {p : PTbl α} (hp : PReachable P p) :
    ∃ p', p.clear P = .ok p' ∧ p'.iterate P = .ok [] ∧ p'.size = 0 ∧ PBehavesAs P p' [] := by
  obtain ⟨p', h1, h2⟩ := clear_psim h.cfgOk (hp.sim h)
  refine ⟨p', h1, ?_, h2.size, psim_behaves h h2⟩
  rw [psim_iterate h h2, List.Perm.eq_nil h2.flat]

/-- `reserve(n)`, for every `n`, keeps the contents. -/
theorem C25_reserve [BEq α] [LawfulBEq α] {P : PCfg α κ} (h : Contract P.C) {p : PTbl α} (hp : PReachable P p) (n : Nat) :
    ∃ p' l l', p.reserve P n = .ok p' ∧ p.iterate P = .ok l ∧ p'.iterate P = .ok l' ∧ l'.Perm l ∧ PBehavesAs P p' l := by
  obtain ⟨p', h1, h2⟩ := reserve_psim h.cfgOk (hp.sim h) n
  exact ⟨p', _, _, h1, psim_iterate h (hp.sim h), psim_iterate h h2, h2.flat, psim_behaves h h2⟩

/-- `rehash(n)` keeps the contents when it asks for at least one bucket per submap. Missing: smaller `n`, for which it
is false (`C25_rehash_refuted`). -/
theorem C25_rehash_partial [BEq α] [LawfulBEq α] {P : PCfg α κ} (h : Contract P.C) {p : PTbl α} (hp : PReachable P p) (n : Nat)
    (hn : 2 ^ P.N ≤ n) :
    ∃ p' l l', p.rehash P n = .ok p' ∧ p.iterate P = .ok l ∧ p'.iterate P = .ok l' ∧ l'.Perm l ∧ PBehavesAs P p' l := by
  obtain ⟨p', h1, h2⟩ := rehash_psim h.cfgOk (hp.sim h) hn
  exact ⟨p', _, _, h1, psim_iterate h (hp.sim h), psim_iterate h h2, h2.flat, psim_behaves h h2⟩

example : ∃ p q : PTbl (Nat × Nat), PReachable (exP groupPortable) p ∧ PReachable (exP groupPortable) q ∧ p.size = 40 ∧
    q.size = 19 ∧ PTbl.swap p q = .ok (q, p) ∧ ∃ p' l l', p.rehash (exP groupPortable) 8 = .ok p' ∧
      p.iterate (exP groupPortable) = .ok l ∧ p'.iterate (exP groupPortable) = .ok l' ∧ l'.Perm l := by
  obtain ⟨p, q, h1, h2, h3, h4⟩ := exPReach (G := groupPortable) (.inr (.inr rfl))
  have hc := exP_contract (G := groupPortable) (.inr (.inr rfl))
  obtain ⟨p', l, l', r1, r2, r3, r4, _⟩ := C25_rehash_partial hc h1 8 (by decide)
  exact ⟨p, q, h1, h2, h3, h4, C25_swap hc h1 h2, p', l, l', r1, r2, r3, r4⟩

/-! ### What is false -/

/-- A parallel container whose keys hash small, so that they all go to the first submap. -/
def oneP (G : Group) (N : Nat) : PCfg (Nat × Nat) Nat where
  C := { exCfg G with hash := fun k => k % 100 }
  N := N
  mtx := .excl

theorem oneP_contract {G : Group} {N : Nat} (hG : G = groupSse2 true ∨ G = groupSse2 false ∨ G = groupPortable) :
    Contract (oneP G N).C where
  refl := (exCfg_contract hG).refl
  symm := (exCfg_contract hG).symm
  trans := (exCfg_contract hG).trans
  hash_congr k l h := by
    have h' : exEqv k l = true := h
    simp only [exEqv, beq_iff_eq] at h'
    exact h'
  group := hG

def fifteenP : List (PWOp (Nat × Nat) Nat) := (List.range 15).map (fun i => .on 0 (.base (.insert (i, i))))

theorem fifteenP_spec : ((Spec.pwrun Prod.fst exEqv (fun _ => []) fifteenP).1 0).length = 15 ∧
    ∀ a ∈ (Spec.pwrun Prod.fst exEqv (fun _ => []) fifteenP).1 0, exEqv a.1 99 = false := by decide +kernel

theorem oneP_idx {G : Group} {N : Nat} (a : Nat × Nat) : idx (oneP G N) a = 0 := by
  have h : (oneP G N).C.hash ((oneP G N).C.key a) < 100 := by
    show a.1 % 100 < 100
    omega
  unfold idx subidx
  rw [Nat.shiftRight_eq_div_pow, Nat.shiftRight_eq_div_pow, Nat.shiftRight_eq_div_pow,
    Nat.div_eq_of_lt (by omega), Nat.div_eq_of_lt (by omega), Nat.div_eq_of_lt (by omega)]
  simp

/-- C25 as stated is false: for every number of submaps there is a reachable container and an `n` (smaller than the
number of submaps) such that after `rehash(n)` looking up an absent key does not terminate. -/
theorem C25_rehash_refuted (G : Group) (hG : G = groupSse2 true ∨ G = groupSse2 false ∨ G = groupPortable) (N : Nat) :
    ¬ (∀ p : PTbl (Nat × Nat), PReachable (oneP G N) p → ∀ n, ∃ p', p.rehash (oneP G N) n = .ok p' ∧
        ∀ k, ∃ r, p'.step (oneP G N) (.find k) = .ok r) := by
  intro hall
  have hv : ValidHist (oneP G N) fifteenP := by
    intro op hop
    simp only [fifteenP, List.mem_map] at hop
    obtain ⟨i, _, rfl⟩ := hop
    trivial
  obtain ⟨p, h1, h2⟩ := preachable_of_valid (oneP_contract hG) fifteenP hv 0
  obtain ⟨p', e1, e2⟩ := hall p h1 0
  obtain ⟨r, hr⟩ := e2 99
  obtain ⟨t, t1, t2⟩ := h2.get (Nat.two_pow_pos N)
  have hpart : part (oneP G N) ((Spec.pwrun Prod.fst exEqv (fun _ => []) fifteenP).1 0) 0 =
      (Spec.pwrun Prod.fst exEqv (fun _ => []) fifteenP).1 0 := by
    unfold part
    rw [List.filter_eq_self]
    intro a _
    rw [oneP_idx]
    rfl
  replace t2 : Sim (oneP G N).C t ((Spec.pwrun Prod.fst exEqv (fun _ => []) fifteenP).1 0) := by
    rw [← hpart]; exact t2
  have hsz : t.size = 15 := by rw [t2.size]; exact fifteenP_spec.1
  obtain ⟨⟨c, hi⟩, hperm⟩ := id t2
  have hW : (oneP G N).C.G.W ≤ t.size + 1 := by
    rw [hsz]
    show G.W ≤ _
    rcases hG with rfl | rfl | rfl <;> simp [groupSse2, groupPortable]
  obtain ⟨t', c', g1, g2, g3, g4, g5, g6⟩ := rehash_zero_full (oneP_contract hG).cfgOk hi ⟨4, by rw [hsz]; rfl⟩ hW
  -- the first submap of the result
  have hfirst : ∃ ts, p'.sets = t' :: ts := by
    obtain ⟨ss⟩ := p
    cases ss with
    | nil => simp at t1
    | cons s ss =>
      simp only [List.getElem?_cons_zero, Option.some.injEq] at t1
      subst t1
      unfold PTbl.rehash at e1
      rw [Nat.zero_div] at e1
      dsimp only at e1
      unfold mapRes at e1
      rw [g1] at e1
      simp only [Res.ok_bind] at e1
      rw [Res.bind_eq_ok] at e1
      obtain ⟨x, f1, f2⟩ := e1
      rw [Res.bind_eq_ok] at f1
      obtain ⟨y, f3, f4⟩ := f1
      simp only [Res.ok.injEq] at f4 f2
      exact ⟨y, by rw [← f2, ← f4]⟩
  obtain ⟨ts, hts⟩ := hfirst
  have hidx : subidx (oneP G N).N ((oneP G N).C.hash 99) = 0 := oneP_idx (G := G) (N := N) (99, 0)
  have hfind : t'.find (oneP G N).C 99 = .hang := by
    unfold Tbl.find Tbl.findHash
    obtain ⟨j, hj⟩ := g2.raw.pow
    rw [probe_start hj (oneP G N).C.G.W]
    exact probeFind_hang (oneP_contract hG).cfgOk.group g2.raw g2.sync (by rw [g4]; exact hW) g5 _
      (fun a ha => fifteenP_spec.2 a (hperm.mem_iff.1 (g3.mem_iff.1 ha))) _ _ 0
  simp only [PTbl.step, PTbl.withSub, PTbl.sub] at hr
  rw [hidx, hts] at hr
  simp only [List.getElem?_cons_zero, Res.ofOption_some, Res.ok_bind, Tbl.step] at hr
  rw [hfind] at hr
  cases hr

/-- C25 as stated is also false for comparing or swapping a container with itself when it has real mutexes: both
operands' mutexes are locked, that is, each one twice. -/
theorem C25_self_refuted [BEq α] {P : PCfg α κ} (hm : P.mtx ≠ .null) (w : Nat → PTbl α) (i : Nat) :
    PTbl.wstep P w (.equal i i) = .ub ∧ PTbl.wstep P w (.swap i i) = .ub := by
  constructor <;> simp [PTbl.wstep, hm]

end Gtl.Props.Parallel
