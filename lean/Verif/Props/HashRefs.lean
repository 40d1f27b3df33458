import Verif.Props.HashTable
import Verif.Swiss.Alias
/-!
# Property theorems C63-C65: references into hash containers
-/

namespace Gtl.Props.Hash

open Gtl.Swiss Gtl.Swiss.Tbl
open Gtl.Spec (Op WOp Resp Keeps insertions)

variable {α κ : Type}

/-! ## C63: how long references and iterators stay valid -/

/-- Assignments through references do not move a node to another address. -/
def SameAddress (addr : α → Nat) : Op α κ → Prop
  | .insertOrAssign _ f => ∀ b, addr (f b) = addr b
  | .subscript _ f => ∀ b, addr (f b) = addr b
  | _ => True

theorem spec_keeps_addr {C : Cfg α κ} (h : Contract C) (addr : α → Nat) {k : κ} {p : Nat} (op : Op α κ)
    (hv : op.Valid C.key) (hk : Keeps C.key C.eqv k op) (ha : SameAddress addr op) {l : List α}
    (hm : ∃ a ∈ l, C.eqv (C.key a) k = true ∧ addr a = p) :
    ∃ a ∈ (Spec.step C.key C.eqv l op).1, C.eqv (C.key a) k = true ∧ addr a = p := by
  have hmod : ∀ k' (f : α → α), (∀ b, C.key (f b) = C.key b) → (∀ b, addr (f b) = addr b) →
      ∃ a ∈ Spec.modify C.key C.eqv l k' f, C.eqv (C.key a) k = true ∧ addr a = p := by
    intro k' f h1 h2
    obtain ⟨a, a1, a2, a3⟩ := hm
    refine ⟨if C.eqv (C.key a) k' then f a else a, List.mem_map.2 ⟨a, a1, rfl⟩, ?_, ?_⟩
    · split
      · rw [h1]; exact a2
      · exact a2
    · split
      · rw [h2]; exact a3
      · exact a3
  have hera : ∀ k', C.eqv k k' = false →
      ∃ a ∈ Spec.erase C.key C.eqv l k', C.eqv (C.key a) k = true ∧ addr a = p := by
    intro k' hk'
    obtain ⟨a, a1, a2, a3⟩ := hm
    refine ⟨a, List.mem_filter.2 ⟨a1, ?_⟩, a2, a3⟩
    cases he : C.eqv (C.key a) k' with
    | false => rfl
    | true => rw [h.trans _ _ _ (h.symm _ _ a2) he] at hk'; cases hk'
  have hcons : ∀ x, ∃ a ∈ x :: l, C.eqv (C.key a) k = true ∧ addr a = p := by
    intro x
    obtain ⟨a, a1, a2⟩ := hm
    exact ⟨a, List.mem_cons_of_mem _ a1, a2⟩
  cases op with
  | insert a => simp only [Spec.step]; split; exacts [hm, hcons _]
  | insertOrAssign a f => simp only [Spec.step]; split; exacts [hmod _ f hv ha, hcons _]
  | subscript a f => simp only [Spec.step]; split; exacts [hmod _ f hv ha, hcons _]
  | «at» k' => exact hm
  | find k' => exact hm
  | contains k' => exact hm
  | count k' => exact hm
  | erase k' => exact hera k' hk
  | eraseIf q =>
    obtain ⟨a, a1, a2, a3⟩ := hm
    exact ⟨a, List.mem_filter.2 ⟨a1, by rw [hk a a2]; rfl⟩, a2, a3⟩
  | extract k' => exact hera k' hk
  | insertNode n =>
    cases n with
    | none => exact hm
    | some a => simp only [Spec.step]; split; exacts [hm, hcons _]
  | toggle a => simp only [Spec.step]; split; exacts [hera _ hk, hcons _]
  | insertRange vs =>
    simp only [Spec.step]
    clear hmod hera hcons hk ha hv
    induction vs generalizing l with
    | nil => exact hm
    | cons v vs ih =>
      rw [List.foldl_cons]
      apply ih
      unfold Spec.insert
      split
      · exact hm
      · obtain ⟨a, a1, a2⟩ := hm
        exact ⟨a, List.mem_cons_of_mem _ a1, a2⟩
  | size => exact hm
  | clear => cases hk
  | reserve n => exact hm
  | rehash n => exact hm

/-- Node containers (`node_hash_set`, `node_hash_map`).  An element of the table is a pointer to a node; moving a slot
copies the pointer, so an element of the model is a node with its address `addr`.  Whatever is called, insertions
that rehash included, the element with key `k` stays at its address until it is removed. -/
theorem C63_node_address [BEq α] [LawfulBEq α] {C : Cfg α κ} (h : Contract C) {t : Tbl α} (hr : Reachable C t)
    (addr : α → Nat) {k : κ} {a : α} (ha : t.at_ C k = .ok (some a)) (ops : List (Op α κ))
    (hv : ∀ op ∈ ops, op.Valid C.key) (hk : ∀ op ∈ ops, Keeps C.key C.eqv k op)
    (hs : ∀ op ∈ ops, SameAddress addr op) :
    ∃ t' rs b, t.run C ops = .ok (t', rs) ∧ t'.at_ C k = .ok (some b) ∧ addr b = addr a := by
  have hsim := hr.sim h
  rw [sim_at h hsim] at ha
  injection ha with ha
  have h0 : ∃ x ∈ elems t, C.eqv (C.key x) k = true ∧ addr x = addr a := by
    obtain ⟨m1, m2⟩ := lookup_some ha
    exact ⟨a, m1, m2, rfl⟩
  have key : ∀ (ops : List (Op α κ)) (l : List α), (∀ op ∈ ops, op.Valid C.key) →
      (∀ op ∈ ops, Keeps C.key C.eqv k op) → (∀ op ∈ ops, SameAddress addr op) →
      (∃ x ∈ l, C.eqv (C.key x) k = true ∧ addr x = addr a) →
      ∃ x ∈ (Spec.run C.key C.eqv l ops).1, C.eqv (C.key x) k = true ∧ addr x = addr a := by
    intro ops
    induction ops with
    | nil => intro l _ _ _ h; exact h
    | cons op ops ih =>
      intro l h1 h2 h3 h4
      exact ih _ (fun o ho => h1 o (List.mem_cons_of_mem _ ho)) (fun o ho => h2 o (List.mem_cons_of_mem _ ho))
        (fun o ho => h3 o (List.mem_cons_of_mem _ ho))
        (spec_keeps_addr h addr op (h1 op List.mem_cons_self) (h2 op List.mem_cons_self) (h3 op List.mem_cons_self) h4)
  obtain ⟨t', r1, r2⟩ := run_sim h.cfgOk ops hsim hv
  obtain ⟨b, b1, b2, b3⟩ := key ops (elems t) hv hk hs h0
  refine ⟨t', _, b, r1, ?_, b3⟩
  rw [sim_at h r2]
  exact congrArg _ (lookup_of_mem h.cfgOk (r2.distinct h.cfgOk) b1 b2)

/-- Flat containers.  As long as nothing is inserted and no resizing is asked for, an iterator to the element with
key `k` (and a reference through it) stays valid: `find(k)` returns the same position of the same allocation. -/
theorem C63_flat_position [BEq α] [LawfulBEq α] {C : Cfg α κ} (h : Contract C) {t : Tbl α} (hr : Reachable C t)
    {k : κ} {i : Nat} (hf : t.find C k = .ok (some i)) (ops : List (Op α κ))
    (hv : ∀ op ∈ ops, op.Valid C.key) (hk : ∀ op ∈ ops, Keeps C.key C.eqv k op) (hn : ∀ op ∈ ops, ¬ op.Resizes)
    (h0 : insertions ops = 0) :
    ∃ t' rs, t.run C ops = .ok (t', rs) ∧ t'.capacity = t.capacity ∧ t'.find C k = .ok (some i) := by
  have hsim := hr.sim h
  rcases find_sim h.cfgOk hsim k with ⟨j, a, f1, f2, f3, f4, f5⟩ | ⟨f1, _⟩
  · rw [hf] at f1; cases f1
    obtain ⟨t', rs, l', r1, r2, r3, b, r4, r5⟩ := run_stay h.cfgOk ops hsim hv hk hn (by omega) ⟨a, f2, f4⟩
    exact ⟨t', rs, r1, r3, find_of_slot h.cfgOk r2 r4 r5⟩
  · rw [hf] at f1; cases f1

/-- Without removals no tombstone ever appears. -/
theorem run_noTomb {C : Cfg α κ} (hC : CfgOk C) : ∀ (ops : List (Op α κ)) (t0 : Tbl α) (l : List α) (t : Tbl α) rs, Sim C t0 l → NoTomb C t0 →
    (∀ op ∈ ops, op.Valid C.key) → (∀ op ∈ ops, NonErasing op) → t0.run C ops = .ok (t, rs) →
    ∃ l', Sim C t l' ∧ NoTomb C t := by
  intro ops
  induction ops with
  | nil => intro t0 l t rs h1 h2 _ _ h3; cases h3; exact ⟨l, h1, h2⟩
  | cons op ops ih =>
    intro t0 l t rs h1 h2 hv hne h3
    unfold Tbl.run at h3
    obtain ⟨⟨t1, r⟩, h4, h5⟩ := Res.bind_eq_ok.1 h3
    obtain ⟨⟨t2, rs'⟩, h6, h7⟩ := Res.bind_eq_ok.1 h5
    cases h7
    obtain ⟨t1', g1, g2⟩ := step_sim hC h1 op (hv op List.mem_cons_self)
    rw [h4] at g1
    cases g1
    have hgr : Growing op := by
      have := hne op List.mem_cons_self
      cases op <;> first | exact trivial | exact this
    exact ih t1 _ t rs' g2 (step_noTomb hC h1 h2 op (hv op List.mem_cons_self) hgr h4)
      (fun o ho => hv o (List.mem_cons_of_mem _ ho)) (fun o ho => hne o (List.mem_cons_of_mem _ ho)) h6

/-- Flat containers, with insertions: after `reserve(n)` on a container from which nothing was ever erased, any mixture
of calls that makes at most `n - size()` insertions leaves every element that is not removed where it is. -/
theorem C63_flat_reserved {C : Cfg α κ} (h : Contract C) {n0 : Nat} {ops : List (Op α κ)}
    (hv : ∀ op ∈ ops, op.Valid C.key) (hne : ∀ op ∈ ops, NonErasing op) {t : Tbl α} {rs : List (Resp α)}
    (ht : (withBuckets C n0).run C ops = .ok (t, rs)) {n : Nat} (hn : n ≠ 0) :
    ∃ t1, t.reserve C n = .ok t1 ∧ ∀ (k : κ) (i : Nat) (ops' : List (Op α κ)), t1.find C k = .ok (some i) →
      (∀ op ∈ ops', op.Valid C.key) → (∀ op ∈ ops', Keeps C.key C.eqv k op) → (∀ op ∈ ops', ¬ op.Resizes) →
      insertions ops' + t1.size ≤ n →
      ∃ t2 rs2, t1.run C ops' = .ok (t2, rs2) ∧ t2.capacity = t1.capacity ∧ t2.find C k = .ok (some i) := by
  have hC := h.cfgOk
  obtain ⟨c0, hi0, he0⟩ := withBuckets_inv (α := α) (κ := κ) hC.group n0
  obtain ⟨l, hs, hT⟩ := run_noTomb hC ops _ [] t rs ⟨⟨c0, hi0⟩, by rw [he0]⟩ (withBuckets_noTomb n0) hv hne ht
  obtain ⟨⟨c, hi⟩, hp⟩ := id hs
  have hg : growthToLowerboundCapacity C.G.W n ≠ 0 := by
    unfold growthToLowerboundCapacity; split <;> omega
  obtain ⟨t1, c1, r1, r2, r3, r4, r5, r6⟩ := rehash_spec hC hi _ (.inl hg)
  have hT1 : NoTomb C t1 := r6 hT
  have hroom := growth_reserve r4 r2.core.raw.pow
  have hs1 : Sim C t1 l := ⟨⟨c1, r2⟩, r3.trans hp⟩
  refine ⟨t1, r1, fun k i ops' hf hv' hk' hn' hins => ?_⟩
  have hgl : insertions ops' ≤ t1.growthLeft := by
    unfold NoTomb at hT1; omega
  rcases find_sim hC hs1 k with ⟨j, a, f1, f2, f3, f4, f5⟩ | ⟨f1, _⟩
  · rw [hf] at f1; cases f1
    obtain ⟨t', rs, l', q1, q2, q3, b, q4, q5⟩ := run_stay hC ops' hs1 hv' hk' hn' hgl ⟨a, f2, f4⟩
    exact ⟨t', rs, q1, q3, find_of_slot hC q2 q4 q5⟩
  · rw [hf] at f1; cases f1

/-- A history with insertions and removals of other keys. -/
def exStay : List (Op (Nat × Nat) Nat) :=
  [.insert (60, 1), .erase 4, .insertOrAssign (3, 8) (fun b => (b.1, 8)), .eraseIf (fun a => a.1 % 100 == 9), .find 2,
   .extract 6]

theorem exStay_ok {G : Group} : (∀ op ∈ exStay, op.Valid (exCfg G).key) ∧
    (∀ op ∈ exStay, Keeps (exCfg G).key (exCfg G).eqv 103 op) ∧ (∀ op ∈ exStay, ¬ op.Resizes) ∧
    insertions exStay = 2 := by
  refine ⟨?_, ?_, ?_, by decide⟩
  · simp [exStay, Op.Valid, exCfg]
  · simp only [exStay, List.mem_cons, List.not_mem_nil, or_false]
    rintro op (rfl | rfl | rfl | rfl | rfl | rfl) <;> simp [Keeps, exCfg, exEqv]
    intro a b hab; omega
  · simp [exStay, Op.Resizes]

/-- The hypotheses of `C63_node_address` hold for a container of 41 elements and a history that changes it. -/
example : ∃ (t : Tbl (Nat × Nat)) (a : Nat × Nat), Reachable (exCfg groupPortable) t ∧
    t.at_ (exCfg groupPortable) 103 = .ok (some a) ∧ (∀ op ∈ exStay, op.Valid (exCfg groupPortable).key) ∧
    (∀ op ∈ exStay, Keeps (exCfg groupPortable).key (exCfg groupPortable).eqv 103 op) ∧
    (∀ op ∈ exStay, SameAddress (fun a : Nat × Nat => a.1) op) := by
  obtain ⟨t, h1, h2⟩ := reachable_of_valid (exCfg_contract (.inr (.inr rfl))) exOps exOps_valid 3
  refine ⟨t, (3, 5), h1, ?_, exStay_ok.1, exStay_ok.2.1, by simp [exStay, SameAddress]⟩
  rw [sim_at (exCfg_contract (.inr (.inr rfl))) h2]
  exact congrArg _ (show Spec.lookup Prod.fst exEqv (exSpec 3) 103 = some (3, 5) by decide +kernel)

/-- The hypotheses of `C63_flat_position`: the same container, other keys removed, the mapped value assigned. -/
example : ∃ (t : Tbl (Nat × Nat)) (i : Nat), Reachable (exCfg groupPortable) t ∧
    t.find (exCfg groupPortable) 103 = .ok (some i) ∧
    (∀ op ∈ exStay.drop 3, op.Valid (exCfg groupPortable).key) ∧
    (∀ op ∈ exStay.drop 3, Keeps (exCfg groupPortable).key (exCfg groupPortable).eqv 103 op) ∧
    (∀ op ∈ exStay.drop 3, ¬ op.Resizes) ∧ insertions (exStay.drop 3) = 0 := by
  have hc := exCfg_contract (G := groupPortable) (.inr (.inr rfl))
  obtain ⟨t, h1, h2⟩ := reachable_of_valid hc exOps exOps_valid 3
  have hsub : ∀ op ∈ exStay.drop 3, op ∈ exStay := fun op h => List.mem_of_mem_drop h
  rcases find_sim hc.cfgOk h2 103 with ⟨i, a, f1, _⟩ | ⟨_, _, f3⟩
  · exact ⟨t, i, h1, f1, fun op h => exStay_ok.1 op (hsub op h), fun op h => exStay_ok.2.1 op (hsub op h),
      fun op h => (exStay_ok (G := groupPortable)).2.2.1 op (hsub op h), by decide⟩
  · exact absurd (f3.symm.trans (show Spec.lookup Prod.fst exEqv (exSpec 3) 103 = some (3, 5) by decide +kernel)) (by simp)

/-- The hypotheses of `C63_flat_reserved` and `C64_reserved_partial`: ten insertions, `reserve(20)`, then the history
above with its two insertions. -/
example : ∃ (t t1 : Tbl (Nat × Nat)) (rs : List (Resp (Nat × Nat))) (i : Nat),
    (withBuckets (exCfg groupPortable) 4).run (exCfg groupPortable) ((List.range 10).map (fun i => .insert (i, i))) =
      .ok (t, rs) ∧ t.reserve (exCfg groupPortable) 20 = .ok t1 ∧ t1.find (exCfg groupPortable) 103 = .ok (some i) ∧
      insertions exStay + t1.size ≤ 20 := by
  have e : (do
      let (t, rs) ← (withBuckets (exCfg groupPortable) 4).run (exCfg groupPortable)
        ((List.range 10).map (fun i => .insert (i, i)))
      let t1 ← t.reserve (exCfg groupPortable) 20
      let o ← t1.find (exCfg groupPortable) 103
      Res.ok (o, t1.size)) = .ok (some 3, 10) := by decide +kernel
  obtain ⟨⟨t, rs⟩, h1, e⟩ := Res.bind_eq_ok.1 e
  obtain ⟨t1, h2, e⟩ := Res.bind_eq_ok.1 e
  obtain ⟨o, h3, e⟩ := Res.bind_eq_ok.1 e
  simp only [Res.ok.injEq, Prod.mk.injEq] at e
  exact ⟨t, t1, rs, 3, h1, h2, by rw [h3, e.1], by rw [e.2]; decide⟩

/-! ## C65: reserve and erase -/

/-- What users expect of `reserve(n)` (and what `std::unordered_map` promises): while the container never holds more
than `n` elements, an element that is not removed stays where it is. -/
def ReserveHolds (C : Cfg α κ) : Prop :=
  ∀ (n : Nat) (t1 : Tbl α), n ≠ 0 → (Tbl.empty : Tbl α).reserve C n = .ok t1 → ∀ (pre ops : List (Op α κ)) (t2 : Tbl α)
    (rs : List (Resp α)) (k : κ) (i : Nat) (t3 : Tbl α) (rs' : List (Resp α)),
    (∀ op ∈ pre ++ ops, op.Valid C.key) → (∀ op ∈ pre ++ ops, ¬ op.Resizes) →
    (∀ m, (Spec.run C.key C.eqv [] ((pre ++ ops).take m)).1.length ≤ n) →
    t1.run C pre = .ok (t2, rs) → t2.find C k = .ok (some i) → (∀ op ∈ ops, Keeps C.key C.eqv k op) →
    t2.run C ops = .ok (t3, rs') → t3.capacity = t2.capacity ∧ t3.find C k = .ok (some i)

/-- Keys are numbers, the hash is spread over the groups in order. -/
def lineCfg (G : Group) : Cfg (Nat × Nat) Nat where
  key := Prod.fst
  hash k := k * 128
  eqv k l := k == l
  G := G

theorem lineCfg_contract {G : Group} (hG : G = groupSse2 true ∨ G = groupSse2 false ∨ G = groupPortable) :
    Contract (lineCfg G) where
  refl k := by simp [lineCfg]
  symm k l h := by simp only [lineCfg, beq_iff_eq] at *; exact h.symm
  trans k l m h1 h2 := by simp only [lineCfg, beq_iff_eq] at *; omega
  hash_congr k l h := by simp only [lineCfg, beq_iff_eq] at *; rw [h]
  group := hG

def churnPre : List (Op (Nat × Nat) Nat) := (List.range 28).map (fun i => .insert (i, i))
def churn : List (Op (Nat × Nat) Nat) := [.erase 12, .insert (29, 7)]

/-- `reserve(28)`, 28 insertions, one removal, one insertion: capacity before and after the last two calls, and the
position of key 3. -/
def churnRun (G : Group) : Res (Nat × Nat × Res (Option Nat) × Res (Option Nat)) := do
  let t1 ← (Tbl.empty : Tbl (Nat × Nat)).reserve (lineCfg G) 28
  let (t2, _) ← t1.run (lineCfg G) churnPre
  let (t3, _) ← t2.run (lineCfg G) churn
  .ok (t2.capacity, t3.capacity, t2.find (lineCfg G) 3, t3.find (lineCfg G) 3)

theorem churn_sse2 (b : Bool) : churnRun (groupSse2 b) = .ok (31, 63, .ok (some 3), .ok (some 3)) := by
  cases b <;> decide +kernel

theorem churn_portable : churnRun groupPortable = .ok (31, 63, .ok (some 3), .ok (some 3)) := by decide +kernel

theorem churn_valid (key : Nat × Nat → Nat) : (∀ op ∈ churnPre ++ churn, Op.Valid key op) ∧
    ∀ op ∈ churnPre ++ churn, ¬ op.Resizes := by
  constructor
  all_goals
    intro op hop
    simp only [churnPre, churn, List.mem_append, List.mem_map, List.mem_cons, List.not_mem_nil, or_false] at hop
    rcases hop with ⟨i, _, rfl⟩ | rfl | rfl
  exacts [trivial, trivial, trivial, id, id, id]

theorem churn_sizes : ∀ m, (Spec.run (Prod.fst : Nat × Nat → Nat) (fun k l => k == l) []
    ((churnPre ++ churn).take m)).1.length ≤ 28 := by
  intro m
  by_cases hm : m < 31
  · have : ∀ m < 31, (Spec.run (Prod.fst : Nat × Nat → Nat) (fun k l => k == l) []
      ((churnPre ++ churn).take m)).1.length ≤ 28 := by decide +kernel
    exact this m hm
  · rw [List.take_of_length_le (by simp [churnPre, churn]; omega)]
    decide +kernel

/-- `reserve(n)` does not protect against reallocation once something was erased: with 28 reserved and never more than
28 elements, one removal and one insertion double the capacity.  Every group implementation. -/
theorem C65_refuted (G : Group) (hG : G = groupSse2 true ∨ G = groupSse2 false ∨ G = groupPortable) :
    ¬ ReserveHolds (lineCfg G) := by
  intro hall
  have hrun : churnRun G = .ok (31, 63, .ok (some 3), .ok (some 3)) := by
    rcases hG with rfl | rfl | rfl
    exacts [churn_sse2 _, churn_sse2 _, churn_portable]
  unfold churnRun at hrun
  obtain ⟨t1, h1, hrun⟩ := Res.bind_eq_ok.1 hrun
  obtain ⟨⟨t2, rs⟩, h2, hrun⟩ := Res.bind_eq_ok.1 hrun
  obtain ⟨⟨t3, rs'⟩, h3, hrun⟩ := Res.bind_eq_ok.1 hrun
  simp only [Res.ok.injEq, Prod.mk.injEq] at hrun
  obtain ⟨e1, e2, e3, e4⟩ := hrun
  have := hall 28 t1 (by omega) h1 churnPre churn t2 rs 3 3 t3 rs'
    (churn_valid _).1 (churn_valid (Prod.fst : Nat × Nat → Nat)).2 churn_sizes h2 e3
    (by simp [churn, Keeps, lineCfg]) h3
  rw [e1, e2] at this
  exact absurd this.1 (by omega)

/-! ## C64: arguments that refer to elements of the container -/

/-- The expectation: copying an element of a flat container into a new element works like copying any other value. -/
def OwnArgumentOk [BEq α] (C : Cfg α κ) : Prop :=
  ∀ (t : Tbl α) (src : Nat) (b : α) (k : κ) (mk : α → α), Reachable C t → t.readSlot src = .ok b → C.key (mk b) = k →
    t.emplaceFrom C k src mk = t.emplaceHash C k (C.hash k) (fun _ => mk b)

/-- When the key is already present nothing is constructed, so `insert(*it)` and `emplace(*it)` are always fine. -/
theorem C64_present_partial {C : Cfg α κ} {t : Tbl α}
    {k : κ} {i : Nat} (hf : t.find C k = .ok (some i)) (src : Nat) (mk : α → α) (b : α) :
    t.emplaceFrom C k src mk = .ok (t, i, false) ∧
      t.emplaceHash C k (C.hash k) (fun _ => mk b) = .ok (t, i, false) := by
  unfold find at hf
  unfold emplaceFrom emplaceHash
  dsimp only
  rw [hf]
  exact ⟨rfl, rfl⟩

/-- After `reserve(n)` on a container from which nothing was erased, arguments may refer to elements as long as the
container holds fewer than `n` elements. -/
theorem C64_reserved_partial {C : Cfg α κ} (h : Contract C) {n0 : Nat} {ops : List (Op α κ)}
    (hv : ∀ op ∈ ops, op.Valid C.key) (hne : ∀ op ∈ ops, NonErasing op) {t : Tbl α} {rs : List (Resp α)}
    (ht : (withBuckets C n0).run C ops = .ok (t, rs)) {n : Nat} (hn : n ≠ 0) :
    ∃ t1, t.reserve C n = .ok t1 ∧ ∀ (src : Nat) (b : α) (k : κ) (mk : α → α), t1.size < n →
      t1.readSlot src = .ok b → C.key (mk b) = k →
      t1.emplaceFrom C k src mk = t1.emplaceHash C k (C.hash k) (fun _ => mk b) := by
  have hC := h.cfgOk
  obtain ⟨c0, hi0, he0⟩ := withBuckets_inv (α := α) (κ := κ) hC.group n0
  obtain ⟨l, hs, hT⟩ := run_noTomb hC ops _ [] t rs ⟨⟨c0, hi0⟩, by rw [he0]⟩ (withBuckets_noTomb n0) hv hne ht
  obtain ⟨⟨c, hi⟩, hp⟩ := id hs
  have hg : growthToLowerboundCapacity C.G.W n ≠ 0 := by
    unfold growthToLowerboundCapacity; split <;> omega
  obtain ⟨t1, c1, r1, r2, r3, r4, r5, r6⟩ := rehash_spec hC hi _ (.inl hg)
  have hT1 : NoTomb C t1 := r6 hT
  have hroom := growth_reserve r4 r2.core.raw.pow
  refine ⟨t1, r1, fun src b k mk hlt hb hk => ?_⟩
  exact emplaceFrom_room hC (l := l) ⟨⟨c1, r2⟩, r3.trans hp⟩ (readSlot_inv hb) mk hk (by unfold NoTomb at hT1; omega)

/-- Whenever inserting the copied element would enlarge the container, passing it by reference to an element of the
container reads freed memory instead. -/
theorem C64_grow_dangles [BEq α] [LawfulBEq α] {C : Cfg α κ} (h : Contract C) {t : Tbl α} (hr : Reachable C t)
    {src : Nat} {b : α} (mk : α → α) {t' : Tbl α} {i : Nat}
    (he : t.emplace C (mk b) = .ok (t', i, true)) (hc : t'.capacity ≠ t.capacity) :
    t.emplaceFrom C (C.key (mk b)) src mk = .ub := by
  have hsim := hr.sim h
  exact emplaceFrom_grow h.cfgOk hsim (mk b) rfl he hc src mk

/-- One element, then `m.try_emplace(2, m.at(1))`. -/
theorem own_argument_witness (G : Group) (hG : G = groupSse2 true ∨ G = groupSse2 false ∨ G = groupPortable) :
    ∃ t : Tbl (Nat × Nat), Reachable (lineCfg G) t ∧ t.readSlot 0 = .ok (1, 10) ∧
      t.emplaceFrom (lineCfg G) 2 0 (fun b => (2, b.2)) = .ub := by
  have hrun : ∃ w rs, wrun (lineCfg G) (fun _ => (Tbl.empty : Tbl (Nat × Nat))) [.on 0 (.insert (1, 10))] = .ok (w, rs) ∧
      (w 0).readSlot 0 = .ok (1, 10) ∧ (w 0).emplaceFrom (lineCfg G) 2 0 (fun b => (2, b.2)) = .ub := by
    have e : ∀ G : Group, wrun (lineCfg G) (fun _ => (Tbl.empty : Tbl (Nat × Nat))) [.on 0 (.insert (1, 10))] =
        (do let (t, r) ← (Tbl.empty : Tbl (Nat × Nat)).step (lineCfg G) (.insert (1, 10))
            Res.ok (Spec.put (fun _ => (Tbl.empty : Tbl (Nat × Nat))) 0 t, [r])) := by
      intro G
      simp only [wrun, wstep, bind_assoc, Res.ok_bind]
    have f : (do let (t, _) ← (Tbl.empty : Tbl (Nat × Nat)).step (lineCfg G) (.insert (1, 10))
                 Res.ok (t.readSlot 0, (t.emplaceFrom (lineCfg G) 2 0 (fun b => (2, b.2))))) =
        Res.ok (Res.ok (1, 10), Res.ub) := by
      rcases hG with rfl | rfl | rfl <;> decide +kernel
    rw [e]
    obtain ⟨⟨t, r⟩, f1, f2⟩ := Res.bind_eq_ok.1 f
    rw [f1]
    simp only [Res.ok_bind]
    simp only [Res.ok.injEq, Prod.mk.injEq] at f2
    exact ⟨_, _, rfl, f2.1, f2.2⟩
  obtain ⟨w, rs, h1, h2, h3⟩ := hrun
  exact ⟨w 0, ⟨[.on 0 (.insert (1, 10))], w, rs, 0, by simp [WOp.Valid, Op.Valid], h1, rfl⟩, h2, h3⟩

/-- `m.try_emplace(2, m.at(1))` on a flat map that holds one element reads freed memory. -/
theorem C64_refuted (G : Group) (hG : G = groupSse2 true ∨ G = groupSse2 false ∨ G = groupPortable) :
    ¬ OwnArgumentOk (lineCfg G) := by
  intro hall
  obtain ⟨t, h1, h2, h3⟩ := own_argument_witness G hG
  have := hall t 0 (1, 10) 2 (fun b => (2, b.2)) h1 h2 rfl
  rw [h3] at this
  have hsim := h1.sim (lineCfg_contract hG)
  obtain ⟨⟨c, hi⟩, hp⟩ := hsim
  rcases emplaceHash_spec (lineCfg_contract hG).cfgOk hi 2 (fun _ => (2, 10)) (by simp [lineCfg]) with
    ⟨i, b, e1, _⟩ | ⟨_, t', c', i, e1, _⟩
  · exact absurd (this.trans e1) (by simp)
  · exact absurd (this.trans e1) (by simp)

end Gtl.Props.Hash
