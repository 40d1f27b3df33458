import Verif.Swiss.HashThrowProof
import Verif.Props.HashThrow
import Verif.Props.HashRefs
/-!
# Property theorem C87: a hash container whose hash function throws

The specification is `Verif.Spec.HashThrows`. In a history every call comes with the number of times the hash function can be
called in it before it throws.
-/

namespace Gtl.Props.HashFnThrow

open Gtl.Swiss
open Gtl.Swiss.Tbl
open Gtl.Spec (Op Resp TResp)
open Gtl.Props.Hash
open Gtl.Props.HashThrow (Usable usable badCfg badCfg_contract)

variable {α κ : Type}

/-! ## What holds -/

/-- C87 where it holds. In every history of calls, with exceptions of the hash function in any number of them and at any place,
nothing is undefined and nothing hangs; every call that returns answers from the present contents, but for `size()`; a call that
throws leaves a part of the elements and no others; and the container stays usable. Missing: that a call that throws leaves all
elements, and `size()` (`C87_rehash_refuted`, `C87_insert_refuted`). -/
theorem C87_history_partial {C : Cfg α κ} (h : Contract C) (ops : List (Op α κ × Nat)) (hv : ∀ o ∈ ops, o.1.Valid C.key) :
    ∃ t rs l e, (Tbl.empty : Tbl α).runH C ops = .ok (t, rs) ∧ Spec.HRun C.key C.eqv [] 0 ops rs l e ∧ Usable C t l e := by
  obtain ⟨t, rs, l, e, h1, h2, h3⟩ := runH_psim h.cfgOk ops Tbl.empty [] 0 (PSim.empty h.cfgOk.group) hv
  exact ⟨t, rs, l, e, h1, h2, usable h.cfgOk h3⟩

/-- The same from any state that a program without exceptions can reach. -/
theorem C87_later_partial [BEq α] [LawfulBEq α] {C : Cfg α κ} (h : Contract C) {t : Tbl α} (hr : Reachable C t)
    (ops : List (Op α κ × Nat)) (hv : ∀ o ∈ ops, o.1.Valid C.key) :
    ∃ l t' rs l' e, t.iterate C = .ok l ∧ t.runH C ops = .ok (t', rs) ∧ Spec.HRun C.key C.eqv l 0 ops rs l' e ∧
      Usable C t' l' e := by
  have hC := h.cfgOk
  obtain ⟨⟨c, hi⟩, _⟩ := id (hr.sim h)
  have hs' : Sim C t (elems t) := ⟨⟨c, hi⟩, List.Perm.refl _⟩
  obtain ⟨t', rs, l', e, h1, h2, h3⟩ := runH_psim hC ops t (elems t) 0 (PSim.of_sim hs' id) hv
  exact ⟨elems t, t', rs, l', e, iterate_spec hC.group hi.core, h1, h2, usable hC h3⟩

/-- If the hash function throws when a call hashes the key it is given, the container is exactly as before, in every state. -/
theorem C87_first {C : Cfg α κ} (t : Tbl α) {op : Op α κ} (hop : op.OneKey) : t.runH C [(op, 0)] = .ok (t, [.threw]) := by
  simp only [runH, stepH_first hop, Res.ok_bind]

/-- A call that neither adds elements nor changes the number of buckets leaves the container exactly as before when it throws,
and answers as ever when it does not. In particular no lookup and no erasure loses an element. -/
theorem C87_lookup [BEq α] [LawfulBEq α] {C : Cfg α κ} (h : Contract C) {t : Tbl α} (hr : Reachable C t) {op : Op α κ}
    (hop : ¬ op.Rearranges) (hv : op.Valid C.key) (k : Nat) :
    (∃ t' r, t.step C op = .ok (t', r) ∧ t.runH C [(op, k)] = .ok (t', [.got r])) ∨ t.runH C [(op, k)] = .ok (t, [.threw]) := by
  have hC := h.cfgOk
  have hs := hr.sim h
  have hp := PSim.of_sim (nd := False) (s := 0) hs id
  obtain ⟨t', r, s1, _⟩ := step_psim hC hp (by omega) op hv (fun h => h.elim)
  rcases stepH_tri hC hp op hv _ s1 k with ⟨k', g1⟩ | ⟨t1, lost, g1, _, _, g2⟩
  · exact .inl ⟨t', r, s1, by simp only [runH, g1, Res.ok_bind]⟩
  · obtain ⟨rfl, rfl⟩ := g2 hop
    exact .inr (by simp only [runH, g1, Res.ok_bind])

/-- The answers of the calls that returned. -/
def returned (rs : List (TResp α)) : List (Resp α) := rs.filterMap fun
  | .got r => some r
  | _ => none

/-- After `reserve(n)` on a container from which nothing was erased, insertions of elements up to `n` in all lose nothing: those
in which the hash function throws change nothing, and the rest work as if only they had been made. -/
theorem C87_reserved {C : Cfg α κ} (h : Contract C) {n0 : Nat} {ops : List (Op α κ)} (hv : ∀ op ∈ ops, op.Valid C.key)
    (hne : ∀ op ∈ ops, NonErasing op) {t : Tbl α} {rs : List (Resp α)} (ht : (withBuckets C n0).run C ops = .ok (t, rs))
    {n : Nat} (hn : n ≠ 0) :
    ∃ t1, t.reserve C n = .ok t1 ∧ ∀ vs : List (α × Nat), t1.size + vs.length ≤ n →
      ∃ t2 rs2, t1.runH C (vs.map fun v => (.insert v.1, v.2)) = .ok (t2, rs2) ∧
        t1.run C ((vs.filter fun v => v.2 ≠ 0).map fun v => .insert v.1) = .ok (t2, returned rs2) := by
  have hC := h.cfgOk
  obtain ⟨c0, hi0, he0⟩ := withBuckets_inv (α := α) (κ := κ) hC.group n0
  obtain ⟨l, hs, hT⟩ := run_noTomb hC ops _ [] t rs ⟨⟨c0, hi0⟩, by rw [he0]⟩ (withBuckets_noTomb n0) hv hne ht
  obtain ⟨⟨c, hi⟩, hp⟩ := id hs
  have hg : growthToLowerboundCapacity C.G.W n ≠ 0 := by
    unfold growthToLowerboundCapacity; split <;> omega
  obtain ⟨t1, c1, r1, r2, r3, r4, r5, r6⟩ := rehash_spec hC hi _ (.inl hg)
  have hT1 : NoTomb C t1 := r6 hT
  have hroom := growth_reserve r4 r2.core.raw.pow
  refine ⟨t1, r1, fun vs hvs => ?_⟩
  have key : ∀ (vs : List (α × Nat)) (t : Tbl α) (c : List Ctrl), Inv C t c → vs.length ≤ t.growthLeft →
      ∃ t2 rs2, t.runH C (vs.map fun v => (.insert v.1, v.2)) = .ok (t2, rs2) ∧
        t.run C ((vs.filter fun v => v.2 ≠ 0).map fun v => .insert v.1) = .ok (t2, returned rs2) := by
    intro vs
    induction vs with
    | nil => intro t c _ _; exact ⟨t, [], rfl, rfl⟩
    | cons v vs ih =>
      intro t c hi hl
      obtain ⟨a, k⟩ := v
      simp only [List.length_cons] at hl
      cases k with
      | zero =>
        obtain ⟨t2, rs2, g1, g2⟩ := ih t c hi (by omega)
        refine ⟨t2, .threw :: rs2, ?_, ?_⟩
        · have h0 : t.stepH C (.insert a) 0 = .ok (.threw t []) := rfl
          simp only [List.map_cons, runH, h0, g1, Res.ok_bind]
        · rw [List.filter_cons_of_neg (by simp)]
          exact g2
      | succ k =>
        have hgl : t.growthLeft ≠ 0 := by omega
        have fin : ∀ (t1 : Tbl α) (c1 : List Ctrl) i b ins, t.emplace C a = .ok (t1, i, ins) →
            t1.slots[i]? = some (some b) → Inv C t1 c1 → vs.length ≤ t1.growthLeft →
            ∃ t2 rs2, t.runH C (((a, k + 1) :: vs).map fun v => (.insert v.1, v.2)) = .ok (t2, rs2) ∧
              t.run C ((((a, k + 1) :: vs).filter fun v => v.2 ≠ 0).map fun v => .insert v.1) =
                .ok (t2, returned rs2) := by
          intro t1 c1 i b ins e1 e2 e3 e4
          obtain ⟨t2, rs2, g1, g2⟩ := ih t1 c1 e3 e4
          refine ⟨t2, .got (.ins b ins) :: rs2, ?_, ?_⟩
          · have h0 : t.stepH C (.insert a) (k + 1) = .ok (.done (t1, .ins b ins) k) := by
              show (t.emplaceH C a >>= _) (k + 1) = _
              rw [Hashing.bind_done (emplaceH_room a hgl e1 k), Hashing.bind_lift (readSlot_ok' e2)]
              rfl
            simp only [List.map_cons, runH, h0, g1, Res.ok_bind]
          · rw [List.filter_cons_of_pos (by simp)]
            have h0 : t.step C (.insert a) = .ok (t1, .ins b ins) := by
              simp only [Tbl.step, e1, readSlot_ok' e2, Res.ok_bind]
            simp only [List.map_cons, Tbl.run, h0, g2, Res.ok_bind]
            rfl
        rcases emplaceHash_spec hC hi (C.key a) (fun _ => a) (hC.refl _) with ⟨i, b, e1, e2, _⟩ |
          ⟨_, t1, c1, i, e1, e2, _, e3, _, e4, _⟩
        · exact fin t c i b false e1 e2 hi (by omega)
        · exact fin t1 c1 i a true e1 e3 e2 (by have := (e4 hgl).2.2; omega)
  refine key vs t1 c1 r2 ?_
  unfold NoTomb at hT1
  have hsz := r2.size_eq
  omega

/-- Copy construction: if the hash function throws while a container is copied, at whatever element, the destructor of the
unfinished copy works (the container copied from is not written to). -/
theorem C87_copy [BEq α] [LawfulBEq α] {C : Cfg α κ} (h : Contract C) {t : Tbl α} (hr : Reachable C t) (n : Nat) :
    ∃ u, t.copyHashThrow C n = .ok u := by
  obtain ⟨⟨c, hi⟩, _⟩ := id (hr.sim h)
  exact copyHashThrow_spec h.cfgOk hi n

/-! ## What does not hold -/

/-- In every container, a call of `rehash(n)` that changes the number of buckets loses all the elements that come after the
first exception: `j` elements are left and `size()` still says how many there were. -/
theorem C87_rehash_refuted [BEq α] [LawfulBEq α] {C : Cfg α κ} (h : Contract C) {t : Tbl α} (hr : Reachable C t) {n : Nat}
    (hn : n ≠ 0) (hgt : t.capacity < normalizeCapacity (max n t.size)) {j : Nat} (hj : j < t.size) :
    ∃ l kept lost t', t.iterate C = .ok l ∧ t.runH C [(.rehash n, j)] = .ok (t', [.threw]) ∧
      t'.iterate C = .ok kept ∧ kept.length = j ∧ (kept ++ lost).Perm l ∧ t'.size = l.length ∧
      ∀ a ∈ lost, t'.step C (.find (C.key a)) = .ok (t', .elem none) := by
  have hC := h.cfgOk
  have hs := hr.sim h
  obtain ⟨c, q, hi, hq, _⟩ := PSim.of_sim (nd := False) (s := 0) hs id
  obtain ⟨b, _, hx⟩ := rehashH_grow hC hi (by omega) hn hgt
  have hse := hi.size_eq
  obtain ⟨t', lost, g1, g2, g3, g4, g5⟩ := (hx j).2 (by omega)
  have hu := usable hC g2
  obtain ⟨c', q', hi', _, _, _⟩ := id g2
  refine ⟨elems t, elems t', lost, t', iterate_spec hC.group hi.core, ?_, iterate_spec hC.group hi'.core, g4, g3, by omega, ?_⟩
  · have h0 : t.stepH C (.rehash n) j = .ok (.threw t' lost) := by
      show (t.rehashH C n >>= _) j = _
      rw [Hashing.bind_threw g1]
    simp only [runH, h0, Res.ok_bind]
  · intro a ha
    have hno : ∀ b ∈ elems t', C.eqv (C.key b) (C.key a) = false := by
      intro b hb
      have hd : Distinct C (elems t' ++ lost) := Distinct.perm hC g3.symm hi.core.distinct
      exact (List.pairwise_append.1 hd).2.2 b hb a ha
    rcases find_psim hC g2 (C.key a) with ⟨i, b, _, _, f1, f2, _⟩ | ⟨f1, _⟩
    · rw [hno b f1] at f2
      cases f2
    · simp only [Tbl.step, f1, Res.ok_bind]

/-- 28 insertions: a table of 31 slots is full. -/
def fill : List (Op (Nat × Nat) Nat × Nat) := (List.range 28).map fun i => (.insert (i, 0), 1000)

/-- Sixteen elements erased. -/
def holes : List (Op (Nat × Nat) Nat × Nat) := (List.range 16).map fun i => (.erase (6 + i), 1)

/-- Number of elements, size, capacity and number of exceptions after a history of calls. -/
def endOf (G : Group) (ops : List (Op (Nat × Nat) Nat × Nat)) : Res (List Nat) := do
  let (t, rs) ← (Tbl.empty : Tbl (Nat × Nat)).runH (badCfg G) ops
  let es ← t.iterate (badCfg G)
  .ok [es.length, t.size, t.capacity, (rs.filter fun | .threw => true | _ => false).length]

set_option maxRecDepth 20000 in
theorem endOf_eq : (endOf (groupSse2 true) (fill ++ [(.insert (28, 0), 10)]) = .ok [9, 28, 63, 1] ∧
    endOf (groupSse2 false) (fill ++ [(.insert (28, 0), 10)]) = .ok [9, 28, 63, 1] ∧
    endOf groupPortable (fill ++ [(.insert (28, 0), 10)]) = .ok [9, 28, 63, 1]) ∧
    endOf (groupSse2 true) (fill ++ holes ++ [(.insert (28, 0), 5)]) = .ok [4, 12, 31, 1] ∧
    endOf (groupSse2 false) (fill ++ holes ++ [(.insert (28, 0), 5)]) = .ok [4, 12, 31, 1] ∧
    endOf groupPortable (fill ++ holes ++ [(.insert (28, 0), 5)]) = .ok [4, 12, 31, 1] := by decide +kernel

/-- C87 as stated is false for the library: an insertion into a container of 28 elements in which the hash function throws leaves
9 elements and the size 28 (the table was growing); and one into a container of 12 elements leaves 4 and the size 12 (the table
was being rehashed in place). -/
theorem C87_insert_refuted (G : Group) (hG : G = groupSse2 true ∨ G = groupSse2 false ∨ G = groupPortable) :
    endOf G (fill ++ [(.insert (28, 0), 10)]) = .ok [9, 28, 63, 1] ∧
    endOf G (fill ++ holes ++ [(.insert (28, 0), 5)]) = .ok [4, 12, 31, 1] := by
  obtain ⟨⟨h1, h2, h3⟩, h4, h5, h6⟩ := endOf_eq
  rcases hG with rfl | rfl | rfl
  · exact ⟨h1, h4⟩
  · exact ⟨h2, h5⟩
  · exact ⟨h3, h6⟩

/-- So the guarantee one would like, that a call that throws leaves the elements as they were, fails. -/
theorem C87_refuted (G : Group) (hG : G = groupSse2 true ∨ G = groupSse2 false ∨ G = groupPortable) :
    ¬ ∀ (t : Tbl (Nat × Nat)) (op : Op (Nat × Nat) Nat) (k : Nat) (t' : Tbl (Nat × Nat)) (es : List (Nat × Nat)),
      Reachable (exCfg G) t → op.Valid (exCfg G).key → t.iterate (exCfg G) = .ok es →
      t.runH (exCfg G) [(op, k)] = .ok (t', [.threw]) → ∃ es', t'.iterate (exCfg G) = .ok es' ∧ es'.Perm es := by
  intro hall
  have hC := exCfg_contract hG
  obtain ⟨t, h1, h2, _⟩ := exReach hG
  obtain ⟨l, kept, lost, t', g1, g2, g3, g4, g5, g6, _⟩ := C87_rehash_refuted hC h1 (n := t.capacity + 1) (by omega)
    (by have := le_normalizeCapacity (max (t.capacity + 1) t.size); omega) (j := 7) (by omega)
  obtain ⟨es', k1, k2⟩ := hall t (.rehash (t.capacity + 1)) 7 t' l h1 (show t.capacity + 1 ≠ 0 by omega) g1 g2
  rw [g3] at k1
  cases k1
  have e1 := k2.length_eq
  have e2 : t.size = l.length := by
    obtain ⟨⟨l', m1, m2⟩, _⟩ := C04_size hC h1
    rw [g1] at m1
    cases m1
    exact m2
  omega

/-! ## The hypotheses are met -/

/-- A history: 28 elements, an insertion that throws while the table grows, lookups, insertions, an erasure and a lookup that
throw, a range that throws in its middle. -/
def exCalls : List (Op (Nat × Nat) Nat × Nat) :=
  fill ++ [(.insert (28, 0), 10), (.size, 0), (.find 3, 0), (.find 3, 1), (.find 27, 1), (.insert (27, 5), 1), (.erase 3, 0),
    (.erase 3, 1), (.insertRange [(40, 1), (41, 1), (42, 1)], 2), (.find 41, 1), (.find 42, 1), (.size, 0)]

/-- 9 of 28 elements are left; an element that was lost can be inserted again; the range is inserted up to the exception. -/
example : (∀ o ∈ exCalls, o.1.Valid (badCfg groupPortable).key) ∧
    ∃ t rs, (Tbl.empty : Tbl (Nat × Nat)).runH (badCfg groupPortable) exCalls = .ok (t, rs) ∧ rs.drop 28 =
      [.threw, .got (.nat 28), .threw, .got (.elem (some (3, 0))), .got (.elem none), .got (.ins (27, 5) true), .threw,
       .got (.nat 1), .threw, .got (.elem (some (41, 1))), .got (.elem none), .got (.nat 30)] := by
  constructor
  · intro o ho
    simp only [exCalls, fill, List.mem_append, List.mem_map, List.mem_cons, List.not_mem_nil, or_false] at ho
    rcases ho with ⟨i, _, rfl⟩ | rfl | rfl | rfl | rfl | rfl | rfl | rfl | rfl | rfl | rfl | rfl | rfl <;> trivial
  · have key : ((Tbl.empty : Tbl (Nat × Nat)).runH (badCfg groupPortable) exCalls >>= fun x => Res.ok (x.2.drop 28)) = .ok
      [.threw, .got (.nat 28), .threw, .got (.elem (some (3, 0))), .got (.elem none), .got (.ins (27, 5) true), .threw,
       .got (.nat 1), .threw, .got (.elem (some (41, 1))), .got (.elem none), .got (.nat 30)] := by decide +kernel
    obtain ⟨⟨t, rs⟩, h1, h2⟩ := Res.bind_eq_ok.1 key
    injection h2 with h2
    exact ⟨t, rs, h1, h2⟩

/-- A container of 41 elements and a bucket count that makes it grow, for `C87_rehash_refuted`, `C87_lookup` and `C87_copy`. -/
example : ∃ t : Tbl (Nat × Nat), Reachable (exCfg groupPortable) t ∧ t.size = 41 ∧ t.capacity + 1 ≠ 0 ∧
    t.capacity < normalizeCapacity (max (t.capacity + 1) t.size) ∧ ¬ (Op.erase 3 : Op (Nat × Nat) Nat).Rearranges ∧
    (Op.find 3 : Op (Nat × Nat) Nat).OneKey := by
  obtain ⟨t, h1, h2, _⟩ := exReach (.inr (.inr rfl))
  exact ⟨t, h1, h2, by omega, by have := le_normalizeCapacity (max (t.capacity + 1) t.size); omega, id, trivial⟩

/-- A container from which nothing was erased, and a number to reserve. -/
example : ∃ t rs, (withBuckets (badCfg groupPortable) 5).run (badCfg groupPortable)
    [.insert (1, 1), .insert (2, 2), .find 7] = .ok (t, rs) ∧ t.size + 10 ≤ 20 ∧
    ∀ op ∈ ([.insert (1, 1), .insert (2, 2), .find 7] : List (Op (Nat × Nat) Nat)),
      op.Valid (badCfg groupPortable).key ∧ NonErasing op := by
  have key : ((withBuckets (badCfg groupPortable) 5).run (badCfg groupPortable) [.insert (1, 1), .insert (2, 2), .find 7] >>=
    fun x => Res.ok x.1.size) = .ok 2 := by decide +kernel
  obtain ⟨⟨t, rs⟩, h1, h2⟩ := Res.bind_eq_ok.1 key
  injection h2 with h2
  refine ⟨t, rs, h1, by simp only at h2; omega, ?_⟩
  intro op hop
  simp only [List.mem_cons, List.not_mem_nil, or_false] at hop
  rcases hop with rfl | rfl | rfl <;> exact ⟨trivial, trivial⟩

end Gtl.Props.HashFnThrow
