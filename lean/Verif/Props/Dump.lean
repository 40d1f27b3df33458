import Verif.Props.HashTable
import Verif.Swiss.Dump
/-!
# Property theorems C16, C17: dump and load
-/

namespace Gtl.Props.Dump

open Gtl.Swiss Gtl.Swiss.Tbl Gtl.Props.Hash

variable {α κ : Type}

/-- The element type is trivially copyable with `I.size` bytes, and the counters fit in a `size_t`. -/
structure Fits (I : Image α) (junk : Nat → List Ctrl) (t : Tbl α) : Prop where
  enc_len : ∀ a, (I.enc a).length = I.size
  dec_enc : ∀ a, I.dec (I.enc a) = a
  junk_len : ∀ i, (junk i).length = I.size
  size_pos : 0 < I.size
  size : t.size < 2 ^ 64 - 33
  capacity : t.capacity < 2 ^ 64
  growth : t.growthLeft < 2 ^ 64

/-! ## C16: round trip -/

/-- Dumping a container and loading the archive into any other container (whose old contents are released) gives a
container with the same elements in the same order, the same size and capacity, that behaves the same from then on.
Exactly the written bytes are consumed: `tail` is whatever follows in the stream. -/
theorem C16_round_trip [BEq α] [LawfulBEq α] {C : Cfg α κ} (h : Contract C) {t old : Tbl α} (hr : Reachable C t)
    (ho : Reachable C old) {I : Image α} {junk : Nat → List Ctrl} (hf : Fits I junk t) :
    ∃ ar l, t.dumpArchive C I junk = .ok ar ∧ t.iterate C = .ok l ∧ ∀ tail,
      ∃ t', loadArchive C I old (ar ++ tail) = .ok (t', true, tail) ∧ t'.iterate C = .ok l ∧ t'.size = t.size ∧
        t'.capacity = t.capacity ∧ BehavesAs C t' l := by
  have hs := hr.sim h
  obtain ⟨⟨c, hi⟩, _⟩ := id hs
  obtain ⟨u, hu⟩ := destroySlots_sim h.cfgOk (ho.sim h)
  obtain ⟨ar, h1, h2⟩ := load_dump h.cfgOk ⟨hf.enc_len, hf.dec_enc⟩ hf.junk_len hi (by have := hf.size; omega) hf.capacity hf.growth hu
  refine ⟨ar, elems t, h1, sim_iterate h hs, fun tail => ?_⟩
  obtain ⟨t', c', e1, e2, e3, e4, e5, _⟩ := h2 tail
  refine ⟨t', e1, ?_, e4, e5, sim_behaves h ⟨⟨c', e2⟩, by rw [e3]⟩⟩
  rw [iterate_spec h.cfgOk.group e2.core, e3]

/-- Archives in the layout without version number (still accepted by `phmap_load`) are restored when the table has at
least one full group of slots. -/
theorem C16_legacy_partial [BEq α] [LawfulBEq α] {C : Cfg α κ} (h : Contract C) {t old : Tbl α} (hr : Reachable C t)
    (ho : Reachable C old) {I : Image α} {junk : Nat → List Ctrl} (hf : Fits I junk t) (hs0 : t.size ≠ 0)
    (hbig : C.G.W ≤ t.capacity + 1) :
    ∃ ar l, t.dumpLegacy C I junk = .ok ar ∧ t.iterate C = .ok l ∧ ∀ tail,
      ∃ t' l', loadArchive C I old (ar ++ tail) = .ok (t', true, tail) ∧ t'.iterate C = .ok l' ∧ l'.Perm l ∧
        t'.size = t.size ∧ t'.capacity = t.capacity ∧ BehavesAs C t' l := by
  have hs := hr.sim h
  obtain ⟨⟨c, hi⟩, _⟩ := id hs
  obtain ⟨u, hu⟩ := destroySlots_sim h.cfgOk (ho.sim h)
  obtain ⟨ar, h1, h2, _⟩ := load_legacy h.cfgOk ⟨hf.enc_len, hf.dec_enc⟩ hf.junk_len hi
    (by have := hf.size; unfold versionBase; omega) hf.capacity hu hs0
  refine ⟨ar, elems t, h1, sim_iterate h hs, fun tail => ?_⟩
  obtain ⟨t', c', e1, e2, e3, e4, e5⟩ := h2 hbig tail
  exact ⟨t', elems t', e1, iterate_spec h.cfgOk.group e2.core, e3, e4, e5, sim_behaves h ⟨⟨c', e2⟩, e3⟩⟩

/-- ... and smaller tables are not: loading such an archive runs `drop_deletes_without_resize` on a table with less
than one group, which walks past the end of the control bytes. -/
theorem C16_legacy_small_refuted [BEq α] [LawfulBEq α] {C : Cfg α κ} (h : Contract C) {t old : Tbl α} (hr : Reachable C t)
    (ho : Reachable C old) {I : Image α} {junk : Nat → List Ctrl} (hf : Fits I junk t) (hs0 : t.size ≠ 0)
    (hsmall : t.capacity + 1 < C.G.W) :
    ∃ ar, t.dumpLegacy C I junk = .ok ar ∧ ∀ tail, loadArchive C I old (ar ++ tail) = .ub := by
  have hs := hr.sim h
  obtain ⟨⟨c, hi⟩, _⟩ := id hs
  obtain ⟨u, hu⟩ := destroySlots_sim h.cfgOk (ho.sim h)
  obtain ⟨ar, h1, _, h2⟩ := load_legacy h.cfgOk ⟨hf.enc_len, hf.dec_enc⟩ hf.junk_len hi
    (by have := hf.size; unfold versionBase; omega) hf.capacity hu hs0
  exact ⟨ar, h1, h2 hsmall⟩

/-! ## C17: truncated archives -/

theorem skip_congr {C : Cfg α κ} {t t' : Tbl α} (hc : t'.ctrl = t.ctrl) : ∀ n p, t'.skip C n p = t.skip C n p := by
  intro n
  induction n with
  | zero => intro p; rfl
  | succ n ih =>
    intro p
    unfold skip ctrlAt Tbl.load
    rw [hc]
    congr 1; funext c
    split
    · congr 1; funext g; exact ih _
    · rfl

theorem readInto_nil (dst : List Ctrl) (n : Nat) : readInto dst n [] = (dst, []) := by
  unfold readInto; simp

/-- No truncation behind the header is noticed: `phmap_load` returns `true`. (The header is the first 24 bytes.) -/
theorem C17_never_detected [BEq α] [LawfulBEq α] {C : Cfg α κ} (h : Contract C) {t old : Tbl α} (hr : Reachable C t)
    (ho : Reachable C old) {I : Image α} {junk : Nat → List Ctrl} (hf : Fits I junk t) (hs0 : t.size ≠ 0) :
    ∃ ar, t.dumpArchive C I junk = .ok ar ∧ 24 < ar.length ∧ ∀ n, 24 ≤ n →
      ∃ t' rest, loadArchive C I old (ar.take n) = .ok (t', true, rest) := by
  obtain ⟨⟨c, hi⟩, _⟩ := hr.sim h
  obtain ⟨u, hu⟩ := destroySlots_sim h.cfgOk (ho.sim h)
  refine ⟨_, dump_ok hi, ?_, fun n hn => ?_⟩
  · simp only [if_neg hs0, List.length_append, u64_length]; omega
  · rw [if_neg hs0, List.take_append, List.take_of_length_le (by rw [u64_length]; omega), u64_length,
      List.take_append, List.take_of_length_le (by rw [u64_length]; omega), u64_length,
      List.take_append, List.take_of_length_le (by rw [u64_length]; omega), u64_length,
      load_header hu (by have := hf.size; omega) hf.capacity hs0 (hi.cap_ne hs0)]
    exact ⟨_, _, rfl⟩

/-- Cut right after the header: the loaded container reports the full size but holds nothing. -/
theorem C17_header_only [BEq α] [LawfulBEq α] {C : Cfg α κ} (h : Contract C) {t old : Tbl α} (hr : Reachable C t)
    (ho : Reachable C old) {I : Image α} {junk : Nat → List Ctrl} (hf : Fits I junk t) (hs0 : t.size ≠ 0) :
    ∃ ar t', t.dumpArchive C I junk = .ok ar ∧ loadArchive C I old (ar.take 24) = .ok (t', true, []) ∧
      t'.size = t.size ∧ t'.iterate C = .ok [] := by
  obtain ⟨⟨c, hi⟩, _⟩ := hr.sim h
  obtain ⟨u, hu⟩ := destroySlots_sim h.cfgOk (ho.sim h)
  have hcap := hi.cap_ne hs0
  refine ⟨_, ?_, dump_ok hi, ?_, ?_, ?_⟩
  rotate_left
  · rw [if_neg hs0, List.take_append, List.take_of_length_le (by rw [u64_length]; omega), u64_length,
      List.take_append, List.take_of_length_le (by rw [u64_length]; omega), u64_length,
      List.take_append, List.take_of_length_le (by rw [u64_length]), u64_length, List.take_zero,
      load_header hu (by have := hf.size; omega) hf.capacity hs0 hcap]
    simp only [readWord, readInto_nil, List.drop_nil]
    rfl
  · rfl
  · have hz : readSlots I (resetCtrl C.G.W t.capacity) t.capacity [] = List.replicate t.capacity none := by
      unfold readSlots
      rw [List.eq_replicate_iff]
      refine ⟨by simp, ?_⟩
      intro b hb
      simp only [List.mem_map] at hb
      obtain ⟨i, _, rfl⟩ := hb
      rw [if_neg]
      simp only [Bool.and_eq_true, decide_eq_true_eq, List.length_nil, not_and, Nat.le_zero, Nat.mul_eq_zero]
      intro _; have := hf.size_pos; omega
    obtain ⟨d, hd, he⟩ := withBuckets_inv (α := α) (C := C) h.cfgOk.group t.capacity
    have hw : (withBuckets C t.capacity : Tbl α) = initializeSlots C Tbl.empty t.capacity := by
      unfold withBuckets; rw [if_neg hcap, normalizeCapacity_self hi.core.raw.pow hcap]
    rw [hw] at hd he
    have hcore := hd.core
    simp only [initializeSlots] at hcore he ⊢
    rw [hz]
    have hcore' : Core C (Tbl.mk (resetCtrl C.G.W t.capacity) (List.replicate t.capacity none) t.size t.capacity
        (load64Nat (u64 (usub (capacityToGrowth C.G.W t.capacity) t.size)))) d :=
      ⟨hcore.raw.congr rfl rfl, ⟨hcore.sync.slen, hcore.sync.some_full, hcore.sync.none_eod⟩, hcore.h2, hcore.reach, hcore.distinct⟩
    rw [iterate_spec h.cfgOk.group hcore']
    exact congrArg _ he

/-- Cut before the elements: the loaded container claims to be full of elements that were never read; the first
access is to uninitialised memory. -/
theorem C17_missing_elements [BEq α] [LawfulBEq α] {C : Cfg α κ} (h : Contract C) {t old : Tbl α} (hr : Reachable C t)
    (ho : Reachable C old) {I : Image α} {junk : Nat → List Ctrl} (hf : Fits I junk t) (hs0 : t.size ≠ 0) :
    ∃ ar t', t.dumpArchive C I junk = .ok ar ∧ 32 + (t.capacity + C.G.W + 1) < ar.length ∧
      loadArchive C I old (ar.take (32 + (t.capacity + C.G.W + 1))) = .ok (t', true, []) ∧
      t'.size = t.size ∧ t'.iterate C = .ub := by
  obtain ⟨⟨c, hi⟩, _⟩ := hr.sim h
  obtain ⟨u, hu⟩ := destroySlots_sim h.cfgOk (ho.sim h)
  have hcap := hi.cap_ne hs0
  have hlen := hi.core.raw.alloc hcap
  have hfl : ∀ i, (slotBytes I junk t i).length = I.size := by
    intro i; unfold slotBytes; split
    · exact hf.enc_len _
    · exact hf.junk_len i
  refine ⟨_, ?_, dump_ok hi, ?_, ?_, ?_, ?_⟩
  rotate_left
  · simp only [if_neg hs0, List.length_append, u64_length, flatMap_length hfl, hlen]
    have := Nat.mul_pos hf.size_pos (Nat.pos_of_ne_zero hcap)
    omega
  · rw [if_neg hs0, List.take_append, List.take_of_length_le (by rw [u64_length]; omega), u64_length,
      List.take_append, List.take_of_length_le (by rw [u64_length]; omega), u64_length,
      List.take_append, List.take_of_length_le (by rw [u64_length]; omega), u64_length,
      List.take_append, List.take_of_length_le (by rw [u64_length]; omega), u64_length,
      List.take_append, List.take_of_length_le (by omega), hlen,
      load_header hu (by have := hf.size; omega) hf.capacity hs0 hcap]
    rw [show 32 + (t.capacity + C.G.W + 1) - 8 - 8 - 8 - 8 - (t.capacity + C.G.W + 1) = 0 by omega, List.take_zero]
    simp only
    rw [readWord_append _ _ hf.growth]
    simp only
    rw [readInto_append (n := t.capacity + C.G.W + 1) _ hlen (by simp only [initializeSlots, resetCtrl_length])]
    simp only [List.drop_nil]
    rfl
  · rfl
  · have hz : readSlots I t.ctrl t.capacity [] = List.replicate t.capacity none := by
      unfold readSlots
      rw [List.eq_replicate_iff]
      refine ⟨by simp, ?_⟩
      intro b hb
      simp only [List.mem_map] at hb
      obtain ⟨i, _, rfl⟩ := hb
      rw [if_neg]
      simp only [Bool.and_eq_true, decide_eq_true_eq, List.length_nil, not_and, Nat.le_zero, Nat.mul_eq_zero]
      intro _; have := hf.size_pos; omega
    simp only [initializeSlots]
    rw [hz]
    obtain ⟨p, b1, b2, b3, b4⟩ := begin_spec h.cfgOk.group hi.core
    have hp : p < t.capacity := by
      by_contra hc
      have : p = t.capacity := by omega
      have hall : ∀ x ∈ t.slots, x = none := by
        intro x hx
        obtain ⟨j, hj⟩ := List.getElem?_of_mem hx
        have hjc := hi.core.lt hj
        rw [b3 j (by omega)] at hj
        cases hj; rfl
      have : elems t = [] := by
        unfold elems
        rw [List.filterMap_eq_nil_iff]
        intro a ha; rw [hall a ha]; rfl
      have := hi.size_eq
      simp_all
    unfold iterate begin_
    have hsk := skip_congr (C := C) (t := t) (t' := Tbl.mk t.ctrl (List.replicate t.capacity none) t.size t.capacity t.growthLeft) rfl
    rw [hsk]
    unfold begin_ fuel at b1
    unfold fuel
    simp only
    rw [b1]
    simp only [Res.ok_bind]
    unfold collect
    simp only
    rw [if_neg (by omega)]
    unfold readSlot
    simp only
    rw [List.getElem?_replicate, if_pos hp]
    rfl

/-! ### Instances -/

/-- One-byte elements. -/
def byteImage : Image (BitVec 8) := { size := 1, enc := fun b => [b], dec := fun l => l.headD 0#8 }

/-- A set of bytes. -/
def byteSet (G : Group) : Cfg (BitVec 8) (BitVec 8) := { key := id, hash := fun b => b.toNat * 5, eqv := (· == ·), G := G }

theorem byteSet_contract {G : Group} (hG : G = groupSse2 true ∨ G = groupSse2 false ∨ G = groupPortable) :
    Contract (byteSet G) where
  refl k := by simp [byteSet]
  symm k l h := by simp only [byteSet, beq_iff_eq] at *; exact h.symm
  trans k l m h1 h2 := by simp only [byteSet, beq_iff_eq] at *; rw [h1, h2]
  hash_congr k l h := by simp only [byteSet, beq_iff_eq] at *; rw [h]
  group := hG

def byteOps : List (Spec.WOp (BitVec 8) (BitVec 8)) :=
  [.create 0 31, .on 0 (.insertRange [1#8, 2#8, 3#8]), .on 0 (.erase 2#8), .on 1 (.insert 9#8)]

/-- Size, capacity and remaining growth of the container after `byteOps`, by running the model. -/
def byteRun : Option (Nat × Nat × Nat) :=
  match wrun (byteSet groupPortable) (fun _ => Tbl.empty) byteOps with
  | .ok (w, _) => some ((w 0).size, (w 0).capacity, (w 0).growthLeft)
  | _ => none

theorem byteRun_eq : byteRun = some (2, 31, 26) := by decide +kernel

theorem byteOps_valid : ∀ op ∈ byteOps, op.Valid (byteSet groupPortable).key := by
  intro op hop
  simp only [byteOps, List.mem_cons, List.not_mem_nil, or_false] at hop
  rcases hop with rfl | rfl | rfl | rfl <;> simp [Spec.WOp.Valid, Spec.Op.Valid]

/-- The hypotheses are met by a set of two bytes in a table of 31 slots. -/
theorem byteReach : ∃ t : Tbl (BitVec 8), Reachable (byteSet groupPortable) t ∧ t.size = 2 ∧ t.capacity = 31 ∧
    Fits byteImage (fun _ => [0x55#8]) t := by
  obtain ⟨w, h1, _⟩ := C01_history (byteSet_contract (.inr (.inr rfl))) byteOps byteOps_valid
  have e := byteRun_eq
  unfold byteRun at e
  rw [h1] at e
  simp only [Option.some.injEq, Prod.mk.injEq] at e
  obtain ⟨e1, e2, e3⟩ := e
  exact ⟨w 0, ⟨byteOps, w, _, 0, byteOps_valid, h1, rfl⟩, e1, e2,
    ⟨fun _ => rfl, fun _ => rfl, fun _ => rfl, by decide, by omega, by omega, by omega⟩⟩

example : ∃ t : Tbl (BitVec 8), Reachable (byteSet groupPortable) t ∧ t.size ≠ 0 ∧ (byteSet groupPortable).G.W ≤ t.capacity + 1 ∧
    Fits byteImage (fun _ => [0x55#8]) t := by
  obtain ⟨t, h1, h2, h3, h4⟩ := byteReach
  exact ⟨t, h1, by omega, by rw [h3]; decide, h4⟩

/-- The property C17 asks for: every strict prefix of an archive is rejected. -/
def DetectsTruncation (C : Cfg (BitVec 8) (BitVec 8)) (I : Image (BitVec 8)) (junk : Nat → List Ctrl) : Prop :=
  ∀ t old : Tbl (BitVec 8), Reachable C t → Reachable C old → Fits I junk t → ∀ ar, t.dumpArchive C I junk = .ok ar →
    ∀ n, n < ar.length → ∀ t' rest, loadArchive C I old (ar.take n) ≠ .ok (t', true, rest)

theorem C17_refuted : ¬ DetectsTruncation (byteSet groupPortable) byteImage (fun _ => [0x55#8]) := by
  intro hd
  obtain ⟨t, h1, h2, _, h4⟩ := byteReach
  obtain ⟨ar, a1, a2, a3⟩ := C17_never_detected (byteSet_contract (.inr (.inr rfl))) h1 h1 h4 (by omega)
  obtain ⟨t', rest, e⟩ := a3 24 (Nat.le_refl _)
  exact hd t t h1 h1 h4 ar a1 24 a2 t' rest e

end Gtl.Props.Dump
