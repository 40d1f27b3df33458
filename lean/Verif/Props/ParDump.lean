import Verif.Props.Parallel
import Verif.Props.Dump
import Verif.Parallel.Dump
/-!
# Property theorems C73 and C17: dump and load of parallel containers
-/

namespace Gtl.Props.ParDump

open Gtl.Swiss Gtl.Swiss.Tbl Gtl.Parallel Gtl.Props.Hash Gtl.Props.Parallel
open Gtl.Props.Dump (Fits byteImage byteSet byteSet_contract)

variable {α κ : Type}

/-- The element type is trivially copyable with `I.size` bytes, and all numbers fit in a `size_t`. -/
structure PFits (P : PCfg α κ) (I : Image α) (junk : Nat → Nat → List Ctrl) (p : PTbl α) : Prop where
  submaps : P.N < 64
  subs : ∀ (i : Nat) t, p.sets[i]? = some t → Fits I (junk i) t

theorem PFits.ok {P : PCfg α κ} {I : Image α} {junk : Nat → Nat → List Ctrl} {p : PTbl α} (hf : PFits P I junk p) {l : List α}
    (hs : PSim P p l) : ImageOk I ∧ (∀ i, i < 2 ^ P.N → ∀ j, (junk i j).length = I.size) ∧
      ∀ t ∈ p.sets, (∃ c, Inv P.C t c) ∧ t.size < 2 ^ 64 ∧ t.capacity < 2 ^ 64 ∧ t.growthLeft < 2 ^ 64 := by
  obtain ⟨t0, h0, _⟩ := hs.get (i := 0) (Nat.pow_pos (by decide))
  refine ⟨⟨(hf.subs 0 t0 h0).enc_len, (hf.subs 0 t0 h0).dec_enc⟩, ?_, ?_⟩
  · intro i hi
    obtain ⟨t, ht, _⟩ := hs.get hi
    exact (hf.subs i t ht).junk_len
  · intro t ht
    obtain ⟨i, hi⟩ := List.getElem?_of_mem ht
    have := hf.subs i t hi
    exact ⟨(hs.sim i t hi).1, by have := this.size; omega, this.capacity, this.growth⟩

/-- The elements of the first `k` submaps. -/
def firstSubs (P : PCfg α κ) (k : Nat) (l : List α) : List α := l.filter fun a => decide (idx P a < k)

/-- Loading the part of an archive that holds the first `k` submaps. -/
theorem load_cut {P : PCfg α κ} (h : Contract P.C) {p old : PTbl α} {l m : List α} (hs : PSim P p l) (ho : PSim P old m)
    {I : Image α} {junk : Nat → Nat → List Ctrl} (hf : PFits P I junk p) {k : Nat} (hk : k ≤ 2 ^ P.N) :
    ∃ a b, PTbl.dumpFrom P I junk k (p.sets.drop k) = .ok b ∧ p.dumpArchive P I junk = .ok (u64 (2 ^ P.N) ++ (a ++ b)) ∧
      ∀ tail, ∃ ts, ts.length = k ∧
        (old.loadArchive P I (u64 (2 ^ P.N) ++ (a ++ tail)) = (do
          let (us, b, ar) ← PTbl.loadFrom P I (old.sets.drop k) tail
          .ok ({ sets := ts ++ us }, b, ar))) ∧
        ∀ (j : Nat) t t', j < k → p.sets[j]? = some t → ts[j]? = some t' →
          (∃ c, Inv P.C t' c) ∧ elems t' = elems t ∧ t'.size = t.size ∧ t'.capacity = t.capacity := by
  obtain ⟨hI, hj, hts⟩ := hf.ok hs
  have hl := hs.len
  have hol := ho.len
  have hd : ∀ o ∈ old.sets, ∃ u, o.destroySlots = .ok u := by
    intro o h'
    obtain ⟨i, hi⟩ := List.getElem?_of_mem h'
    exact destroySlots_sim h.cfgOk (ho.sim i o hi)
  obtain ⟨a, e1, e2⟩ := load_dumpFrom (P := P) h.cfgOk hI (junk := junk) (ts := p.sets.take k) (olds := old.sets.take k)
    (olds' := old.sets.drop k) 0 (by simp; omega) (fun i' _ h2 => hj i' (by simp at h2; omega))
    (fun t ht => hts t (List.mem_of_mem_take ht)) (fun o ho => hd o (List.mem_of_mem_take ho))
  obtain ⟨b, e3, _⟩ := load_dumpFrom (P := P) h.cfgOk hI (junk := junk) (ts := p.sets.drop k) (olds := old.sets.drop k)
    (olds' := []) k (by simp; omega) (fun i' _ h2 => hj i' (by simp at h2; omega))
    (fun t ht => hts t (List.mem_of_mem_drop ht)) (fun o ho => hd o (List.mem_of_mem_drop ho))
  have hN : 2 ^ P.N < 2 ^ 64 := Nat.pow_lt_pow_right (by decide) hf.submaps
  refine ⟨a, b, e3, ?_, fun tail => ?_⟩
  · have := dumpFrom_append (P := P) (I := I) (junk := junk) (p.sets.take k) (p.sets.drop k) 0
    rw [List.take_append_drop, e1, Nat.zero_add, List.length_take, Nat.min_eq_left (by omega), e3] at this
    simp only [Res.ok_bind] at this
    simp only [PTbl.dumpArchive, this, Res.ok_bind]
  · obtain ⟨ts, g1, g2, g3⟩ := e2 tail
    refine ⟨ts, by rw [g1, List.length_take, Nat.min_eq_left (by omega)], ?_, ?_⟩
    · unfold PTbl.loadArchive
      rw [readWord_append 0 _ hN]
      simp only [ne_eq, not_true_eq_false, if_false]
      rw [List.take_append_drop] at g2
      rw [g2]
      cases PTbl.loadFrom P I (old.sets.drop k) tail <;> rfl
    · intro j t t' hjk ht ht'
      exact g3 j t t' (by rw [List.getElem?_take, if_pos hjk]; exact ht) ht'

theorem psim_cut {P : PCfg α κ} (h : Contract P.C) {p : PTbl α} {l : List α} (hs : PSim P p l) {k : Nat} (hk : k ≤ 2 ^ P.N)
    {ts us : List (Tbl α)} (h1 : ts.length = k) (h2 : ts.length + us.length = 2 ^ P.N) (h3 : ∀ u ∈ us, u = Tbl.empty)
    (h4 : ∀ (j : Nat) t t', j < k → p.sets[j]? = some t → ts[j]? = some t' →
          (∃ c, Inv P.C t' c) ∧ elems t' = elems t ∧ t'.size = t.size ∧ t'.capacity = t.capacity) :
    PSim P { sets := ts ++ us } (firstSubs P k l) := by
  refine ⟨by simp only [List.length_append]; exact h2, fun i t ht => ?_⟩
  dsimp only at ht
  by_cases hi : i < k
  · rw [List.getElem?_append_left (by omega)] at ht
    obtain ⟨t0, e0, s0⟩ := hs.get (show i < 2 ^ P.N by omega)
    obtain ⟨f1, f2, _⟩ := h4 i t0 t hi e0 ht
    refine ⟨f1, ?_⟩
    rw [f2]
    refine s0.2.trans ?_
    unfold firstSubs
    rw [part_filter, List.filter_eq_self.2]
    intro a ha
    simp only [decide_eq_true_eq]
    rw [(mem_part.1 ha).2]; exact hi
  · rw [List.getElem?_append_right (by omega)] at ht
    have := h3 t (List.mem_of_getElem? ht)
    subst this
    have e : part P (firstSubs P k l) i = [] := by
      unfold firstSubs
      rw [part_filter, List.filter_eq_nil_iff]
      intro a ha
      simp only [decide_eq_true_eq]
      rw [(mem_part.1 ha).2]; exact hi
    rw [e]
    exact sim_empty h.cfgOk.group

/-! ## C73 -/

/-- Dumping a parallel container and loading the archive into any other one with as many submaps (whose old contents are
released) gives a container with the same elements in the same order, that behaves the same from then on. Exactly the
written bytes are consumed: `tail` is whatever follows in the stream. -/
theorem C73_round_trip [BEq α] [LawfulBEq α] {P : PCfg α κ} (h : Contract P.C) {p old : PTbl α} (hr : PReachable P p)
    (ho : PReachable P old) {I : Image α} {junk : Nat → Nat → List Ctrl} (hf : PFits P I junk p) :
    ∃ ar l, p.dumpArchive P I junk = .ok ar ∧ p.iterate P = .ok l ∧ ∀ tail,
      ∃ p', old.loadArchive P I (ar ++ tail) = .ok (p', true, tail) ∧ p'.iterate P = .ok l ∧ p'.size = p.size ∧
        PBehavesAs P p' l := by
  have hs := hr.sim h
  obtain ⟨a, b, e1, e2, e3⟩ := load_cut h hs (ho.sim h) hf (Nat.le_refl _)
  have hb : b = [] := by
    rw [List.drop_of_length_le (by rw [hs.len])] at e1
    simp only [PTbl.dumpFrom, Res.ok.injEq] at e1
    exact e1.symm
  subst hb
  refine ⟨_, flat p, e2, psim_iterate h hs, fun tail => ?_⟩
  obtain ⟨ts, g1, g2, g3⟩ := e3 tail
  rw [List.drop_of_length_le (by rw [(ho.sim h).len])] at g2
  simp only [PTbl.loadFrom, Res.ok_bind, List.append_nil] at g2
  have hp : PSim P { sets := ts } (flat p) := by
    have := psim_cut h hs (Nat.le_refl _) (us := []) g1 (by simp [g1]) (by simp) g3
    rw [List.append_nil] at this
    have e : firstSubs P (2 ^ P.N) (flat p) = flat p := by
      unfold firstSubs
      rw [List.filter_eq_self]
      intro a _
      simp only [decide_eq_true_eq]
      exact subidx_lt _ _
    rwa [e] at this
  have hfl : flat { sets := ts } = flat p := by
    unfold flat
    dsimp only
    have : ts.map elems = p.sets.map elems := by
      apply List.ext_getElem?
      intro i
      rw [List.getElem?_map, List.getElem?_map]
      by_cases hi : i < 2 ^ P.N
      · obtain ⟨t, t1, _⟩ := hs.get hi
        have hi' : i < ts.length := by omega
        rw [t1, List.getElem?_eq_getElem hi']
        simp only [Option.map_some]
        rw [(g3 i t _ hi t1 (List.getElem?_eq_getElem hi')).2.1]
      · rw [List.getElem?_eq_none (by omega), List.getElem?_eq_none (by rw [hs.len]; omega)]
    rw [List.flatMap_def, this, ← List.flatMap_def]
  refine ⟨{ sets := ts }, ?_, ?_, ?_, psim_behaves h hp⟩
  · rw [List.append_nil, List.append_assoc]; exact g2
  · rw [psim_iterate h hp, hfl]
  · rw [hp.size, hs.size]

/-- An archive of a container with a different number of submaps is rejected, and nothing is changed. -/
theorem C73_other_submaps [BEq α] {P P' : PCfg α κ} {p old : PTbl α} {I : Image α} {junk : Nat → Nat → List Ctrl}
    (hN : P'.N < 64) (hne : P'.N ≠ P.N) {ar : List Ctrl} (hd : p.dumpArchive P' I junk = .ok ar) (tail : List Ctrl) :
    ∃ rest, old.loadArchive P I (ar ++ tail) = .ok (old, false, rest) := by
  unfold PTbl.dumpArchive at hd
  rw [Res.bind_eq_ok] at hd
  obtain ⟨b, _, e⟩ := hd
  simp only [Res.ok.injEq] at e
  subst e
  refine ⟨b ++ tail, ?_⟩
  unfold PTbl.loadArchive
  rw [List.append_assoc, readWord_append 0 _ (Nat.pow_lt_pow_right (by decide) hN)]
  dsimp only
  rw [if_pos]
  intro e
  exact hne (Nat.pow_right_injective (Nat.le_refl 2) e)

/-- An archive that ends between two submaps is not recognised as incomplete: `true` is returned, the elements of the
submaps that were read are there and all others are missing. -/
theorem C17_parallel_cut [BEq α] [LawfulBEq α] {P : PCfg α κ} (h : Contract P.C) {p old : PTbl α} (hr : PReachable P p)
    (ho : PReachable P old) {I : Image α} {junk : Nat → Nat → List Ctrl} (hf : PFits P I junk p) {k : Nat} (hk : k < 2 ^ P.N) :
    ∃ ar l n, p.dumpArchive P I junk = .ok ar ∧ p.iterate P = .ok l ∧ n < ar.length ∧
      ∃ p' l', old.loadArchive P I (ar.take n) = .ok (p', true, []) ∧ p'.iterate P = .ok l' ∧
        l'.Perm (l.filter fun a => decide (subidx P.N (P.C.hash (P.C.key a)) < k)) ∧ PBehavesAs P p' l' := by
  have hs := hr.sim h
  obtain ⟨a, b, e1, e2, e3⟩ := load_cut h hs (ho.sim h) hf (Nat.le_of_lt hk)
  obtain ⟨ts, g1, g2, g3⟩ := e3 []
  have hd : ∀ o ∈ old.sets.drop k, ∃ u, o.destroySlots = .ok u := by
    intro o h'
    obtain ⟨i, hi⟩ := List.getElem?_of_mem (List.mem_of_mem_drop h')
    exact destroySlots_sim h.cfgOk ((ho.sim h).sim i o hi)
  rw [loadFrom_nil hd] at g2
  simp only [Res.ok_bind] at g2
  have hp := psim_cut h hs (Nat.le_of_lt hk) (us := (old.sets.drop k).map fun _ => Tbl.empty) g1
    (by simp only [List.length_map, List.length_drop, (ho.sim h).len, g1]; omega) (by simp) g3
  refine ⟨_, flat p, 8 + a.length, e2, psim_iterate h hs, ?_, _, _, ?_, psim_iterate h hp, hp.flat, ?_⟩
  · have : b ≠ [] := by
      rintro rfl
      cases hdr : p.sets.drop k with
      | nil => have := congrArg List.length hdr; simp [hs.len] at this; omega
      | cons t ts =>
        rw [hdr] at e1
        simp only [PTbl.dumpFrom] at e1
        rw [Res.bind_eq_ok] at e1
        obtain ⟨x, x1, x2⟩ := e1
        rw [Res.bind_eq_ok] at x2
        obtain ⟨y, _, y2⟩ := x2
        simp only [Res.ok.injEq, List.append_eq_nil_iff] at y2
        have ht : t ∈ p.sets := List.mem_of_mem_drop (by rw [hdr]; simp)
        obtain ⟨i, hi⟩ := List.getElem?_of_mem ht
        obtain ⟨c, hc⟩ := (hs.sim i t hi).1
        rw [dump_ok hc] at x1
        simp only [Res.ok.injEq] at x1
        have := congrArg List.length (x1.trans y2.1)
        simp only [List.length_append, u64_length, List.length_nil] at this
        omega
    have := List.length_pos_iff.2 this
    simp only [List.length_append, u64_length]
    omega
  · rw [List.take_append, u64_length, List.take_of_length_le (by rw [u64_length]; omega),
      List.take_append, List.take_of_length_le (by omega), show 8 + a.length - 8 - a.length = 0 by omega, List.take_zero]
    exact g2
  · exact psim_behaves h (hp.perm hp.flat.symm)

/-! ### Instances -/

/-- A set of bytes in four submaps. -/
def byteP : PCfg (BitVec 8) (BitVec 8) where
  C := byteSet groupPortable
  N := 2
  mtx := .excl

def bytePOps : List (Spec.PWOp (BitVec 8) (BitVec 8)) :=
  [.on 0 (.base (.insertRange [1#8, 2#8, 3#8, 60#8, 110#8, 200#8, 201#8])), .on 0 (.base (.erase 2#8)),
   .on 1 (.base (.insert 9#8))]

/-- Sizes, capacities and remaining growth of the submaps after `bytePOps`, by running the model. -/
def bytePRun : Option (List (Nat × Nat × Nat)) :=
  match PTbl.wrun byteP (fun _ => PTbl.empty byteP) bytePOps with
  | .ok (w, _) => some ((w 0).sets.map fun t => (t.size, t.capacity, t.growthLeft))
  | _ => none

theorem bytePRun_eq : bytePRun = some [(2, 3, 1), (1, 1, 0), (1, 1, 0), (2, 3, 1)] := by decide +kernel

theorem bytePOps_valid : ValidHist byteP bytePOps := by
  intro op hop
  simp only [bytePOps, List.mem_cons, List.not_mem_nil, or_false] at hop
  rcases hop with rfl | rfl | rfl <;> simp [Spec.PWOp.Valid, Spec.POp.Valid]

theorem bytePReach : ∃ p : PTbl (BitVec 8), PReachable byteP p ∧ PFits byteP byteImage (fun _ _ => [0x55#8]) p ∧ p.size = 6 ∧
    ∃ t, p.sets[3]? = some t ∧ t.size = 2 := by
  obtain ⟨w, h1, _⟩ := C21_history (P := byteP) (byteSet_contract (.inr (.inr rfl))) bytePOps bytePOps_valid
  have e := bytePRun_eq
  unfold bytePRun at e
  rw [h1] at e
  simp only [Option.some.injEq] at e
  refine ⟨w 0, ⟨bytePOps, w, _, 0, bytePOps_valid, h1, rfl⟩, ⟨by decide, fun i t ht => ?_⟩, ?_, ?_⟩
  · have hm : (t.size, t.capacity, t.growthLeft) ∈ (w 0).sets.map fun t => (t.size, t.capacity, t.growthLeft) :=
      List.mem_map_of_mem (List.mem_of_getElem? ht)
    rw [e] at hm
    have hb : t.size < 100 ∧ t.capacity < 100 ∧ t.growthLeft < 100 := by
      simp only [List.mem_cons, Prod.mk.injEq, List.not_mem_nil, or_false] at hm
      omega
    exact ⟨fun _ => rfl, fun _ => rfl, fun _ => rfl, by decide, by omega, by omega, by omega⟩
  · have := congrArg (fun l => (l.map Prod.fst).sum) e
    simp only [List.map_map] at this
    exact this
  · have := congrArg (fun l => l[3]?) e
    simp only [List.getElem?_map] at this
    cases h3 : (w 0).sets[3]? with
    | none => rw [h3] at this; cases this
    | some t =>
      rw [h3] at this
      simp only [Option.map_some, List.getElem?_cons_succ, List.getElem?_cons_zero, Option.some.injEq, Prod.mk.injEq] at this
      exact ⟨t, rfl, this.1⟩

example : ∃ (p : PTbl (BitVec 8)) (ar : List Ctrl), PReachable byteP p ∧ p.size = 6 ∧
    p.dumpArchive byteP byteImage (fun _ _ => [0x55#8]) = .ok ar ∧ ∀ q, PReachable byteP q →
      ∃ q', q.loadArchive byteP byteImage ar = .ok (q', true, []) ∧ q'.size = 6 := by
  obtain ⟨p, h1, h2, h3, _⟩ := bytePReach
  obtain ⟨ar, _, e1, _, _⟩ := C73_round_trip (byteSet_contract (.inr (.inr rfl))) h1 h1 h2
  refine ⟨p, ar, h1, h3, e1, fun q hq => ?_⟩
  obtain ⟨ar', _, f1, _, f3⟩ := C73_round_trip (byteSet_contract (.inr (.inr rfl))) h1 hq h2
  rw [e1] at f1
  cases f1
  obtain ⟨q', g1, _, g3, _⟩ := f3 []
  rw [List.append_nil] at g1
  exact ⟨q', g1, by rw [g3, h3]⟩

/-- Loading the archive of four submaps into a container with eight. -/
example : ∃ (p : PTbl (BitVec 8)) (ar : List Ctrl), PReachable byteP p ∧ p.size = 6 ∧
    p.dumpArchive byteP byteImage (fun _ _ => [0x55#8]) = .ok ar ∧
    ∀ q : PTbl (BitVec 8), ∃ rest, q.loadArchive { byteP with N := 3 } byteImage ar = .ok (q, false, rest) := by
  obtain ⟨p, h1, h2, h3, _⟩ := bytePReach
  obtain ⟨ar, _, e1, _, _⟩ := C73_round_trip (byteSet_contract (.inr (.inr rfl))) h1 h1 h2
  refine ⟨p, ar, h1, h3, e1, fun q => ?_⟩
  have := C73_other_submaps (P := { byteP with N := 3 }) (P' := byteP) (old := q) (by decide) (by decide) e1 []
  rwa [List.append_nil] at this

/-- What a user would hope for: a strict prefix of an archive is either rejected or restores everything. -/
def DetectsTruncation (P : PCfg (BitVec 8) (BitVec 8)) (I : Image (BitVec 8)) (junk : Nat → Nat → List Ctrl) : Prop :=
  ∀ p old : PTbl (BitVec 8), PReachable P p → PReachable P old → PFits P I junk p → ∀ ar, p.dumpArchive P I junk = .ok ar →
    ∀ n, n < ar.length → ∀ p' rest, old.loadArchive P I (ar.take n) = .ok (p', true, rest) → p'.size = p.size

theorem C17_parallel_refuted : ¬ DetectsTruncation byteP byteImage (fun _ _ => [0x55#8]) := by
  intro hd
  obtain ⟨p, h1, h2, h3, t, h4, h5⟩ := bytePReach
  have hc : Contract byteP.C := byteSet_contract (.inr (.inr rfl))
  obtain ⟨ar, l, n, e1, e2, e3, p', l', e4, e5, e6, e7⟩ := C17_parallel_cut (k := 0) hc h1 h1 h2 (by decide)
  have := hd p p h1 h1 h2 ar e1 n e3 p' [] e4
  obtain ⟨q, q1, _, q3⟩ := e7 [] (by simp)
  simp only [prun, specPrun, Res.ok.injEq, Prod.mk.injEq, and_true] at q1 q3
  subst q1
  rw [q3, h3] at this
  have := e6.length_eq
  simp at this
  simp_all

end Gtl.Props.ParDump
