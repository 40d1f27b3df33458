import Verif.Swiss.More
/-!
# `phmap_dump` / `phmap_load` (include/gtl/phmap_dump.hpp)

An archive is a list of bytes. `loadBinary(p, n)` is `ifstream::read` (phmap_dump.hpp:217-220): it copies the bytes that
are there, leaves the rest of the destination alone, and the returned `true` says nothing about success.
-/

namespace Gtl.Swiss

namespace Tbl
variable {α κ : Type}

/-- How an element lies in memory: `sizeof(slot_type)`, its bytes, and the element a block of bytes represents
(trivially copyable types only, phmap_dump.hpp:58-59). -/
structure Image (α : Type) where
  size : Nat
  enc : α → List Ctrl
  dec : List Ctrl → α

/-- Bytes of a `size_t` on a little-endian machine. -/
def u64 (n : Nat) : List Ctrl := store64Aux 8 n

/-- `s_version_base` (phmap_dump.hpp:49). -/
def versionBase : Nat := 2 ^ 64 - 1 - 32
/-- `s_version` (phmap_dump.hpp:50). -/
def version : Nat := versionBase + 1

/-- `raw_hash_set::phmap_dump` (phmap_dump.hpp:57-71). `junk i` is what happens to be in the raw slot `i`. -/
def dumpArchive (C : Cfg α κ) (I : Image α) (junk : Nat → List Ctrl) (t : Tbl α) : Res (List Ctrl) :=
  let head := u64 version ++ u64 t.size ++ u64 t.capacity
  if t.size = 0 then .ok head
  else if t.capacity + C.G.W + 1 ≤ t.ctrl.length ∧ t.capacity ≤ t.slots.length then
    .ok (head ++ u64 t.growthLeft ++ t.ctrl.take (t.capacity + C.G.W + 1) ++
      (List.range t.capacity).flatMap (fun i => match t.slots[i]? with
        | some (some a) => I.enc a
        | _ => junk i))
  else .ub

/-- The layout written before the version number was introduced (see the reader, phmap_dump.hpp:80-84):
no version, no `growth_left`. -/
def dumpLegacy (C : Cfg α κ) (I : Image α) (junk : Nat → List Ctrl) (t : Tbl α) : Res (List Ctrl) :=
  let head := u64 t.size ++ u64 t.capacity
  if t.size = 0 then .ok head
  else if t.capacity + C.G.W + 1 ≤ t.ctrl.length ∧ t.capacity ≤ t.slots.length then
    .ok (head ++ t.ctrl.take (t.capacity + C.G.W + 1) ++
      (List.range t.capacity).flatMap (fun i => match t.slots[i]? with
        | some (some a) => I.enc a
        | _ => junk i))
  else .ub

/-- `ifs_.read(p, n)` on a buffer that holds `dst` (phmap_dump.hpp:217-220): new buffer, rest of the stream. -/
def readInto (dst : List Ctrl) (n : Nat) (ar : List Ctrl) : List Ctrl × List Ctrl :=
  (ar.take n ++ dst.drop (ar.take n).length, ar.drop n)

/-- `ar.loadBinary(&x, sizeof(size_t))` where `x` holds `old`. -/
def readWord (old : Nat) (ar : List Ctrl) : Nat × List Ctrl :=
  let (b, ar) := readInto (u64 old) 8 ar
  (load64Nat b, ar)

/-- `ar.loadBinary(slots_, sizeof(slot_type) * capacity_)` into fresh storage: slot `i` holds an element afterwards if
its control byte says so and all its bytes were there; otherwise its contents are indeterminate. -/
def readSlots (I : Image α) (ctrl : List Ctrl) (cap : Nat) (ar : List Ctrl) : List (Option α) :=
  (List.range cap).map (fun i =>
    if isFull (ctrl.getD i kEmpty) && decide ((i + 1) * I.size ≤ ar.length) then
      some (I.dec ((ar.drop (i * I.size)).take I.size))
    else none)

/-- `raw_hash_set::phmap_load` (phmap_dump.hpp:73-108). Returns the container, the returned `bool` and the rest of
the stream. With `capacity_ == 0` the pointers refer to the static `EmptyGroup`, which must not be written. -/
def loadArchive (C : Cfg α κ) (I : Image α) (old : Tbl α) (ar : List Ctrl) : Res (Tbl α × Bool × List Ctrl) := do
  let _ ← old.destroySlots
  let (v, ar) := readWord 0 ar
  let legacy := decide (v ≤ versionBase)
  let (size, ar) := if legacy then (v, ar) else readWord 0 ar
  let (cap, ar) := readWord 0 ar
  let t : Tbl α := { (empty : Tbl α) with size := size }
  let t := if cap ≠ 0 then initializeSlots C t cap else t
  if size = 0 then .ok (t, true, ar)
  else do
    let (g, ar) := if legacy then (t.growthLeft, ar) else readWord t.growthLeft ar
    let n := cap + C.G.W + 1
    if cap = 0 ∧ ar ≠ [] then .ub
    else do
      let (ctrl, ar) := readInto t.ctrl n ar
      let slots := readSlots I ctrl cap ar
      let ar := ar.drop (I.size * cap)
      let t := { t with ctrl := ctrl
                        slots := slots
                        growthLeft := g }
      if legacy then do
        let t ← t.dropDeletes C
        .ok (t, true, ar)
      else .ok (t, true, ar)

end Tbl

open Tbl
variable {α κ : Type}

/-! ### Words -/

theorem store64Aux_length (n v : Nat) : (store64Aux n v).length = n := by
  induction n generalizing v with
  | zero => rfl
  | succ n ih => simp [store64Aux, ih]

theorem u64_length (n : Nat) : (u64 n).length = 8 := store64Aux_length 8 n

theorem load_store64Aux : ∀ (n v : Nat), v < 256 ^ n → load64Nat (store64Aux n v) = v := by
  intro n
  induction n with
  | zero => intro v hv; simp at hv; subst hv; rfl
  | succ n ih =>
    intro v hv
    rw [Nat.pow_succ] at hv
    simp only [store64Aux, load64Nat]
    rw [ih (v / 256) (by omega), BitVec.toNat_ofNat]
    omega

theorem load_u64 {n : Nat} (h : n < 2 ^ 64) : load64Nat (u64 n) = n := load_store64Aux 8 n (by simpa using h)

theorem readInto_append {dst x : List Ctrl} {n : Nat} (ar : List Ctrl) (hx : x.length = n) (hd : dst.length = n) :
    readInto dst n (x ++ ar) = (x, ar) := by
  unfold readInto
  rw [List.take_append_of_le_length (by omega), List.take_of_length_le (by omega), List.drop_of_length_le (by omega),
    List.drop_append_of_le_length (by omega), List.drop_of_length_le (by omega)]
  simp

theorem readWord_append {n : Nat} (old : Nat) (ar : List Ctrl) (h : n < 2 ^ 64) : readWord old (u64 n ++ ar) = (n, ar) := by
  unfold readWord
  rw [readInto_append ar (u64_length _) (u64_length _)]
  simp only [load_u64 h]

theorem flatMap_chunk {β : Type} {f : Nat → List β} {s : Nat} (hf : ∀ i, (f i).length = s) (cap : Nat) (ar : List β) :
    ∀ i < cap, (((List.range cap).flatMap f ++ ar).drop (i * s)).take s = f i := by
  have hlen : ∀ n k, ((List.range' k n).flatMap f).length = n * s := by
    intro n
    induction n with
    | zero => intro k; simp
    | succ n ih => intro k; simp only [List.range'_succ, List.flatMap_cons, List.length_append, hf, ih]; rw [Nat.add_mul]; omega
  have gen : ∀ n k i, i < n → (((List.range' k n).flatMap f ++ ar).drop (i * s)).take s = f (k + i) := by
    intro n
    induction n with
    | zero => intro k i hi; omega
    | succ n ih =>
      intro k i hi
      simp only [List.range'_succ, List.flatMap_cons, List.append_assoc]
      cases i with
      | zero =>
        simp only [Nat.zero_mul, List.drop_zero, Nat.add_zero]
        rw [List.take_append_of_le_length (by rw [hf]), List.take_of_length_le (by rw [hf])]
      | succ i =>
        have e : (i + 1) * s = (f k).length + i * s := by rw [hf, Nat.add_mul]; omega
        rw [e, List.drop_length_add_append, ih (k + 1) i (by omega)]
        congr 1; omega
  intro i hi
  have := gen cap 0 i hi
  rw [← List.range_eq_range'] at this
  simpa using this

theorem flatMap_length {β : Type} {f : Nat → List β} {s : Nat} (hf : ∀ i, (f i).length = s) (cap : Nat) :
    ((List.range cap).flatMap f).length = s * cap := by
  induction cap with
  | zero => simp
  | succ n ih => rw [List.range_succ, List.flatMap_append, List.length_append, ih]; simp [hf, Nat.mul_add]

/-! ### Round trip -/

/-- `I` really is a memory image: fixed size and lossless. -/
structure ImageOk (I : Image α) : Prop where
  len : ∀ a, (I.enc a).length = I.size
  dec : ∀ a, I.dec (I.enc a) = a

/-- The bytes of slot `i` as written by `dump`: those of a slot without an object are arbitrary. -/
def slotBytes (I : Image α) (junk : Nat → List Ctrl) (t : Tbl α) (i : Nat) : List Ctrl :=
  match t.slots[i]? with
  | some (some a) => I.enc a
  | _ => junk i

theorem readSlots_eq {C : Cfg α κ} {I : Image α} (hI : ImageOk I) {junk : Nat → List Ctrl} (hj : ∀ i, (junk i).length = I.size)
    {t : Tbl α} {c : List Ctrl} (h : Core C t c) (ar : List Ctrl) :
    readSlots I t.ctrl t.capacity ((List.range t.capacity).flatMap (slotBytes I junk t) ++ ar) = t.slots := by
  have hf : ∀ i, (slotBytes I junk t i).length = I.size := by
    intro i; unfold slotBytes; split
    · exact hI.len _
    · exact hj i
  have hlen := flatMap_length hf t.capacity
  apply List.ext_getElem?
  intro i
  unfold readSlots
  rw [List.getElem?_map]
  by_cases hi : i < t.capacity
  · rw [List.getElem?_range hi, Option.map_some]
    have hsl : i < t.slots.length := by rw [h.sync.slen]; exact hi
    rw [List.getElem?_eq_getElem hsl]
    have hby : t.ctrl.getD i kEmpty = lay c t.capacity i := by
      rw [List.getD_eq_getElem?_getD, h.raw.bytes i (by omega)]; rfl
    have hlay : c[i]? = some (lay c t.capacity i) := by
      rw [lay_lt hi, List.getD_eq_getElem?_getD, List.getElem?_eq_getElem (by rw [h.raw.len]; exact hi)]; rfl
    have henough : (i + 1) * I.size ≤ ((List.range t.capacity).flatMap (slotBytes I junk t) ++ ar).length := by
      rw [List.length_append, hlen, Nat.mul_comm I.size]
      have := Nat.mul_le_mul_right I.size (show i + 1 ≤ t.capacity by omega)
      omega
    rw [hby, flatMap_chunk hf t.capacity ar i hi]
    congr 1
    cases hs : t.slots[i] with
    | none =>
      have hs' : t.slots[i]? = some none := by rw [List.getElem?_eq_getElem hsl, hs]
      obtain ⟨x, h1, h2⟩ := h.sync.none_eod i hs'
      rw [hlay] at h1; cases h1
      have : isFull (lay c t.capacity i) = false := by
        rcases h2 with e | e <;> rw [e] <;> decide
      rw [this]; rfl
    | some a =>
      have hs' : t.slots[i]? = some (some a) := by rw [List.getElem?_eq_getElem hsl, hs]
      obtain ⟨x, h1, h2⟩ := h.sync.some_full i a hs'
      rw [hlay] at h1; cases h1
      rw [h2, decide_eq_true henough]
      simp only [Bool.and_self, if_true]
      unfold slotBytes; rw [hs']
      simp only [hI.dec]
  · rw [List.getElem?_eq_none (by simpa using hi), Option.map_none, List.getElem?_eq_none (by rw [h.sync.slen]; omega)]

theorem Inv.cap_ne {C : Cfg α κ} {t : Tbl α} {c : List Ctrl} (h : Inv C t c) (hs : t.size ≠ 0) : t.capacity ≠ 0 := by
  intro h0
  have h1 := h.growth
  have := capacityToGrowth_le C.G.W t.capacity
  omega

theorem dump_ok {C : Cfg α κ} {I : Image α} {junk : Nat → List Ctrl} {t : Tbl α} {c : List Ctrl} (h : Inv C t c) :
    t.dumpArchive C I junk = .ok (u64 version ++ (u64 t.size ++ (u64 t.capacity ++ (if t.size = 0 then [] else
      u64 t.growthLeft ++ (t.ctrl ++ (List.range t.capacity).flatMap (slotBytes I junk t)))))) := by
  unfold dumpArchive
  by_cases hs : t.size = 0
  · simp [hs]
  · have hcap := h.cap_ne hs
    have hlen := h.core.raw.alloc hcap
    simp only [if_neg hs]
    rw [if_pos ⟨by omega, by rw [h.core.sync.slen]⟩, List.take_of_length_le (by omega)]
    simp only [List.append_assoc]
    rfl

theorem dumpLegacy_ok {C : Cfg α κ} {I : Image α} {junk : Nat → List Ctrl} {t : Tbl α} {c : List Ctrl} (h : Inv C t c) :
    t.dumpLegacy C I junk = .ok (u64 t.size ++ (u64 t.capacity ++ (if t.size = 0 then [] else
      (t.ctrl ++ (List.range t.capacity).flatMap (slotBytes I junk t))))) := by
  unfold dumpLegacy
  by_cases hs : t.size = 0
  · simp [hs]
  · have hcap := h.cap_ne hs
    have hlen := h.core.raw.alloc hcap
    simp only [if_neg hs]
    rw [if_pos ⟨by omega, by rw [h.core.sync.slen]⟩, List.take_of_length_le (by omega)]
    simp only [List.append_assoc]
    rfl

theorem version_lt : version < 2 ^ 64 := by unfold version versionBase; omega
theorem version_new : ¬ version ≤ versionBase := by unfold version; omega

theorem resetCtrl_length (W cap : Nat) : (resetCtrl W cap).length = cap + W + 1 := by
  unfold resetCtrl; simp

theorem load_dump {C : Cfg α κ} (hC : CfgOk C) {I : Image α} (hI : ImageOk I) {junk : Nat → List Ctrl}
    (hj : ∀ i, (junk i).length = I.size) {t : Tbl α} {c : List Ctrl} (h : Inv C t c) (h1 : t.size < 2 ^ 64)
    (h2 : t.capacity < 2 ^ 64) (h3 : t.growthLeft < 2 ^ 64) {old : Tbl α} {u : Tbl α} (ho : old.destroySlots = .ok u) :
    ∃ ar, t.dumpArchive C I junk = .ok ar ∧ ∀ tail, ∃ t' c', loadArchive C I old (ar ++ tail) = .ok (t', true, tail) ∧
      Inv C t' c' ∧ elems t' = elems t ∧ t'.size = t.size ∧ t'.capacity = t.capacity ∧ (t.size ≠ 0 → t' = t) := by
  refine ⟨_, dump_ok h, fun tail => ?_⟩
  unfold loadArchive
  rw [ho]
  simp only [Res.ok_bind, List.append_assoc]
  rw [readWord_append 0 _ version_lt]
  simp only [decide_eq_false version_new, Bool.false_eq_true, if_false]
  rw [readWord_append 0 _ h1]
  simp only
  rw [readWord_append 0 _ h2]
  simp only
  by_cases hs : t.size = 0
  · simp only [hs, if_true, List.nil_append]
    have hemp : elems t = [] := by
      rw [← List.length_eq_zero_iff, ← h.size_eq]; exact hs
    by_cases hc0 : t.capacity = 0
    · refine ⟨empty, [], ?_, empty_inv hC.group, ?_, ?_, ?_, fun hh => absurd rfl hh⟩
      · simp [hc0, Tbl.empty]
      · rw [hemp]; rfl
      · rfl
      · rw [hc0]; rfl
    · obtain ⟨k, hk⟩ := h.core.raw.pow
      have hw := withBuckets_inv (α := α) (C := C) hC.group t.capacity
      obtain ⟨d, hd, he⟩ := hw
      refine ⟨withBuckets C t.capacity, d, ?_, hd, ?_, ?_, ?_, fun hh => absurd rfl hh⟩
      · unfold withBuckets; rw [if_neg hc0, normalizeCapacity_self h.core.raw.pow hc0]
        simp only [if_neg, hc0, ne_eq, not_false_eq_true, if_true]
        rfl
      · rw [hemp, he]
      · rw [hd.size_eq, he]; rfl
      · unfold withBuckets; rw [if_neg hc0, normalizeCapacity_self h.core.raw.pow hc0]; rfl
  · have hcap := h.cap_ne hs
    have hlen := h.core.raw.alloc hcap
    rw [if_neg hs]
    simp only [if_neg hs, if_pos hcap, List.append_assoc]
    rw [readWord_append _ _ h3]
    simp only [hcap, false_and, if_false]
    rw [readInto_append (n := t.capacity + C.G.W + 1) _ hlen (by simp only [initializeSlots, resetCtrl_length])]
    simp only
    rw [readSlots_eq hI hj h.core tail]
    have hf : ∀ i, (slotBytes I junk t i).length = I.size := by
      intro i; unfold slotBytes; split
      · exact hI.len _
      · exact hj i
    have hfl := flatMap_length hf t.capacity
    rw [List.drop_append_of_le_length (by omega), List.drop_of_length_le (by omega), List.nil_append]
    exact ⟨t, c, rfl, h, rfl, rfl, rfl, fun _ => rfl⟩

/-- Loading an archive in the old layout: fine with at least one full group. -/
theorem load_legacy {C : Cfg α κ} (hC : CfgOk C) {I : Image α} (hI : ImageOk I) {junk : Nat → List Ctrl}
    (hj : ∀ i, (junk i).length = I.size) {t : Tbl α} {c : List Ctrl} (h : Inv C t c) (h1 : t.size ≤ versionBase)
    (h2 : t.capacity < 2 ^ 64) {old : Tbl α} {u : Tbl α} (ho : old.destroySlots = .ok u) (hs : t.size ≠ 0) :
    ∃ ar, t.dumpLegacy C I junk = .ok ar ∧
      (C.G.W ≤ t.capacity + 1 → ∀ tail, ∃ t' c', loadArchive C I old (ar ++ tail) = .ok (t', true, tail) ∧
        Inv C t' c' ∧ List.Perm (elems t') (elems t) ∧ t'.size = t.size ∧ t'.capacity = t.capacity) ∧
      (t.capacity + 1 < C.G.W → ∀ tail, loadArchive C I old (ar ++ tail) = .ub) := by
  have hv : versionBase < 2 ^ 64 := by unfold versionBase; omega
  have hW := hC.group.width
  refine ⟨_, dumpLegacy_ok h, ?_⟩
  have hcap := h.cap_ne hs
  have hlen := h.core.raw.alloc hcap
  have common : ∀ tail, loadArchive C I old ((u64 t.size ++ (u64 t.capacity ++ (if t.size = 0 then [] else
      (t.ctrl ++ (List.range t.capacity).flatMap (slotBytes I junk t))))) ++ tail) = (do
        let t' ← dropDeletes C { t with growthLeft := usub (capacityToGrowth C.G.W t.capacity) t.size }
        Res.ok (t', true, tail)) := by
    intro tail
    unfold loadArchive
    rw [ho]
    simp only [Res.ok_bind, List.append_assoc]
    rw [readWord_append 0 _ (by omega)]
    simp only [decide_eq_true h1, if_true]
    rw [readWord_append 0 _ h2]
    simp only
    simp only [if_neg hs, if_pos hcap, List.append_assoc, hcap, false_and, if_false]
    rw [readInto_append (n := t.capacity + C.G.W + 1) _ hlen (by simp only [initializeSlots, resetCtrl_length])]
    simp only
    rw [readSlots_eq hI hj h.core tail]
    have hf : ∀ i, (slotBytes I junk t i).length = I.size := by
      intro i; unfold slotBytes; split
      · exact hI.len _
      · exact hj i
    have hfl := flatMap_length hf t.capacity
    rw [List.drop_append_of_le_length (by omega), List.drop_of_length_le (by omega), List.nil_append]
    rfl
  constructor
  · intro hbig tail
    rw [common tail]
    have hcore : Core C { t with growthLeft := usub (capacityToGrowth C.G.W t.capacity) t.size } c :=
      ⟨h.core.raw.congr rfl rfl, ⟨h.core.sync.slen, h.core.sync.some_full, h.core.sync.none_eod⟩, h.core.h2, h.core.reach, h.core.distinct⟩
    obtain ⟨t', c', e1, e2, e3, e4, e5, _⟩ := dropDeletes_core hC hcore h.size_eq (by have := h.growth; simp only; omega) hbig
    rw [e1]
    exact ⟨t', c', rfl, e2, e3, e5, e4⟩
  · intro hsmall tail
    rw [common tail]
    have hconv : (C.G.convertSpecial ((t.ctrl.drop 0).take C.G.W)).length = C.G.W := by
      rw [hC.group.convert _ (by simp; omega) (by
        intro x hx
        obtain ⟨j, hj⟩ := List.getElem?_of_mem hx
        have hjW : j < C.G.W := by
          rw [List.getElem?_take] at hj
          by_contra hc
          rw [if_neg hc] at hj; cases hj
        rw [List.getElem?_take, if_pos hjW, List.drop_zero, h.core.raw.bytes j (by omega)] at hj
        cases hj
        exact lay_valid h.core.raw.len h.core.valid j)]
      simp; omega
    have : convertCtrl C { t with growthLeft := usub (capacityToGrowth C.G.W t.capacity) t.size } = .ub := by
      unfold convertCtrl
      simp only
      unfold convertLoop
      rw [if_neg (by omega), if_pos (by omega)]
      unfold convertLoop
      split
      · rename_i heq
        exact absurd heq (by omega)
      · rw [if_neg ?_]
        · rfl
        · rw [List.length_append, List.length_append, List.length_take, List.length_drop, hconv]
          omega
    unfold dropDeletes
    rw [this]; rfl

/-! ### Damaged archives -/

/-- With an intact header of a non-empty table, loading always claims success. -/
theorem load_header {C : Cfg α κ} {I : Image α} {old u : Tbl α} (ho : old.destroySlots = .ok u) {size cap : Nat}
    (h1 : size < 2 ^ 64) (h2 : cap < 2 ^ 64) (hs : size ≠ 0) (hc : cap ≠ 0) (rest : List Ctrl) :
    loadArchive C I old (u64 version ++ (u64 size ++ (u64 cap ++ rest))) =
      let t := initializeSlots C { (empty : Tbl α) with size := size } cap
      let w := readWord t.growthLeft rest
      let r := readInto t.ctrl (cap + C.G.W + 1) w.2
      .ok ({ t with ctrl := r.1
                    slots := readSlots I r.1 cap r.2
                    growthLeft := w.1 }, true, r.2.drop (I.size * cap)) := by
  unfold loadArchive
  rw [ho]
  simp only [Res.ok_bind]
  rw [readWord_append 0 _ version_lt]
  simp only [decide_eq_false version_new, Bool.false_eq_true, if_false]
  rw [readWord_append 0 _ h1]
  simp only
  rw [readWord_append 0 _ h2]
  simp only [if_neg hs, if_pos hc, hc, false_and, if_false]

end Gtl.Swiss
