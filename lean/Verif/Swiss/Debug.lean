import Verif.Swiss.History
import Verif.Props.Layout
import Verif.Parallel.Sim
/-!
# The debug interface of the hash containers

`HashtableDebugAccess` (phmap.hpp:5010-5093): number of probes of a lookup, bytes allocated by a container, and
the least number of bytes for a number of elements. `size_t` arithmetic is that of 64-bit words.
-/

namespace Gtl.Swiss

open Gtl.Mem Gtl.Props.Layout

variable {α κ : Type}

namespace Tbl

section
variable (C : Cfg α κ)

/-- The loop over the matches of a group in `GetNumProbes` (phmap.hpp:5028-5033): whether an element was found, and the
number of probes so far. -/
def scanProbes (t : Tbl α) (pred : α → Bool) (p : Probe) : List Nat → Nat → Res (Bool × Nat)
  | [], n => .ok (false, n)
  | i :: is, n => do
    let a ← t.readSlot (p.at_ t.capacity i)
    if pred a then .ok (true, n) else scanProbes t pred p is (n + 1)

/-- The outer loop of `GetNumProbes` (phmap.hpp:5026-5038). -/
def probesLoop (t : Tbl α) (pred : α → Bool) (h2 : Ctrl) : Nat → Probe → Nat → Res Nat
  | 0, _, _ => .hang
  | m + 1, p, n => do
    let g ← t.load C.G.W p.offset
    let r ← t.scanProbes pred p (C.G.matchH2 g h2).toList n
    if r.1 then .ok r.2
    else if (C.G.matchEmpty g).toBool then .ok r.2
    else probesLoop t pred h2 m (p.next C.G.W t.capacity) (r.2 + 1)

/-- `GetNumProbes(set, key)` (phmap.hpp:5020-5039). The pointer to the control bytes is not null in this model (line 5021):
the containers begin with the shared empty group. -/
def getNumProbes (t : Tbl α) (k : κ) : Res Nat :=
  t.probesLoop C (fun a => C.eqv (C.key a) k) (H2 (C.hash k)) t.fuel (Probe.start (C.hash k) t.capacity) 0

/-- `scan` (phmap.hpp:2500-2505) which also lists the elements that it compares. -/
def scanTrace (t : Tbl α) (pred : α → Bool) (p : Probe) : List Nat → Res (Option Nat × List α)
  | [] => .ok (none, [])
  | i :: is => do
    let a ← t.readSlot (p.at_ t.capacity i)
    if pred a then .ok (some (p.at_ t.capacity i), [a])
    else do
      let r ← scanTrace t pred p is
      .ok (r.1, a :: r.2)

/-- `probeFind` (phmap.hpp:2491-2510) which also lists the elements that it compares with the key and counts the groups of
control bytes that it loads. -/
def probeTrace (t : Tbl α) (pred : α → Bool) (h2 : Ctrl) : Nat → Probe → Res (Option Nat × List α × Nat)
  | 0, _ => .hang
  | m + 1, p => do
    let g ← t.load C.G.W p.offset
    let r ← t.scanTrace pred p (C.G.matchH2 g h2).toList
    match r.1 with
    | some off => .ok (some off, r.2, 1)
    | none =>
      if (C.G.matchEmpty g).toBool then .ok (none, r.2, 1)
      else do
        let q ← probeTrace t pred h2 m (p.next C.G.W t.capacity)
        .ok (q.1, r.2 ++ q.2.1, q.2.2 + 1)

/-- `find(key)` (phmap.hpp:2413-2416) with the elements it compares with the key, in this order, and the number of groups it
loads. -/
def findTrace (t : Tbl α) (k : κ) : Res (Option Nat × List α × Nat) :=
  t.probeTrace C (fun a => C.eqv (C.key a) k) (H2 (C.hash k)) t.fuel (Probe.start (C.hash k) t.capacity)

/-- `AllocatedByteSize(c)` (phmap.hpp:5041-5060). `slot` is the size and alignment of a slot, `per` is
`space_used(nullptr)`, `used a` is `space_used` of a slot that holds `a`. -/
def allocatedByteSize (slot : Elt) (per : U64) (used : α → U64) (t : Tbl α) : Res U64 :=
  if t.capacity = 0 then .ok 0
  else
    let m := (tableLayout C.G.W slot t.capacity).allocSize
    if per ≠ ~~~(0 : U64) then .ok (m + per * BitVec.ofNat 64 t.size)
    else (List.range t.capacity).foldlM (fun m i => do
      let c ← t.ctrlAt i
      if isFull c then do
        let a ← t.readSlot i
        .ok (m + used a)
      else .ok m) m

end

end Tbl

/-- `LowerBoundAllocatedByteSize(size)` (phmap.hpp:5062-5073). -/
def lowerBoundAllocatedByteSize (W : Nat) (slot : Elt) (per : U64) (size : Nat) : U64 :=
  let capacity := growthToLowerboundCapacity W size
  if capacity = 0 then 0
  else
    let m := (tableLayout W slot (normalizeCapacity capacity)).allocSize
    if per ≠ ~~~(0 : U64) then m + per * BitVec.ofNat 64 size else m

/-! ### Probes -/

/-- What the list of compared elements of a lookup with result `r` looks like. -/
structure Compared (t : Tbl α) (pred : α → Bool) (r : Option Nat) (seen : List α) : Prop where
  mem : ∀ a ∈ seen, a ∈ elems t
  none : r = none → ∀ a ∈ seen, pred a = false
  some : ∀ o, r = some o → ∃ ms a, seen = ms ++ [a] ∧ t.slots[o]? = some (some a) ∧ pred a = true ∧ ∀ m ∈ ms, pred m = false

theorem readSlot_some {t : Tbl α} {i : Nat} {a : α} (h : t.readSlot i = .ok a) : t.slots[i]? = some (some a) := by
  unfold Tbl.readSlot at h
  split at h
  · next b e => cases h; exact e
  · cases h

/-- One for an element found. -/
def hit (r : Option Nat) : Nat := if r.isSome then 1 else 0

theorem scan_trace {t : Tbl α} {pred : α → Bool} {p : Probe} : ∀ {l : List Nat} {r : Option Nat}, t.scan pred p l = .ok r →
    ∃ seen, t.scanTrace pred p l = .ok (r, seen) ∧ Compared t pred r seen ∧ hit r ≤ seen.length ∧ seen.length ≤ l.length ∧
      ∀ n, t.scanProbes pred p l n = .ok (r.isSome, n + (seen.length - hit r))
  | [], r, h => by
    unfold Tbl.scan at h
    cases h
    exact ⟨[], rfl, ⟨by simp, by simp, by simp⟩, by simp [hit], by simp, fun n => by simp [Tbl.scanProbes]⟩
  | i :: is, r, h => by
    unfold Tbl.scan at h
    dsimp only at h
    rw [Res.bind_eq_ok] at h
    obtain ⟨a, ha, h⟩ := h
    have hs := readSlot_some ha
    unfold Tbl.scanTrace Tbl.scanProbes
    simp only [ha, Res.ok_bind]
    split at h
    · next hp =>
      cases h
      simp only [hp, if_true]
      exact ⟨[a], rfl, ⟨by simp only [List.mem_singleton, forall_eq]; exact mem_elems.2 ⟨_, hs⟩, by simp,
        by intro o e; cases e; exact ⟨[], a, rfl, hs, hp, by simp⟩⟩, by simp [hit], by simp, fun n => by simp [hit]⟩
    · next hp =>
      simp only [hp]
      obtain ⟨seen, h1, ⟨c1, c2, c3⟩, h3, h5, h4⟩ := scan_trace h
      refine ⟨a :: seen, by simp [h1], ⟨?_, ?_, ?_⟩, by simp; omega, by simp; omega, fun n => ?_⟩
      · intro b hb
        rcases List.mem_cons.1 hb with rfl | hb
        · exact mem_elems.2 ⟨_, hs⟩
        · exact c1 b hb
      · intro e b hb
        rcases List.mem_cons.1 hb with rfl | hb
        · simpa using hp
        · exact c2 e b hb
      · intro o e
        obtain ⟨ms, b, e1, e2, e3, e4⟩ := c3 o e
        refine ⟨a :: ms, b, by simp [e1], e2, e3, ?_⟩
        intro m hm
        rcases List.mem_cons.1 hm with rfl | hm
        · simpa using hp
        · exact e4 m hm
      · simp only [Bool.false_eq_true, if_false]
        rw [h4 (n + 1)]
        simp only [List.length_cons, Res.ok.injEq, Prod.mk.injEq, true_and]
        omega

theorem probe_trace {C : Cfg α κ} {t : Tbl α} {pred : α → Bool} {h2 : Ctrl} : ∀ {fuel : Nat} {p : Probe} {r : Option Nat},
    t.probeFind C pred h2 fuel p = .ok r →
    ∃ seen g, t.probeTrace C pred h2 fuel p = .ok (r, seen, g) ∧ Compared t pred r seen ∧ hit r ≤ seen.length ∧ 1 ≤ g ∧ g ≤ fuel ∧
      ∀ n, t.probesLoop C pred h2 fuel p n = .ok (n + (seen.length - hit r) + (g - 1))
  | 0, p, r, h => by unfold Tbl.probeFind at h; cases h
  | m + 1, p, r, h => by
    unfold Tbl.probeFind at h
    rw [Res.bind_eq_ok] at h
    obtain ⟨g, hg, h⟩ := h
    rw [Res.bind_eq_ok] at h
    obtain ⟨r1, hs, h⟩ := h
    obtain ⟨seen, s1, sc, s3, _, s4⟩ := scan_trace hs
    unfold Tbl.probeTrace Tbl.probesLoop
    simp only [hg, Res.ok_bind, s1, s4]
    cases r1 with
    | some off =>
      cases h
      exact ⟨seen, 1, rfl, sc, s3, by omega, by omega, fun n => by simp⟩
    | none =>
      simp only at h
      split at h
      · next he =>
        cases h
        simp only [he, if_true]
        exact ⟨seen, 1, rfl, sc, s3, by omega, by omega, fun n => by simp⟩
      · next he =>
        obtain ⟨seen', g', k1, ⟨c1, c2, c3⟩, k3, k4, k5, k6⟩ := probe_trace h
        simp only [he, k1, Res.ok_bind]
        refine ⟨seen ++ seen', g' + 1, rfl, ⟨?_, ?_, ?_⟩, by simp; omega, by omega, by omega, fun n => ?_⟩
        · intro a ha
          rcases List.mem_append.1 ha with ha | ha
          · exact sc.mem a ha
          · exact c1 a ha
        · intro e a ha
          rcases List.mem_append.1 ha with ha | ha
          · exact sc.none rfl a ha
          · exact c2 e a ha
        · intro o e
          obtain ⟨ms, b, e1, e2, e3, e4⟩ := c3 o e
          refine ⟨seen ++ ms, b, by simp [e1], e2, e3, ?_⟩
          intro x hx
          rcases List.mem_append.1 hx with hx | hx
          · exact sc.none rfl x hx
          · exact e4 x hx
        · simp only [Option.isSome_none, Bool.false_eq_true, if_false]
          rw [k6]
          simp only [List.length_append, Res.ok.injEq]
          have : hit none = 0 := rfl
          omega

/-! ### Bytes -/

theorem filterMap_take {s : List (Option α)} {n : Nat} (hn : n < s.length) :
    (s.take (n + 1)).filterMap id = (s.take n).filterMap id ++ (s[n]).toList := by
  rw [List.take_succ_eq_append_getElem hn, List.filterMap_append]
  congr 1

/-- Sum of words. -/
def usum (l : List U64) : U64 := l.foldl (· + ·) 0

theorem usum_append (l : List U64) (x : U64) : usum (l ++ [x]) = usum l + x := by
  unfold usum; simp [List.foldl_append]

theorem usum_toNat : ∀ (l : List U64), (l.map BitVec.toNat).sum < 2 ^ 64 → (usum l).toNat = (l.map BitVec.toNat).sum := by
  intro l
  induction l using List.reverseRecOn with
  | nil => intro _; rfl
  | append_singleton l x ih =>
    intro h
    simp only [List.map_append, List.map_cons, List.map_nil, List.sum_append, List.sum_cons, List.sum_nil, Nat.add_zero] at h ⊢
    rw [usum_append, BitVec.toNat_add, ih (by omega)]
    omega

/-- The loop of `AllocatedByteSize` over the slots. -/
theorem bytes_loop {C : Cfg α κ} (hC : CfgOk C) {t : Tbl α} {c : List Ctrl} (hi : Inv C t c) (used : α → U64) (m : U64) :
    (List.range t.capacity).foldlM (fun m i => do
      let c ← t.ctrlAt i
      if isFull c then do
        let a ← t.readSlot i
        .ok (m + used a)
      else .ok m) m = Res.ok (m + usum ((elems t).map used)) := by
  have hW : 0 < C.G.W := by rcases hC.group.width with h | h <;> omega
  have hl := hi.core.sync.slen
  obtain ⟨s, h1, h2⟩ := foldlM_range (P := fun n s => s = m + usum (((t.slots.take n).filterMap id).map used)) t.capacity (s := m)
    (f := fun m i => do
      let c ← t.ctrlAt i
      if isFull c then do
        let a ← t.readSlot i
        .ok (m + used a)
      else .ok m) (by simp [usum]) (by
    intro n s hn hs
    have hlay : lay c t.capacity n = c.getD n kEmpty := lay_lt (by omega)
    have hn' : n < t.slots.length := by omega
    rw [hi.core.raw.ctrlAt hW (by omega), hlay]
    simp only [Res.ok_bind]
    cases e : t.slots[n] with
    | none =>
      obtain ⟨x, hx, hx2⟩ := hi.core.sync.none_eod n (by rw [List.getElem?_eq_getElem hn', e])
      have : isFull x = false := by rcases hx2 with rfl | rfl <;> decide
      rw [List.getD_eq_getElem?_getD, hx]
      simp only [Option.getD_some, this]
      refine ⟨s, rfl, ?_⟩
      rw [filterMap_take hn', e]; simpa using hs
    | some a =>
      have ea : t.slots[n]? = some (some a) := by rw [List.getElem?_eq_getElem hn', e]
      obtain ⟨x, hx, hx2⟩ := hi.core.sync.some_full n a ea
      rw [List.getD_eq_getElem?_getD, hx]
      simp only [Option.getD_some, hx2, if_true, readSlot_ok ea, Res.ok_bind]
      refine ⟨_, rfl, ?_⟩
      rw [filterMap_take hn', e, hs]
      simp only [Option.toList, List.map_append, List.map_cons, List.map_nil, usum_append]
      exact BitVec.add_assoc _ _ _)
  rw [h1, h2]
  unfold elems
  rw [← hl, List.take_length]

/-- The number of bytes of the layout of a table, if it fits in the address space. -/
theorem tableLayout_bytes {W cap : Nat} {slot : Elt} (hs : slot.Legal)
    (hfit : (cap + W + 1) + slot.size.toNat * cap + 2 * slot.align.toNat < 2 ^ 64) :
    (tableLayout W slot cap).allocSize.toNat =
      (cap + W + 1 + slot.align.toNat - 1) / slot.align.toNat * slot.align.toNat + slot.size.toNat * cap ∧
    (tableLayout W slot cap).alignment = slot.align := by
  have hsz := hs.size_pos
  have hmul : cap ≤ slot.size.toNat * cap := Nat.le_mul_of_pos_left _ hsz
  obtain ⟨k, hk1, hk⟩ := hs.pow2
  have hap : 0 < slot.align.toNat := by rw [hk]; exact Nat.pow_pos (by decide)
  have b1 : (BitVec.ofNat 64 (cap + W + 1)).toNat = cap + W + 1 := by rw [BitVec.toNat_ofNat]; omega
  have b2 : (BitVec.ofNat 64 cap).toNat = cap := by rw [BitVec.toNat_ofNat]; omega
  have one : (1 : U64).toNat = 1 := rfl
  have hone : (⟨1, 1⟩ : Elt).Legal := ⟨by decide, ⟨0, by decide, by decide⟩, ⟨1, by decide⟩⟩
  generalize hL : tableLayout W slot cap = L at *
  have hL' : L = [(⟨1, 1⟩, BitVec.ofNat 64 (cap + W + 1)), (slot, BitVec.ofNat 64 cap)] := hL.symm
  have hne : L ≠ [] := by rw [hL']; simp
  have hl : ∀ x ∈ L, x.1.Legal := by
    intro x hx
    rw [hL'] at hx
    simp only [List.mem_cons, List.not_mem_nil, or_false] at hx
    rcases hx with rfl | rfl
    · exact hone
    · exact hs
  have hneed : L.need ≤ 2 ^ 64 := by
    rw [hL']
    simp only [Mem.Layout.need, List.map_cons, List.map_nil, List.sum_cons, List.sum_nil, b1, b2, one]
    omega
  have hal : L.alignment = slot.align := by
    rw [hL']
    show (if slot.align < 1 then (1 : U64) else slot.align) = slot.align
    rw [if_neg]
    intro hc
    have : slot.align.toNat < 1 := hc
    omega
  have hlen : L.length = 2 := by rw [hL']; rfl
  have x1 : L.elt 1 = slot ∧ (L.count 1).toNat = cap := by rw [hL']; exact ⟨rfl, b2⟩
  have hasz := Mem.Layout.allocSize_toNat hl hneed hne
  rw [hlen, show 2 - 1 = 1 from rfl, x1.1, x1.2] at hasz
  refine ⟨?_, hal⟩
  rw [hasz]
  have ho : L.offset 1 = Mem.align (0 + 1 * BitVec.ofNat 64 (cap + W + 1)) slot.align := by rw [hL']; rfl
  have h01 : (0 : U64) + 1 * BitVec.ofNat 64 (cap + W + 1) = BitVec.ofNat 64 (cap + W + 1) := by
    simp
  rw [ho, h01, align_toNat hk1 hk (by rw [b1]; omega), b1]

theorem roundUp_mono {a b m : Nat} (h : a ≤ b) : (a + m - 1) / m * m ≤ (b + m - 1) / m * m :=
  Nat.mul_le_mul_right _ (Nat.div_le_div_right (by omega))

end Gtl.Swiss

namespace Gtl.Parallel

open Gtl.Swiss

variable {α κ : Type}

/-- `GetNumProbes(set, key)` of a parallel container (phmap.hpp:5085-5090). -/
def PTbl.getNumProbes (P : PCfg α κ) (p : PTbl α) (k : κ) : Res Nat := do
  let t ← Res.ofOption p.sets[subidx P.N (P.C.hash k)]?
  t.getNumProbes P.C k

end Gtl.Parallel
