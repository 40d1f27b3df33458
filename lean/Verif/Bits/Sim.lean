import Verif.Bits.Seq
import Verif.Bits.Abs
/-!
# Simulation of lists of bits by bit vectors
-/

namespace Gtl.Bits

open Gtl.Spec.Bits

/-- The vector `v` holds exactly the bits `l`, in as many slots as needed, and the bits after the end are zero. -/
structure Sim (v : Bv) (l : List Bool) : Prop where
  sz : v.sz = l.length
  len : v.s.length = (l.length + 63) / 64
  bits : ∀ i, bit v.s i = at' l i

theorem at_out {l : List Bool} {i : Nat} (h : l.length ≤ i) : at' l i = false := by
  unfold at'
  rw [List.getD_eq_getElem?_getD, List.getElem?_eq_none h]; rfl

theorem at_get {l : List Bool} {i : Nat} (h : i < l.length) : at' l i = l[i] := by
  unfold at'
  rw [List.getD_eq_getElem?_getD, List.getElem?_eq_getElem h]; rfl

theorem at_ext {l l' : List Bool} (hl : l.length = l'.length) (h : ∀ i, i < l.length → at' l i = at' l' i) : l = l' := by
  apply List.ext_getElem hl
  intro i h1 h2
  rw [← at_get h1, ← at_get h2]
  exact h i h1

theorem length_mapView (l : List Bool) (first last : Nat) (g : Nat → Bool → Bool) : (mapView l first last g).length = l.length := by
  unfold mapView; simp

theorem at_mapView (l : List Bool) (first last : Nat) (g : Nat → Bool → Bool) (i : Nat) :
    at' (mapView l first last g) i = if i < l.length ∧ first ≤ i ∧ i < last then g i (at' l i) else at' l i := by
  by_cases h : i < l.length
  · rw [at_get (by rw [length_mapView]; exact h), at_get h]
    unfold mapView
    simp [h]
  · rw [at_out (by rw [length_mapView]; omega), if_neg (fun c => h c.1), at_out (by omega)]

theorem at_mapView' {l : List Bool} {first last : Nat} (h : last ≤ l.length) (g : Nat → Bool → Bool) (i : Nat) :
    at' (mapView l first last g) i = if first ≤ i ∧ i < last then g i (at' l i) else at' l i := by
  rw [at_mapView]
  by_cases c : first ≤ i ∧ i < last
  · rw [if_pos ⟨by omega, c⟩, if_pos c]
  · rw [if_neg (fun d => c d.2), if_neg c]

theorem slice_eq {l : List Bool} {first last : Nat} (h : last ≤ l.length) :
    slice l first last = (List.range (last - first)).map fun k => at' l (first + k) := by
  unfold slice
  apply List.ext_getElem
  · simp; omega
  · intro i h1 h2
    simp at h1 h2
    rw [List.getElem_map, List.getElem_range, at_get (by omega)]
    simp

theorem slice_all (l : List Bool) : slice l 0 l.length = l := by unfold slice; simp

theorem Sim.room {v : Bv} {l : List Bool} (h : Sim v l) : l.length ≤ 64 * v.s.length := by
  have := h.len; omega

/-- A vector is determined by its bits. -/
theorem Sim.unique {v v' : Bv} {l : List Bool} (h : Sim v l) (h' : Sim v' l) : v = v' := by
  obtain ⟨z, s⟩ := v
  obtain ⟨z', s'⟩ := v'
  have h1 : z = z' := h.sz.trans h'.sz.symm
  have h2 : s = s' := slots_ext (h.len.trans h'.len.symm) (fun i _ => (h.bits i).trans (h'.bits i).symm)
  rw [h1, h2]

theorem Sim.inj {v : Bv} {l l' : List Bool} (h : Sim v l) (h' : Sim v l') : l = l' :=
  at_ext (h.sz.symm.trans h'.sz) (fun i _ => (h.bits i).symm.trans (h'.bits i))

/-- Write `s'` back into the vector. -/
theorem Sim.write {v : Bv} {l l' : List Bool} {s' : List Word} (h : Sim v l) (hl : l'.length = l.length) (h1 : s'.length = v.s.length)
    (h2 : ∀ i, i < 64 * s'.length → bit s' i = at' l' i) : Sim { v with s := s' } l' :=
  ⟨by rw [hl]; exact h.sz, by rw [hl, ← h.len]; exact h1, fun i => by
    by_cases c : i < 64 * s'.length
    · exact h2 i c
    · have := h.len
      show bit s' i = _
      rw [bit_out (by omega), at_out (by omega)]⟩

theorem Sim.write' {v : Bv} {l l' : List Bool} {s' : List Word} (h : Sim v l) (hl : l'.length = l.length) (h1 : s'.length = v.s.length)
    (h2 : ∀ i, i < 64 * s'.length → bit s' i = at' l' i) : Sim { sz := l.length, s := s' } l' := by
  rw [← h.sz]; exact h.write hl h1 h2

theorem slot_ld {v : Bv} {l : List Bool} (h : Sim v l) {i : Nat} (hi : i < l.length) :
    ∃ w, v.s[i / 64]? = some w ∧ ld v.s (i / 64) = .ok w ∧ w.getLsbD (i % 64) = at' l i := by
  have := h.len
  obtain ⟨w, h1, h2⟩ := ld_ok (s := v.s) (i := i / 64) (by omega)
  exact ⟨w, h1, h2, by rw [← h.bits, bit_at' h1]⟩

theorem get_sim {v : Bv} {l : List Bool} (h : Sim v l) {i : Nat} (hi : i < l.length) : v.get i = .ok (at' l i) := by
  obtain ⟨w, h1, h2, h3⟩ := slot_ld h hi
  unfold Bv.get
  rw [slot_eq, h2, Res.ok_bind]
  congr 1
  simp only [and_bitmask_ne, h3]
  cases at' l i <;> rfl

theorem setTo_sim {v : Bv} {l : List Bool} (h : Sim v l) {i : Nat} (hi : i < l.length) (b : Bool) :
    ∃ v', v.setTo i b = .ok v' ∧ Sim v' (l.set i b) := by
  obtain ⟨w, h1, h2, h3⟩ := slot_ld h hi
  have hl := h.len
  have hk : i / 64 < v.s.length := by omega
  have hset : ∀ k, at' (l.set i b) k = if k = i then b else at' l k := by
    intro k
    unfold at'
    rw [List.getD_eq_getElem?_getD, List.getD_eq_getElem?_getD, List.getElem?_set]
    by_cases c : k = i
    · subst c; simp [hi]
    · rw [if_neg (fun e => c e.symm), if_neg c]
  have hsame : at' l i = b → Sim v (l.set i b) := by
    intro e
    refine ⟨by simp [h.sz], by simp [h.len], fun k => ?_⟩
    rw [hset, h.bits]
    split
    · rename_i c; rw [c, e]
    · rfl
  have hother : ∀ w' : Word, (∀ j, j < 64 → w'.getLsbD j = if j = i % 64 then b else w.getLsbD j) →
      Sim { v with s := v.s.set (i / 64) w' } (l.set i b) := by
    intro w' hw
    refine h.write (by simp) (by simp) (fun k hk' => ?_)
    rw [bit_set hk, hset]
    by_cases c : k / 64 = i / 64
    · rw [if_pos c, hw _ (Nat.mod_lt _ (by decide))]
      by_cases d : k = i
      · rw [if_pos (by omega), if_pos d]
      · rw [if_neg (by omega), if_neg d, ← h.bits k, bit_at' (by rw [c]; exact h1)]
    · rw [if_neg c, if_neg (by omega), h.bits]
  unfold Bv.setTo Bv.updateBit
  rw [slot_eq, h2]
  simp only [Res.ok_bind, and_bitmask_ne, h3]
  cases b with
  | true =>
    simp only [if_true]
    by_cases e : at' l i = true
    · rw [if_neg (by simpa using e)]; exact ⟨v, rfl, hsame e⟩
    · rw [if_pos (by simpa using e)]
      simp only [st, if_pos hk, Res.ok_bind]
      refine ⟨_, rfl, hother _ (fun j hj => ?_)⟩
      rw [BitVec.getLsbD_or, bitmask_bit]
      by_cases c : j = i % 64 <;> simp [c]
  | false =>
    simp only [Bool.false_eq_true, if_false]
    by_cases e : at' l i = true
    · rw [if_pos (by simpa using e)]
      simp only [st, if_pos hk, Res.ok_bind]
      refine ⟨_, rfl, hother _ (fun j hj => ?_)⟩
      rw [BitVec.getLsbD_and, BitVec.getLsbD_not, bitmask_bit]
      by_cases c : j = i % 64 <;> simp [c, hj]
    · rw [if_neg (by simpa using e)]; exact ⟨v, rfl, hsame (by simpa using e)⟩

theorem flip_sim {v : Bv} {l : List Bool} (h : Sim v l) {i : Nat} (hi : i < l.length) :
    ∃ v', v.flip i = .ok v' ∧ Sim v' (l.set i (!at' l i)) := by
  obtain ⟨w, h1, h2, h3⟩ := slot_ld h hi
  have hl := h.len
  have hk : i / 64 < v.s.length := by omega
  unfold Bv.flip Bv.updateBitF
  rw [slot_eq, h2]
  simp only [Res.ok_bind, st, if_pos hk]
  refine ⟨_, rfl, h.write (by simp) (by simp) (fun k hk' => ?_)⟩
  rw [bit_set hk]
  have hset : at' (l.set i (!at' l i)) k = if k = i then !at' l i else at' l k := by
    rw [at'.eq_def (l.set _ _), at'.eq_def _ k, List.getD_eq_getElem?_getD, List.getD_eq_getElem?_getD, List.getElem?_set]
    by_cases c : k = i
    · subst c; simp [hi]
    · rw [if_neg (fun e => c e.symm), if_neg c]
  rw [hset]
  have hj : k % 64 < 64 := Nat.mod_lt _ (by decide)
  by_cases c : k / 64 = i / 64
  · rw [if_pos c, BitVec.getLsbD_or, BitVec.getLsbD_and, BitVec.getLsbD_and, BitVec.getLsbD_not, BitVec.getLsbD_not, bitmask_bit]
    by_cases d : k = i
    · subst d; rw [h3]; simp [hj]
    · have : ¬ k % 64 = i % 64 := by omega
      rw [if_neg d, ← h.bits k, bit_at' (w := w) (by rw [c]; exact h1)]
      simp [this, hj]
  · rw [if_neg c, if_neg (by omega), h.bits]

/-! ## Changing a view -/

variable {τ : Type}

/-- The callback's word in terms of the abstract bits. -/
def WinL (l : List Bool) (lo hi : Nat) (w : Word) : Prop :=
  ∀ j, j < 64 → w.getLsbD j = (decide (lo ≤ 64 * (lo / 64) + j ∧ 64 * (lo / 64) + j < hi) && at' l (64 * (lo / 64) + j))

/-- The callback's answer has the bits `g` in `[lo, hi)`. -/
def Gives (lo hi : Nat) (g : Nat → Bool) (fs : Word) : Prop :=
  ∀ j, j < 64 → lo ≤ 64 * (lo / 64) + j → 64 * (lo / 64) + j < hi → fs.getLsbD j = g (64 * (lo / 64) + j)

theorem Gives.at {lo hi : Nat} {g : Nat → Bool} {fs : Word} (h : Gives lo hi g fs) (hs : lo / 64 = (hi - 1) / 64) {i : Nat}
    (h1 : lo ≤ i) (h2 : i < hi) : fs.getLsbD (i % 64) = g i := by
  have e : 64 * (lo / 64) + i % 64 = i := by omega
  have := h (i % 64) (Nat.mod_lt _ (by decide)) (by omega) (by omega)
  rw [e] at this; exact this

theorem visit_up_map {f : Upd τ} {v : Bv} {l : List Bool} {first last : Nat} {t : τ} (hs : Sim v l) (h1 : first ≤ last)
    (h2 : last ≤ l.length) (g : Nat → Bool) (K : Nat → τ → Prop) (h0 : K first t)
    (hstep : ∀ lo hi s1 t1 w, Seg first last lo hi → s1.length = v.s.length →
      (∀ i, bit s1 i = if first ≤ i ∧ i < lo then g i else at' l i) → K lo t1 → WinL l lo hi w →
      ∃ t' fs, f s1 t1 w (shiftOf first lo hi) = .ok (t', fs) ∧ K hi t' ∧ Gives lo hi g fs) :
    ∃ v', v.visit false first last f t = .ok v' ∧ Sim v' (mapView l first last fun i _ => g i) := by
  have hr := hs.room
  obtain ⟨s', t', e1, e2, e3⟩ := visit_up (f := f) (s := v.s) (t := t)
    (fun pos s1 t1 => (∀ i, bit s1 i = if first ≤ i ∧ i < pos then g i else at' l i) ∧ K pos t1) h1 (by omega)
    ⟨fun i => by rw [if_neg (by omega)]; exact hs.bits i, h0⟩
    (fun lo hi s1 t1 hseg hl hI w hw => by
      obtain ⟨hb, hK⟩ := hI
      obtain ⟨t', fs, e1, e2, e3⟩ := hstep lo hi s1 t1 w hseg hl hb hK (fun j hj => by
        rw [hw j hj, hb]
        by_cases c : lo ≤ 64 * (lo / 64) + j
        · rw [if_neg (by omega)]
        · simp [c])
      refine ⟨t', fs, e1, fun s' hw' => ⟨fun i => ?_, e2⟩⟩
      rw [hw'.2 i]
      have := hseg.lo_ge
      have := hseg.lt
      by_cases c : lo ≤ i ∧ i < hi
      · rw [if_pos c, if_pos (by omega), e3.at hseg.same c.1 c.2]
      · rw [if_neg c, hb]
        by_cases d : first ≤ i ∧ i < lo
        · rw [if_pos d, if_pos (by omega)]
        · rw [if_neg d, if_neg (by omega)])
  refine ⟨_, by unfold Bv.visit; rw [e1]; rfl, hs.write (length_mapView _ _ _ _) e2 (fun i _ => ?_)⟩
  rw [e3.1 i, at_mapView' h2]

theorem visit_down_map {f : Upd τ} {v : Bv} {l : List Bool} {first last : Nat} {t : τ} (hs : Sim v l) (h1 : first ≤ last)
    (h2 : last ≤ l.length) (g : Nat → Bool) (K : Nat → τ → Prop) (h0 : K last t)
    (hstep : ∀ lo hi s1 t1 w, Seg first last lo hi → s1.length = v.s.length → K hi t1 → WinL l lo hi w →
      ∃ t' fs, f s1 t1 w (shiftOf first lo hi) = .ok (t', fs) ∧ K lo t' ∧ Gives lo hi g fs) :
    ∃ v', v.visit true first last f t = .ok v' ∧ Sim v' (mapView l first last fun i _ => g i) := by
  have hr := hs.room
  obtain ⟨s', t', e1, e2, e3⟩ := visit_down (f := f) (s := v.s) (t := t)
    (fun pos s1 t1 => (∀ i, bit s1 i = if pos ≤ i ∧ i < last then g i else at' l i) ∧ K pos t1) h1 (by omega)
    ⟨fun i => by rw [if_neg (by omega)]; exact hs.bits i, h0⟩
    (fun lo hi s1 t1 hseg hl hI w hw => by
      obtain ⟨hb, hK⟩ := hI
      obtain ⟨t', fs, e1, e2, e3⟩ := hstep lo hi s1 t1 w hseg hl hK (fun j hj => by
        rw [hw j hj, hb]
        by_cases c : 64 * (lo / 64) + j < hi
        · rw [if_neg (by omega)]
        · simp [c])
      refine ⟨t', fs, e1, fun s' hw' => ⟨fun i => ?_, e2⟩⟩
      rw [hw'.2 i]
      have := hseg.hi_le
      have := hseg.lt
      by_cases c : lo ≤ i ∧ i < hi
      · rw [if_pos c, if_pos (by omega), e3.at hseg.same c.1 c.2]
      · rw [if_neg c, hb]
        by_cases d : hi ≤ i ∧ i < last
        · rw [if_pos d, if_pos (by omega)]
        · rw [if_neg d, if_neg (by omega)])
  refine ⟨_, by unfold Bv.visit; rw [e1]; rfl, hs.write (length_mapView _ _ _ _) e2 (fun i _ => ?_)⟩
  rw [e3.1 i, at_mapView' h2]

theorem viewFill_sim {v : Bv} {l : List Bool} (h : Sim v l) {first last : Nat} (h1 : first ≤ last) (h2 : last ≤ l.length) (b : Bool) :
    ∃ v', v.viewFill first last b = .ok v' ∧ Sim v' (mapView l first last fun _ _ => b) := by
  unfold Bv.viewFill
  refine visit_up_map h h1 h2 (fun _ => b) (fun _ _ => True) trivial (fun lo hi s1 t1 w _ _ _ _ _ => ⟨_, _, rfl, trivial, fun j hj _ _ => ?_⟩)
  cases b with
  | true => simp [ones_bit, hj]
  | false => simp

theorem mapView_congr {l : List Bool} {first last : Nat} {g g' : Nat → Bool → Bool}
    (h : ∀ i, i < l.length → first ≤ i → i < last → g i (at' l i) = g' i (at' l i)) : mapView l first last g = mapView l first last g' := by
  apply at_ext (by rw [length_mapView, length_mapView])
  intro i hi
  rw [length_mapView] at hi
  rw [at_mapView, at_mapView]
  split
  · rename_i c; exact h i c.1 c.2.1 c.2.2
  · rfl

theorem viewFlip_sim {v : Bv} {l : List Bool} (h : Sim v l) {first last : Nat} (h1 : first ≤ last) (h2 : last ≤ l.length) :
    ∃ v', v.viewFlip first last = .ok v' ∧ Sim v' (mapView l first last fun _ b => !b) := by
  unfold Bv.viewFlip
  rw [mapView_congr (g := fun _ b => !b) (g' := fun i _ => !at' l i) (fun _ _ _ _ => rfl)]
  refine visit_up_map h h1 h2 (fun i => !at' l i) (fun _ _ => True) trivial (fun lo hi s1 t1 w _ _ _ _ hw => ⟨_, _, rfl, trivial, fun j hj c1 c2 => ?_⟩)
  rw [BitVec.getLsbD_not, hw j hj]
  simp [hj, c1, c2]

/-! ## Two views -/

/-- The bits the source of a two-view operation holds: `none` is the destination's own vector. -/
def srcBits (l : List Bool) (o : Option (List Bool)) : List Bool := o.getD l

def SimO (l : List Bool) (o : Option Bv) (lo : Option (List Bool)) : Prop :=
  match o, lo with
  | none, none => True
  | some o, some lo => Sim o lo
  | _, _ => False

/-- Word operations that act bit by bit. -/
def Bitwise (g : Word → Word → Word) (gb : Bool → Bool → Bool) : Prop :=
  ∀ (a b : Word) (j : Nat), j < 64 → (g a b).getLsbD j = gb (a.getLsbD j) (b.getLsbD j)

/-- Bits delivered by the source sequence while the destination is updated from below. -/
theorem source_bits {v : Bv} {l : List Bool} {o : Option Bv} {lo : Option (List Bool)} (_h : Sim v l) (ho : SimO l o lo)
    {first ofirst olast : Nat} {g : Nat → Bool} {pos : Nat} {s1 : List Word}
    (hb : ∀ i, bit s1 i = if first ≤ i ∧ i < pos then g i else at' l i) (hal : o = none → first ≤ ofirst ∨ olast ≤ first)
    {i last : Nat} (hi : pos ≤ i) (hl : i < last) (hp : first ≤ pos) (h5 : olast - ofirst = last - first) :
    bit (Bv.source o s1) (ofirst + (i - first)) = at' (srcBits l lo) (ofirst + (i - first)) := by
  cases o with
  | none =>
    cases lo with
    | some _ => exact ho.elim
    | none =>
      have := hal rfl
      unfold Bv.source srcBits
      simp only [Option.getD_none]
      rw [hb, if_neg (by omega)]
  | some o =>
    cases lo with
    | none => exact ho.elim
    | some lo =>
      unfold Bv.source srcBits
      simp only [Option.getD_some]
      exact Sim.bits ho _

theorem source_room {v : Bv} {l : List Bool} {o : Option Bv} {lo : Option (List Bool)} (h : Sim v l) (ho : SimO l o lo)
    {s1 : List Word} (hl : s1.length = v.s.length) : (srcBits l lo).length ≤ 64 * (Bv.source o s1).length := by
  cases o with
  | none =>
    cases lo with
    | some _ => exact ho.elim
    | none => have := h.room; unfold Bv.source srcBits; simp only [Option.getD_none]; omega
  | some o =>
    cases lo with
    | none => exact ho.elim
    | some lo => exact Sim.room ho

theorem binAssign_sim {v : Bv} {l : List Bool} {o : Option Bv} {lo : Option (List Bool)} (h : Sim v l) (ho : SimO l o lo)
    {first last ofirst olast : Nat} (h1 : first ≤ last) (h2 : last ≤ l.length) (h3 : ofirst ≤ olast) (h4 : olast ≤ (srcBits l lo).length)
    (h5 : olast - ofirst = last - first) (hal : o = none → first ≤ ofirst ∨ olast ≤ first) {g : Word → Word → Word} {gb : Bool → Bool → Bool}
    (hg : Bitwise g gb) :
    ∃ v', v.binAssign first last o ofirst olast g = .ok v' ∧ Sim v' (combine gb l first last (srcBits l lo) ofirst) := by
  unfold Bv.binAssign combine
  rw [mapView_congr (g' := fun i _ => gb (at' l i) (at' (srcBits l lo) (ofirst + (i - first)))) (fun _ _ _ _ => rfl)]
  refine visit_up_map h h1 h2 (fun i => gb (at' l i) (at' (srcBits l lo) (ofirst + (i - first))))
    (fun pos q => SeqAt q first ofirst olast pos) (mkSeq_at _ _ _) ?_
  intro lo' hi s1 q w hseg hl hb hq hw
  have hroom := source_room h ho hl
  obtain ⟨q', x, e1, e2, e3⟩ := seq_next (src := Bv.source o s1) hseg hq h5 h3 (by omega)
  refine ⟨q', g w x, by rw [e1]; rfl, e2, fun j hj c1 c2 => ?_⟩
  rw [hg _ _ _ hj, hw j hj, e3 j hj, source_bits h ho hb hal c1 (last := last) (by have := hseg.hi_le; omega) hseg.lo_ge h5]
  simp [c1, c2]

theorem copyView_sim {v : Bv} {l : List Bool} {o : Option Bv} {lo : Option (List Bool)} (h : Sim v l) (ho : SimO l o lo)
    {first last ofirst olast : Nat} (h1 : first ≤ last) (h2 : last ≤ l.length) (h3 : ofirst ≤ olast) (h4 : olast ≤ (srcBits l lo).length)
    (h5 : olast - ofirst = last - first) (hal : o = none → first ≤ ofirst ∨ olast ≤ first) :
    ∃ v', v.copyView first last o ofirst olast = .ok v' ∧ Sim v' (combine (fun _ y => y) l first last (srcBits l lo) ofirst) := by
  have := binAssign_sim h ho h1 h2 h3 h4 h5 hal (g := fun _ y => y) (gb := fun _ y => y) (fun _ _ _ _ => rfl)
  unfold Bv.binAssign at this
  unfold Bv.copyView
  have e : (fun (s : List Word) (q : Seq) (_ : Word) (_ : Int) => q.next (Bv.source o s)) =
      (fun (s : List Word) (q : Seq) (w : Word) (_ : Int) => (do
        let (q, x) ← q.next (Bv.source o s)
        Res.ok (q, (fun _ y : Word => y) w x))) := by
    funext s q w _
    cases Seq.next (Bv.source o s) q <;> rfl
  rw [e]
  exact this

end Gtl.Bits
