import Verif.Props.BitVector
import Verif.Bits.Fail
/-!
# Property theorems C79: bit vectors when memory runs out
-/

namespace Gtl.Props.Bits

open Gtl.Bits Gtl.Spec.Bits

theorem grows_iff {v : Bv} {l : List Bool} (h : Sim v l) (n : Nat) : v.Grows n ↔ (l.length + 63) / 64 < (n + 63) / 64 := by
  unfold Bv.Grows
  rw [h.len]
  show _ < (n + 63) >>> 6 ↔ _
  rw [Nat.shiftRight_eq_div_pow]

theorem get_out {v : Bv} {i : Nat} (h : 64 * v.s.length ≤ i) : v.get i = .ub := by
  unfold Bv.get ld
  rw [List.getElem?_eq_none (by unfold slot; rw [Nat.shiftRight_eq_div_pow]; omega)]
  rfl

/-- Memory runs out in `v.resize(n)`. The bits of before can still be read, but `size()` is `n` already, and reading the
last of these `n` bits is undefined. So the call is not without effect. -/
theorem C79_resize_partial {v : Bv} {l : List Bool} (hr : Reachable v) (hc : Contents v l) {n : Nat} (hg : v.Grows n) :
    (∀ i (h : i < l.length), (v.resizeThrow n).get i = .ok l[i]) ∧
    (v.resizeThrow n).sz = n ∧ l.length < n ∧ (v.resizeThrow n).get (n - 1) = .ub := by
  have hs := hr.sim hc
  have h1 := (grows_iff hs n).1 hg
  refine ⟨fun i hi => hc.2 i hi, rfl, by omega, get_out ?_⟩
  show 64 * v.s.length ≤ _
  rw [hs.len]; omega

/-- The same for `v = o`. -/
theorem C79_copy_partial {v o : Bv} {l lo : List Bool} (hr : Reachable v) (hc : Contents v l) (hro : Reachable o)
    (hco : Contents o lo) (hg : v.Grows o.sz) :
    (∀ i (h : i < l.length), (v.copyThrow o).get i = .ok l[i]) ∧
    (v.copyThrow o).sz = lo.length ∧ l.length < lo.length ∧ (v.copyThrow o).get (lo.length - 1) = .ub := by
  have h := C79_resize_partial hr hc hg
  rw [hco.1] at h
  refine ⟨h.1, hco.1, h.2.2.1, ?_⟩
  rw [← h.2.2.2]
  show Bv.get { v with sz := o.sz } _ = Bv.get { v with sz := lo.length } _
  rw [hco.1]

/-- Memory runs out only if more slots of 64 bits are needed: never when the vector shrinks, nor when it grows inside its
last slot. -/
theorem C79_only {v : Bv} {l : List Bool} (hr : Reachable v) (hc : Contents v l) (n : Nat) :
    v.Grows n ↔ (l.length + 63) / 64 < (n + 63) / 64 := grows_iff (hr.sim hc) n

/-- A `resize` to the size of before undoes the damage. It asks for no memory, and leaves exactly the vector of before. -/
theorem C79_repair {v : Bv} {l : List Bool} (hr : Reachable v) (hc : Contents v l) (n : Nat) (b : Bool) :
    ¬ (v.resizeThrow n).Grows l.length ∧ (v.resizeThrow n).resize l.length b = .ok v := by
  have hs := hr.sim hc
  refine ⟨fun h => ?_, ?_⟩
  · have : v.Grows l.length := h
    rw [grows_iff hs] at this
    omega
  · obtain ⟨v', e1, e2⟩ := resize_sim hs l.length b
    rw [resized_eq (Or.inr (Or.inr (Nat.le_refl _)))] at e2
    have : Spec.Bits.resize l l.length b = l := by unfold Spec.Bits.resize; simp
    rw [this] at e2
    rw [Bv.resizeThrow, resize_sz, e1, e2.unique hs]

/-- The same after `v = o` has thrown. -/
theorem C79_repair_copy {v : Bv} {l : List Bool} (hr : Reachable v) (hc : Contents v l) (o : Bv) (b : Bool) :
    ¬ (v.copyThrow o).Grows l.length ∧ (v.copyThrow o).resize l.length b = .ok v := C79_repair hr hc o.sz b

/-- Reading bit 199 after `resize(200)` has thrown: `size()` says that it exists. -/
theorem C79_refuted : Reachable exV ∧ exV.Grows 200 ∧ (exV.resizeThrow 200).sz = 200 ∧ (exV.resizeThrow 200).get 199 = .ub ∧
    (exV.resizeThrow 200).count = .ub :=
  ⟨exV_reach, by unfold Bv.Grows; decide +kernel, rfl, by decide +kernel, by decide +kernel⟩

example : ∃ v l n, Reachable v ∧ Contents v l ∧ v.Grows n ∧ l ≠ [] ∧ ∃ o lo, Reachable o ∧ Contents o lo ∧ lo ≠ [] :=
  ⟨exV, exL, 200, exV_reach, exV_contents, C79_refuted.2.1, by decide +kernel, exV2, exL2, exV2_reach, exV2_contents, by decide +kernel⟩

end Gtl.Props.Bits
