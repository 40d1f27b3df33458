import Verif.Props.ParReserve
import Verif.Parallel.NoTomb
/-!
# Property theorems C102: `reserve` of a parallel hash container that already has elements
-/

namespace Gtl.Props.Parallel

open Gtl.Swiss Gtl.Parallel
open Gtl.Spec (Op POp Resp PKeeps addsTo)
open Gtl.Props.Hash (Contract NonErasing exEqv exCfg exCfg_contract)

variable {α κ : Type}

/-- Calls that never remove an element (except `clear`, which removes them all). -/
def PNonErasing : POp α κ → Prop
  | .base op => NonErasing op
  | .eraseIfKey _ _ => False
  | _ => True

/-! ## Glue -/

theorem PNonErasing.growing {op : POp α κ} (h : PNonErasing op) : PGrowing op := by
  cases op with
  | base op => cases op <;> first | exact h | exact trivial
  | eraseIfKey _ _ => cases h
  | _ => trivial

theorem prun_noTomb {P : PCfg α κ} (h : Contract P.C) : ∀ (ops : List (POp α κ)) {p p' : PTbl α} {l : List α}
    {rs : List (Resp α)}, PSim P p l → PNoTomb P p → (∀ op ∈ ops, op.Valid P.C.key (2 ^ P.N)) →
    (∀ op ∈ ops, PNonErasing op) → prun P p ops = .ok (p', rs) → PNoTomb P p'
  | [], p, p', l, rs, _, hT, _, _, hst => by cases hst; exact hT
  | op :: ops, p, p', l, rs, hs, hT, hv, hn, hst => by
    obtain ⟨p1, h1, h2⟩ := pstep_sim h.cfgOk hs op (hv op List.mem_cons_self)
    simp only [prun, h1, Res.ok_bind] at hst
    obtain ⟨⟨p2, rs2⟩, h3, hst⟩ := Res.bind_eq_ok.1 hst
    cases hst
    exact prun_noTomb h ops h2 (pstep_noTomb h.cfgOk hs hT (hv op List.mem_cons_self) (hn op List.mem_cons_self).growing h1)
      (fun o ho => hv o (List.mem_cons_of_mem _ ho)) (fun o ho => hn o (List.mem_cons_of_mem _ ho)) h3

theorem withBuckets_pnoTomb {P : PCfg α κ} (n0 : Nat) : PNoTomb P (PTbl.withBuckets P n0 : PTbl α) := by
  intro i t ht
  unfold PTbl.withBuckets at ht
  have := List.mem_of_getElem? ht
  rw [List.eq_of_mem_replicate this]
  exact withBuckets_noTomb n0

theorem reserve_room_used {P : PCfg α κ} (h : Contract P.C) {p : PTbl α} {l : List α} (hs : PSim P p l) (hT : PNoTomb P p)
    (n : Nat) (hW : P.C.G.W = 16 ∨ n / 2 ^ P.N ≠ 7) :
    ∃ p1, p.reserve P n = .ok p1 ∧ PSim P p1 l ∧
      ∀ (i : Nat) t, p1.sets[i]? = some t →
        n / 2 ^ P.N ≤ t.growthLeft + l.countP (fun a => subOf P (P.C.key a) == i) := by
  obtain ⟨p1, h1, h2⟩ := reserve_psim h.cfgOk hs n
  refine ⟨p1, h1, h2, fun i t ht => ?_⟩
  unfold PTbl.reserve at h1
  dsimp only at h1
  obtain ⟨g1, g2⟩ := rehash_noTomb h.cfgOk hs hT (reserve_le _ _ _) h1
  have hsz : t.size = l.countP (fun a => subOf P (P.C.key a) == i) := by
    rw [(h2.sim i t ht).size, List.countP_eq_length_filter]; rfl
  obtain ⟨⟨c, hi⟩, hp⟩ := h2.sim i t ht
  have := reserve_share (Nat.two_pow_pos P.N) hW (g2 i t ht) hi.core.raw.pow
  have hN := g1 i t ht
  unfold NoTomb at hN
  omega

/-! ## C102: no submap is resized -/

/-- **A container that already has elements**: whatever was done to it before, as long as nothing was erased (it may
have been cleared), after `reserve(n)` a history that fills each submap up to at most `n / 2^N` elements, counting those
it had, resizes none of them. -/
theorem C102_used_partial {P : PCfg α κ} (h : Contract P.C) (n0 n : Nat) (hW : P.C.G.W = 16 ∨ n / 2 ^ P.N ≠ 7)
    (pre : List (POp α κ)) (hpv : ∀ op ∈ pre, op.Valid P.C.key (2 ^ P.N)) (hpn : ∀ op ∈ pre, PNonErasing op) :
    ∃ p rs0 p1, prun P (PTbl.withBuckets P n0) pre = .ok (p, rs0) ∧ p.reserve P n = .ok p1 ∧
      ∀ ops : List (POp α κ), (∀ op ∈ ops, op.Valid P.C.key (2 ^ P.N)) → (∀ op ∈ ops, ¬ op.Resizes) →
        POp.base Op.clear ∉ ops →
        (∀ i, addsTo P.C.key (subOf P) i ops = 0 ∨ (specPrun P.C.key P.C.eqv [] pre).1.countP (fun a => subOf P (P.C.key a) == i) +
          addsTo P.C.key (subOf P) i ops ≤ n / 2 ^ P.N) →
        ∃ p2 rs, prun P p1 ops = .ok (p2, rs) ∧ buckets p2 = buckets p1 := by
  have hs0 := withBuckets_psim (P := P) (α := α) h.cfgOk.group n0
  obtain ⟨p, e1, e2⟩ := prun_sim h pre hs0 hpv
  obtain ⟨p1, h1, h2, h3⟩ := reserve_room_used h e2 (prun_noTomb h pre hs0 (withBuckets_pnoTomb n0) hpv hpn e1) n hW
  refine ⟨p, _, p1, e1, h1, fun ops hv hr hc hg => ?_⟩
  obtain ⟨p2, rs, l2, f1, f2, f3⟩ := prun_room h ops h2 hv hr hc (fun i t ht => by
    have a1 := hg i
    have a2 := h3 i t ht
    show addsTo P.C.key (subOf P) i ops ≤ _
    omega)
  refine ⟨p2, rs, f1, ?_⟩
  unfold buckets
  apply List.ext_getElem?
  intro i
  rw [List.getElem?_map, List.getElem?_map]
  cases ht : p1.sets[i]? with
  | none =>
    rw [List.getElem?_eq_none_iff] at ht
    rw [List.getElem?_eq_none (by rw [f2.len, ← h2.len]; exact ht)]
  | some t =>
    obtain ⟨t', g1, g2⟩ := f3 i t ht
    rw [g1, Option.map_some, Option.map_some, g2.1]

/-- And iterators stay valid all the time: whatever `find(k)` returns at some moment of such a history, it returns at every
later moment at which the element was not removed in between. -/
theorem C102_used_iterators_partial {P : PCfg α κ} (h : Contract P.C) (n0 n : Nat) (hW : P.C.G.W = 16 ∨ n / 2 ^ P.N ≠ 7)
    (pre : List (POp α κ)) (hpv : ∀ op ∈ pre, op.Valid P.C.key (2 ^ P.N)) (hpn : ∀ op ∈ pre, PNonErasing op) :
    ∃ p rs0 p1, prun P (PTbl.withBuckets P n0) pre = .ok (p, rs0) ∧ p.reserve P n = .ok p1 ∧
      ∀ ops ops' : List (POp α κ), (∀ op ∈ ops ++ ops', op.Valid P.C.key (2 ^ P.N)) → (∀ op ∈ ops ++ ops', ¬ op.Resizes) →
        POp.base Op.clear ∉ ops →
        (∀ i, addsTo P.C.key (subOf P) i (ops ++ ops') = 0 ∨
          (specPrun P.C.key P.C.eqv [] pre).1.countP (fun a => subOf P (P.C.key a) == i) +
            addsTo P.C.key (subOf P) i (ops ++ ops') ≤ n / 2 ^ P.N) →
        ∃ p2 rs p3 rs', prun P p1 ops = .ok (p2, rs) ∧ prun P p2 ops' = .ok (p3, rs') ∧
          ∀ k it, p2.locate P k = .ok (some it) → (∀ op ∈ ops', PKeeps P.C.key P.C.eqv k op) →
            p3.locate P k = .ok (some it) := by
  have hs0 := withBuckets_psim (P := P) (α := α) h.cfgOk.group n0
  obtain ⟨p, e1, e2⟩ := prun_sim h pre hs0 hpv
  obtain ⟨p1, h1, h2, h3⟩ := reserve_room_used h e2 (prun_noTomb h pre hs0 (withBuckets_pnoTomb n0) hpv hpn e1) n hW
  refine ⟨p, _, p1, e1, h1, fun ops ops' hv hr hc hg => ?_⟩
  have happ : ∀ i, addsTo P.C.key (subOf P) i (ops ++ ops') = addsTo P.C.key (subOf P) i ops + addsTo P.C.key (subOf P) i ops' := by
    intro i; unfold addsTo; rw [List.flatMap_append, List.countP_append]
  obtain ⟨p2, rs, l2, f1, f2, f3⟩ := prun_room h ops h2 (fun o ho => hv o (List.mem_append_left _ ho))
    (fun o ho => hr o (List.mem_append_left _ ho)) hc (fun i t ht => by
      have a1 := hg i
      have a2 := happ i
      have a3 := h3 i t ht
      show addsTo P.C.key (subOf P) i ops ≤ _
      omega)
  obtain ⟨p3, e3, e4⟩ := prun_sim h ops' f2 (fun o ho => hv o (List.mem_append_right _ ho))
  refine ⟨p2, rs, p3, _, f1, e3, ?_⟩
  rintro k ⟨i, pos⟩ hl hk
  obtain ⟨e, t2, g1, g2⟩ := locate_inv h.cfgOk f2 hl
  have hi : i < p1.sets.length := by
    rw [h2.len, ← f2.len]; exact (List.getElem?_eq_some_iff.1 g1).1
  obtain ⟨t', k1, k2⟩ := f3 i _ (List.getElem?_eq_getElem hi)
  rw [g1] at k1; cases k1
  have a1 := hg i
  have a2 := happ i
  have a3 := h3 i _ (List.getElem?_eq_getElem hi)
  have a4 : p1.sets[i].growthLeft ≤ t2.growthLeft + addsTo P.C.key (subOf P) i ops := k2.2
  obtain ⟨q, rs2, l3, t3, m1, m2, m3, m4, m5⟩ := prun_stay h ops' f2 (fun o ho => hv o (List.mem_append_right _ ho)) hk
    (fun o ho => hr o (List.mem_append_right _ ho)) g1 (by
      show addsTo P.C.key (subOf P) i ops' ≤ _
      omega) g2
  rw [e3] at m1
  cases m1
  subst e
  exact locate_of_holds h.cfgOk m2 m3 m5

/-! ## Concrete cases -/

/-- The buckets after a history and `reserve(n)`, and after inserting more keys. -/
def usedBeforeAfter (P : PCfg (Nat × Nat) Nat) (pre : List (POp (Nat × Nat) Nat)) (n : Nat) (ks : List Nat) :
    Res (List Nat × List Nat) := do
  let r0 ← prun P (PTbl.withBuckets P 0) pre
  let p1 ← r0.1.reserve P n
  let r ← prun P p1 (insertKeys ks)
  .ok (buckets p1, buckets r.1)

/-- Ten elements first, then room for 28 of which 18 are new: no submap is resized. Without `reserve` both are. -/
example : usedBeforeAfter (exHalf (groupSse2 true)) (insertKeys (List.range 10)) 28 ((List.range 18).map (· + 10)) =
      .ok ([15, 15], [15, 15]) ∧
    usedBeforeAfter (exHalf (groupSse2 true)) (insertKeys (List.range 10)) 0 ((List.range 18).map (· + 10)) =
      .ok ([7, 7], [15, 15]) := by decide +kernel

/-- The hypotheses of the theorems are met: ten elements first, then eighteen more, fourteen in each of two submaps. -/
example : (∀ op ∈ insertKeys (List.range 10), op.Valid (exHalf (groupSse2 true)).C.key (2 ^ (exHalf (groupSse2 true)).N)) ∧
    (∀ op ∈ insertKeys (List.range 10), PNonErasing op) ∧
    (∀ i, addsTo (exHalf (groupSse2 true)).C.key (subOf (exHalf (groupSse2 true))) i (insertKeys ((List.range 18).map (· + 10))) = 0 ∨
      (specPrun (exHalf (groupSse2 true)).C.key (exHalf (groupSse2 true)).C.eqv [] (insertKeys (List.range 10))).1.countP
          (fun a => subOf (exHalf (groupSse2 true)) ((exHalf (groupSse2 true)).C.key a) == i) +
        addsTo (exHalf (groupSse2 true)).C.key (subOf (exHalf (groupSse2 true))) i (insertKeys ((List.range 18).map (· + 10))) ≤
      28 / 2 ^ (exHalf (groupSse2 true)).N) := by
  refine ⟨(insertKeys_ok _).1, ?_, ?_⟩
  · intro op ho
    obtain ⟨k, _, rfl⟩ := List.mem_map.1 ho
    trivial
  · intro i
    rcases i with _ | _ | i
    · exact .inr (by decide +kernel)
    · exact .inr (by decide +kernel)
    · left
      unfold addsTo
      rw [List.countP_eq_zero]
      intro k _
      have := subidx_lt 1 ((exHalf (groupSse2 true)).C.hash k)
      have hN : (exHalf (groupSse2 true)).N = 1 := rfl
      unfold subOf
      rw [hN]
      simp
      omega

/-- Two submaps; all keys belong to the first. Keys below 50 are looked for from the first bucket on, others from the
ninth. -/
def exLow : PCfg (Nat × Nat) Nat where
  C := { exCfg groupPortable with hash := fun k => if k % 100 < 50 then 0 else 1024 }
  N := 1
  mtx := .null

theorem exLow_contract : Contract exLow.C where
  refl := (exCfg_contract (.inr (.inr rfl))).refl
  symm := (exCfg_contract (.inr (.inr rfl))).symm
  trans := (exCfg_contract (.inr (.inr rfl))).trans
  hash_congr k l h := by
    have h' : exEqv k l = true := h
    simp only [exEqv, beq_iff_eq] at h'
    show (if k % 100 < 50 then 0 else 1024) = (if l % 100 < 50 then 0 else 1024)
    rw [h']
  group := .inr (.inr rfl)

/-- Fourteen elements, then one is erased. -/
def eraseOne : List (POp (Nat × Nat) Nat) := insertKeys (List.range 14) ++ [.base (.erase 3)]

theorem eraseOne_grows : usedBeforeAfter exLow eraseOne 28 [50] = .ok ([15, 15], [31, 15]) := by decide +kernel

/-- **Refutation.** This fails if something was erased before: erased elements can still take up room after `reserve`,
so that a submap is resized although `reserve` made it large enough for all the elements it ever has. -/
theorem C102_erased_refuted :
    ¬ (∀ (P : PCfg (Nat × Nat) Nat) (pre : List (POp (Nat × Nat) Nat)) (n : Nat) (ks : List Nat) (b c : List Nat),
      Contract P.C → (P.C.G.W = 16 ∨ n / 2 ^ P.N ≠ 7) →
      (∀ i, (specPrun P.C.key P.C.eqv [] pre).1.countP (fun a => subOf P (P.C.key a) == i) +
        ks.countP (fun k => subOf P k == i) ≤ n / 2 ^ P.N) →
      usedBeforeAfter P pre n ks = .ok (b, c) → c = b) := by
  intro H
  have := H exLow eraseOne 28 [50] _ _ exLow_contract (.inr (by decide)) (by
    intro i
    have hl : (specPrun exLow.C.key exLow.C.eqv [] eraseOne).1.length = 13 := by decide +kernel
    have h1 := List.countP_le_length (p := fun a => subOf exLow (exLow.C.key a) == i)
      (l := (specPrun exLow.C.key exLow.C.eqv [] eraseOne).1)
    have h2 := List.countP_le_length (p := fun k => subOf exLow k == i) (l := [50])
    have h3 : 28 / 2 ^ exLow.N = 14 := by decide
    simp only [List.length_cons, List.length_nil] at h2
    omega) eraseOne_grows
  simp at this

end Gtl.Props.Parallel
