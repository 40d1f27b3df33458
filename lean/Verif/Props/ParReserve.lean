import Verif.Props.ParRefs
import Verif.Parallel.Room
/-!
# Property theorems C102: `reserve` of the parallel hash containers
-/

namespace Gtl.Props.Parallel

open Gtl.Swiss Gtl.Parallel
open Gtl.Spec (Op POp WOp PWOp Resp PKeeps addsTo)
open Gtl.Props.Hash (Contract exEqv exCfg exCfg_contract)

variable {α κ : Type}

/-- The number of buckets of each submap; `bucket_count()` is their sum. -/
def buckets (p : PTbl α) : List Nat := p.sets.map Tbl.capacity

/-! ## Glue -/

theorem prun_room {P : PCfg α κ} (h : Contract P.C) : ∀ (ops : List (POp α κ)) {p : PTbl α} {l : List α},
    PSim P p l → (∀ op ∈ ops, op.Valid P.C.key (2 ^ P.N)) → (∀ op ∈ ops, ¬ op.Resizes) → POp.base Op.clear ∉ ops →
    (∀ (i : Nat) t, p.sets[i]? = some t → addsTo P.C.key (kidx P) i ops ≤ t.growthLeft) →
    ∃ p' rs l', prun P p ops = .ok (p', rs) ∧ PSim P p' l' ∧
      ∀ (i : Nat) t, p.sets[i]? = some t → ∃ t', p'.sets[i]? = some t' ∧ Room (addsTo P.C.key (kidx P) i ops) t t'
  | [], p, l, hs, _, _, _, _ => ⟨p, [], l, rfl, hs, fun i t ht => ⟨t, ht, Room.refl _ _⟩⟩
  | op :: ops, p, l, hs, hv, hr, hc, hg => by
    obtain ⟨p1, h1, h2⟩ := pstep_sim h.cfgOk hs op (hv op List.mem_cons_self)
    have hstep : ∀ (i : Nat) t, p.sets[i]? = some t →
        ∃ t', p1.sets[i]? = some t' ∧ Room (addsTo P.C.key (kidx P) i [op]) t t' := by
      intro i t ht
      have := hg i t ht
      rw [addsTo_cons] at this
      exact pstep_room h.cfgOk hs (hr op List.mem_cons_self) (fun e => hc (by rw [← e]; exact List.mem_cons_self)) ht
        (by omega) h1
    have hg1 : ∀ (i : Nat) t1, p1.sets[i]? = some t1 → addsTo P.C.key (kidx P) i ops ≤ t1.growthLeft := by
      intro i t1 ht1
      have hi : i < p.sets.length := by
        rw [hs.len, ← h2.len]; exact (List.getElem?_eq_some_iff.1 ht1).1
      have ht := List.getElem?_eq_getElem hi
      obtain ⟨t', g1, g2⟩ := hstep i _ ht
      rw [ht1] at g1; cases g1
      have := hg i _ ht
      rw [addsTo_cons] at this
      have := g2.2
      omega
    obtain ⟨p2, rs, l2, f1, f2, f3⟩ := prun_room h ops h2 (fun o ho => hv o (List.mem_cons_of_mem _ ho))
      (fun o ho => hr o (List.mem_cons_of_mem _ ho)) (fun ho => hc (List.mem_cons_of_mem _ ho)) hg1
    refine ⟨p2, _, l2, by simp only [prun, h1, f1, Res.ok_bind]; rfl, f2, fun i t ht => ?_⟩
    obtain ⟨t1, g1, g2⟩ := hstep i t ht
    obtain ⟨t2, g3, g4⟩ := f3 i t1 g1
    exact ⟨t2, g3, by rw [addsTo_cons]; exact g2.trans g4⟩

theorem reserve_room {P : PCfg α κ} (h : Contract P.C) (n0 n : Nat) (hW : P.C.G.W = 16 ∨ n / 2 ^ P.N ≠ 7) :
    ∃ p1, (PTbl.withBuckets P n0 : PTbl α).reserve P n = .ok p1 ∧ PSim P p1 [] ∧
      ∀ (i : Nat) t, p1.sets[i]? = some t → n / 2 ^ P.N ≤ t.growthLeft := by
  obtain ⟨p1, h1, h2⟩ := reserve_psim h.cfgOk (withBuckets_psim (P := P) (α := α) h.cfgOk.group n0) n
  refine ⟨p1, h1, h2, fun i t ht => ?_⟩
  unfold PTbl.reserve PTbl.rehash at h1
  dsimp only at h1
  obtain ⟨ts, h3, h1⟩ := Res.bind_eq_ok.1 h1
  cases h1
  have hi : i < 2 ^ P.N := by rw [← h2.len]; exact (List.getElem?_eq_some_iff.1 ht).1
  have hw : (PTbl.withBuckets P n0 : PTbl α).sets[i]? = some (Tbl.withBuckets P.C n0) := by
    unfold PTbl.withBuckets
    simp [hi]
  obtain ⟨t', g1, g2⟩ := mapRes_get _ _ h3 i _ hw
  rw [show ts[i]? = some t from ht] at g1; cases g1
  obtain ⟨c0, hi0, he0⟩ := withBuckets_inv (α := α) (κ := κ) h.cfgOk.group n0
  have hne : (if 2 ^ P.N * normalizeCapacity (n / 2 ^ P.N) > growthToLowerboundCapacity P.C.G.W n then
      2 ^ P.N * normalizeCapacity (n / 2 ^ P.N) else growthToLowerboundCapacity P.C.G.W n) / 2 ^ P.N ≠ 0 := by
    have h1 : 2 ^ P.N ≤ 2 ^ P.N * normalizeCapacity (n / 2 ^ P.N) := Nat.le_mul_of_pos_right _ (normalizeCapacity_pos _)
    have := Nat.div_pos (a := if 2 ^ P.N * normalizeCapacity (n / 2 ^ P.N) > growthToLowerboundCapacity P.C.G.W n then
      2 ^ P.N * normalizeCapacity (n / 2 ^ P.N) else growthToLowerboundCapacity P.C.G.W n) (b := 2 ^ P.N)
      (by split <;> omega) (Nat.two_pow_pos _)
    omega
  obtain ⟨t1, c1, r1, r2, r3, r4, r5, r6⟩ := rehash_spec h.cfgOk hi0 _ (.inl hne)
  rw [r1] at g2; cases g2
  have hT : NoTomb P.C t := r6 (withBuckets_noTomb n0)
  have hsz : t.size = 0 := by
    rw [r2.size_eq, r3.length_eq, he0]; rfl
  have := reserve_share (Nat.two_pow_pos P.N) hW r4 r2.core.raw.pow
  unfold NoTomb at hT
  omega

/-! ## C102: no submap is resized -/

/-- After `reserve(n)` on a new container with `2^N` submaps, a history that adds at most `n / 2^N` elements to each
submap (and may erase what it likes) resizes none of them. With the portable groups of 8 control bytes, the one case
`n / 2^N = 7` is excluded, see `C102_balanced_refuted`. -/
theorem C102_no_resize_partial {P : PCfg α κ} (h : Contract P.C) (n0 n : Nat) (hW : P.C.G.W = 16 ∨ n / 2 ^ P.N ≠ 7) :
    ∃ p1, (PTbl.withBuckets P n0 : PTbl α).reserve P n = .ok p1 ∧
      ∀ ops : List (POp α κ), (∀ op ∈ ops, op.Valid P.C.key (2 ^ P.N)) → (∀ op ∈ ops, ¬ op.Resizes) →
        POp.base Op.clear ∉ ops → (∀ i, addsTo P.C.key (subOf P) i ops ≤ n / 2 ^ P.N) →
        ∃ p2 rs, prun P p1 ops = .ok (p2, rs) ∧ buckets p2 = buckets p1 := by
  obtain ⟨p1, h1, h2, h3⟩ := reserve_room (α := α) h n0 n hW
  refine ⟨p1, h1, fun ops hv hr hc hg => ?_⟩
  obtain ⟨p2, rs, l2, f1, f2, f3⟩ := prun_room h ops h2 hv hr hc (fun i t ht => Nat.le_trans (hg i) (h3 i t ht))
  refine ⟨p2, rs, f1, ?_⟩
  unfold buckets
  apply List.ext_getElem?
  intro i
  rw [List.getElem?_map, List.getElem?_map]
  cases ht : p1.sets[i]? with
  | none =>
    rw [List.getElem?_eq_none_iff] at ht
    rw [List.getElem?_eq_none (by rw [f2.len, ← h2.len]; exact ht)]
  | some t =>
    obtain ⟨t', g1, g2⟩ := f3 i t ht
    rw [g1, Option.map_some, Option.map_some, g2.1]

/-- And iterators stay valid all the time: whatever `find(k)` returns at some moment of such a history, it returns at every
later moment at which the element was not removed in between. -/
theorem C102_iterators_partial {P : PCfg α κ} (h : Contract P.C) (n0 n : Nat) (hW : P.C.G.W = 16 ∨ n / 2 ^ P.N ≠ 7) :
    ∃ p1, (PTbl.withBuckets P n0 : PTbl α).reserve P n = .ok p1 ∧
      ∀ ops ops' : List (POp α κ), (∀ op ∈ ops ++ ops', op.Valid P.C.key (2 ^ P.N)) → (∀ op ∈ ops ++ ops', ¬ op.Resizes) →
        POp.base Op.clear ∉ ops → (∀ i, addsTo P.C.key (subOf P) i (ops ++ ops') ≤ n / 2 ^ P.N) →
        ∃ p2 rs p3 rs', prun P p1 ops = .ok (p2, rs) ∧ prun P p2 ops' = .ok (p3, rs') ∧
          ∀ k it, p2.locate P k = .ok (some it) → (∀ op ∈ ops', PKeeps P.C.key P.C.eqv k op) →
            p3.locate P k = .ok (some it) := by
  obtain ⟨p1, h1, h2, h3⟩ := reserve_room (α := α) h n0 n hW
  refine ⟨p1, h1, fun ops ops' hv hr hc hg => ?_⟩
  have happ : ∀ i, addsTo P.C.key (subOf P) i (ops ++ ops') = addsTo P.C.key (subOf P) i ops + addsTo P.C.key (subOf P) i ops' := by
    intro i; unfold addsTo; rw [List.flatMap_append, List.countP_append]
  obtain ⟨p2, rs, l2, f1, f2, f3⟩ := prun_room h ops h2 (fun o ho => hv o (List.mem_append_left _ ho))
    (fun o ho => hr o (List.mem_append_left _ ho)) hc (fun i t ht => by
      have a1 := hg i
      have a2 := happ i
      have a3 := h3 i t ht
      show addsTo P.C.key (subOf P) i ops ≤ _
      omega)
  obtain ⟨p3, e1, e2⟩ := prun_sim h ops' f2 (fun o ho => hv o (List.mem_append_right _ ho))
  refine ⟨p2, rs, p3, _, f1, e1, ?_⟩
  rintro k ⟨i, pos⟩ hl hk
  obtain ⟨e, t2, g1, g2⟩ := locate_inv h.cfgOk f2 hl
  have hi : i < p1.sets.length := by
    rw [h2.len, ← f2.len]; exact (List.getElem?_eq_some_iff.1 g1).1
  obtain ⟨t', k1, k2⟩ := f3 i _ (List.getElem?_eq_getElem hi)
  rw [g1] at k1; cases k1
  have a1 := hg i
  have a2 := happ i
  have a3 := h3 i _ (List.getElem?_eq_getElem hi)
  have a4 : p1.sets[i].growthLeft ≤ t2.growthLeft + addsTo P.C.key (subOf P) i ops := k2.2
  obtain ⟨q, rs2, l3, t3, m1, m2, m3, m4, m5⟩ := prun_stay h ops' f2 (fun o ho => hv o (List.mem_append_right _ ho)) hk
    (fun o ho => hr o (List.mem_append_right _ ho)) g1 (by
      show addsTo P.C.key (subOf P) i ops' ≤ _
      omega) g2
  rw [e1] at m1
  cases m1
  subst e
  exact locate_of_holds h.cfgOk m2 m3 m5

/-! ## Concrete cases -/

/-- Two submaps; even keys belong to the first, odd keys to the second. -/
def exHalf (G : Group) : PCfg (Nat × Nat) Nat where
  C := { exCfg G with hash := fun k => (k % 100 % 2) * 256 }
  N := 1
  mtx := .null

theorem exHalf_contract {G : Group} (hG : G = groupSse2 true ∨ G = groupSse2 false ∨ G = groupPortable) :
    Contract (exHalf G).C where
  refl := (exCfg_contract hG).refl
  symm := (exCfg_contract hG).symm
  trans := (exCfg_contract hG).trans
  hash_congr k l h := by
    have h' : exEqv k l = true := h
    simp only [exEqv, beq_iff_eq] at h'
    show (k % 100 % 2) * 256 = (l % 100 % 2) * 256
    rw [h']
  group := hG

/-- Insert these keys. -/
def insertKeys (ks : List Nat) : List (POp (Nat × Nat) Nat) := ks.map (fun k => .base (.insert (k, 0)))

/-- The buckets after `reserve(n)` on a new container, and after inserting the keys. -/
def beforeAfter (P : PCfg (Nat × Nat) Nat) (n : Nat) (ks : List Nat) : Res (List Nat × List Nat) := do
  let p1 ← (PTbl.withBuckets P 0).reserve P n
  let r ← prun P p1 (insertKeys ks)
  .ok (buckets p1, buckets r.1)

theorem half_two : beforeAfter (exHalf (groupSse2 true)) 2 [0, 2] = .ok ([1, 1], [3, 1]) := by decide +kernel

theorem half_fourteen : beforeAfter (exHalf groupPortable) 14 (List.range 14) = .ok ([7, 7], [15, 15]) := by decide +kernel

theorem insertKeys_ok {P : PCfg (Nat × Nat) Nat} (ks : List Nat) :
    (∀ op ∈ insertKeys ks, op.Valid P.C.key (2 ^ P.N)) ∧ (∀ op ∈ insertKeys ks, ¬ op.Resizes) ∧
    POp.base Op.clear ∉ insertKeys ks := by
  unfold insertKeys
  refine ⟨?_, ?_, ?_⟩
  · intro op ho
    obtain ⟨k, _, rfl⟩ := List.mem_map.1 ho
    trivial
  · intro op ho
    obtain ⟨k, _, rfl⟩ := List.mem_map.1 ho
    exact fun h => h
  · intro ho
    obtain ⟨k, _, e⟩ := List.mem_map.1 ho
    cases e

theorem beforeAfter_inv {P : PCfg (Nat × Nat) Nat} {n : Nat} {ks : List Nat} {b c : List Nat}
    (h : beforeAfter P n ks = .ok (b, c)) : ∃ p1 p2 rs, (PTbl.withBuckets P 0).reserve P n = .ok p1 ∧
      prun P p1 (insertKeys ks) = .ok (p2, rs) ∧ buckets p1 = b ∧ buckets p2 = c := by
  unfold beforeAfter at h
  obtain ⟨p1, h1, h⟩ := Res.bind_eq_ok.1 h
  obtain ⟨⟨p2, rs⟩, h2, h⟩ := Res.bind_eq_ok.1 h
  cases h
  exact ⟨p1, p2, rs, h1, h2, rfl, rfl⟩

/-- **Refutation.** `reserve(n)` does not make room for `n` elements: they may belong to the same submap. (For ordinary
hash containers it does.) -/
theorem C102_reserve_refuted :
    ¬ (∀ (P : PCfg (Nat × Nat) Nat) (n : Nat) (p1 p2 : PTbl (Nat × Nat)) (ks : List Nat) (rs : List (Resp (Nat × Nat))),
      Contract P.C → ks.length ≤ n → (PTbl.withBuckets P 0).reserve P n = .ok p1 →
      prun P p1 (insertKeys ks) = .ok (p2, rs) → buckets p2 = buckets p1) := by
  intro H
  obtain ⟨p1, p2, rs, h1, h2, h3, h4⟩ := beforeAfter_inv half_two
  have := H (exHalf (groupSse2 true)) 2 p1 p2 [0, 2] rs (exHalf_contract (.inl rfl)) (by decide) h1 h2
  rw [h3, h4] at this
  simp at this

/-- **Refutation.** Not even for elements that are perfectly distributed over the submaps, with the portable groups:
after `reserve(14)` each of two submaps has 7 buckets and is resized when its 7th element is inserted. -/
theorem C102_balanced_refuted :
    ¬ (∀ (P : PCfg (Nat × Nat) Nat) (n : Nat) (p1 p2 : PTbl (Nat × Nat)) (ks : List Nat) (rs : List (Resp (Nat × Nat))),
      Contract P.C → (∀ i, ks.countP (fun k => subOf P k == i) ≤ n / 2 ^ P.N) → (PTbl.withBuckets P 0).reserve P n = .ok p1 →
      prun P p1 (insertKeys ks) = .ok (p2, rs) → buckets p2 = buckets p1) := by
  intro H
  obtain ⟨p1, p2, rs, h1, h2, h3, h4⟩ := beforeAfter_inv half_fourteen
  have := H (exHalf groupPortable) 14 p1 p2 (List.range 14) rs (exHalf_contract (.inr (.inr rfl))) (by
    intro i
    have h2 : (exHalf groupPortable).N = 1 := rfl
    rw [h2]
    rcases i with _ | _ | i
    · decide
    · decide
    · have : (List.range 14).countP (fun k => subOf (exHalf groupPortable) k == i + 2) = 0 := by
        rw [List.countP_eq_zero]
        intro k _
        have := subidx_lt 1 ((exHalf groupPortable).C.hash k)
        unfold subOf
        rw [h2]
        simp
        omega
      rw [this]
      omega) h1 h2
  rw [h3, h4] at this
  simp at this

/-- The hypotheses of the theorems are met: 28 reserved elements, 14 in each of two submaps. -/
example : Contract (exHalf (groupSse2 true)).C ∧ (exHalf (groupSse2 true)).C.G.W = 16 ∧
    (∀ op ∈ insertKeys (List.range 28), op.Valid (exHalf (groupSse2 true)).C.key (2 ^ (exHalf (groupSse2 true)).N)) ∧
    (∀ op ∈ insertKeys (List.range 28), ¬ op.Resizes) ∧ POp.base Op.clear ∉ insertKeys (List.range 28) ∧
    (∀ i, addsTo (exHalf (groupSse2 true)).C.key (subOf (exHalf (groupSse2 true))) i (insertKeys (List.range 28)) ≤
      28 / 2 ^ (exHalf (groupSse2 true)).N) ∧
    addsTo (exHalf (groupSse2 true)).C.key (subOf (exHalf (groupSse2 true))) 1 (insertKeys (List.range 28)) = 14 := by
  obtain ⟨h1, h2, h3⟩ := insertKeys_ok (P := exHalf (groupSse2 true)) (List.range 28)
  refine ⟨exHalf_contract (.inl rfl), rfl, h1, h2, h3, ?_, by decide +kernel⟩
  intro i
  have hN : (exHalf (groupSse2 true)).N = 1 := rfl
  rw [hN]
  rcases i with _ | _ | i
  · decide +kernel
  · decide +kernel
  · have : addsTo (exHalf (groupSse2 true)).C.key (subOf (exHalf (groupSse2 true))) (i + 2) (insertKeys (List.range 28)) = 0 := by
      unfold addsTo
      rw [List.countP_eq_zero]
      intro k _
      have := subidx_lt 1 ((exHalf (groupSse2 true)).C.hash k)
      unfold subOf
      rw [hN]
      simp
      omega
    rw [this]
    omega

end Gtl.Props.Parallel
