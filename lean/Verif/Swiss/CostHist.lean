import Verif.Swiss.CostSim
/-! Every operation is paid for; histories. -/

namespace Gtl.Swiss
variable {α κ : Type}

open Tbl Spec

theorem Paid.trans {C : Cfg α κ} {t t1 t2 : Tbl α} {w1 w2 : Work} {k1 a1 r1 k2 a2 r2 : Nat}
    (h1 : Paid C t t1 w1 k1 a1 r1) (h2 : Paid C t1 t2 w2 k2 a2 r2) :
    Paid C t t2 (w1 + w2) (k1 + k2) (a1 + a2) (r1 + r2) := by
  obtain ⟨p1, p2, p3⟩ := h1
  obtain ⟨q1, q2, q3⟩ := h2
  refine ⟨?_, ?_, ?_⟩ <;> simp only [Work.add_hashes, Work.add_moves, Work.add_scans] <;> omega

theorem Paid.idle {C : Cfg α κ} {t t' : Tbl α} (h : Phi C t' ≤ Phi C t) (a r : Nat) : Paid C t t' Work.none 0 a r := by
  refine ⟨?_, ?_, ?_⟩ <;> simp only [Work.none_hashes, Work.none_moves, Work.none_scans] <;> omega

theorem Paid.hash {C : Cfg α κ} {t t' : Tbl α} (h : Phi C t' ≤ Phi C t) (a r : Nat) : Paid C t t' Work.hash 1 a r := by
  refine ⟨?_, ?_, ?_⟩ <;> simp only [Work.hash_hashes, Work.hash_moves, Work.hash_scans] <;> omega

theorem Paid.andHash {C : Cfg α κ} {t t' : Tbl α} {w : Work} {a r : Nat} (h : Paid C t t' w 0 a r) :
    Paid C t t' (Work.hash + w) 1 a r := by
  obtain ⟨p1, p2, p3⟩ := h
  refine ⟨?_, ?_, ?_⟩ <;> simp only [Work.add_hashes, Work.add_moves, Work.add_scans, Work.hash_hashes, Work.hash_moves,
    Work.hash_scans] <;> omega

theorem Paid.congr {C : Cfg α κ} {t t' t'' : Tbl α} {w : Work} {k a r : Nat} (h : Paid C t t' w k a r)
    (h' : Phi C t'' ≤ Phi C t') : Paid C t t'' w k a r := by
  obtain ⟨p1, p2, p3⟩ := h
  exact ⟨by omega, by omega, by omega⟩

/-! ### Insertion -/

theorem placeW_of {C : Cfg α κ} (hC : CfgOk C) {t : Tbl α} {c : List Ctrl} (h : Inv C t c) {hv : Nat} {a : α}
    {r : Tbl α × Nat} {t1 t2 : Tbl α} (h1 : t.prepareInsert C hv = .ok r) (h2 : r.1.constructSlot r.2 a = .ok t1)
    (h3 : t1.setCtrl C.G.W r.2 (H2 hv) = .ok t2) :
    ∃ w, t.placeW C hv a = .ok ((t2, r.2), w) ∧ Paid C t t2 w 0 1 0 := by
  obtain ⟨w, k1, k2⟩ := prepareInsertW_of hC h h1
  obtain ⟨_, e2, e3, _⟩ := construct_frame h2
  obtain ⟨f1, f2, _⟩ := set_frame h3
  refine ⟨w, ?_, k2.congr (Nat.le_of_eq (phi_congr (by rw [f1, e2]) (by rw [f2, e3])))⟩
  unfold placeW
  rw [k1]; simp only [Res.ok_bind]
  rw [h2]; simp only [Res.ok_bind]
  rw [h3]; simp only [Res.ok_bind]

theorem emplaceW_of {C : Cfg α κ} (hC : CfgOk C) {t : Tbl α} {c : List Ctrl} (h : Inv C t c) {a : α}
    {t' : Tbl α} {i : Nat} {ins : Bool} (hr : t.emplace C a = .ok (t', i, ins)) :
    ∃ w, t.emplaceW C a = .ok ((t', i, ins), w) ∧ Paid C t t' w 1 (if ins then 1 else 0) 0 := by
  unfold emplace emplaceHash at hr
  unfold emplaceW
  rw [Res.bind_eq_ok] at hr
  obtain ⟨o, h1, hr⟩ := hr
  rw [h1]; simp only [Res.ok_bind]
  cases o with
  | some off =>
    cases hr
    exact ⟨_, rfl, Paid.hash (Nat.le_refl _) _ _⟩
  | none =>
    simp only at hr ⊢
    rw [Res.bind_eq_ok] at hr
    obtain ⟨⟨t1, off⟩, h2, hr⟩ := hr
    simp only at hr
    rw [Res.bind_eq_ok] at hr
    obtain ⟨t2, h3, hr⟩ := hr
    rw [Res.bind_eq_ok] at hr
    obtain ⟨t3, h4, hr⟩ := hr
    cases hr
    obtain ⟨w, k1, k2⟩ := placeW_of hC h h2 h3 h4
    rw [k1]; simp only [Res.ok_bind]
    exact ⟨_, rfl, k2.andHash⟩

theorem assign_frame {t t' : Tbl α} {i : Nat} {f : α → α} (h : t.assignAt i f = .ok t') :
    t'.capacity = t.capacity ∧ t'.growthLeft = t.growthLeft := by
  unfold assignAt at h
  rw [Res.bind_eq_ok] at h
  obtain ⟨a, _, h⟩ := h
  cases h
  exact ⟨rfl, rfl⟩

theorem insertOrAssignW_of {C : Cfg α κ} (hC : CfgOk C) {t : Tbl α} {c : List Ctrl} (h : Inv C t c) {a : α} {f : α → α}
    {t' : Tbl α} {i : Nat} {ins : Bool} (hr : t.insertOrAssign C a f = .ok (t', i, ins)) :
    ∃ w, t.insertOrAssignW C a f = .ok ((t', i, ins), w) ∧ Paid C t t' w 1 (if ins then 1 else 0) 0 := by
  unfold insertOrAssign at hr
  simp only at hr
  unfold insertOrAssignW
  rw [Res.bind_eq_ok] at hr
  obtain ⟨o, h1, hr⟩ := hr
  rw [h1]; simp only [Res.ok_bind]
  cases o with
  | some off =>
    simp only at hr ⊢
    rw [Res.bind_eq_ok] at hr
    obtain ⟨t1, h2, hr⟩ := hr
    cases hr
    rw [h2]; simp only [Res.ok_bind]
    obtain ⟨e1, e2⟩ := assign_frame h2
    exact ⟨_, rfl, Paid.hash (Nat.le_of_eq (phi_congr e1 e2)) _ _⟩
  | none =>
    simp only at hr ⊢
    rw [Res.bind_eq_ok] at hr
    obtain ⟨⟨t1, off⟩, h2, hr⟩ := hr
    simp only at hr
    rw [Res.bind_eq_ok] at hr
    obtain ⟨t2, h3, hr⟩ := hr
    rw [Res.bind_eq_ok] at hr
    obtain ⟨t3, h4, hr⟩ := hr
    cases hr
    obtain ⟨w, k1, k2⟩ := placeW_of hC h h2 h3 h4
    rw [k1]; simp only [Res.ok_bind]
    exact ⟨_, rfl, k2.andHash⟩

theorem eraseMeta_mono {C : Cfg α κ} {t t' : Tbl α} {i : Nat} (h : t.eraseMetaOnly C i = .ok t') :
    Phi C t' ≤ Phi C t := by
  unfold eraseMetaOnly at h
  simp only at h
  rw [Res.bind_eq_ok] at h
  obtain ⟨ga, _, h⟩ := h
  rw [Res.bind_eq_ok] at h
  obtain ⟨gb, _, h⟩ := h
  rw [Res.bind_eq_ok] at h
  obtain ⟨t1, h1, h⟩ := h
  cases h
  obtain ⟨e1, e2, _⟩ := set_frame h1
  simp only at e1 e2
  refine phi_mono e1 ?_
  simp only
  omega

theorem eraseAt_mono {C : Cfg α κ} {t t' : Tbl α} {i : Nat} (h : t.eraseAt C i = .ok t') : Phi C t' ≤ Phi C t := by
  unfold eraseAt at h
  rw [Res.bind_eq_ok] at h
  obtain ⟨t1, h1, h⟩ := h
  obtain ⟨_, e1, e2, _⟩ := destroy_frame h1
  have := eraseMeta_mono h
  rw [phi_congr e1 e2] at this
  exact this

theorem emplaceSingleW_of {C : Cfg α κ} (hC : CfgOk C) {t : Tbl α} {c : List Ctrl} (h : Inv C t c) {a : α} {t' : Tbl α}
    (hr : t.emplaceSingle C (C.key a) (C.hash (C.key a)) (fun _ => a) = .ok t') :
    ∃ w, t.emplaceSingleW C a = .ok (t', w) ∧
      Paid C t t' w 1 (if (t.findHash C (C.key a) (C.hash (C.key a)) = .ok none) then 1 else 0) 0 := by
  unfold emplaceSingle at hr
  unfold emplaceSingleW
  rw [Res.bind_eq_ok] at hr
  obtain ⟨o, h1, hr⟩ := hr
  rw [h1]; simp only [Res.ok_bind]
  cases o with
  | some off =>
    simp only at hr ⊢
    rw [hr]; simp only [Res.ok_bind]
    exact ⟨_, rfl, Paid.hash (eraseAt_mono hr) _ _⟩
  | none =>
    simp only at hr ⊢
    rw [Res.bind_eq_ok] at hr
    obtain ⟨⟨t1, off⟩, h2, hr⟩ := hr
    simp only at hr
    rw [Res.bind_eq_ok] at hr
    obtain ⟨t2, h3, h4⟩ := hr
    obtain ⟨w, k1, k2⟩ := placeW_of hC h h2 h3 h4
    rw [k1]; simp only [Res.ok_bind]
    exact ⟨_, rfl, k2.andHash⟩

/-! ### Reserving -/

theorem normalizeCapacity_le {x cap : Nat} (hp : ∃ k, cap + 1 = 2 ^ k) (h0 : x ≠ 0) (h : x ≤ cap) :
    normalizeCapacity x ≤ cap := by
  obtain ⟨k, hk⟩ := hp
  unfold normalizeCapacity
  rw [if_neg h0]
  have : x.log2 < k := (Nat.log2_lt h0).2 (by omega)
  have := Nat.pow_le_pow_right (n := 2) (by omega) (show x.log2 + 1 ≤ k by omega)
  omega

/-- What fits without growing does not make `reserve` grow the table. -/
theorem lowerbound_le {W m cap : Nat} (hp : ∃ k, cap + 1 = 2 ^ k) (h : m ≤ capacityToGrowth W cap) :
    growthToLowerboundCapacity W m ≤ cap := by
  obtain ⟨k, hk⟩ := hp
  have h8 : k ≤ 2 ∨ ∃ q, cap + 1 = 8 * q := by
    by_cases hk2 : k ≤ 2
    · exact .inl hk2
    · right
      obtain ⟨j, rfl⟩ : ∃ j, k = 3 + j := ⟨k - 3, by omega⟩
      exact ⟨2 ^ j, by rw [hk, Nat.pow_add]⟩
  have hs : k ≤ 2 → cap ≤ 3 := by
    intro hk2
    have := Nat.pow_le_pow_right (n := 2) (by omega) hk2
    omega
  unfold capacityToGrowth at h
  unfold growthToLowerboundCapacity
  rcases h8 with h8 | ⟨q, hq⟩
  · have := hs h8
    split at h <;> split <;> omega
  · split at h <;> split <;> omega

theorem rehashW_of {C : Cfg α κ} (hC : CfgOk C) {t : Tbl α} {c : List Ctrl} (h : Inv C t c) {n m : Nat} {t' : Tbl α}
    (hn : n ≠ 0 ∨ t.size = 0) (hm : n > t.capacity → capacityToGrowth C.G.W t.capacity < m)
    (hr : t.rehash C n = .ok t') :
    ∃ w, t.rehashW C n = .ok (t', w) ∧ Paid C t t' w 0 0 (m - t.size) := by
  have hgr := h.growth
  have hse := h.size_eq
  unfold rehash at hr
  unfold rehashW
  by_cases h1 : n = 0 ∧ t.capacity = 0
  · rw [if_pos h1] at hr ⊢
    cases hr
    exact ⟨_, rfl, Paid.idle (Nat.le_refl _) _ _⟩
  rw [if_neg h1] at hr ⊢
  by_cases h2 : n = 0 ∧ t.size = 0
  · rw [if_pos h2] at hr ⊢
    rw [hr]; simp only [Res.ok_bind]
    refine ⟨_, rfl, Paid.idle ?_ _ _⟩
    obtain ⟨u, d1, d2⟩ := destroySlots_spec hC h.core
    rw [hr] at d1; cases d1
    rcases d2 with ⟨_, rfl⟩ | rfl
    · exact Nat.le_refl _
    · have : Phi C (empty : Tbl α) = 0 := by
        unfold Phi
        show 2 * (capacityToGrowth C.G.W 0 - 0) - capacityToGrowth C.G.W 0 = 0
        have := capacityToGrowth_le C.G.W 0
        omega
      omega
  rw [if_neg h2] at hr ⊢
  have hn0 : n ≠ 0 := by
    rcases hn with hn | hn
    · exact hn
    · exact fun e => h2 ⟨e, hn⟩
  simp only at hr ⊢
  by_cases h3 : n = 0 ∨ normalizeCapacity (max n t.size) > t.capacity
  swap
  · rw [if_neg h3] at hr ⊢
    cases hr
    exact ⟨_, rfl, Paid.idle (Nat.le_refl _) _ _⟩
  rw [if_pos h3] at hr ⊢
  have hgt : normalizeCapacity (max n t.size) > t.capacity := by
    rcases h3 with hh | hh
    · exact absurd hh hn0
    · exact hh
  have hgl := capacityToGrowth_le C.G.W t.capacity
  have hnc : n > t.capacity := by
    by_contra hcon
    have := normalizeCapacity_le h.core.raw.pow (x := max n t.size) (by omega) (by omega)
    omega
  have hm := hm hnc
  obtain ⟨k, _, hk⟩ := normalizeCapacity_pow (max n t.size)
  have hjump := pow_jump h.core.raw.pow ⟨k, hk⟩ hgt
  have htw := growth_twice C.G.W _ _ hjump
  obtain ⟨t1, c', r1, r2, r3, r4, r5, r6, r7⟩ := resize_inv hC h ⟨k, hk⟩ (by omega)
  rw [hr] at r1; cases r1
  obtain ⟨w, k1, k2, k3, k4⟩ := resizeW_of hC h.core hr
  have hcap := cap_le_growth C.G.W t.capacity
  have hphi : Phi C t' = 0 := by unfold Phi; rw [r4, r6]; omega
  have hphi0 : 2 * t.size - capacityToGrowth C.G.W t.capacity ≤ Phi C t := by unfold Phi; omega
  refine ⟨w, k1, ?_, ?_, ?_⟩ <;> rw [hphi] <;> omega

theorem reserveW_of {C : Cfg α κ} (hC : CfgOk C) {t : Tbl α} {c : List Ctrl} (h : Inv C t c) {n : Nat} {t' : Tbl α}
    (hn : n ≠ 0 ∨ t.size = 0) (hr : t.reserve C n = .ok t') :
    ∃ w, t.reserveW C n = .ok (t', w) ∧ Paid C t t' w 0 0 (n - t.size) := by
  unfold reserve at hr
  refine rehashW_of hC h (m := n) ?_ ?_ hr
  · rcases hn with hn | hn
    · left
      unfold growthToLowerboundCapacity
      split <;> omega
    · exact .inr hn
  · intro hgt
    by_contra hcon
    have := lowerbound_le h.core.raw.pow (W := C.G.W) (m := n) (by omega)
    omega

/-! ### Ranges -/

theorem length_insert {C : Cfg α κ} (l : List α) (a : α) :
    (Spec.insert C.key C.eqv l a).length = l.length + (if Spec.lookup C.key C.eqv l (C.key a) = none then 1 else 0) := by
  unfold Spec.insert
  split
  · rename_i e; simp [e]
  · rename_i e; simp [e]

theorem insertAllW_of {C : Cfg α κ} (hC : CfgOk C) : ∀ (vs : List α) {t t' : Tbl α} {l : List α}, Sim C t l →
    vs.foldlM (fun t v => do
      let (t, _, _) ← t.emplace C v
      Res.ok t) t = .ok t' →
    ∃ w, insertAllW C vs t = .ok (t', w) ∧ l.length ≤ (vs.foldl (Spec.insert C.key C.eqv) l).length ∧
      Paid C t t' w vs.length ((vs.foldl (Spec.insert C.key C.eqv) l).length - l.length) 0
  | [], t, t', l, h, hr => by
    cases hr
    exact ⟨_, rfl, Nat.le_refl _, Paid.idle (Nat.le_refl _) _ _⟩
  | v :: vs, t, t', l, h, hr => by
    rw [List.foldlM_cons] at hr
    have hi := h
    obtain ⟨⟨c, hi⟩, _⟩ := hi
    have key : ∃ t1 i ins, t.emplace C v = .ok (t1, i, ins) ∧ Sim C t1 (Spec.insert C.key C.eqv l v) ∧
        (Spec.insert C.key C.eqv l v).length = l.length + (if ins then 1 else 0) := by
      rcases emplace_sim hC h v with ⟨i, b, h1, h2, h3, h4, h5⟩ | ⟨t1, i, h1, h2, h3, h4⟩
      · refine ⟨t, i, false, h1, ?_, ?_⟩
        · unfold Spec.insert; rw [h5]; exact h
        · rw [length_insert, h5]; rfl
      · refine ⟨t1, i, true, h1, ?_, ?_⟩
        · unfold Spec.insert; rw [h4]; exact h3
        · rw [length_insert, h4]; rfl
    obtain ⟨t1, i, ins, h1, h2, h3⟩ := key
    rw [h1] at hr
    have hr : vs.foldlM (fun t v => do
      let (t, _, _) ← t.emplace C v
      Res.ok t) t1 = .ok t' := hr
    obtain ⟨w1, k1, k2⟩ := emplaceW_of hC hi h1
    obtain ⟨w2, g1, g2, g3⟩ := insertAllW_of hC vs h2 hr
    refine ⟨w1 + w2, ?_, ?_, ?_⟩
    · unfold insertAllW
      rw [k1]; simp only [Res.ok_bind]
      rw [g1]; simp only [Res.ok_bind]
    · rw [List.foldl_cons]; omega
    · have := k2.trans g3
      rw [List.foldl_cons, List.length_cons]
      have e1 : 1 + vs.length = vs.length + 1 := by omega
      have e2 : (if ins then 1 else 0) + ((vs.foldl (Spec.insert C.key C.eqv) (Spec.insert C.key C.eqv l v)).length -
          (Spec.insert C.key C.eqv l v).length) =
          (vs.foldl (Spec.insert C.key C.eqv) (Spec.insert C.key C.eqv l v)).length - l.length := by
        rw [h3] at g2 ⊢
        omega
      rw [e1, e2] at this
      exact this

theorem insertRangeW_of {C : Cfg α κ} (hC : CfgOk C) {t t' : Tbl α} {l vs : List α} (h : Sim C t l)
    (hr : t.insertRange C vs = .ok t') :
    ∃ w, t.insertRangeW C vs = .ok (t', w) ∧
      Paid C t t' w vs.length ((vs.foldl (Spec.insert C.key C.eqv) l).length - l.length) vs.length := by
  unfold insertRange at hr
  rw [Res.bind_eq_ok] at hr
  obtain ⟨t1, h1, h2⟩ := hr
  have hi := h
  obtain ⟨⟨c, hi⟩, _⟩ := hi
  obtain ⟨w1, k1, k2⟩ := reserveW_of hC hi (by omega) h1
  obtain ⟨t1', e1, e2⟩ := reserve_sim hC h (n := t.size + vs.length) (by omega)
  rw [h1] at e1; cases e1
  obtain ⟨w2, g1, _, g3⟩ := insertAllW_of hC vs e2 h2
  refine ⟨w1 + w2, ?_, ?_⟩
  · unfold insertRangeW
    rw [k1]; simp only [Res.ok_bind]
    rw [g1]; simp only [Res.ok_bind]
  · have := k2.trans g3
    rw [show t.size + vs.length - t.size = vs.length by omega] at this
    simpa using this

/-! ### Erasing and clearing -/

theorem erase_mono {C : Cfg α κ} {t t' : Tbl α} {k : κ} {n : Nat} (h : t.erase C k = .ok (t', n)) :
    Phi C t' ≤ Phi C t := by
  unfold Tbl.erase at h
  rw [Res.bind_eq_ok] at h
  obtain ⟨o, _, h⟩ := h
  cases o with
  | none => cases h; exact Nat.le_refl _
  | some off =>
    simp only at h
    rw [Res.bind_eq_ok] at h
    obtain ⟨t1, h1, h⟩ := h
    cases h
    exact eraseAt_mono h1

theorem extract_mono {C : Cfg α κ} {t t' : Tbl α} {k : κ} {n : Option α} (h : t.extract C k = .ok (t', n)) :
    Phi C t' ≤ Phi C t := by
  unfold Tbl.extract at h
  rw [Res.bind_eq_ok] at h
  obtain ⟨o, _, h⟩ := h
  cases o with
  | none => cases h; exact Nat.le_refl _
  | some off =>
    simp only at h
    rw [Res.bind_eq_ok] at h
    obtain ⟨⟨t1, a⟩, h1, h⟩ := h
    cases h
    unfold extractAt at h1
    rw [Res.bind_eq_ok] at h1
    obtain ⟨b, _, h1⟩ := h1
    rw [Res.bind_eq_ok] at h1
    obtain ⟨t2, h2, h1⟩ := h1
    rw [Res.bind_eq_ok] at h1
    obtain ⟨t3, h3, h1⟩ := h1
    cases h1
    obtain ⟨_, e1, e2, _⟩ := destroy_frame h2
    have := eraseMeta_mono h3
    rw [phi_congr e1 e2] at this
    exact this

theorem eraseIfLoop_mono {C : Cfg α κ} {p : α → Bool} : ∀ (n : Nat) {t t' : Tbl α} {i : Nat},
    eraseIfLoop C p n t i = .ok t' → Phi C t' ≤ Phi C t
  | 0, t, t', i, h => by cases h
  | n + 1, t, t', i, h => by
    unfold eraseIfLoop at h
    split at h
    · cases h; exact Nat.le_refl _
    · rw [Res.bind_eq_ok] at h
      obtain ⟨a, _, h⟩ := h
      split at h
      · rw [Res.bind_eq_ok] at h
        obtain ⟨nx, _, h⟩ := h
        rw [Res.bind_eq_ok] at h
        obtain ⟨t1, h1, h⟩ := h
        exact Nat.le_trans (eraseIfLoop_mono n h) (eraseAt_mono h1)
      · rw [Res.bind_eq_ok] at h
        obtain ⟨nx, _, h⟩ := h
        exact eraseIfLoop_mono n h

theorem eraseIf_mono {C : Cfg α κ} {p : α → Bool} {t t' : Tbl α} {n : Nat} (h : t.eraseIf C p = .ok (t', n)) :
    Phi C t' ≤ Phi C t := by
  unfold Tbl.eraseIf at h
  rw [Res.bind_eq_ok] at h
  obtain ⟨b, _, h⟩ := h
  rw [Res.bind_eq_ok] at h
  obtain ⟨t1, h1, h⟩ := h
  cases h
  exact eraseIfLoop_mono _ h1

theorem clear_mono {C : Cfg α κ} {t t' : Tbl α} (h : t.clear C = .ok t') : Phi C t' ≤ Phi C t := by
  unfold Tbl.clear at h
  split at h
  · cases h; exact Nat.le_refl _
  · split at h
    · cases h; exact Nat.le_refl _
    · rw [Res.bind_eq_ok] at h
      obtain ⟨t1, _, h⟩ := h
      split at h
      · cases h
        have : ∀ u : Tbl α, u.growthLeft = usub (capacityToGrowth C.G.W u.capacity) 0 → Phi C u = 0 := by
          intro u hu
          unfold Phi
          rw [hu, usub_of_le (by omega)]
          omega
        rw [this _ rfl]
        exact Nat.zero_le _
      · cases h

/-! ### One operation -/

theorem look_same {C : Cfg α κ} {t t' : Tbl α} {r : Resp α} {op : Op α κ}
    (hop : match op with | .at _ => True | .find _ => True | .contains _ => True | .count _ => True | .size => True | _ => False)
    (h : t.step C op = .ok (t', r)) : t' = t := by
  cases op <;> simp only at hop
  all_goals simp only [Tbl.step] at h
  · rw [Res.bind_eq_ok] at h; obtain ⟨o, _, h⟩ := h; cases h; rfl
  · rw [Res.bind_eq_ok] at h; obtain ⟨o, _, h⟩ := h
    cases o with
    | none => cases h; rfl
    | some off =>
      simp only at h
      rw [Res.bind_eq_ok] at h; obtain ⟨a, _, h⟩ := h; cases h; rfl
  · rw [Res.bind_eq_ok] at h; obtain ⟨o, _, h⟩ := h; cases h; rfl
  · rw [Res.bind_eq_ok] at h; obtain ⟨o, _, h⟩ := h; cases h; rfl
  · cases h; rfl

theorem paid_zero {C : Cfg α κ} {t t' : Tbl α} {w : Work} {k a r : Nat} (h : Paid C t t' w k a r) {a' : Nat} (e : a' = a) :
    Paid C t t' w k a' r := by rw [e]; exact h

/-- One operation: the counting version does the same and its work is paid for. -/
theorem step_paid {C : Cfg α κ} (hC : CfgOk C) {t t' : Tbl α} {l : List α} (h : Sim C t l) (op : Op α κ)
    (hv : op.Valid C.key) {r : Resp α} (hr : t.step C op = .ok (t', r)) :
    ∃ w, t.stepW C op = .ok ((t', r), w) ∧
      Paid C t t' w op.keys (op.added C.key C.eqv l) (op.room l.length) := by
  have hi := h
  obtain ⟨⟨c, hi⟩, hperm⟩ := hi
  have hsz := h.size
  have keyE : ∀ a : α, ∃ t1 i ins, t.emplace C a = .ok (t1, i, ins) ∧
      ((ins = false ∧ ∃ b, Spec.lookup C.key C.eqv l (C.key a) = some b) ∨
       (ins = true ∧ Spec.lookup C.key C.eqv l (C.key a) = none)) := by
    intro a
    rcases emplace_sim hC h a with ⟨i, b, h1, h2, h3, h4, h5⟩ | ⟨t1, i, h1, h2, h3, h4⟩
    · exact ⟨t, i, false, h1, .inl ⟨rfl, b, h5⟩⟩
    · exact ⟨t1, i, true, h1, .inr ⟨rfl, h4⟩⟩
  cases op with
  | insert a =>
    obtain ⟨t1, i, ins, h1, h2⟩ := keyE a
    obtain ⟨w, k1, k2⟩ := emplaceW_of hC hi h1
    simp only [Tbl.step, h1, Res.ok_bind] at hr
    rw [Res.bind_eq_ok] at hr
    obtain ⟨b, h3, hr⟩ := hr
    cases hr
    refine ⟨w, ?_, paid_zero k2 ?_⟩
    · simp only [Tbl.stepW, k1, Res.ok_bind, h3]
    · unfold Op.added
      rcases h2 with ⟨rfl, b, e⟩ | ⟨rfl, e⟩ <;> simp [Spec.step, e]
  | insertOrAssign a f =>
    simp only [Tbl.step] at hr
    rw [Res.bind_eq_ok] at hr
    obtain ⟨⟨t1, i, ins⟩, h1, hr⟩ := hr
    simp only at hr
    rw [Res.bind_eq_ok] at hr
    obtain ⟨b, h3, hr⟩ := hr
    cases hr
    obtain ⟨w, k1, k2⟩ := insertOrAssignW_of hC hi h1
    refine ⟨w, ?_, paid_zero k2 ?_⟩
    · simp only [Tbl.stepW, k1, Res.ok_bind, h3]
    · obtain ⟨t2, hst, _⟩ := step_sim hC h (.insertOrAssign a f) hv
      simp only [Tbl.step, h1, Res.ok_bind, h3] at hst
      unfold Op.added
      simp only [Spec.step] at hst ⊢
      split at hst
      · rename_i e
        injection hst with hst; injection hst with _ hst; injection hst with _ hst
        subst hst
        simp [Spec.modify]
      · rename_i e
        injection hst with hst; injection hst with _ hst; injection hst with _ hst
        subst hst
        simp
  | subscript a f =>
    obtain ⟨t1, i, ins, h1, h2⟩ := keyE a
    obtain ⟨w, k1, k2⟩ := emplaceW_of hC hi h1
    simp only [Tbl.step, Tbl.subscript, h1, Res.ok_bind] at hr
    rw [Res.bind_eq_ok] at hr
    obtain ⟨b, h3, hr⟩ := hr
    rw [Res.bind_eq_ok] at hr
    obtain ⟨t2, h4, hr⟩ := hr
    cases hr
    obtain ⟨e1, e2⟩ := assign_frame h4
    refine ⟨w, ?_, paid_zero (k2.congr (Nat.le_of_eq (phi_congr e1 e2))) ?_⟩
    · simp only [Tbl.stepW, k1, Res.ok_bind, h3, h4]
    · unfold Op.added
      rcases h2 with ⟨rfl, b, e⟩ | ⟨rfl, e⟩ <;> simp [Spec.step, e, Spec.modify]
  | insertNode n =>
    cases n with
    | none =>
      have : t' = t := by cases hr; rfl
      subst this
      refine ⟨_, by simp only [Tbl.stepW, hr, Res.ok_bind], Paid.idle (Nat.le_refl _) _ _⟩
    | some a =>
      obtain ⟨t1, i, ins, h1, h2⟩ := keyE a
      obtain ⟨w, k1, k2⟩ := emplaceW_of hC hi h1
      unfold emplace at h1
      simp only [Tbl.step, Tbl.insertNode, h1, Res.ok_bind] at hr
      rw [Res.bind_eq_ok] at hr
      obtain ⟨b, h3, hr⟩ := hr
      cases hr
      refine ⟨w, ?_, paid_zero k2 ?_⟩
      · simp only [Tbl.stepW, k1, Res.ok_bind, h3]
      · unfold Op.added
        rcases h2 with ⟨rfl, b, e⟩ | ⟨rfl, e⟩ <;> simp [Spec.step, e]
  | toggle a =>
    simp only [Tbl.step] at hr
    rw [Res.bind_eq_ok] at hr
    obtain ⟨t1, h1, hr⟩ := hr
    cases hr
    obtain ⟨w, k1, k2⟩ := emplaceSingleW_of hC hi h1
    refine ⟨w, ?_, paid_zero k2 ?_⟩
    · simp only [Tbl.stepW, k1, Res.ok_bind]
    · unfold Op.added
      rcases find_sim hC h (C.key a) with ⟨i, b, g1, g2, g3, g4, g5⟩ | ⟨g1, g2, g3⟩
      · have g1 : t.findHash C (C.key a) (C.hash (C.key a)) = .ok (some i) := g1
        rw [if_neg (by rw [g1]; exact fun e => by cases e)]
        have := List.length_filter_le (fun x => !C.eqv (C.key x) (C.key a)) l
        simp only [Spec.step, g5, Spec.erase]
        omega
      · have g1 : t.findHash C (C.key a) (C.hash (C.key a)) = .ok none := g1
        rw [if_pos g1]
        simp [Spec.step, g3]
  | insertRange vs =>
    simp only [Tbl.step] at hr
    rw [Res.bind_eq_ok] at hr
    obtain ⟨t1, h1, hr⟩ := hr
    cases hr
    obtain ⟨w, k1, k2⟩ := insertRangeW_of hC h h1
    exact ⟨w, by simp only [Tbl.stepW, k1, Res.ok_bind], k2⟩
  | reserve n =>
    simp only [Tbl.step] at hr
    rw [Res.bind_eq_ok] at hr
    obtain ⟨t1, h1, hr⟩ := hr
    cases hr
    obtain ⟨w, k1, k2⟩ := reserveW_of hC hi (.inl hv) h1
    rw [hsz] at k2
    exact ⟨w, by simp only [Tbl.stepW, k1, Res.ok_bind], paid_zero k2 (by simp [Op.added, Spec.step])⟩
  | rehash n =>
    simp only [Tbl.step] at hr
    rw [Res.bind_eq_ok] at hr
    obtain ⟨t1, h1, hr⟩ := hr
    cases hr
    obtain ⟨w, k1, k2⟩ := rehashW_of hC hi (m := n) (.inl hv) (fun hgt => by
      have := capacityToGrowth_le C.G.W t.capacity; omega) h1
    rw [hsz] at k2
    exact ⟨w, by simp only [Tbl.stepW, k1, Res.ok_bind], paid_zero k2 (by simp [Op.added, Spec.step])⟩
  | «at» k =>
    have := look_same (by trivial) hr
    subst this
    exact ⟨_, by simp only [Tbl.stepW, hr, Res.ok_bind], Paid.hash (Nat.le_refl _) _ _⟩
  | find k =>
    have := look_same (by trivial) hr
    subst this
    exact ⟨_, by simp only [Tbl.stepW, hr, Res.ok_bind], Paid.hash (Nat.le_refl _) _ _⟩
  | contains k =>
    have := look_same (by trivial) hr
    subst this
    exact ⟨_, by simp only [Tbl.stepW, hr, Res.ok_bind], Paid.hash (Nat.le_refl _) _ _⟩
  | count k =>
    have := look_same (by trivial) hr
    subst this
    exact ⟨_, by simp only [Tbl.stepW, hr, Res.ok_bind], Paid.hash (Nat.le_refl _) _ _⟩
  | size =>
    have := look_same (by trivial) hr
    subst this
    exact ⟨_, by simp only [Tbl.stepW, hr, Res.ok_bind], Paid.idle (Nat.le_refl _) _ _⟩
  | erase k =>
    refine ⟨_, by simp only [Tbl.stepW, hr, Res.ok_bind], Paid.hash ?_ _ _⟩
    simp only [Tbl.step] at hr
    rw [Res.bind_eq_ok] at hr
    obtain ⟨⟨t1, n⟩, h1, hr⟩ := hr
    cases hr
    exact erase_mono h1
  | extract k =>
    refine ⟨_, by simp only [Tbl.stepW, hr, Res.ok_bind], Paid.hash ?_ _ _⟩
    simp only [Tbl.step] at hr
    rw [Res.bind_eq_ok] at hr
    obtain ⟨⟨t1, n⟩, h1, hr⟩ := hr
    cases hr
    exact extract_mono h1
  | eraseIf p =>
    refine ⟨_, by simp only [Tbl.stepW, hr, Res.ok_bind], Paid.idle ?_ _ _⟩
    simp only [Tbl.step] at hr
    rw [Res.bind_eq_ok] at hr
    obtain ⟨⟨t1, n⟩, h1, hr⟩ := hr
    cases hr
    exact eraseIf_mono h1
  | clear =>
    refine ⟨_, by simp only [Tbl.stepW, hr, Res.ok_bind], Paid.idle ?_ _ _⟩
    simp only [Tbl.step] at hr
    rw [Res.bind_eq_ok] at hr
    obtain ⟨t1, h1, hr⟩ := hr
    cases hr
    exact clear_mono h1

/-- A whole history. -/
theorem run_paid {C : Cfg α κ} (hC : CfgOk C) : ∀ (ops : List (Op α κ)) {t : Tbl α} {l : List α}, Sim C t l →
    (∀ op ∈ ops, op.Valid C.key) →
    ∃ t' w, t.run C ops = .ok (t', (Spec.run C.key C.eqv l ops).2) ∧
      t.runW C ops = .ok ((t', (Spec.run C.key C.eqv l ops).2), w) ∧
      Paid C t t' w (totalKeys ops) (totalAdded C.key C.eqv l ops) (totalRoom C.key C.eqv l ops)
  | [], t, l, _, _ => ⟨t, Work.none, rfl, rfl, Paid.idle (Nat.le_refl _) _ _⟩
  | op :: ops, t, l, h, hv => by
    obtain ⟨t1, h1, h2⟩ := step_sim hC h op (hv op List.mem_cons_self)
    obtain ⟨w1, k1, k2⟩ := step_paid hC h op (hv op List.mem_cons_self) h1
    obtain ⟨t2, w2, g1, g2, g3⟩ := run_paid hC ops h2 (fun o ho => hv o (List.mem_cons_of_mem _ ho))
    refine ⟨t2, w1 + w2, ?_, ?_, ?_⟩
    · simp only [Tbl.run, Spec.run, h1, g1, Res.ok_bind]
    · simp only [Tbl.runW, Spec.run, k1, g2, Res.ok_bind]
    · have := k2.trans g3
      unfold totalKeys at this ⊢
      rw [List.map_cons, List.sum_cons, totalAdded, totalRoom]
      exact this

end Gtl.Swiss
