import Verif.Swiss.Inv
/-! Fresh tables, `resize`, `erase_meta_only`. -/

namespace Gtl.Swiss
variable {α κ : Type}

open Tbl

theorem foldlM_range {σ : Type} {f : σ → Nat → Res σ} {P : Nat → σ → Prop} (n : Nat) {s : σ} (h0 : P 0 s)
    (hstep : ∀ i s, i < n → P i s → ∃ s', f s i = .ok s' ∧ P (i + 1) s') :
    ∃ s', (List.range n).foldlM f s = .ok s' ∧ P n s' := by
  induction n with
  | zero => exact ⟨s, rfl, h0⟩
  | succ n ih =>
    obtain ⟨s1, h1, h2⟩ := ih (fun i s hi hp => hstep i s (by omega) hp)
    obtain ⟨s2, h3, h4⟩ := hstep n s1 (by omega) h2
    refine ⟨s2, ?_, h4⟩
    rw [List.range_succ, List.foldlM_append, h1]
    simp [h3]

/-! ### Fresh tables -/

theorem lay_replicate (cap p : Nat) : lay (List.replicate cap kEmpty) cap p = if p = cap then kSentinel else kEmpty := by
  have hg : ∀ q, (List.replicate cap kEmpty).getD q kEmpty = kEmpty := by
    intro q
    rw [List.getD_eq_getElem?_getD, List.getElem?_replicate]
    split <;> rfl
  unfold lay
  rw [hg, hg]
  split
  · rw [if_neg (by omega)]
  · split
    · rfl
    · split <;> rfl

theorem raw_reset {W cap : Nat} {t : Tbl α} (hcap : t.capacity = cap) (hctrl : t.ctrl = resetCtrl W cap)
    (hp : ∃ k, cap + 1 = 2 ^ k) (hW : 0 < W) : Raw W t (List.replicate cap kEmpty) := by
  subst hcap
  refine ⟨by simp, ?_, fun _ => by simp [hctrl, resetCtrl], hp⟩
  intro p hlt
  rw [lay_replicate, hctrl, resetCtrl, List.getElem?_append_left (by simpa using hlt), List.getElem?_set]
  by_cases h : t.capacity = p
  · rw [if_pos h, if_pos (by simp; omega), if_pos h.symm]
  · rw [if_neg h, if_neg (Ne.symm h), List.getElem?_replicate, if_pos hlt]

theorem elems_replicate {t : Tbl α} {n : Nat} (h : t.slots = List.replicate n none) : elems t = [] := by
  unfold elems; rw [h]; clear h; induction n with
  | zero => rfl
  | succ n ih => rw [List.replicate_succ, List.filterMap_cons_none rfl]; exact ih

theorem fresh_core {C : Cfg α κ} (hG : GroupSpec C.G) {t : Tbl α} {cap : Nat} (hcap : t.capacity = cap)
    (hctrl : t.ctrl = resetCtrl C.G.W cap) (hs : t.slots = List.replicate cap none) (hp : ∃ k, cap + 1 = 2 ^ k) :
    Core C t (List.replicate cap kEmpty) := by
  have hW : 0 < C.G.W := by rcases hG.width with h | h <;> omega
  have hno : ∀ (i : Nat) (a : α), t.slots[i]? = some (some a) → False := by
    intro i a h
    rw [hs, List.getElem?_replicate] at h
    split at h <;> simp at h
  refine ⟨raw_reset hcap hctrl hp hW, ⟨by rw [hs, hcap]; simp, fun i a h => (hno i a h).elim, ?_⟩,
    fun i a h => (hno i a h).elim, fun i a h => (hno i a h).elim, ?_⟩
  · intro i h
    rw [List.getElem?_eq_some_iff] at h
    obtain ⟨hi, _⟩ := h
    rw [hs] at hi
    have : i < cap := by simpa using hi
    exact ⟨kEmpty, by rw [List.getElem?_replicate, if_pos this], .inl rfl⟩
  · rw [Distinct, elems_replicate hs]; exact List.Pairwise.nil

theorem count_replicate_deleted (cap : Nat) : (List.replicate cap kEmpty).count kDeleted = 0 := by
  rw [List.count_eq_zero]
  intro h
  have := List.eq_of_mem_replicate h
  exact absurd this (by decide)

theorem empty_inv {C : Cfg α κ} (hG : GroupSpec C.G) : Inv C (empty : Tbl α) [] := by
  refine ⟨⟨⟨rfl, ?_, fun h => absurd rfl h, 0, rfl⟩, ⟨rfl, by simp [empty], by simp [empty]⟩,
    by simp [empty], by simp [empty], List.Pairwise.nil⟩, rfl, ?_, by simp⟩
  · intro p hp
    have hp' : p < 16 := by
      have : (empty : Tbl α).capacity = 0 := rfl
      rcases hG.width with h | h <;> omega
    show emptyGroup[p]? = _
    cases p with
    | zero => rfl
    | succ p =>
      unfold emptyGroup
      rw [List.getElem?_cons_succ, List.getElem?_replicate, if_pos (by omega)]
      unfold lay
      have : (empty : Tbl α).capacity = 0 := rfl
      rw [this, if_neg (by omega), if_neg (by omega), if_neg (by omega)]
  · show 0 + 0 + 0 = capacityToGrowth _ 0
    unfold capacityToGrowth; split <;> omega

theorem withBuckets_inv {C : Cfg α κ} (hG : GroupSpec C.G) (n : Nat) :
    ∃ c, Inv C (withBuckets C n : Tbl α) c ∧ elems (withBuckets C n : Tbl α) = [] := by
  unfold withBuckets
  split
  · exact ⟨[], empty_inv hG, rfl⟩
  · obtain ⟨k, hk1, hk2⟩ := normalizeCapacity_pow n
    refine ⟨_, ⟨fresh_core hG rfl rfl rfl ⟨k, hk2⟩, ?_, ?_, ?_⟩, elems_replicate rfl⟩
    · rw [elems_replicate rfl]; rfl
    · rw [count_replicate_deleted]
      show usub _ 0 + 0 + 0 = _
      unfold usub; simp; rfl
    · intro _ h
      have := List.eq_of_mem_replicate h
      exact absurd this (by decide)

/-! ### Filling a slot: construct and `set_ctrl`, in either order -/

theorem constructSlot_ok {t : Tbl α} {i : Nat} {a : α} (h : t.slots[i]? = some none) :
    t.constructSlot i a = .ok { t with slots := t.slots.set i (some a) } := by
  unfold constructSlot; rw [h]

theorem destroySlot_ok {t : Tbl α} {i : Nat} {a : α} (h : t.slots[i]? = some (some a)) :
    t.destroySlot i = .ok { t with slots := t.slots.set i none } := by
  unfold destroySlot; rw [h]

/-- `Raw` only looks at the control array and the capacity. -/
theorem Raw.congr {W : Nat} {t t' : Tbl α} {c : List Ctrl} (r : Raw W t c) (h1 : t'.ctrl = t.ctrl)
    (h2 : t'.capacity = t.capacity) : Raw W t' c := by
  refine ⟨by rw [h2]; exact r.len, ?_, ?_, by rw [h2]; exact r.pow⟩
  · rw [h1, h2]; exact r.bytes
  · rw [h1, h2]; exact r.alloc

theorem Core.congr {C : Cfg α κ} {t t' : Tbl α} {c : List Ctrl} (h : Core C t c) (h1 : t'.ctrl = t.ctrl)
    (h2 : t'.capacity = t.capacity) (h3 : t'.slots = t.slots) : Core C t' c := by
  refine ⟨h.raw.congr h1 h2, ⟨by rw [h3, h2]; exact h.sync.slen, by rw [h3]; exact h.sync.some_full,
    by rw [h3]; exact h.sync.none_eod⟩, by rw [h3]; exact h.h2, by rw [h3, h2]; exact h.reach, ?_⟩
  have : elems t' = elems t := by unfold elems; rw [h3]
  rw [this]; exact h.distinct

/-- `find_first_non_full`, `set_ctrl`, construct: inserting a new element into a table with a free slot. -/
theorem place_spec {C : Cfg α κ} (hC : CfgOk C) {t : Tbl α} {c : List Ctrl} (h : Core C t c) (a : α)
    (hnew : ∀ b ∈ elems t, C.eqv (C.key b) (C.key a) = false) (hex : ∃ x ∈ c, Eod x) :
    ∃ i ctrl', t.findFirstNonFull C (C.hash (C.key a)) = .ok i ∧ i < t.capacity ∧ t.slots[i]? = some none ∧
      Eod (c.getD i kEmpty) ∧ c[i]? = some (c.getD i kEmpty) ∧
      (∀ (s g : Nat) (sl : List (Option α)), Tbl.setCtrl C.G.W { t with size := s, growthLeft := g, slots := sl } i (H2 (C.hash (C.key a))) =
        .ok { t with size := s, growthLeft := g, slots := sl, ctrl := ctrl' }) ∧
      ∀ (s g : Nat), Core C { t with size := s, growthLeft := g, slots := t.slots.set i (some a), ctrl := ctrl' }
          (c.set i (H2 (C.hash (C.key a)))) ∧
        List.Perm (elems { t with size := s, growthLeft := g, slots := t.slots.set i (some a), ctrl := ctrl' })
          (a :: elems t) := by
  obtain ⟨i, n, h1, h2, h3, h4, h5⟩ := findFirstNonFull_spec hC.group h.raw h.valid (C.hash (C.key a)) hex
  obtain ⟨ctrl', h6, h7⟩ := h.raw.setCtrl hC.group.width h2 (H2 (C.hash (C.key a)))
  have hcl : i < c.length := by rw [h.raw.len]; exact h2
  refine ⟨i, ctrl', h1, h2, h.sync.eod_slot h2 (getElem?_getD hcl) h3, h3, getElem?_getD hcl, ?_, ?_⟩
  · intro s g sl
    unfold setCtrl at *
    simp only at *
    split at h6
    · rename_i hc
      rw [if_pos hc]
      simp only [Res.ok.injEq, Tbl.mk.injEq] at h6
      rw [h6.1]
    · cases h6
  · intro s g
    exact h.fill hC h2 h3 h4 h5 hnew rfl rfl (h7.congr rfl rfl)

/-! ### `resize` -/

theorem exists_free {C : Cfg α κ} {t : Tbl α} {c : List Ctrl} (h : Core C t c) (hlt : (elems t).length < t.capacity) :
    ∃ x ∈ c, Eod x := by
  have hc := h.counts
  by_cases h1 : 0 < c.count kDeleted
  · exact ⟨kDeleted, List.count_pos_iff.1 h1, .inr rfl⟩
  · exact ⟨kEmpty, List.count_pos_iff.1 (by omega), .inl rfl⟩

theorem all_none_of_elems_nil {t : Tbl α} (h : elems t = []) : t.slots.all Option.isNone = true := by
  rw [List.all_eq_true]
  intro o ho
  cases o with
  | none => rfl
  | some a =>
    have : a ∈ elems t := by unfold elems; rw [List.mem_filterMap]; exact ⟨some a, ho, rfl⟩
    rw [h] at this; cases this

theorem elems_nil_of_all_none {t : Tbl α} (h : ∀ i : Nat, ∀ a, t.slots[i]? ≠ some (some a)) : elems t = [] := by
  rw [List.eq_nil_iff_forall_not_mem]
  intro a ha
  obtain ⟨i, hi⟩ := mem_elems.1 ha
  exact h i a hi

/-- The state `(old, new)` of the loop of `resize` before index `i`, for the table `t`. -/
def RInv (C : Cfg α κ) (t : Tbl α) (newCap i : Nat) (s : Tbl α × Tbl α) : Prop :=
  s.1.ctrl = t.ctrl ∧ s.1.capacity = t.capacity ∧
  (∀ j : Nat, s.1.slots[j]? = if j < i ∧ j < t.capacity then some none else t.slots[j]?) ∧
  s.2.capacity = newCap ∧ s.2.size = t.size ∧
  s.2.growthLeft = usub (capacityToGrowth C.G.W newCap) t.size ∧
  ∃ c', Core C s.2 c' ∧ kDeleted ∉ c' ∧ List.Perm (elems s.2 ++ elems s.1) (elems t)

/-- One iteration: the element at `i`, if there is one, moves to the new table. -/
theorem resizeStep_spec {C : Cfg α κ} (hC : CfgOk C) {t : Tbl α} {c : List Ctrl} {hf : κ → Nat} (h : Core { C with hash := hf } t c) {newCap : Nat}
    (hfit : (elems t).length ≤ newCap) {i : Nat} {s : Tbl α × Tbl α} (hi : i < t.capacity) (hP : RInv C t newCap i s) :
    s.1.ctrlAt i = .ok (c.getD i kEmpty) ∧ ∃ s', resizeStep C s i = .ok s' ∧ RInv C t newCap (i + 1) s' ∧
      (elems s'.2).length = (elems s.2).length + if isFull (c.getD i kEmpty) then 1 else 0 := by
  have hWpos : 0 < C.G.W := by rcases hC.group.width with h | h <;> omega
  obtain ⟨old, new⟩ := s
  obtain ⟨p1, p2, p3, p4, p5, p6, c', p7, p8, p9⟩ := hP
  simp only at p1 p2 p3 p4 p5 p6 p7 p9
  have hctrl : old.ctrlAt i = .ok (c.getD i kEmpty) := by
    have := h.raw.ctrlAt hWpos (show i ≤ t.capacity by omega)
    rw [lay_lt hi] at this
    unfold ctrlAt at *
    rw [p1]; exact this
  have hcl : i < c.length := by rw [h.raw.len]; exact hi
  refine ⟨hctrl, ?_⟩
  unfold resizeStep
  simp only [hctrl, Res.ok_bind]
  have hsi : old.slots[i]? = t.slots[i]? := by rw [p3 i, if_neg (by omega)]
  by_cases hf : isFull (c.getD i kEmpty) = true
  · rw [if_pos hf]
    obtain ⟨a, ha⟩ := h.sync.full_slot hi (getElem?_getD hcl) hf
    have hao : old.slots[i]? = some (some a) := by rw [hsi, ha]
    simp only [readSlot_ok hao, Res.ok_bind]
    -- the element is new in the new table
    have hperm2 : List.Perm (elems old) (a :: (old.slots.set i none).filterMap id) := filterMap_set_none hao
    have hdist : Distinct C (elems new ++ elems old) := Distinct.perm hC p9.symm h.distinct
    have hnew : ∀ b ∈ elems new, C.eqv (C.key b) (C.key a) = false := by
      intro b hb
      unfold Distinct at hdist
      rw [List.pairwise_append] at hdist
      exact hdist.2.2 b hb a (hperm2.symm.subset (by simp))
    have hlen : (elems new).length < new.capacity := by
      have h1 := p9.length_eq
      have h2 := hperm2.length_eq
      rw [List.length_append] at h1
      simp only [List.length_cons] at h2
      omega
    obtain ⟨ni, ctrl', q1, q2, q3, q4, q5, q6, q7⟩ := place_spec hC p7 a hnew (exists_free p7 hlen)
    simp only [q1, Res.ok_bind]
    have q6' := q6 new.size new.growthLeft new.slots
    have e1 : ({ new with size := new.size, growthLeft := new.growthLeft, slots := new.slots } : Tbl α) = new := rfl
    rw [e1] at q6'
    rw [q6']
    simp only [Res.ok_bind]
    rw [constructSlot_ok (t := { new with ctrl := ctrl' }) q3]
    simp only [Res.ok_bind]
    rw [destroySlot_ok hao]
    simp only [Res.ok_bind]
    obtain ⟨r1, r2⟩ := q7 new.size new.growthLeft
    refine ⟨_, rfl, ⟨p1, p2, ?_, p4, p5, p6, _, r1, ?_, ?_⟩, by rw [r2.length_eq, if_pos hf]; rfl⟩
    · intro j
      simp only
      rw [List.getElem?_set]
      have hlt : i < old.slots.length := by
        rw [List.getElem?_eq_some_iff] at hao; exact hao.1
      by_cases hij : i = j
      · subst hij
        rw [if_pos rfl, if_pos hlt, if_pos ⟨by omega, hi⟩]
      · rw [if_neg hij, p3 j]
        by_cases hc : j < i ∧ j < t.capacity
        · rw [if_pos hc, if_pos ⟨by omega, hc.2⟩]
        · rw [if_neg hc, if_neg (by omega)]
    · intro hd
      rcases List.mem_or_eq_of_mem_set hd with hd | hd
      · exact p8 hd
      · exact (ne_of_full (isFull_H2 _)).2.1 hd.symm
    · have r3 : List.Perm (elems new ++ elems old) (elems new ++ (a :: (old.slots.set i none).filterMap id)) :=
        List.Perm.append_left _ hperm2
      refine List.Perm.trans ?_ (r3.symm.trans p9)
      refine (r2.append_right _).trans ?_
      exact List.perm_middle.symm
  · rw [if_neg hf]
    refine ⟨_, rfl, ⟨p1, p2, ?_, p4, p5, p6, c', p7, p8, p9⟩, by rw [if_neg hf]; rfl⟩
    intro j
    simp only
    rw [p3 j]
    by_cases hij : j = i
    · subst hij
      rw [if_neg (by omega), if_pos ⟨by omega, hi⟩]
      rcases h.valid _ (List.mem_of_getElem? (getElem?_getD hcl)) with hh | hh
      · exact absurd hh hf
      · exact h.sync.eod_slot hi (getElem?_getD hcl) hh
    · by_cases hc : j < i ∧ j < t.capacity
      · rw [if_pos hc, if_pos ⟨by omega, hc.2⟩]
      · rw [if_neg hc, if_neg (by omega)]

theorem RInv.init {C : Cfg α κ} (hC : CfgOk C) (t : Tbl α) {newCap : Nat} (hp : ∃ k, newCap + 1 = 2 ^ k) :
    RInv C t newCap 0 (t, initializeSlots C t newCap) := by
  refine ⟨rfl, rfl, fun j => by simp, rfl, rfl, rfl, _, fresh_core hC.group rfl rfl rfl hp, ?_, ?_⟩
  · intro hd
    exact absurd (List.eq_of_mem_replicate hd) (by decide)
  · have : elems (initializeSlots C t newCap) = [] := elems_replicate rfl
    simp [this]

theorem RInv.old_nil {C : Cfg α κ} {t : Tbl α} {c : List Ctrl} {hf : κ → Nat} (h : Core { C with hash := hf } t c) {newCap : Nat} {s : Tbl α × Tbl α}
    (hP : RInv C t newCap t.capacity s) : elems s.1 = [] := by
  apply elems_nil_of_all_none
  intro i a hia
  rw [hP.2.2.1 i] at hia
  by_cases hi : i < t.capacity
  · rw [if_pos ⟨hi, hi⟩] at hia; cases hia
  · rw [if_neg (by omega)] at hia
    exact hi (h.lt hia)

/-- What `resize` does to a table whose core invariant holds, when the elements fit. -/
theorem resize_spec {C : Cfg α κ} (hC : CfgOk C) {t : Tbl α} {c : List Ctrl} {hf : κ → Nat} (h : Core { C with hash := hf } t c) {newCap : Nat}
    (hp : ∃ k, newCap + 1 = 2 ^ k) (hfit : (elems t).length ≤ newCap) :
    ∃ t' c', t.resize C newCap = .ok t' ∧ Core C t' c' ∧ List.Perm (elems t') (elems t) ∧ t'.capacity = newCap ∧
      t'.size = t.size ∧ t'.growthLeft = usub (capacityToGrowth C.G.W newCap) t.size ∧ kDeleted ∉ c' := by
  have hstep : ∀ i s, i < t.capacity → RInv C t newCap i s → ∃ s', resizeStep C s i = .ok s' ∧ RInv C t newCap (i + 1) s' := by
    intro i s hi hP
    obtain ⟨_, s', h1, h2, _⟩ := resizeStep_spec hC h hfit hi hP
    exact ⟨s', h1, h2⟩
  obtain ⟨⟨old, new⟩, hrun, hP⟩ := foldlM_range t.capacity (RInv.init hC t hp) hstep
  have hold : elems old = [] := hP.old_nil h
  obtain ⟨p1, p2, p3, p4, p5, p6, c', p7, p8, p9⟩ := hP
  simp only at p1 p2 p3 p4 p5 p6 p7 p9
  refine ⟨new, c', ?_, p7, ?_, p4, p5, p6, p8⟩
  · unfold resize
    rw [hrun]
    simp only [Res.ok_bind]
    rw [if_pos (all_none_of_elems_nil hold)]
  · simpa [hold] using p9

theorem usub_of_le {a b : Nat} (h : b ≤ a) : usub a b = a - b := by unfold usub; rw [if_pos h]

theorem resize_inv {C : Cfg α κ} (hC : CfgOk C) {t : Tbl α} {c : List Ctrl} {hf : κ → Nat} (h : Inv { C with hash := hf } t c) {newCap : Nat}
    (hp : ∃ k, newCap + 1 = 2 ^ k) (hfit : t.size ≤ capacityToGrowth C.G.W newCap) :
    ∃ t' c', t.resize C newCap = .ok t' ∧ Inv C t' c' ∧ List.Perm (elems t') (elems t) ∧ t'.capacity = newCap ∧
      t'.size = t.size ∧ t'.growthLeft = capacityToGrowth C.G.W newCap - t.size ∧ kDeleted ∉ c' := by
  have hcg := capacityToGrowth_le C.G.W newCap
  obtain ⟨t', c', h1, h2, h3, h4, h5, h6, h7⟩ := resize_spec hC h.core hp (by rw [← h.size_eq]; omega)
  rw [usub_of_le hfit] at h6
  refine ⟨t', c', h1, ⟨h2, ?_, ?_, fun _ => h7⟩, h3, h4, h5, h6, h7⟩
  · rw [h5, h.size_eq, h3.length_eq]
  · rw [List.count_eq_zero.2 h7, h4, h5, h6]; omega

/-! ### erase -/

/-- `erase_meta_only` after the slot has been emptied. -/
theorem eraseMeta_spec {C : Cfg α κ} (hC : CfgOk C) {t : Tbl α} {c : List Ctrl} (h : Inv C t c) {i : Nat} {a : α}
    (hs : t.slots[i]? = some (some a)) :
    ∃ t' c', Tbl.eraseMetaOnly C { t with slots := t.slots.set i none } i = .ok t' ∧ Inv C t' c' ∧
      List.Perm (elems t) (a :: elems t') ∧ t'.capacity = t.capacity ∧ t'.slots = t.slots.set i none ∧
      (∀ j, j ≠ i → c'[j]? = c[j]?) := by
  have hW := hC.group.width
  have hWpos : 0 < C.G.W := by rcases hW with h | h <;> omega
  have hi := h.core.lt hs
  have hcl : i < c.length := by rw [h.core.raw.len]; exact hi
  have hraw := h.core.raw
  obtain ⟨k, hk⟩ := hraw.pow
  have hraw1 : Raw C.G.W { t with slots := t.slots.set i none } c := hraw.congr rfl rfl
  set b := subMask i C.G.W t.capacity with hb
  have hble : b ≤ t.capacity := subMask_lt hk
  set ga := win c t.capacity C.G.W i with hga
  set gb := win c t.capacity C.G.W b with hgb
  have hla : ga.length = C.G.W := win_length _ _ _ _
  have hlb : gb.length = C.G.W := win_length _ _ _ _
  have hva : ∀ x ∈ ga, Valid x := win_valid hraw.len h.core.valid
  have hvb : ∀ x ∈ gb, Valid x := win_valid hraw.len h.core.valid
  set nf := (C.G.matchEmpty gb).toBool && (C.G.matchEmpty ga).toBool &&
    decide ((C.G.matchEmpty ga).trailingZeros + (C.G.matchEmpty gb).leadingZeros < C.G.W) with hnf
  set x := (if nf then kEmpty else kDeleted) with hx
  have hxe : Eod x := by rw [hx]; split; exact .inl rfl; exact .inr rfl
  obtain ⟨ctrl', e1, e2⟩ := hraw1.setCtrl hW hi x
  have hrun : Tbl.eraseMetaOnly C { t with slots := t.slots.set i none } i =
      .ok { t with
        slots := t.slots.set i none
        ctrl := ctrl'
        size := t.size - 1
        growthLeft := t.growthLeft + (if nf then 1 else 0) } := by
    unfold eraseMetaOnly
    simp only
    rw [hraw1.load hWpos (show i ≤ t.capacity by omega)]
    simp only [Res.ok_bind]
    rw [hraw1.load hWpos (show subMask i C.G.W t.capacity ≤ t.capacity from hble)]
    simp only [Res.ok_bind]
    have e1' : Tbl.setCtrl C.G.W { t with slots := t.slots.set i none, size := t.size - 1 } i x =
        .ok { t with slots := t.slots.set i none, size := t.size - 1, ctrl := ctrl' } := by
      unfold setCtrl at *
      simp only at *
      split at e1
      · rename_i hc
        rw [if_pos hc]
        simp only [Res.ok.injEq, Tbl.mk.injEq] at e1
        rw [e1.1]
      · cases e1
    have e1'' := e1'
    rw [hx, hnf] at e1''
    rw [← hb, ← hga, ← hgb]
    rw [e1'']
    simp only [Res.ok_bind]
    rw [hnf]
  -- if the byte becomes empty, every window through i already had an empty byte
  have hwin : x = kEmpty → ∀ o ≤ t.capacity, (∃ j < C.G.W, (o + j) % (t.capacity + 1) = i) →
      ∃ j < C.G.W, lay c t.capacity (o + j) = kEmpty := by
    intro hxk o ho ⟨d, hd, hod⟩
    have hnft : nf = true := by
      rw [hx] at hxk
      by_contra hcon
      rw [if_neg hcon] at hxk
      exact absurd hxk (by decide)
    rw [hnf] at hnft
    simp only [Bool.and_eq_true, decide_eq_true_eq] at hnft
    obtain ⟨⟨hEb, hEa⟩, hsum⟩ := hnft
    rcases width_cases hW ⟨k, hk⟩ with ⟨hbig, _⟩ | ⟨hsm, _⟩
    swap
    · exact small_has_empty hsm ho
    obtain ⟨ha1, _⟩ := hC.group.matchEmpty_first ga hla hva hEa
    obtain ⟨hz, hb1, _⟩ := hC.group.matchEmpty_last gb hlb hvb hEb
    obtain ⟨haW, hae⟩ := win_getElem?_some ha1
    obtain ⟨hbW, hbe⟩ := win_getElem?_some hb1
    set ta := (C.G.matchEmpty ga).trailingZeros with hta
    set lz := (C.G.matchEmpty gb).leadingZeros with hlz
    -- in big tables, an empty raw byte at p means an empty byte at any p' ≡ p
    have hmove : ∀ p p', lay c t.capacity p = kEmpty → p < t.capacity + C.G.W → p' < t.capacity + C.G.W →
        p % (t.capacity + 1) = p' % (t.capacity + 1) → lay c t.capacity p' = kEmpty := by
      intro p p' hp hlt hlt' hmod
      have hle : p ≤ 2 * t.capacity := by omega
      have hle' : p' ≤ 2 * t.capacity := by omega
      obtain ⟨m1, m2⟩ := eod_real hle (Or.inl hp)
      rw [lay_mod hle' (by omega), ← hmod, ← m2]; exact hp
    by_cases hcase : d + ta < C.G.W
    · refine ⟨d + ta, hcase, ?_⟩
      apply hmove (i + ta) (o + (d + ta)) hae.symm (by omega) (by omega)
      rw [← hod, Nat.mod_add_mod]; congr 1; omega
    · refine ⟨d - 1 - lz, by omega, ?_⟩
      apply hmove (b + (C.G.W - 1 - lz)) (o + (d - 1 - lz)) hbe.symm (by omega) (by omega)
      -- both are i - 1 - lz modulo the capacity
      have hbW' := subMask_add (i := i) (w := C.G.W) hk
      rw [← hb] at hbW'
      have c1 : (b + (C.G.W - 1 - lz)) + (1 + lz) ≡ (o + (d - 1 - lz)) + (1 + lz) [MOD (t.capacity + 1)] := by
        have a1 : (b + (C.G.W - 1 - lz)) + (1 + lz) = b + C.G.W := by omega
        have a2 : (o + (d - 1 - lz)) + (1 + lz) = o + d := by omega
        rw [a1, a2]
        unfold Nat.ModEq
        rw [hbW', hod]; exact Nat.mod_eq_of_lt (by omega)
      exact Nat.ModEq.add_right_cancel' _ c1
  have hv := fun t' => h.core.vacate (t' := t') hs hxe hwin
  obtain ⟨hcore, hperm⟩ := hv { t with
    slots := t.slots.set i none
    ctrl := ctrl'
    size := t.size - 1
    growthLeft := t.growthLeft + (if nf then 1 else 0) } rfl rfl (e2.congr rfl rfl)
  refine ⟨_, c.set i x, hrun, ⟨hcore, ?_, ?_, ?_⟩, hperm, rfl, rfl, fun j hj => getElem?_set_ctrl hj⟩
  · have := hperm.length_eq
    rw [List.length_cons, ← h.size_eq] at this
    simp only
    omega
  · have hsz : 0 < t.size := by
      have := hperm.length_eq
      rw [List.length_cons, ← h.size_eq] at this; omega
    have hcnt := count_set (h.core.h2 i a hs) x kDeleted
    rw [if_neg (ne_of_full (isFull_H2 _)).2.1] at hcnt
    have hg := h.growth
    simp only
    rw [hx] at hcnt ⊢
    cases hnfv : nf with
    | true =>
      rw [hnfv] at hcnt
      simp only [if_true] at hcnt ⊢
      rw [if_neg (by decide)] at hcnt
      omega
    | false =>
      rw [hnfv] at hcnt
      simp only [Bool.false_eq_true, if_false] at hcnt ⊢
      rw [if_pos trivial] at hcnt
      omega
  · intro hsm hd
    simp only at hsm
    rcases List.mem_or_eq_of_mem_set hd with hd | hd
    · exact h.small hsm hd
    · -- in a small table the byte always becomes empty
      have hnft : nf = true := by
        rcases width_cases hW ⟨k, hk⟩ with ⟨hbig, _⟩ | ⟨hs2, hdv⟩
        · omega
        have hbi : b = i := by
          have := clone_pos hW ⟨k, hk⟩ hi
          rw [hb, subMask_mod hk]
          obtain ⟨q, hq⟩ := hdv
          have e : i + ((t.capacity + 1) * C.G.W - C.G.W) = (t.capacity + 1) * (C.G.W - q) + i := by
            rw [Nat.mul_sub, ← hq]; omega
          rw [e, Nat.mul_add_mod, Nat.mod_eq_of_lt (by omega)]
        have hE : (C.G.matchEmpty ga).toBool = true := by
          rw [hC.group.matchEmpty_bool ga hla hva]
          obtain ⟨j, hj, he⟩ := small_has_empty (c := c) hs2 (show i ≤ t.capacity by omega)
          exact ⟨j, by rw [hga, win_getElem? hj, he]⟩
        have hgab : gb = ga := by rw [hgb, hga, hbi]
        rw [hnf, hgab]
        simp only [hE, Bool.true_and, decide_eq_true_eq]
        obtain ⟨hf1, hf2⟩ := hC.group.matchEmpty_first ga hla hva hE
        obtain ⟨hz, hl1, hl2⟩ := hC.group.matchEmpty_last ga hla hva hE
        by_contra hcon
        have : C.G.W - 1 - (C.G.matchEmpty ga).leadingZeros < (C.G.matchEmpty ga).trailingZeros := by omega
        exact hf2 _ this hl1
      rw [hx, hnft, if_pos rfl] at hd
      exact absurd hd (by decide)

/-- `_erase(it)` on a constructed slot. -/
theorem eraseAt_spec {C : Cfg α κ} (hC : CfgOk C) {t : Tbl α} {c : List Ctrl} (h : Inv C t c) {i : Nat} {a : α}
    (hs : t.slots[i]? = some (some a)) :
    ∃ t' c', t.eraseAt C i = .ok t' ∧ Inv C t' c' ∧
      List.Perm (elems t) (a :: elems t') ∧ t'.capacity = t.capacity ∧ t'.slots = t.slots.set i none ∧
      (∀ j, j ≠ i → c'[j]? = c[j]?) := by
  unfold eraseAt
  rw [destroySlot_ok hs]
  simp only [Res.ok_bind]
  exact eraseMeta_spec hC h hs

end Gtl.Swiss
