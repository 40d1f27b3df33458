import Verif.Swiss.Drop
/-! Insertion. -/

namespace Gtl.Swiss
variable {α κ : Type}

open Tbl

/-- No slot is a tombstone: all the growth budget not used by elements is left. -/
def NoTomb (C : Cfg α κ) (t : Tbl α) : Prop := t.growthLeft + t.size = capacityToGrowth C.G.W t.capacity

/-- The outcome of preparing a slot for a new element `a`, constructing it and marking it full. -/
structure Placed (C : Cfg α κ) (t : Tbl α) (a : α) (t1 : Tbl α) (i : Nat) (t3 : Tbl α) (c3 : List Ctrl) : Prop where
  free : t1.slots[i]? = some none
  mark : Tbl.setCtrl C.G.W { t1 with slots := t1.slots.set i (some a) } i (H2 (C.hash (C.key a))) = .ok t3
  inv : Inv C t3 c3
  perm : List.Perm (elems t3) (a :: elems t)
  slot : t3.slots[i]? = some (some a)
  before : ∃ c1, Core C t1 c1 ∧ (kEmpty ∈ c1 ∨ t1.capacity + 1 < C.G.W)
  beforePerm : List.Perm (elems t1) (elems t)

theorem finish_spec {C : Cfg α κ} (hC : CfgOk C) {t : Tbl α} {c : List Ctrl} (h : Inv C t c) (a : α)
    (hnew : ∀ b ∈ elems t, C.eqv (C.key b) (C.key a) = false) (hex : ∃ x ∈ c, Eod x)
    (hg : ∀ i, t.findFirstNonFull C (C.hash (C.key a)) = .ok i → t.growthLeft = 0 → c.getD i kEmpty = kDeleted) :
    ∃ i t3 c3, t.findFirstNonFull C (C.hash (C.key a)) = .ok i ∧ i < t.capacity ∧
      t.ctrlAt i = .ok (c.getD i kEmpty) ∧
      Placed C t a { t with
        size := t.size + 1
        growthLeft := usub t.growthLeft (if isEmpty (c.getD i kEmpty) then 1 else 0) } i t3 c3 ∧
      t3.capacity = t.capacity ∧ t3.slots = t.slots.set i (some a) ∧
      t3.growthLeft = t.growthLeft - (if isEmpty (c.getD i kEmpty) then 1 else 0) ∧ t3.size = t.size + 1 ∧
      c3.count kDeleted ≤ c.count kDeleted := by
  have hWpos : 0 < C.G.W := by rcases hC.group.width with h | h <;> omega
  obtain ⟨i, ctrl', h1, h2, h3, h4, h5, h6, h7⟩ := place_spec hC h.core a hnew hex
  set g := (if isEmpty (c.getD i kEmpty) then 1 else 0) with hgd
  have hgle : g ≤ t.growthLeft := by
    by_cases h0 : t.growthLeft = 0
    · have := hg i h1 h0
      rw [hgd, this]; simp [show isEmpty kDeleted = false from rfl]
    · rw [hgd]; split <;> omega
  have hus := usub_of_le hgle
  obtain ⟨r1, r2⟩ := h7 (t.size + 1) (t.growthLeft - g)
  have hcnt := count_set h5 (H2 (C.hash (C.key a))) kDeleted
  rw [if_neg (ne_of_full (isFull_H2 _)).2.1] at hcnt
  refine ⟨i, _, _, h1, h2, by rw [h.core.raw.ctrlAt hWpos (by omega), lay_lt h2],
    ⟨h3, ?_, ⟨r1, ?_, ?_, ?_⟩, r2, ?_, ⟨c, h.core.congr rfl rfl rfl, h.has_empty hC⟩, List.Perm.refl _⟩,
    rfl, rfl, rfl, rfl, by omega⟩
  · simp only
    rw [← hgd, hus]; exact h6 _ _ _
  · simp only; rw [h.size_eq]; exact r2.length_eq.symm
  · simp only
    have hgr := h.growth
    rcases h4 with he | he
    · rw [he] at hcnt hgd
      rw [if_neg (by decide)] at hcnt
      simp only [show isEmpty kEmpty = true from rfl, if_true] at hgd
      omega
    · rw [he] at hcnt hgd
      rw [if_pos rfl] at hcnt
      simp only [show isEmpty kDeleted = false from rfl, Bool.false_eq_true, if_false] at hgd
      omega
  · intro hsm hd
    simp only at hsm
    rcases List.mem_or_eq_of_mem_set hd with hd | hd
    · exact h.small hsm hd
    · exact (ne_of_full (isFull_H2 _)).2.1 hd.symm
  · simp only
    rw [List.getElem?_set, if_pos rfl, if_pos (by rw [h.core.sync.slen]; exact h2)]

/-- After growing there is room. -/
theorem rehashAndGrow_inv {C : Cfg α κ} (hC : CfgOk C) {t : Tbl α} {c : List Ctrl} (h : Inv C t c)
    (h0 : t.growthLeft = 0) :
    ∃ t' c', t.rehashAndGrow C = .ok t' ∧ Inv C t' c' ∧ List.Perm (elems t') (elems t) ∧ 0 < t'.growthLeft ∧
      t.capacity ≤ t'.capacity ∧
      (t.capacity ≠ 0 → t.size ≤ capacityToGrowth C.G.W t.capacity / 2 → t'.capacity = t.capacity) ∧
      NoTomb C t' := by
  have hgr := h.growth
  unfold rehashAndGrow
  by_cases hc0 : t.capacity = 0
  · rw [if_pos hc0]
    have hsz : t.size = 0 := by
      have := capacityToGrowth_le C.G.W t.capacity
      omega
    obtain ⟨t', c', r1, r2, r3, r4, r5, r6, r7⟩ := resize_inv hC h (newCap := 1) ⟨1, by norm_num⟩ (by rw [hsz]; omega)
    refine ⟨t', c', r1, r2, r3, ?_, by omega, fun h _ => absurd hc0 h, by
      unfold NoTomb; rw [r4, r5, r6, hsz]; omega⟩
    rw [r6, hsz]
    have := capacityToGrowth_pos (W := C.G.W) (cap := 1) (by omega)
    omega
  · rw [if_neg hc0]
    have hpos := capacityToGrowth_pos (W := C.G.W) (cap := t.capacity) (by omega)
    by_cases hs : t.size ≤ capacityToGrowth C.G.W t.capacity / 2
    · rw [if_pos hs]
      have hd : kDeleted ∈ c := List.count_pos_iff.1 (by omega)
      have hbig : C.G.W ≤ t.capacity + 1 := by
        by_contra hcon
        exact h.small (by omega) hd
      obtain ⟨t', c', r1, r2, r3, r4, r5, r6, r7⟩ := dropDeletes_inv hC h hbig
      exact ⟨t', c', r1, r2, r3, by rw [r6]; omega, by omega, fun _ _ => r4, by
        unfold NoTomb; rw [r4, r5, r6]; omega⟩
    · rw [if_neg hs]
      obtain ⟨k, hk⟩ := h.core.raw.pow
      have hdb := capacityToGrowth_double C.G.W t.capacity (by omega)
      obtain ⟨t', c', r1, r2, r3, r4, r5, r6, r7⟩ := resize_inv hC h (newCap := t.capacity * 2 + 1)
        ⟨k + 1, by rw [pow_succ]; omega⟩ (by omega)
      exact ⟨t', c', r1, r2, r3, by rw [r6]; omega, by omega, fun _ h => absurd h hs, by
        unfold NoTomb; rw [r4, r5, r6]; omega⟩

/-- `prepare_insert` for a key that is not in the table. -/
theorem prepareInsert_spec {C : Cfg α κ} (hC : CfgOk C) {t : Tbl α} {c : List Ctrl} (h : Inv C t c) (a : α)
    (hnew : ∀ b ∈ elems t, C.eqv (C.key b) (C.key a) = false) :
    ∃ t1 i t3 c3, t.prepareInsert C (C.hash (C.key a)) = .ok (t1, i) ∧ Placed C t a t1 i t3 c3 ∧
      t.capacity ≤ t3.capacity ∧ t3.size = t.size + 1 ∧ t1.size = t.size + 1 ∧
      (t.growthLeft ≠ 0 → t3.capacity = t.capacity ∧ t3.slots = t.slots.set i (some a) ∧
        t.growthLeft ≤ t3.growthLeft + 1) ∧
      (t.capacity ≠ 0 → t.size ≤ capacityToGrowth C.G.W t.capacity / 2 → t3.capacity = t.capacity) ∧
      (NoTomb C t → NoTomb C t3) := by
  have hWpos : 0 < C.G.W := by rcases hC.group.width with h | h <;> omega
  -- the first target
  by_cases hex : ∃ x ∈ c, Eod x
  · obtain ⟨i, n, f1, f2, f3, _, _⟩ := findFirstNonFull_spec hC.group h.core.raw h.core.valid (C.hash (C.key a)) hex
    by_cases hgrow : t.growthLeft = 0 ∧ c.getD i kEmpty ≠ kDeleted
    · -- grow first
      obtain ⟨t', c', g1, g2, g3, g4, g5, g6, g7⟩ := rehashAndGrow_inv hC h hgrow.1
      have hnew' : ∀ b ∈ elems t', C.eqv (C.key b) (C.key a) = false := fun b hb => hnew b (g3.subset hb)
      have hlt : (elems t').length < t'.capacity := by
        have e1 := g2.growth
        have e2 := capacityToGrowth_le C.G.W t'.capacity
        have e3 := g2.size_eq
        omega
      obtain ⟨i', t3, c3, p1, p2, p3, p4, p5, p6, p7, p8, p9⟩ := finish_spec hC g2 a hnew' (exists_free g2.core hlt)
        (fun _ _ h0 => by omega)
      refine ⟨_, i', t3, c3, ?_, ⟨p4.free, p4.mark, p4.inv, p4.perm.trans (g3.cons a), p4.slot, p4.before, p4.beforePerm.trans g3⟩, by omega, ?_, ?_,
        fun hne => absurd hgrow.1 hne, fun e1 e2 => by rw [p5, g6 e1 e2], fun _ => by
        have e := p4.inv.growth
        have e' := g2.growth
        unfold NoTomb at g7 ⊢
        rw [p5] at e ⊢
        omega⟩
      · unfold prepareInsert
        rw [f1]
        simp only [Res.ok_bind]
        rw [h.core.raw.ctrlAt hWpos (by omega), lay_lt f2]
        simp only [Res.ok_bind]
        rw [if_pos ⟨hgrow.1, by unfold isDeleted; simpa using hgrow.2⟩, g1]
        simp only [Res.ok_bind]
        rw [p1]
        simp only [Res.ok_bind]
        rw [p3]
        simp only [Res.ok_bind]
      · rw [p8, g2.size_eq, g3.length_eq, ← h.size_eq]
      · simp only; rw [g2.size_eq, g3.length_eq, ← h.size_eq]
    · -- use the target
      obtain ⟨i', t3, c3, p1, p2, p3, p4, p5, p6, p7, p8, p9⟩ := finish_spec hC h a hnew hex (by
        intro i' hi' h0
        rw [f1] at hi'; cases hi'
        by_contra hcon
        exact hgrow ⟨h0, hcon⟩)
      have hii : i' = i := by rw [f1] at p1; cases p1; rfl
      subst hii
      refine ⟨_, i', t3, c3, ?_, p4, by omega, p8, rfl, fun hne => ⟨p5, p6, ?_⟩, fun _ _ => p5, fun g7 => by
        have e := p4.inv.growth
        have e' := h.growth
        unfold NoTomb at g7 ⊢
        rw [p5] at e ⊢
        omega⟩
      · unfold prepareInsert
        rw [f1]
        simp only [Res.ok_bind]
        rw [p3]
        simp only [Res.ok_bind]
        rw [if_neg (by
          rintro ⟨h0, h1⟩
          exact hgrow ⟨h0, fun he => h1 (by rw [he]; rfl)⟩)]
      · rw [p7]; split <;> omega
  · -- every slot of a small table is full
    have hno : ∀ x ∈ c, ¬ Eod x := fun x hx he => hex ⟨x, hx, he⟩
    have hsm : t.capacity + 1 < C.G.W := by
      rcases h.has_empty hC with he | he
      · exact absurd (.inl rfl) (hno _ he)
      · exact he
    have f1 := findFirstNonFull_full hC.group h.core.raw h.core.valid (C.hash (C.key a)) hno hsm
    have h0 : t.growthLeft = 0 := by
      have e1 := h.core.counts
      have e2 := h.growth
      have e3 := h.size_eq
      have e4 := capacityToGrowth_le C.G.W t.capacity
      have e5 : c.count kEmpty = 0 := List.count_eq_zero.2 (fun hh => hno _ hh (.inl rfl))
      have e6 : c.count kDeleted = 0 := List.count_eq_zero.2 (fun hh => hno _ hh (.inr rfl))
      omega
    obtain ⟨t', c', g1, g2, g3, g4, g5, g6, g7⟩ := rehashAndGrow_inv hC h h0
    have hnew' : ∀ b ∈ elems t', C.eqv (C.key b) (C.key a) = false := fun b hb => hnew b (g3.subset hb)
    have hlt : (elems t').length < t'.capacity := by
      have e1 := g2.growth
      have e2 := capacityToGrowth_le C.G.W t'.capacity
      have e3 := g2.size_eq
      omega
    obtain ⟨i', t3, c3, p1, p2, p3, p4, p5, p6, p7, p8, p9⟩ := finish_spec hC g2 a hnew' (exists_free g2.core hlt)
      (fun _ _ h0 => by omega)
    refine ⟨_, i', t3, c3, ?_, ⟨p4.free, p4.mark, p4.inv, p4.perm.trans (g3.cons a), p4.slot, p4.before, p4.beforePerm.trans g3⟩, by omega, ?_, ?_,
      fun hne => absurd h0 hne, fun e1 e2 => by rw [p5, g6 e1 e2], fun _ => by
        have e := p4.inv.growth
        have e' := g2.growth
        unfold NoTomb at g7 ⊢
        rw [p5] at e ⊢
        omega⟩
    · unfold prepareInsert
      rw [f1]
      simp only [Res.ok_bind]
      rw [h.core.raw.ctrlAt hWpos (by omega)]
      simp only [Res.ok_bind]
      rw [show lay c t.capacity t.capacity = kSentinel by unfold lay; rw [if_neg (by omega), if_pos rfl]]
      rw [if_pos ⟨h0, by decide⟩, g1]
      simp only [Res.ok_bind]
      rw [p1]
      simp only [Res.ok_bind]
      rw [p3]
      simp only [Res.ok_bind]
    · rw [p8, g2.size_eq, g3.length_eq, ← h.size_eq]
    · simp only; rw [g2.size_eq, g3.length_eq, ← h.size_eq]

/-- Outcome of `emplace`-like functions. -/
theorem emplaceHash_spec {C : Cfg α κ} (hC : CfgOk C) {t : Tbl α} {c : List Ctrl} (h : Inv C t c) (k : κ)
    (mk : Unit → α) (hk : C.eqv (C.key (mk ())) k = true) :
    (∃ i b, t.emplaceHash C k (C.hash k) mk = .ok (t, i, false) ∧ t.slots[i]? = some (some b) ∧
        C.eqv (C.key b) k = true) ∨
    ((∀ b ∈ elems t, C.eqv (C.key b) k = false) ∧
      ∃ t' c' i, t.emplaceHash C k (C.hash k) mk = .ok (t', i, true) ∧ Inv C t' c' ∧
        List.Perm (elems t') (mk () :: elems t) ∧ t'.slots[i]? = some (some (mk ())) ∧
        t.capacity ≤ t'.capacity ∧
        (t.growthLeft ≠ 0 → t'.capacity = t.capacity ∧ t'.slots = t.slots.set i (some (mk ())) ∧
          t.growthLeft ≤ t'.growthLeft + 1) ∧
        (t.capacity ≠ 0 → t.size ≤ capacityToGrowth C.G.W t.capacity / 2 → t'.capacity = t.capacity) ∧
        (NoTomb C t → NoTomb C t')) := by
  rcases find_inv hC h k with ⟨i, b, f1, f2, f3⟩ | ⟨f1, f2⟩
  · left
    refine ⟨i, b, ?_, f2, f3⟩
    unfold emplaceHash
    unfold find at f1
    rw [f1]
    simp only [Res.ok_bind]
  · right
    refine ⟨f2, ?_⟩
    have hh : C.hash (C.key (mk ())) = C.hash k := hC.hash_congr _ _ hk
    have hnew : ∀ b ∈ elems t, C.eqv (C.key b) (C.key (mk ())) = false := by
      intro b hb
      cases he : C.eqv (C.key b) (C.key (mk ())) with
      | false => rfl
      | true => rw [← f2 b hb, hC.trans _ _ _ he hk]
    obtain ⟨t1, i, t3, c3, p1, p2, p3, p4, p5, p6⟩ := prepareInsert_spec hC h (mk ()) hnew
    refine ⟨t3, c3, i, ?_, p2.inv, p2.perm, p2.slot, p3, p6⟩
    unfold emplaceHash
    unfold find at f1
    rw [f1]
    simp only [Res.ok_bind]
    rw [hh] at p1
    rw [p1]
    simp only [Res.ok_bind]
    rw [constructSlot_ok p2.free]
    simp only [Res.ok_bind]
    have := p2.mark
    rw [hh] at this
    rw [this]
    simp only [Res.ok_bind]

/-- `erase(key)`. -/
theorem erase_spec {C : Cfg α κ} (hC : CfgOk C) {t : Tbl α} {c : List Ctrl} (h : Inv C t c) (k : κ) :
    (t.erase C k = .ok (t, 0) ∧ ∀ b ∈ elems t, C.eqv (C.key b) k = false) ∨
    (∃ t' c' a, t.erase C k = .ok (t', 1) ∧ Inv C t' c' ∧ C.eqv (C.key a) k = true ∧
      List.Perm (elems t) (a :: elems t') ∧ t'.capacity = t.capacity) := by
  rcases find_inv hC h k with ⟨i, b, f1, f2, f3⟩ | ⟨f1, f2⟩
  · right
    obtain ⟨t', c', e1, e2, e3, e4, _⟩ := eraseAt_spec hC h f2
    refine ⟨t', c', b, ?_, e2, f3, e3, e4⟩
    unfold Tbl.erase
    rw [f1]
    simp only [Res.ok_bind]
    rw [e1]
    simp only [Res.ok_bind]
  · left
    refine ⟨?_, f2⟩
    unfold Tbl.erase
    rw [f1]
    simp only [Res.ok_bind]

/-- `extract(key)`. -/
theorem extract_spec {C : Cfg α κ} (hC : CfgOk C) {t : Tbl α} {c : List Ctrl} (h : Inv C t c) (k : κ) :
    (t.extract C k = .ok (t, none) ∧ ∀ b ∈ elems t, C.eqv (C.key b) k = false) ∨
    (∃ t' c' a, t.extract C k = .ok (t', some a) ∧ Inv C t' c' ∧ C.eqv (C.key a) k = true ∧
      List.Perm (elems t) (a :: elems t')) := by
  rcases find_inv hC h k with ⟨i, b, f1, f2, f3⟩ | ⟨f1, f2⟩
  · right
    obtain ⟨t', c', e1, e2, e3, _, _⟩ := eraseMeta_spec hC h f2
    refine ⟨t', c', b, ?_, e2, f3, e3⟩
    unfold extract extractAt
    rw [f1]
    simp only [Res.ok_bind]
    rw [readSlot_ok f2]
    simp only [Res.ok_bind]
    rw [destroySlot_ok f2]
    simp only [Res.ok_bind]
    rw [e1]
    simp only [Res.ok_bind]
  · left
    refine ⟨?_, f2⟩
    unfold extract
    rw [f1]
    simp only [Res.ok_bind]

/-! ### clear, destroy, rehash, reserve -/

theorem destroyFull_spec {C : Cfg α κ} (hC : CfgOk C) {t : Tbl α} {c : List Ctrl} (h : Core C t c) :
    ∃ t', t.destroyFull = .ok t' ∧ t'.slots = List.replicate t.capacity none ∧ t'.capacity = t.capacity ∧
      t'.ctrl = t.ctrl ∧ t'.size = t.size := by
  have hWpos : 0 < C.G.W := by rcases hC.group.width with h | h <;> omega
  let P : Nat → Tbl α → Prop := fun i s => s.ctrl = t.ctrl ∧ s.capacity = t.capacity ∧ s.size = t.size ∧
    s.slots.length = t.slots.length ∧
    (∀ j : Nat, s.slots[j]? = if j < i ∧ j < t.capacity then some none else t.slots[j]?)
  have hstep : ∀ i s, i < t.capacity → P i s → ∃ s', (do
      let c ← s.ctrlAt i
      if isFull c then s.destroySlot i else Res.ok s) = .ok s' ∧ P (i + 1) s' := by
    rintro i s hi ⟨p1, p2, p3, p4, p5⟩
    have hcl : i < c.length := by rw [h.raw.len]; exact hi
    have hctrl : s.ctrlAt i = .ok (c.getD i kEmpty) := by
      have := h.raw.ctrlAt hWpos (show i ≤ t.capacity by omega)
      rw [lay_lt hi] at this
      unfold ctrlAt at *; rw [p1]; exact this
    rw [hctrl]
    simp only [Res.ok_bind]
    have hsi : s.slots[i]? = t.slots[i]? := by rw [p5 i, if_neg (by omega)]
    have hil : i < t.slots.length := by rw [h.sync.slen]; exact hi
    by_cases hf : isFull (c.getD i kEmpty) = true
    · rw [if_pos hf]
      obtain ⟨a, ha⟩ := h.sync.full_slot hi (getElem?_getD hcl) hf
      rw [destroySlot_ok (hsi.trans ha)]
      refine ⟨_, rfl, p1, p2, p3, by simpa using p4, ?_⟩
      intro j
      simp only
      rw [List.getElem?_set]
      by_cases hij : i = j
      · subst hij; rw [if_pos rfl, if_pos (by omega), if_pos ⟨by omega, hi⟩]
      · rw [if_neg hij, p5 j]
        by_cases hc : j < i ∧ j < t.capacity
        · rw [if_pos hc, if_pos ⟨by omega, hc.2⟩]
        · rw [if_neg hc, if_neg (by omega)]
    · rw [if_neg hf]
      refine ⟨s, rfl, p1, p2, p3, p4, ?_⟩
      intro j
      rw [p5 j]
      by_cases hij : j = i
      · subst hij
        rw [if_neg (by omega), if_pos ⟨by omega, hi⟩]
        rcases h.valid _ (List.mem_of_getElem? (getElem?_getD hcl)) with hh | hh
        · exact absurd hh hf
        · exact h.sync.eod_slot hi (getElem?_getD hcl) hh
      · by_cases hc : j < i ∧ j < t.capacity
        · rw [if_pos hc, if_pos ⟨by omega, hc.2⟩]
        · rw [if_neg hc, if_neg (by omega)]
  obtain ⟨s, h1, p1, p2, p3, p4, p5⟩ := foldlM_range (P := P) t.capacity (s := t) ⟨rfl, rfl, rfl, rfl, fun j => by simp⟩ hstep
  refine ⟨s, h1, ?_, p2, p1, p3⟩
  apply List.ext_getElem?
  intro j
  rw [p5 j, List.getElem?_replicate]
  by_cases hj : j < t.capacity
  · rw [if_pos ⟨hj, hj⟩, if_pos hj]
  · rw [if_neg (by omega), if_neg hj, List.getElem?_eq_none]
    rw [h.sync.slen]; omega

theorem all_none_replicate (n : Nat) : (List.replicate n (none : Option α)).all Option.isNone = true := by
  rw [List.all_eq_true]; intro o ho; rw [List.eq_of_mem_replicate ho]; rfl

theorem clear_spec {C : Cfg α κ} (hC : CfgOk C) {t : Tbl α} {c : List Ctrl} (h : Inv C t c) :
    ∃ t' c', t.clear C = .ok t' ∧ Inv C t' c' ∧ elems t' = [] ∧ t'.size = 0 ∧ t'.capacity = t.capacity ∧
      (NoTomb C t → NoTomb C t') := by
  unfold Tbl.clear
  by_cases h0 : t.size = 0
  · rw [if_pos h0]
    refine ⟨t, c, rfl, h, ?_, h0, rfl, id⟩
    rw [← List.length_eq_zero_iff, ← h.size_eq]; exact h0
  · rw [if_neg h0]
    have hc0 : t.capacity ≠ 0 := by
      intro hc
      have := capacityToGrowth_le C.G.W t.capacity
      have := h.growth; omega
    rw [if_neg hc0]
    obtain ⟨t', d1, d2, d3, d4, d5⟩ := destroyFull_spec hC h.core
    rw [d1]
    simp only [Res.ok_bind]
    rw [d2, if_pos (all_none_replicate _)]
    refine ⟨_, List.replicate t.capacity kEmpty, rfl, ⟨fresh_core hC.group d3 (by rw [d3]) rfl h.core.raw.pow,
      ?_, ?_, ?_⟩, elems_replicate rfl, rfl, d3, fun _ => by
        unfold NoTomb; simp only; rw [usub_of_le (by omega)]; omega⟩
    · rw [elems_replicate rfl]; rfl
    · simp only
      rw [count_replicate_deleted, usub_of_le (by omega), d3]; omega
    · intro _ hd
      exact absurd (List.eq_of_mem_replicate hd) (by decide)

theorem destroySlots_spec {C : Cfg α κ} (hC : CfgOk C) {t : Tbl α} {c : List Ctrl} (h : Core C t c) :
    ∃ t' : Tbl α, t.destroySlots = .ok t' ∧ ((t.capacity = 0 ∧ t' = t) ∨ t' = empty) := by
  unfold destroySlots
  by_cases hc0 : t.capacity = 0
  · rw [if_pos hc0]; exact ⟨t, rfl, .inl ⟨hc0, rfl⟩⟩
  · rw [if_neg hc0]
    obtain ⟨t', d1, d2, d3, d4, d5⟩ := destroyFull_spec hC h
    rw [d1]
    simp only [Res.ok_bind]
    rw [d2, if_pos (all_none_replicate _)]
    exact ⟨_, rfl, .inr rfl⟩

/-- `rehash(n)` with `n > 0`, and `rehash(0)` when the smallest capacity has room for the elements. -/
theorem rehash_spec {C : Cfg α κ} (hC : CfgOk C) {t : Tbl α} {c : List Ctrl} (h : Inv C t c) (n : Nat)
    (hn : n ≠ 0 ∨ t.size ≤ capacityToGrowth C.G.W (normalizeCapacity t.size)) :
    ∃ t' c', t.rehash C n = .ok t' ∧ Inv C t' c' ∧ List.Perm (elems t') (elems t) ∧ n ≤ t'.capacity ∧
      (n ≠ 0 → t.capacity ≤ t'.capacity) ∧ (NoTomb C t → NoTomb C t') := by
  unfold rehash
  by_cases h1 : n = 0 ∧ t.capacity = 0
  · rw [if_pos h1]; exact ⟨t, c, rfl, h, List.Perm.refl _, by omega, by omega, id⟩
  rw [if_neg h1]
  by_cases h2 : n = 0 ∧ t.size = 0
  · rw [if_pos h2]
    obtain ⟨t', d1, d2⟩ := destroySlots_spec hC h.core
    have he : elems t = [] := by rw [← List.length_eq_zero_iff, ← h.size_eq]; exact h2.2
    rcases d2 with ⟨_, rfl⟩ | rfl
    · exact ⟨t', c, d1, h, List.Perm.refl _, by omega, by omega, id⟩
    · refine ⟨empty, [], d1, empty_inv hC.group, ?_, by omega, by omega, fun _ => by simp [NoTomb, empty, capacityToGrowth]⟩
      rw [he]; exact List.Perm.refl _
  rw [if_neg h2]
  obtain ⟨k, hk1, hk2⟩ := normalizeCapacity_pow (max n t.size)
  have hle := le_normalizeCapacity (max n t.size)
  simp only
  by_cases h3 : n = 0 ∨ normalizeCapacity (max n t.size) > t.capacity
  · rw [if_pos h3]
    have hfit : t.size ≤ capacityToGrowth C.G.W (normalizeCapacity (max n t.size)) := by
      by_cases hn0 : n = 0
      · rcases hn with hh | hh
        · exact absurd hn0 hh
        · rw [hn0, Nat.zero_max]; exact hh
      · have hgt : normalizeCapacity (max n t.size) > t.capacity := by
          rcases h3 with hh | hh
          · exact absurd hh hn0
          · exact hh
        -- growing: at least doubling
        by_cases hc0 : t.capacity = 0
        · have := capacityToGrowth_le C.G.W t.capacity
          have := h.growth; omega
        · have hgr := h.growth
          have hmono : capacityToGrowth C.G.W t.capacity ≤ capacityToGrowth C.G.W (normalizeCapacity (max n t.size)) := by
            obtain ⟨q, hq⟩ := h.core.raw.pow
            unfold capacityToGrowth
            split <;> split <;> omega
          omega
    obtain ⟨t', c', r1, r2, r3, r4, r5, r6, r7⟩ := resize_inv hC h ⟨k, hk2⟩ hfit
    exact ⟨t', c', r1, r2, r3, by omega, by omega, fun _ => by
      unfold NoTomb; rw [r4, r5, r6]; omega⟩
  · rw [if_neg h3]
    exact ⟨t, c, rfl, h, List.Perm.refl _, by omega, by omega, id⟩

end Gtl.Swiss
