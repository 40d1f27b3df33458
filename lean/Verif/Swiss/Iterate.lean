import Verif.Swiss.Insert
import Mathlib.Data.List.Nodup
/-! Iteration, `erase_if`, range erase, copy, merge, `operator==`, range insert. -/

namespace Gtl.Swiss
variable {α κ : Type}

open Tbl

theorem lay_not_eod_full {C : Cfg α κ} {t : Tbl α} {c : List Ctrl} (h : Core C t c) {p : Nat} (hp : p < t.capacity)
    (hn : ¬ Eod (lay c t.capacity p)) : ∃ a, t.slots[p]? = some (some a) := by
  have hcl : p < c.length := by rw [h.raw.len]; exact hp
  rw [lay_lt hp] at hn
  rcases h.valid _ (List.mem_of_getElem? (getElem?_getD hcl)) with hh | hh
  · exact h.sync.full_slot hp (getElem?_getD hcl) hh
  · exact absurd hh hn

/-- `skip_empty_or_deleted` stops at the first element or at `end()`. -/
theorem skip_spec {C : Cfg α κ} (hG : GroupSpec C.G) {t : Tbl α} {c : List Ctrl} (h : Core C t c) :
    ∀ fuel p, p ≤ t.capacity → t.capacity - p < fuel →
    ∃ q, t.skip C fuel p = .ok q ∧ p ≤ q ∧ q ≤ t.capacity ∧ (∀ j : Nat, p ≤ j → j < q → t.slots[j]? = some none) ∧
      (q < t.capacity → ∃ a, t.slots[q]? = some (some a)) := by
  have hWpos : 0 < C.G.W := by rcases hG.width with h | h <;> omega
  intro fuel
  induction fuel with
  | zero => intro p _ h; omega
  | succ fuel ih =>
    intro p hp hf
    unfold skip
    rw [h.raw.ctrlAt hWpos hp]
    simp only [Res.ok_bind]
    have hv := lay_valid h.raw.len h.valid p
    by_cases he : isEmptyOrDeleted (lay c t.capacity p) = true
    · rw [if_pos he, h.raw.load hWpos hp]
      simp only [Res.ok_bind]
      have heod : Eod (lay c t.capacity p) := (valid_eod _ hv).1 he
      obtain ⟨g1, g2, g3⟩ := hG.countLeading (win c t.capacity C.G.W p) (win_length _ _ _ _) (win_valid h.raw.len h.valid)
      set n := C.G.countLeadingEmptyOrDeleted (win c t.capacity C.G.W p) with hn
      have hpc : p < t.capacity := by
        by_contra hcon
        have : p = t.capacity := by omega
        rw [this] at heod
        unfold lay at heod
        rw [if_neg (by omega), if_pos rfl] at heod
        exact not_eod_sentinel heod
      have hn0 : 0 < n := by
        by_contra hcon
        have h0 : n = 0 := by omega
        rw [h0] at g3
        exact g3 _ (win_getElem? hWpos) heod
      have hle : p + n ≤ t.capacity := by
        by_contra hcon
        have hw := g2 (t.capacity - p) _ (by omega) (win_getElem? (by omega))
        rw [show p + (t.capacity - p) = t.capacity by omega] at hw
        unfold lay at hw
        rw [if_neg (by omega), if_pos rfl] at hw
        exact not_eod_sentinel hw
      obtain ⟨q, r1, r2, r3, r4, r5⟩ := ih (p + n) hle (by omega)
      refine ⟨q, r1, by omega, r3, ?_, r5⟩
      intro j hj hjq
      by_cases hjn : j < p + n
      · have hw := g2 (j - p) _ (by omega) (win_getElem? (by omega))
        rw [show p + (j - p) = j by omega] at hw
        rw [lay_lt (by omega)] at hw
        exact h.sync.eod_slot (by omega) (getElem?_getD (by rw [h.raw.len]; omega)) hw
      · exact r4 j (by omega) hjq
    · rw [if_neg he]
      have hne : ¬ Eod (lay c t.capacity p) := fun hh => he ((valid_eod _ hv).2 hh)
      exact ⟨p, rfl, le_refl _, hp, fun j h1 h2 => by omega, fun hlt => lay_not_eod_full h hlt hne⟩

theorem drop_filterMap_none {s : List (Option α)} {p q : Nat} (hpq : p ≤ q)
    (h : ∀ j : Nat, p ≤ j → j < q → s[j]? = some none) :
    (s.drop p).filterMap id = (s.drop q).filterMap id := by
  obtain ⟨d, rfl⟩ := Nat.exists_eq_add_of_le hpq
  induction d with
  | zero => rfl
  | succ d ih =>
    rw [ih (by omega) (fun j h1 h2 => h j h1 (by omega))]
    have hs := h (p + d) (by omega) (by omega)
    have hlt : p + d < s.length := by rw [List.getElem?_eq_some_iff] at hs; exact hs.1
    rw [List.drop_eq_getElem_cons hlt]
    have : s[p + d] = none := by rw [List.getElem?_eq_getElem hlt] at hs; exact Option.some.inj hs
    rw [this, List.filterMap_cons_none rfl]; rfl

theorem drop_filterMap_some {s : List (Option α)} {p : Nat} {a : α} (h : s[p]? = some (some a)) :
    (s.drop p).filterMap id = a :: (s.drop (p + 1)).filterMap id := by
  have hlt : p < s.length := by rw [List.getElem?_eq_some_iff] at h; exact h.1
  rw [List.drop_eq_getElem_cons hlt]
  have : s[p] = some a := by rw [List.getElem?_eq_getElem hlt] at h; exact Option.some.inj h
  rw [this, List.filterMap_cons_some (f := id) (show id (some a) = some a from rfl)]

theorem next_spec {C : Cfg α κ} (hG : GroupSpec C.G) {t : Tbl α} {c : List Ctrl} (h : Core C t c) {p : Nat}
    (hp : p < t.capacity) :
    ∃ q, t.next C p = .ok q ∧ p < q ∧ q ≤ t.capacity ∧ (∀ j : Nat, p < j → j < q → t.slots[j]? = some none) ∧
      (q < t.capacity → ∃ a, t.slots[q]? = some (some a)) := by
  obtain ⟨q, h1, h2, h3, h4, h5⟩ := skip_spec hG h t.fuel (p + 1) (by omega) (by unfold fuel; omega)
  exact ⟨q, h1, by omega, h3, fun j hj => h4 j (by omega), h5⟩

theorem begin_spec {C : Cfg α κ} (hG : GroupSpec C.G) {t : Tbl α} {c : List Ctrl} (h : Core C t c) :
    ∃ q, t.begin_ C = .ok q ∧ q ≤ t.capacity ∧ (∀ j : Nat, j < q → t.slots[j]? = some none) ∧
      (q < t.capacity → ∃ a, t.slots[q]? = some (some a)) := by
  obtain ⟨q, h1, h2, h3, h4, h5⟩ := skip_spec hG h t.fuel 0 (by omega) (by unfold fuel; omega)
  exact ⟨q, h1, h3, fun j hj => h4 j (by omega) hj, h5⟩

theorem collect_spec {C : Cfg α κ} (hG : GroupSpec C.G) {t : Tbl α} {c : List Ctrl} (h : Core C t c) :
    ∀ fuel p, p ≤ t.capacity → t.capacity - p < fuel → (p < t.capacity → ∃ a, t.slots[p]? = some (some a)) →
    t.collect C fuel p = .ok ((t.slots.drop p).filterMap id) := by
  intro fuel
  induction fuel with
  | zero => intro p _ h; omega
  | succ fuel ih =>
    intro p hp hf hfull
    unfold collect
    by_cases hpc : p = t.capacity
    · rw [if_pos hpc, hpc, ← h.sync.slen, List.drop_length]; rfl
    · rw [if_neg hpc]
      obtain ⟨a, ha⟩ := hfull (by omega)
      rw [readSlot_ok ha]
      simp only [Res.ok_bind]
      obtain ⟨q, n1, n2, n3, n4, n5⟩ := next_spec hG h (show p < t.capacity by omega)
      rw [n1]
      simp only [Res.ok_bind]
      rw [ih q n3 (by omega) n5]
      simp only [Res.ok_bind]
      rw [drop_filterMap_some ha, drop_filterMap_none (p := p + 1) (q := q) (by omega) (fun j h1 h2 => n4 j (by omega) h2)]

/-- Iterating over the container visits exactly the stored elements, each once. -/
theorem iterate_spec {C : Cfg α κ} (hG : GroupSpec C.G) {t : Tbl α} {c : List Ctrl} (h : Core C t c) :
    t.iterate C = .ok (elems t) := by
  obtain ⟨q, b1, b2, b3, b4⟩ := begin_spec hG h
  unfold iterate
  rw [b1]
  simp only [Res.ok_bind]
  rw [collect_spec hG h t.fuel q b2 (by unfold fuel; omega) b4]
  congr 1
  have := drop_filterMap_none (s := t.slots) (p := 0) (q := q) (by omega) (fun j _ hj => b3 j hj)
  rw [← this]; rfl

/-! ### erase_if -/

theorem set_take_drop {β : Type} {s : List β} {p : Nat} {x : β} (hp : p < s.length) :
    (s.set p x).take p = s.take p ∧ (s.set p x).drop (p + 1) = s.drop (p + 1) := by
  constructor
  · rw [List.take_set_of_le (le_refl _)]
  · rw [List.drop_set_of_lt (by omega)]

theorem eraseIfLoop_spec {C : Cfg α κ} (hC : CfgOk C) (pred : α → Bool) : ∀ fuel (t : Tbl α) (c : List Ctrl) p, Inv C t c →
    p ≤ t.capacity → t.capacity - p < fuel → (p < t.capacity → ∃ a, t.slots[p]? = some (some a)) →
    ∃ t' c', eraseIfLoop C pred fuel t p = .ok t' ∧ Inv C t' c' ∧ t'.capacity = t.capacity ∧
      elems t' = (t.slots.take p).filterMap id ++ ((t.slots.drop p).filterMap id).filter (fun a => !pred a) := by
  intro fuel
  induction fuel with
  | zero => intro t c p _ _ h; omega
  | succ fuel ih =>
    intro t c p h hp hf hfull
    unfold eraseIfLoop
    by_cases hpc : p = t.capacity
    · rw [if_pos hpc]
      refine ⟨t, c, rfl, h, rfl, ?_⟩
      rw [hpc, ← h.core.sync.slen, List.drop_length, List.take_length]
      simp [elems]
    · rw [if_neg hpc]
      have hlt : p < t.capacity := by omega
      obtain ⟨a, ha⟩ := hfull hlt
      rw [readSlot_ok ha]
      simp only [Res.ok_bind]
      obtain ⟨q, n1, n2, n3, n4, n5⟩ := next_spec hC.group h.core hlt
      have hsl : p < t.slots.length := by rw [h.core.sync.slen]; exact hlt
      have hdrop : ∀ s : List (Option α), (∀ j : Nat, p < j → j < q → s[j]? = some none) →
          (s.drop (p + 1)).filterMap id = (s.drop q).filterMap id :=
        fun s hs => drop_filterMap_none (by omega) (fun j h1 h2 => hs j (by omega) h2)
      have htake : ∀ s : List (Option α), (∀ j : Nat, p < j → j < q → s[j]? = some none) → ∀ o, s[p]? = some o →
          (s.take q).filterMap id = (s.take p).filterMap id ++ [o].filterMap id := by
        intro s hs o ho
        have hl : p < s.length := by rw [List.getElem?_eq_some_iff] at ho; exact ho.1
        have e1 : s.take q = s.take (p + 1) ++ (s.drop (p + 1)).take (q - (p + 1)) := by
          rw [← List.take_add]; congr 1; omega
        have e2 : ((s.drop (p + 1)).take (q - (p + 1))).filterMap id = [] := by
          rw [List.filterMap_eq_nil_iff]
          intro x hx
          rw [List.mem_iff_getElem?] at hx
          obtain ⟨j, hj⟩ := hx
          have hjl : j < q - (p + 1) := by
            by_contra hcon
            rw [List.getElem?_take, if_neg hcon] at hj; cases hj
          rw [List.getElem?_take, if_pos hjl, List.getElem?_drop, hs _ (by omega) (by omega)] at hj
          cases hj; rfl
        rw [e1, List.filterMap_append, e2, List.append_nil, List.take_add_one, ho, List.filterMap_append]
        rfl
      by_cases hpr : pred a = true
      · rw [if_pos hpr, n1]
        simp only [Res.ok_bind]
        obtain ⟨t1, c1, e1, e2, e3, e4, e5, e6⟩ := eraseAt_spec hC h ha
        rw [e1]
        simp only [Res.ok_bind]
        have hs1 : ∀ j : Nat, p < j → t1.slots[j]? = t.slots[j]? := by
          intro j hj; rw [e5, List.getElem?_set, if_neg (by omega)]
        obtain ⟨t', c', r1, r2, r3, r4⟩ := ih t1 c1 q e2 (by omega) (by omega) (by
          intro hq; rw [hs1 q n2]; exact n5 (by omega))
        refine ⟨t', c', r1, r2, by omega, ?_⟩
        have hn1 : ∀ j : Nat, p < j → j < q → t1.slots[j]? = some none := fun j h1 h2 => by rw [hs1 j h1]; exact n4 j h1 h2
        rw [r4, htake t1.slots hn1 none (by rw [e5, List.getElem?_set, if_pos rfl, if_pos hsl]),
          ← hdrop t1.slots hn1, e5, (set_take_drop hsl).1, (set_take_drop hsl).2, drop_filterMap_some ha]
        simp [hpr]
      · rw [if_neg hpr, n1]
        simp only [Res.ok_bind]
        obtain ⟨t', c', r1, r2, r3, r4⟩ := ih t c q h (by omega) (by omega) n5
        refine ⟨t', c', r1, r2, by omega, ?_⟩
        rw [r4, htake t.slots n4 (some a) ha, ← hdrop t.slots n4, drop_filterMap_some ha, List.filter_cons]
        simp [hpr]

theorem eraseIf_spec {C : Cfg α κ} (hC : CfgOk C) {t : Tbl α} {c : List Ctrl} (h : Inv C t c) (pred : α → Bool) :
    ∃ t' c', t.eraseIf C pred = .ok (t', (elems t).countP pred) ∧ Inv C t' c' ∧
      elems t' = (elems t).filter (fun a => !pred a) := by
  obtain ⟨q, b1, b2, b3, b4⟩ := begin_spec hC.group h.core
  obtain ⟨t', c', r1, r2, r3, r4⟩ := eraseIfLoop_spec hC pred t.fuel t c q h b2 (by unfold fuel; omega) b4
  have he : elems t' = (elems t).filter (fun a => !pred a) := by
    rw [r4]
    have e1 : (t.slots.take q).filterMap id = [] := by
      rw [List.filterMap_eq_nil_iff]
      intro x hx
      rw [List.mem_iff_getElem?] at hx
      obtain ⟨j, hj⟩ := hx
      have hjl : j < q := by
        by_contra hcon
        rw [List.getElem?_take, if_neg hcon] at hj; cases hj
      rw [List.getElem?_take, if_pos hjl, b3 _ hjl] at hj
      cases hj; rfl
    have e2 : (t.slots.drop q).filterMap id = elems t := by
      have := drop_filterMap_none (s := t.slots) (p := 0) (q := q) (by omega) (fun j _ hj => b3 j hj)
      rw [← this]; rfl
    rw [e1, e2, List.nil_append]
  refine ⟨t', c', ?_, r2, he⟩
  unfold eraseIf
  rw [b1]
  simp only [Res.ok_bind]
  rw [r1]
  simp only [Res.ok_bind]
  rw [h.size_eq, r2.size_eq, he]
  have hsum := List.length_eq_countP_add_countP (l := elems t) pred
  congr 2
  rw [← List.countP_eq_length_filter]
  have : List.countP (fun a => !pred a) (elems t) = List.countP (fun a => decide ¬pred a = true) (elems t) := by
    apply List.countP_congr; intro x _; simp
  omega

/-- `erase(first, last)`: positions of elements (or the end). -/
theorem eraseRange_spec {C : Cfg α κ} (hC : CfgOk C) : ∀ fuel (t : Tbl α) (c : List Ctrl) first last, Inv C t c →
    first ≤ last → last ≤ t.capacity → last - first < fuel → (first < t.capacity → ∃ a, t.slots[first]? = some (some a)) →
    (last < t.capacity → ∃ a, t.slots[last]? = some (some a)) →
    ∃ t' c', eraseRange C fuel t first last = .ok (t', last) ∧ Inv C t' c' ∧ t'.capacity = t.capacity ∧
      elems t' = (t.slots.take first).filterMap id ++ (t.slots.drop last).filterMap id := by
  intro fuel
  induction fuel with
  | zero => intro t c first last _ _ _ h; omega
  | succ fuel ih =>
    intro t c first last h hfl hl hf hfirst hlast
    unfold eraseRange
    by_cases he : first = last
    · rw [if_pos he]
      subst he
      refine ⟨t, c, rfl, h, rfl, ?_⟩
      rw [← List.filterMap_append, List.take_append_drop]; rfl
    · rw [if_neg he]
      have hlt : first < t.capacity := by omega
      obtain ⟨a, ha⟩ := hfirst hlt
      have hsl : first < t.slots.length := by rw [h.core.sync.slen]; exact hlt
      obtain ⟨q, n1, n2, n3, n4, n5⟩ := next_spec hC.group h.core hlt
      rw [n1]
      simp only [Res.ok_bind]
      obtain ⟨t1, c1, e1, e2, e3, e4, e5, e6⟩ := eraseAt_spec hC h ha
      rw [e1]
      simp only [Res.ok_bind]
      have hql : q ≤ last := by
        by_contra hcon
        obtain ⟨b, hb⟩ := hlast (by omega)
        rw [n4 last (by omega) (by omega)] at hb; cases hb
      have hs1 : ∀ j : Nat, first < j → t1.slots[j]? = t.slots[j]? := by
        intro j hj; rw [e5, List.getElem?_set, if_neg (by omega)]
      obtain ⟨t', c', r1, r2, r3, r4⟩ := ih t1 c1 q last e2 hql (by omega) (by omega)
        (fun hq => by rw [hs1 q n2]; exact n5 (by omega)) (fun hq => by rw [hs1 last (by omega)]; exact hlast (by omega))
      refine ⟨t', c', r1, r2, by omega, ?_⟩
      rw [r4]
      have x1 : t1.slots.drop last = t.slots.drop last := by rw [e5, List.drop_set_of_lt (by omega)]
      have x2 : (t1.slots.take q).filterMap id = (t.slots.take first).filterMap id := by
        have y1 : t1.slots.take q = t1.slots.take first ++ (t1.slots.drop first).take (q - first) := by
          rw [← List.take_add]; congr 1; omega
        have y2 : ((t1.slots.drop first).take (q - first)).filterMap id = [] := by
          rw [List.filterMap_eq_nil_iff]
          intro x hx
          rw [List.mem_iff_getElem?] at hx
          obtain ⟨j, hj⟩ := hx
          have hjl : j < q - first := by
            by_contra hcon
            rw [List.getElem?_take, if_neg hcon] at hj; cases hj
          rw [List.getElem?_take, if_pos hjl, List.getElem?_drop] at hj
          by_cases hj0 : j = 0
          · subst hj0
            rw [e5, List.getElem?_set, if_pos (by omega), if_pos (by omega)] at hj
            cases hj; rfl
          · rw [hs1 _ (by omega), n4 _ (by omega) (by omega)] at hj
            cases hj; rfl
        rw [y1, List.filterMap_append, y2, List.append_nil, e5, (set_take_drop hsl).1]
      rw [x1, x2]

/-! ### copy -/

theorem foldlM_list {σ β : Type} {f : σ → β → Res σ} {P : List β → σ → Prop} :
    ∀ (l : List β) {s : σ}, P l s → (∀ b l s, P (b :: l) s → ∃ s', f s b = .ok s' ∧ P l s') →
    ∃ s', l.foldlM f s = .ok s' ∧ P [] s' := by
  intro l
  induction l with
  | nil => intro s h _; exact ⟨s, rfl, h⟩
  | cons b l ih =>
    intro s h hstep
    obtain ⟨s1, h1, h2⟩ := hstep b l s h
    obtain ⟨s2, h3, h4⟩ := ih h2 hstep
    refine ⟨s2, ?_, h4⟩
    rw [List.foldlM_cons, h1]; exact h3

theorem normalizeCapacity_self {cap : Nat} (hp : ∃ k, cap + 1 = 2 ^ k) (h0 : cap ≠ 0) : normalizeCapacity cap = cap := by
  obtain ⟨k, hk⟩ := hp
  have hk0 : k ≠ 0 := by rintro rfl; simp at hk; omega
  obtain ⟨j, rfl⟩ : ∃ j, k = j + 1 := ⟨k - 1, by omega⟩
  have hlog : cap.log2 = j := by
    rw [Nat.log2_eq_iff h0]
    rw [pow_succ] at hk ⊢
    have := Nat.two_pow_pos j
    omega
  unfold normalizeCapacity
  rw [if_neg h0, hlog, ← hk]; omega

/-- The empty table the copy constructor starts with. -/
theorem copy_start {C : Cfg α κ} (hC : CfgOk C) {t : Tbl α} {c : List Ctrl} {hf : κ → Nat} (h : Inv { C with hash := hf } t c) :
    ∃ t0 c0, (empty : Tbl α).rehash C t.capacity = .ok t0 ∧ Core C t0 c0 ∧
      elems t0 = [] ∧ t0.capacity = t.capacity ∧ t0.growthLeft = capacityToGrowth C.G.W t.capacity ∧ kDeleted ∉ c0 := by
  have hgr := h.growth
  unfold rehash
  by_cases hc0 : t.capacity = 0
  · rw [if_pos ⟨hc0, rfl⟩, hc0]
    refine ⟨_, [], rfl, (empty_inv hC.group).core, rfl, rfl, ?_, by simp⟩
    have := capacityToGrowth_le C.G.W 0
    show 0 = _; omega
  · rw [if_neg (by omega), if_neg (by omega)]
    have hself : normalizeCapacity (max t.capacity (empty : Tbl α).size) = t.capacity := by
      show normalizeCapacity (max t.capacity 0) = _
      rw [Nat.max_zero]; exact normalizeCapacity_self h.core.raw.pow hc0
    simp only
    rw [hself, if_pos (.inr (by show t.capacity > 0; omega))]
    obtain ⟨t', c', r1, r2, r3, r4, r5, r6, r7⟩ := resize_inv hC (empty_inv hC.group) (newCap := t.capacity)
      h.core.raw.pow (Nat.zero_le _)
    refine ⟨t', c', r1, r2.core, ?_, r4, r6, r7⟩
    exact List.Perm.eq_nil r3

/-- Loop invariant of the copy constructor: `l` is still to be copied. -/
def CopyP (C : Cfg α κ) (t : Tbl α) (l : List α) (s : Tbl α) : Prop := ∃ cs, Core C s cs ∧ s.capacity = t.capacity ∧
    s.growthLeft = capacityToGrowth C.G.W t.capacity ∧ kDeleted ∉ cs ∧ List.Perm (elems s ++ l) (elems t)

theorem copy_place {C : Cfg α κ} (hC : CfgOk C) {t : Tbl α} {c : List Ctrl} {hf : κ → Nat} (h : Inv { C with hash := hf } t c) {v : α} {l : List α}
    {s : Tbl α} {cs : List Ctrl} (p1 : Core C s cs) (p2 : s.capacity = t.capacity)
    (p5 : List.Perm (elems s ++ v :: l) (elems t)) :
    (∀ b ∈ elems s, C.eqv (C.key b) (C.key v) = false) ∧ ∃ x ∈ cs, Eod x := by
  have hgr := h.growth
  dsimp only at hgr
  have hdist : Distinct C (elems s ++ v :: l) := Distinct.perm hC p5.symm h.core.distinct
  refine ⟨?_, ?_⟩
  · intro b hb
    unfold Distinct at hdist
    rw [List.pairwise_append] at hdist
    exact hdist.2.2 b hb v (by simp)
  · apply exists_free p1
    have e1 := p5.length_eq
    rw [List.length_append, List.length_cons, ← h.size_eq] at e1
    have := capacityToGrowth_le C.G.W t.capacity
    omega

theorem copy_step {C : Cfg α κ} (hC : CfgOk C) {t : Tbl α} {c : List Ctrl} {hf : κ → Nat} (h : Inv { C with hash := hf } t c) :
    ∀ v l s, CopyP C t (v :: l) s → ∃ s', (do
      let target ← s.findFirstNonFull C (C.hash (C.key v))
      let t ← s.setCtrl C.G.W target (H2 (C.hash (C.key v)))
      t.constructSlot target v) = .ok s' ∧ CopyP C t l s' := by
  rintro v l s ⟨cs, p1, p2, p3, p4, p5⟩
  obtain ⟨hnew, hfree⟩ := copy_place hC h p1 p2 p5
  obtain ⟨i, ctrl', q1, q2, q3, q4, q5, q6, q7⟩ := place_spec hC p1 v hnew hfree
  obtain ⟨r1, r2⟩ := q7 s.size s.growthLeft
  refine ⟨_, ?_, _, r1, p2, p3, ?_, ?_⟩
  · rw [q1]
    simp only [Res.ok_bind]
    have q6' := q6 s.size s.growthLeft s.slots
    have e1 : ({ s with size := s.size, growthLeft := s.growthLeft, slots := s.slots } : Tbl α) = s := rfl
    rw [e1] at q6'
    rw [q6']
    simp only [Res.ok_bind]
    exact constructSlot_ok (t := { s with ctrl := ctrl' }) q3
  · intro hd
    rcases List.mem_or_eq_of_mem_set hd with hd | hd
    · exact p4 hd
    · exact (ne_of_full (isFull_H2 _)).2.1 hd.symm
  · refine ((r2.append_right l).trans ?_).trans p5
    exact List.perm_middle.symm

theorem copy_spec {C : Cfg α κ} (hC : CfgOk C) {t : Tbl α} {c : List Ctrl} (h : Inv C t c) :
    ∃ t' c', t.copy C = .ok t' ∧ Inv C t' c' ∧ List.Perm (elems t') (elems t) ∧ t'.capacity = t.capacity := by
  have hgr := h.growth
  obtain ⟨t0, c0, z1, z2, z3, z4, z5, z6⟩ := copy_start hC h
  obtain ⟨s, f1, cs, p1, p2, p3, p4, p5⟩ := foldlM_list (P := CopyP C t) (elems t) (s := t0)
    ⟨c0, z2, z4, z5, z6, by simp [z3]⟩ (copy_step hC h)
  rw [List.append_nil] at p5
  have hle : t.size ≤ s.growthLeft := by omega
  refine ⟨{ s with size := t.size, growthLeft := usub s.growthLeft t.size }, cs, ?_, ⟨p1.congr rfl rfl rfl, ?_, ?_,
    fun _ => p4⟩, p5, p2⟩
  · unfold copy
    rw [z1]
    simp only [Res.ok_bind]
    rw [iterate_spec hC.group h.core]
    simp only [Res.ok_bind]
    rw [f1]
    simp only [Res.ok_bind]
  · show t.size = (elems s).length
    rw [p5.length_eq, h.size_eq]
  · simp only
    rw [usub_of_le hle, p2, List.count_eq_zero.2 p4]; omega

/-! ### operator== -/

theorem hasElement_spec [BEq α] [LawfulBEq α] {C : Cfg α κ} (hC : CfgOk C) {t : Tbl α} {c : List Ctrl} (h : Inv C t c)
    (a : α) : t.hasElement C (· == ·) a = .ok (decide (a ∈ elems t)) := by
  unfold hasElement
  have hp : ∀ b ∈ elems t, (b == a) = true → C.hash (C.key b) = C.hash (C.key a) := by
    intro b _ hb; rw [eq_of_beq hb]
  rcases probeFind_core hC.group h.core (h.has_empty hC) (fun b => b == a) (C.hash (C.key a)) hp with
    ⟨i, b, f1, f2, f3⟩ | ⟨f1, f2⟩
  · simp only
    rw [f1]
    simp only [Res.ok_bind, Option.isSome_some]
    congr 1; symm
    rw [decide_eq_true_eq, ← eq_of_beq f3]
    exact mem_elems.2 ⟨i, f2⟩
  · simp only
    rw [f1]
    simp only [Res.ok_bind, Option.isSome_none]
    congr 1; symm
    rw [decide_eq_false_iff_not]
    intro hm
    have := f2 a hm
    simp at this

theorem allIn_spec [BEq α] [LawfulBEq α] {C : Cfg α κ} (hC : CfgOk C) {t : Tbl α} {c : List Ctrl} (h : Inv C t c) :
    ∀ l : List α, allIn C (· == ·) t l = .ok (decide (∀ a ∈ l, a ∈ elems t)) := by
  intro l
  induction l with
  | nil => simp [allIn]
  | cons a l ih =>
    unfold allIn
    rw [hasElement_spec hC h a]
    simp only [Res.ok_bind]
    by_cases hm : a ∈ elems t
    · rw [if_pos (by simpa using hm), ih]
      congr 1
      simp [hm]
    · rw [if_neg (by simpa using hm)]
      congr 1
      simp [hm]

theorem Distinct.nodup {C : Cfg α κ} (hC : CfgOk C) {l : List α} (h : Distinct C l) : l.Nodup := by
  refine List.Pairwise.imp ?_ h
  intro a b hab he
  rw [he, hC.refl] at hab; cases hab

theorem beqTbl_spec [BEq α] [LawfulBEq α] {C : Cfg α κ} (hC : CfgOk C) {t u : Tbl α} {c d : List Ctrl} (ht : Inv C t c)
    (hu : Inv C u d) : ∃ b, beqTbl C (· == ·) t u = .ok b ∧ (b = true ↔ List.Perm (elems t) (elems u)) := by
  unfold beqTbl
  have hnt := ht.core.distinct.nodup hC
  have hnu := hu.core.distinct.nodup hC
  by_cases hs : t.size = u.size
  swap
  · rw [if_pos hs]
    refine ⟨false, rfl, ?_⟩
    simp only [Bool.false_eq_true, false_iff]
    intro hp
    rw [ht.size_eq, hu.size_eq] at hs
    exact hs hp.length_eq
  rw [if_neg (by simpa using hs)]
  have key : ∀ (x y : List α), x.Nodup → x.length = y.length → ((∀ a ∈ x, a ∈ y) ↔ List.Perm x y) := by
    intro x y hx hl
    constructor
    · intro hsub
      exact (List.subperm_of_subset hx hsub).perm_of_length_le (by omega)
    · intro hp a ha; exact hp.subset ha
  have hl : (elems t).length = (elems u).length := by rw [← ht.size_eq, ← hu.size_eq, hs]
  by_cases hcap : t.capacity > u.capacity
  · simp only [if_pos hcap]
    rw [iterate_spec hC.group hu.core]
    simp only [Res.ok_bind]
    rw [allIn_spec hC ht]
    refine ⟨_, rfl, ?_⟩
    rw [decide_eq_true_eq]
    exact (key _ _ hnu hl.symm).trans ⟨List.Perm.symm, List.Perm.symm⟩
  · simp only [if_neg hcap]
    rw [iterate_spec hC.group ht.core]
    simp only [Res.ok_bind]
    rw [allIn_spec hC hu]
    refine ⟨_, rfl, ?_⟩
    rw [decide_eq_true_eq]
    exact key _ _ hnt hl

/-! ### merge -/

theorem mergeLoop_spec {C : Cfg α κ} (hC : CfgOk C) (dst0 : List α) : ∀ fuel (dst src : Tbl α) (cd cs : List Ctrl) p,
    Inv C dst cd → Inv C src cs →
    p ≤ src.capacity → src.capacity - p < fuel → (p < src.capacity → ∃ a, src.slots[p]? = some (some a)) →
    (∀ a ∈ (src.slots.drop p).filterMap id, ∀ b ∈ elems dst, C.eqv (C.key b) (C.key a) = true →
      ∃ b ∈ dst0, C.eqv (C.key b) (C.key a) = true) →
    (∀ b ∈ dst0, b ∈ elems dst) →
    ∃ dst' src' cd' cs', mergeLoop C fuel (dst, src) p = .ok (dst', src') ∧ Inv C dst' cd' ∧ Inv C src' cs' ∧
      List.Perm (elems dst') (elems dst ++ ((src.slots.drop p).filterMap id).filter
        (fun a => !dst0.any (fun b => C.eqv (C.key b) (C.key a)))) ∧
      List.Perm (elems src') ((src.slots.take p).filterMap id ++ ((src.slots.drop p).filterMap id).filter
        (fun a => dst0.any (fun b => C.eqv (C.key b) (C.key a)))) := by
  intro fuel
  induction fuel with
  | zero => intro dst src cd cs p _ _ _ h; omega
  | succ fuel ih =>
    intro dst src cd cs p hd hs hp hf hfull hfresh hsub
    unfold mergeLoop
    by_cases hpc : p = src.capacity
    · rw [if_pos hpc, hpc, ← hs.core.sync.slen, List.drop_length, List.take_length]
      exact ⟨dst, src, cd, cs, rfl, hd, hs, by simp, by simp [elems]⟩
    rw [if_neg hpc]
    have hlt : p < src.capacity := by omega
    obtain ⟨a, ha⟩ := hfull hlt
    have hsl : p < src.slots.length := by rw [hs.core.sync.slen]; exact hlt
    rw [readSlot_ok ha]
    simp only [Res.ok_bind]
    have hdrop0 := drop_filterMap_some ha
    -- the rest of the source after p
    have hdist : Distinct C (elems src) := hs.core.distinct
    have hafter : ∀ b ∈ (src.slots.drop (p + 1)).filterMap id, C.eqv (C.key a) (C.key b) = false := by
      intro b hb
      have h1 : elems src = (src.slots.take p).filterMap id ++ (a :: (src.slots.drop (p + 1)).filterMap id) := by
        rw [← hdrop0, ← List.filterMap_append, List.take_append_drop]; rfl
      unfold Distinct at hdist
      rw [h1, List.pairwise_append] at hdist
      exact (List.pairwise_cons.1 hdist.2.1).1 b hb
    have htake : ∀ (s : List (Option α)) q o, s[p]? = some o → p < q → (∀ j : Nat, p < j → j < q → s[j]? = some none) →
        (s.take q).filterMap id = (s.take p).filterMap id ++ [o].filterMap id := by
      intro s q o ho hpq hsn
      have e1 : s.take q = s.take (p + 1) ++ (s.drop (p + 1)).take (q - (p + 1)) := by
        rw [← List.take_add]; congr 1; omega
      have e2 : ((s.drop (p + 1)).take (q - (p + 1))).filterMap id = [] := by
        rw [List.filterMap_eq_nil_iff]
        intro x hx
        rw [List.mem_iff_getElem?] at hx
        obtain ⟨j, hj⟩ := hx
        have hjl : j < q - (p + 1) := by
          by_contra hcon
          rw [List.getElem?_take, if_neg hcon] at hj; cases hj
        rw [List.getElem?_take, if_pos hjl, List.getElem?_drop, hsn _ (by omega) (by omega)] at hj
        cases hj; rfl
      rw [e1, List.filterMap_append, e2, List.append_nil, List.take_add_one, ho, List.filterMap_append]
      rfl
    rcases emplaceHash_spec hC hd (C.key a) (fun _ => a) (hC.refl _) with ⟨i, b, m1, m2, m3⟩ | ⟨m0, dst', cd', i, m1, m2, m3, m4, _⟩
    · -- already in the destination: stays in the source
      rw [m1]
      simp only [Res.ok_bind, Bool.false_eq_true, if_false]
      obtain ⟨q, n1, n2, n3, n4, n5⟩ := next_spec hC.group hs.core hlt
      rw [n1]
      simp only [Res.ok_bind]
      have hdq : (src.slots.drop (p + 1)).filterMap id = (src.slots.drop q).filterMap id :=
        drop_filterMap_none (by omega) (fun j h1 h2 => n4 j (by omega) h2)
      have hin : dst0.any (fun b => C.eqv (C.key b) (C.key a)) = true := by
        obtain ⟨b', hb', he'⟩ := hfresh a (by rw [hdrop0]; simp) b (mem_elems.2 ⟨i, m2⟩) m3
        rw [List.any_eq_true]; exact ⟨b', hb', he'⟩
      obtain ⟨dst2, src2, cd2, cs2, r1, r2, r3, r4, r5⟩ := ih dst src cd cs q hd hs n3 (by omega) n5
        (fun x hx => hfresh x (by rw [hdrop0, hdq]; exact List.mem_cons_of_mem _ hx)) hsub
      refine ⟨dst2, src2, cd2, cs2, r1, r2, r3, ?_, ?_⟩
      · rw [hdrop0, hdq, List.filter_cons, hin]
        simpa using r4
      · rw [hdrop0, hdq, List.filter_cons, hin]
        rw [htake src.slots q (some a) ha n2 n4] at r5
        simpa using r5
    · -- moves to the destination
      rw [m1]
      simp only [Res.ok_bind, if_true]
      rw [destroySlot_ok ha]
      simp only [Res.ok_bind]
      obtain ⟨src1, cs1, e1, e2, e3, e4, e5, e6⟩ := eraseMeta_spec hC hs ha
      rw [e1]
      simp only [Res.ok_bind]
      obtain ⟨q, n1, n2, n3, n4, n5⟩ := next_spec hC.group e2.core (show p < src1.capacity by omega)
      rw [n1]
      simp only [Res.ok_bind]
      have hd1 : src1.slots.drop (p + 1) = src.slots.drop (p + 1) := by rw [e5]; exact (set_take_drop hsl).2
      have hdq : (src.slots.drop (p + 1)).filterMap id = (src1.slots.drop q).filterMap id := by
        rw [← hd1]
        exact drop_filterMap_none (by omega) (fun j h1 h2 => n4 j (by omega) h2)
      have hin : dst0.any (fun b => C.eqv (C.key b) (C.key a)) = false := by
        rw [List.any_eq_false]
        intro b hb
        rw [m0 b (hsub b hb)]; simp
      obtain ⟨dst2, src2, cd2, cs2, r1, r2, r3, r4, r5⟩ := ih dst' src1 cd' cs1 q m2 e2 n3 (by omega) n5
        (by
          intro x hx b hb hbe
          rw [← hdq] at hx
          have hbm := m3.subset hb
          rcases List.mem_cons.1 hbm with rfl | hbm
          · rw [hafter x hx] at hbe; cases hbe
          · exact hfresh x (by rw [hdrop0]; exact List.mem_cons_of_mem _ hx) b hbm hbe)
        (fun b hb => m3.symm.subset (List.mem_cons_of_mem _ (hsub b hb)))
      refine ⟨dst2, src2, cd2, cs2, r1, r2, r3, ?_, ?_⟩
      · rw [hdrop0, hdq, List.filter_cons, hin]
        simp only [Bool.not_false, if_true]
        refine (r4.trans (m3.append_right _)).trans ?_
        exact List.perm_middle.symm
      · rw [hdrop0, hdq, List.filter_cons, hin]
        rw [htake src1.slots q none (by rw [e5, List.getElem?_set, if_pos rfl, if_pos hsl]) n2 n4, e5,
          (set_take_drop hsl).1, ← e5] at r5
        simpa using r5

theorem merge_spec {C : Cfg α κ} (hC : CfgOk C) {dst src : Tbl α} {cd cs : List Ctrl} (hd : Inv C dst cd) (hs : Inv C src cs) :
    ∃ dst' src' cd' cs', dst.merge C src = .ok (dst', src') ∧ Inv C dst' cd' ∧ Inv C src' cs' ∧
      List.Perm (elems dst') (elems dst ++ (elems src).filter (fun a => !(elems dst).any (fun b => C.eqv (C.key b) (C.key a)))) ∧
      List.Perm (elems src') ((elems src).filter (fun a => (elems dst).any (fun b => C.eqv (C.key b) (C.key a)))) := by
  obtain ⟨q, b1, b2, b3, b4⟩ := begin_spec hC.group hs.core
  have e1 : (src.slots.take q).filterMap id = [] := by
    rw [List.filterMap_eq_nil_iff]
    intro x hx
    rw [List.mem_iff_getElem?] at hx
    obtain ⟨j, hj⟩ := hx
    have hjl : j < q := by
      by_contra hcon
      rw [List.getElem?_take, if_neg hcon] at hj; cases hj
    rw [List.getElem?_take, if_pos hjl, b3 _ hjl] at hj
    cases hj; rfl
  have e2 : (src.slots.drop q).filterMap id = elems src := by
    have := drop_filterMap_none (s := src.slots) (p := 0) (q := q) (by omega) (fun j _ hj => b3 j hj)
    rw [← this]; rfl
  obtain ⟨dst', src', cd', cs', r1, r2, r3, r4, r5⟩ := mergeLoop_spec hC (elems dst) src.fuel dst src cd cs q hd hs b2
    (by unfold fuel; omega) b4 (fun a _ b hb he => ⟨b, hb, he⟩) (fun b hb => hb)
  rw [e2] at r4 r5
  rw [e1, List.nil_append] at r5
  refine ⟨dst', src', cd', cs', ?_, r2, r3, r4, r5⟩
  unfold merge
  rw [b1]
  simp only [Res.ok_bind]
  exact r1

end Gtl.Swiss
