import Verif.Swiss.Throw
import Verif.Spec.Throws
/-!
# Histories in which element constructors throw

`prepare_insert` counts the new element before it is constructed. After an exception the count stays, so `size_` is too large
and, when the slot was empty, `growth_left()` is too small. The invariant below keeps track of both.
-/

namespace Gtl.Swiss

open Tbl
open Gtl.Spec (Op TOp Resp TResp)

namespace Tbl
variable {α κ : Type} (C : Cfg α κ)

/-- One call, in which the constructor of the new element may throw. -/
def tstep (t : Tbl α) : TOp α κ → Res (Tbl α × TResp α)
  | .call op => do
    let (t, r) ← t.step C op
    .ok (t, .got r)
  | .throwing a => do
    let (t, b) ← t.emplaceThrow C (C.key a) (C.hash (C.key a))
    .ok (t, if b then .threw else .present)

/-- A history. -/
def trun (t : Tbl α) : List (TOp α κ) → Res (Tbl α × List (TResp α))
  | [] => .ok (t, [])
  | op :: ops => do
    let (t, r) ← t.tstep C op
    let (t, rs) ← trun t ops
    .ok (t, r :: rs)

end Tbl

variable {α κ : Type}

/-- The invariant when `size_` is too large by `p` and `growth_left()` too small by `q`. -/
structure InvP (C : Cfg α κ) (t : Tbl α) (c : List Ctrl) (p q : Nat) : Prop where
  core : Core C t c
  size_eq : t.size = (elems t).length + p
  growth : t.growthLeft + q + (elems t).length + c.count kDeleted = capacityToGrowth C.G.W t.capacity
  small : t.capacity + 1 < C.G.W → kDeleted ∉ c
  zero : p = 0 → q = 0
  big : q ≠ p → C.G.W ≤ t.capacity + 1

theorem InvP.of_inv {C : Cfg α κ} {t : Tbl α} {c : List Ctrl} (h : Inv C t c) : InvP C t c 0 0 :=
  ⟨h.core, h.size_eq, by have := h.growth; have := h.size_eq; omega, h.small, fun _ => rfl, fun h => absurd h (by omega)⟩

theorem InvP.inv {C : Cfg α κ} {t : Tbl α} {c : List Ctrl} (h : InvP C t c 0 0) : Inv C t c :=
  ⟨h.core, h.size_eq, by have := h.growth; have := h.size_eq; omega, h.small⟩

theorem InvP.has_empty {C : Cfg α κ} (hC : CfgOk C) {t : Tbl α} {c : List Ctrl} {p q : Nat} (h : InvP C t c p q) :
    kEmpty ∈ c ∨ t.capacity + 1 < C.G.W := by
  by_cases hs : t.capacity + 1 < C.G.W
  · exact .inr hs
  · left
    have h1 := h.core.counts
    have h2 := h.growth
    have h3 := capacityToGrowth_lt (cap := t.capacity) hC.group.width (by omega)
    have : 0 < c.count kEmpty := by omega
    exact List.count_pos_iff.1 this

theorem InvP.cap_zero {C : Cfg α κ} (hC : CfgOk C) {t : Tbl α} {c : List Ctrl} {p q : Nat} (h : InvP C t c p q)
    (h0 : t.capacity = 0) : t.size = 0 := by
  have h1 := h.growth
  have h2 := h.size_eq
  have h3 := h.big
  have h4 := capacityToGrowth_le C.G.W t.capacity
  have h5 := hC.group.width
  by_cases hpq : q ≠ p
  · have := h3 hpq
    rcases h5 with h5 | h5 <;> omega
  · omega

/-- A table at least as wide as a group has room for seven more elements when it doubles. -/
theorem capacityToGrowth_big {W cap : Nat} (hW : W = 8 ∨ W = 16) (h : W ≤ cap + 1) {m : Nat} (hm : cap * 2 + 1 ≤ m) :
    capacityToGrowth W cap + 7 < capacityToGrowth W m := by
  unfold capacityToGrowth
  split <;> split <;> rcases hW with rfl | rfl <;> simp_all <;> omega

theorem InvP.fits {C : Cfg α κ} (hC : CfgOk C) {t : Tbl α} {c : List Ctrl} {p q : Nat} (h : InvP C t c p q)
    (hs : p ≤ q + 7) (hc0 : t.capacity ≠ 0) {m : Nat} (hm : t.capacity * 2 + 1 ≤ m) :
    t.size < capacityToGrowth C.G.W m := by
  have h1 := h.growth
  have h2 := h.size_eq
  by_cases hpq : q < p
  · have := capacityToGrowth_big hC.group.width (h.big (by omega)) hm
    omega
  · have h3 := capacityToGrowth_double C.G.W t.capacity (by omega)
    have h4 : capacityToGrowth C.G.W (t.capacity * 2 + 1) ≤ capacityToGrowth C.G.W m := by
      unfold capacityToGrowth
      split <;> split <;> omega
    omega

/-- Rebuilding the table accounts for every element that was counted. -/
theorem InvP.rebuilt {C : Cfg α κ} {t : Tbl α} {c : List Ctrl} {p q : Nat} (h : InvP C t c p q) {t' : Tbl α}
    {c' : List Ctrl} (h2 : Core C t' c') (h3 : List.Perm (elems t') (elems t)) (h5 : t'.size = t.size)
    (h6 : t'.growthLeft = usub (capacityToGrowth C.G.W t'.capacity) t.size) (h7 : kDeleted ∉ c')
    (hfit : t.size ≤ capacityToGrowth C.G.W t'.capacity) : InvP C t' c' p p := by
  rw [usub_of_le hfit] at h6
  have h1 := h.size_eq
  refine ⟨h2, by rw [h5, h1, h3.length_eq], ?_, fun _ => h7, fun h => h, fun h => absurd h (by omega)⟩
  rw [List.count_eq_zero.2 h7, h6, h3.length_eq]
  omega

theorem rehashAndGrowP {C : Cfg α κ} (hC : CfgOk C) {t : Tbl α} {c : List Ctrl} {p q : Nat} (h : InvP C t c p q)
    (hs : p ≤ q + 7) (h0 : t.growthLeft = 0) :
    ∃ t' c', t.rehashAndGrow C = .ok t' ∧ InvP C t' c' p p ∧ List.Perm (elems t') (elems t) ∧ 0 < t'.growthLeft ∧
      kDeleted ∉ c' := by
  have hgr := h.growth
  have hse := h.size_eq
  unfold rehashAndGrow
  by_cases hc0 : t.capacity = 0
  · rw [if_pos hc0]
    have hsz := h.cap_zero hC hc0
    have hpos := capacityToGrowth_pos (W := C.G.W) (cap := 1) (by omega)
    obtain ⟨t', c', r1, r2, r3, r4, r5, r6, r7⟩ := resize_spec hC h.core (newCap := 1) ⟨1, by norm_num⟩ (by omega)
    refine ⟨t', c', r1, h.rebuilt r2 r3 r5 (by rw [r4]; exact r6) r7 (by rw [r4]; omega), r3, ?_, r7⟩
    rw [r6, usub_of_le (by omega)]; omega
  · rw [if_neg hc0]
    have hpos := capacityToGrowth_pos (W := C.G.W) (cap := t.capacity) (by omega)
    by_cases hs' : t.size ≤ capacityToGrowth C.G.W t.capacity / 2
    · rw [if_pos hs']
      have hbig : C.G.W ≤ t.capacity + 1 := by
        by_cases hqp : q = p
        · have hd : kDeleted ∈ c := List.count_pos_iff.1 (by omega)
          by_contra hcon
          exact h.small (by omega) hd
        · exact h.big hqp
      obtain ⟨t', c', r1, r2, r3, r4, r5, r6, r7⟩ := dropDeletes_raw hC h.core hbig
      refine ⟨t', c', r1, h.rebuilt r2 r3 r5 (by rw [r4]; exact r6) r7 (by rw [r4]; omega), r3, ?_, r7⟩
      rw [r6, usub_of_le (by omega)]; omega
    · rw [if_neg hs']
      obtain ⟨k, hk⟩ := h.core.raw.pow
      have hfit := h.fits hC hs hc0 (m := t.capacity * 2 + 1) (Nat.le_refl _)
      have hcl := capacityToGrowth_le C.G.W (t.capacity * 2 + 1)
      obtain ⟨t', c', r1, r2, r3, r4, r5, r6, r7⟩ := resize_spec hC h.core (newCap := t.capacity * 2 + 1)
        ⟨k + 1, by rw [pow_succ]; omega⟩ (by omega)
      refine ⟨t', c', r1, h.rebuilt r2 r3 r5 (by rw [r4]; exact r6) r7 (by rw [r4]; omega), r3, ?_, r7⟩
      rw [r6, usub_of_le (by omega)]; omega

/-- The outcome of `prepare_insert`: `t1` is the table after it, `t3` after constructing and marking the element too. -/
structure PlacedP (C : Cfg α κ) (t : Tbl α) (a : α) (nd : Prop) (p q : Nat) (t1 : Tbl α) (i : Nat) (t3 : Tbl α) : Prop where
  free : t1.slots[i]? = some none
  mark : Tbl.setCtrl C.G.W { t1 with slots := t1.slots.set i (some a) } i (H2 (C.hash (C.key a))) = .ok t3
  done : ∃ c3 q', InvP C t3 c3 p q' ∧ min p q ≤ q' ∧ (nd → kDeleted ∉ c3)
  perm : List.Perm (elems t3) (a :: elems t)
  slot : t3.slots[i]? = some (some a)
  threw : ∃ c1 q', InvP C t1 c1 (p + 1) q' ∧ min p q ≤ q' ∧ (nd → kDeleted ∉ c1 ∧ min p q < q')
  beforePerm : List.Perm (elems t1) (elems t)

theorem finishP {C : Cfg α κ} (hC : CfgOk C) {t : Tbl α} {c : List Ctrl} {p q : Nat} (h : InvP C t c p q) (a : α)
    (hnew : ∀ b ∈ elems t, C.eqv (C.key b) (C.key a) = false) (hex : ∃ x ∈ c, Eod x)
    (hg : ∀ i, t.findFirstNonFull C (C.hash (C.key a)) = .ok i → t.growthLeft = 0 → c.getD i kEmpty = kDeleted) :
    ∃ i t3, t.findFirstNonFull C (C.hash (C.key a)) = .ok i ∧ t.ctrlAt i = .ok (c.getD i kEmpty) ∧
      PlacedP C t a (kDeleted ∉ c) p q { t with
        size := t.size + 1
        growthLeft := usub t.growthLeft (if isEmpty (c.getD i kEmpty) then 1 else 0) } i t3 := by
  have hWpos : 0 < C.G.W := by rcases hC.group.width with h | h <;> omega
  obtain ⟨i, ctrl', h1, h2, h3, h4, h5, h6, h7⟩ := place_spec hC h.core a hnew hex
  set g := (if isEmpty (c.getD i kEmpty) then 1 else 0) with hgd
  have hgle : g ≤ t.growthLeft := by
    by_cases h0 : t.growthLeft = 0
    · have := hg i h1 h0
      rw [hgd, this]; simp [show isEmpty kDeleted = false from rfl]
    · rw [hgd]; split <;> omega
  have hus := usub_of_le hgle
  obtain ⟨r1, r2⟩ := h7 (t.size + 1) (t.growthLeft - g)
  have hcnt := count_set h5 (H2 (C.hash (C.key a))) kDeleted
  rw [if_neg (ne_of_full (isFull_H2 _)).2.1] at hcnt
  have hlen := r2.length_eq
  rw [List.length_cons] at hlen
  have hgr := h.growth
  have hse := h.size_eq
  refine ⟨i, _, h1, by rw [h.core.raw.ctrlAt hWpos (by omega), lay_lt h2],
    ⟨h3, ?_, ⟨_, q, ⟨r1, ?_, ?_, ?_, h.zero, h.big⟩, by omega, ?_⟩, r2, ?_, ⟨c, q + g, ?_, by omega, ?_⟩, List.Perm.refl _⟩⟩
  · simp only
    rw [← hgd, hus]; exact h6 _ _ _
  · simp only; omega
  · simp only
    rcases h4 with he | he
    · rw [he] at hcnt hgd
      rw [if_neg (by decide)] at hcnt
      simp only [show isEmpty kEmpty = true from rfl, if_true] at hgd
      omega
    · rw [he] at hcnt hgd
      rw [if_pos rfl] at hcnt
      simp only [show isEmpty kDeleted = false from rfl, Bool.false_eq_true, if_false] at hgd
      omega
  · intro hsm hd
    simp only at hsm
    rcases List.mem_or_eq_of_mem_set hd with hd | hd
    · exact h.small hsm hd
    · exact (ne_of_full (isFull_H2 _)).2.1 hd.symm
  · intro hnd hd
    rcases List.mem_or_eq_of_mem_set hd with hd | hd
    · exact hnd hd
    · exact (ne_of_full (isFull_H2 _)).2.1 hd.symm
  · simp only
    rw [List.getElem?_set, if_pos rfl, if_pos (by rw [h.core.sync.slen]; exact h2)]
  · have hel : elems { t with size := t.size + 1, growthLeft := usub t.growthLeft g } = elems t := rfl
    refine ⟨h.core.congr rfl rfl rfl, ?_, ?_, h.small, ?_, ?_⟩
    · rw [hel]; simp only; omega
    · rw [hel]; simp only; rw [hus]; omega
    · intro h0; omega
    · intro hlt
      simp only
      rcases h4 with he | he
      · rw [he] at hgd
        simp only [show isEmpty kEmpty = true from rfl, if_true] at hgd
        exact h.big (by omega)
      · by_contra hcon
        refine h.small (by omega) ?_
        rw [← he]; exact List.mem_of_getElem? h5
  · intro hnd
    refine ⟨hnd, ?_⟩
    rcases h4 with he | he
    · rw [he] at hgd
      simp only [show isEmpty kEmpty = true from rfl, if_true] at hgd
      omega
    · exact absurd (by rw [← he]; exact List.mem_of_getElem? h5) hnd

/-- `prepare_insert` for a key that is not in the table. -/
theorem prepareInsertP {C : Cfg α κ} (hC : CfgOk C) {t : Tbl α} {c : List Ctrl} {p q : Nat} (h : InvP C t c p q)
    (hs : p ≤ q + 7) (a : α) (hnew : ∀ b ∈ elems t, C.eqv (C.key b) (C.key a) = false) :
    ∃ t1 i t3, t.prepareInsert C (C.hash (C.key a)) = .ok (t1, i) ∧ PlacedP C t a (kDeleted ∉ c) p q t1 i t3 := by
  have hWpos : 0 < C.G.W := by rcases hC.group.width with h | h <;> omega
  -- growing and then placing
  have grown : ∀ tgt x, t.findFirstNonFull C (C.hash (C.key a)) = .ok tgt → t.ctrlAt tgt = .ok x →
      t.growthLeft = 0 → isDeleted x = false →
      ∃ t1 i t3, t.prepareInsert C (C.hash (C.key a)) = .ok (t1, i) ∧ PlacedP C t a (kDeleted ∉ c) p q t1 i t3 := by
    intro tgt x f1 f2 h0 hx
    obtain ⟨t', c', g1, g2, g3, g4, g5⟩ := rehashAndGrowP hC h hs h0
    have hnew' : ∀ b ∈ elems t', C.eqv (C.key b) (C.key a) = false := fun b hb => hnew b (g3.subset hb)
    have hlt : (elems t').length < t'.capacity := by
      have e1 := g2.growth
      have e2 := capacityToGrowth_le C.G.W t'.capacity
      omega
    obtain ⟨i', t3, p1, p2, p3⟩ := finishP hC g2 a hnew' (exists_free g2.core hlt) (fun _ _ h0 => by omega)
    refine ⟨_, i', t3, ?_, ⟨p3.free, p3.mark, ?_, p3.perm.trans (g3.cons a), p3.slot, ?_, p3.beforePerm.trans g3⟩⟩
    · unfold prepareInsert
      rw [f1]
      simp only [Res.ok_bind]
      rw [f2]
      simp only [Res.ok_bind]
      rw [if_pos ⟨h0, by rw [hx]; simp⟩, g1]
      simp only [Res.ok_bind]
      rw [p1]
      simp only [Res.ok_bind]
      rw [p2]
      simp only [Res.ok_bind]
    · obtain ⟨c3, q', d1, d2, d3⟩ := p3.done
      exact ⟨c3, q', d1, by omega, fun _ => d3 g5⟩
    · obtain ⟨c1, q', d1, d2, d3⟩ := p3.threw
      exact ⟨c1, q', d1, by omega, fun _ => ⟨(d3 g5).1, by have := (d3 g5).2; omega⟩⟩
  by_cases hex : ∃ x ∈ c, Eod x
  · obtain ⟨i, n, f1, f2, f3, _, _⟩ := findFirstNonFull_spec hC.group h.core.raw h.core.valid (C.hash (C.key a)) hex
    by_cases hgrow : t.growthLeft = 0 ∧ c.getD i kEmpty ≠ kDeleted
    · exact grown i (c.getD i kEmpty) f1 (by rw [h.core.raw.ctrlAt hWpos (by omega), lay_lt f2]) hgrow.1
        (by unfold isDeleted; simpa using hgrow.2)
    · obtain ⟨i', t3, p1, p2, p3⟩ := finishP hC h a hnew hex (by
        intro i' hi' h0
        rw [f1] at hi'; cases hi'
        by_contra hcon
        exact hgrow ⟨h0, hcon⟩)
      have hii : i' = i := by rw [f1] at p1; cases p1; rfl
      subst hii
      refine ⟨_, i', t3, ?_, p3⟩
      unfold prepareInsert
      rw [f1]
      simp only [Res.ok_bind]
      rw [p2]
      simp only [Res.ok_bind]
      rw [if_neg (by
        rintro ⟨h0, h1⟩
        exact hgrow ⟨h0, fun he => h1 (by rw [he]; rfl)⟩)]
  · have hno : ∀ x ∈ c, ¬ Eod x := fun x hx he => hex ⟨x, hx, he⟩
    have hsm : t.capacity + 1 < C.G.W := by
      rcases h.has_empty hC with he | he
      · exact absurd (.inl rfl) (hno _ he)
      · exact he
    have f1 := findFirstNonFull_full hC.group h.core.raw h.core.valid (C.hash (C.key a)) hno hsm
    refine grown t.capacity kSentinel f1 ?_ ?_ (by decide)
    · rw [h.core.raw.ctrlAt hWpos (by omega)]
      congr 1
      unfold lay; rw [if_neg (by omega), if_pos rfl]
    · have e1 := h.core.counts
      have e2 := h.growth
      have e4 := capacityToGrowth_le C.G.W t.capacity
      have e5 : c.count kEmpty = 0 := List.count_eq_zero.2 (fun hh => hno _ hh (.inl rfl))
      have e6 : c.count kDeleted = 0 := List.count_eq_zero.2 (fun hh => hno _ hh (.inr rfl))
      omega

/-! ### The table and its specification -/

/-- The table holds the elements of `l`, counts `p` too many of them, all but `s` of which have used up room; with `nd`
there are no deleted marks. -/
def PSim (C : Cfg α κ) (nd : Prop) (t : Tbl α) (l : List α) (p s : Nat) : Prop :=
  ∃ c q, InvP C t c p q ∧ p ≤ q + s ∧ (nd → kDeleted ∉ c) ∧ List.Perm (elems t) l

section
variable {C : Cfg α κ} {nd : Prop} {t : Tbl α} {l : List α} {p s : Nat}

theorem PSim.distinct (hC : CfgOk C) (h : PSim C nd t l p s) : Distinct C l := by
  obtain ⟨c, q, hi, _, _, hp⟩ := h
  exact hi.core.distinct.perm hC hp

theorem PSim.size (h : PSim C nd t l p s) : t.size = l.length + p := by
  obtain ⟨c, q, hi, _, _, hp⟩ := h
  rw [hi.size_eq, hp.length_eq]

theorem PSim.of_sim (h : Sim C t l) (hnd : ¬ nd) : PSim C nd t l 0 s := by
  obtain ⟨⟨c, hi⟩, hp⟩ := h
  exact ⟨c, 0, InvP.of_inv hi, Nat.zero_le _, fun h => absurd h hnd, hp⟩

theorem PSim.empty (hG : GroupSpec C.G) : PSim C nd (Tbl.empty : Tbl α) [] 0 s :=
  ⟨[], 0, InvP.of_inv (empty_inv hG), Nat.zero_le _, fun _ => List.not_mem_nil, by simp [elems, Tbl.empty]⟩

theorem find_psim (hC : CfgOk C) (h : PSim C nd t l p s) (k : κ) :
    (∃ i a, t.find C k = .ok (some i) ∧ t.slots[i]? = some (some a) ∧ a ∈ l ∧ C.eqv (C.key a) k = true ∧
      Spec.lookup C.key C.eqv l k = some a) ∨
    (t.find C k = .ok none ∧ (∀ a ∈ l, C.eqv (C.key a) k = false) ∧ Spec.lookup C.key C.eqv l k = none) := by
  have hd := h.distinct hC
  obtain ⟨c, q, hi, _, _, hp⟩ := h
  rcases find_core hC hi.core (hi.has_empty hC) k with ⟨i, a, h1, h2, h3⟩ | ⟨h1, h2⟩
  · have : a ∈ l := hp.mem_iff.1 (mem_elems.2 ⟨i, h2⟩)
    exact .inl ⟨i, a, h1, h2, this, h3, lookup_of_mem hC hd this h3⟩
  · have : ∀ a ∈ l, C.eqv (C.key a) k = false := fun a ha => h2 a (hp.mem_iff.2 ha)
    exact .inr ⟨h1, this, lookup_none.2 this⟩

theorem emplace_psim (hC : CfgOk C) (h : PSim C nd t l p s) (hs : s ≤ 7) (a : α) :
    (∃ i b, t.emplace C a = .ok (t, i, false) ∧ t.slots[i]? = some (some b) ∧ b ∈ l ∧
      C.eqv (C.key b) (C.key a) = true ∧ Spec.lookup C.key C.eqv l (C.key a) = some b) ∨
    (∃ t' i, t.emplace C a = .ok (t', i, true) ∧ t'.slots[i]? = some (some a) ∧ PSim C nd t' (a :: l) p s ∧
      Spec.lookup C.key C.eqv l (C.key a) = none) := by
  rcases find_psim hC h (C.key a) with ⟨i, b, f1, f2, f3, f4, f5⟩ | ⟨f1, f2, f3⟩
  · left
    refine ⟨i, b, ?_, f2, f3, f4, f5⟩
    unfold emplace emplaceHash
    unfold find at f1
    rw [f1]
    simp only [Res.ok_bind]
  · right
    obtain ⟨c, q, hi, hq, hn, hp⟩ := h
    obtain ⟨t1, i, t3, p1, p2⟩ := prepareInsertP hC hi (by omega) a (fun b hb => f2 b (hp.mem_iff.1 hb))
    obtain ⟨c3, q', d1, d2, d3⟩ := p2.done
    refine ⟨t3, i, ?_, p2.slot, ⟨c3, q', d1, by omega, fun h => d3 (hn h), p2.perm.trans (hp.cons a)⟩, f3⟩
    unfold emplace emplaceHash
    unfold find at f1
    rw [f1]
    simp only [Res.ok_bind]
    rw [p1]
    simp only [Res.ok_bind]
    rw [constructSlot_ok p2.free]
    simp only [Res.ok_bind]
    rw [p2.mark]
    simp only [Res.ok_bind]

/-- An insertion in which the constructor throws. -/
theorem emplaceThrow_psim (hC : CfgOk C) (h : PSim C nd t l p s) (hs : s ≤ 7) (a : α) :
    (t.emplaceThrow C (C.key a) (C.hash (C.key a)) = .ok (t, false) ∧
      (Spec.lookup C.key C.eqv l (C.key a)).isSome = true) ∨
    (∃ t', t.emplaceThrow C (C.key a) (C.hash (C.key a)) = .ok (t', true) ∧
      (Spec.lookup C.key C.eqv l (C.key a)).isSome = false ∧ PSim C nd t' l (p + 1) (s + 1) ∧
      (nd → PSim C nd t' l (p + 1) s)) := by
  rcases find_psim hC h (C.key a) with ⟨i, b, f1, f2, f3, f4, f5⟩ | ⟨f1, f2, f3⟩
  · left
    refine ⟨?_, by rw [f5]; rfl⟩
    unfold emplaceThrow
    unfold find at f1
    rw [f1]
    simp only [Res.ok_bind]
  · right
    obtain ⟨c, q, hi, hq, hn, hp⟩ := h
    obtain ⟨t1, i, t3, p1, p2⟩ := prepareInsertP hC hi (by omega) a (fun b hb => f2 b (hp.mem_iff.1 hb))
    obtain ⟨c1, q', d1, d2, d3⟩ := p2.threw
    refine ⟨t1, ?_, by rw [f3]; rfl, ⟨c1, q', d1, by omega, fun h => (d3 (hn h)).1, p2.beforePerm.trans hp⟩,
      fun h => ⟨c1, q', d1, by have := (d3 (hn h)).2; omega, fun h => (d3 (hn h)).1, p2.beforePerm.trans hp⟩⟩
    unfold emplaceThrow
    unfold find at f1
    rw [f1]
    simp only [Res.ok_bind]
    rw [p1]
    simp only [Res.ok_bind]

/-! #### erasing -/

/-- `erase_meta_only` looks at the counters only to change them. -/
theorem eraseMetaOnly_counters {t t' : Tbl α} {sz g i : Nat}
    (h : Tbl.eraseMetaOnly C { t with size := sz, growthLeft := g } i = .ok t') :
    ∃ x, t'.size = sz - 1 ∧ t'.growthLeft = g + x ∧
      Tbl.eraseMetaOnly C t i = .ok { t' with size := t.size - 1, growthLeft := t.growthLeft + x } := by
  unfold eraseMetaOnly at h ⊢
  obtain ⟨ga, h1, h⟩ := Res.bind_eq_ok.1 h
  obtain ⟨gb, h2, h⟩ := Res.bind_eq_ok.1 h
  change t.load C.G.W i = .ok ga at h1
  change t.load C.G.W (subMask i C.G.W t.capacity) = .ok gb at h2
  simp only [h1, h2, Res.ok_bind]
  obtain ⟨t1, h3, h⟩ := Res.bind_eq_ok.1 h
  unfold setCtrl at h3 ⊢
  dsimp only at h3 ⊢
  split at h3
  · rename_i hc
    rw [if_pos hc]
    simp only [Res.ok_bind]
    cases h3
    cases h
    exact ⟨_, rfl, rfl, rfl⟩
  · cases h3

theorem eraseMetaP {c : List Ctrl} {q : Nat} (hC : CfgOk C) (h : InvP C t c p q) {i : Nat} {a : α}
    (hs : t.slots[i]? = some (some a)) :
    ∃ t' c', Tbl.eraseMetaOnly C { t with slots := t.slots.set i none } i = .ok t' ∧ InvP C t' c' p q ∧
      List.Perm (elems t) (a :: elems t') ∧ t'.capacity = t.capacity ∧ t'.slots = t.slots.set i none := by
  have hgr := h.growth
  have hse := h.size_eq
  have hinv : Inv C { t with size := (elems t).length, growthLeft := t.growthLeft + q } c :=
    ⟨h.core.congr rfl rfl rfl, rfl, by simp only; omega, h.small⟩
  obtain ⟨t', c', e1, e2, e3, e4, e5, _⟩ := eraseMeta_spec hC hinv hs
  obtain ⟨x, x1, x2, x3⟩ := eraseMetaOnly_counters (t := { t with slots := t.slots.set i none }) e1
  have hlen : (elems t).length = (elems t').length + 1 := by
    have := e3.length_eq
    rw [List.length_cons] at this
    exact this
  have hgr' := e2.growth
  have hse' := e2.size_eq
  refine ⟨_, c', x3, ⟨e2.core.congr rfl rfl rfl, ?_, ?_, e2.small, h.zero, ?_⟩, e3, e4, e5⟩
  · show t.size - 1 = (elems t').length + p
    omega
  · show t.growthLeft + x + q + (elems t').length + c'.count kDeleted = _
    rw [show ({ t' with size := t.size - 1, growthLeft := t.growthLeft + x } : Tbl α).capacity = t'.capacity from rfl]
    dsimp only at x2
    omega
  · intro hlt
    show C.G.W ≤ t'.capacity + 1
    rw [e4]
    exact h.big hlt

theorem eraseAtP {c : List Ctrl} {q : Nat} (hC : CfgOk C) (h : InvP C t c p q) {i : Nat} {a : α}
    (hs : t.slots[i]? = some (some a)) :
    ∃ t' c', t.eraseAt C i = .ok t' ∧ InvP C t' c' p q ∧ List.Perm (elems t) (a :: elems t') ∧ t'.capacity = t.capacity ∧
      t'.slots = t.slots.set i none := by
  unfold eraseAt
  rw [destroySlot_ok hs]
  simp only [Res.ok_bind]
  exact eraseMetaP hC h hs

theorem eraseAt_psim (hC : CfgOk C) (h : PSim C nd t l p s) (hnd : ¬ nd) {k : κ} {i : Nat} {a : α}
    (hs : t.slots[i]? = some (some a)) (ha : C.eqv (C.key a) k = true) :
    ∃ t', t.eraseAt C i = .ok t' ∧ PSim C nd t' (Spec.erase C.key C.eqv l k) p s := by
  have hd := h.distinct hC
  obtain ⟨c, q, hi, hq, hn, hp⟩ := h
  obtain ⟨t', c', g1, g2, g3, _⟩ := eraseAtP hC hi hs
  exact ⟨t', g1, c', q, g2, hq, fun h => absurd h hnd, (erase_some hC hd (hp.symm.trans g3) ha).symm⟩

theorem extractAt_psim (hC : CfgOk C) (h : PSim C nd t l p s) (hnd : ¬ nd) {k : κ} {i : Nat} {a : α}
    (hs : t.slots[i]? = some (some a)) (ha : C.eqv (C.key a) k = true) :
    ∃ t', t.extractAt C i = .ok (t', a) ∧ PSim C nd t' (Spec.erase C.key C.eqv l k) p s := by
  have hd := h.distinct hC
  obtain ⟨c, q, hi, hq, hn, hp⟩ := h
  obtain ⟨t', c', g1, g2, g3, _⟩ := eraseMetaP hC hi hs
  refine ⟨t', ?_, c', q, g2, hq, fun h => absurd h hnd, (erase_some hC hd (hp.symm.trans g3) ha).symm⟩
  unfold extractAt
  rw [readSlot_ok hs]
  simp only [Res.ok_bind]
  rw [destroySlot_ok hs]
  simp only [Res.ok_bind]
  rw [g1]
  simp only [Res.ok_bind]

end

theorem eraseIfLoopP {C : Cfg α κ} (hC : CfgOk C) (pred : α → Bool) (pp qq : Nat) : ∀ fuel (t : Tbl α) (c : List Ctrl) p,
    InvP C t c pp qq →
    p ≤ t.capacity → t.capacity - p < fuel → (p < t.capacity → ∃ a, t.slots[p]? = some (some a)) →
    ∃ t' c', eraseIfLoop C pred fuel t p = .ok t' ∧ InvP C t' c' pp qq ∧ t'.capacity = t.capacity ∧
      elems t' = (t.slots.take p).filterMap id ++ ((t.slots.drop p).filterMap id).filter (fun a => !pred a) := by
  intro fuel
  induction fuel with
  | zero => intro t c p _ _ h; omega
  | succ fuel ih =>
    intro t c p h hp hf hfull
    unfold eraseIfLoop
    by_cases hpc : p = t.capacity
    · rw [if_pos hpc]
      refine ⟨t, c, rfl, h, rfl, ?_⟩
      rw [hpc, ← h.core.sync.slen, List.drop_length, List.take_length]
      simp [elems]
    · rw [if_neg hpc]
      have hlt : p < t.capacity := by omega
      obtain ⟨a, ha⟩ := hfull hlt
      rw [readSlot_ok ha]
      simp only [Res.ok_bind]
      obtain ⟨q, n1, n2, n3, n4, n5⟩ := next_spec hC.group h.core hlt
      have hsl : p < t.slots.length := by rw [h.core.sync.slen]; exact hlt
      have hdrop : ∀ s : List (Option α), (∀ j : Nat, p < j → j < q → s[j]? = some none) →
          (s.drop (p + 1)).filterMap id = (s.drop q).filterMap id :=
        fun s hs => drop_filterMap_none (by omega) (fun j h1 h2 => hs j (by omega) h2)
      have htake : ∀ s : List (Option α), (∀ j : Nat, p < j → j < q → s[j]? = some none) → ∀ o, s[p]? = some o →
          (s.take q).filterMap id = (s.take p).filterMap id ++ [o].filterMap id := by
        intro s hs o ho
        have hl : p < s.length := by rw [List.getElem?_eq_some_iff] at ho; exact ho.1
        have e1 : s.take q = s.take (p + 1) ++ (s.drop (p + 1)).take (q - (p + 1)) := by
          rw [← List.take_add]; congr 1; omega
        have e2 : ((s.drop (p + 1)).take (q - (p + 1))).filterMap id = [] := by
          rw [List.filterMap_eq_nil_iff]
          intro x hx
          rw [List.mem_iff_getElem?] at hx
          obtain ⟨j, hj⟩ := hx
          have hjl : j < q - (p + 1) := by
            by_contra hcon
            rw [List.getElem?_take, if_neg hcon] at hj; cases hj
          rw [List.getElem?_take, if_pos hjl, List.getElem?_drop, hs _ (by omega) (by omega)] at hj
          cases hj; rfl
        rw [e1, List.filterMap_append, e2, List.append_nil, List.take_add_one, ho, List.filterMap_append]
        rfl
      by_cases hpr : pred a = true
      · rw [if_pos hpr, n1]
        simp only [Res.ok_bind]
        obtain ⟨t1, c1, e1, e2, e3, e4, e5⟩ := eraseAtP hC h ha
        rw [e1]
        simp only [Res.ok_bind]
        have hs1 : ∀ j : Nat, p < j → t1.slots[j]? = t.slots[j]? := by
          intro j hj; rw [e5, List.getElem?_set, if_neg (by omega)]
        obtain ⟨t', c', r1, r2, r3, r4⟩ := ih t1 c1 q e2 (by omega) (by omega) (by
          intro hq; rw [hs1 q n2]; exact n5 (by omega))
        refine ⟨t', c', r1, r2, by omega, ?_⟩
        have hn1 : ∀ j : Nat, p < j → j < q → t1.slots[j]? = some none := fun j h1 h2 => by rw [hs1 j h1]; exact n4 j h1 h2
        rw [r4, htake t1.slots hn1 none (by rw [e5, List.getElem?_set, if_pos rfl, if_pos hsl]),
          ← hdrop t1.slots hn1, e5, (set_take_drop hsl).1, (set_take_drop hsl).2, drop_filterMap_some ha]
        simp [hpr]
      · rw [if_neg hpr, n1]
        simp only [Res.ok_bind]
        obtain ⟨t', c', r1, r2, r3, r4⟩ := ih t c q h (by omega) (by omega) n5
        refine ⟨t', c', r1, r2, by omega, ?_⟩
        rw [r4, htake t.slots n4 (some a) ha, ← hdrop t.slots n4, drop_filterMap_some ha, List.filter_cons]
        simp [hpr]

theorem eraseIfP {C : Cfg α κ} (hC : CfgOk C) {t : Tbl α} {c : List Ctrl} {pp qq : Nat} (h : InvP C t c pp qq) (pred : α → Bool) :
    ∃ t' c', t.eraseIf C pred = .ok (t', (elems t).countP pred) ∧ InvP C t' c' pp qq ∧
      elems t' = (elems t).filter (fun a => !pred a) := by
  obtain ⟨q, b1, b2, b3, b4⟩ := begin_spec hC.group h.core
  obtain ⟨t', c', r1, r2, r3, r4⟩ := eraseIfLoopP hC pred pp qq t.fuel t c q h b2 (by unfold fuel; omega) b4
  have he : elems t' = (elems t).filter (fun a => !pred a) := by
    rw [r4]
    have e1 : (t.slots.take q).filterMap id = [] := by
      rw [List.filterMap_eq_nil_iff]
      intro x hx
      rw [List.mem_iff_getElem?] at hx
      obtain ⟨j, hj⟩ := hx
      have hjl : j < q := by
        by_contra hcon
        rw [List.getElem?_take, if_neg hcon] at hj; cases hj
      rw [List.getElem?_take, if_pos hjl, b3 _ hjl] at hj
      cases hj; rfl
    have e2 : (t.slots.drop q).filterMap id = elems t := by
      have := drop_filterMap_none (s := t.slots) (p := 0) (q := q) (by omega) (fun j _ hj => b3 j hj)
      rw [← this]; rfl
    rw [e1, e2, List.nil_append]
  refine ⟨t', c', ?_, r2, he⟩
  unfold eraseIf
  rw [b1]
  simp only [Res.ok_bind]
  rw [r1]
  simp only [Res.ok_bind]
  rw [h.size_eq, r2.size_eq, he]
  have hsum := List.length_eq_countP_add_countP (l := elems t) pred
  congr 2
  rw [← List.countP_eq_length_filter]
  have : List.countP (fun a => !pred a) (elems t) = List.countP (fun a => decide ¬pred a = true) (elems t) := by
    apply List.countP_congr; intro x _; simp
  omega

/-! #### Capacity -/

section
variable {C : Cfg α κ} {nd : Prop} {t : Tbl α} {l : List α} {p s : Nat}

theorem clear_psim (hC : CfgOk C) (h : PSim C nd t l p s) (r : Nat) :
    ∃ t', t.clear C = .ok t' ∧ PSim C nd t' [] 0 r := by
  obtain ⟨c, q, hi, hq, hn, hp⟩ := h
  have hse := hi.size_eq
  unfold Tbl.clear
  by_cases h0 : t.size = 0
  · rw [if_pos h0]
    have hp0 : p = 0 := by omega
    have hq0 : q = 0 := hi.zero hp0
    subst hp0 hq0
    refine ⟨t, rfl, c, 0, hi, Nat.zero_le _, hn, ?_⟩
    rw [List.length_eq_zero_iff.1 (show (elems t).length = 0 by omega)]
  · rw [if_neg h0]
    have hc0 : t.capacity ≠ 0 := fun hc => h0 (hi.cap_zero hC hc)
    rw [if_neg hc0]
    obtain ⟨t', d1, d2, d3, d4, d5⟩ := destroyFull_spec hC hi.core
    rw [d1]
    simp only [Res.ok_bind]
    rw [d2, if_pos (all_none_replicate _)]
    have hinv : Inv C { t' with
        slots := List.replicate t.capacity none
        size := 0
        ctrl := resetCtrl C.G.W t'.capacity
        growthLeft := usub (capacityToGrowth C.G.W t'.capacity) 0 } (List.replicate t.capacity kEmpty) := by
      refine ⟨fresh_core hC.group d3 (by rw [d3]) rfl hi.core.raw.pow, ?_, ?_, ?_⟩
      · rw [elems_replicate rfl]; rfl
      · simp only
        rw [count_replicate_deleted, usub_of_le (by omega), d3]; omega
      · intro _ hd
        exact absurd (List.eq_of_mem_replicate hd) (by decide)
    refine ⟨_, rfl, List.replicate t.capacity kEmpty, 0, InvP.of_inv ?_, Nat.zero_le _,
      fun _ hd => absurd (List.eq_of_mem_replicate hd) (by decide), ?_⟩
    · exact hinv
    · rw [elems_replicate rfl]

theorem rehash_psim (hC : CfgOk C) (h : PSim C nd t l p s) (hs : s ≤ 7) {n : Nat} (hn : n ≠ 0 ∨ t.size = 0) :
    ∃ t', t.rehash C n = .ok t' ∧ PSim C nd t' l p s := by
  obtain ⟨c, q, hi, hq, hnd, hp⟩ := h
  have hse := hi.size_eq
  unfold rehash
  by_cases h1 : n = 0 ∧ t.capacity = 0
  · rw [if_pos h1]; exact ⟨t, rfl, c, q, hi, hq, hnd, hp⟩
  rw [if_neg h1]
  by_cases h2 : n = 0 ∧ t.size = 0
  · rw [if_pos h2]
    obtain ⟨t', d1, d2⟩ := destroySlots_spec hC hi.core
    rcases d2 with ⟨_, rfl⟩ | rfl
    · exact ⟨t', d1, c, q, hi, hq, hnd, hp⟩
    · have hp0 : p = 0 := by omega
      subst hp0
      have he := hp.length_eq
      rw [List.length_eq_zero_iff.1 (show l.length = 0 by omega)]
      exact ⟨Tbl.empty, d1, PSim.empty hC.group⟩
  rw [if_neg h2]
  have hn0 : n ≠ 0 := by
    rcases hn with h | h
    · exact h
    · exact fun hn0 => h2 ⟨hn0, h⟩
  obtain ⟨k, hk1, hk2⟩ := normalizeCapacity_pow (max n t.size)
  simp only
  by_cases h3 : n = 0 ∨ normalizeCapacity (max n t.size) > t.capacity
  · rw [if_pos h3]
    have hgt : normalizeCapacity (max n t.size) > t.capacity := by
      rcases h3 with hh | hh
      · exact absurd hh hn0
      · exact hh
    have hfit : t.size ≤ capacityToGrowth C.G.W (normalizeCapacity (max n t.size)) := by
      by_cases hc0 : t.capacity = 0
      · have := hi.cap_zero hC hc0; omega
      · obtain ⟨m, hm⟩ := hi.core.raw.pow
        have hdbl : t.capacity * 2 + 1 ≤ normalizeCapacity (max n t.size) := by
          have hlt : 2 ^ m < 2 ^ k := by omega
          have hmk : m < k := (Nat.pow_lt_pow_iff_right (by omega)).1 hlt
          have : 2 ^ (m + 1) ≤ 2 ^ k := Nat.pow_le_pow_right (by omega) hmk
          rw [pow_succ] at this
          omega
        have := hi.fits hC (by omega) hc0 hdbl
        omega
    have hcl := capacityToGrowth_le C.G.W (normalizeCapacity (max n t.size))
    obtain ⟨t', c', r1, r2, r3, r4, r5, r6, r7⟩ := resize_spec hC hi.core ⟨k, hk2⟩ (by omega)
    exact ⟨t', r1, c', p, hi.rebuilt r2 r3 r5 (by rw [r4]; exact r6) r7 (by rw [r4]; exact hfit), by omega, fun _ => r7,
      r3.trans hp⟩
  · rw [if_neg h3]
    exact ⟨t, rfl, c, q, hi, hq, hnd, hp⟩

theorem reserve_psim (hC : CfgOk C) (h : PSim C nd t l p s) (hs : s ≤ 7) {n : Nat} (hn : n ≠ 0 ∨ t.size = 0) :
    ∃ t', t.reserve C n = .ok t' ∧ PSim C nd t' l p s := by
  unfold reserve
  refine rehash_psim hC h hs ?_
  rcases hn with hn | hn
  · left; unfold growthToLowerboundCapacity; split <;> omega
  · exact .inr hn

theorem insertAll_psim (hC : CfgOk C) (hs : s ≤ 7) : ∀ (vs : List α) (t : Tbl α) (l : List α), PSim C nd t l p s →
    ∃ t', vs.foldlM (fun t v => do
      let (t, _, _) ← t.emplace C v
      Res.ok t) t = .ok t' ∧ PSim C nd t' (vs.foldl (Spec.insert C.key C.eqv) l) p s
  | [], t, l, h => ⟨t, rfl, h⟩
  | v :: vs, t, l, h => by
    rw [List.foldlM_cons, List.foldl_cons]
    rcases emplace_psim hC h hs v with ⟨i, b, h1, _, _, _, h5⟩ | ⟨t', i, h1, _, h3, h4⟩
    · rw [h1]
      simp only [Res.ok_bind]
      have : Spec.insert C.key C.eqv l v = l := by unfold Spec.insert; rw [h5]
      rw [this]
      exact insertAll_psim hC hs vs t l h
    · rw [h1]
      simp only [Res.ok_bind]
      have : Spec.insert C.key C.eqv l v = v :: l := by unfold Spec.insert; rw [h4]
      rw [this]
      exact insertAll_psim hC hs vs t' (v :: l) h3

theorem assignAt_psim (hC : CfgOk C) (h : PSim C nd t l p s) {i : Nat} {a : α}
    (hs : t.slots[i]? = some (some a)) {k : κ} (hk : C.eqv (C.key a) k = true) {f : α → α} (hf : ∀ b, C.key (f b) = C.key b) :
    ∃ t', t.assignAt i f = .ok t' ∧ t'.slots[i]? = some (some (f a)) ∧
      PSim C nd t' (Spec.modify C.key C.eqv l k f) p s := by
  obtain ⟨c, q, hi, hq, hnd, hp⟩ := h
  have hgr := hi.growth
  have hinv : Inv C { t with size := (elems t).length, growthLeft := t.growthLeft + q } c :=
    ⟨hi.core.congr rfl rfl rfl, rfl, by simp only; omega, hi.small⟩
  have hsim : Sim C { t with size := (elems t).length, growthLeft := t.growthLeft + q } l := ⟨⟨c, hinv⟩, hp⟩
  obtain ⟨t', g1, g2, g3⟩ := assignAt_sim hC hsim hs hk hf
  unfold assignAt at g1
  have hrd : Tbl.readSlot { t with size := (elems t).length, growthLeft := t.growthLeft + q } i = .ok a := readSlot_ok' hs
  rw [hrd] at g1
  simp only [Res.ok_bind] at g1
  cases g1
  have hinv' := assign_inv hinv hs (hf a)
  have hlen : (elems { t with slots := t.slots.set i (some (f a)) }).length = (elems t).length := hinv'.size_eq.symm
  refine ⟨{ t with slots := t.slots.set i (some (f a)) }, ?_, g2, c, q, ⟨hinv'.core.congr rfl rfl rfl, ?_, ?_, hi.small,
    hi.zero, hi.big⟩, hq, hnd, g3.2⟩
  · unfold assignAt; rw [readSlot_ok' hs]; rfl
  · rw [hlen]; exact hi.size_eq
  · rw [hlen]; exact hgr

/-- One call during which nothing throws. -/
theorem step_psim (hC : CfgOk C) (h : PSim C nd t l p s) (hs : s ≤ 7) (op : Op α κ) (hv : op.Valid C.key)
    (hne : nd → ¬ (TOp.call op).Erases) :
    ∃ t' r, t.step C op = .ok (t', r) ∧
      Spec.offBy p (.call op) (.got (Spec.step C.key C.eqv l op).2) = .got r ∧
      (op = .clear → PSim C nd t' [] 0 0) ∧ (op ≠ .clear → PSim C nd t' (Spec.step C.key C.eqv l op).1 p s) := by
  have hd := h.distinct hC
  -- all but `size` and `clear` are as in the specification
  have plain : (∃ t', t.step C op = .ok (t', (Spec.step C.key C.eqv l op).2) ∧ op ≠ .clear ∧ op ≠ .size ∧
      PSim C nd t' (Spec.step C.key C.eqv l op).1 p s) → ∃ t' r, t.step C op = .ok (t', r) ∧
      Spec.offBy p (.call op) (.got (Spec.step C.key C.eqv l op).2) = .got r ∧
      (op = .clear → PSim C nd t' [] 0 0) ∧ (op ≠ .clear → PSim C nd t' (Spec.step C.key C.eqv l op).1 p s) := by
    rintro ⟨t', h1, h2, h3, h4⟩
    refine ⟨t', _, h1, ?_, fun h => absurd h h2, fun _ => h4⟩
    unfold Spec.offBy
    split
    · rename_i heq _
      cases heq
      exact absurd rfl h3
    · rfl
  cases op with
  | insert a =>
    apply plain
    rcases emplace_psim hC h hs a with ⟨i, b, h1, h2, h3, h4, h5⟩ | ⟨t', i, h1, h2, h3, h4⟩
    · refine ⟨t, ?_, by simp, by simp, ?_⟩ <;> simp only [Tbl.step, Spec.step, h1, h5, Res.ok_bind, readSlot_ok' h2]
      exact h
    · refine ⟨t', ?_, by simp, by simp, ?_⟩ <;> simp only [Tbl.step, Spec.step, h1, h4, Res.ok_bind, readSlot_ok' h2]
      exact h3
  | insertOrAssign a f =>
    apply plain
    rcases find_psim hC h (C.key a) with ⟨i, b, h1, h2, h3, h4, h5⟩ | ⟨h1, h2, h3⟩
    · obtain ⟨t', g1, g2, g3⟩ := assignAt_psim hC h h2 h4 hv
      have : t.insertOrAssign C a f = .ok (t', i, false) := by
        unfold insertOrAssign; dsimp only
        rw [show t.findHash C (C.key a) (C.hash (C.key a)) = .ok (some i) from h1]
        simp only [Res.ok_bind, g1]
      refine ⟨t', ?_, by simp, by simp, ?_⟩ <;> simp only [Tbl.step, Spec.step, this, h5, Res.ok_bind, readSlot_ok' g2]
      exact g3
    · rcases emplace_psim hC h hs a with ⟨i, b, _, _, g3, g4, _⟩ | ⟨t', i, g1, g2, g3, g4⟩
      · rw [h2 b g3] at g4; cases g4
      · refine ⟨t', ?_, by simp, by simp, ?_⟩ <;>
          simp only [Tbl.step, Spec.step, insertOrAssign_none g1, g4, Res.ok_bind, readSlot_ok' g2]
        exact g3
  | subscript a f =>
    apply plain
    rcases emplace_psim hC h hs a with ⟨i, b, h1, h2, h3, h4, h5⟩ | ⟨t', i, h1, h2, h3, h4⟩
    · obtain ⟨t', g1, g2, g3⟩ := assignAt_psim hC h h2 h4 hv
      refine ⟨t', ?_, by simp, by simp, ?_⟩ <;>
        simp only [Tbl.step, Tbl.subscript, Spec.step, h1, h5, Res.ok_bind, readSlot_ok' h2, g1]
      exact g3
    · obtain ⟨t'', g1, g2, g3⟩ := assignAt_psim hC h3 h2 (hC.refl (C.key a)) hv
      refine ⟨t'', ?_, by simp, by simp, ?_⟩ <;>
        simp only [Tbl.step, Tbl.subscript, Spec.step, h1, h4, Res.ok_bind, readSlot_ok' h2, g1]
      have : Spec.modify C.key C.eqv (a :: l) (C.key a) f = f a :: l := by
        have := modify_other (f := f) (lookup_none.1 h4)
        unfold Spec.modify at this ⊢
        rw [List.map_cons, this, if_pos (hC.refl _)]
      rw [this] at g3
      exact g3
  | «at» k =>
    apply plain
    refine ⟨t, ?_, by simp, by simp, h⟩
    rcases find_psim hC h k with ⟨i, a, h1, h2, h3, h4, h5⟩ | ⟨h1, h2, h3⟩
    · simp only [Tbl.step, Tbl.at_, Spec.step, h1, h5, Res.ok_bind, readSlot_ok' h2]
    · simp only [Tbl.step, Tbl.at_, Spec.step, h1, h3, Res.ok_bind]
  | find k =>
    apply plain
    refine ⟨t, ?_, by simp, by simp, h⟩
    rcases find_psim hC h k with ⟨i, a, h1, h2, h3, h4, h5⟩ | ⟨h1, h2, h3⟩
    · simp only [Tbl.step, Spec.step, h1, h5, Res.ok_bind, readSlot_ok' h2]
    · simp only [Tbl.step, Spec.step, h1, h3, Res.ok_bind]
  | contains k =>
    apply plain
    refine ⟨t, ?_, by simp, by simp, h⟩
    rcases find_psim hC h k with ⟨i, a, h1, h2, h3, h4, h5⟩ | ⟨h1, h2, h3⟩
    · simp only [Tbl.step, Tbl.contains, Spec.step, h1, any_some h3 h4, Res.ok_bind, Option.isSome]
    · simp only [Tbl.step, Tbl.contains, Spec.step, h1, any_none h2, Res.ok_bind, Option.isSome]
  | count k =>
    apply plain
    refine ⟨t, ?_, by simp, by simp, h⟩
    rcases find_psim hC h k with ⟨i, a, h1, h2, h3, h4, h5⟩ | ⟨h1, h2, h3⟩
    · simp only [Tbl.step, Tbl.count, Spec.step, h1, countP_key hC hd h3 h4, Res.ok_bind, Option.isSome, if_true]
    · simp only [Tbl.step, Tbl.count, Spec.step, h1, countP_none h2, Res.ok_bind, Option.isSome]
      rfl
  | erase k =>
    apply plain
    have hnd : ¬ nd := fun h => hne h trivial
    rcases find_psim hC h k with ⟨i, a, h1, h2, h3, h4, h5⟩ | ⟨h1, h2, h3⟩
    · obtain ⟨t', g1, g2⟩ := eraseAt_psim hC h hnd h2 h4
      refine ⟨t', ?_, by simp, by simp, ?_⟩ <;>
        simp only [Tbl.step, Tbl.erase, Spec.step, h1, g1, countP_key hC hd h3 h4, Res.ok_bind]
      exact g2
    · refine ⟨t, ?_, by simp, by simp, ?_⟩ <;>
        simp only [Tbl.step, Tbl.erase, Spec.step, h1, countP_none h2, erase_none h2, Res.ok_bind]
      exact h
  | eraseIf pr =>
    apply plain
    have hnd : ¬ nd := fun h => hne h trivial
    obtain ⟨c, q, hi, hq, hn, hp⟩ := h
    obtain ⟨t', c', h1, h2, h3⟩ := eraseIfP hC hi pr
    refine ⟨t', ?_, by simp, by simp, c', q, h2, hq, fun h => absurd h hnd, by rw [h3]; exact hp.filter _⟩
    simp only [Tbl.step, Spec.step, h1, Res.ok_bind, hp.countP_eq]
  | extract k =>
    apply plain
    have hnd : ¬ nd := fun h => hne h trivial
    rcases find_psim hC h k with ⟨i, a, h1, h2, h3, h4, h5⟩ | ⟨h1, h2, h3⟩
    · obtain ⟨t', g1, g2⟩ := extractAt_psim hC h hnd h2 h4
      refine ⟨t', ?_, by simp, by simp, ?_⟩ <;>
        simp only [Tbl.step, Tbl.extract, Spec.step, h1, g1, h5, Res.ok_bind]
      exact g2
    · refine ⟨t, ?_, by simp, by simp, ?_⟩ <;>
        simp only [Tbl.step, Tbl.extract, Spec.step, h1, h3, erase_none h2, Res.ok_bind]
      exact h
  | insertNode n =>
    apply plain
    cases n with
    | none => exact ⟨t, rfl, by simp, by simp, h⟩
    | some a =>
      rcases emplace_psim hC h hs a with ⟨i, b, h1, h2, h3, h4, h5⟩ | ⟨t', i, h1, h2, h3, h4⟩
      · unfold emplace at h1
        refine ⟨t, ?_, by simp, by simp, ?_⟩ <;>
          simp only [Tbl.step, Tbl.insertNode, Spec.step, h1, h5, Res.ok_bind, readSlot_ok' h2]
        · rfl
        · exact h
      · unfold emplace at h1
        refine ⟨t', ?_, by simp, by simp, ?_⟩ <;>
          simp only [Tbl.step, Tbl.insertNode, Spec.step, h1, h4, Res.ok_bind, readSlot_ok' h2]
        · rfl
        · exact h3
  | toggle a =>
    apply plain
    have hnd : ¬ nd := fun h => hne h trivial
    rcases find_psim hC h (C.key a) with ⟨i, b, h1, h2, h3, h4, h5⟩ | ⟨h1, h2, h3⟩
    · obtain ⟨t', g1, g2⟩ := eraseAt_psim hC h hnd h2 h4
      have : t.emplaceSingle C (C.key a) (C.hash (C.key a)) (fun _ => a) = .ok t' := by
        unfold emplaceSingle
        rw [show t.findHash C (C.key a) (C.hash (C.key a)) = .ok (some i) from h1]
        simp only [Res.ok_bind, g1]
      refine ⟨t', ?_, by simp, by simp, ?_⟩ <;> simp only [Tbl.step, Spec.step, this, h5, Res.ok_bind]
      exact g2
    · rcases emplace_psim hC h hs a with ⟨i, b, _, _, g3, g4, _⟩ | ⟨t', i, g1, g2, g3, g4⟩
      · rw [h2 b g3] at g4; cases g4
      · refine ⟨t', ?_, by simp, by simp, ?_⟩ <;> simp only [Tbl.step, Spec.step, emplaceSingle_none g1, g4, Res.ok_bind]
        exact g3
  | insertRange vs =>
    apply plain
    obtain ⟨t1, h1, h2⟩ := reserve_psim hC h hs (n := t.size + vs.length) (by omega)
    obtain ⟨t2, h3, h4⟩ := insertAll_psim hC hs vs t1 l h2
    have : t.insertRange C vs = .ok t2 := by
      unfold insertRange; rw [h1]; exact h3
    exact ⟨t2, by simp only [Tbl.step, Spec.step, this, Res.ok_bind], by simp, by simp, h4⟩
  | size =>
    refine ⟨t, .nat (l.length + p), by simp only [Tbl.step, h.size], rfl, by simp, fun _ => h⟩
  | clear =>
    obtain ⟨t', h1, h2⟩ := clear_psim hC h 0
    exact ⟨t', .unit, by simp only [Tbl.step, h1, Res.ok_bind], rfl, fun _ => h2, fun h => absurd rfl h⟩
  | reserve n =>
    apply plain
    obtain ⟨t', h1, h2⟩ := reserve_psim hC h hs (n := n) (.inl hv)
    exact ⟨t', by simp only [Tbl.step, Spec.step, h1, Res.ok_bind], by simp, by simp, h2⟩
  | rehash n =>
    apply plain
    obtain ⟨t', h1, h2⟩ := rehash_psim hC h hs (n := n) (.inl hv)
    exact ⟨t', by simp only [Tbl.step, Spec.step, h1, Res.ok_bind], by simp, by simp, h2⟩

end

/-- A history with few exceptions between calls of `clear()`. -/
theorem trun_few {C : Cfg α κ} (hC : CfgOk C) : ∀ (ops : List (TOp α κ)) (t : Tbl α) (l : List α) (p s : Nat),
    PSim C False t l p s → s ≤ 7 → Spec.Few 7 s ops → (∀ op ∈ ops, op.Valid C.key) →
    ∃ t' s', t.trun C ops = .ok (t', (Spec.trun C.key C.eqv l p ops).2.2) ∧ s' ≤ 7 ∧
      PSim C False t' (Spec.trun C.key C.eqv l p ops).1 (Spec.trun C.key C.eqv l p ops).2.1 s'
  | [], t, l, p, s, h, hs, _, _ => ⟨t, s, rfl, hs, h⟩
  | op :: ops, t, l, p, s, h, hs, hf, hv => by
    have hv' : ∀ op ∈ ops, op.Valid C.key := fun o ho => hv o (List.mem_cons_of_mem _ ho)
    have hop := hv op List.mem_cons_self
    cases op with
    | throwing a =>
      obtain ⟨f1, f2⟩ := hf
      rcases emplaceThrow_psim hC h hs a with ⟨e1, e2⟩ | ⟨t1, e1, e2, e3, _⟩
      · -- nothing was thrown; a smaller count will do
        obtain ⟨c, q, hi, hq, hn, hp⟩ := h
        obtain ⟨t', s', g1, g2, g3⟩ := trun_few hC ops t l p (s + 1) ⟨c, q, hi, by omega, hn, hp⟩ f1 f2 hv'
        refine ⟨t', s', ?_, g2, ?_⟩
        · simp only [Tbl.trun, Tbl.tstep, Spec.trun, Spec.tstep, Spec.excessAfter, e1, e2, if_true, Res.ok_bind, g1]
          rfl
        · simp only [Spec.trun, Spec.tstep, Spec.excessAfter, e2, if_true]
          exact g3
      · obtain ⟨t', s', g1, g2, g3⟩ := trun_few hC ops t1 l (p + 1) (s + 1) e3 f1 f2 hv'
        refine ⟨t', s', ?_, g2, ?_⟩
        · simp only [Tbl.trun, Tbl.tstep, Spec.trun, Spec.tstep, Spec.excessAfter, e1, e2, if_true, Res.ok_bind, g1,
            Bool.false_eq_true, if_false]
          rfl
        · simp only [Spec.trun, Spec.tstep, Spec.excessAfter, e2, Bool.false_eq_true, if_false]
          exact g3
    | call op =>
      obtain ⟨t1, r, e1, e2, e3, e4⟩ := step_psim hC h hs op hop (fun h => absurd h id)
      by_cases hc : op = .clear
      · subst hc
        obtain ⟨t', s', g1, g2, g3⟩ := trun_few hC ops t1 [] 0 0 (e3 rfl) (by omega) hf hv'
        refine ⟨t', s', ?_, g2, g3⟩
        have e2' : Spec.offBy p (TOp.call Op.clear) (TResp.got Resp.unit) = TResp.got r := e2
        simp only [Tbl.trun, Tbl.tstep, Spec.trun, Spec.tstep, Spec.excessAfter, e1, e2', Res.ok_bind, g1, Spec.step]
      · have hx : Spec.excessAfter C.key C.eqv l p (.call op) = p := by cases op <;> first | rfl | exact absurd rfl hc
        have hf' : Spec.Few 7 s ops := by cases op <;> first | exact hf | exact absurd rfl hc
        obtain ⟨t', s', g1, g2, g3⟩ := trun_few hC ops t1 _ p s (e4 hc) hs hf' hv'
        refine ⟨t', s', ?_, g2, ?_⟩
        · simp only [Tbl.trun, Tbl.tstep, Spec.trun, Spec.tstep, hx, e1, e2, Res.ok_bind, g1]
        · simp only [Spec.trun, Spec.tstep, hx]
          exact g3

/-- A history without erasing calls. -/
theorem trun_grow {C : Cfg α κ} (hC : CfgOk C) : ∀ (ops : List (TOp α κ)) (t : Tbl α) (l : List α) (p : Nat),
    PSim C True t l p 0 → (∀ op ∈ ops, op.Valid C.key) → (∀ op ∈ ops, ¬ op.Erases) →
    ∃ t', t.trun C ops = .ok (t', (Spec.trun C.key C.eqv l p ops).2.2) ∧
      PSim C True t' (Spec.trun C.key C.eqv l p ops).1 (Spec.trun C.key C.eqv l p ops).2.1 0
  | [], t, l, p, h, _, _ => ⟨t, rfl, h⟩
  | op :: ops, t, l, p, h, hv, hne => by
    have hv' : ∀ op ∈ ops, op.Valid C.key := fun o ho => hv o (List.mem_cons_of_mem _ ho)
    have hne' : ∀ op ∈ ops, ¬ op.Erases := fun o ho => hne o (List.mem_cons_of_mem _ ho)
    have hop := hv op List.mem_cons_self
    cases op with
    | throwing a =>
      rcases emplaceThrow_psim hC h (by omega) a with ⟨e1, e2⟩ | ⟨t1, e1, e2, _, e3⟩
      · obtain ⟨t', g1, g3⟩ := trun_grow hC ops t l p h hv' hne'
        refine ⟨t', ?_, ?_⟩
        · simp only [Tbl.trun, Tbl.tstep, Spec.trun, Spec.tstep, Spec.excessAfter, e1, e2, if_true, Res.ok_bind, g1]
          rfl
        · simp only [Spec.trun, Spec.tstep, Spec.excessAfter, e2, if_true]
          exact g3
      · obtain ⟨t', g1, g3⟩ := trun_grow hC ops t1 l (p + 1) (e3 trivial) hv' hne'
        refine ⟨t', ?_, ?_⟩
        · simp only [Tbl.trun, Tbl.tstep, Spec.trun, Spec.tstep, Spec.excessAfter, e1, e2, if_true, Res.ok_bind, g1,
            Bool.false_eq_true, if_false]
          rfl
        · simp only [Spec.trun, Spec.tstep, Spec.excessAfter, e2, Bool.false_eq_true, if_false]
          exact g3
    | call op =>
      obtain ⟨t1, r, e1, e2, e3, e4⟩ := step_psim hC h (by omega) op hop (fun _ => hne _ List.mem_cons_self)
      by_cases hc : op = .clear
      · subst hc
        obtain ⟨t', g1, g3⟩ := trun_grow hC ops t1 [] 0 (e3 rfl) hv' hne'
        refine ⟨t', ?_, g3⟩
        have e2' : Spec.offBy p (TOp.call Op.clear) (TResp.got Resp.unit) = TResp.got r := e2
        simp only [Tbl.trun, Tbl.tstep, Spec.trun, Spec.tstep, Spec.excessAfter, e1, e2', Res.ok_bind, g1, Spec.step]
      · have hx : Spec.excessAfter C.key C.eqv l p (.call op) = p := by cases op <;> first | rfl | exact absurd rfl hc
        obtain ⟨t', g1, g3⟩ := trun_grow hC ops t1 _ p (e4 hc) hv' hne'
        refine ⟨t', ?_, ?_⟩
        · simp only [Tbl.trun, Tbl.tstep, Spec.trun, Spec.tstep, hx, e1, e2, Res.ok_bind, g1]
        · simp only [Spec.trun, Spec.tstep, hx]
          exact g3

end Gtl.Swiss
