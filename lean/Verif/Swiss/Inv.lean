import Verif.Swiss.Find
import Mathlib.Data.List.Perm.Basic
import Mathlib.Data.List.Count
/-! The representation invariant of the table. -/

namespace Gtl.Swiss
variable {α κ : Type}

open Tbl

/-- The elements stored in the table, in slot order. -/
def elems (t : Tbl α) : List α := t.slots.filterMap id

/-! ### List facts -/

theorem list_split {β : Type} {l : List β} {i : Nat} {x : β} (h : l[i]? = some x) (y : β) :
    ∃ l1 l2, l = l1 ++ x :: l2 ∧ l.set i y = l1 ++ y :: l2 ∧ l1.length = i := by
  rw [List.getElem?_eq_some_iff] at h
  obtain ⟨hi, rfl⟩ := h
  refine ⟨l.take i, l.drop (i + 1), ?_, ?_, by simp; omega⟩
  · simp
  · rw [List.set_eq_take_append_cons_drop, if_pos hi]

theorem filterMap_set_none {s : List (Option α)} {i : Nat} {a : α} (h : s[i]? = some (some a)) :
    List.Perm (s.filterMap id) (a :: (s.set i none).filterMap id) := by
  obtain ⟨l1, l2, h1, h2, _⟩ := list_split h none
  rw [h2]; conv_lhs => rw [h1]
  simp only [List.filterMap_append, List.filterMap_cons, id_eq]
  exact List.perm_middle

theorem filterMap_set_some {s : List (Option α)} {i : Nat} (a : α) (h : s[i]? = some none) :
    List.Perm ((s.set i (some a)).filterMap id) (a :: s.filterMap id) := by
  obtain ⟨l1, l2, h1, h2, _⟩ := list_split h (some a)
  rw [h2]; conv_rhs => rw [h1]
  simp only [List.filterMap_append, List.filterMap_cons, id_eq]
  exact List.perm_middle

theorem count_set {c : List Ctrl} {i : Nat} {x : Ctrl} (h : c[i]? = some x) (y v : Ctrl) :
    (c.set i y).count v + (if x = v then 1 else 0) = c.count v + (if y = v then 1 else 0) := by
  obtain ⟨l1, l2, h1, h2, _⟩ := list_split h y
  rw [h2]; conv_rhs => rw [h1]
  simp only [List.count_append, List.count_cons, beq_iff_eq]
  split <;> split <;> omega

theorem mem_elems {t : Tbl α} {a : α} : a ∈ elems t ↔ ∃ i : Nat, t.slots[i]? = some (some a) := by
  unfold elems
  simp only [List.mem_filterMap, id_eq, exists_eq_right]
  rw [List.mem_iff_getElem?]

/-- Counting: full bytes are elements. -/
theorem count_full (s : List (Option α)) (c : List Ctrl) (hl : s.length = c.length)
    (h1 : ∀ (i : Nat) (a : α), s[i]? = some (some a) → ∃ x, c[i]? = some x ∧ isFull x = true)
    (h2 : ∀ (i : Nat), s[i]? = some none → ∃ x, c[i]? = some x ∧ Eod x) :
    (s.filterMap id).length + c.count kDeleted + c.count kEmpty = c.length := by
  induction s generalizing c with
  | nil =>
    have : c = [] := by cases c with
      | nil => rfl
      | cons _ _ => simp at hl
    subst this; simp
  | cons o s ih =>
    cases c with
    | nil => simp at hl
    | cons x c =>
      have ih' := ih c (by simpa using hl) (fun i a h => by simpa using h1 (i + 1) a (by simpa using h))
        (fun i h => by simpa using h2 (i + 1) (by simpa using h))
      cases o with
      | none =>
        obtain ⟨y, hy, he⟩ := h2 0 (by simp)
        have : y = x := by simpa using hy.symm
        subst this
        rw [List.filterMap_cons_none rfl]
        simp only [List.count_cons, List.length_cons, beq_iff_eq]
        rcases he with rfl | rfl
        · rw [if_neg (by decide), if_pos rfl]; omega
        · rw [if_pos rfl, if_neg (by decide)]; omega
      | some a =>
        obtain ⟨y, hy, hf⟩ := h1 0 a (by simp)
        have : y = x := by simpa using hy.symm
        subst this
        obtain ⟨n1, n2, _⟩ := ne_of_full hf
        rw [List.filterMap_cons_some (f := id) (show id (some a) = some a from rfl)]
        simp only [List.count_cons, List.length_cons, beq_iff_eq]
        rw [if_neg n2, if_neg n1]; omega

/-! ### The invariant -/

/-- What the user must provide: `Eq` is an equivalence and `Hash` respects it; the group is a correct one. -/
structure CfgOk (C : Cfg α κ) : Prop where
  refl : ∀ k, C.eqv k k = true
  symm : ∀ k l, C.eqv k l = true → C.eqv l k = true
  trans : ∀ k l m, C.eqv k l = true → C.eqv l m = true → C.eqv k m = true
  hash_congr : ∀ k l, C.eqv k l = true → C.hash k = C.hash l
  group : GroupSpec C.G

/-- No two elements have equivalent keys. -/
def Distinct (C : Cfg α κ) (l : List α) : Prop := l.Pairwise (fun a b => C.eqv (C.key a) (C.key b) = false)

theorem CfgOk.symm_false {C : Cfg α κ} (h : CfgOk C) {k l : κ} (e : C.eqv k l = false) : C.eqv l k = false := by
  cases h' : C.eqv l k with
  | false => rfl
  | true => rw [h.symm _ _ h'] at e; cases e

theorem Distinct.perm {C : Cfg α κ} (hC : CfgOk C) {l m : List α} (p : List.Perm l m) (h : Distinct C l) :
    Distinct C m :=
  (p.pairwise_iff (fun {_ _} e => hC.symm_false e)).1 h

/-- `i` can be reached: it is in the `n`-th window of the hash and no earlier window has an empty byte. -/
def Reach (W : Nat) (c : List Ctrl) (cap hash i : Nat) : Prop :=
  ∃ n, InWin W cap hash n i ∧ ∀ q < n, ¬ WinHas (· = kEmpty) W c cap hash q

/-- Everything but the counters. -/
structure Core (C : Cfg α κ) (t : Tbl α) (c : List Ctrl) : Prop where
  raw : Raw C.G.W t c
  sync : Sync t c
  h2 : ∀ (i : Nat) (a : α), t.slots[i]? = some (some a) → c[i]? = some (H2 (C.hash (C.key a)))
  reach : ∀ (i : Nat) (a : α), t.slots[i]? = some (some a) → Reach C.G.W c t.capacity (C.hash (C.key a)) i
  distinct : Distinct C (elems t)

/-- The representation invariant. -/
structure Inv (C : Cfg α κ) (t : Tbl α) (c : List Ctrl) : Prop where
  core : Core C t c
  size_eq : t.size = (elems t).length
  growth : t.growthLeft + t.size + c.count kDeleted = capacityToGrowth C.G.W t.capacity
  small : t.capacity + 1 < C.G.W → kDeleted ∉ c

theorem Core.valid {C : Cfg α κ} {t : Tbl α} {c : List Ctrl} (h : Core C t c) : LValid c := h.sync.valid h.raw.len

theorem Core.counts {C : Cfg α κ} {t : Tbl α} {c : List Ctrl} (h : Core C t c) :
    (elems t).length + c.count kDeleted + c.count kEmpty = t.capacity := by
  have := count_full t.slots c (by rw [h.sync.slen, h.raw.len]) h.sync.some_full h.sync.none_eod
  rw [h.raw.len] at this
  exact this

theorem Core.lt {C : Cfg α κ} {t : Tbl α} {c : List Ctrl} (h : Core C t c) {i : Nat} {o : Option α}
    (hs : t.slots[i]? = some o) : i < t.capacity := by
  rw [List.getElem?_eq_some_iff] at hs
  obtain ⟨hi, _⟩ := hs
  rw [← h.sync.slen]; exact hi

/-- In reachable tables some window has an empty byte: lookups terminate. -/
theorem Inv.has_empty {C : Cfg α κ} (hC : CfgOk C) {t : Tbl α} {c : List Ctrl} (h : Inv C t c) :
    kEmpty ∈ c ∨ t.capacity + 1 < C.G.W := by
  by_cases hs : t.capacity + 1 < C.G.W
  · exact .inr hs
  · left
    have h1 := h.core.counts
    have h2 := h.growth
    have h3 := capacityToGrowth_lt (cap := t.capacity) hC.group.width (by omega)
    have h4 := h.size_eq
    have : 0 < c.count kEmpty := by omega
    exact List.count_pos_iff.1 this

/-! ### Lookup -/

theorem winHas_imp {P Q : Ctrl → Prop} {W cap hash n : Nat} {c : List Ctrl} (h : ∀ x, P x → Q x)
    (hw : WinHas P W c cap hash n) : WinHas Q W c cap hash n := by
  obtain ⟨j, hj, hp⟩ := hw; exact ⟨j, hj, h _ hp⟩

/-- Result of the find loop in a well-formed table, for any predicate that can only hold of elements whose
hash is the one being looked for. -/
theorem probeFind_core {C : Cfg α κ} (hG : GroupSpec C.G) {t : Tbl α} {c : List Ctrl} (h : Core C t c)
    (he : kEmpty ∈ c ∨ t.capacity + 1 < C.G.W) (pred : α → Bool) (hash : Nat)
    (hp : ∀ a ∈ elems t, pred a = true → C.hash (C.key a) = hash) :
    (∃ i a, t.probeFind C pred (H2 hash) t.fuel (Probe.start hash t.capacity) = .ok (some i) ∧
        t.slots[i]? = some (some a) ∧ pred a = true) ∨
    (t.probeFind C pred (H2 hash) t.fuel (Probe.start hash t.capacity) = .ok none ∧
        ∀ a ∈ elems t, pred a = false) := by
  obtain ⟨n0, hn0, hw0⟩ := cover_empty (hash := hash) hG.width h.raw.pow h.raw.len he
  obtain ⟨k, hk⟩ := h.raw.pow
  obtain ⟨res, h1, h2, h3⟩ := probeFind_spec hG h.raw h.sync pred hash n0 hw0 t.fuel 0 (by omega)
    (by unfold Tbl.fuel; omega)
  rw [probe_start hk C.G.W, h1]
  cases res with
  | some i =>
    left
    obtain ⟨a, ha, hpa⟩ := h2 i rfl
    exact ⟨i, a, rfl, ha, hpa⟩
  | none =>
    right
    refine ⟨rfl, ?_⟩
    obtain ⟨m', _, hm2, hm3, hm4⟩ := h3 rfl
    intro a ha
    obtain ⟨i, hi⟩ := mem_elems.1 ha
    cases hpa : pred a with
    | false => rfl
    | true =>
      have hh := hp a ha hpa
      obtain ⟨n, hn1, hn2⟩ := h.reach i a hi
      rw [hh] at hn1 hn2
      have hnm : n ≤ m' := by
        by_contra hcon
        exact hn2 m' (by omega) hm3
      have := hm4 n (by omega) hnm i (h.lt hi) hn1 (by rw [h.h2 i a hi, hh]) a hi
      rw [hpa] at this; cases this

theorem find_core {C : Cfg α κ} (hC : CfgOk C) {t : Tbl α} {c : List Ctrl} (h : Core C t c)
    (he : kEmpty ∈ c ∨ t.capacity + 1 < C.G.W) (k : κ) :
    (∃ i a, t.find C k = .ok (some i) ∧ t.slots[i]? = some (some a) ∧ C.eqv (C.key a) k = true) ∨
    (t.find C k = .ok none ∧ ∀ a ∈ elems t, C.eqv (C.key a) k = false) :=
  probeFind_core hC.group h he _ _ (fun _ _ hp => hC.hash_congr _ _ hp)

theorem find_inv {C : Cfg α κ} (hC : CfgOk C) {t : Tbl α} {c : List Ctrl} (h : Inv C t c) (k : κ) :
    (∃ i a, t.find C k = .ok (some i) ∧ t.slots[i]? = some (some a) ∧ C.eqv (C.key a) k = true) ∨
    (t.find C k = .ok none ∧ ∀ a ∈ elems t, C.eqv (C.key a) k = false) :=
  find_core hC h.core (h.has_empty hC) k

/-! ### Updating one slot -/

theorem winHas_set {P : Ctrl → Prop} {W cap hash n i : Nat} {c : List Ctrl} {x : Ctrl} (hl : c.length = cap)
    (hi : i < cap) (hx : ¬ P x) (h : WinHas P W (c.set i x) cap hash n) : WinHas P W c cap hash n := by
  obtain ⟨j, hj, hp⟩ := h
  rw [lay_set hl hi] at hp
  split at hp
  · exact absurd hp hx
  · exact ⟨j, hj, hp⟩

theorem getElem?_set_slot {s : List (Option α)} {i j : Nat} {v w : Option α} (hi : i < s.length)
    (h : (s.set i v)[j]? = some w) : (j = i ∧ w = v) ∨ (j ≠ i ∧ s[j]? = some w) := by
  rw [List.getElem?_set] at h
  by_cases hij : i = j
  · left
    rw [if_pos hij, if_pos (by omega)] at h
    exact ⟨hij.symm, by simpa using h.symm⟩
  · right
    rw [if_neg hij] at h
    exact ⟨Ne.symm hij, h⟩

theorem getElem?_set_ctrl {c : List Ctrl} {i j : Nat} {x : Ctrl} (hij : j ≠ i) : (c.set i x)[j]? = c[j]? := by
  rw [List.getElem?_set, if_neg (Ne.symm hij)]

theorem getElem?_set_self' {c : List Ctrl} {i : Nat} {x : Ctrl} (hi : i < c.length) : (c.set i x)[i]? = some x := by
  rw [List.getElem?_set, if_pos rfl, if_pos hi]

/-- Filling a free slot. -/
theorem Core.fill {C : Cfg α κ} (hC : CfgOk C) {t t' : Tbl α} {c : List Ctrl} (h : Core C t c) {i n : Nat} {a : α}
    (hi : i < t.capacity) (heod : Eod (c.getD i kEmpty))
    (hin : InWin C.G.W t.capacity (C.hash (C.key a)) n i)
    (hbefore : ∀ q < n, ¬ WinHas Eod C.G.W c t.capacity (C.hash (C.key a)) q)
    (hnew : ∀ b ∈ elems t, C.eqv (C.key b) (C.key a) = false)
    (hcap : t'.capacity = t.capacity) (hslots : t'.slots = t.slots.set i (some a))
    (hraw : Raw C.G.W t' (c.set i (H2 (C.hash (C.key a))))) :
    Core C t' (c.set i (H2 (C.hash (C.key a)))) ∧ List.Perm (elems t') (a :: elems t) := by
  have hsl : i < t.slots.length := by rw [h.sync.slen]; exact hi
  have hcl : i < c.length := by rw [h.raw.len]; exact hi
  have hnone : t.slots[i]? = some none := h.sync.eod_slot hi (getElem?_getD hcl) heod
  have hperm : List.Perm (elems t') (a :: elems t) := by
    unfold elems; rw [hslots]; exact filterMap_set_some a hnone
  have hne : ¬ (H2 (C.hash (C.key a)) = kEmpty) := (ne_of_full (isFull_H2 _)).1
  refine ⟨⟨hraw, ⟨by rw [hslots, hcap]; simpa using h.sync.slen, ?_, ?_⟩, ?_, ?_, ?_⟩, hperm⟩
  · intro j b hb
    rw [hslots] at hb
    rcases getElem?_set_slot hsl hb with ⟨rfl, _⟩ | ⟨hj, hb⟩
    · exact ⟨_, getElem?_set_self' hcl, isFull_H2 _⟩
    · rw [getElem?_set_ctrl hj]; exact h.sync.some_full j b hb
  · intro j hb
    rw [hslots] at hb
    rcases getElem?_set_slot hsl hb with ⟨rfl, hh⟩ | ⟨hj, hb⟩
    · cases hh
    · rw [getElem?_set_ctrl hj]; exact h.sync.none_eod j hb
  · intro j b hb
    rw [hslots] at hb
    rcases getElem?_set_slot hsl hb with ⟨rfl, hh⟩ | ⟨hj, hb⟩
    · cases hh; exact getElem?_set_self' hcl
    · rw [getElem?_set_ctrl hj]; exact h.h2 j b hb
  · intro j b hb
    rw [hslots] at hb
    rw [hcap]
    rcases getElem?_set_slot hsl hb with ⟨rfl, hh⟩ | ⟨hj, hb⟩
    · cases hh
      refine ⟨n, hin, fun q hq hw => hbefore q hq ?_⟩
      exact winHas_imp (fun x hx => Or.inl hx) (winHas_set h.raw.len hi hne hw)
    · obtain ⟨m, h1, h2⟩ := h.reach j b hb
      exact ⟨m, h1, fun q hq hw => h2 q hq (winHas_set h.raw.len hi hne hw)⟩
  · apply Distinct.perm hC hperm.symm
    unfold Distinct
    rw [List.pairwise_cons]
    exact ⟨fun b hb => hC.symm_false (hnew b hb), h.distinct⟩

/-- Emptying a constructed slot. If the byte becomes empty, every window through it must have had an empty byte. -/
theorem Core.vacate {C : Cfg α κ} {t t' : Tbl α} {c : List Ctrl} (h : Core C t c) {i : Nat} {a : α}
    {x : Ctrl} (hs : t.slots[i]? = some (some a)) (hx : Eod x)
    (hnf : x = kEmpty → ∀ o ≤ t.capacity, (∃ j < C.G.W, (o + j) % (t.capacity + 1) = i) →
      ∃ j < C.G.W, lay c t.capacity (o + j) = kEmpty)
    (hcap : t'.capacity = t.capacity) (hslots : t'.slots = t.slots.set i none)
    (hraw : Raw C.G.W t' (c.set i x)) :
    Core C t' (c.set i x) ∧ List.Perm (elems t) (a :: elems t') := by
  have hi := h.lt hs
  have hsl : i < t.slots.length := by rw [h.sync.slen]; exact hi
  have hcl : i < c.length := by rw [h.raw.len]; exact hi
  have hperm : List.Perm (elems t) (a :: elems t') := by
    unfold elems; rw [hslots]; exact filterMap_set_none hs
  refine ⟨⟨hraw, ⟨by rw [hslots, hcap]; simpa using h.sync.slen, ?_, ?_⟩, ?_, ?_, ?_⟩, hperm⟩
  · intro j b hb
    rw [hslots] at hb
    rcases getElem?_set_slot hsl hb with ⟨_, hh⟩ | ⟨hj, hb⟩
    · cases hh
    · rw [getElem?_set_ctrl hj]; exact h.sync.some_full j b hb
  · intro j hb
    rw [hslots] at hb
    rcases getElem?_set_slot hsl hb with ⟨rfl, hh⟩ | ⟨hj, hb⟩
    · exact ⟨x, getElem?_set_self' hcl, hx⟩
    · rw [getElem?_set_ctrl hj]; exact h.sync.none_eod j hb
  · intro j b hb
    rw [hslots] at hb
    rcases getElem?_set_slot hsl hb with ⟨rfl, hh⟩ | ⟨hj, hb⟩
    · cases hh
    · rw [getElem?_set_ctrl hj]; exact h.h2 j b hb
  · intro j b hb
    rw [hslots] at hb
    rw [hcap]
    rcases getElem?_set_slot hsl hb with ⟨rfl, hh⟩ | ⟨hj, hb⟩
    · cases hh
    · obtain ⟨m, h1, h2⟩ := h.reach j b hb
      refine ⟨m, h1, fun q hq hw => ?_⟩
      obtain ⟨jj, hjj, hp⟩ := hw
      rw [lay_set h.raw.len hi] at hp
      split at hp
      · rename_i hpos
        apply h2 q hq
        apply hnf hp _ (off_le _ _ _ _)
        refine ⟨jj, hjj, ?_⟩
        rcases hpos with e | e
        · rw [e]; exact Nat.mod_eq_of_lt (by omega)
        · rw [e, Nat.add_mod_right]; exact Nat.mod_eq_of_lt (by omega)
      · exact h2 q hq ⟨jj, hjj, hp⟩
  · unfold Distinct at *
    have h1 := h.distinct
    have hsub : (elems t').Sublist (elems t) := by
      unfold elems; rw [hslots]
      obtain ⟨l1, l2, e1, e2, _⟩ := list_split hs none
      rw [e2]; conv_rhs => rw [e1]
      simp only [List.filterMap_append, List.filterMap_cons, id_eq]
      exact List.Sublist.append (List.Sublist.refl _) (List.sublist_cons_self _ _)
    exact h1.sublist hsub

end Gtl.Swiss
