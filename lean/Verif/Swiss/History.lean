import Verif.Swiss.World
import Verif.Swiss.Iterate
/-!
# Simulation: the modelled hash table refines the associative container of `Verif.Spec.Assoc`
-/

namespace Gtl.Swiss

open Tbl
open Gtl.Spec (Op WOp Resp put)

variable {α κ : Type}

/-- The table satisfies its invariant and holds exactly the elements of `l`. -/
def Sim (C : Cfg α κ) (t : Tbl α) (l : List α) : Prop := (∃ c, Inv C t c) ∧ List.Perm (elems t) l

/-! ### Unique lookup -/

theorem Distinct.eq_of {C : Cfg α κ} (hC : CfgOk C) {l : List α} (h : Distinct C l) {a b : α} (ha : a ∈ l)
    (hb : b ∈ l) {k : κ} (ea : C.eqv (C.key a) k = true) (eb : C.eqv (C.key b) k = true) : a = b := by
  by_contra hne
  have h1 : l.Pairwise (fun a b => a ≠ b → C.eqv (C.key a) (C.key b) = false) := by
    refine List.Pairwise.imp ?_ h
    intro x y e _; exact e
  have h2 : l.Pairwise (flip (fun a b => a ≠ b → C.eqv (C.key a) (C.key b) = false)) := by
    refine List.Pairwise.imp ?_ h
    intro x y e _; exact hC.symm_false e
  have := List.Pairwise.forall_of_forall_of_flip (fun x _ hx => absurd rfl hx) h1 h2 ha hb hne
  rw [hC.trans _ _ _ ea (hC.symm _ _ eb)] at this
  cases this

theorem lookup_of_mem {C : Cfg α κ} (hC : CfgOk C) {l : List α} (h : Distinct C l) {a : α} (ha : a ∈ l)
    {k : κ} (ea : C.eqv (C.key a) k = true) : Spec.lookup C.key C.eqv l k = some a := by
  unfold Spec.lookup
  cases hf : l.find? (fun a => C.eqv (C.key a) k) with
  | none =>
    rw [List.find?_eq_none] at hf
    exact absurd ea (hf a ha)
  | some b =>
    have hb := List.mem_of_find?_eq_some hf
    have eb := List.find?_some hf
    rw [h.eq_of hC hb ha eb ea]

theorem lookup_none {C : Cfg α κ} {l : List α} {k : κ} :
    Spec.lookup C.key C.eqv l k = none ↔ ∀ a ∈ l, C.eqv (C.key a) k = false := by
  unfold Spec.lookup
  rw [List.find?_eq_none]
  simp

theorem lookup_some {C : Cfg α κ} {l : List α} {k : κ} {a : α} (h : Spec.lookup C.key C.eqv l k = some a) :
    a ∈ l ∧ C.eqv (C.key a) k = true := by
  unfold Spec.lookup at h
  exact ⟨List.mem_of_find?_eq_some h, by simpa using List.find?_some h⟩

theorem lookup_perm {C : Cfg α κ} (hC : CfgOk C) {l m : List α} (p : List.Perm l m) (h : Distinct C l) (k : κ) :
    Spec.lookup C.key C.eqv l k = Spec.lookup C.key C.eqv m k := by
  cases hl : Spec.lookup C.key C.eqv l k with
  | none =>
    symm; rw [lookup_none] at hl ⊢
    exact fun a ha => hl a (p.mem_iff.2 ha)
  | some a =>
    obtain ⟨h1, h2⟩ := lookup_some hl
    exact (lookup_of_mem hC (h.perm hC p) (p.mem_iff.1 h1) h2).symm

theorem countP_key {C : Cfg α κ} (hC : CfgOk C) {l : List α} (h : Distinct C l) {a : α} (ha : a ∈ l) {k : κ}
    (ea : C.eqv (C.key a) k = true) : l.countP (fun a => C.eqv (C.key a) k) = 1 := by
  obtain ⟨l1, l2, rfl⟩ := List.append_of_mem ha
  have hp : List.Perm (l1 ++ a :: l2) (a :: (l1 ++ l2)) := List.perm_middle
  have hd := h.perm hC hp
  rw [hp.countP_eq, List.countP_cons, if_pos ea]
  have : (l1 ++ l2).countP (fun a => C.eqv (C.key a) k) = 0 := by
    rw [List.countP_eq_zero]
    intro b hb hbk
    have := (List.pairwise_cons.1 hd).1 b hb
    rw [hC.trans _ _ _ ea (hC.symm _ _ hbk)] at this
    cases this
  omega

theorem countP_none {C : Cfg α κ} {l : List α} {k : κ} (h : ∀ a ∈ l, C.eqv (C.key a) k = false) :
    l.countP (fun a => C.eqv (C.key a) k) = 0 := by
  rw [List.countP_eq_zero]
  intro b hb hbk
  rw [h b hb] at hbk; cases hbk

theorem any_none {C : Cfg α κ} {l : List α} {k : κ} (h : ∀ a ∈ l, C.eqv (C.key a) k = false) :
    l.any (fun a => C.eqv (C.key a) k) = false := by
  rw [List.any_eq_false]
  intro b hb hbk
  rw [h b hb] at hbk; cases hbk

theorem any_some {C : Cfg α κ} {l : List α} {a : α} (ha : a ∈ l) {k : κ} (ea : C.eqv (C.key a) k = true) :
    l.any (fun a => C.eqv (C.key a) k) = true := by
  rw [List.any_eq_true]
  exact ⟨a, ha, ea⟩

theorem erase_none {C : Cfg α κ} {l : List α} {k : κ} (h : ∀ a ∈ l, C.eqv (C.key a) k = false) :
    Spec.erase C.key C.eqv l k = l := by
  unfold Spec.erase
  rw [List.filter_eq_self]
  intro a ha; rw [h a ha]; rfl

theorem erase_perm {C : Cfg α κ} {l m : List α} (p : List.Perm l m) (k : κ) :
    List.Perm (Spec.erase C.key C.eqv l k) (Spec.erase C.key C.eqv m k) := p.filter _

theorem erase_some {C : Cfg α κ} (hC : CfgOk C) {l m : List α} {a : α} (h : Distinct C l) (p : List.Perm l (a :: m)) {k : κ}
    (ea : C.eqv (C.key a) k = true) : List.Perm (Spec.erase C.key C.eqv l k) m := by
  have hd := List.pairwise_cons.1 (h.perm hC p)
  refine (erase_perm p k).trans ?_
  unfold Spec.erase
  rw [List.filter_cons, if_neg (by rw [ea]; simp)]
  rw [List.filter_eq_self.2]
  intro b hb
  cases hbk : C.eqv (C.key b) k with
  | false => rfl
  | true =>
    have := hd.1 b hb
    rw [hC.trans _ _ _ ea (hC.symm _ _ hbk)] at this
    cases this

theorem Sim.distinct {C : Cfg α κ} (hC : CfgOk C) {t : Tbl α} {l : List α} (h : Sim C t l) : Distinct C l := by
  obtain ⟨⟨c, hi⟩, hp⟩ := h
  exact hi.core.distinct.perm hC hp

theorem Sim.perm {C : Cfg α κ} {t : Tbl α} {l m : List α} (h : Sim C t l) (p : List.Perm l m) : Sim C t m :=
  ⟨h.1, h.2.trans p⟩

theorem Sim.size {C : Cfg α κ} {t : Tbl α} {l : List α} (h : Sim C t l) : t.size = l.length := by
  obtain ⟨⟨c, hi⟩, hp⟩ := h
  rw [hi.size_eq, hp.length_eq]

theorem sim_empty {C : Cfg α κ} (hG : GroupSpec C.G) : Sim C (Tbl.empty : Tbl α) [] :=
  ⟨⟨_, empty_inv hG⟩, by simp [elems, Tbl.empty]⟩

theorem readSlot_ok' {t : Tbl α} {i : Nat} {a : α} (h : t.slots[i]? = some (some a)) : t.readSlot i = .ok a := by
  unfold readSlot; rw [h]

/-! ### The individual operations -/

/-- `find`, in terms of the specification. -/
theorem find_sim {C : Cfg α κ} (hC : CfgOk C) {t : Tbl α} {l : List α} (h : Sim C t l) (k : κ) :
    (∃ i a, t.find C k = .ok (some i) ∧ t.slots[i]? = some (some a) ∧ a ∈ l ∧ C.eqv (C.key a) k = true ∧
      Spec.lookup C.key C.eqv l k = some a) ∨
    (t.find C k = .ok none ∧ (∀ a ∈ l, C.eqv (C.key a) k = false) ∧ Spec.lookup C.key C.eqv l k = none) := by
  have hd := h.distinct hC
  obtain ⟨⟨c, hi⟩, hp⟩ := h
  rcases find_inv hC hi k with ⟨i, a, h1, h2, h3⟩ | ⟨h1, h2⟩
  · have : a ∈ l := hp.mem_iff.1 (mem_elems.2 ⟨i, h2⟩)
    exact .inl ⟨i, a, h1, h2, this, h3, lookup_of_mem hC hd this h3⟩
  · have : ∀ a ∈ l, C.eqv (C.key a) k = false := fun a ha => h2 a (hp.mem_iff.2 ha)
    exact .inr ⟨h1, this, lookup_none.2 this⟩

/-- `emplace`, in terms of the specification. -/
theorem emplace_sim {C : Cfg α κ} (hC : CfgOk C) {t : Tbl α} {l : List α} (h : Sim C t l) (a : α) :
    (∃ i b, t.emplace C a = .ok (t, i, false) ∧ t.slots[i]? = some (some b) ∧ b ∈ l ∧
      C.eqv (C.key b) (C.key a) = true ∧ Spec.lookup C.key C.eqv l (C.key a) = some b) ∨
    (∃ t' i, t.emplace C a = .ok (t', i, true) ∧ t'.slots[i]? = some (some a) ∧ Sim C t' (a :: l) ∧
      Spec.lookup C.key C.eqv l (C.key a) = none) := by
  have hd := h.distinct hC
  obtain ⟨⟨c, hi⟩, hp⟩ := h
  rcases emplaceHash_spec hC hi (C.key a) (fun _ => a) (hC.refl _) with ⟨i, b, h1, h2, h3⟩ | ⟨h0, t', c', i, h1, h2, h3, h4, _⟩
  · have : b ∈ l := hp.mem_iff.1 (mem_elems.2 ⟨i, h2⟩)
    exact .inl ⟨i, b, h1, h2, this, h3, lookup_of_mem hC hd this h3⟩
  · refine .inr ⟨t', i, h1, h4, ⟨⟨c', h2⟩, h3.trans (hp.cons a)⟩, lookup_none.2 ?_⟩
    exact fun b hb => h0 b (hp.mem_iff.2 hb)

theorem filterMap_set_map {s : List (Option α)} {i : Nat} {a b : α} (h : s[i]? = some (some a)) :
    ∃ l1 l2, s.filterMap id = l1 ++ a :: l2 ∧ (s.set i (some b)).filterMap id = l1 ++ b :: l2 := by
  obtain ⟨l1, l2, h1, h2, _⟩ := list_split h (some b)
  refine ⟨l1.filterMap id, l2.filterMap id, ?_, ?_⟩
  · conv_lhs => rw [h1]
    simp
  · rw [h2]; simp

/-- Assigning through a reference without changing the key keeps the invariant. -/
theorem assign_inv {C : Cfg α κ} {t : Tbl α} {c : List Ctrl} (h : Inv C t c) {i : Nat} {a b : α}
    (hs : t.slots[i]? = some (some a)) (hk : C.key b = C.key a) :
    Inv C { t with slots := t.slots.set i (some b) } c := by
  have hi := h.core.lt hs
  have hsl : i < t.slots.length := by rw [h.core.sync.slen]; exact hi
  obtain ⟨l1, l2, e1, e2⟩ := filterMap_set_map (b := b) hs
  have key : ∀ (j : Nat) (d : α), (t.slots.set i (some b))[j]? = some (some d) →
      ∃ d', t.slots[j]? = some (some d') ∧ C.key d = C.key d' := by
    intro j d hd
    rcases getElem?_set_slot hsl hd with ⟨rfl, hw⟩ | ⟨_, hw⟩
    · cases hw; exact ⟨a, hs, hk⟩
    · exact ⟨d, hw, rfl⟩
  have el : elems ({ t with slots := t.slots.set i (some b) } : Tbl α) = l1 ++ b :: l2 := e2
  have el' : elems t = l1 ++ a :: l2 := e1
  refine ⟨⟨h.core.raw.congr rfl rfl, ⟨by simpa using h.core.sync.slen, ?_, ?_⟩, ?_, ?_, ?_⟩, ?_, h.growth, h.small⟩
  · intro j d hd
    obtain ⟨d', h1, _⟩ := key j d hd
    exact h.core.sync.some_full j d' h1
  · intro j hj
    rcases getElem?_set_slot hsl hj with ⟨_, hw⟩ | ⟨_, hw⟩
    · cases hw
    · exact h.core.sync.none_eod j hw
  · intro j d hd
    obtain ⟨d', h1, h2⟩ := key j d hd
    rw [h2]; exact h.core.h2 j d' h1
  · intro j d hd
    obtain ⟨d', h1, h2⟩ := key j d hd
    rw [h2]; exact h.core.reach j d' h1
  · have := h.core.distinct
    rw [el'] at this
    rw [el]
    unfold Distinct at this ⊢
    rw [List.pairwise_append, List.pairwise_cons] at this ⊢
    obtain ⟨p1, ⟨p2, p3⟩, p4⟩ := this
    refine ⟨p1, ⟨fun x hx => by rw [hk]; exact p2 x hx, p3⟩, ?_⟩
    intro x hx y hy
    rcases List.mem_cons.1 hy with rfl | hy
    · rw [hk]; exact p4 x hx a (List.mem_cons_self)
    · exact p4 x hx y (List.mem_cons_of_mem _ hy)
  · rw [el]
    have := h.size_eq
    rw [el'] at this
    simpa using this

theorem modify_other {C : Cfg α κ} {l : List α} {k : κ} {f : α → α} (h : ∀ a ∈ l, C.eqv (C.key a) k = false) :
    Spec.modify C.key C.eqv l k f = l := by
  unfold Spec.modify
  conv_rhs => rw [← List.map_id l]
  apply List.map_congr_left
  intro a ha; rw [h a ha]; rfl

theorem assignAt_sim {C : Cfg α κ} (hC : CfgOk C) {t : Tbl α} {l : List α} (h : Sim C t l) {i : Nat} {a : α}
    (hs : t.slots[i]? = some (some a)) {k : κ} (hk : C.eqv (C.key a) k = true) {f : α → α} (hf : ∀ b, C.key (f b) = C.key b) :
    ∃ t', t.assignAt i f = .ok t' ∧ t'.slots[i]? = some (some (f a)) ∧
      Sim C t' (Spec.modify C.key C.eqv l k f) := by
  obtain ⟨⟨c, hi⟩, hp⟩ := h
  have hil := hi.core.lt hs
  have hsl : i < t.slots.length := by rw [hi.core.sync.slen]; exact hil
  refine ⟨{ t with slots := t.slots.set i (some (f a)) }, ?_, ?_, ⟨⟨c, assign_inv hi hs (hf a)⟩, ?_⟩⟩
  · unfold assignAt; rw [readSlot_ok' hs]; rfl
  · simp [hsl]
  · obtain ⟨l1, l2, e1, e2⟩ := filterMap_set_map (b := f a) hs
    have el : elems ({ t with slots := t.slots.set i (some (f a)) } : Tbl α) = l1 ++ f a :: l2 := e2
    have el' : elems t = l1 ++ a :: l2 := e1
    rw [el]
    have hd := hi.core.distinct
    rw [el'] at hd hp
    have hd' := List.pairwise_cons.1 (hd.perm hC List.perm_middle)
    have ho : ∀ b ∈ l1 ++ l2, C.eqv (C.key b) k = false := by
      intro b hb
      cases hbk : C.eqv (C.key b) k with
      | false => rfl
      | true =>
        have := hd'.1 b hb
        rw [hC.trans _ _ _ hk (hC.symm _ _ hbk)] at this
        cases this
    have hm : List.Perm (Spec.modify C.key C.eqv (l1 ++ a :: l2) k f) (Spec.modify C.key C.eqv l k f) := hp.map _
    refine List.Perm.trans (List.Perm.of_eq ?_) hm
    have m1 := modify_other (f := f) (l := l1) (fun a ha => ho a (List.mem_append_left _ ha))
    have m2 := modify_other (f := f) (l := l2) (fun a ha => ho a (List.mem_append_right _ ha))
    unfold Spec.modify at m1 m2 ⊢
    rw [List.map_append, List.map_cons, m1, m2, if_pos hk]

theorem reserve_sim {C : Cfg α κ} (hC : CfgOk C) {t : Tbl α} {l : List α} (h : Sim C t l) {n : Nat}
    (hn : n ≠ 0 ∨ t.size = 0) : ∃ t', t.reserve C n = .ok t' ∧ Sim C t' l := by
  obtain ⟨⟨c, hi⟩, hp⟩ := h
  have : growthToLowerboundCapacity C.G.W n ≠ 0 ∨ t.size ≤ capacityToGrowth C.G.W (normalizeCapacity t.size) := by
    rcases hn with hn | hn
    · left; unfold growthToLowerboundCapacity; split <;> omega
    · right; omega
  obtain ⟨t', c', h1, h2, h3, _⟩ := rehash_spec hC hi _ this
  exact ⟨t', h1, ⟨⟨c', h2⟩, h3.trans hp⟩⟩

theorem insert_perm {C : Cfg α κ} (hC : CfgOk C) {l m : List α} (p : List.Perm l m) (h : Distinct C l) (a : α) :
    List.Perm (Spec.insert C.key C.eqv l a) (Spec.insert C.key C.eqv m a) := by
  unfold Spec.insert
  rw [lookup_perm hC p h]
  split
  · exact p
  · exact p.cons a

theorem insertAll_sim {C : Cfg α κ} (hC : CfgOk C) : ∀ (vs : List α) (t : Tbl α) (l : List α), Sim C t l →
    ∃ t', vs.foldlM (fun t v => do
      let (t, _, _) ← t.emplace C v
      Res.ok t) t = .ok t' ∧ Sim C t' (vs.foldl (Spec.insert C.key C.eqv) l)
  | [], t, l, h => ⟨t, rfl, h⟩
  | v :: vs, t, l, h => by
    rw [List.foldlM_cons, List.foldl_cons]
    rcases emplace_sim hC h v with ⟨i, b, h1, _, _, _, h5⟩ | ⟨t', i, h1, _, h3, h4⟩
    · rw [h1]
      simp only [Res.ok_bind]
      have : Spec.insert C.key C.eqv l v = l := by unfold Spec.insert; rw [h5]
      rw [this]
      exact insertAll_sim hC vs t l h
    · rw [h1]
      simp only [Res.ok_bind]
      have : Spec.insert C.key C.eqv l v = v :: l := by unfold Spec.insert; rw [h4]
      rw [this]
      exact insertAll_sim hC vs t' (v :: l) h3

theorem emplaceSingle_none {C : Cfg α κ} {t t' : Tbl α} {a : α} {i : Nat} (h : t.emplace C a = .ok (t', i, true)) :
    t.emplaceSingle C (C.key a) (C.hash (C.key a)) (fun _ => a) = .ok t' := by
  unfold emplace emplaceHash at h
  unfold emplaceSingle
  cases hf : t.findHash C (C.key a) (C.hash (C.key a)) with
  | ub => rw [hf] at h; cases h
  | hang => rw [hf] at h; cases h
  | ok o =>
    rw [hf] at h
    cases o with
    | some off =>
      simp only [Res.ok_bind] at h
      injection h with h; injection h with _ h; injection h with _ h; cases h
    | none =>
      simp only [Res.ok_bind] at h ⊢
      obtain ⟨⟨t1, off⟩, h1, h2⟩ := Res.bind_eq_ok.1 h
      obtain ⟨t2, h3, h4⟩ := Res.bind_eq_ok.1 h2
      obtain ⟨t3, h5, h6⟩ := Res.bind_eq_ok.1 h4
      rw [h1]; simp only [Res.ok_bind]
      dsimp only at h3 h5
      rw [h3]; simp only [Res.ok_bind]
      rw [h5]
      injection h6 with h6; injection h6 with h6 _; rw [h6]

theorem insertOrAssign_none {C : Cfg α κ} {t t' : Tbl α} {a : α} {i : Nat} {f : α → α}
    (h : t.emplace C a = .ok (t', i, true)) : t.insertOrAssign C a f = .ok (t', i, true) := by
  unfold emplace emplaceHash at h
  unfold insertOrAssign; dsimp only
  cases hf : t.findHash C (C.key a) (C.hash (C.key a)) with
  | ub => rw [hf] at h; cases h
  | hang => rw [hf] at h; cases h
  | ok o =>
    rw [hf] at h
    cases o with
    | some off =>
      simp only [Res.ok_bind] at h
      injection h with h; injection h with _ h; injection h with _ h; cases h
    | none =>
      simp only [Res.ok_bind] at h ⊢
      exact h

/-- One operation. -/
theorem step_sim {C : Cfg α κ} (hC : CfgOk C) {t : Tbl α} {l : List α} (h : Sim C t l) (op : Op α κ)
    (hv : op.Valid C.key) :
    ∃ t', t.step C op = .ok (t', (Spec.step C.key C.eqv l op).2) ∧ Sim C t' (Spec.step C.key C.eqv l op).1 := by
  have hd := h.distinct hC
  cases op with
  | insert a =>
    rcases emplace_sim hC h a with ⟨i, b, h1, h2, h3, h4, h5⟩ | ⟨t', i, h1, h2, h3, h4⟩
    · refine ⟨t, ?_, ?_⟩ <;> simp only [Tbl.step, Spec.step, h1, h5, Res.ok_bind, readSlot_ok' h2]
      exact h
    · refine ⟨t', ?_, ?_⟩ <;> simp only [Tbl.step, Spec.step, h1, h4, Res.ok_bind, readSlot_ok' h2]
      exact h3
  | insertOrAssign a f =>
    rcases find_sim hC h (C.key a) with ⟨i, b, h1, h2, h3, h4, h5⟩ | ⟨h1, h2, h3⟩
    · obtain ⟨t', g1, g2, g3⟩ := assignAt_sim hC h h2 h4 hv
      have : t.insertOrAssign C a f = .ok (t', i, false) := by
        unfold insertOrAssign; dsimp only
        rw [show t.findHash C (C.key a) (C.hash (C.key a)) = .ok (some i) from h1]
        simp only [Res.ok_bind, g1]
      refine ⟨t', ?_, ?_⟩ <;> simp only [Tbl.step, Spec.step, this, h5, Res.ok_bind, readSlot_ok' g2]
      exact g3
    · rcases emplace_sim hC h a with ⟨i, b, _, _, g3, g4, _⟩ | ⟨t', i, g1, g2, g3, g4⟩
      · rw [h2 b g3] at g4; cases g4
      · refine ⟨t', ?_, ?_⟩ <;>
          simp only [Tbl.step, Spec.step, insertOrAssign_none g1, g4, Res.ok_bind, readSlot_ok' g2]
        exact g3
  | subscript a f =>
    rcases emplace_sim hC h a with ⟨i, b, h1, h2, h3, h4, h5⟩ | ⟨t', i, h1, h2, h3, h4⟩
    · obtain ⟨t', g1, g2, g3⟩ := assignAt_sim hC h h2 h4 hv
      refine ⟨t', ?_, ?_⟩ <;>
        simp only [Tbl.step, Tbl.subscript, Spec.step, h1, h5, Res.ok_bind, readSlot_ok' h2, g1]
      exact g3
    · obtain ⟨t'', g1, g2, g3⟩ := assignAt_sim hC h3 h2 (hC.refl (C.key a)) hv
      refine ⟨t'', ?_, ?_⟩ <;>
        simp only [Tbl.step, Tbl.subscript, Spec.step, h1, h4, Res.ok_bind, readSlot_ok' h2, g1]
      have : Spec.modify C.key C.eqv (a :: l) (C.key a) f = f a :: l := by
        have := modify_other (f := f) (lookup_none.1 h4)
        unfold Spec.modify at this ⊢
        rw [List.map_cons, this, if_pos (hC.refl _)]
      rw [this] at g3
      exact g3
  | «at» k =>
    refine ⟨t, ?_, h⟩
    rcases find_sim hC h k with ⟨i, a, h1, h2, h3, h4, h5⟩ | ⟨h1, h2, h3⟩
    · simp only [Tbl.step, Tbl.at_, Spec.step, h1, h5, Res.ok_bind, readSlot_ok' h2]
    · simp only [Tbl.step, Tbl.at_, Spec.step, h1, h3, Res.ok_bind]
  | find k =>
    refine ⟨t, ?_, h⟩
    rcases find_sim hC h k with ⟨i, a, h1, h2, h3, h4, h5⟩ | ⟨h1, h2, h3⟩
    · simp only [Tbl.step, Spec.step, h1, h5, Res.ok_bind, readSlot_ok' h2]
    · simp only [Tbl.step, Spec.step, h1, h3, Res.ok_bind]
  | contains k =>
    refine ⟨t, ?_, h⟩
    rcases find_sim hC h k with ⟨i, a, h1, h2, h3, h4, h5⟩ | ⟨h1, h2, h3⟩
    · simp only [Tbl.step, Tbl.contains, Spec.step, h1, any_some h3 h4, Res.ok_bind, Option.isSome]
    · simp only [Tbl.step, Tbl.contains, Spec.step, h1, any_none h2, Res.ok_bind, Option.isSome]
  | count k =>
    refine ⟨t, ?_, h⟩
    rcases find_sim hC h k with ⟨i, a, h1, h2, h3, h4, h5⟩ | ⟨h1, h2, h3⟩
    · simp only [Tbl.step, Tbl.count, Spec.step, h1, countP_key hC hd h3 h4, Res.ok_bind, Option.isSome, if_true]
    · simp only [Tbl.step, Tbl.count, Spec.step, h1, countP_none h2, Res.ok_bind, Option.isSome]
      rfl
  | erase k =>
    obtain ⟨⟨c, hi⟩, hp⟩ := h
    rcases erase_spec hC hi k with ⟨h1, h2⟩ | ⟨t', c', a, h1, h2, h3, h4, _⟩
    · have h2' : ∀ a ∈ l, C.eqv (C.key a) k = false := fun a ha => h2 a (hp.mem_iff.2 ha)
      refine ⟨t, ?_, ?_⟩ <;> simp only [Tbl.step, Spec.step, h1, countP_none h2', erase_none h2', Res.ok_bind]
      exact ⟨⟨c, hi⟩, hp⟩
    · have hm : a ∈ l := hp.mem_iff.1 (h4.mem_iff.2 List.mem_cons_self)
      refine ⟨t', ?_, ?_⟩ <;> simp only [Tbl.step, Spec.step, h1, countP_key hC hd hm h3, Res.ok_bind]
      exact ⟨⟨c', h2⟩, (erase_some hC hd (hp.symm.trans h4) h3).symm⟩
  | eraseIf p =>
    obtain ⟨⟨c, hi⟩, hp⟩ := h
    obtain ⟨t', c', h1, h2, h3⟩ := eraseIf_spec hC hi p
    refine ⟨t', ?_, ?_⟩
    · simp only [Tbl.step, Spec.step, h1, Res.ok_bind, hp.countP_eq]
    · exact ⟨⟨c', h2⟩, by rw [h3]; exact hp.filter _⟩
  | extract k =>
    obtain ⟨⟨c, hi⟩, hp⟩ := h
    rcases extract_spec hC hi k with ⟨h1, h2⟩ | ⟨t', c', a, h1, h2, h3, h4⟩
    · have h2' : ∀ a ∈ l, C.eqv (C.key a) k = false := fun a ha => h2 a (hp.mem_iff.2 ha)
      refine ⟨t, ?_, ?_⟩ <;> simp only [Tbl.step, Spec.step, h1, lookup_none.2 h2', erase_none h2', Res.ok_bind]
      exact ⟨⟨c, hi⟩, hp⟩
    · have hm : a ∈ l := hp.mem_iff.1 (h4.mem_iff.2 List.mem_cons_self)
      refine ⟨t', ?_, ?_⟩ <;> simp only [Tbl.step, Spec.step, h1, lookup_of_mem hC hd hm h3, Res.ok_bind]
      exact ⟨⟨c', h2⟩, (erase_some hC hd (hp.symm.trans h4) h3).symm⟩
  | insertNode n =>
    cases n with
    | none => exact ⟨t, rfl, h⟩
    | some a =>
      rcases emplace_sim hC h a with ⟨i, b, h1, h2, h3, h4, h5⟩ | ⟨t', i, h1, h2, h3, h4⟩
      · unfold emplace at h1
        refine ⟨t, ?_, ?_⟩ <;>
          simp only [Tbl.step, Tbl.insertNode, Spec.step, h1, h5, Res.ok_bind, readSlot_ok' h2]
        · rfl
        · exact h
      · unfold emplace at h1
        refine ⟨t', ?_, ?_⟩ <;>
          simp only [Tbl.step, Tbl.insertNode, Spec.step, h1, h4, Res.ok_bind, readSlot_ok' h2]
        · rfl
        · exact h3
  | toggle a =>
    rcases find_sim hC h (C.key a) with ⟨i, b, h1, h2, h3, h4, h5⟩ | ⟨h1, h2, h3⟩
    · obtain ⟨⟨c, hi⟩, hp⟩ := h
      obtain ⟨t', c', g1, g2, g3, _⟩ := eraseAt_spec hC hi h2
      have : t.emplaceSingle C (C.key a) (C.hash (C.key a)) (fun _ => a) = .ok t' := by
        unfold emplaceSingle
        rw [show t.findHash C (C.key a) (C.hash (C.key a)) = .ok (some i) from h1]
        simp only [Res.ok_bind, g1]
      refine ⟨t', ?_, ?_⟩ <;> simp only [Tbl.step, Spec.step, this, h5, Res.ok_bind]
      exact ⟨⟨c', g2⟩, (erase_some hC hd (hp.symm.trans g3) h4).symm⟩
    · rcases emplace_sim hC h a with ⟨i, b, _, _, g3, g4, _⟩ | ⟨t', i, g1, g2, g3, g4⟩
      · rw [h2 b g3] at g4; cases g4
      · refine ⟨t', ?_, ?_⟩ <;> simp only [Tbl.step, Spec.step, emplaceSingle_none g1, g4, Res.ok_bind]
        exact g3
  | insertRange vs =>
    obtain ⟨t1, h1, h2⟩ := reserve_sim hC h (n := t.size + vs.length) (by omega)
    obtain ⟨t2, h3, h4⟩ := insertAll_sim hC vs t1 l h2
    have : t.insertRange C vs = .ok t2 := by
      unfold insertRange; rw [h1]; exact h3
    exact ⟨t2, by simp only [Tbl.step, Spec.step, this, Res.ok_bind], h4⟩
  | size =>
    exact ⟨t, by simp only [Tbl.step, Spec.step, h.size], h⟩
  | clear =>
    obtain ⟨⟨c, hi⟩, hp⟩ := h
    obtain ⟨t', c', h1, h2, h3, _⟩ := clear_spec hC hi
    exact ⟨t', by simp only [Tbl.step, Spec.step, h1, Res.ok_bind], ⟨⟨c', h2⟩, by rw [h3]; exact List.Perm.refl _⟩⟩
  | reserve n =>
    obtain ⟨t', h1, h2⟩ := reserve_sim hC h (n := n) (.inl hv)
    exact ⟨t', by simp only [Tbl.step, Spec.step, h1, Res.ok_bind], h2⟩
  | rehash n =>
    obtain ⟨⟨c, hi⟩, hp⟩ := h
    obtain ⟨t', c', h1, h2, h3, _⟩ := rehash_spec hC hi n (.inl hv)
    exact ⟨t', by simp only [Tbl.step, Spec.step, h1, Res.ok_bind], ⟨⟨c', h2⟩, h3.trans hp⟩⟩

/-! ### Families of containers -/

/-- Every container of the family simulates its specification. -/
def WSim (C : Cfg α κ) (w : Nat → Tbl α) (m : Nat → List α) : Prop := ∀ i, Sim C (w i) (m i)

theorem WSim.put {C : Cfg α κ} {w : Nat → Tbl α} {m : Nat → List α} (h : WSim C w m) (i : Nat) {t : Tbl α} {l : List α}
    (ht : Sim C t l) : WSim C (put w i t) (put m i l) := by
  intro j
  unfold Spec.put
  by_cases hj : j = i
  · simp only [hj, if_true]; exact ht
  · simp only [hj, if_false]; exact h j

theorem destroySlots_sim {C : Cfg α κ} (hC : CfgOk C) {t : Tbl α} {l : List α} (h : Sim C t l) :
    ∃ u, t.destroySlots = .ok u := by
  obtain ⟨⟨c, hi⟩, _⟩ := h
  obtain ⟨u, hu, _⟩ := destroySlots_spec hC hi.core
  exact ⟨u, hu⟩

theorem wstep_sim [BEq α] [LawfulBEq α] {C : Cfg α κ} (hC : CfgOk C) {w : Nat → Tbl α} {m : Nat → List α}
    (h : WSim C w m) (op : WOp α κ) (hv : op.Valid C.key) :
    ∃ w', wstep C w op = .ok (w', (Spec.wstep C.key C.eqv m op).2) ∧ WSim C w' (Spec.wstep C.key C.eqv m op).1 := by
  cases op with
  | on i op =>
    obtain ⟨t', h1, h2⟩ := step_sim hC (h i) op hv
    exact ⟨put w i t', by simp only [Tbl.wstep, Spec.wstep, h1, Res.ok_bind], h.put i h2⟩
  | create i n =>
    obtain ⟨u, hu⟩ := destroySlots_sim hC (h i)
    obtain ⟨c, h1, h2⟩ := withBuckets_inv (C := C) hC.group n
    refine ⟨put w i (withBuckets C n), ?_, h.put i ⟨⟨c, h1⟩, by rw [h2]⟩⟩
    simp only [Tbl.wstep, Tbl.moveAssign, Tbl.move, Tbl.swap, Spec.wstep, hu, Res.ok_bind]
  | copy i j =>
    obtain ⟨u, hu⟩ := destroySlots_sim hC (h i)
    obtain ⟨⟨c, hi⟩, hp⟩ := h j
    obtain ⟨t', c', h1, h2, h3, _⟩ := copy_spec hC hi
    refine ⟨put w i t', ?_, h.put i ⟨⟨c', h2⟩, h3.trans hp⟩⟩
    simp only [Tbl.wstep, Tbl.copyAssign, Tbl.swap, Spec.wstep, h1, hu, Res.ok_bind]
  | move i j =>
    obtain ⟨u, hu⟩ := destroySlots_sim hC (h i)
    by_cases hij : i = j
    · subst hij
      refine ⟨put w i (w i), ?_, ?_⟩
      · have he : (Tbl.empty : Tbl α).destroySlots = .ok Tbl.empty := rfl
        simp only [Tbl.wstep, Tbl.move, Tbl.swap, Spec.wstep, if_true, he, Res.ok_bind]
      · have : Spec.put (Spec.put m i []) i (m i) = Spec.put m i (m i) := by
          funext j; unfold Spec.put; by_cases hj : j = i <;> simp [hj]
        simp only [Spec.wstep, this]
        exact h.put i (h i)
    · refine ⟨put (put w j Tbl.empty) i (w j), ?_, (h.put j (sim_empty hC.group)).put i (h j)⟩
      simp only [Tbl.wstep, Tbl.moveAssign, Tbl.move, Tbl.swap, Spec.wstep, if_neg hij, hu, Res.ok_bind]
  | swap i j =>
    exact ⟨_, rfl, (h.put i (h j)).put j (h i)⟩
  | merge i j =>
    obtain ⟨⟨c, hi⟩, hp⟩ := h i
    obtain ⟨⟨d, hj⟩, hq⟩ := h j
    obtain ⟨t', u', c', d', h1, h2, h3, h4, h5⟩ := merge_spec hC hi hj
    have hany : ∀ a : α, (elems (w i)).any (fun b => C.eqv (C.key b) (C.key a)) =
        (m i).any (fun b => C.eqv (C.key b) (C.key a)) := by
      intro a
      rw [Bool.eq_iff_iff]
      simp only [List.any_eq_true]
      constructor
      · rintro ⟨b, hb, e⟩; exact ⟨b, hp.mem_iff.1 hb, e⟩
      · rintro ⟨b, hb, e⟩; exact ⟨b, hp.mem_iff.2 hb, e⟩
    simp only [hany] at h4 h5
    refine ⟨put (put w i t') j u', ?_, (h.put i ⟨⟨c', h2⟩, ?_⟩).put j ⟨⟨d', h3⟩, ?_⟩⟩
    · simp only [Tbl.wstep, Spec.wstep, h1, Res.ok_bind]
    · exact h4.trans (hp.append (hq.filter _))
    · exact h5.trans (hq.filter _)
  | equal i j =>
    obtain ⟨⟨c, hi⟩, hp⟩ := h i
    obtain ⟨⟨d, hj⟩, hq⟩ := h j
    obtain ⟨b, h1, h2⟩ := beqTbl_spec hC hi hj
    refine ⟨w, ?_, h⟩
    have : b = (m i).isPerm (m j) := by
      rw [Bool.eq_iff_iff, h2, List.isPerm_iff]
      exact ⟨fun p => (hp.symm.trans p).trans hq, fun p => (hp.trans p).trans hq.symm⟩
    simp only [Tbl.wstep, Spec.wstep, h1, Res.ok_bind, this]

theorem wrun_sim [BEq α] [LawfulBEq α] {C : Cfg α κ} (hC : CfgOk C) : ∀ (ops : List (WOp α κ)) {w : Nat → Tbl α} {m : Nat → List α},
    WSim C w m → (∀ op ∈ ops, op.Valid C.key) →
    ∃ w', wrun C w ops = .ok (w', (Spec.wrun C.key C.eqv m ops).2) ∧ WSim C w' (Spec.wrun C.key C.eqv m ops).1
  | [], w, m, h, _ => ⟨w, rfl, h⟩
  | op :: ops, w, m, h, hv => by
    obtain ⟨w1, h1, h2⟩ := wstep_sim hC h op (hv op List.mem_cons_self)
    obtain ⟨w2, h3, h4⟩ := wrun_sim hC ops h2 (fun o ho => hv o (List.mem_cons_of_mem _ ho))
    refine ⟨w2, ?_, h4⟩
    simp only [Tbl.wrun, Spec.wrun, h1, h3, Res.ok_bind]

theorem run_sim {C : Cfg α κ} (hC : CfgOk C) : ∀ (ops : List (Op α κ)) {t : Tbl α} {l : List α},
    Sim C t l → (∀ op ∈ ops, op.Valid C.key) →
    ∃ t', run C t ops = .ok (t', (Spec.run C.key C.eqv l ops).2) ∧ Sim C t' (Spec.run C.key C.eqv l ops).1
  | [], t, l, h, _ => ⟨t, rfl, h⟩
  | op :: ops, t, l, h, hv => by
    obtain ⟨w1, h1, h2⟩ := step_sim hC h op (hv op List.mem_cons_self)
    obtain ⟨w2, h3, h4⟩ := run_sim hC ops h2 (fun o ho => hv o (List.mem_cons_of_mem _ ho))
    refine ⟨w2, ?_, h4⟩
    simp only [Tbl.run, Spec.run, h1, h3, Res.ok_bind]

end Gtl.Swiss
