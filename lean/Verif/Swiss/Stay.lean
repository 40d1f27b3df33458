import Verif.Swiss.More
import Verif.Spec.Stay
/-! Which operations leave the elements of a hash table in their slots. -/

namespace Gtl.Swiss

open Tbl
open Gtl.Spec (Op Resp Keeps)

variable {α κ : Type}

theorem setCtrl_fields {W : Nat} {t t' : Tbl α} {i : Nat} {x : Ctrl} (h : t.setCtrl W i x = .ok t') :
    t'.slots = t.slots ∧ t'.size = t.size ∧ t'.capacity = t.capacity ∧ t'.growthLeft = t.growthLeft := by
  unfold setCtrl at h
  dsimp only at h
  split at h
  · cases h; exact ⟨rfl, rfl, rfl, rfl⟩
  · cases h

theorem eraseMetaOnly_fields {C : Cfg α κ} {t t' : Tbl α} {i : Nat} (h : t.eraseMetaOnly C i = .ok t') :
    t'.slots = t.slots ∧ t'.capacity = t.capacity ∧ t.growthLeft ≤ t'.growthLeft := by
  unfold eraseMetaOnly at h
  dsimp only at h
  obtain ⟨g1, _, h⟩ := Res.bind_eq_ok.1 h
  obtain ⟨g2, _, h⟩ := Res.bind_eq_ok.1 h
  obtain ⟨t1, h1, h⟩ := Res.bind_eq_ok.1 h
  obtain ⟨e1, e2, e3, e4⟩ := setCtrl_fields h1
  cases h
  dsimp only at *
  exact ⟨e1, e3, by omega⟩

theorem destroySlot_fields {t t' : Tbl α} {i : Nat} (h : t.destroySlot i = .ok t') :
    t'.slots = t.slots.set i none ∧ t'.capacity = t.capacity ∧ t'.growthLeft = t.growthLeft := by
  unfold destroySlot at h
  split at h
  · cases h; exact ⟨rfl, rfl, rfl⟩
  · cases h

theorem eraseAt_fields {C : Cfg α κ} {t t' : Tbl α} {i : Nat} (h : t.eraseAt C i = .ok t') :
    t'.slots = t.slots.set i none ∧ t'.capacity = t.capacity ∧ t.growthLeft ≤ t'.growthLeft := by
  unfold eraseAt at h
  obtain ⟨t1, h1, h⟩ := Res.bind_eq_ok.1 h
  obtain ⟨e1, e2, e3⟩ := destroySlot_fields h1
  obtain ⟨f1, f2, f3⟩ := eraseMetaOnly_fields h
  exact ⟨by rw [f1, e1], by rw [f2, e2], by omega⟩

/-- An erased slot is not the slot of an element that stays. -/
theorem set_none_other {s : List (Option α)} {i j : Nat} {o : Option α} (hij : j ≠ i) (h : s[i]? = some o) :
    (s.set j none)[i]? = some o := by
  rw [List.getElem?_set, if_neg hij]; exact h

theorem eraseIfLoop_stay {C : Cfg α κ} {pred : α → Bool} {i : Nat} {a : α} (hp : pred a = false) :
    ∀ (fuel : Nat) (t t' : Tbl α) (p : Nat), eraseIfLoop C pred fuel t p = .ok t' → t.slots[i]? = some (some a) →
      t'.slots[i]? = some (some a) ∧ t'.capacity = t.capacity ∧ t.growthLeft ≤ t'.growthLeft := by
  intro fuel
  induction fuel with
  | zero => intro t t' p h; cases h
  | succ fuel ih =>
    intro t t' p h hs
    unfold eraseIfLoop at h
    split at h
    · cases h; exact ⟨hs, rfl, le_refl _⟩
    · obtain ⟨b, h1, h⟩ := Res.bind_eq_ok.1 h
      split at h
      · rename_i hpb
        obtain ⟨n, _, h⟩ := Res.bind_eq_ok.1 h
        obtain ⟨t1, h2, h⟩ := Res.bind_eq_ok.1 h
        obtain ⟨e1, e2, e3⟩ := eraseAt_fields h2
        have hne : p ≠ i := by
          rintro rfl
          have := readSlot_inv h1
          rw [hs] at this; cases this
          rw [hp] at hpb; cases hpb
        obtain ⟨r1, r2, r3⟩ := ih t1 t' n h (by rw [e1]; exact set_none_other hne hs)
        exact ⟨r1, by rw [r2, e2], by omega⟩
      · obtain ⟨n, _, h⟩ := Res.bind_eq_ok.1 h
        exact ih t t' n h hs

theorem assignAt_stay {C : Cfg α κ} {t t' : Tbl α} {i j : Nat} {a : α} {f : α → α} {k : κ}
    (hf : ∀ b, C.key (f b) = C.key b) (h : t.assignAt j f = .ok t') (hs : t.slots[i]? = some (some a))
    (hk : C.eqv (C.key a) k = true) :
    (∃ b, t'.slots[i]? = some (some b) ∧ C.eqv (C.key b) k = true) ∧ t'.capacity = t.capacity ∧
      t'.growthLeft = t.growthLeft := by
  unfold assignAt at h
  obtain ⟨b, h1, h⟩ := Res.bind_eq_ok.1 h
  cases h
  refine ⟨?_, rfl, rfl⟩
  by_cases hij : j = i
  · subst hij
    have := readSlot_inv h1
    rw [hs] at this; cases this
    refine ⟨f a, ?_, by rw [hf]; exact hk⟩
    rw [List.getElem?_eq_some_iff] at hs
    rw [List.getElem?_set, if_pos rfl, if_pos hs.1]
  · exact ⟨a, by rw [List.getElem?_set, if_neg hij]; exact hs, hk⟩

/-- Inserting with room left moves nothing. -/
theorem emplace_stay {C : Cfg α κ} (hC : CfgOk C) {t : Tbl α} {l : List α} (h : Sim C t l) (a : α)
    (hg : t.growthLeft ≠ 0) {t' : Tbl α} {j : Nat} {ins : Bool} (he : t.emplace C a = .ok (t', j, ins)) :
    SameAlloc t t' ∧ t.growthLeft ≤ t'.growthLeft + 1 := by
  obtain ⟨⟨c, hi⟩, hp⟩ := h
  rcases emplaceHash_spec hC hi (C.key a) (fun _ => a) (hC.refl _) with
    ⟨i, b, h1, h2, h3⟩ | ⟨h0, t2, c', i, h1, h2, h3, h4, h5, h6, h7, h8⟩
  · unfold emplace at he; rw [h1] at he; cases he
    exact ⟨⟨rfl, fun _ _ h => h⟩, by omega⟩
  · unfold emplace at he; rw [h1] at he; cases he
    obtain ⟨g1, g2, g3⟩ := h6 hg
    refine ⟨⟨g1, ?_⟩, g3⟩
    intro n b hb
    rw [g2]
    by_cases hij : j = n
    · subst hij
      exfalso
      have hlen : (elems t').length = (elems t).length := by
        unfold elems; rw [g2]
        obtain ⟨l1, l2, e1, e2⟩ := filterMap_set_map (b := a) hb
        rw [e1, e2]; simp
      have := h3.length_eq
      simp only [List.length_cons] at this
      omega
    · rw [List.getElem?_set, if_neg hij]; exact hb

/-- One operation leaves the element with key `k` in its slot if it does not remove it and has room for what it
inserts. -/
theorem step_stay {C : Cfg α κ} (hC : CfgOk C) {t : Tbl α} {l : List α} (h : Sim C t l) (op : Op α κ)
    (hv : op.Valid C.key) {k : κ} (hk : Keeps C.key C.eqv k op) (hr : ¬ op.Resizes) (hg : op.inserts ≤ t.growthLeft)
    {i : Nat} {a : α} (hs : t.slots[i]? = some (some a)) (ha : C.eqv (C.key a) k = true)
    {t' : Tbl α} {r : Resp α} (hst : t.step C op = .ok (t', r)) :
    (∃ b, t'.slots[i]? = some (some b) ∧ C.eqv (C.key b) k = true) ∧ t'.capacity = t.capacity ∧
      t.growthLeft ≤ t'.growthLeft + op.inserts := by
  have other : ∀ {k' : κ} {j : Nat} {b : α}, C.eqv k k' = false → t.slots[j]? = some (some b) →
      C.eqv (C.key b) k' = true → j ≠ i := by
    rintro k' j b h1 h2 h3 rfl
    rw [hs] at h2; cases h2
    rw [hC.trans _ _ _ (hC.symm _ _ ha) h3] at h1; cases h1
  have same : (∃ b, t.slots[i]? = some (some b) ∧ C.eqv (C.key b) k = true) := ⟨a, hs, ha⟩
  have emp : ∀ a' t1 j ins, 1 ≤ t.growthLeft → t.emplace C a' = .ok (t1, j, ins) →
      (∃ b, t1.slots[i]? = some (some b) ∧ C.eqv (C.key b) k = true) ∧ t1.capacity = t.capacity ∧
      t.growthLeft ≤ t1.growthLeft + 1 := by
    intro a' t1 j ins h0 h1
    obtain ⟨⟨e1, e2⟩, e3⟩ := emplace_stay hC h a' (by omega) h1
    exact ⟨⟨a, e2 i a hs, ha⟩, e1, e3⟩
  cases op with
  | insertRange vs => exact absurd trivial hr
  | reserve n => exact absurd trivial hr
  | rehash n => exact absurd trivial hr
  | clear => cases hk
  | size => cases hst; exact ⟨same, rfl, by (try dsimp only [Op.inserts] at *); omega⟩
  | insert a' =>
    simp only [Tbl.step] at hst
    obtain ⟨⟨t1, j, ins⟩, h1, h2⟩ := Res.bind_eq_ok.1 hst
    obtain ⟨b, _, h3⟩ := Res.bind_eq_ok.1 h2
    cases h3
    exact emp a' _ _ _ hg h1
  | insertOrAssign a' f =>
    simp only [Tbl.step] at hst
    obtain ⟨⟨t1, j, ins⟩, h1, h2⟩ := Res.bind_eq_ok.1 hst
    obtain ⟨b, _, h3⟩ := Res.bind_eq_ok.1 h2
    cases h3
    rcases find_sim hC h (C.key a') with ⟨i', b', f1, f2, f3, f4, f5⟩ | ⟨f1, f2, f3⟩
    · unfold insertOrAssign at h1; dsimp only at h1
      rw [show t.findHash C (C.key a') (C.hash (C.key a')) = .ok (some i') from f1] at h1
      simp only [Res.ok_bind] at h1
      obtain ⟨t2, h4, h5⟩ := Res.bind_eq_ok.1 h1
      cases h5
      obtain ⟨e1, e2, e3⟩ := assignAt_stay hv h4 hs ha
      exact ⟨e1, e2, by (try dsimp only [Op.inserts] at *); omega⟩
    · rcases emplace_sim hC h a' with ⟨i', b', _, _, g3, g4, _⟩ | ⟨t2, i2, g1, g2, g3, g4⟩
      · rw [f2 b' g3] at g4; cases g4
      · rw [insertOrAssign_none g1] at h1
        cases h1
        exact emp a' _ _ _ hg g1
  | subscript a' f =>
    simp only [Tbl.step, Tbl.subscript] at hst
    obtain ⟨⟨t1, j⟩, h1, h2⟩ := Res.bind_eq_ok.1 hst
    obtain ⟨⟨t2, j', ins⟩, h3, h4⟩ := Res.bind_eq_ok.1 h1
    cases h4
    obtain ⟨b, _, h5⟩ := Res.bind_eq_ok.1 h2
    obtain ⟨t3, h6, h7⟩ := Res.bind_eq_ok.1 h5
    cases h7
    obtain ⟨⟨b1, e1, e1'⟩, e2, e3⟩ := emp a' _ _ _ hg h3
    obtain ⟨e4, e5, e6⟩ := assignAt_stay hv h6 e1 e1'
    exact ⟨e4, by rw [e5, e2], by (try dsimp only [Op.inserts] at *); omega⟩
  | «at» k' =>
    simp only [Tbl.step] at hst
    obtain ⟨o, _, h2⟩ := Res.bind_eq_ok.1 hst
    cases h2; exact ⟨same, rfl, by (try dsimp only [Op.inserts] at *); omega⟩
  | find k' =>
    simp only [Tbl.step] at hst
    obtain ⟨o, _, h2⟩ := Res.bind_eq_ok.1 hst
    cases o with
    | none => cases h2; exact ⟨same, rfl, by (try dsimp only [Op.inserts] at *); omega⟩
    | some off =>
      obtain ⟨b, _, h3⟩ := Res.bind_eq_ok.1 h2
      cases h3; exact ⟨same, rfl, by (try dsimp only [Op.inserts] at *); omega⟩
  | contains k' =>
    simp only [Tbl.step] at hst
    obtain ⟨o, _, h2⟩ := Res.bind_eq_ok.1 hst
    cases h2; exact ⟨same, rfl, by (try dsimp only [Op.inserts] at *); omega⟩
  | count k' =>
    simp only [Tbl.step] at hst
    obtain ⟨o, _, h2⟩ := Res.bind_eq_ok.1 hst
    cases h2; exact ⟨same, rfl, by (try dsimp only [Op.inserts] at *); omega⟩
  | erase k' =>
    simp only [Tbl.step] at hst
    obtain ⟨⟨t1, n⟩, h1, h2⟩ := Res.bind_eq_ok.1 hst
    cases h2
    unfold Tbl.erase at h1
    rcases find_sim hC h k' with ⟨i', b', f1, f2, f3, f4, f5⟩ | ⟨f1, f2, f3⟩
    · rw [f1] at h1
      simp only [Res.ok_bind] at h1
      obtain ⟨t2, h3, h4⟩ := Res.bind_eq_ok.1 h1
      cases h4
      obtain ⟨e1, e2, e3⟩ := eraseAt_fields h3
      exact ⟨⟨a, by rw [e1]; exact set_none_other (other hk f2 f4) hs, ha⟩, e2, by (try dsimp only [Op.inserts] at *); omega⟩
    · rw [f1] at h1
      simp only [Res.ok_bind] at h1
      cases h1
      exact ⟨same, rfl, by (try dsimp only [Op.inserts] at *); omega⟩
  | extract k' =>
    simp only [Tbl.step] at hst
    obtain ⟨⟨t1, n⟩, h1, h2⟩ := Res.bind_eq_ok.1 hst
    cases h2
    unfold Tbl.extract at h1
    rcases find_sim hC h k' with ⟨i', b', f1, f2, f3, f4, f5⟩ | ⟨f1, f2, f3⟩
    · rw [f1] at h1
      simp only [Res.ok_bind] at h1
      obtain ⟨⟨t2, x⟩, h3, h4⟩ := Res.bind_eq_ok.1 h1
      cases h4
      unfold extractAt at h3
      obtain ⟨y, _, h3⟩ := Res.bind_eq_ok.1 h3
      obtain ⟨t3, h5, h3⟩ := Res.bind_eq_ok.1 h3
      obtain ⟨t4, h6, h3⟩ := Res.bind_eq_ok.1 h3
      cases h3
      obtain ⟨e1, e2, e3⟩ := destroySlot_fields h5
      obtain ⟨d1, d2, d3⟩ := eraseMetaOnly_fields h6
      exact ⟨⟨a, by rw [d1, e1]; exact set_none_other (other hk f2 f4) hs, ha⟩, by rw [d2, e2], by (try dsimp only [Op.inserts] at *); omega⟩
    · rw [f1] at h1
      simp only [Res.ok_bind] at h1
      cases h1
      exact ⟨same, rfl, by (try dsimp only [Op.inserts] at *); omega⟩
  | eraseIf p =>
    simp only [Tbl.step] at hst
    obtain ⟨⟨t1, n⟩, h1, h2⟩ := Res.bind_eq_ok.1 hst
    cases h2
    unfold Tbl.eraseIf at h1
    obtain ⟨b, _, h1⟩ := Res.bind_eq_ok.1 h1
    obtain ⟨t2, h3, h1⟩ := Res.bind_eq_ok.1 h1
    cases h1
    obtain ⟨e1, e2, e3⟩ := eraseIfLoop_stay (hk a ha) _ _ _ _ h3 hs
    exact ⟨⟨a, e1, ha⟩, e2, by (try dsimp only [Op.inserts] at *); omega⟩
  | toggle a' =>
    simp only [Tbl.step] at hst
    obtain ⟨t1, h1, h2⟩ := Res.bind_eq_ok.1 hst
    cases h2
    rcases find_sim hC h (C.key a') with ⟨i', b', f1, f2, f3, f4, f5⟩ | ⟨f1, f2, f3⟩
    · unfold emplaceSingle at h1
      rw [show t.findHash C (C.key a') (C.hash (C.key a')) = .ok (some i') from f1] at h1
      simp only [Res.ok_bind] at h1
      obtain ⟨e1, e2, e3⟩ := eraseAt_fields h1
      exact ⟨⟨a, by rw [e1]; exact set_none_other (other hk f2 f4) hs, ha⟩, e2, by (try dsimp only [Op.inserts] at *); omega⟩
    · rcases emplace_sim hC h a' with ⟨i', b', _, _, g3, g4, _⟩ | ⟨t2, i2, g1, g2, g3, g4⟩
      · rw [f2 b' g3] at g4; cases g4
      · rw [emplaceSingle_none g1] at h1
        cases h1
        exact emp a' _ _ _ hg g1
  | insertNode n =>
    simp only [Tbl.step] at hst
    obtain ⟨⟨t1, off, ins, left⟩, h1, h2⟩ := Res.bind_eq_ok.1 hst
    cases n with
    | none =>
      simp only [Tbl.insertNode] at h1
      cases h1; cases h2; exact ⟨same, rfl, by (try dsimp only [Op.inserts] at *); omega⟩
    | some a' =>
      simp only [Tbl.insertNode] at h1
      obtain ⟨⟨t2, j, ins2⟩, h3, h4⟩ := Res.bind_eq_ok.1 h1
      cases h4
      obtain ⟨b, _, h5⟩ := Res.bind_eq_ok.1 h2
      cases h5
      exact emp a' _ _ _ hg h3

/-- The slot that holds the element with key `k` is the one `find` returns. -/
theorem find_of_slot {C : Cfg α κ} (hC : CfgOk C) {t : Tbl α} {l : List α} (h : Sim C t l) {k : κ} {i : Nat} {b : α}
    (hs : t.slots[i]? = some (some b)) (hb : C.eqv (C.key b) k = true) : t.find C k = .ok (some i) := by
  obtain ⟨⟨c, hi⟩, hp⟩ := id h
  have hd : Distinct C (elems t) := (h.distinct hC).perm hC hp.symm
  rcases find_sim hC h k with ⟨j, a, f1, f2, f3, f4, f5⟩ | ⟨f1, f2, f3⟩
  · by_cases hij : j = i
    · rw [f1, hij]
    · exfalso
      -- two different slots with equivalent keys
      have key : ∀ {m n : Nat} {x y : α}, m < n → t.slots[m]? = some (some x) → t.slots[n]? = some (some y) →
          C.eqv (C.key x) (C.key y) = false := by
        intro m n x y hmn hx hy
        have h1 : t.slots = t.slots.take n ++ t.slots.drop n := (List.take_append_drop _ _).symm
        unfold elems at hd
        rw [h1, List.filterMap_append] at hd
        refine (List.pairwise_append.1 hd).2.2 x ?_ y ?_
        · rw [List.mem_filterMap]
          exact ⟨some x, List.mem_of_getElem? (i := m) (by rw [List.getElem?_take, if_pos hmn]; exact hx), rfl⟩
        · rw [List.mem_filterMap]
          exact ⟨some y, List.mem_of_getElem? (i := 0) (by rw [List.getElem?_drop]; exact hy), rfl⟩
      rcases Nat.lt_or_gt_of_ne hij with hlt | hlt
      · have := key hlt f2 hs
        rw [hC.trans _ _ _ f4 (hC.symm _ _ hb)] at this; cases this
      · have := key hlt hs f2
        rw [hC.trans _ _ _ hb (hC.symm _ _ f4)] at this; cases this
  · rw [f2 b (hp.mem_iff.1 (mem_elems.2 ⟨i, hs⟩))] at hb; cases hb

/-- A history. -/
theorem run_stay {C : Cfg α κ} (hC : CfgOk C) {k : κ} {i : Nat} : ∀ (ops : List (Op α κ)) {t : Tbl α} {l : List α},
    Sim C t l → (∀ op ∈ ops, op.Valid C.key) → (∀ op ∈ ops, Keeps C.key C.eqv k op) → (∀ op ∈ ops, ¬ op.Resizes) →
    Spec.insertions ops ≤ t.growthLeft →
    (∃ a, t.slots[i]? = some (some a) ∧ C.eqv (C.key a) k = true) →
    ∃ t' rs l', t.run C ops = .ok (t', rs) ∧ Sim C t' l' ∧ t'.capacity = t.capacity ∧
      ∃ a, t'.slots[i]? = some (some a) ∧ C.eqv (C.key a) k = true
  | [], t, l, h, _, _, _, _, hs => ⟨t, [], l, rfl, h, rfl, hs⟩
  | op :: ops, t, l, h, hv, hk, hr, hg, ⟨a, hs, ha⟩ => by
    obtain ⟨t1, g1, g2⟩ := step_sim hC h op (hv op List.mem_cons_self)
    have hsum : op.inserts + Spec.insertions ops ≤ t.growthLeft := by
      unfold Spec.insertions at hg ⊢
      rw [List.map_cons, List.sum_cons] at hg
      exact hg
    obtain ⟨e1, e2, e3⟩ := step_stay hC h op (hv op List.mem_cons_self) (hk op List.mem_cons_self)
      (hr op List.mem_cons_self) (by omega) hs ha g1
    obtain ⟨t2, rs, l2, f1, f2, f3, f4⟩ := run_stay hC ops g2 (fun o ho => hv o (List.mem_cons_of_mem _ ho))
      (fun o ho => hk o (List.mem_cons_of_mem _ ho)) (fun o ho => hr o (List.mem_cons_of_mem _ ho)) (by omega) e1
    refine ⟨t2, (Spec.step C.key C.eqv l op).2 :: rs, l2, ?_, f2, by rw [f3, e2], f4⟩
    unfold Tbl.run
    rw [g1]
    simp only [Res.ok_bind]
    rw [f1]
    simp only [Res.ok_bind]

end Gtl.Swiss
