import Verif.Swiss.CostHist
/-! A single insertion can relocate everything. -/

namespace Gtl.Swiss
variable {α κ : Type}

open Tbl Spec

/-- In a table without tombstones and without room the next new key moves every element. -/
theorem prepareInsertW_full {C : Cfg α κ} (hC : CfgOk C) {t : Tbl α} {c : List Ctrl} (h : Inv C t c) {hv : Nat}
    (hc0 : t.capacity ≠ 0) (hg : t.growthLeft = 0) (hd : kDeleted ∉ c) {r : Tbl α × Nat}
    (hr : t.prepareInsert C hv = .ok r) :
    ∃ w, t.prepareInsertW C hv = .ok (r, w) ∧ w.moves = t.size ∧ w.hashes = t.size := by
  have hWpos : 0 < C.G.W := by rcases hC.group.width with h | h <;> omega
  have hgr := h.growth
  rw [List.count_eq_zero.2 hd] at hgr
  have hpos := capacityToGrowth_pos (W := C.G.W) (cap := t.capacity) (by omega)
  have key : ∃ i x, t.findFirstNonFull C hv = .ok i ∧ t.ctrlAt i = .ok x ∧ ¬ isDeleted x = true := by
    by_cases hex : ∃ x ∈ c, Eod x
    · obtain ⟨i, n, f1, f2, f3, _, _⟩ := findFirstNonFull_spec hC.group h.core.raw h.core.valid hv hex
      refine ⟨i, _, f1, h.core.raw.ctrlAt hWpos (by omega), ?_⟩
      rw [lay_lt f2]
      intro he
      apply hd
      have : c.getD i kEmpty = kDeleted := by unfold isDeleted at he; simpa using he
      rw [← this, List.getD_eq_getElem?_getD, List.getElem?_eq_getElem (by rw [h.core.raw.len]; exact f2)]
      exact List.getElem_mem _
    · have hno : ∀ x ∈ c, ¬ Eod x := fun x hx he => hex ⟨x, hx, he⟩
      have hsm : t.capacity + 1 < C.G.W := by
        rcases h.has_empty hC with he | he
        · exact absurd (.inl rfl) (hno _ he)
        · exact he
      refine ⟨_, _, findFirstNonFull_full hC.group h.core.raw h.core.valid hv hno hsm,
        h.core.raw.ctrlAt hWpos (by omega), ?_⟩
      rw [show lay c t.capacity t.capacity = kSentinel by unfold lay; rw [if_neg (by omega), if_pos rfl]]
      decide
  obtain ⟨i, x, h1, h2, h3⟩ := key
  unfold prepareInsert at hr
  unfold prepareInsertW
  rw [h1] at hr ⊢; simp only [Res.ok_bind] at hr ⊢
  rw [h2] at hr ⊢; simp only [Res.ok_bind] at hr ⊢
  rw [if_pos ⟨hg, h3⟩] at hr ⊢
  rw [Res.bind_eq_ok] at hr
  obtain ⟨t1, h4, hr⟩ := hr
  rw [Res.bind_eq_ok] at hr
  obtain ⟨j, h5, hr⟩ := hr
  rw [Res.bind_eq_ok] at hr
  obtain ⟨y, h6, hr⟩ := hr
  cases hr
  unfold rehashAndGrow at h4
  unfold rehashAndGrowW
  rw [if_neg hc0, if_neg (by omega)] at h4 ⊢
  obtain ⟨w, k1, k2, k3, k4⟩ := resizeW_of hC h.core h4
  rw [k1]; simp only [Res.ok_bind]
  rw [h5]; simp only [Res.ok_bind]
  rw [h6]; simp only [Res.ok_bind]
  exact ⟨w, rfl, by rw [k3, h.size_eq], by rw [k2, h.size_eq]⟩

theorem emplaceW_full {C : Cfg α κ} (hC : CfgOk C) {t : Tbl α} {c : List Ctrl} (h : Inv C t c) {a : α}
    (hc0 : t.capacity ≠ 0) (hg : t.growthLeft = 0) (hd : kDeleted ∉ c)
    (hnew : ∀ b ∈ elems t, C.eqv (C.key b) (C.key a) = false) :
    ∃ t' i w, t.emplaceW C a = .ok ((t', i, true), w) ∧ t'.slots[i]? = some (some a) ∧ w.moves = t.size ∧
      w.hashes = t.size + 1 := by
  rcases emplaceHash_spec hC h (C.key a) (fun _ => a) (hC.refl _) with ⟨i, b, h1, h2, h3⟩ | ⟨_, t', c', i, h1, h2, h3, h4, _⟩
  · have hb : b ∈ elems t := mem_elems.2 ⟨i, h2⟩
    rw [hnew b hb] at h3
    cases h3
  · have hs := h1
    unfold emplaceHash at h1
    rw [Res.bind_eq_ok] at h1
    obtain ⟨o, g1, h1⟩ := h1
    cases o with
    | some off => simp only at h1; injection h1 with h1; injection h1 with _ h1; injection h1 with _ h1; cases h1
    | none =>
      simp only at h1
      rw [Res.bind_eq_ok] at h1
      obtain ⟨⟨t1, off⟩, g2, h1⟩ := h1
      simp only at h1
      rw [Res.bind_eq_ok] at h1
      obtain ⟨t2, g3, h1⟩ := h1
      rw [Res.bind_eq_ok] at h1
      obtain ⟨t3, g4, h1⟩ := h1
      cases h1
      obtain ⟨w, k1, k2, k3⟩ := prepareInsertW_full hC h hc0 hg hd g2
      refine ⟨t', i, Work.hash + w, ?_, h4, ?_, ?_⟩
      · unfold emplaceW placeW
        rw [g1]; simp only [Res.ok_bind]
        rw [k1]; simp only [Res.ok_bind]
        rw [g3]; simp only [Res.ok_bind]
        rw [g4]; simp only [Res.ok_bind]
      · simp only [Work.add_moves, Work.hash_moves]; omega
      · simp only [Work.add_hashes, Work.hash_hashes]; omega

/-- Filling a table up with new keys. -/
theorem fill_sim {C : Cfg α κ} (hC : CfgOk C) : ∀ (vs : List α) {t : Tbl α} {l : List α}, Sim C t l →
    vs.length ≤ t.growthLeft → Distinct C (vs.reverse ++ l) →
    ∃ t' rs, t.run C (vs.map Op.insert) = .ok (t', rs) ∧ Sim C t' (vs.reverse ++ l) ∧ t'.capacity = t.capacity
  | [], t, l, h, _, _ => ⟨t, [], rfl, h, rfl⟩
  | v :: vs, t, l, h, hlen, hd => by
    rw [List.length_cons] at hlen
    rw [List.reverse_cons, List.append_assoc, List.singleton_append] at hd
    have hnew : ∀ b ∈ l, C.eqv (C.key b) (C.key v) = false := by
      intro b hb
      have h1 := (List.pairwise_append.1 hd).2.1
      have h2 := (List.pairwise_cons.1 h1).1 b hb
      cases he : C.eqv (C.key b) (C.key v) with
      | false => rfl
      | true => rw [hC.symm _ _ he] at h2; cases h2
    obtain ⟨⟨c, hi⟩, hp⟩ := h
    rcases emplaceHash_spec hC hi (C.key v) (fun _ => v) (hC.refl _) with ⟨i, b, h1, h2, h3⟩ | ⟨_, t', c', i, h1, h2, h3, h4, _, h5, _⟩
    · have hb : b ∈ elems t := mem_elems.2 ⟨i, h2⟩
      rw [hnew b (hp.mem_iff.1 hb)] at h3
      cases h3
    · obtain ⟨e1, _, e2⟩ := h5 (by omega)
      have hs : Sim C t' (v :: l) := ⟨⟨c', h2⟩, h3.trans (hp.cons v)⟩
      obtain ⟨t2, rs, k1, k2, k3⟩ := fill_sim hC vs hs (by omega) hd
      refine ⟨t2, .ins v true :: rs, ?_, ?_, by rw [k3, e1]⟩
      · rw [List.map_cons]
        simp only [Tbl.run, Tbl.step]
        rw [show t.emplace C v = _ from h1]
        simp only [Res.ok_bind, readSlot_ok' h4, k1]
      · rw [List.reverse_cons, List.append_assoc, List.singleton_append]; exact k2

end Gtl.Swiss
