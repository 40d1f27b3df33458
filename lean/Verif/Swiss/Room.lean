import Verif.Swiss.Stay
/-! The room for insertions that operations on a hash table leave. -/

namespace Gtl.Swiss

open Tbl
open Gtl.Spec (Op Resp)

variable {α κ : Type}

/-- `t'` is what became of `t`: an array of the same size, and at most `n` free slots were used. -/
def Room (n : Nat) (t t' : Tbl α) : Prop := t'.capacity = t.capacity ∧ t.growthLeft ≤ t'.growthLeft + n

theorem Room.refl (t : Tbl α) (n : Nat) : Room n t t := ⟨rfl, by omega⟩

theorem Room.trans {n m : Nat} {t u v : Tbl α} (h : Room n t u) (g : Room m u v) : Room (n + m) t v :=
  ⟨by rw [g.1, h.1], by have := h.2; have := g.2; omega⟩

theorem Room.mono {n m : Nat} {t u : Tbl α} (h : Room n t u) (hnm : n ≤ m) : Room m t u := ⟨h.1, by have := h.2; omega⟩

theorem assignAt_room {t t' : Tbl α} {j : Nat} {f : α → α} (h : t.assignAt j f = .ok t') : Room 0 t t' := by
  unfold assignAt at h
  obtain ⟨b, h1, h⟩ := Res.bind_eq_ok.1 h
  cases h
  exact ⟨rfl, Nat.le_refl _⟩

theorem eraseAt_room {C : Cfg α κ} {t t' : Tbl α} {i : Nat} (h : t.eraseAt C i = .ok t') : Room 0 t t' :=
  ⟨(eraseAt_fields h).2.1, (eraseAt_fields h).2.2⟩

theorem eraseIfLoop_room {C : Cfg α κ} {pred : α → Bool} : ∀ (fuel : Nat) (t t' : Tbl α) (p : Nat),
    eraseIfLoop C pred fuel t p = .ok t' → Room 0 t t'
  | 0, _, _, _, h => by cases h
  | fuel + 1, t, t', p, h => by
    unfold eraseIfLoop at h
    split at h
    · cases h; exact Room.refl _ _
    · obtain ⟨b, h1, h⟩ := Res.bind_eq_ok.1 h
      split at h
      · obtain ⟨n, _, h⟩ := Res.bind_eq_ok.1 h
        obtain ⟨t1, h2, h⟩ := Res.bind_eq_ok.1 h
        exact (eraseAt_room h2).trans (eraseIfLoop_room fuel t1 t' n h)
      · obtain ⟨n, _, h⟩ := Res.bind_eq_ok.1 h
        exact eraseIfLoop_room fuel t t' n h

theorem emplace_room {C : Cfg α κ} (hC : CfgOk C) {t : Tbl α} {l : List α} (h : Sim C t l) (a : α) (hg : 1 ≤ t.growthLeft)
    {t' : Tbl α} {j : Nat} {ins : Bool} (he : t.emplace C a = .ok (t', j, ins)) : Room 1 t t' := by
  obtain ⟨⟨e1, e2⟩, e3⟩ := emplace_stay hC h a (by omega) he
  exact ⟨e1, e3⟩

/-- One operation does not resize the table if there is room for what it inserts. -/
theorem step_room {C : Cfg α κ} (hC : CfgOk C) {t : Tbl α} {l : List α} (h : Sim C t l) (op : Op α κ)
    (hr : ¬ op.Resizes) (hc : op ≠ .clear) (hg : op.inserts ≤ t.growthLeft)
    {t' : Tbl α} {r : Resp α} (hst : t.step C op = .ok (t', r)) : Room op.inserts t t' := by
  cases op with
  | insertRange vs => exact absurd trivial hr
  | reserve n => exact absurd trivial hr
  | rehash n => exact absurd trivial hr
  | clear => exact absurd rfl hc
  | size => cases hst; exact Room.refl _ _
  | insert a' =>
    simp only [Tbl.step] at hst
    obtain ⟨⟨t1, j, ins⟩, h1, h2⟩ := Res.bind_eq_ok.1 hst
    obtain ⟨b, _, h3⟩ := Res.bind_eq_ok.1 h2
    cases h3
    exact emplace_room hC h a' hg h1
  | insertOrAssign a' f =>
    simp only [Tbl.step] at hst
    obtain ⟨⟨t1, j, ins⟩, h1, h2⟩ := Res.bind_eq_ok.1 hst
    obtain ⟨b, _, h3⟩ := Res.bind_eq_ok.1 h2
    cases h3
    rcases find_sim hC h (C.key a') with ⟨i', b', f1, f2, f3, f4, f5⟩ | ⟨f1, f2, f3⟩
    · unfold insertOrAssign at h1; dsimp only at h1
      rw [show t.findHash C (C.key a') (C.hash (C.key a')) = .ok (some i') from f1] at h1
      simp only [Res.ok_bind] at h1
      obtain ⟨t2, h4, h5⟩ := Res.bind_eq_ok.1 h1
      cases h5
      exact (assignAt_room h4).mono (Nat.zero_le _)
    · rcases emplace_sim hC h a' with ⟨i', b', _, _, g3, g4, _⟩ | ⟨t2, i2, g1, g2, g3, g4⟩
      · rw [f2 b' g3] at g4; cases g4
      · rw [insertOrAssign_none g1] at h1
        cases h1
        exact emplace_room hC h a' hg g1
  | subscript a' f =>
    simp only [Tbl.step, Tbl.subscript] at hst
    obtain ⟨⟨t1, j⟩, h1, h2⟩ := Res.bind_eq_ok.1 hst
    obtain ⟨⟨t2, j', ins⟩, h3, h4⟩ := Res.bind_eq_ok.1 h1
    cases h4
    obtain ⟨b, _, h5⟩ := Res.bind_eq_ok.1 h2
    obtain ⟨t3, h6, h7⟩ := Res.bind_eq_ok.1 h5
    cases h7
    exact (emplace_room hC h a' hg h3).trans (assignAt_room h6)
  | «at» k' =>
    simp only [Tbl.step] at hst
    obtain ⟨o, _, h2⟩ := Res.bind_eq_ok.1 hst
    cases h2; exact Room.refl _ _
  | find k' =>
    simp only [Tbl.step] at hst
    obtain ⟨o, _, h2⟩ := Res.bind_eq_ok.1 hst
    cases o with
    | none => cases h2; exact Room.refl _ _
    | some off =>
      obtain ⟨b, _, h3⟩ := Res.bind_eq_ok.1 h2
      cases h3; exact Room.refl _ _
  | contains k' =>
    simp only [Tbl.step] at hst
    obtain ⟨o, _, h2⟩ := Res.bind_eq_ok.1 hst
    cases h2; exact Room.refl _ _
  | count k' =>
    simp only [Tbl.step] at hst
    obtain ⟨o, _, h2⟩ := Res.bind_eq_ok.1 hst
    cases h2; exact Room.refl _ _
  | erase k' =>
    simp only [Tbl.step] at hst
    obtain ⟨⟨t1, n⟩, h1, h2⟩ := Res.bind_eq_ok.1 hst
    cases h2
    unfold Tbl.erase at h1
    obtain ⟨o, _, h1⟩ := Res.bind_eq_ok.1 h1
    cases o with
    | none => cases h1; exact Room.refl _ _
    | some off =>
      obtain ⟨t2, h3, h4⟩ := Res.bind_eq_ok.1 h1
      cases h4
      exact eraseAt_room h3
  | extract k' =>
    simp only [Tbl.step] at hst
    obtain ⟨⟨t1, n⟩, h1, h2⟩ := Res.bind_eq_ok.1 hst
    cases h2
    unfold Tbl.extract at h1
    obtain ⟨o, _, h1⟩ := Res.bind_eq_ok.1 h1
    cases o with
    | none => cases h1; exact Room.refl _ _
    | some off =>
      obtain ⟨⟨t2, x⟩, h3, h4⟩ := Res.bind_eq_ok.1 h1
      cases h4
      unfold extractAt at h3
      obtain ⟨y, _, h3⟩ := Res.bind_eq_ok.1 h3
      obtain ⟨t3, h5, h3⟩ := Res.bind_eq_ok.1 h3
      obtain ⟨t4, h6, h3⟩ := Res.bind_eq_ok.1 h3
      cases h3
      obtain ⟨e1, e2, e3⟩ := destroySlot_fields h5
      obtain ⟨d1, d2, d3⟩ := eraseMetaOnly_fields h6
      exact ⟨by rw [d2, e2], by (try dsimp only [Op.inserts] at *); omega⟩
  | eraseIf p =>
    simp only [Tbl.step] at hst
    obtain ⟨⟨t1, n⟩, h1, h2⟩ := Res.bind_eq_ok.1 hst
    cases h2
    unfold Tbl.eraseIf at h1
    obtain ⟨b, _, h1⟩ := Res.bind_eq_ok.1 h1
    obtain ⟨t2, h3, h1⟩ := Res.bind_eq_ok.1 h1
    cases h1
    exact eraseIfLoop_room _ _ _ _ h3
  | toggle a' =>
    simp only [Tbl.step] at hst
    obtain ⟨t1, h1, h2⟩ := Res.bind_eq_ok.1 hst
    cases h2
    rcases find_sim hC h (C.key a') with ⟨i', b', f1, f2, f3, f4, f5⟩ | ⟨f1, f2, f3⟩
    · unfold emplaceSingle at h1
      rw [show t.findHash C (C.key a') (C.hash (C.key a')) = .ok (some i') from f1] at h1
      simp only [Res.ok_bind] at h1
      exact (eraseAt_room h1).mono (Nat.zero_le _)
    · rcases emplace_sim hC h a' with ⟨i', b', _, _, g3, g4, _⟩ | ⟨t2, i2, g1, g2, g3, g4⟩
      · rw [f2 b' g3] at g4; cases g4
      · rw [emplaceSingle_none g1] at h1
        cases h1
        exact emplace_room hC h a' hg g1
  | insertNode n =>
    simp only [Tbl.step] at hst
    obtain ⟨⟨t1, off, ins, left⟩, h1, h2⟩ := Res.bind_eq_ok.1 hst
    cases n with
    | none =>
      simp only [Tbl.insertNode] at h1
      cases h1; cases h2; exact Room.refl _ _
    | some a' =>
      simp only [Tbl.insertNode] at h1
      obtain ⟨⟨t2, j, ins2⟩, h3, h4⟩ := Res.bind_eq_ok.1 h1
      cases h4
      obtain ⟨b, _, h5⟩ := Res.bind_eq_ok.1 h2
      cases h5
      exact emplace_room hC h a' hg h3

end Gtl.Swiss
