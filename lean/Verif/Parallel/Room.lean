import Verif.Parallel.Stay
import Verif.Swiss.Room
/-! The room for insertions that operations on a parallel container leave in its submaps. -/

namespace Gtl.Parallel

open Gtl.Swiss
open Gtl.Spec (Op POp Resp addsTo)

variable {α κ : Type}

theorem eraseKeyIf_room {P : PCfg α κ} {t t' : Tbl α} {k : κ} {pr : α → Bool} {n : Nat}
    (he : PTbl.eraseKeyIf P t k pr = .ok (t', n)) : Room 0 t t' := by
  unfold PTbl.eraseKeyIf at he
  obtain ⟨o, _, he⟩ := Res.bind_eq_ok.1 he
  cases o with
  | none => cases he; exact Room.refl _ _
  | some off =>
    dsimp only at he
    split at he <;>
    · obtain ⟨o, _, he⟩ := Res.bind_eq_ok.1 he
      cases o with
      | none => cases he; exact Room.refl _ _
      | some off =>
        obtain ⟨a, _, he⟩ := Res.bind_eq_ok.1 he
        split at he
        · obtain ⟨t2, h1, he⟩ := Res.bind_eq_ok.1 he
          cases he
          exact eraseAt_room h1
        · cases he; exact Room.refl _ _

theorem modifyKeyIf_room {P : PCfg α κ} {t t' : Tbl α} {k : κ} {f : α → α} {o : Option α}
    (he : PTbl.modifyKeyIf P t k f = .ok (t', o)) : Room 0 t t' := by
  unfold PTbl.modifyKeyIf at he
  obtain ⟨x, _, he⟩ := Res.bind_eq_ok.1 he
  cases x with
  | none => cases he; exact Room.refl _ _
  | some off =>
    obtain ⟨a, _, he⟩ := Res.bind_eq_ok.1 he
    obtain ⟨t2, h2, he⟩ := Res.bind_eq_ok.1 he
    cases he
    exact assignAt_room h2

theorem emplaceL_room {P : PCfg α κ} (hC : CfgOk P.C) {t t' : Tbl α} {l : List α} (h : Sim P.C t l) {a : α}
    {f : α → α} {b : α} {ins : Bool} (hg : 1 ≤ t.growthLeft) (he : PTbl.emplaceL P t a f = .ok (t', b, ins)) :
    Room 1 t t' := by
  unfold PTbl.emplaceL at he
  simp only at he
  obtain ⟨o, h1, he⟩ := Res.bind_eq_ok.1 he
  cases o with
  | some off =>
    obtain ⟨x, _, he⟩ := Res.bind_eq_ok.1 he
    obtain ⟨t2, g2, he⟩ := Res.bind_eq_ok.1 he
    cases he
    exact (assignAt_room g2).mono (Nat.zero_le _)
  | none =>
    obtain ⟨⟨t1, off⟩, g1, he⟩ := Res.bind_eq_ok.1 he
    obtain ⟨t2, g2, he⟩ := Res.bind_eq_ok.1 he
    obtain ⟨t3, g3, he⟩ := Res.bind_eq_ok.1 he
    cases he
    have : t.emplace P.C a = .ok (t', off, true) := by
      unfold Tbl.emplace Tbl.emplaceHash
      rw [h1]
      simp only [Res.ok_bind]
      rw [g1]
      simp only [Res.ok_bind]
      rw [g2]
      simp only [Res.ok_bind]
      rw [g3]
      rfl
    exact emplace_room hC h a hg this

theorem assignLoop_room {P : PCfg α κ} {f : α → α} : ∀ (n : Nat) (t t' : Tbl α) (q : Nat),
    PTbl.assignLoop P f n t q = .ok t' → Room 0 t t'
  | 0, _, _, _, h => by cases h
  | n + 1, t, t', q, h => by
    unfold PTbl.assignLoop at h
    split at h
    · cases h; exact Room.refl _ _
    · obtain ⟨t1, h1, h⟩ := Res.bind_eq_ok.1 h
      obtain ⟨r, _, h⟩ := Res.bind_eq_ok.1 h
      exact (assignAt_room h1).trans (assignLoop_room n t1 t' r h)

theorem withSub_room {p p' : PTbl α} {i j : Nat} {β : Type} {f : Tbl α → Res (Tbl α × β)} {r : β} {n : Nat} {t : Tbl α}
    (h : p.withSub j f = .ok (p', r)) (ht : p.sets[i]? = some t) (hf : j = i → ∀ t', f t = .ok (t', r) → Room n t t') :
    ∃ t', p'.sets[i]? = some t' ∧ Room n t t' := by
  by_cases hij : j = i
  · subst hij
    obtain ⟨u, u', h1, h2, rfl⟩ := withSub_inv h
    rw [ht] at h1; cases h1
    exact ⟨u', List.getElem?_set_self (List.getElem?_eq_some_iff.1 ht).1, hf rfl u' h2⟩
  · exact ⟨t, by rw [withSub_other h (fun e => hij e.symm)]; exact ht, Room.refl _ _⟩

theorem eraseIfLoop_proom {P : PCfg α κ} {pred : α → Bool} {i : Nat} :
    ∀ (n : Nat) (p p' : PTbl α) (it : PTbl.It) (t : Tbl α), PTbl.eraseIfLoop P pred n p it = .ok p' → p.sets[i]? = some t →
      ∃ t', p'.sets[i]? = some t' ∧ Room 0 t t'
  | 0, _, _, _, _, h, _ => by cases h
  | n + 1, p, p', none, t, h, ht => by cases h; exact ⟨t, ht, Room.refl _ _⟩
  | n + 1, p, p', some it, t, h, ht => by
    unfold PTbl.eraseIfLoop at h
    obtain ⟨a, h1, h⟩ := Res.bind_eq_ok.1 h
    split at h
    · obtain ⟨nxt, _, h⟩ := Res.bind_eq_ok.1 h
      obtain ⟨p1, h2, h⟩ := Res.bind_eq_ok.1 h
      unfold PTbl.eraseAt PTbl.sub at h2
      cases hu : p.sets[it.1]? with
      | none => rw [hu] at h2; cases h2
      | some u =>
        rw [hu] at h2
        simp only [Res.ofOption_some, Res.ok_bind] at h2
        obtain ⟨u', h3, h2⟩ := Res.bind_eq_ok.1 h2
        cases h2
        have key : ∃ t1, (p.sets.set it.1 u')[i]? = some t1 ∧ Room 0 t t1 := by
          by_cases hi : it.1 = i
          · rw [hi] at hu
            rw [ht] at hu; cases hu
            exact ⟨u', by rw [hi]; exact List.getElem?_set_self (List.getElem?_eq_some_iff.1 ht).1, eraseAt_room h3⟩
          · exact ⟨t, by rw [List.getElem?_set_ne hi]; exact ht, Room.refl _ _⟩
        obtain ⟨t1, k1, k2⟩ := key
        obtain ⟨t2, k3, k4⟩ := eraseIfLoop_proom n _ p' nxt t1 h k1
        exact ⟨t2, k3, k2.trans k4⟩
    · obtain ⟨nxt, _, h⟩ := Res.bind_eq_ok.1 h
      exact eraseIfLoop_proom n p p' nxt t h ht

theorem keyed_room {P : PCfg α κ} (hC : CfgOk P.C) {p p' : PTbl α} {l : List α} (h : PSim P p l) {op : Op α κ}
    (hr : ¬ op.Resizes) (hc : op ≠ .clear) {i j n : Nat} {t : Tbl α} (ht : p.sets[i]? = some t) {r : Resp α}
    (hst : p.withSub j (fun t => t.step P.C op) = .ok (p', r)) (hn : j = i → op.inserts ≤ n) (hg : n ≤ t.growthLeft) :
    ∃ t', p'.sets[i]? = some t' ∧ Room n t t' := by
  refine withSub_room hst ht ?_
  intro hij t' h1
  have := hn hij
  exact (step_room hC (h.sim i t ht) op hr hc (by omega) h1).mono this

theorem insertAll_room {P : PCfg α κ} (hC : CfgOk P.C) {i : Nat} : ∀ (vs : List α) (p p' : PTbl α) (l : List α) (t : Tbl α),
    PSim P p l → p.sets[i]? = some t → (vs.map P.C.key).countP (fun k => kidx P k == i) ≤ t.growthLeft →
    vs.foldlM (fun p v => do
      let (p, _) ← p.withSub (subidx P.N (P.C.hash (P.C.key v))) (fun t => t.step P.C (.insert v))
      Res.ok p) p = .ok p' →
    ∃ t', p'.sets[i]? = some t' ∧ Room ((vs.map P.C.key).countP (fun k => kidx P k == i)) t t'
  | [], p, p', l, t, _, ht, _, h => by cases h; exact ⟨t, ht, Room.refl _ _⟩
  | v :: vs, p, p', l, t, hsim, ht, hg, h => by
    obtain ⟨p1, h1, h2⟩ := keyed_sim hC hsim (.insert v) trivial rfl
    rw [List.foldlM_cons] at h
    unfold kidx at h1
    rw [h1] at h
    rw [List.map_cons, List.countP_cons] at hg
    obtain ⟨t1, g1, g2⟩ := keyed_room hC hsim (op := .insert v) (fun h => h) (by intro e; cases e) ht h1
      (n := if (kidx P (P.C.key v) == i) = true then 1 else 0)
      (by intro hij; unfold kidx; rw [hij]; simp [Op.inserts]) (by omega)
    have := g2.2
    obtain ⟨t2, g3, g4⟩ := insertAll_room hC vs p1 p' _ t1 h2 g1 (by omega) h
    refine ⟨t2, g3, ?_⟩
    rw [List.map_cons, List.countP_cons, Nat.add_comm]
    exact g2.trans g4

/-- One operation does not resize submap `i` if there is room in it for what the operation adds to it. -/
theorem pstep_room {P : PCfg α κ} (hC : CfgOk P.C) {p p' : PTbl α} {l : List α} (h : PSim P p l) {op : POp α κ}
    (hr : ¬ op.Resizes) (hc : op ≠ .base .clear) {i : Nat} {t : Tbl α} (ht : p.sets[i]? = some t)
    (hg : addsTo P.C.key (kidx P) i [op] ≤ t.growthLeft) {r : Resp α} (hst : p.pstep P op = .ok (p', r)) :
    ∃ t', p'.sets[i]? = some t' ∧ Room (addsTo P.C.key (kidx P) i [op]) t t' := by
  have one : ∀ {j : Nat} {k' : κ}, kidx P k' = j → j = i → 1 ≤ [k'].countP (fun k => kidx P k == i) := by
    intro j k' h1 h2
    rw [List.countP_cons, h1, h2]; simp
  have zero : ∀ {t' : Tbl α} (n : Nat), Room 0 t t' → Room n t t' := fun n h => h.mono (Nat.zero_le _)
  cases op with
  | base op =>
    cases op with
    | insert a => exact keyed_room hC h (op := .insert a) (fun h => h) (by intro e; cases e) ht hst (fun e => one rfl e) hg
    | insertOrAssign a f => exact keyed_room hC h (op := .insertOrAssign a f) (fun h => h) (by intro e; cases e) ht hst (fun e => one rfl e) hg
    | subscript a f => exact keyed_room hC h (op := .subscript a f) (fun h => h) (by intro e; cases e) ht hst (fun e => one rfl e) hg
    | «at» k' => exact keyed_room hC h (op := .at k') (fun h => h) (by intro e; cases e) ht hst (fun _ => Nat.zero_le _) hg
    | find k' => exact keyed_room hC h (op := .find k') (fun h => h) (by intro e; cases e) ht hst (fun _ => Nat.zero_le _) hg
    | contains k' => exact keyed_room hC h (op := .contains k') (fun h => h) (by intro e; cases e) ht hst (fun _ => Nat.zero_le _) hg
    | count k' =>
      refine withSub_room hst ht ?_
      intro _ t' h1
      obtain ⟨b, _, h1⟩ := Res.bind_eq_ok.1 h1
      cases h1
      exact Room.refl _ _
    | erase k' =>
      refine withSub_room hst ht ?_
      intro _ t' h1
      obtain ⟨⟨t1, m⟩, h2, h1⟩ := Res.bind_eq_ok.1 h1
      cases h1
      exact zero _ (eraseKeyIf_room h2)
    | eraseIf pr =>
      simp only [PTbl.pstep, PTbl.step, PTbl.eraseIf] at hst
      obtain ⟨⟨p1, m⟩, h1, hst⟩ := Res.bind_eq_ok.1 hst
      cases hst
      obtain ⟨b, _, h1⟩ := Res.bind_eq_ok.1 h1
      obtain ⟨p2, h2, h1⟩ := Res.bind_eq_ok.1 h1
      cases h1
      obtain ⟨t1, g1, g2⟩ := eraseIfLoop_proom _ _ _ _ t h2 ht
      exact ⟨t1, g1, zero _ g2⟩
    | extract k' => exact keyed_room hC h (op := .extract k') (fun h => h) (by intro e; cases e) ht hst (fun _ => Nat.zero_le _) hg
    | insertNode n =>
      cases n with
      | none => cases hst; exact ⟨t, ht, Room.refl _ _⟩
      | some a => exact keyed_room hC h (op := .insertNode (some a)) (fun h => h) (by intro e; cases e) ht hst (fun e => one rfl e) hg
    | toggle a => exact keyed_room hC h (op := .toggle a) (fun h => h) (by intro e; cases e) ht hst (fun e => one rfl e) hg
    | insertRange vs =>
      simp only [PTbl.pstep, PTbl.step] at hst
      obtain ⟨p1, h1, hst⟩ := Res.bind_eq_ok.1 hst
      cases hst
      have e : addsTo P.C.key (kidx P) i [POp.base (.insertRange vs)] =
          (vs.map P.C.key).countP (fun k => kidx P k == i) := by
        unfold addsTo
        rw [List.flatMap_cons, List.flatMap_nil, List.append_nil]; rfl
      rw [e] at hg ⊢
      exact insertAll_room hC vs p p' l t h ht hg h1
    | size => cases hst; exact ⟨t, ht, Room.refl _ _⟩
    | clear => exact absurd rfl hc
    | reserve n => exact absurd trivial hr
    | rehash n => exact absurd trivial hr
  | ifContains k' =>
    refine withSub_room hst ht ?_
    intro _ t' h1
    obtain ⟨⟨t1, m⟩, h2, h1⟩ := Res.bind_eq_ok.1 h1
    cases h1
    exact zero _ (modifyKeyIf_room h2)
  | modifyIf k' f =>
    refine withSub_room hst ht ?_
    intro _ t' h1
    obtain ⟨⟨t1, m⟩, h2, h1⟩ := Res.bind_eq_ok.1 h1
    cases h1
    exact zero _ (modifyKeyIf_room h2)
  | eraseIfKey k' pr =>
    refine withSub_room hst ht ?_
    intro _ t' h1
    obtain ⟨⟨t1, m⟩, h2, h1⟩ := Res.bind_eq_ok.1 h1
    cases h1
    exact zero _ (eraseKeyIf_room h2)
  | emplaceL a f =>
    refine withSub_room hst ht ?_
    intro hij t' h1
    obtain ⟨⟨t1, b, ins⟩, h2, h1⟩ := Res.bind_eq_ok.1 h1
    cases h1
    have e : addsTo P.C.key (kidx P) i [POp.emplaceL a f] = 1 := by
      unfold addsTo
      rw [List.flatMap_cons, List.flatMap_nil, List.append_nil]
      show [P.C.key a].countP _ = 1
      rw [List.countP_cons]
      have : kidx P (P.C.key a) = i := hij
      rw [this]; simp
    rw [e] at hg ⊢
    exact emplaceL_room hC (h.sim i t ht) hg h2
  | forEachM f =>
    simp only [PTbl.pstep, PTbl.forEachM] at hst
    obtain ⟨p1, h1, hst⟩ := Res.bind_eq_ok.1 hst
    cases hst
    obtain ⟨ts, h2, h1⟩ := Res.bind_eq_ok.1 h1
    cases h1
    obtain ⟨t', g1, g2⟩ := mapRes_get _ _ h2 i t ht
    refine ⟨t', g1, zero _ ?_⟩
    unfold PTbl.assignAll at g2
    obtain ⟨b, _, g2⟩ := Res.bind_eq_ok.1 g2
    exact assignLoop_room _ _ _ _ g2

/-! ## `reserve` -/

/-- What `reserve(n)` asks of each submap is enough for `n / 2^N` elements. -/
theorem reserve_share {W n d cap : Nat} (hd : 0 < d) (hW : W = 16 ∨ n / d ≠ 7)
    (hc : (if d * normalizeCapacity (n / d) > growthToLowerboundCapacity W n then d * normalizeCapacity (n / d)
      else growthToLowerboundCapacity W n) / d ≤ cap) (hp : ∃ k, cap + 1 = 2 ^ k) :
    n / d ≤ capacityToGrowth W cap := by
  have hT : growthToLowerboundCapacity W n / d ≤ cap := by
    refine Nat.le_trans (Nat.div_le_div_right ?_) hc
    split <;> omega
  have hlow : n + (n - 1) / 7 ≤ growthToLowerboundCapacity W n := by
    unfold growthToLowerboundCapacity
    split <;> omega
  -- `e + (e - 1) / 7 ≤ (n + (n - 1) / 7) / d` for `e = n / d`
  have key : n / d + (n / d - 1) / 7 ≤ growthToLowerboundCapacity W n / d := by
    refine Nat.le_trans ?_ (Nat.div_le_div_right hlow)
    rw [Nat.le_div_iff_mul_le hd]
    have h1 : n / d * d ≤ n := Nat.div_mul_le_self n d
    by_cases h0 : n / d = 0
    · rw [h0]; simp
    have h2 : (n / d - 1) / 7 * d ≤ (n - 1) / 7 := by
      rw [Nat.le_div_iff_mul_le (by omega)]
      have h3 : (n / d - 1) / 7 * 7 ≤ n / d - 1 := Nat.div_mul_le_self _ _
      calc (n / d - 1) / 7 * d * 7 = ((n / d - 1) / 7 * 7) * d := by ring
        _ ≤ (n / d - 1) * d := Nat.mul_le_mul_right d h3
        _ ≤ n - 1 := by
          rw [Nat.sub_mul, Nat.one_mul]
          omega
    rw [Nat.add_mul]
    omega
  have h4 := Nat.le_trans key hT
  obtain ⟨k, hk⟩ := hp
  unfold capacityToGrowth
  split
  · rename_i h8
    rcases hW with hW | hW
    · omega
    · omega
  · omega

end Gtl.Parallel
