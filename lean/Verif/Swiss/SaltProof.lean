import Verif.Swiss.Salt
import Verif.Swiss.FunctorProof
/-!
# Tables whose probe sequences depend on their address: proofs
-/

namespace Gtl.Swiss

open Gtl.Spec (Op WOp Resp put)
open Tbl

variable {α κ : Type}

namespace STbl

theorem cfg_ok {C : Cfg α κ} (hC : CfgOk C) (addr : Nat) : CfgOk (cfg C addr) where
  refl := hC.refl
  symm := hC.symm
  trans := hC.trans
  hash_congr := fun k l h => by show salted addr (C.hash k) = salted addr (C.hash l); rw [hC.hash_congr k l h]
  group := hC.group

/-- The table satisfies the invariant at its address and holds exactly the elements of `l`. -/
def SSim (C : Cfg α κ) (s : STbl α) (l : List α) : Prop := Sim (cfg C s.addr) s.tbl l

theorem sim_empty (C : Cfg α κ) (hC : CfgOk C) (H : Addrs) : SSim C (empty H : STbl α) [] :=
  Gtl.Swiss.sim_empty (cfg_ok hC _).group

theorem resize_s {C : Cfg α κ} (hC : CfgOk C) (H : Addrs) {s : STbl α} {c : List Ctrl} (h : Inv (cfg C s.addr) s.tbl c) {newCap : Nat}
    (hp : ∃ k, newCap + 1 = 2 ^ k) (hfit : s.tbl.size ≤ capacityToGrowth C.G.W newCap) (n : Nat) :
    ∃ t' c', s.resize C H n newCap = .ok (⟨H.fresh n, t'⟩, n + 1) ∧ Inv (cfg C (H.fresh n)) t' c' ∧
      List.Perm (elems t') (elems s.tbl) ∧ t'.capacity = newCap ∧ t'.size = s.tbl.size ∧
      t'.growthLeft = capacityToGrowth C.G.W newCap - s.tbl.size := by
  have h' : Inv { cfg C (H.fresh n) with hash := (cfg C s.addr).hash } s.tbl c := h
  obtain ⟨t', c', r1, r2, r3, r4, r5, r6, r7⟩ := resize_inv (cfg_ok hC (H.fresh n)) h' hp hfit
  refine ⟨t', c', ?_, r2, r3, r4, r5, r6⟩
  unfold resize; rw [r1]; rfl

theorem rehashAndGrow_s {C : Cfg α κ} (hC : CfgOk C) (H : Addrs) {s : STbl α} {c : List Ctrl} (h : Inv (cfg C s.addr) s.tbl c)
    (h0 : s.tbl.growthLeft = 0) (n : Nat) :
    ∃ s' n' c', s.rehashAndGrow C H n = .ok (s', n') ∧ Inv (cfg C s'.addr) s'.tbl c' ∧
      List.Perm (elems s'.tbl) (elems s.tbl) ∧ 0 < s'.tbl.growthLeft := by
  have hgr := h.growth
  unfold rehashAndGrow
  by_cases hc0 : s.tbl.capacity = 0
  · rw [if_pos hc0]
    have hsz : s.tbl.size = 0 := by
      have := capacityToGrowth_le C.G.W s.tbl.capacity
      have : (cfg C s.addr).G.W = C.G.W := rfl
      rw [this] at hgr
      omega
    obtain ⟨t', c', r1, r2, r3, r4, r5, r6⟩ := resize_s hC H h (newCap := 1) ⟨1, by norm_num⟩ (by rw [hsz]; omega) n
    refine ⟨_, _, c', r1, r2, r3, ?_⟩
    show 0 < t'.growthLeft
    rw [r6, hsz]
    have := capacityToGrowth_pos (W := C.G.W) (cap := 1) (by omega)
    omega
  · rw [if_neg hc0]
    by_cases hs : s.tbl.size ≤ capacityToGrowth C.G.W s.tbl.capacity / 2
    · rw [if_pos hs]
      obtain ⟨t', c', r1, r2, r3, r4, _⟩ := rehashAndGrow_inv (cfg_ok hC s.addr) h h0
      have : s.tbl.dropDeletes (cfg C s.addr) = .ok t' := by
        unfold Tbl.rehashAndGrow at r1
        rw [if_neg hc0, if_pos (show s.tbl.size ≤ capacityToGrowth (cfg C s.addr).G.W s.tbl.capacity / 2 from hs)] at r1
        exact r1
      rw [this]
      exact ⟨_, _, c', rfl, r2, r3, r4⟩
    · rw [if_neg hs]
      obtain ⟨k, hk⟩ := h.core.raw.pow
      have hdb := capacityToGrowth_double C.G.W s.tbl.capacity (by omega)
      have hw : (cfg C s.addr).G.W = C.G.W := rfl
      rw [hw] at hgr
      obtain ⟨t', c', r1, r2, r3, r4, r5, r6⟩ := resize_s hC H h (newCap := s.tbl.capacity * 2 + 1)
        ⟨k + 1, by rw [pow_succ]; omega⟩ (by omega) n
      refine ⟨_, _, c', r1, r2, r3, ?_⟩
      show 0 < t'.growthLeft
      rw [r6]; omega

/-- `prepare_insert` and what follows it, for a key that is not in the table. -/
theorem insertNew_s {C : Cfg α κ} (hC : CfgOk C) (H : Addrs) {s : STbl α} {c : List Ctrl} (h : Inv (cfg C s.addr) s.tbl c) (n : Nat) (a : α)
    (hnew : ∀ b ∈ elems s.tbl, C.eqv (C.key b) (C.key a) = false) :
    ∃ s1 i n' s3 c3, s.prepareInsert C H n (C.hash (C.key a)) = .ok (s1, i, n') ∧
      s1.finish C i (C.hash (C.key a)) a = .ok s3 ∧ Inv (cfg C s3.addr) s3.tbl c3 ∧
      List.Perm (elems s3.tbl) (a :: elems s.tbl) ∧ s3.tbl.slots[i]? = some (some a) := by
  have hK := cfg_ok hC s.addr
  have fin : ∀ (addr : Nat) (t t1 : Tbl α) (i : Nat) (t3 : Tbl α) (c3 : List Ctrl), Placed (cfg C addr) t a t1 i t3 c3 →
      (⟨addr, t1⟩ : STbl α).finish C i (C.hash (C.key a)) a = .ok ⟨addr, t3⟩ := by
    intro addr t t1 i t3 c3 p
    unfold finish
    dsimp only
    rw [constructSlot_ok p.free]
    simp only [Res.ok_bind]
    have := p.mark
    rw [show H2 ((cfg C addr).hash ((cfg C addr).key a)) = H2 (C.hash (C.key a)) from H2_salted _ _] at this
    change Tbl.setCtrl C.G.W { t1 with slots := t1.slots.set i (some a) } i (H2 (C.hash (C.key a))) = .ok t3 at this
    rw [this]
    rfl
  obtain ⟨t1, i, t3, c3, p1, p2, _⟩ := prepareInsert_spec hK h a hnew
  have p1' := p1
  unfold Tbl.prepareInsert at p1
  obtain ⟨i0, q1, q2⟩ := Res.bind_eq_ok.1 p1
  obtain ⟨c0, q3, q4⟩ := Res.bind_eq_ok.1 q2
  have q1' : s.tbl.findFirstNonFull (cfg C s.addr) (salted s.addr (C.hash (C.key a))) = .ok i0 := q1
  by_cases hgrow : s.tbl.growthLeft = 0 ∧ ¬ isDeleted c0
  · obtain ⟨s', n', c', g1, g2, g3, g4⟩ := rehashAndGrow_s hC H h hgrow.1 n
    have hnew' : ∀ b ∈ elems s'.tbl, (cfg C s'.addr).eqv ((cfg C s'.addr).key b) ((cfg C s'.addr).key a) = false :=
      fun b hb => hnew b (g3.subset hb)
    have hlt : (elems s'.tbl).length < s'.tbl.capacity := by
      have e1 := g2.growth
      have e2 := capacityToGrowth_le (cfg C s'.addr).G.W s'.tbl.capacity
      have e3 := g2.size_eq
      omega
    obtain ⟨i', t3', c3', f1, f2, f3, f4, _⟩ := finish_spec (cfg_ok hC s'.addr) g2 a hnew' (exists_free g2.core hlt)
      (fun _ _ h0 => by omega)
    refine ⟨_, i', n', ⟨s'.addr, t3'⟩, c3', ?_, fin s'.addr _ _ i' t3' c3' f4, f4.inv, f4.perm.trans (g3.cons a), f4.slot⟩
    unfold prepareInsert
    rw [q1']
    simp only [Res.ok_bind]
    rw [q3]
    simp only [Res.ok_bind]
    rw [if_pos hgrow, g1]
    simp only [Res.ok_bind]
    rw [show s'.tbl.findFirstNonFull (cfg C s'.addr) (salted s'.addr (C.hash (C.key a))) = .ok i' from f1]
    simp only [Res.ok_bind]
    rw [f3]
    simp only [Res.ok_bind]
  · rw [if_neg hgrow] at q4
    simp only [Res.ok_bind] at q4
    obtain ⟨c1, q5, q6⟩ := Res.bind_eq_ok.1 q4
    cases q6
    refine ⟨⟨s.addr, _⟩, _, n, ⟨s.addr, t3⟩, c3, ?_, fin s.addr _ _ _ t3 c3 p2, p2.inv, p2.perm, p2.slot⟩
    unfold prepareInsert
    rw [q1']
    simp only [Res.ok_bind]
    rw [q3]
    simp only [Res.ok_bind]
    rw [if_neg hgrow]
    rw [Res.ok.inj (q3.symm.trans q5)]

/-- Looking a key up, in terms of the specification. -/
theorem find_s {C : Cfg α κ} (hC : CfgOk C) {s : STbl α} {l : List α} (h : SSim C s l) (k : κ) :
    (∃ i a, s.tbl.findHash (cfg C s.addr) k (salted s.addr (C.hash k)) = .ok (some i) ∧ s.tbl.slots[i]? = some (some a) ∧ a ∈ l ∧
      C.eqv (C.key a) k = true ∧ Spec.lookup C.key C.eqv l k = some a) ∨
    (s.tbl.findHash (cfg C s.addr) k (salted s.addr (C.hash k)) = .ok none ∧ (∀ a ∈ l, C.eqv (C.key a) k = false) ∧
      Spec.lookup C.key C.eqv l k = none) :=
  find_sim (cfg_ok hC s.addr) h k

theorem insertNew_sim {C : Cfg α κ} (hC : CfgOk C) (H : Addrs) {s : STbl α} {l : List α} (h : SSim C s l) (n : Nat) (a : α)
    (hnew : ∀ b ∈ l, C.eqv (C.key b) (C.key a) = false) :
    ∃ s1 i n' s3, s.prepareInsert C H n (C.hash (C.key a)) = .ok (s1, i, n') ∧
      s1.finish C i (C.hash (C.key a)) a = .ok s3 ∧ SSim C s3 (a :: l) ∧ s3.tbl.slots[i]? = some (some a) := by
  obtain ⟨⟨c, hi⟩, hp⟩ := h
  obtain ⟨s1, i, n', s3, c3, h1, h2, h3, h4, h5⟩ := insertNew_s hC H hi n a (fun b hb => hnew b (hp.mem_iff.1 hb))
  exact ⟨s1, i, n', s3, h1, h2, ⟨⟨c3, h3⟩, h4.trans (hp.cons a)⟩, h5⟩

theorem emplace_s {C : Cfg α κ} (hC : CfgOk C) (H : Addrs) {s : STbl α} {l : List α} (h : SSim C s l) (n : Nat) (a : α) :
    (∃ i b, s.emplace C H n a = .ok (s, i, false, n) ∧ s.tbl.slots[i]? = some (some b) ∧ b ∈ l ∧
      C.eqv (C.key b) (C.key a) = true ∧ Spec.lookup C.key C.eqv l (C.key a) = some b) ∨
    (∃ s' i n', s.emplace C H n a = .ok (s', i, true, n') ∧ s'.tbl.slots[i]? = some (some a) ∧ SSim C s' (a :: l) ∧
      Spec.lookup C.key C.eqv l (C.key a) = none ∧ ∀ b ∈ l, C.eqv (C.key b) (C.key a) = false) := by
  rcases find_s hC h (C.key a) with ⟨i, b, h1, h2, h3, h4, h5⟩ | ⟨h1, h2, h3⟩
  · refine .inl ⟨i, b, ?_, h2, h3, h4, h5⟩
    unfold emplace; dsimp only
    rw [h1]; rfl
  · obtain ⟨s1, i, n', s3, g1, g2, g3, g4⟩ := insertNew_sim hC H h n a h2
    refine .inr ⟨s3, i, n', ?_, g4, g3, h3, h2⟩
    unfold emplace; dsimp only
    rw [h1]; simp only [Res.ok_bind]
    rw [g1]; simp only [Res.ok_bind]
    rw [g2]; rfl

theorem insertAll_s {C : Cfg α κ} (hC : CfgOk C) (H : Addrs) : ∀ (vs : List α) (s : STbl α) (l : List α) (n : Nat), SSim C s l →
    ∃ s' n', s.insertAll C H n vs = .ok (s', n') ∧ SSim C s' (vs.foldl (Spec.insert C.key C.eqv) l)
  | [], s, l, n, h => ⟨s, n, rfl, h⟩
  | v :: vs, s, l, n, h => by
    rw [List.foldl_cons]
    unfold insertAll
    rcases emplace_s hC H h n v with ⟨i, b, h1, _, _, _, h5⟩ | ⟨s', i, n', h1, _, h3, h4, _⟩
    · rw [h1]
      simp only [Res.ok_bind]
      have : Spec.insert C.key C.eqv l v = l := by unfold Spec.insert; rw [h5]
      rw [this]
      exact insertAll_s hC H vs s l n h
    · rw [h1]
      simp only [Res.ok_bind]
      have : Spec.insert C.key C.eqv l v = v :: l := by unfold Spec.insert; rw [h4]
      rw [this]
      exact insertAll_s hC H vs s' (v :: l) n' h3

theorem destroySlots_s {C : Cfg α κ} (hC : CfgOk C) (H : Addrs) {s : STbl α} {l : List α} (h : SSim C s l) :
    ∃ u, s.destroySlots H = .ok u := by
  obtain ⟨u, hu⟩ := destroySlots_sim (cfg_ok hC s.addr) h
  exact ⟨_, by unfold destroySlots; rw [hu]; rfl⟩

/-- What `rehash(m)` makes room for. -/
theorem rehash_fit {C : Cfg α κ} {t : Tbl α} {c : List Ctrl} (h : Inv C t c) {m : Nat} (hm : m ≠ 0 ∨ t.size = 0)
    (h3 : m = 0 ∨ normalizeCapacity (max m t.size) > t.capacity) :
    t.size ≤ capacityToGrowth C.G.W (normalizeCapacity (max m t.size)) := by
  rcases hm with hm | hm
  · have hgt : normalizeCapacity (max m t.size) > t.capacity := by
      rcases h3 with hh | hh
      · exact absurd hh hm
      · exact hh
    have hgr := h.growth
    by_cases hc0 : t.capacity = 0
    · have := capacityToGrowth_le C.G.W t.capacity
      omega
    · obtain ⟨k, hk1, hk2⟩ := normalizeCapacity_pow (max m t.size)
      have hmono : capacityToGrowth C.G.W t.capacity ≤ capacityToGrowth C.G.W (normalizeCapacity (max m t.size)) := by
        obtain ⟨q, hq⟩ := h.core.raw.pow
        unfold capacityToGrowth
        split <;> split <;> omega
      omega
  · rw [hm]; omega

theorem rehash_s {C : Cfg α κ} (hC : CfgOk C) (H : Addrs) {s : STbl α} {l : List α} (h : SSim C s l) (n : Nat) {m : Nat}
    (hm : m ≠ 0 ∨ s.tbl.size = 0) : ∃ s' n', s.rehash C H n m = .ok (s', n') ∧ SSim C s' l := by
  obtain ⟨⟨c, hi⟩, hp⟩ := id h
  obtain ⟨t', c', r1, r2, r3, _⟩ := rehash_spec (cfg_ok hC s.addr) hi m (by
    rcases hm with hm | hm
    · exact .inl hm
    · exact .inr (by omega))
  unfold Tbl.rehash at r1
  unfold rehash
  by_cases h1 : m = 0 ∧ s.tbl.capacity = 0
  · rw [if_pos h1]; exact ⟨s, n, rfl, h⟩
  rw [if_neg h1] at r1 ⊢
  by_cases h2 : m = 0 ∧ s.tbl.size = 0
  · rw [if_pos h2] at r1 ⊢
    unfold destroySlots
    rw [r1]
    refine ⟨_, n, rfl, ?_⟩
    have hl : l = [] := by
      have := h.size
      rw [h2.2] at this
      exact List.length_eq_zero_iff.1 this.symm
    have ht : Sim (cfg C s.addr) t' [] := ⟨⟨c', r2⟩, by rw [← hl]; exact r3.trans hp⟩
    rw [hl]
    exact ht.using _
  rw [if_neg h2] at r1 ⊢
  dsimp only at r1 ⊢
  by_cases h3 : m = 0 ∨ normalizeCapacity (max m s.tbl.size) > s.tbl.capacity
  · rw [if_pos h3]
    obtain ⟨k, _, hk⟩ := normalizeCapacity_pow (max m s.tbl.size)
    obtain ⟨t2, c2, q1, q2, q3, _⟩ := resize_s hC H hi ⟨k, hk⟩ (rehash_fit hi hm h3) n
    exact ⟨_, _, q1, ⟨c2, q2⟩, q3.trans hp⟩
  · rw [if_neg h3]; exact ⟨s, n, rfl, h⟩

theorem reserve_s {C : Cfg α κ} (hC : CfgOk C) (H : Addrs) {s : STbl α} {l : List α} (h : SSim C s l) (n : Nat) {m : Nat}
    (hm : m ≠ 0 ∨ s.tbl.size = 0) : ∃ s' n', s.reserve C H n m = .ok (s', n') ∧ SSim C s' l := by
  refine rehash_s hC H h n ?_
  rcases hm with hm | hm
  · left; unfold growthToLowerboundCapacity; split <;> omega
  · exact .inr hm

/-- One call. -/
theorem step_s {C : Cfg α κ} (hC : CfgOk C) (H : Addrs) {s : STbl α} {l : List α} (h : SSim C s l) (n : Nat) (op : Op α κ)
    (hv : op.Valid C.key) :
    ∃ s' n', s.step C H n op = .ok (s', n', (Spec.step C.key C.eqv l op).2) ∧ SSim C s' (Spec.step C.key C.eqv l op).1 := by
  have hK := cfg_ok hC s.addr
  have plain : ∀ op : Op α κ, op.Valid C.key → (s.step C H n op = (do
      let (t, r) ← s.tbl.step (cfg C s.addr) op
      .ok ({ s with tbl := t }, n, r) : Res (STbl α × Nat × Resp α))) →
      ∃ s' n', s.step C H n op = .ok (s', n', (Spec.step C.key C.eqv l op).2) ∧ SSim C s' (Spec.step C.key C.eqv l op).1 := by
    intro op hv he
    obtain ⟨t', h1, h2⟩ := step_sim hK h op hv
    refine ⟨⟨s.addr, t'⟩, n, ?_, h2⟩
    rw [he, h1]; rfl
  have hd := h.distinct hK
  cases op with
  | insert a =>
    rcases emplace_s hC H h n a with ⟨i, b, h1, h2, h3, h4, h5⟩ | ⟨s', i, n', h1, h2, h3, h4, _⟩
    · refine ⟨s, n, ?_, ?_⟩ <;> simp only [STbl.step, Spec.step, h1, h5, Res.ok_bind, readSlot_ok' h2]
      exact h
    · refine ⟨s', n', ?_, ?_⟩ <;> simp only [STbl.step, Spec.step, h1, h4, Res.ok_bind, readSlot_ok' h2]
      exact h3
  | insertOrAssign a f =>
    rcases find_s hC h (C.key a) with ⟨i, b, h1, h2, h3, h4, h5⟩ | ⟨h1, h2, h3⟩
    · obtain ⟨t', g1, g2, g3⟩ := assignAt_sim hK h h2 h4 hv
      have : s.insertOrAssign C H n a f = .ok (⟨s.addr, t'⟩, i, false, n) := by
        unfold insertOrAssign; dsimp only
        rw [h1]; simp only [Res.ok_bind, g1]
      refine ⟨⟨s.addr, t'⟩, n, ?_, ?_⟩ <;> simp only [STbl.step, Spec.step, this, h5, Res.ok_bind, readSlot_ok' g2]
      exact g3
    · obtain ⟨s1, i, n', s3, g1, g2, g3, g4⟩ := insertNew_sim hC H h n a h2
      have : s.insertOrAssign C H n a f = .ok (s3, i, true, n') := by
        unfold insertOrAssign; dsimp only
        rw [h1]; simp only [Res.ok_bind]
        rw [g1]; simp only [Res.ok_bind]
        rw [g2]; rfl
      refine ⟨s3, n', ?_, ?_⟩ <;> simp only [STbl.step, Spec.step, this, h3, Res.ok_bind, readSlot_ok' g4]
      exact g3
  | subscript a f =>
    rcases emplace_s hC H h n a with ⟨i, b, h1, h2, h3, h4, h5⟩ | ⟨s', i, n', h1, h2, h3, h4, _⟩
    · obtain ⟨t', g1, g2, g3⟩ := assignAt_sim hK h h2 h4 hv
      refine ⟨⟨s.addr, t'⟩, n, ?_, ?_⟩ <;>
        simp only [STbl.step, Spec.step, h1, h5, Res.ok_bind, readSlot_ok' h2, g1]
      exact g3
    · obtain ⟨t'', g1, g2, g3⟩ := assignAt_sim (cfg_ok hC s'.addr) h3 h2 (hC.refl (C.key a)) hv
      refine ⟨⟨s'.addr, t''⟩, n', ?_, ?_⟩ <;>
        simp only [STbl.step, Spec.step, h1, h4, Res.ok_bind, readSlot_ok' h2, g1]
      have : Spec.modify C.key C.eqv (a :: l) (C.key a) f = f a :: l := by
        have := modify_other (f := f) (lookup_none.1 h4)
        unfold Spec.modify at this ⊢
        rw [List.map_cons, this, if_pos (hC.refl _)]
      have g3' : Sim (cfg C s'.addr) t'' (Spec.modify C.key C.eqv (a :: l) (C.key a) f) := g3
      rw [this] at g3'
      exact g3'
  | insertNode node =>
    cases node with
    | none => exact ⟨s, n, rfl, h⟩
    | some a =>
      rcases emplace_s hC H h n a with ⟨i, b, h1, h2, h3, h4, h5⟩ | ⟨s', i, n', h1, h2, h3, h4, _⟩
      · refine ⟨s, n, ?_, ?_⟩ <;>
          simp only [STbl.step, STbl.insertNode, Spec.step, h1, h5, Res.ok_bind, readSlot_ok' h2]
        · rfl
        · exact h
      · refine ⟨s', n', ?_, ?_⟩ <;>
          simp only [STbl.step, STbl.insertNode, Spec.step, h1, h4, Res.ok_bind, readSlot_ok' h2]
        · rfl
        · exact h3
  | toggle a =>
    rcases find_s hC h (C.key a) with ⟨i, b, h1, h2, h3, h4, h5⟩ | ⟨h1, h2, h3⟩
    · obtain ⟨⟨c, hi⟩, hp⟩ := h
      obtain ⟨t', c', g1, g2, g3, _⟩ := eraseAt_spec hK hi h2
      have : s.emplaceSingle C H n a = .ok (⟨s.addr, t'⟩, n) := by
        unfold emplaceSingle; dsimp only
        rw [h1]; simp only [Res.ok_bind, g1]
      refine ⟨⟨s.addr, t'⟩, n, ?_, ?_⟩ <;> simp only [STbl.step, Spec.step, this, h5, Res.ok_bind]
      exact ⟨⟨c', g2⟩, (erase_some hK hd (hp.symm.trans g3) h4).symm⟩
    · obtain ⟨s1, i, n', s3, g1, g2, g3, g4⟩ := insertNew_sim hC H h n a h2
      have : s.emplaceSingle C H n a = .ok (s3, n') := by
        unfold emplaceSingle; dsimp only
        rw [h1]; simp only [Res.ok_bind]
        rw [g1]; simp only [Res.ok_bind]
        rw [g2]; rfl
      refine ⟨s3, n', ?_, ?_⟩ <;> simp only [STbl.step, Spec.step, this, h3, Res.ok_bind]
      exact g3
  | insertRange vs =>
    obtain ⟨s1, n1, h1, h2⟩ := reserve_s hC H h n (m := s.tbl.size + vs.length) (by omega)
    obtain ⟨s2, n2, h3, h4⟩ := insertAll_s hC H vs s1 l n1 h2
    have : s.insertRange C H n vs = .ok (s2, n2) := by
      unfold insertRange; rw [h1]; exact h3
    exact ⟨s2, n2, by simp only [STbl.step, Spec.step, this, Res.ok_bind], h4⟩
  | reserve m =>
    obtain ⟨s', n', h1, h2⟩ := reserve_s hC H h n (m := m) (.inl hv)
    exact ⟨s', n', by simp only [STbl.step, Spec.step, h1, Res.ok_bind], h2⟩
  | rehash m =>
    obtain ⟨s', n', h1, h2⟩ := rehash_s hC H h n (m := m) (.inl hv)
    exact ⟨s', n', by simp only [STbl.step, Spec.step, h1, Res.ok_bind], h2⟩
  | _ => exact plain _ hv rfl

/-! ### Copies, merge, comparison -/

theorem iterate_s {C : Cfg α κ} (hC : CfgOk C) {s : STbl α} {c : List Ctrl} (h : Core (cfg C s.addr) s.tbl c) :
    s.tbl.iterate C = .ok (elems s.tbl) := by
  have := iterate_spec (cfg_ok hC s.addr).group h
  rw [show cfg C s.addr = C.using (cfg C s.addr).hash from rfl, iterate_using] at this
  exact this

theorem copy_s {C : Cfg α κ} (hC : CfgOk C) (H : Addrs) {s : STbl α} {l : List α} (h : SSim C s l) (n : Nat) :
    ∃ s' n', s.copy C H n = .ok (s', n') ∧ SSim C s' l := by
  obtain ⟨⟨c, hi⟩, hp⟩ := id h
  have hgr := hi.growth
  have hw : (cfg C s.addr).G.W = C.G.W := rfl
  rw [hw] at hgr
  -- the storage of the copy
  have start : ∃ addr n' t0 c0, (empty H : STbl α).rehash C H n s.tbl.capacity = .ok (⟨addr, t0⟩, n') ∧
      Core (cfg C addr) t0 c0 ∧ elems t0 = [] ∧ t0.capacity = s.tbl.capacity ∧
      t0.growthLeft = capacityToGrowth C.G.W s.tbl.capacity ∧ kDeleted ∉ c0 := by
    have key : ∀ addr, ∃ t0 c0, (Tbl.empty : Tbl α).rehash (cfg C addr) s.tbl.capacity = .ok t0 ∧ Core (cfg C addr) t0 c0 ∧
        elems t0 = [] ∧ t0.capacity = s.tbl.capacity ∧ t0.growthLeft = capacityToGrowth C.G.W s.tbl.capacity ∧ kDeleted ∉ c0 := by
      intro addr
      have hi' : Inv { cfg C addr with hash := (cfg C s.addr).hash } s.tbl c := hi
      exact copy_start (cfg_ok hC addr) hi'
    by_cases hc0 : s.tbl.capacity = 0
    · obtain ⟨t0, c0, k1, k2⟩ := key H.none
      unfold Tbl.rehash at k1
      rw [if_pos ⟨hc0, rfl⟩] at k1
      cases k1
      refine ⟨H.none, n, _, c0, ?_, k2⟩
      unfold rehash
      rw [if_pos ⟨hc0, rfl⟩]; rfl
    · obtain ⟨t0, c0, k1, k2⟩ := key (H.fresh n)
      unfold Tbl.rehash at k1
      rw [if_neg (by omega), if_neg (by omega)] at k1
      have hself : normalizeCapacity (max s.tbl.capacity (Tbl.empty : Tbl α).size) = s.tbl.capacity := by
        show normalizeCapacity (max s.tbl.capacity 0) = _
        rw [Nat.max_zero]; exact normalizeCapacity_self hi.core.raw.pow hc0
      dsimp only at k1
      rw [hself, if_pos (.inr (by show s.tbl.capacity > 0; omega))] at k1
      refine ⟨H.fresh n, n + 1, t0, c0, ?_, k2⟩
      unfold rehash
      rw [if_neg (by omega), if_neg (by omega)]
      dsimp only
      rw [show normalizeCapacity (max s.tbl.capacity (empty H : STbl α).tbl.size) = s.tbl.capacity from hself,
        if_pos (.inr (by show s.tbl.capacity > 0; omega))]
      unfold resize
      rw [show (empty H : STbl α).tbl = Tbl.empty from rfl, k1]; rfl
  obtain ⟨addr, n', t0, c0, z1, z2, z3, z4, z5, z6⟩ := start
  have hi' : Inv { cfg C addr with hash := (cfg C s.addr).hash } s.tbl c := hi
  obtain ⟨t, f1, cs, p1, p2, p3, p4, p5⟩ := foldlM_list (P := CopyP (cfg C addr) s.tbl) (elems s.tbl) (s := t0)
    ⟨c0, z2, z4, z5, z6, by simp [z3]⟩ (copy_step (cfg_ok hC addr) hi')
  rw [List.append_nil] at p5
  have hle : s.tbl.size ≤ t.growthLeft := by
    have : t.growthLeft = capacityToGrowth C.G.W s.tbl.capacity := p3
    omega
  refine ⟨⟨addr, { t with size := s.tbl.size, growthLeft := usub t.growthLeft s.tbl.size }⟩, n', ?_,
    ⟨cs, ⟨p1.congr rfl rfl rfl, ?_, ?_, fun _ => p4⟩⟩, p5.trans hp⟩
  · unfold copy
    rw [z1]
    simp only [Res.ok_bind]
    rw [iterate_s hC hi.core]
    simp only [Res.ok_bind]
    have f1' : (elems s.tbl).foldlM (fun t v => do
        let target ← t.findFirstNonFull (cfg C addr) (salted addr (C.hash (C.key v)))
        let t ← t.setCtrl C.G.W target (H2 (C.hash (C.key v)))
        t.constructSlot target v) t0 = .ok t := by
      rw [← f1]
      congr 1
      funext t v
      rw [show H2 ((cfg C addr).hash ((cfg C addr).key v)) = H2 (C.hash (C.key v)) from H2_salted _ _]
      rfl
    rw [f1']
    simp only [Res.ok_bind]
  · show s.tbl.size = (elems t).length
    rw [p5.length_eq, hi.size_eq]
  · have : t.growthLeft = capacityToGrowth C.G.W s.tbl.capacity := p3
    show usub t.growthLeft s.tbl.size + s.tbl.size + cs.count kDeleted = capacityToGrowth C.G.W t.capacity
    rw [usub_of_le hle, p2, List.count_eq_zero.2 p4]; omega

theorem equal_s [BEq α] [LawfulBEq α] {C : Cfg α κ} (hC : CfgOk C) {a b : STbl α} {l m : List α} (ha : SSim C a l)
    (hb : SSim C b m) : equal C a b = .ok (l.isPerm m) := by
  unfold equal
  by_cases hs : a.tbl.size = b.tbl.size
  swap
  · rw [if_pos hs]
    congr 1
    symm
    rw [Bool.eq_false_iff, Ne, List.isPerm_iff]
    intro hp
    exact hs (by rw [ha.size, hb.size, hp.length_eq])
  rw [if_neg (by simpa using hs)]
  have key : ∀ (o i : STbl α) (u v : List α), SSim C o u → SSim C i v → i.tbl.size = o.tbl.size →
      (do
        let vs ← o.tbl.iterate C
        Tbl.allIn (cfg C i.addr) (· == ·) i.tbl vs : Res Bool) = .ok (v.isPerm u) := by
    intro o i u v ho hi hsz
    obtain ⟨⟨c, h1⟩, h2⟩ := id ho
    rw [iterate_s hC h1.core]
    simp only [Res.ok_bind]
    exact allIn_perm (h' := (cfg C o.addr).hash) (cfg_ok hC i.addr) (cfg_ok hC o.addr) hi ho hsz h2
  have hcomm : l.isPerm m = m.isPerm l := by
    rw [Bool.eq_iff_iff, List.isPerm_iff, List.isPerm_iff]
    exact ⟨List.Perm.symm, List.Perm.symm⟩
  by_cases hcap : a.tbl.capacity > b.tbl.capacity
  · simp only [if_pos hcap]
    exact key b a m l hb ha hs
  · simp only [if_neg hcap]
    rw [hcomm]
    exact key a b l m ha hb hs.symm

theorem mergeLoop_s {C : Cfg α κ} (hC : CfgOk C) (H : Addrs) (dst0 : List α) : ∀ fuel (dst src : STbl α) (l : List α) (cs : List Ctrl) p n,
    SSim C dst l → Inv (cfg C src.addr) src.tbl cs →
    p ≤ src.tbl.capacity → src.tbl.capacity - p < fuel → (p < src.tbl.capacity → ∃ a, src.tbl.slots[p]? = some (some a)) →
    (∀ a ∈ (src.tbl.slots.drop p).filterMap id, ∀ b ∈ l, C.eqv (C.key b) (C.key a) = true →
      ∃ b ∈ dst0, C.eqv (C.key b) (C.key a) = true) →
    (∀ b ∈ dst0, b ∈ l) →
    ∃ dst' src' cs' n', mergeLoop C H fuel (dst, src) p n = .ok (dst', src', n') ∧
      SSim C dst' (l ++ ((src.tbl.slots.drop p).filterMap id).filter
        (fun a => !dst0.any (fun b => C.eqv (C.key b) (C.key a)))) ∧
      Inv (cfg C src'.addr) src'.tbl cs' ∧
      List.Perm (elems src'.tbl) ((src.tbl.slots.take p).filterMap id ++ ((src.tbl.slots.drop p).filterMap id).filter
        (fun a => dst0.any (fun b => C.eqv (C.key b) (C.key a)))) := by
  intro fuel
  induction fuel with
  | zero => intro dst src l cs p n _ _ _ h; omega
  | succ fuel ih =>
    intro dst src l cs p n hd hs hp hf hfull hfresh hsub
    have hC' := cfg_ok hC src.addr
    have hnext : ∀ t p, Tbl.next (cfg C src.addr) t p = (Tbl.next C t p : Res Nat) := fun (t : Tbl α) p => next_using C _ t p
    unfold mergeLoop
    by_cases hpc : p = src.tbl.capacity
    · rw [if_pos hpc, hpc, ← hs.core.sync.slen, List.drop_length, List.take_length]
      exact ⟨dst, src, cs, n, rfl, by simpa using hd, hs, by simp [elems]⟩
    rw [if_neg hpc]
    have hlt : p < src.tbl.capacity := by omega
    obtain ⟨a, ha⟩ := hfull hlt
    have hsl : p < src.tbl.slots.length := by rw [hs.core.sync.slen]; exact hlt
    rw [readSlot_ok ha]
    simp only [Res.ok_bind]
    have hdrop0 := drop_filterMap_some ha
    -- the rest of the source after p
    have hdist : Distinct C (elems src.tbl) := hs.core.distinct
    have hafter : ∀ b ∈ (src.tbl.slots.drop (p + 1)).filterMap id, C.eqv (C.key a) (C.key b) = false := by
      intro b hb
      have h1 : elems src.tbl = (src.tbl.slots.take p).filterMap id ++ (a :: (src.tbl.slots.drop (p + 1)).filterMap id) := by
        rw [← hdrop0, ← List.filterMap_append, List.take_append_drop]; rfl
      unfold Distinct at hdist
      rw [h1, List.pairwise_append] at hdist
      exact (List.pairwise_cons.1 hdist.2.1).1 b hb
    have htake : ∀ (s : List (Option α)) q o, s[p]? = some o → p < q → (∀ j : Nat, p < j → j < q → s[j]? = some none) →
        (s.take q).filterMap id = (s.take p).filterMap id ++ [o].filterMap id := by
      intro s q o ho hpq hsn
      have e1 : s.take q = s.take (p + 1) ++ (s.drop (p + 1)).take (q - (p + 1)) := by
        rw [← List.take_add]; congr 1; omega
      have e2 : ((s.drop (p + 1)).take (q - (p + 1))).filterMap id = [] := by
        rw [List.filterMap_eq_nil_iff]
        intro x hx
        rw [List.mem_iff_getElem?] at hx
        obtain ⟨j, hj⟩ := hx
        have hjl : j < q - (p + 1) := by
          by_contra hcon
          rw [List.getElem?_take, if_neg hcon] at hj; cases hj
        rw [List.getElem?_take, if_pos hjl, List.getElem?_drop, hsn _ (by omega) (by omega)] at hj
        cases hj; rfl
      rw [e1, List.filterMap_append, e2, List.append_nil, List.take_add_one, ho, List.filterMap_append]
      rfl
    rcases emplace_s hC H hd n a with ⟨i, b, m1, m2, m3, m4, _⟩ | ⟨dst', i, n', m1, m2, m3, _, m0⟩
    · -- already in the destination: stays in the source
      rw [m1]
      simp only [Res.ok_bind, Bool.false_eq_true, if_false]
      obtain ⟨q, n1, n2, n3, n4, n5⟩ := next_spec hC'.group hs.core hlt
      rw [hnext] at n1
      rw [n1]
      simp only [Res.ok_bind]
      have hdq : (src.tbl.slots.drop (p + 1)).filterMap id = (src.tbl.slots.drop q).filterMap id :=
        drop_filterMap_none (by omega) (fun j h1 h2 => n4 j (by omega) h2)
      have hin : dst0.any (fun b => C.eqv (C.key b) (C.key a)) = true := by
        obtain ⟨b', hb', he'⟩ := hfresh a (by rw [hdrop0]; simp) b m3 m4
        rw [List.any_eq_true]; exact ⟨b', hb', he'⟩
      obtain ⟨dst2, src2, cs2, n2', r1, r2, r3, r5⟩ := ih dst src l cs q n hd hs n3 (by omega) n5
        (fun x hx => hfresh x (by rw [hdrop0, hdq]; exact List.mem_cons_of_mem _ hx)) hsub
      refine ⟨dst2, src2, cs2, n2', r1, ?_, r3, ?_⟩
      · rw [hdrop0, hdq, List.filter_cons, hin]
        simpa using r2
      · rw [hdrop0, hdq, List.filter_cons, hin]
        rw [htake src.tbl.slots q (some a) ha n2 n4] at r5
        simpa using r5
    · -- moves to the destination
      rw [m1]
      simp only [Res.ok_bind, if_true]
      rw [destroySlot_ok ha]
      simp only [Res.ok_bind]
      obtain ⟨src1, cs1, e1, e2, e3, e4, e5, e6⟩ := eraseMeta_spec hC' hs ha
      rw [show cfg C src.addr = C.using (cfg C src.addr).hash from rfl, eraseMetaOnly_using] at e1
      rw [e1]
      simp only [Res.ok_bind]
      obtain ⟨q, n1, n2, n3, n4, n5⟩ := next_spec hC'.group e2.core (show p < src1.capacity by omega)
      rw [hnext] at n1
      rw [n1]
      simp only [Res.ok_bind]
      have hd1 : src1.slots.drop (p + 1) = src.tbl.slots.drop (p + 1) := by rw [e5]; exact (set_take_drop hsl).2
      have hdq : (src.tbl.slots.drop (p + 1)).filterMap id = (src1.slots.drop q).filterMap id := by
        rw [← hd1]
        exact drop_filterMap_none (by omega) (fun j h1 h2 => n4 j (by omega) h2)
      have hin : dst0.any (fun b => C.eqv (C.key b) (C.key a)) = false := by
        rw [List.any_eq_false]
        intro b hb
        rw [m0 b (hsub b hb)]; simp
      obtain ⟨dst2, src2, cs2, n2', r1, r2, r3, r5⟩ := ih dst' ⟨src.addr, src1⟩ (a :: l) cs1 q n' m3 e2 n3
        (by show src1.capacity - q < fuel; omega) n5
        (by
          intro x hx b hb hbe
          rw [← hdq] at hx
          rcases List.mem_cons.1 hb with rfl | hbm
          · rw [hafter x hx] at hbe; cases hbe
          · exact hfresh x (by rw [hdrop0]; exact List.mem_cons_of_mem _ hx) b hbm hbe)
        (fun b hb => List.mem_cons_of_mem _ (hsub b hb))
      dsimp only at r2 r5
      refine ⟨dst2, src2, cs2, n2', r1, ?_, r3, ?_⟩
      · rw [hdrop0, hdq, List.filter_cons, hin]
        simp only [Bool.not_false, if_true]
        exact Sim.perm r2 (by rw [List.cons_append]; exact List.perm_middle.symm)
      · rw [hdrop0, hdq, List.filter_cons, hin]
        rw [htake src1.slots q none (by rw [e5, List.getElem?_set, if_pos rfl, if_pos hsl]) n2 n4, e5,
          (set_take_drop hsl).1, ← e5] at r5
        simpa using r5

theorem merge_s {C : Cfg α κ} (hC : CfgOk C) (H : Addrs) {dst src : STbl α} {l m : List α} (hd : SSim C dst l) (hs : SSim C src m) (n : Nat) :
    ∃ dst' src' n', dst.merge C H src n = .ok (dst', src', n') ∧
      SSim C dst' (l ++ m.filter (fun a => !l.any (fun b => C.eqv (C.key b) (C.key a)))) ∧
      SSim C src' (m.filter (fun a => l.any (fun b => C.eqv (C.key b) (C.key a)))) := by
  obtain ⟨⟨cs, hj⟩, hq⟩ := hs
  have hC' := cfg_ok hC src.addr
  obtain ⟨q, b1, b2, b3, b4⟩ := begin_spec hC'.group hj.core
  rw [show cfg C src.addr = C.using (cfg C src.addr).hash from rfl, begin_using] at b1
  have e1 : (src.tbl.slots.take q).filterMap id = [] := by
    rw [List.filterMap_eq_nil_iff]
    intro x hx
    rw [List.mem_iff_getElem?] at hx
    obtain ⟨j, hj⟩ := hx
    have hjl : j < q := by
      by_contra hcon
      rw [List.getElem?_take, if_neg hcon] at hj; cases hj
    rw [List.getElem?_take, if_pos hjl, b3 _ hjl] at hj
    cases hj; rfl
  have e2 : (src.tbl.slots.drop q).filterMap id = elems src.tbl := by
    have := drop_filterMap_none (s := src.tbl.slots) (p := 0) (q := q) (by omega) (fun j _ hj => b3 j hj)
    rw [← this]; rfl
  obtain ⟨dst', src', cs', n', r1, r2, r3, r5⟩ := mergeLoop_s hC H l src.tbl.fuel dst src l cs q n hd hj b2
    (by unfold fuel; omega) b4 (fun a _ b hb he => ⟨b, hb, he⟩) (fun b hb => hb)
  rw [e2] at r2 r5
  rw [e1, List.nil_append] at r5
  refine ⟨dst', src', n', ?_, r2.perm ((hq.filter _).append_left _), ⟨cs', r3⟩, r5.trans (hq.filter _)⟩
  unfold merge
  rw [b1]
  simp only [Res.ok_bind]
  exact r1

/-! ### Histories -/

/-- Every container of the family simulates its specification. -/
def WSSim (C : Cfg α κ) (w : Nat → STbl α) (m : Nat → List α) : Prop := ∀ i, SSim C (w i) (m i)

theorem WSSim.put {C : Cfg α κ} {w : Nat → STbl α} {m : Nat → List α} (h : WSSim C w m) (i : Nat) {s : STbl α} {l : List α}
    (hs : SSim C s l) : WSSim C (put w i s) (put m i l) := by
  intro j
  unfold Spec.put
  by_cases hj : j = i
  · simp only [hj, if_true]; exact hs
  · simp only [hj, if_false]; exact h j

theorem make_s {C : Cfg α κ} (hC : CfgOk C) (H : Addrs) (n m : Nat) : SSim C (make C H n m).1 [] := by
  unfold make
  split
  · exact sim_empty C hC H
  · obtain ⟨c, h1, h2⟩ := withBuckets_inv (C := cfg C (H.fresh n)) hC.group m
    exact ⟨⟨c, h1⟩, by rw [show elems (withBuckets C m : Tbl α) = [] from h2]⟩

theorem wstep_s [BEq α] [LawfulBEq α] {C : Cfg α κ} (hC : CfgOk C) (H : Addrs) {w : Nat → STbl α} {m : Nat → List α}
    (h : WSSim C w m) (n : Nat) (op : WOp α κ) (hv : op.Valid C.key) :
    ∃ w' n', wstep C H w n op = .ok (w', n', (Spec.wstep C.key C.eqv m op).2) ∧ WSSim C w' (Spec.wstep C.key C.eqv m op).1 := by
  cases op with
  | on i op =>
    obtain ⟨s', n', h1, h2⟩ := step_s hC H (h i) n op hv
    exact ⟨put w i s', n', by simp only [STbl.wstep, Spec.wstep, h1, Res.ok_bind], h.put i h2⟩
  | create i k =>
    obtain ⟨u, hu⟩ := destroySlots_s hC H (h i)
    refine ⟨put w i (make C H n k).1, (make C H n k).2, ?_, h.put i (make_s hC H n k)⟩
    simp only [STbl.wstep, STbl.moveAssign, STbl.move, STbl.swap, Spec.wstep, hu, Res.ok_bind]
  | copy i j =>
    obtain ⟨u, hu⟩ := destroySlots_s hC H (h i)
    obtain ⟨s', n', h1, h2⟩ := copy_s hC H (h j) n
    refine ⟨put w i s', n', ?_, h.put i h2⟩
    simp only [STbl.wstep, STbl.copyAssign, STbl.swap, Spec.wstep, h1, hu, Res.ok_bind]
  | move i j =>
    obtain ⟨u, hu⟩ := destroySlots_s hC H (h i)
    by_cases hij : i = j
    · subst hij
      refine ⟨put w i (w i), n, ?_, ?_⟩
      · obtain ⟨v, hv⟩ := destroySlots_s hC H (sim_empty C hC H)
        simp only [STbl.wstep, STbl.move, STbl.swap, Spec.wstep, if_true, hv, Res.ok_bind]
      · have : Spec.put (Spec.put m i []) i (m i) = Spec.put m i (m i) := by
          funext j; unfold Spec.put; by_cases hj : j = i <;> simp [hj]
        simp only [Spec.wstep, this]
        exact h.put i (h i)
    · refine ⟨put (put w j (empty H)) i (w j), n, ?_, (h.put j (sim_empty C hC H)).put i (h j)⟩
      simp only [STbl.wstep, STbl.moveAssign, STbl.move, STbl.swap, Spec.wstep, if_neg hij, hu, Res.ok_bind]
  | swap i j => exact ⟨_, n, rfl, (h.put i (h j)).put j (h i)⟩
  | merge i j =>
    obtain ⟨s', u', n', h1, h2, h3⟩ := merge_s hC H (h i) (h j) n
    refine ⟨put (put w i s') j u', n', ?_, (h.put i h2).put j h3⟩
    simp only [STbl.wstep, Spec.wstep, h1, Res.ok_bind]
  | equal i j =>
    refine ⟨w, n, ?_, h⟩
    simp only [STbl.wstep, Spec.wstep, equal_s hC (h i) (h j), Res.ok_bind]

theorem wrun_s [BEq α] [LawfulBEq α] {C : Cfg α κ} (hC : CfgOk C) (H : Addrs) : ∀ (ops : List (WOp α κ)) {w : Nat → STbl α} {m : Nat → List α} (n : Nat),
    WSSim C w m → (∀ op ∈ ops, op.Valid C.key) →
    ∃ w' n', wrun C H w n ops = .ok (w', n', (Spec.wrun C.key C.eqv m ops).2) ∧ WSSim C w' (Spec.wrun C.key C.eqv m ops).1
  | [], w, m, n, h, _ => ⟨w, n, rfl, h⟩
  | op :: ops, w, m, n, h, hv => by
    obtain ⟨w1, n1, h1, h2⟩ := wstep_s hC H h n op (hv op List.mem_cons_self)
    obtain ⟨w2, n2, h3, h4⟩ := wrun_s hC H ops n1 h2 (fun o ho => hv o (List.mem_cons_of_mem _ ho))
    refine ⟨w2, n2, ?_, h4⟩
    simp only [STbl.wrun, Spec.wrun, h1, h3, Res.ok_bind]

end STbl
end Gtl.Swiss
