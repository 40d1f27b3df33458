import Verif.Swiss.Throw
/-!
# Further facts used by the property theorems: erase by iterator, probe length, growth after `reserve`
-/

namespace Gtl.Swiss

open Tbl
open Gtl.Spec (Op WOp Resp put)

variable {α κ : Type}

/-! ### Iterators -/

/-- Reading a slot succeeds only on constructed slots. -/
theorem readSlot_inv {t : Tbl α} {p : Nat} {a : α} (h : t.readSlot p = .ok a) : t.slots[p]? = some (some a) := by
  unfold readSlot at h
  split at h
  · rename_i b hb; cases h; exact hb
  · cases h

/-- What is left to visit from a position. -/
theorem collect_at {C : Cfg α κ} (hG : GroupSpec C.G) {t : Tbl α} {c : List Ctrl} (h : Core C t c) {p : Nat}
    (hp : p ≤ t.capacity) (hf : p < t.capacity → ∃ a, t.slots[p]? = some (some a)) :
    t.collect C t.fuel p = .ok ((t.slots.drop p).filterMap id) :=
  collect_spec hG h t.fuel p hp (by unfold Tbl.fuel; omega) hf

/-- `erase(it)`: the element goes, the order of the others is kept and the returned iterator continues the walk. -/
theorem eraseIt_spec {C : Cfg α κ} (hC : CfgOk C) {t : Tbl α} {c : List Ctrl} (h : Inv C t c) {p : Nat} {a : α}
    (hs : t.slots[p]? = some (some a)) :
    ∃ t' c' q l1 l2, t.eraseIt C p = .ok (t', q) ∧ Inv C t' c' ∧ t.iterate C = .ok (l1 ++ a :: l2) ∧
      t.collect C t.fuel p = .ok (a :: l2) ∧
      t'.iterate C = .ok (l1 ++ l2) ∧ t'.collect C t'.fuel q = .ok l2 ∧ t'.capacity = t.capacity := by
  have hp := h.core.lt hs
  obtain ⟨q, n1, n2, n3, n4, n5⟩ := next_spec hC.group h.core hp
  obtain ⟨t', c', e1, e2, e3, e4, e5, e6⟩ := eraseAt_spec hC h hs
  have hsl : p < t.slots.length := by rw [h.core.sync.slen]; exact hp
  obtain ⟨s1, s2⟩ := set_take_drop (x := (none : Option α)) hsl
  have hdrop : (t.slots.drop p).filterMap id = a :: (t.slots.drop (p + 1)).filterMap id := drop_filterMap_some hs
  have hall : elems t = (t.slots.take p).filterMap id ++ a :: (t.slots.drop (p + 1)).filterMap id := by
    unfold elems
    conv_lhs => rw [← List.take_append_drop p t.slots]
    rw [List.filterMap_append, hdrop]
  have hnone : (t'.slots)[p]? = some none := by
    rw [e5, List.getElem?_set, if_pos rfl, if_pos hsl]
  have hall' : elems t' = (t.slots.take p).filterMap id ++ (t.slots.drop (p + 1)).filterMap id := by
    unfold elems
    conv_lhs => rw [← List.take_append_drop p t'.slots]
    rw [List.filterMap_append]
    congr 1
    · rw [e5, s1]
    · rw [drop_filterMap_none (p := p) (q := p + 1) (by omega) (by
        intro j h1 h2
        have : j = p := by omega
        subst this; exact hnone), e5, s2]
  have hqd : (t'.slots.drop q).filterMap id = (t.slots.drop (p + 1)).filterMap id := by
    rw [drop_filterMap_none (s := t.slots) (p := p + 1) (q := q) (by omega) (fun j h1 h2 => n4 j (by omega) h2), e5]
    congr 1
    rw [List.drop_set_of_lt (by omega)]
  refine ⟨t', c', q, (t.slots.take p).filterMap id, (t.slots.drop (p + 1)).filterMap id, ?_, e2, ?_, ?_, ?_, ?_, e4⟩
  · unfold Tbl.eraseIt; rw [n1]; simp only [Res.ok_bind, e1]
  · rw [iterate_spec hC.group h.core, hall]
  · rw [collect_at hC.group h.core (by omega) (fun _ => ⟨a, hs⟩), hdrop]
  · rw [iterate_spec hC.group e2.core, hall']
  · rw [collect_at hC.group e2.core (by omega) (by
      intro hq
      obtain ⟨b, hb⟩ := n5 (by omega)
      refine ⟨b, ?_⟩
      rw [e5, List.getElem?_set, if_neg (by omega)]; exact hb), hqd]

/-! ### Probe length -/

theorem cover_empty_bound {W cap hash : Nat} {c : List Ctrl} (hW : W = 8 ∨ W = 16) (hp : ∃ k, cap + 1 = 2 ^ k)
    (hl : c.length = cap) (h : kEmpty ∈ c ∨ cap + 1 < W) :
    ∃ n < (cap + W) / W, WinHas (· = kEmpty) W c cap hash n := by
  have hWpos : 0 < W := by omega
  obtain ⟨k, hk⟩ := hp
  rcases width_cases hW ⟨k, hk⟩ with ⟨h1, h2⟩ | ⟨h1, h2⟩
  · have he : kEmpty ∈ c := by rcases h with h | h; exact h; omega
    obtain ⟨i, hi, hci⟩ := List.getElem_of_mem he
    rw [hl] at hi
    obtain ⟨w, _, hw⟩ := width_pow hW
    obtain ⟨n, j, n1, n2, n3⟩ := off_cover hk hw h1 hash i (by omega)
    obtain ⟨j', j1, j2, j3⟩ := inWin_lay (c := c) hW ⟨k, hk⟩ (off_le W cap hash n) hi ⟨j, n2, n3⟩
    refine ⟨n, ?_, j', j1, ?_⟩
    · rw [Nat.lt_div_iff_mul_lt hWpos]
      obtain ⟨q, hq⟩ := h2
      have : n < q := by
        rw [hq, Nat.mul_comm] at n1
        exact Nat.lt_of_mul_lt_mul_left n1
      have : W * (n + 1) ≤ W * q := Nat.mul_le_mul_left _ this
      rw [Nat.mul_add] at this
      omega
    · show lay c cap (off W cap hash n + j') = kEmpty
      rw [j3]
      apply getD_eq_of
      rw [List.getElem?_eq_getElem (by omega), hci]
  · refine ⟨0, ?_, ?_⟩
    · apply Nat.div_pos <;> omega
    · exact small_has_empty h1 (off_le _ _ _ _)

/-- `find` needs at most `⌈(capacity + 1) / W⌉` groups. -/
theorem find_bound {C : Cfg α κ} (hC : CfgOk C) {t : Tbl α} {c : List Ctrl} (h : Inv C t c) (pred : α → Bool) (hash : Nat) :
    ∃ r, t.probeFind C pred (H2 hash) ((t.capacity + C.G.W) / C.G.W) (Probe.start hash t.capacity) = .ok r := by
  obtain ⟨n, hn, hw⟩ := cover_empty_bound (hash := hash) hC.group.width h.core.raw.pow h.core.raw.len (h.has_empty hC)
  obtain ⟨k, hk⟩ := h.core.raw.pow
  obtain ⟨r, h1, _⟩ := probeFind_spec hC.group h.core.raw h.core.sync pred hash n hw ((t.capacity + C.G.W) / C.G.W) 0 (by omega) (by omega)
  exact ⟨r, by rw [probe_start hk C.G.W]; exact h1⟩

/-- More iterations do not change a finished search. -/
theorem probeFind_mono {C : Cfg α κ} {t : Tbl α} {pred : α → Bool} {h2 : Ctrl} {r : Option Nat} :
    ∀ {n : Nat} {p : Probe}, t.probeFind C pred h2 n p = .ok r → ∀ m, n ≤ m → t.probeFind C pred h2 m p = .ok r := by
  intro n
  induction n with
  | zero => intro p h; cases h
  | succ n ih =>
    intro p h m hm
    obtain ⟨m, rfl⟩ : ∃ m', m = m' + 1 := ⟨m - 1, by omega⟩
    unfold Tbl.probeFind at h ⊢
    obtain ⟨g, h1, h2'⟩ := Res.bind_eq_ok.1 h
    rw [h1]
    simp only [Res.ok_bind]
    obtain ⟨o, h3, h4⟩ := Res.bind_eq_ok.1 h2'
    rw [h3]
    simp only [Res.ok_bind]
    cases o with
    | some off => exact h4
    | none =>
      simp only at h4 ⊢
      split at h4
      · rename_i he; rw [if_pos he]; exact h4
      · rename_i he; rw [if_neg he]; exact ih h4 m (by omega)

/-! ### Growth -/

/-- `t'` still stores in the same slot everything that `t` stores, and has the same allocation. -/
def SameAlloc (t t' : Tbl α) : Prop :=
  t'.capacity = t.capacity ∧ ∀ (i : Nat) (a : α), t.slots[i]? = some (some a) → t'.slots[i]? = some (some a)

theorem emplace_grow {C : Cfg α κ} (hC : CfgOk C) {t : Tbl α} {l : List α} (h : Sim C t l) (hT : NoTomb C t) (a : α) :
    ∃ t' i ins l', t.emplace C a = .ok (t', i, ins) ∧ Sim C t' l' ∧ NoTomb C t' ∧ t.size ≤ t'.size ∧
      (t.size < capacityToGrowth C.G.W t.capacity ∨ t'.size = t.size → SameAlloc t t') := by
  obtain ⟨⟨c, hi⟩, hp⟩ := h
  rcases emplaceHash_spec hC hi (C.key a) (fun _ => a) (hC.refl _) with
    ⟨i, b, h1, h2, h3⟩ | ⟨h0, t', c', i, h1, h2, h3, h4, h5, h6, h7, h8⟩
  · exact ⟨t, i, false, l, h1, ⟨⟨c, hi⟩, hp⟩, hT, le_refl _, fun _ => ⟨rfl, fun _ _ h => h⟩⟩
  · have hsz : t'.size = t.size + 1 := by rw [h2.size_eq, h3.length_eq, List.length_cons, hi.size_eq]
    refine ⟨t', i, true, a :: l, h1, ⟨⟨c', h2⟩, h3.trans (hp.cons a)⟩, h8 hT, by omega, ?_⟩
    intro hlt
    have hg : t.growthLeft ≠ 0 := by
      unfold NoTomb at hT; omega
    obtain ⟨g1, g2, _⟩ := h6 hg
    refine ⟨g1, ?_⟩
    intro j b hb
    rw [g2]
    by_cases hij : i = j
    · -- the slot was free
      subst hij
      exfalso
      -- `b` would be overwritten: then the element count could not have grown
      have hsl : i < t.slots.length := by
        rw [List.getElem?_eq_some_iff] at hb; exact hb.1
      have hlen : (elems t').length = (elems t).length := by
        unfold elems; rw [g2]
        obtain ⟨l1, l2, e1, e2⟩ := filterMap_set_map (b := a) hb
        rw [e1, e2]; simp
      rw [h2.size_eq, hi.size_eq] at hsz
      omega
    · rw [List.getElem?_set, if_neg hij]; exact hb

theorem NoTomb.congr {C : Cfg α κ} {t t' : Tbl α} (h : NoTomb C t) (h1 : t'.growthLeft = t.growthLeft)
    (h2 : t'.size = t.size) (h3 : t'.capacity = t.capacity) : NoTomb C t' := by
  unfold NoTomb at *; rw [h1, h2, h3]; exact h

/-- Operations that never remove an element. -/
def Growing : Op α κ → Prop
  | .erase _ => False
  | .eraseIf _ => False
  | .extract _ => False
  | .toggle _ => False
  | _ => True

theorem insertAll_noTomb {C : Cfg α κ} (hC : CfgOk C) : ∀ (vs : List α) (t : Tbl α) (l : List α), Sim C t l → NoTomb C t →
    ∃ t', vs.foldlM (fun t v => do
      let (t, _, _) ← t.emplace C v
      Res.ok t) t = .ok t' ∧ NoTomb C t'
  | [], t, l, h, hT => ⟨t, rfl, hT⟩
  | v :: vs, t, l, h, hT => by
    rw [List.foldlM_cons]
    obtain ⟨t', i, ins, l', h1, h2, h3, _⟩ := emplace_grow hC h hT v
    rw [h1]
    simp only [Res.ok_bind]
    exact insertAll_noTomb hC vs t' l' h2 h3

theorem assignAt_noTomb {C : Cfg α κ} {t t' : Tbl α} {i : Nat} {f : α → α} (hT : NoTomb C t)
    (h : t.assignAt i f = .ok t') : NoTomb C t' := by
  unfold assignAt at h
  obtain ⟨a, _, h2⟩ := Res.bind_eq_ok.1 h
  cases h2
  exact hT.congr rfl rfl rfl

theorem step_noTomb {C : Cfg α κ} (hC : CfgOk C) {t : Tbl α} {l : List α} (h : Sim C t l) (hT : NoTomb C t)
    (op : Op α κ) (hv : op.Valid C.key) (hg : Growing op) {t' : Tbl α} {r : Resp α} (hs : t.step C op = .ok (t', r)) :
    NoTomb C t' := by
  have emp : ∀ a t1 i ins, t.emplace C a = .ok (t1, i, ins) → NoTomb C t1 := by
    intro a t1 i ins h1
    obtain ⟨t2, i2, ins2, l2, g1, _, g3, _⟩ := emplace_grow hC h hT a
    rw [h1] at g1; cases g1; exact g3
  cases op with
  | erase k => cases hg
  | eraseIf p => cases hg
  | extract k => cases hg
  | toggle a => cases hg
  | insert a =>
    simp only [Tbl.step] at hs
    obtain ⟨⟨t1, i, ins⟩, h1, h2⟩ := Res.bind_eq_ok.1 hs
    obtain ⟨b, _, h3⟩ := Res.bind_eq_ok.1 h2
    cases h3
    exact emp a _ _ _ h1
  | insertOrAssign a f =>
    simp only [Tbl.step] at hs
    obtain ⟨⟨t1, i, ins⟩, h1, h2⟩ := Res.bind_eq_ok.1 hs
    obtain ⟨b, _, h3⟩ := Res.bind_eq_ok.1 h2
    cases h3
    rcases find_sim hC h (C.key a) with ⟨i', b', f1, f2, f3, f4, f5⟩ | ⟨f1, f2, f3⟩
    · unfold insertOrAssign at h1; dsimp only at h1
      rw [show t.findHash C (C.key a) (C.hash (C.key a)) = .ok (some i') from f1] at h1
      simp only [Res.ok_bind] at h1
      obtain ⟨t2, h4, h5⟩ := Res.bind_eq_ok.1 h1
      cases h5
      exact assignAt_noTomb hT h4
    · rcases emplace_sim hC h a with ⟨i', b', _, _, g3, g4, _⟩ | ⟨t2, i2, g1, g2, g3, g4⟩
      · rw [f2 b' g3] at g4; cases g4
      · rw [insertOrAssign_none g1] at h1
        cases h1
        exact emp a _ _ _ g1
  | subscript a f =>
    simp only [Tbl.step, Tbl.subscript] at hs
    obtain ⟨⟨t1, i⟩, h1, h2⟩ := Res.bind_eq_ok.1 hs
    obtain ⟨⟨t2, j, ins⟩, h3, h4⟩ := Res.bind_eq_ok.1 h1
    cases h4
    obtain ⟨b, _, h5⟩ := Res.bind_eq_ok.1 h2
    obtain ⟨t3, h6, h7⟩ := Res.bind_eq_ok.1 h5
    cases h7
    exact assignAt_noTomb (emp a _ _ _ h3) h6
  | «at» k =>
    simp only [Tbl.step] at hs
    obtain ⟨o, _, h2⟩ := Res.bind_eq_ok.1 hs
    cases h2; exact hT
  | find k =>
    simp only [Tbl.step] at hs
    obtain ⟨o, _, h2⟩ := Res.bind_eq_ok.1 hs
    cases o with
    | none => cases h2; exact hT
    | some off =>
      obtain ⟨b, _, h3⟩ := Res.bind_eq_ok.1 h2
      cases h3; exact hT
  | contains k =>
    simp only [Tbl.step] at hs
    obtain ⟨o, _, h2⟩ := Res.bind_eq_ok.1 hs
    cases h2; exact hT
  | count k =>
    simp only [Tbl.step] at hs
    obtain ⟨o, _, h2⟩ := Res.bind_eq_ok.1 hs
    cases h2; exact hT
  | insertNode n =>
    simp only [Tbl.step] at hs
    obtain ⟨⟨t1, off, ins, left⟩, h1, h2⟩ := Res.bind_eq_ok.1 hs
    cases n with
    | none =>
      simp only [Tbl.insertNode] at h1
      cases h1; cases h2; exact hT
    | some a =>
      simp only [Tbl.insertNode] at h1
      obtain ⟨⟨t2, j, ins2⟩, h3, h4⟩ := Res.bind_eq_ok.1 h1
      cases h4
      obtain ⟨b, _, h5⟩ := Res.bind_eq_ok.1 h2
      cases h5
      exact emp a _ _ _ h3
  | insertRange vs =>
    simp only [Tbl.step] at hs
    obtain ⟨t1, h1, h2⟩ := Res.bind_eq_ok.1 hs
    cases h2
    unfold insertRange at h1
    obtain ⟨t2, h3, h4⟩ := Res.bind_eq_ok.1 h1
    have h' := h
    obtain ⟨⟨c, hi⟩, hp⟩ := h
    have hn : growthToLowerboundCapacity C.G.W (t.size + vs.length) ≠ 0 ∨
        t.size ≤ capacityToGrowth C.G.W (normalizeCapacity t.size) := by
      by_cases h0 : t.size + vs.length = 0
      · right; omega
      · left; unfold growthToLowerboundCapacity; split <;> omega
    obtain ⟨t3, c3, r1, r2, r3, r4, r5, r6⟩ := rehash_spec hC hi _ hn
    unfold reserve at h3
    rw [r1] at h3; cases h3
    obtain ⟨t4, g1, g2⟩ := insertAll_noTomb hC vs _ l ⟨⟨c3, r2⟩, r3.trans hp⟩ (r6 hT)
    rw [g1] at h4; cases h4; exact g2
  | size => cases hs; exact hT
  | clear =>
    simp only [Tbl.step] at hs
    obtain ⟨t1, h1, h2⟩ := Res.bind_eq_ok.1 hs
    cases h2
    obtain ⟨⟨c, hi⟩, hp⟩ := h
    obtain ⟨t2, c2, r1, r2, r3, r4, r5, r6⟩ := clear_spec hC hi
    rw [r1] at h1; cases h1; exact r6 hT
  | reserve n =>
    simp only [Tbl.step] at hs
    obtain ⟨t1, h1, h2⟩ := Res.bind_eq_ok.1 hs
    cases h2
    obtain ⟨⟨c, hi⟩, hp⟩ := h
    have hn : growthToLowerboundCapacity C.G.W n ≠ 0 := by
      have : n ≠ 0 := hv
      unfold growthToLowerboundCapacity; split <;> omega
    obtain ⟨t3, c3, r1, r2, r3, r4, r5, r6⟩ := rehash_spec hC hi _ (.inl hn)
    unfold reserve at h1
    rw [r1] at h1; cases h1; exact r6 hT
  | rehash n =>
    simp only [Tbl.step] at hs
    obtain ⟨t1, h1, h2⟩ := Res.bind_eq_ok.1 hs
    cases h2
    obtain ⟨⟨c, hi⟩, hp⟩ := h
    obtain ⟨t3, c3, r1, r2, r3, r4, r5, r6⟩ := rehash_spec hC hi n (.inl hv)
    rw [r1] at h1; cases h1; exact r6 hT

theorem withBuckets_noTomb {C : Cfg α κ} (n : Nat) : NoTomb C (withBuckets C n : Tbl α) := by
  unfold withBuckets NoTomb
  split
  · simp [Tbl.empty, capacityToGrowth]
  · simp only [initializeSlots, Tbl.empty, usub_of_le (Nat.zero_le _)]; omega

/-- Inserting one element at a time, keeping every intermediate table. -/
theorem reserve_grow {C : Cfg α κ} (hC : CfgOk C) {n : Nat} : ∀ (vs : List α) (t : Tbl α) (l : List α), Sim C t l →
    NoTomb C t → n ≤ capacityToGrowth C.G.W t.capacity → ∃ t', vs.foldlM (fun t v => do
      let (t, _, _) ← t.emplace C v
      Res.ok t) t = .ok t' ∧ t.size ≤ t'.size ∧ (t'.size ≤ n → SameAlloc t t')
  | [], t, l, h, hT, hn => ⟨t, rfl, le_refl _, fun _ => ⟨rfl, fun _ _ h => h⟩⟩
  | v :: vs, t, l, h, hT, hn => by
    rw [List.foldlM_cons]
    obtain ⟨t', i, ins, l', h1, h2, h3, h4, h5⟩ := emplace_grow hC h hT v
    rw [h1]
    simp only [Res.ok_bind]
    by_cases hlt : t.size < capacityToGrowth C.G.W t.capacity ∨ t'.size = t.size
    · have hsame := h5 hlt
      obtain ⟨t2, g1, g2, g3⟩ := reserve_grow hC (n := n) vs t' l' h2 h3 (by rw [hsame.1]; exact hn)
      refine ⟨t2, g1, by omega, fun hle => ?_⟩
      obtain ⟨e1, e2⟩ := g3 hle
      exact ⟨by rw [e1, hsame.1], fun i a ha => e2 i a (hsame.2 i a ha)⟩
    · obtain ⟨t2, g1, _⟩ := insertAll_noTomb hC vs t' l' h2 h3
      obtain ⟨t3, k1, k2, _⟩ := reserve_grow hC (n := 0) vs t' l' h2 h3 (Nat.zero_le _)
      refine ⟨t3, k1, by omega, fun hle => ?_⟩
      exfalso; omega

end Gtl.Swiss
