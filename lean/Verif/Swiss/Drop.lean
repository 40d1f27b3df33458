import Verif.Swiss.Resize
/-! `drop_deletes_without_resize`. -/

namespace Gtl.Swiss
variable {α κ : Type}

open Tbl

/-- What the conversion does to one byte. -/
def conv (c : Ctrl) : Ctrl := if isFull c then kDeleted else kEmpty

theorem convertLoop_spec {C : Cfg α κ} (hG : GroupSpec C.G) (cap : Nat) : ∀ (d q n : Nat) (ctrl : List Ctrl),
    cap + 1 = (q + d) * C.G.W → d < n → cap + 1 ≤ ctrl.length →
    (∀ (p : Nat) (x : Ctrl), p < cap + 1 → ctrl[p]? = some x → Valid x ) →
    ∃ ctrl', convertLoop C cap n (q * C.G.W) ctrl = .ok ctrl' ∧ ctrl'.length = ctrl.length ∧
      ∀ p : Nat, ctrl'[p]? = if q * C.G.W ≤ p ∧ p < cap + 1 then ctrl[p]?.map conv else ctrl[p]? := by
  have hWpos : 0 < C.G.W := by rcases hG.width with h | h <;> omega
  intro d
  induction d with
  | zero =>
    intro q n ctrl hq hn hl hv
    obtain ⟨n, rfl⟩ : ∃ m, n = m + 1 := ⟨n - 1, by omega⟩
    refine ⟨ctrl, ?_, rfl, ?_⟩
    · unfold convertLoop
      rw [if_pos (by rw [hq, Nat.add_zero])]
    · intro p
      have hq' : cap + 1 = q * C.G.W := by rw [hq, Nat.add_zero]
      rw [if_neg (by rw [hq']; exact fun hh => absurd hh.2 (by omega))]
  | succ d ih =>
    intro q n ctrl hq hn hl hv
    obtain ⟨n, rfl⟩ : ∃ m, n = m + 1 := ⟨n - 1, by omega⟩
    have e1 : cap + 1 = q * C.G.W + C.G.W + d * C.G.W := by rw [hq]; ring
    have e2 : (q + 1) * C.G.W = q * C.G.W + C.G.W := by ring
    set pos := q * C.G.W with hpos
    have hle : pos + C.G.W ≤ ctrl.length := by omega
    set g := (ctrl.drop pos).take C.G.W with hg
    have hgl : g.length = C.G.W := by simp [hg]; omega
    have hgi : ∀ j, j < C.G.W → g[j]? = ctrl[pos + j]? := by
      intro j hj
      rw [hg, List.getElem?_take, if_pos hj, List.getElem?_drop]
    have hgv : ∀ x ∈ g, Valid x := by
      intro x hx
      rw [List.mem_iff_getElem?] at hx
      obtain ⟨j, hj⟩ := hx
      have hjW : j < C.G.W := by
        rw [List.getElem?_eq_some_iff] at hj; obtain ⟨h, _⟩ := hj; omega
      rw [hgi j hjW] at hj
      exact hv (pos + j) x (by omega) hj
    set ctrl1 := ctrl.take pos ++ C.G.convertSpecial g ++ ctrl.drop (pos + C.G.W) with hc1
    have hconv : C.G.convertSpecial g = g.map conv := hG.convert g hgl hgv
    have hl1 : ctrl1.length = ctrl.length := by
      rw [hc1, hconv]; simp [hgl]; omega
    have hget : ∀ p : Nat, ctrl1[p]? = if pos ≤ p ∧ p < pos + C.G.W then ctrl[p]?.map conv else ctrl[p]? := by
      intro p
      rw [hc1, hconv]
      by_cases h1 : p < pos
      · rw [if_neg (by omega), List.append_assoc, List.getElem?_append_left (by simp; omega), List.getElem?_take,
          if_pos h1]
      · by_cases h2 : p < pos + C.G.W
        · rw [if_pos ⟨by omega, h2⟩, List.append_assoc, List.getElem?_append_right (by simp; omega)]
          have ht : (ctrl.take pos).length = pos := by simp; omega
          rw [ht, List.getElem?_append_left (by simp [hgl]; omega), List.getElem?_map, hgi _ (by omega)]
          congr 2; omega
        · rw [if_neg (by omega), List.getElem?_append_right (by simp [hgl]; omega), List.getElem?_drop]
          have ht : (ctrl.take pos ++ g.map conv).length = pos + C.G.W := by simp [hgl]; omega
          rw [ht]; congr 1; omega
    obtain ⟨ctrl', r1, r2, r3⟩ := ih (q + 1) n ctrl1 (by rw [hq]; ring) (by omega) (by omega) (by
      intro p x hp hx
      rw [hget] at hx
      split at hx
      · cases hcp : ctrl[p]? with
        | none => rw [hcp] at hx; cases hx
        | some y =>
          rw [hcp] at hx
          simp only [Option.map_some, Option.some.injEq] at hx
          rw [← hx]; unfold conv Valid
          split
          · right; right; left; rfl
          · right; left; rfl
      · exact hv p x hp hx)
    refine ⟨ctrl', ?_, by omega, ?_⟩
    · unfold convertLoop
      rw [if_neg (by omega), if_pos hle]
      rw [e2] at r1
      exact r1
    · intro p
      rw [r3 p, hget p, e2]
      by_cases h1 : pos + C.G.W ≤ p ∧ p < cap + 1
      · rw [if_pos h1, if_neg (by omega), if_pos ⟨by omega, h1.2⟩]
      · rw [if_neg h1]
        by_cases h2 : pos ≤ p ∧ p < pos + C.G.W
        · rw [if_pos h2, if_pos ⟨h2.1, by omega⟩]
        · rw [if_neg h2, if_neg (by omega)]

theorem conv_sentinel : conv kSentinel = kEmpty := by decide
theorem conv_empty : conv kEmpty = kEmpty := by decide
theorem conv_eod {x : Ctrl} (h : Eod x) : conv x = kEmpty := by rcases h with rfl | rfl <;> decide
theorem conv_full {x : Ctrl} (h : isFull x = true) : conv x = kDeleted := by unfold conv; rw [if_pos h]

theorem convertCtrl_spec {C : Cfg α κ} (hG : GroupSpec C.G) {t : Tbl α} {c : List Ctrl} (r : Raw C.G.W t c)
    (hv : LValid c) (hbig : C.G.W ≤ t.capacity + 1) :
    ∃ ctrl', t.convertCtrl C = .ok { t with ctrl := ctrl' } ∧ Raw C.G.W { t with ctrl := ctrl' } (c.map conv) := by
  have hWpos : 0 < C.G.W := by rcases hG.width with h | h <;> omega
  have hdvd : C.G.W ∣ t.capacity + 1 := by
    rcases width_cases hG.width r.pow with h | h
    · exact h.2
    · omega
  obtain ⟨m, hm⟩ := hdvd
  have hcap0 : t.capacity ≠ 0 := by rcases hG.width with h | h <;> omega
  have hlen := r.alloc hcap0
  have hmle : m ≤ t.capacity + 1 := by rw [hm]; exact Nat.le_mul_of_pos_left _ hWpos
  obtain ⟨ctrl1, h1, h2, h3⟩ := convertLoop_spec hG t.capacity m 0 (t.capacity + 2) t.ctrl
    (by rw [hm]; ring) (by omega) (by omega) (by
      intro p x hp hx
      rw [r.bytes p (by omega)] at hx
      cases hx
      exact lay_valid r.len hv p)
  rw [Nat.zero_mul] at h1
  have hgetc : ∀ q, q < t.capacity → (c.map conv).getD q kEmpty = conv (c.getD q kEmpty) := by
    intro q hq
    have : q < c.length := by rw [r.len]; exact hq
    simp [List.getD_eq_getElem?_getD, this]
  have hb1 : ∀ p, p < t.capacity → ctrl1[p]? = some (conv (c.getD p kEmpty)) := by
    intro p hp
    rw [h3 p, if_pos ⟨by omega, by omega⟩, r.bytes p (by omega), lay_lt hp]; rfl
  have hb2 : ctrl1[t.capacity]? = some kEmpty := by
    rw [h3, if_pos ⟨by omega, by omega⟩, r.bytes _ (by omega)]
    unfold lay
    rw [if_neg (by omega), if_pos rfl]; rfl
  refine ⟨(ctrl1.take (t.capacity + 1) ++ ctrl1.take C.G.W ++ ctrl1.drop (t.capacity + 1 + C.G.W)).set
    t.capacity kSentinel, ?_, ?_⟩
  · unfold convertCtrl
    rw [h1]
    simp only [Res.ok_bind]
    rw [if_pos (by omega)]
  · refine ⟨by simp [r.len], ?_, ?_, r.pow⟩
    · intro p hp
      simp only at hp ⊢
      rw [List.getElem?_set]
      by_cases hpc : t.capacity = p
      · subst hpc
        rw [if_pos rfl, if_pos (by simp; omega)]
        unfold lay; rw [if_neg (by omega), if_pos rfl]
      · rw [if_neg hpc]
        by_cases hlt : p < t.capacity
        · rw [List.append_assoc, List.getElem?_append_left (by simp; omega), List.getElem?_take, if_pos (by omega),
            hb1 p hlt, lay_lt hlt, hgetc p hlt]
        · rw [List.getElem?_append_left (by simp; omega), List.getElem?_append_right (by simp; omega)]
          have ht : (ctrl1.take (t.capacity + 1)).length = t.capacity + 1 := by simp; omega
          rw [ht, List.getElem?_take, if_pos (by omega)]
          unfold lay
          rw [if_neg hlt, if_neg (Ne.symm hpc)]
          by_cases h2c : p ≤ 2 * t.capacity
          · rw [if_pos h2c, hb1 _ (by omega), hgetc _ (by omega)]
            congr 3
          · rw [if_neg h2c]
            have : p - (t.capacity + 1) = t.capacity := by omega
            rw [this, hb2]
    · intro _
      simp; omega

/-! ### The loop -/

/-- `i` is reachable even if deleted bytes counted as empty. -/
def SReach (W : Nat) (c : List Ctrl) (cap hash i : Nat) : Prop :=
  ∃ n, InWin W cap hash n i ∧ ∀ q < n, ¬ WinHas Eod W c cap hash q

/-- Loop invariant: full bytes are re-placed elements, deleted bytes are elements still to be placed,
empty bytes are raw slots. -/
structure DInv (C : Cfg α κ) (t : Tbl α) (c : List Ctrl) (i : Nat) : Prop where
  raw : Raw C.G.W t c
  slen : t.slots.length = t.capacity
  some_ : ∀ (j : Nat) (a : α), t.slots[j]? = some (some a) → c[j]? = some kDeleted ∨
    (c[j]? = some (H2 (C.hash (C.key a))) ∧ SReach C.G.W c t.capacity (C.hash (C.key a)) j)
  none_ : ∀ (j : Nat), t.slots[j]? = some none → c[j]? = some kEmpty
  done : ∀ (j : Nat), j < i → c[j]? ≠ some kDeleted

theorem DInv.valid {C : Cfg α κ} {t : Tbl α} {c : List Ctrl} {i : Nat} (h : DInv C t c i) : LValid c := by
  intro x hx
  rw [List.mem_iff_getElem?] at hx
  obtain ⟨j, hj⟩ := hx
  have hjl : j < t.slots.length := by
    rw [List.getElem?_eq_some_iff] at hj
    obtain ⟨hh, _⟩ := hj
    rw [h.slen, ← h.raw.len]; exact hh
  cases hs : t.slots[j] with
  | none =>
    have := h.none_ j (by rw [List.getElem?_eq_getElem hjl, hs])
    rw [this] at hj; cases hj; right; left; rfl
  | some a =>
    rcases h.some_ j a (by rw [List.getElem?_eq_getElem hjl, hs]) with h1 | ⟨h1, _⟩
    · rw [h1] at hj; cases hj; right; right; rfl
    · rw [h1] at hj; cases hj; left; exact isFull_H2 _

theorem DInv.deleted_slot {C : Cfg α κ} {t : Tbl α} {c : List Ctrl} {i j : Nat} (h : DInv C t c i)
    (hc : c[j]? = some kDeleted) : ∃ a, t.slots[j]? = some (some a) := by
  have hjl : j < t.slots.length := by
    rw [List.getElem?_eq_some_iff] at hc
    obtain ⟨hh, _⟩ := hc
    rw [h.slen, ← h.raw.len]; exact hh
  cases hs : t.slots[j] with
  | none =>
    have := h.none_ j (by rw [List.getElem?_eq_getElem hjl, hs])
    rw [this] at hc; exact absurd hc (by decide)
  | some a => exact ⟨a, by rw [List.getElem?_eq_getElem hjl, hs]⟩

theorem DInv.empty_slot {C : Cfg α κ} {t : Tbl α} {c : List Ctrl} {i j : Nat} (h : DInv C t c i)
    (hc : c[j]? = some kEmpty) : t.slots[j]? = some none := by
  have hjl : j < t.slots.length := by
    rw [List.getElem?_eq_some_iff] at hc
    obtain ⟨hh, _⟩ := hc
    rw [h.slen, ← h.raw.len]; exact hh
  cases hs : t.slots[j] with
  | none => rw [List.getElem?_eq_getElem hjl, hs]
  | some a =>
    rcases h.some_ j a (by rw [List.getElem?_eq_getElem hjl, hs]) with h1 | ⟨h1, _⟩
    · rw [h1] at hc; exact absurd hc (by decide)
    · rw [h1] at hc; exact absurd (Option.some.inj hc) (ne_of_full (isFull_H2 _)).1

/-- Filling a byte never makes a slot harder to reach. -/
theorem SReach.fill {W cap hash i j : Nat} {c : List Ctrl} {x : Ctrl} (hl : c.length = cap) (hj : j < cap)
    (hx : ¬ Eod x) (h : SReach W c cap hash i) : SReach W (c.set j x) cap hash i := by
  obtain ⟨n, h1, h2⟩ := h
  exact ⟨n, h1, fun q hq hw => h2 q hq (winHas_set hl hj hx hw)⟩

/-- Turning an empty-or-deleted byte into another one changes nothing for `SReach`. -/
theorem SReach.swap {W cap hash i j : Nat} {c : List Ctrl} {x : Ctrl} (hl : c.length = cap) (hj : j < cap)
    (hx : Eod (c.getD j kEmpty)) (h : SReach W c cap hash i) : SReach W (c.set j x) cap hash i := by
  obtain ⟨n, h1, h2⟩ := h
  refine ⟨n, h1, fun q hq hw => h2 q hq ?_⟩
  obtain ⟨jj, hjj, hp⟩ := hw
  rw [lay_set hl hj] at hp
  split at hp
  · rename_i hpos
    refine ⟨jj, hjj, ?_⟩
    rcases hpos with e | e
    · rw [e, lay_lt hj]; exact hx
    · have : j + (cap + 1) = j + cap + 1 := by omega
      rw [e, this, lay_clone hj]; exact hx
  · exact ⟨jj, hjj, hp⟩

/-- Two positions of the same probe group are in the same window. -/
theorem same_group {W cap hash n i j k : Nat} (hk : cap + 1 = 2 ^ k) (hWpos : 0 < W) (hdvd : W ∣ cap + 1)
    (hi : i ≤ cap) (hj : j ≤ cap) (hin : InWin W cap hash n i)
    (he : subMask i (Probe.start hash cap).offset cap / W = subMask j (Probe.start hash cap).offset cap / W) :
    InWin W cap hash n j := by
  rw [probe_start hk W] at he
  simp only [probeAt] at he
  set o := off W cap hash 0 with ho
  obtain ⟨d, hd, hid⟩ := hin
  have ai := subMask_add (i := i) (w := o) hk
  have aj := subMask_add (i := j) (w := o) hk
  have hil := subMask_lt (i := i) (w := o) hk
  have hjl := subMask_lt (i := j) (w := o) hk
  set si := subMask i o cap with hsi
  set sj := subMask j o cap with hsj
  rw [Nat.mod_eq_of_lt (show i < cap + 1 by omega)] at ai
  rw [Nat.mod_eq_of_lt (show j < cap + 1 by omega)] at aj
  -- si ≡ W * tri n + d
  have hoff : (off W cap hash n) % (cap + 1) = (o + W * tri n) % (cap + 1) := by
    rw [ho]; unfold off; simp [tri]
  have c1 : si ≡ W * tri n + d [MOD (cap + 1)] := by
    have : si + o ≡ (W * tri n + d) + o [MOD (cap + 1)] := by
      unfold Nat.ModEq
      rw [ai, ← hid, Nat.add_mod, hoff, ← Nat.add_mod]
      congr 1; ring
    exact Nat.ModEq.add_right_cancel' o this
  -- hence si mod W = d
  have c2 : si % W = d := by
    have := Nat.ModEq.of_dvd hdvd c1
    unfold Nat.ModEq at this
    rw [this, Nat.mul_add_mod, Nat.mod_eq_of_lt hd]
  refine ⟨sj % W, Nat.mod_lt _ hWpos, ?_⟩
  have e1 : si = W * (si / W) + d := by have := Nat.div_add_mod si W; omega
  have e2 : sj = W * (si / W) + sj % W := by have := Nat.div_add_mod sj W; rw [← he] at this; omega
  have c3 : W * (si / W) ≡ W * tri n [MOD (cap + 1)] := by
    rw [e1] at c1
    have := Nat.ModEq.add_right_cancel' d c1
    exact this
  have c4 : sj + o ≡ off W cap hash n + sj % W [MOD (cap + 1)] := by
    have h1 : sj + o ≡ (W * tri n + sj % W) + o [MOD (cap + 1)] := by
      conv_lhs => rw [e2]
      exact (c3.add_right _).add_right _
    have h2 : (W * tri n + sj % W) + o ≡ off W cap hash n + sj % W [MOD (cap + 1)] := by
      have : (W * tri n + sj % W) + o = (o + W * tri n) + sj % W := by ring
      rw [this]
      exact (Nat.ModEq.add_right _ hoff.symm)
    exact h1.trans h2
  unfold Nat.ModEq at c4
  rw [← c4, aj]

theorem setCtrl_frame {W : Nat} {t : Tbl α} {i : Nat} {x : Ctrl} {ctrl' : List Ctrl}
    (h : t.setCtrl W i x = .ok { t with ctrl := ctrl' }) (sl : List (Option α)) :
    Tbl.setCtrl W { t with slots := sl } i x = .ok { t with slots := sl, ctrl := ctrl' } := by
  unfold setCtrl at *
  simp only at *
  split at h
  · rename_i hc
    rw [if_pos hc]
    simp only [Res.ok.injEq, Tbl.mk.injEq] at h
    rw [h.1]
  · cases h

/-- The body of the loop of `drop_deletes_without_resize` for a slot marked deleted (phmap.hpp:2721-2754): the next index
and the table. -/
def Tbl.dropIter (C : Cfg α κ) (i : Nat) (t : Tbl α) : Res (Nat × Tbl α) := do
  let a ← t.readSlot i
  let hashval := C.hash (C.key a)
  let newI ← t.findFirstNonFull C hashval
  let probeIndex := fun pos => (subMask pos (Probe.start hashval t.capacity).offset t.capacity) / C.G.W
  if probeIndex newI = probeIndex i then do
    let t ← t.setCtrl C.G.W i (H2 hashval)
    .ok (i + 1, t)
  else do
    let cn ← t.ctrlAt newI
    if isEmpty cn then do
      let t ← t.setCtrl C.G.W newI (H2 hashval)
      let t ← t.constructSlot newI a
      let t ← t.destroySlot i
      let t ← t.setCtrl C.G.W i kEmpty
      .ok (i + 1, t)
    else do
      let t ← t.setCtrl C.G.W newI (H2 hashval)
      let b ← t.readSlot newI
      let t ← t.destroySlot i
      let t ← t.constructSlot i b
      let t ← t.destroySlot newI
      let t ← t.constructSlot newI a
      .ok (i, t)

/-- The loop is this body, repeated. -/
theorem dropLoop_succ (C : Cfg α κ) (n i : Nat) (t : Tbl α) :
    dropLoop C (n + 1) i t = (if i = t.capacity then .ok t else do
      let c ← t.ctrlAt i
      if !isDeleted c then dropLoop C n (i + 1) t
      else do
        let r ← t.dropIter C i
        dropLoop C n r.1 r.2) := by
  simp only [dropLoop, dropIter]
  by_cases h0 : i = t.capacity
  · rw [if_pos h0, if_pos h0]
  rw [if_neg h0, if_neg h0]
  congr 1
  funext c
  by_cases hd : (!isDeleted c) = true
  · rw [if_pos hd, if_pos hd]
  rw [if_neg hd, if_neg hd]
  simp only [bind_assoc]
  congr 1
  funext a
  congr 1
  funext ni
  by_cases hp : (subMask ni (Probe.start (C.hash (C.key a)) t.capacity).offset t.capacity) / C.G.W =
      (subMask i (Probe.start (C.hash (C.key a)) t.capacity).offset t.capacity) / C.G.W
  · rw [if_pos hp, if_pos hp]
    simp only [bind_assoc, Res.ok_bind]
  rw [if_neg hp, if_neg hp]
  simp only [bind_assoc]
  congr 1
  funext cn
  by_cases he : isEmpty cn = true
  · rw [if_pos he, if_pos he]
    simp only [bind_assoc, Res.ok_bind]
  · rw [if_neg he, if_neg he]
    simp only [bind_assoc, Res.ok_bind]

/-- One execution of the body: one more element is placed. -/
theorem dropIter_spec {C : Cfg α κ} (hG : GroupSpec C.G) {i : Nat} {t : Tbl α} {c : List Ctrl}
    (hbig : C.G.W ≤ t.capacity + 1) (h : DInv C t c i) (hi' : i < t.capacity) (hcd : c[i]? = some kDeleted) :
    ∃ i' t' c', t.dropIter C i = .ok (i', t') ∧ DInv C t' c' i' ∧ List.Perm (elems t') (elems t) ∧
      t'.capacity = t.capacity ∧ t'.size = t.size ∧ t'.growthLeft = t.growthLeft ∧ i ≤ i' ∧ i' ≤ t.capacity ∧
      c'.count kDeleted + 1 = c.count kDeleted := by
  have hW := hG.width
  have hWpos : 0 < C.G.W := by rcases hG.width with h | h <;> omega
  have hcl : i < c.length := by rw [h.raw.len]; exact hi'
  obtain ⟨k, hk⟩ := h.raw.pow
  have hdvd : C.G.W ∣ t.capacity + 1 := by
    rcases width_cases hW ⟨k, hk⟩ with hh | hh
    · exact hh.2
    · omega
  unfold dropIter
  obtain ⟨a, ha⟩ := h.deleted_slot hcd
  have hsl : i < t.slots.length := by rw [h.slen]; exact hi'
  rw [readSlot_ok ha]
  simp only [Res.ok_bind]
  obtain ⟨ni, n, q1, q2, q3, q4, q5⟩ := findFirstNonFull_spec hG h.raw h.valid (C.hash (C.key a))
    ⟨kDeleted, List.mem_of_getElem? hcd, .inr rfl⟩
  rw [q1]
  simp only [Res.ok_bind]
  have hncl : ni < c.length := by rw [h.raw.len]; exact q2
  have hnsl : ni < t.slots.length := by rw [h.slen]; exact q2
  have hcnt := count_set hcd (H2 (C.hash (C.key a))) kDeleted
  rw [if_pos rfl, if_neg (ne_of_full (isFull_H2 _)).2.1] at hcnt
  have hpos : 0 < c.count kDeleted := List.count_pos_iff.2 (List.mem_of_getElem? hcd)
  by_cases hpi : subMask ni (Probe.start (C.hash (C.key a)) t.capacity).offset t.capacity / C.G.W =
      subMask i (Probe.start (C.hash (C.key a)) t.capacity).offset t.capacity / C.G.W
  · -- same group: the element stays where it is
    rw [if_pos hpi]
    have hin : InWin C.G.W t.capacity (C.hash (C.key a)) n i :=
      same_group hk hWpos hdvd (by omega) (by omega) q4 hpi
    obtain ⟨ctrl', e1, e2⟩ := h.raw.setCtrl hW hi' (H2 (C.hash (C.key a)))
    rw [e1]
    simp only [Res.ok_bind]
    have hD : DInv C { t with ctrl := ctrl' } (c.set i (H2 (C.hash (C.key a)))) (i + 1) := by
      refine ⟨e2, h.slen, ?_, ?_, ?_⟩
      · intro j b hb
        simp only at hb
        by_cases hji : j = i
        · subst hji
          rw [ha] at hb; cases hb
          right
          refine ⟨getElem?_set_self' hcl, SReach.fill h.raw.len hi' (not_eod_H2 _) ⟨n, hin, q5⟩⟩
        · rw [getElem?_set_ctrl hji]
          rcases h.some_ j b hb with h1 | ⟨h1, h2⟩
          · exact .inl h1
          · exact .inr ⟨h1, SReach.fill h.raw.len hi' (not_eod_H2 _) h2⟩
      · intro j hb
        simp only at hb
        have hji : j ≠ i := by rintro rfl; rw [ha] at hb; cases hb
        rw [getElem?_set_ctrl hji]; exact h.none_ j hb
      · intro j hj hcj
        by_cases hji : j = i
        · subst hji; rw [getElem?_set_self' hcl] at hcj
          exact (ne_of_full (isFull_H2 (C.hash (C.key a)))).2.1 (by simpa using hcj)
        · rw [getElem?_set_ctrl hji] at hcj; exact h.done j (by omega) hcj
    exact ⟨i + 1, _, _, rfl, hD, List.Perm.refl _, rfl, rfl, rfl, by omega, by omega, by omega⟩
  rw [if_neg hpi]
  have hne : ni ≠ i := by rintro rfl; exact hpi rfl
  have hctrl2 : t.ctrlAt ni = .ok (c.getD ni kEmpty) := by
    rw [h.raw.ctrlAt hWpos (by omega), lay_lt q2]
  rw [hctrl2]
  simp only [Res.ok_bind]
  rcases q3 with q3 | q3
  · -- move into an empty slot
    have hce : c[ni]? = some kEmpty := by rw [getElem?_getD hncl, q3]
    rw [q3, if_pos (show isEmpty kEmpty = true from rfl)]
    obtain ⟨ctrl1, e1, e2⟩ := h.raw.setCtrl hW q2 (H2 (C.hash (C.key a)))
    rw [e1]
    simp only [Res.ok_bind]
    have hns := h.empty_slot hce
    rw [constructSlot_ok (t := { t with ctrl := ctrl1 }) hns]
    simp only [Res.ok_bind]
    have hs2 : (t.slots.set ni (some a))[i]? = some (some a) := by
      rw [List.getElem?_set, if_neg hne]; exact ha
    rw [destroySlot_ok (t := { t with ctrl := ctrl1, slots := t.slots.set ni (some a) }) hs2]
    simp only [Res.ok_bind]
    obtain ⟨ctrl2, e3, e4⟩ := e2.setCtrl hW hi' kEmpty
    have e3' := setCtrl_frame e3 ((t.slots.set ni (some a)).set i none)
    simp only at e3'
    rw [e3']
    simp only [Res.ok_bind]
    set c1 := c.set ni (H2 (C.hash (C.key a))) with hc1
    have hc1i : c1[i]? = some kDeleted := by rw [hc1, getElem?_set_ctrl (Ne.symm hne)]; exact hcd
    have hc1d : c1.getD i kEmpty = kDeleted := getD_eq_of hc1i
    have hc1l : c1.length = t.capacity := by rw [hc1]; simp [h.raw.len]
    have hsr : ∀ hash j, SReach C.G.W c t.capacity hash j → SReach C.G.W (c1.set i kEmpty) t.capacity hash j := by
      intro hash j hj
      exact SReach.swap hc1l hi' (by rw [hc1d]; right; rfl)
        (SReach.fill h.raw.len q2 (not_eod_H2 _) hj)
    have hD : DInv C { t with slots := (t.slots.set ni (some a)).set i none, ctrl := ctrl2 } (c1.set i kEmpty) (i + 1) := by
      refine ⟨e4.congr rfl rfl, by simp [h.slen], ?_, ?_, ?_⟩
      · intro j b hb
        simp only at hb
        rcases getElem?_set_slot (by simpa using hsl) hb with ⟨_, hh⟩ | ⟨hji, hb⟩
        · cases hh
        rw [getElem?_set_ctrl hji]
        rcases getElem?_set_slot hnsl hb with ⟨rfl, hh⟩ | ⟨hjn, hb⟩
        · cases hh
          right
          exact ⟨by rw [hc1]; exact getElem?_set_self' hncl, hsr _ _ ⟨n, q4, q5⟩⟩
        · rw [hc1, getElem?_set_ctrl hjn]
          rcases h.some_ j b hb with h1 | ⟨h1, h2⟩
          · exact .inl h1
          · exact .inr ⟨h1, hsr _ _ h2⟩
      · intro j hb
        simp only at hb
        rcases getElem?_set_slot (by simpa using hsl) hb with ⟨rfl, _⟩ | ⟨hji, hb⟩
        · exact getElem?_set_self' (by rw [hc1l]; exact hi')
        rw [getElem?_set_ctrl hji]
        rcases getElem?_set_slot hnsl hb with ⟨rfl, hh⟩ | ⟨hjn, hb⟩
        · cases hh
        · rw [hc1, getElem?_set_ctrl hjn]; exact h.none_ j hb
      · intro j hj hcj
        by_cases hji : j = i
        · subst hji
          rw [getElem?_set_self' (by rw [hc1l]; exact hi')] at hcj
          exact absurd hcj (by decide)
        · rw [getElem?_set_ctrl hji] at hcj
          by_cases hjn : j = ni
          · subst hjn
            rw [hc1, getElem?_set_self' hncl] at hcj
            exact (ne_of_full (isFull_H2 (C.hash (C.key a)))).2.1 (by simpa using hcj)
          · rw [hc1, getElem?_set_ctrl hjn] at hcj
            exact h.done j (by omega) hcj
    have hcnt1 := count_set hce (H2 (C.hash (C.key a))) kDeleted
    rw [if_neg (by decide), if_neg (ne_of_full (isFull_H2 _)).2.1] at hcnt1
    rw [← hc1] at hcnt1
    have hcnt2 := count_set hc1i kEmpty kDeleted
    rw [if_pos rfl, if_neg (by decide)] at hcnt2
    have hperm : List.Perm (elems { t with slots := (t.slots.set ni (some a)).set i none, ctrl := ctrl2 }) (elems t) := by
      have p1 := filterMap_set_none hs2
      have p2 := filterMap_set_some a hns
      exact List.Perm.cons_inv (p1.symm.trans p2)
    exact ⟨i + 1, _, _, rfl, hD, hperm, rfl, rfl, rfl, by omega, by omega, by omega⟩
  · -- swap with a not yet placed element
    have hce : c[ni]? = some kDeleted := by rw [getElem?_getD hncl, q3]
    obtain ⟨b, hb⟩ := h.deleted_slot hce
    rw [q3, if_neg (show ¬ isEmpty kDeleted = true by decide)]
    obtain ⟨ctrl1, e1, e2⟩ := h.raw.setCtrl hW q2 (H2 (C.hash (C.key a)))
    rw [e1]
    simp only [Res.ok_bind]
    rw [readSlot_ok (t := { t with ctrl := ctrl1 }) hb]
    simp only [Res.ok_bind]
    rw [destroySlot_ok (t := { t with ctrl := ctrl1 }) ha]
    simp only [Res.ok_bind]
    have s1 : (t.slots.set i none)[i]? = some none := by rw [List.getElem?_set, if_pos rfl, if_pos hsl]
    rw [constructSlot_ok (t := { t with ctrl := ctrl1, slots := t.slots.set i none }) s1]
    simp only [Res.ok_bind]
    have s2 : ((t.slots.set i none).set i (some b))[ni]? = some (some b) := by
      rw [List.getElem?_set, if_neg (Ne.symm hne), List.getElem?_set, if_neg (Ne.symm hne)]; exact hb
    rw [destroySlot_ok (t := { t with ctrl := ctrl1, slots := (t.slots.set i none).set i (some b) }) s2]
    simp only [Res.ok_bind]
    have s3 : (((t.slots.set i none).set i (some b)).set ni none)[ni]? = some none := by
      rw [List.getElem?_set, if_pos rfl, if_pos (by simpa using hnsl)]
    rw [constructSlot_ok (t := { t with ctrl := ctrl1, slots := ((t.slots.set i none).set i (some b)).set ni none }) s3]
    simp only [Res.ok_bind]
    set sl := (((t.slots.set i none).set i (some b)).set ni none).set ni (some a) with hsldef
    have hslget : ∀ j : Nat, sl[j]? = if j = ni then some (some a) else if j = i then some (some b) else t.slots[j]? := by
      intro j
      rw [hsldef]
      simp only [List.getElem?_set, List.length_set]
      by_cases h1 : ni = j
      · rw [if_pos h1, if_pos hnsl, if_pos h1.symm]
      · rw [if_neg h1, if_neg (Ne.symm h1)]
        by_cases h2 : i = j
        · rw [if_neg h1, if_pos h2, if_pos hsl, if_pos h2.symm]
        · rw [if_neg h1, if_neg h2, if_neg h2, if_neg (Ne.symm h2)]
    have hD : DInv C { t with slots := sl, ctrl := ctrl1 } (c.set ni (H2 (C.hash (C.key a)))) i := by
      refine ⟨e2.congr rfl rfl, by simp [hsldef, h.slen], ?_, ?_, ?_⟩
      · intro j x hx
        simp only at hx
        rw [hslget j] at hx
        by_cases hjn : j = ni
        · rw [if_pos hjn] at hx; cases hx
          subst hjn
          right
          exact ⟨getElem?_set_self' hncl, SReach.fill h.raw.len q2 (not_eod_H2 _) ⟨n, q4, q5⟩⟩
        · rw [if_neg hjn] at hx
          rw [getElem?_set_ctrl hjn]
          by_cases hji : j = i
          · rw [if_pos hji] at hx; cases hx; subst hji
            left; exact hcd
          · rw [if_neg hji] at hx
            rcases h.some_ j x hx with h1 | ⟨h1, h2⟩
            · exact .inl h1
            · exact .inr ⟨h1, SReach.fill h.raw.len q2 (not_eod_H2 _) h2⟩
      · intro j hx
        simp only at hx
        rw [hslget j] at hx
        by_cases hjn : j = ni
        · rw [if_pos hjn] at hx; cases hx
        · rw [if_neg hjn] at hx
          by_cases hji : j = i
          · rw [if_pos hji] at hx; cases hx
          · rw [if_neg hji] at hx
            rw [getElem?_set_ctrl hjn]; exact h.none_ j hx
      · intro j hj hcj
        by_cases hjn : j = ni
        · subst hjn
          rw [getElem?_set_self' hncl] at hcj
          exact (ne_of_full (isFull_H2 (C.hash (C.key a)))).2.1 (by simpa using hcj)
        · rw [getElem?_set_ctrl hjn] at hcj
          exact h.done j hj hcj
    have hcnt1 := count_set hce (H2 (C.hash (C.key a))) kDeleted
    rw [if_pos rfl, if_neg (ne_of_full (isFull_H2 _)).2.1] at hcnt1
    have hperm : List.Perm (elems { t with slots := sl, ctrl := ctrl1 }) (elems t) := by
      have p1 : List.Perm (t.slots.filterMap id) (a :: (t.slots.set i none).filterMap id) := filterMap_set_none ha
      have p2 := filterMap_set_some b s1
      have p3 := filterMap_set_none s2
      have p4 := filterMap_set_some a s3
      have p5 : List.Perm ((t.slots.set i none).filterMap id)
          ((((t.slots.set i none).set i (some b)).set ni none).filterMap id) :=
        List.Perm.cons_inv (p2.symm.trans p3)
      exact p4.trans ((p5.symm.cons a).trans p1.symm)
    exact ⟨i, _, _, rfl, hD, hperm, rfl, rfl, rfl, by omega, by omega, by omega⟩

theorem DInv.skip {C : Cfg α κ} {t : Tbl α} {c : List Ctrl} {i : Nat} (h : DInv C t c i) (hd : c.getD i kEmpty ≠ kDeleted) :
    DInv C t c (i + 1) := by
  refine ⟨h.raw, h.slen, h.some_, h.none_, ?_⟩
  intro j hj hcj
  by_cases hji : j = i
  · subst hji
    exact hd (getD_eq_of hcj)
  · exact h.done j (by omega) hcj

theorem dropLoop_spec {C : Cfg α κ} (hG : GroupSpec C.G) : ∀ (fuel i : Nat) (t : Tbl α) (c : List Ctrl),
    C.G.W ≤ t.capacity + 1 → DInv C t c i → i ≤ t.capacity → (t.capacity - i) + c.count kDeleted < fuel →
    ∃ t' c', dropLoop C fuel i t = .ok t' ∧ DInv C t' c' t.capacity ∧ List.Perm (elems t') (elems t) ∧
      t'.capacity = t.capacity ∧ t'.size = t.size := by
  have hWpos : 0 < C.G.W := by rcases hG.width with h | h <;> omega
  intro fuel
  induction fuel with
  | zero => intro i t c _ _ _ h; omega
  | succ fuel ih =>
    intro i t c hbig h hi hf
    rw [dropLoop_succ]
    by_cases hic : i = t.capacity
    · rw [if_pos hic]
      subst hic
      exact ⟨t, c, rfl, h, List.Perm.refl _, rfl, rfl⟩
    rw [if_neg hic]
    have hi' : i < t.capacity := by omega
    have hcl : i < c.length := by rw [h.raw.len]; exact hi'
    have hctrl : t.ctrlAt i = .ok (c.getD i kEmpty) := by
      rw [h.raw.ctrlAt hWpos hi, lay_lt hi']
    rw [hctrl]
    simp only [Res.ok_bind]
    by_cases hd : c.getD i kEmpty = kDeleted
    swap
    · have hnd : isDeleted (c.getD i kEmpty) = false := by
        unfold isDeleted; simpa using hd
      rw [hnd]
      simp only [Bool.not_false, if_true]
      exact ih (i + 1) t c hbig (h.skip hd) (by omega) (by omega)
    have hcd : c[i]? = some kDeleted := by rw [getElem?_getD hcl, hd]
    rw [hd]
    simp only [show isDeleted kDeleted = true from rfl, Bool.not_true, Bool.false_eq_true, if_false]
    obtain ⟨i', t1, c1, s1, s2, s3, s4, s5, _, s6, s7, s8⟩ := dropIter_spec hG hbig h hi' hcd
    rw [s1]
    simp only [Res.ok_bind]
    obtain ⟨t', c', r1, r2, r3, r4, r5⟩ := ih i' t1 c1 (by omega) s2 (by omega) (by omega)
    exact ⟨t', c', r1, by rw [← s4]; exact r2, r3.trans s3, r4.trans s4, r5.trans s5⟩

/-- `drop_deletes_without_resize` keeps the elements and removes all deleted marks, whatever the counters say. -/
theorem dropDeletes_raw {C : Cfg α κ} (hC : CfgOk C) {t : Tbl α} {c : List Ctrl} (h : Core C t c)
    (hbig : C.G.W ≤ t.capacity + 1) :
    ∃ t' c', t.dropDeletes C = .ok t' ∧ Core C t' c' ∧ List.Perm (elems t') (elems t) ∧ t'.capacity = t.capacity ∧
      t'.size = t.size ∧ t'.growthLeft = usub (capacityToGrowth C.G.W t.capacity) t.size ∧ kDeleted ∉ c' := by
  obtain ⟨ctrl1, e1, e2⟩ := convertCtrl_spec hC.group h.raw h.valid hbig
  have hget : ∀ j : Nat, (c.map conv)[j]? = (c[j]?).map conv := fun j => List.getElem?_map ..
  have hD : DInv C { t with ctrl := ctrl1 } (c.map conv) 0 := by
    refine ⟨e2, h.sync.slen, ?_, ?_, fun j hj => absurd hj (by omega)⟩
    · intro j a ha
      left
      rw [hget, h.h2 j a ha]
      simp [conv_full (isFull_H2 _)]
    · intro j hj
      obtain ⟨x, h1, h2⟩ := h.sync.none_eod j hj
      rw [hget, h1]
      simp [conv_eod h2]
  have hcount : (c.map conv).count kDeleted ≤ t.capacity := by
    have := List.count_le_length (a := kDeleted) (l := c.map conv)
    rw [List.length_map, h.raw.len] at this
    exact this
  obtain ⟨t', c', r1, r2, r3, r4, r5⟩ := dropLoop_spec hC.group (2 * t.capacity + 1) 0 { t with ctrl := ctrl1 } _ hbig hD
    (by simp) (by simp only; omega)
  simp only at r1 r4 r5
  have hnd : kDeleted ∉ c' := by
    intro hm
    rw [List.mem_iff_getElem?] at hm
    obtain ⟨j, hj⟩ := hm
    have hjl : j < c'.length := by
      rw [List.getElem?_eq_some_iff] at hj; exact hj.1
    rw [r2.raw.len, r4] at hjl
    exact r2.done j hjl hj
  have hs : ∀ (j : Nat) (a : α), t'.slots[j]? = some (some a) →
      c'[j]? = some (H2 (C.hash (C.key a))) ∧ SReach C.G.W c' t'.capacity (C.hash (C.key a)) j := by
    intro j a ha
    rcases r2.some_ j a ha with h1 | h1
    · exact absurd (List.mem_of_getElem? h1) hnd
    · exact h1
  have hr3 : List.Perm (elems t') (elems t) := r3
  refine ⟨{ t' with growthLeft := usub (capacityToGrowth C.G.W t'.capacity) t'.size }, c', ?_,
    ⟨r2.raw.congr rfl rfl, ⟨r2.slen, ?_, ?_⟩, fun j a ha => (hs j a ha).1, ?_, ?_⟩,
    hr3, r4, r5, ?_, hnd⟩
  · unfold dropDeletes
    rw [e1]
    simp only [Res.ok_bind]
    rw [r1]
    simp only [Res.ok_bind]
  · intro j a ha
    exact ⟨_, (hs j a ha).1, isFull_H2 _⟩
  · intro j hj
    exact ⟨_, r2.none_ j hj, .inl rfl⟩
  · intro j a ha
    obtain ⟨n, h1, h2⟩ := (hs j a ha).2
    exact ⟨n, h1, fun q hq hw => h2 q hq (winHas_imp (fun x hx => Or.inl hx) hw)⟩
  · exact Distinct.perm hC hr3.symm h.distinct
  · simp only
    rw [r4, r5]

/-- The same when the counters are right. -/
theorem dropDeletes_core {C : Cfg α κ} (hC : CfgOk C) {t : Tbl α} {c : List Ctrl} (h : Core C t c)
    (hse : t.size = (elems t).length) (hsz : t.size ≤ capacityToGrowth C.G.W t.capacity)
    (hbig : C.G.W ≤ t.capacity + 1) :
    ∃ t' c', t.dropDeletes C = .ok t' ∧ Inv C t' c' ∧ List.Perm (elems t') (elems t) ∧ t'.capacity = t.capacity ∧
      t'.size = t.size ∧ t'.growthLeft = capacityToGrowth C.G.W t.capacity - t.size ∧ kDeleted ∉ c' := by
  obtain ⟨t', c', h1, h2, h3, h4, h5, h6, h7⟩ := dropDeletes_raw hC h hbig
  rw [usub_of_le hsz] at h6
  refine ⟨t', c', h1, ⟨h2, ?_, ?_, fun _ => h7⟩, h3, h4, h5, h6, h7⟩
  · rw [h5, hse, h3.length_eq]
  · rw [List.count_eq_zero.2 h7, h4, h5, h6]; omega

theorem dropDeletes_inv {C : Cfg α κ} (hC : CfgOk C) {t : Tbl α} {c : List Ctrl} (h : Inv C t c)
    (hbig : C.G.W ≤ t.capacity + 1) :
    ∃ t' c', t.dropDeletes C = .ok t' ∧ Inv C t' c' ∧ List.Perm (elems t') (elems t) ∧ t'.capacity = t.capacity ∧
      t'.size = t.size ∧ t'.growthLeft = capacityToGrowth C.G.W t.capacity - t.size ∧ kDeleted ∉ c' :=
  dropDeletes_core hC h.core h.size_eq (by have := h.growth; omega) hbig

end Gtl.Swiss
