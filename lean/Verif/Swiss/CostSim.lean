import Verif.Swiss.Cost
import Verif.Swiss.History
import Verif.Spec.Cost
/-! The counting functions do what the functions they count do, and what they count is paid for. -/

namespace Gtl.Swiss
variable {α κ : Type}

open Tbl Spec

namespace Work

@[simp] theorem add_hashes (a b : Work) : (a + b).hashes = a.hashes + b.hashes := rfl
@[simp] theorem add_moves (a b : Work) : (a + b).moves = a.moves + b.moves := rfl
@[simp] theorem add_scans (a b : Work) : (a + b).scans = a.scans + b.scans := rfl
@[simp] theorem none_hashes : none.hashes = 0 := rfl
@[simp] theorem none_moves : none.moves = 0 := rfl
@[simp] theorem none_scans : none.scans = 0 := rfl
@[simp] theorem hash_hashes : hash.hashes = 1 := rfl
@[simp] theorem hash_moves : hash.moves = 0 := rfl
@[simp] theorem hash_scans : hash.scans = 0 := rfl

end Work

/-! ### `resize` -/

theorem resizeStepW_of {C : Cfg α κ} {s s' : Tbl α × Tbl α} {i : Nat} (w : Work) (h : resizeStep C s i = .ok s') :
    ∃ c, s.1.ctrl[i]? = some c ∧ s'.1.ctrl = s.1.ctrl ∧
      resizeStepW C (s, w) i = .ok (s', w + (if isFull c then ⟨1, 1, 1⟩ else ⟨0, 0, 1⟩)) := by
  obtain ⟨old, t⟩ := s
  unfold resizeStep at h
  simp only at h
  rw [Res.bind_eq_ok] at h
  obtain ⟨c, h1, h⟩ := h
  have hc : old.ctrl[i]? = some c := by
    unfold ctrlAt at h1
    cases ho : old.ctrl[i]? with
    | none => rw [ho] at h1; cases h1
    | some x => rw [ho] at h1; cases h1; rfl
  refine ⟨c, hc, ?_⟩
  unfold resizeStepW
  simp only
  rw [h1]
  simp only [Res.ok_bind]
  by_cases hf : isFull c
  · rw [if_pos hf] at h
    rw [if_pos hf, if_pos hf]
    rw [Res.bind_eq_ok] at h
    obtain ⟨a, h2, h⟩ := h
    rw [Res.bind_eq_ok] at h
    obtain ⟨n, h3, h⟩ := h
    rw [Res.bind_eq_ok] at h
    obtain ⟨t1, h4, h⟩ := h
    rw [Res.bind_eq_ok] at h
    obtain ⟨t2, h5, h⟩ := h
    rw [Res.bind_eq_ok] at h
    obtain ⟨o2, h6, h⟩ := h
    cases h
    refine ⟨?_, ?_⟩
    · unfold destroySlot at h6
      split at h6
      · cases h6; rfl
      · cases h6
    · rw [h2]; simp only [Res.ok_bind]
      rw [h3]; simp only [Res.ok_bind]
      rw [h4]; simp only [Res.ok_bind]
      rw [h5]; simp only [Res.ok_bind]
      rw [h6]; simp only [Res.ok_bind]
  · rw [if_neg hf] at h
    rw [if_neg hf, if_neg hf]
    cases h
    exact ⟨rfl, rfl⟩

theorem resizeFold_of {C : Cfg α κ} : ∀ (is : List Nat) {s s' : Tbl α × Tbl α} (w : Work),
    is.foldlM (resizeStep C) s = .ok s' →
    ∃ w', is.foldlM (resizeStepW C) (s, w) = .ok (s', w') ∧
      w'.hashes = w.hashes + is.countP (fun i => isFull (s.1.ctrl.getD i kEmpty)) ∧
      w'.moves = w.moves + is.countP (fun i => isFull (s.1.ctrl.getD i kEmpty)) ∧
      w'.scans = w.scans + is.length
  | [], s, s', w, h => by cases h; exact ⟨w, rfl, rfl, rfl, rfl⟩
  | i :: is, s, s', w, h => by
    rw [List.foldlM_cons] at h
    have h : (resizeStep C s i >>= fun s => List.foldlM (resizeStep C) s is) = .ok s' := h
    rw [Res.bind_eq_ok] at h
    obtain ⟨s1, h1, h2⟩ := h
    obtain ⟨c, g1, g2, g3⟩ := resizeStepW_of w h1
    obtain ⟨w', k1, k2, k3, k4⟩ := resizeFold_of is (w + (if isFull c then ⟨1, 1, 1⟩ else ⟨0, 0, 1⟩)) h2
    rw [g2] at k2 k3
    have hg : s.1.ctrl.getD i kEmpty = c := by rw [List.getD_eq_getElem?_getD, g1]; rfl
    refine ⟨w', ?_, ?_, ?_, ?_⟩
    · rw [List.foldlM_cons]
      show (resizeStepW C (s, w) i >>= fun s => List.foldlM (resizeStepW C) s is) = _
      rw [g3]; exact k1
    · rw [k2, List.countP_cons, hg]
      by_cases hf : isFull c <;> simp [hf] <;> omega
    · rw [k3, List.countP_cons, hg]
      by_cases hf : isFull c <;> simp [hf] <;> omega
    · rw [k4, List.length_cons]
      by_cases hf : isFull c <;> simp [hf] <;> omega

theorem countP_range_getD (c : List Ctrl) (p : Ctrl → Bool) :
    (List.range c.length).countP (fun i => p (c.getD i kEmpty)) = c.countP p := by
  induction c using List.reverseRecOn with
  | nil => rfl
  | append_singleton l a ih =>
    rw [List.length_append, List.length_singleton, List.range_succ, List.countP_append, List.countP_append]
    congr 1
    · rw [← ih]
      apply List.countP_congr
      intro i hi
      rw [List.mem_range] at hi
      rw [List.getD_eq_getElem?_getD, List.getD_eq_getElem?_getD, List.getElem?_append_left hi]
    · simp [List.getD_eq_getElem?_getD]

/-- Full bytes are elements. -/
theorem Core.full {C : Cfg α κ} {t : Tbl α} {c : List Ctrl} (h : Core C t c) : c.countP isFull = (elems t).length := by
  have h1 := h.counts
  have h2 : c.countP isFull + c.count kDeleted + c.count kEmpty = c.length := by
    have hv := h.valid
    clear h h1
    induction c with
    | nil => rfl
    | cons x c ih =>
      have := ih (fun y hy => hv y (List.mem_cons_of_mem _ hy))
      rw [List.countP_cons, List.count_cons, List.count_cons, List.length_cons]
      rcases hv x List.mem_cons_self with hx | rfl | rfl
      · have hn := ne_of_full hx
        simp only [hx, if_true, beq_iff_eq, hn.1, hn.2.1, if_false]
        omega
      · simp only [show isFull kEmpty = false from rfl, show (kEmpty == kDeleted) = false from rfl, beq_self_eq_true,
          Bool.false_eq_true, if_false, if_true]
        omega
      · simp only [show isFull kDeleted = false from rfl, show (kDeleted == kEmpty) = false from rfl, beq_self_eq_true,
          Bool.false_eq_true, if_false, if_true]
        omega
  rw [h.raw.len] at h2
  omega

theorem resizeW_of {C : Cfg α κ} (hC : CfgOk C) {t : Tbl α} {c : List Ctrl} (h : Core C t c) {n : Nat} {t' : Tbl α}
    (hr : t.resize C n = .ok t') :
    ∃ w, t.resizeW C n = .ok (t', w) ∧ w.hashes = (elems t).length ∧ w.moves = (elems t).length ∧
      w.scans = t.capacity := by
  have hWpos : 0 < C.G.W := by rcases hC.group.width with h | h <;> omega
  unfold resize at hr
  rw [Res.bind_eq_ok] at hr
  obtain ⟨s, h1, h2⟩ := hr
  obtain ⟨w, k1, k2, k3, k4⟩ := resizeFold_of _ Work.none h1
  have hcnt : (List.range t.capacity).countP (fun i => isFull (t.ctrl.getD i kEmpty)) = (elems t).length := by
    rw [← h.full, ← countP_range_getD c isFull, h.raw.len]
    apply List.countP_congr
    intro i hi
    rw [List.mem_range] at hi
    have := h.raw.bytes i (by omega)
    rw [lay_lt hi] at this
    rw [List.getD_eq_getElem?_getD, this]
    rfl
  refine ⟨w, ?_, ?_, ?_, ?_⟩
  · unfold resizeW
    rw [k1]
    simp only [Res.ok_bind]
    simp only at h2
    split at h2
    · rename_i hall
      cases h2
      rw [if_pos hall]
    · cases h2
  · rw [k2]; simp only [Work.none_hashes, Nat.zero_add]; exact hcnt
  · rw [k3]; simp only [Work.none_moves, Nat.zero_add]; exact hcnt
  · rw [k4]; simp

/-! ### Dropping the tombstones -/

theorem construct_frame {t t' : Tbl α} {i : Nat} {a : α} (h : t.constructSlot i a = .ok t') :
    t'.ctrl = t.ctrl ∧ t'.capacity = t.capacity ∧ t'.growthLeft = t.growthLeft ∧ t'.size = t.size := by
  unfold constructSlot at h
  split at h
  · cases h; exact ⟨rfl, rfl, rfl, rfl⟩
  · cases h

theorem destroy_frame {t t' : Tbl α} {i : Nat} (h : t.destroySlot i = .ok t') :
    t'.ctrl = t.ctrl ∧ t'.capacity = t.capacity ∧ t'.growthLeft = t.growthLeft ∧ t'.size = t.size := by
  unfold destroySlot at h
  split at h
  · cases h; exact ⟨rfl, rfl, rfl, rfl⟩
  · cases h

theorem set_frame {W : Nat} {t t' : Tbl α} {i : Nat} {x : Ctrl} (h : t.setCtrl W i x = .ok t') :
    t'.capacity = t.capacity ∧ t'.growthLeft = t.growthLeft ∧ t'.size = t.size := by
  unfold setCtrl at h
  simp only at h
  split at h
  · cases h; exact ⟨rfl, rfl, rfl⟩
  · cases h

theorem LValid.set {c : List Ctrl} (h : LValid c) (i : Nat) {x : Ctrl} (hx : isFull x = true ∨ x = kEmpty ∨ x = kDeleted) :
    LValid (c.set i x) := by
  intro y hy
  rcases List.mem_or_eq_of_mem_set hy with hy | rfl
  · exact h y hy
  · exact hx

theorem count_set_deleted {c : List Ctrl} {i : Nat} {x y : Ctrl} (h : c[i]? = some y) :
    (c.set i x).count kDeleted + (if y = kDeleted then 1 else 0) = c.count kDeleted + (if x = kDeleted then 1 else 0) := by
  rw [List.getElem?_eq_some_iff] at h
  obtain ⟨hi, rfl⟩ := h
  rw [List.count_set hi]
  have : (if (c[i] == kDeleted) = true then 1 else 0) ≤ c.count kDeleted := by
    split
    · rename_i e
      rw [beq_iff_eq] at e
      exact List.count_pos_iff.2 (e ▸ List.getElem_mem hi)
    · omega
  simp only [beq_iff_eq] at this ⊢
  omega

theorem raw_set {W : Nat} {t t' : Tbl α} {c : List Ctrl} (r : Raw W t c) (hW : W = 8 ∨ W = 16) {i : Nat}
    (hi : i < t.capacity) {x : Ctrl} (h : t.setCtrl W i x = .ok t') :
    Raw W t' (c.set i x) ∧ t'.capacity = t.capacity := by
  obtain ⟨ctrl', h1, h2⟩ := r.setCtrl hW hi x
  rw [h] at h1
  cases h1
  exact ⟨h2, rfl⟩

theorem dropLoopW_of {C : Cfg α κ} (hG : GroupSpec C.G) : ∀ (fuel i : Nat) (t t' : Tbl α) (c : List Ctrl) (w : Work),
    Raw C.G.W t c → LValid c → i ≤ t.capacity → dropLoop C fuel i t = .ok t' →
    ∃ w', dropLoopW C fuel i t w = .ok (t', w') ∧ w'.hashes ≤ w.hashes + c.count kDeleted ∧
      w'.moves ≤ w.moves + 3 * c.count kDeleted ∧ w'.scans ≤ w.scans + (t.capacity - i) + c.count kDeleted := by
  have hW := hG.width
  have hWpos : 0 < C.G.W := by rcases hG.width with h | h <;> omega
  intro fuel
  induction fuel with
  | zero => intro i t t' c w _ _ _ h; cases h
  | succ fuel ih =>
    intro i t t' c w hr hv hi h
    unfold dropLoop at h
    unfold dropLoopW
    by_cases h0 : i = t.capacity
    · rw [if_pos h0] at h ⊢
      cases h
      exact ⟨w, rfl, by omega, by omega, by omega⟩
    rw [if_neg h0] at h ⊢
    have hlt : i < t.capacity := by omega
    have hcl : i < c.length := by rw [hr.len]; exact hlt
    rw [hr.ctrlAt hWpos (by omega), lay_lt hlt] at h ⊢
    simp only [Res.ok_bind] at h ⊢
    have hci : c[i]? = some (c.getD i kEmpty) := by
      rw [List.getD_eq_getElem?_getD, List.getElem?_eq_getElem hcl]; rfl
    by_cases hd : isDeleted (c.getD i kEmpty) = true
    swap
    · rw [if_pos (by simpa using hd)] at h ⊢
      obtain ⟨w', k1, k2, k3, k4⟩ := ih (i + 1) t t' c (w + ⟨0, 0, 1⟩) hr hv (by omega) h
      simp only [Work.add_hashes, Work.add_moves, Work.add_scans] at k2 k3 k4
      exact ⟨w', k1, by omega, by omega, by omega⟩
    have hnd : ¬ ((!isDeleted (c.getD i kEmpty)) = true) := by rw [hd]; decide
    rw [if_neg hnd] at h ⊢
    have hde : c.getD i kEmpty = kDeleted := by
      unfold isDeleted at hd; simpa using hd
    rw [hde] at hci
    rw [Res.bind_eq_ok] at h
    obtain ⟨a, h1, h⟩ := h
    rw [h1]; simp only [Res.ok_bind]
    rw [Res.bind_eq_ok] at h
    obtain ⟨n, h2, h⟩ := h
    rw [h2]; simp only [Res.ok_bind]
    have hex : ∃ x ∈ c, Eod x := ⟨kDeleted, List.mem_of_getElem? hci, .inr rfl⟩
    obtain ⟨n', _, f1, f2, f3, _, _⟩ := findFirstNonFull_spec hG hr hv (C.hash (C.key a)) hex
    rw [f1] at h2; cases h2
    have hcn : c[n]? = some (c.getD n kEmpty) := by
      rw [List.getD_eq_getElem?_getD, List.getElem?_eq_getElem (by rw [hr.len]; exact f2)]; rfl
    have hf := isFull_H2 (C.hash (C.key a))
    have hH := ne_of_full hf
    by_cases hp : subMask n (Probe.start (C.hash (C.key a)) t.capacity).offset t.capacity / C.G.W =
        subMask i (Probe.start (C.hash (C.key a)) t.capacity).offset t.capacity / C.G.W
    · rw [if_pos hp] at h ⊢
      rw [Res.bind_eq_ok] at h
      obtain ⟨t1, h3, h⟩ := h
      rw [h3]; simp only [Res.ok_bind]
      obtain ⟨r1, e1⟩ := raw_set hr hW hlt h3
      obtain ⟨w', k1, k2, k3, k4⟩ := ih (i + 1) t1 t' _ (w + ⟨1, 0, 1⟩) r1 (hv.set i (.inl hf)) (by omega) h
      have := count_set_deleted (x := H2 (C.hash (C.key a))) hci
      rw [if_pos rfl, if_neg hH.2.1] at this
      simp only [Work.add_hashes, Work.add_moves, Work.add_scans] at k2 k3 k4
      exact ⟨w', k1, by omega, by omega, by omega⟩
    rw [if_neg hp] at h ⊢
    rw [hr.ctrlAt hWpos (by omega), lay_lt f2] at h ⊢
    simp only [Res.ok_bind] at h ⊢
    by_cases he : isEmpty (c.getD n kEmpty) = true
    · rw [if_pos he] at h ⊢
      have hee : c.getD n kEmpty = kEmpty := by unfold isEmpty at he; simpa using he
      rw [hee] at hcn
      have hne : n ≠ i := by
        rintro rfl
        rw [hci] at hcn; exact absurd hcn (by decide)
      rw [Res.bind_eq_ok] at h
      obtain ⟨t1, h3, h⟩ := h
      rw [Res.bind_eq_ok] at h
      obtain ⟨t2, h4, h⟩ := h
      rw [Res.bind_eq_ok] at h
      obtain ⟨t3, h5, h⟩ := h
      rw [Res.bind_eq_ok] at h
      obtain ⟨t4, h6, h⟩ := h
      rw [h3]; simp only [Res.ok_bind]
      rw [h4]; simp only [Res.ok_bind]
      rw [h5]; simp only [Res.ok_bind]
      rw [h6]; simp only [Res.ok_bind]
      obtain ⟨r1, e1⟩ := raw_set hr hW f2 h3
      obtain ⟨a1, a2, _⟩ := construct_frame h4
      obtain ⟨b1, b2, _⟩ := destroy_frame h5
      have r3 := (r1.congr a1 a2).congr b1 b2
      obtain ⟨r4, e4⟩ := raw_set r3 hW (by omega) h6
      have hci' : (c.set n (H2 (C.hash (C.key a))))[i]? = some kDeleted := by
        rw [List.getElem?_set, if_neg hne]; exact hci
      obtain ⟨w', k1, k2, k3, k4⟩ := ih (i + 1) t4 t' _ (w + ⟨1, 1, 1⟩) r4
        ((hv.set n (.inl hf)).set i (.inr (.inl rfl))) (by omega) h
      have q1 := count_set_deleted (x := H2 (C.hash (C.key a))) hcn
      have q2 := count_set_deleted (x := kEmpty) hci'
      rw [if_neg (by decide), if_neg hH.2.1] at q1
      rw [if_pos rfl, if_neg (by decide)] at q2
      simp only [Work.add_hashes, Work.add_moves, Work.add_scans] at k2 k3 k4
      exact ⟨w', k1, by omega, by omega, by omega⟩
    · rw [if_neg he] at h ⊢
      have hee : c.getD n kEmpty = kDeleted := by
        rcases f3 with e | e
        · rw [e] at he; exact absurd rfl he
        · exact e
      rw [hee] at hcn
      rw [Res.bind_eq_ok] at h
      obtain ⟨t1, h3, h⟩ := h
      rw [Res.bind_eq_ok] at h
      obtain ⟨b, h4, h⟩ := h
      rw [Res.bind_eq_ok] at h
      obtain ⟨t3, h5, h⟩ := h
      rw [Res.bind_eq_ok] at h
      obtain ⟨t4, h6, h⟩ := h
      rw [Res.bind_eq_ok] at h
      obtain ⟨t5, h7, h⟩ := h
      rw [Res.bind_eq_ok] at h
      obtain ⟨t6, h8, h⟩ := h
      rw [h3]; simp only [Res.ok_bind]
      rw [h4]; simp only [Res.ok_bind]
      rw [h5]; simp only [Res.ok_bind]
      rw [h6]; simp only [Res.ok_bind]
      rw [h7]; simp only [Res.ok_bind]
      rw [h8]; simp only [Res.ok_bind]
      obtain ⟨r1, e1⟩ := raw_set hr hW f2 h3
      obtain ⟨a1, a2, _⟩ := destroy_frame h5
      obtain ⟨b1, b2, _⟩ := construct_frame h6
      obtain ⟨c1, c2, _⟩ := destroy_frame h7
      obtain ⟨d1, d2, _⟩ := construct_frame h8
      have r6 := (((r1.congr a1 a2).congr b1 b2).congr c1 c2).congr d1 d2
      obtain ⟨w', k1, k2, k3, k4⟩ := ih i t6 t' _ (w + ⟨1, 3, 1⟩) r6 (hv.set n (.inl hf)) (by omega) h
      have q1 := count_set_deleted (x := H2 (C.hash (C.key a))) hcn
      rw [if_pos rfl, if_neg hH.2.1] at q1
      simp only [Work.add_hashes, Work.add_moves, Work.add_scans] at k2 k3 k4
      exact ⟨w', k1, by omega, by omega, by omega⟩

theorem count_conv (c : List Ctrl) : (c.map conv).count kDeleted = c.countP isFull := by
  induction c with
  | nil => rfl
  | cons x c ih =>
    rw [List.map_cons, List.count_cons, List.countP_cons, ih]
    unfold conv
    by_cases h : isFull x = true
    · rw [if_pos h, if_pos h]; rfl
    · rw [if_neg h, if_neg h]; rfl

theorem conv_valid (c : List Ctrl) : LValid (c.map conv) := by
  intro x hx
  rw [List.mem_map] at hx
  obtain ⟨y, _, rfl⟩ := hx
  unfold conv
  split
  · exact .inr (.inr rfl)
  · exact .inr (.inl rfl)

theorem dropDeletesW_of {C : Cfg α κ} (hC : CfgOk C) {t : Tbl α} {c : List Ctrl} (h : Core C t c)
    (hbig : C.G.W ≤ t.capacity + 1) {t' : Tbl α} (hr : t.dropDeletes C = .ok t') :
    ∃ w, t.dropDeletesW C = .ok (t', w) ∧ w.hashes ≤ (elems t).length ∧ w.moves ≤ 3 * (elems t).length ∧
      w.scans ≤ t.capacity + (elems t).length := by
  obtain ⟨ctrl1, e1, e2⟩ := convertCtrl_spec hC.group h.raw h.valid hbig
  unfold dropDeletes at hr
  unfold dropDeletesW
  rw [e1] at hr ⊢
  simp only [Res.ok_bind] at hr ⊢
  rw [Res.bind_eq_ok] at hr
  obtain ⟨t1, h1, h2⟩ := hr
  obtain ⟨w, k1, k2, k3, k4⟩ := dropLoopW_of hC.group _ 0 _ t1 _ Work.none e2 (conv_valid c) (by omega) h1
  rw [count_conv, h.full] at k2 k3 k4
  simp only [Work.none_hashes, Work.none_moves, Work.none_scans] at k2 k3 k4
  refine ⟨w, ?_, by omega, by omega, by omega⟩
  rw [k1]
  simp only [Res.ok_bind]
  cases h2
  rfl

/-! ### The potential -/

/-- What has been saved up for the next rehash. -/
def Phi (C : Cfg α κ) (t : Tbl α) : Nat :=
  2 * (capacityToGrowth C.G.W t.capacity - t.growthLeft) - capacityToGrowth C.G.W t.capacity

/-- The work `w`, which leads from `t` to `t'`, is paid for by what had been saved, by `keys` passed keys, by `add`
added elements and by `room` requested places. -/
def Paid (C : Cfg α κ) (t t' : Tbl α) (w : Work) (keys add room : Nat) : Prop :=
  w.hashes + Phi C t' ≤ Phi C t + keys + 2 * add + room ∧
  2 * w.moves + 3 * Phi C t' ≤ 3 * Phi C t + 6 * add + 2 * room ∧
  2 * w.scans + 5 * Phi C t' ≤ 5 * Phi C t + 10 * add + 8 * room

theorem growth_twice (W c n : Nat) (h : c * 2 + 1 ≤ n) : 2 * capacityToGrowth W c ≤ capacityToGrowth W n := by
  unfold capacityToGrowth
  split <;> split <;> omega

theorem cap_le_growth (W c : Nat) : c ≤ 2 * capacityToGrowth W c := by
  unfold capacityToGrowth
  split <;> omega

theorem pow_jump {a b : Nat} (ha : ∃ k, a + 1 = 2 ^ k) (hb : ∃ k, b + 1 = 2 ^ k) (h : a < b) : a * 2 + 1 ≤ b := by
  obtain ⟨j, hj⟩ := ha
  obtain ⟨k, hk⟩ := hb
  have hjk : j < k := by
    by_contra hcon
    have := Nat.pow_le_pow_right (n := 2) (by omega) (show k ≤ j by omega)
    omega
  have := Nat.pow_le_pow_right (n := 2) (by omega) (show j + 1 ≤ k by omega)
  rw [Nat.pow_succ] at this
  omega

theorem rehashAndGrowW_of {C : Cfg α κ} (hC : CfgOk C) {t : Tbl α} {c : List Ctrl} (h : Inv C t c)
    (h0 : t.growthLeft = 0) {t' : Tbl α} (hr : t.rehashAndGrow C = .ok t') :
    ∃ w, t.rehashAndGrowW C = .ok (t', w) ∧ Paid C t t' w 0 0 0 ∧ Phi C t' = 0 := by
  have hgr := h.growth
  have hse := h.size_eq
  unfold rehashAndGrow at hr
  unfold rehashAndGrowW
  by_cases hc0 : t.capacity = 0
  · rw [if_pos hc0] at hr ⊢
    have hsz : t.size = 0 := by
      have := capacityToGrowth_le C.G.W t.capacity
      omega
    obtain ⟨t1, c', r1, r2, r3, r4, r5, r6, r7⟩ := resize_inv hC h (newCap := 1) ⟨1, by norm_num⟩ (by rw [hsz]; omega)
    rw [hr] at r1; cases r1
    obtain ⟨w, k1, k2, k3, k4⟩ := resizeW_of hC h.core hr
    have hphi : Phi C t' = 0 := by unfold Phi; rw [r4, r6, hsz]; omega
    refine ⟨w, k1, ⟨?_, ?_, ?_⟩, hphi⟩ <;> rw [hphi] <;> omega
  rw [if_neg hc0] at hr ⊢
  have hphi0 : Phi C t = capacityToGrowth C.G.W t.capacity := by unfold Phi; omega
  have hcap := cap_le_growth C.G.W t.capacity
  have hpos := capacityToGrowth_pos (W := C.G.W) (cap := t.capacity) (by omega)
  by_cases hs : t.size ≤ capacityToGrowth C.G.W t.capacity / 2
  · rw [if_pos hs] at hr ⊢
    have hd : kDeleted ∈ c := List.count_pos_iff.1 (by omega)
    have hbig : C.G.W ≤ t.capacity + 1 := by
      by_contra hcon
      exact h.small (by omega) hd
    obtain ⟨t1, c', r1, r2, r3, r4, r5, r6, r7⟩ := dropDeletes_inv hC h hbig
    rw [hr] at r1; cases r1
    obtain ⟨w, k1, k2, k3, k4⟩ := dropDeletesW_of hC h.core hbig hr
    have hphi : Phi C t' = 0 := by unfold Phi; rw [r4, r6]; omega
    refine ⟨w, k1, ⟨?_, ?_, ?_⟩, hphi⟩ <;> rw [hphi, hphi0] <;> omega
  · rw [if_neg hs] at hr ⊢
    obtain ⟨k, hk⟩ := h.core.raw.pow
    have hdb := growth_twice C.G.W t.capacity (t.capacity * 2 + 1) (by omega)
    obtain ⟨t1, c', r1, r2, r3, r4, r5, r6, r7⟩ := resize_inv hC h (newCap := t.capacity * 2 + 1)
      ⟨k + 1, by rw [pow_succ]; omega⟩ (by omega)
    rw [hr] at r1; cases r1
    obtain ⟨w, k1, k2, k3, k4⟩ := resizeW_of hC h.core hr
    have hphi : Phi C t' = 0 := by unfold Phi; rw [r4, r6]; omega
    refine ⟨w, k1, ⟨?_, ?_, ?_⟩, hphi⟩ <;> rw [hphi, hphi0] <;> omega

/-- Taking a slot. -/
theorem phi_take {C : Cfg α κ} {t t' : Tbl α} {d : Nat} (hd : d ≤ 1) (hc : t'.capacity = t.capacity)
    (hg : t'.growthLeft = usub t.growthLeft d) : Phi C t' ≤ Phi C t + 2 := by
  unfold Phi
  rw [hc, hg]
  unfold usub
  have := capacityToGrowth_le C.G.W t.capacity
  split
  · omega
  · omega

theorem prepareInsertW_of {C : Cfg α κ} (hC : CfgOk C) {t : Tbl α} {c : List Ctrl} (h : Inv C t c) {hv : Nat}
    {r : Tbl α × Nat} (hr : t.prepareInsert C hv = .ok r) :
    ∃ w, t.prepareInsertW C hv = .ok (r, w) ∧ Paid C t r.1 w 0 1 0 := by
  unfold prepareInsert at hr
  rw [Res.bind_eq_ok] at hr
  obtain ⟨i, h1, hr⟩ := hr
  rw [Res.bind_eq_ok] at hr
  obtain ⟨x, h2, hr⟩ := hr
  unfold prepareInsertW
  rw [h1]; simp only [Res.ok_bind]
  rw [h2]; simp only [Res.ok_bind]
  by_cases hg : t.growthLeft = 0 ∧ ¬ isDeleted x
  · rw [if_pos hg] at hr ⊢
    rw [Res.bind_eq_ok] at hr
    obtain ⟨t1, h3, hr⟩ := hr
    rw [Res.bind_eq_ok] at hr
    obtain ⟨j, h4, hr⟩ := hr
    obtain ⟨w, k1, k2, k3⟩ := rehashAndGrowW_of hC h hg.1 h3
    rw [k1]; simp only [Res.ok_bind]
    rw [h4]; simp only [Res.ok_bind]
    simp only [Res.ok_bind] at hr
    rw [Res.bind_eq_ok] at hr
    obtain ⟨y, h6, hr⟩ := hr
    rw [h6]; simp only [Res.ok_bind]
    cases hr
    refine ⟨w, rfl, ?_⟩
    have := phi_take (C := C) (t := t1) (t' := { t1 with size := t1.size + 1, growthLeft := usub t1.growthLeft (if isEmpty y then 1 else 0) })
      (d := if isEmpty y then 1 else 0) (by split <;> omega) rfl rfl
    obtain ⟨p1, p2, p3⟩ := k2
    refine ⟨?_, ?_, ?_⟩ <;> simp only <;> omega
  · rw [if_neg hg] at hr ⊢
    simp only [Res.ok_bind] at hr ⊢
    rw [h2] at hr
    simp only [Res.ok_bind] at hr
    cases hr
    refine ⟨Work.none, rfl, ?_⟩
    have := phi_take (C := C) (t := t) (t' := { t with size := t.size + 1, growthLeft := usub t.growthLeft (if isEmpty x then 1 else 0) })
      (d := if isEmpty x then 1 else 0) (by split <;> omega) rfl rfl
    refine ⟨?_, ?_, ?_⟩ <;> simp only [Work.none_hashes, Work.none_moves, Work.none_scans] <;> omega

theorem phi_congr {C : Cfg α κ} {t t' : Tbl α} (h1 : t'.capacity = t.capacity) (h2 : t'.growthLeft = t.growthLeft) :
    Phi C t' = Phi C t := by unfold Phi; rw [h1, h2]

/-- More room left, less to save. -/
theorem phi_mono {C : Cfg α κ} {t t' : Tbl α} (h1 : t'.capacity = t.capacity) (h2 : t.growthLeft ≤ t'.growthLeft) :
    Phi C t' ≤ Phi C t := by unfold Phi; rw [h1]; omega

end Gtl.Swiss
