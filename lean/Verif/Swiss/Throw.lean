import Verif.Swiss.History
/-!
# Failures: exceptions thrown by element constructors, and the full table produced by `rehash(0)`
-/

namespace Gtl.Swiss

open Tbl

namespace Tbl
variable {α κ : Type} (C : Cfg α κ)

/-- `emplace_decomposable` (phmap.hpp:2543-2552) / `lazy_emplace_with_hash` (2187-2196) when the constructor of
the new element throws: `prepare_insert` has run, `emplace_at` throws, `set_ctrl` is not reached and nothing
is rolled back. Returns the state the caller sees after catching the exception, and whether it was thrown. -/
def emplaceThrow (t : Tbl α) (k : κ) (hashval : Nat) : Res (Tbl α × Bool) := do
  match ← t.findHash C k hashval with
  | some _ => .ok (t, false)
  | none => do
    let (t, _) ← t.prepareInsert C hashval
    .ok (t, true)

/-- Copy constructor (phmap.hpp:1817-1830) when copying element number `n` (counted from 0) throws.  The
control byte of the target slot is already set (1826) when `emplace_at` throws (1827).  The target constructor
of this delegating constructor has completed, so the destructor (1886) runs: it destroys every slot that is
marked full. -/
def copyThrow (that : Tbl α) (n : Nat) : Res (Tbl α) := do
  let t ← (empty : Tbl α).rehash C that.capacity
  let vs ← that.iterate C
  match vs[n]? with
  | none => .ub
  | some v => do
    let t ← (vs.take n).foldlM (fun t v => do
      let hashval := C.hash (C.key v)
      let target ← t.findFirstNonFull C hashval
      let t ← t.setCtrl C.G.W target (H2 hashval)
      t.constructSlot target v) t
    let hashval := C.hash (C.key v)
    let target ← t.findFirstNonFull C hashval
    let t ← t.setCtrl C.G.W target (H2 hashval)
    t.destroySlots

end Tbl

variable {α κ : Type}

/-! ### A table without an empty byte -/

/-- With no empty control byte, the search for an absent key never ends, whatever the number of iterations. -/
theorem probeFind_hang {C : Cfg α κ} (hG : GroupSpec C.G) {t : Tbl α} {c : List Ctrl} (r : Raw C.G.W t c)
    (s : Sync t c) (hbig : C.G.W ≤ t.capacity + 1) (hno : kEmpty ∉ c) (pred : α → Bool)
    (hp : ∀ a ∈ elems t, pred a = false) (hash : Nat) :
    ∀ fuel m, t.probeFind C pred (H2 hash) fuel (probeAt C.G.W t.capacity hash m) = .hang := by
  have hW := hG.width
  have hWpos : 0 < C.G.W := by rcases hW with h | h <;> omega
  obtain ⟨k, hk⟩ := r.pow
  have hv : LValid c := s.valid r.len
  intro fuel
  induction fuel with
  | zero => intro m; rfl
  | succ fuel ih =>
    intro m
    unfold Tbl.probeFind
    have hoff : (probeAt C.G.W t.capacity hash m).offset = off C.G.W t.capacity hash m := rfl
    rw [hoff, r.load hWpos (off_le _ _ _ _)]
    simp only [Res.ok_bind]
    set o := off C.G.W t.capacity hash m with ho
    have hole : o ≤ t.capacity := off_le _ _ _ _
    set g := win c t.capacity C.G.W o with hg
    have hgl : g.length = C.G.W := win_length _ _ _ _
    have hgv : ∀ x ∈ g, Valid x := win_valid r.len hv
    have hcand : ∀ i ∈ (C.G.matchH2 g (H2 hash)).toList,
        ∃ a, t.slots[(probeAt C.G.W t.capacity hash m).at_ t.capacity i]? = some (some a) := by
      intro i hi
      obtain ⟨x, hx, hfull⟩ := hG.matchH2_sound g (H2 hash) hgl hgv (isFull_H2 _) i hi
      obtain ⟨hiW, rfl⟩ := win_getElem?_some hx
      rw [probe_at hk]
      obtain ⟨h1, h2, h3⟩ := full_real hfull
      rw [h3] at hfull
      exact s.full_slot h2 (getElem?_getD (by rw [r.len]; exact h2)) hfull
    obtain ⟨res, hres, hs1, hs2⟩ := scan_spec t pred (probeAt C.G.W t.capacity hash m) _ hcand
    rw [hres]
    simp only [Res.ok_bind]
    cases res with
    | some off' =>
      obtain ⟨_, a, ha, hpa⟩ := hs1 _ rfl
      rw [hp a (mem_elems.2 ⟨_, ha⟩)] at hpa; cases hpa
    | none =>
      simp only
      have hE : ¬ (C.G.matchEmpty g).toBool = true := by
        intro hE
        obtain ⟨j, hj⟩ := (hG.matchEmpty_bool g hgl hgv).1 hE
        obtain ⟨hjW, he⟩ := win_getElem?_some hj
        obtain ⟨e1, e2⟩ := eod_real (c := c) (cap := t.capacity) (p := o + j) (by omega) (.inl he.symm)
        rw [e2] at he
        apply hno
        rw [he]
        have hlt : (o + j) % (t.capacity + 1) < c.length := by rw [r.len]; exact e1
        exact List.mem_of_getElem? (getElem?_getD hlt)
      rw [if_neg hE, probe_next hk]
      exact ih (m + 1)

/-- `rehash(0)` of a table whose size is one less than a power of two. -/
theorem rehash_zero_full {C : Cfg α κ} (hC : CfgOk C) {t : Tbl α} {c : List Ctrl} (h : Inv C t c)
    (hp : ∃ k, t.size + 1 = 2 ^ k) (hbig : C.G.W ≤ t.size + 1) :
    ∃ t' c', t.rehash C 0 = .ok t' ∧ Core C t' c' ∧ List.Perm (elems t') (elems t) ∧ t'.capacity = t.size ∧
      kEmpty ∉ c' ∧ t'.growthLeft = capacityToGrowth C.G.W t.size + 2 ^ 64 - t.size := by
  have hW := hC.group.width
  have hsz : t.size ≠ 0 := by rcases hW with h | h <;> omega
  have hcap : t.capacity ≠ 0 := by
    intro h0
    have := h.growth; rw [h0] at this
    have := capacityToGrowth_le C.G.W 0
    omega
  have hnc : normalizeCapacity (max 0 t.size) = t.size := by
    rw [Nat.zero_max]; exact normalizeCapacity_self hp hsz
  obtain ⟨t', c', r1, r2, r3, r4, r5, r6, r7⟩ := resize_spec hC h.core hp (by rw [← h.size_eq])
  refine ⟨t', c', ?_, r2, r3, r4, ?_, ?_⟩
  · unfold Tbl.rehash
    rw [if_neg (by omega), if_neg (by omega)]
    simp only [hnc]
    rw [if_pos (.inl trivial), r1]
  · have := r2.counts
    rw [r3.length_eq, ← h.size_eq, r4] at this
    intro hh
    have := List.count_pos_iff.2 hh
    omega
  · rw [r6]
    unfold usub
    rw [if_neg]
    have := capacityToGrowth_lt (cap := t.size) hW hbig
    omega

/-! ### Exceptions -/

theorem emplaceThrow_spec {C : Cfg α κ} (hC : CfgOk C) {t : Tbl α} {c : List Ctrl} (h : Inv C t c) (a : α)
    (hnew : ∀ b ∈ elems t, C.eqv (C.key b) (C.key a) = false) :
    ∃ t1 c1, t.emplaceThrow C (C.key a) (C.hash (C.key a)) = .ok (t1, true) ∧ t1.size = t.size + 1 ∧
      Core C t1 c1 ∧ (kEmpty ∈ c1 ∨ t1.capacity + 1 < C.G.W) ∧ List.Perm (elems t1) (elems t) := by
  rcases find_inv hC h (C.key a) with ⟨i, b, f1, f2, f3⟩ | ⟨f1, f2⟩
  · rw [hnew b (mem_elems.2 ⟨i, f2⟩)] at f3; cases f3
  · obtain ⟨t1, i, t3, c3, p1, p2, p3, p4, p5, p6⟩ := prepareInsert_spec hC h a hnew
    obtain ⟨c1, q1, q2⟩ := p2.before
    refine ⟨t1, c1, ?_, p5, q1, q2, p2.beforePerm⟩
    unfold Tbl.emplaceThrow
    unfold find at f1
    rw [f1]
    simp only [Res.ok_bind]
    rw [p1]
    simp only [Res.ok_bind]

theorem emplaceThrow_present {C : Cfg α κ} (hC : CfgOk C) {t : Tbl α} {c : List Ctrl} (h : Inv C t c) (k : κ)
    (hex : ∃ b ∈ elems t, C.eqv (C.key b) k = true) :
    t.emplaceThrow C k (C.hash k) = .ok (t, false) := by
  rcases find_inv hC h k with ⟨i, b, f1, f2, f3⟩ | ⟨f1, f2⟩
  · unfold Tbl.emplaceThrow
    unfold find at f1
    rw [f1]
    simp only [Res.ok_bind]
  · obtain ⟨b, hb, e⟩ := hex
    rw [f2 b hb] at e; cases e

/-- A slot that is marked full but holds no element makes the destructor destroy raw storage. -/
theorem destroyFull_ub {t : Tbl α} {i : Nat} {x : Ctrl} (hi : i < t.capacity)
    (hc : ∀ j < t.capacity, ∃ y, t.ctrl[j]? = some y)
    (hs : ∀ (j : Nat) (y : Ctrl), j < i → t.ctrl[j]? = some y → isFull y = true → ∃ a, t.slots[j]? = some (some a))
    (hx : t.ctrl[i]? = some x) (hf : isFull x = true) (hn : t.slots[i]? = some none) :
    t.destroyFull = .ub := by
  unfold destroyFull
  have hr : List.range t.capacity = List.range i ++ i :: (List.range (t.capacity - i - 1)).map (· + (i + 1)) := by
    have e : t.capacity = i + 1 + (t.capacity - i - 1) := by omega
    conv_lhs => rw [e]
    rw [List.range_add, List.range_succ]
    simp [Nat.add_comm]
  rw [hr, List.foldlM_append]
  obtain ⟨t1, h1, h2, h3⟩ := foldlM_range (P := fun n (u : Tbl α) => u.ctrl = t.ctrl ∧
      ∀ j : Nat, n ≤ j → u.slots[j]? = t.slots[j]?) (f := fun (t : Tbl α) (i : Nat) => do
        let c ← t.ctrlAt i
        if isFull c then t.destroySlot i else Res.ok t) i (s := t) ⟨rfl, fun _ _ => rfl⟩ (by
    intro j u hj ⟨e1, e2⟩
    obtain ⟨y, hy⟩ := hc j (by omega)
    have hca : u.ctrlAt j = .ok y := by unfold ctrlAt; rw [e1, hy]; rfl
    simp only [hca, Res.ok_bind]
    by_cases hfy : isFull y = true
    · rw [if_pos hfy]
      obtain ⟨a, ha⟩ := hs j y hj hy hfy
      have : u.slots[j]? = some (some a) := by rw [e2 j (le_refl _)]; exact ha
      refine ⟨_, destroySlot_ok this, e1, ?_⟩
      intro q hq
      simp only
      rw [List.getElem?_set, if_neg (by omega)]
      exact e2 q (by omega)
    · rw [if_neg hfy]
      exact ⟨u, rfl, e1, fun q hq => e2 q (by omega)⟩)
  rw [h1]
  simp only [Res.ok_bind, List.foldlM_cons]
  have hca : t1.ctrlAt i = .ok x := by unfold ctrlAt; rw [h2, hx]; rfl
  have hd : t1.destroySlot i = .ub := by
    unfold destroySlot; rw [h3 i (le_refl _), hn]
  simp only [hca, Res.ok_bind, if_pos hf, hd, Res.ub_bind]

/-- Copying when the copy of some element throws destroys raw storage. -/
theorem copyThrow_ub {C : Cfg α κ} (hC : CfgOk C) {t : Tbl α} {c : List Ctrl} (h : Inv C t c) {n : Nat}
    (hn : n < t.size) : t.copyThrow C n = .ub := by
  have hWpos : 0 < C.G.W := by rcases hC.group.width with h | h <;> omega
  obtain ⟨t0, c0, z1, z2, z3, z4, z5, z6⟩ := copy_start hC h
  have hlen : n < (elems t).length := by rw [← h.size_eq]; exact hn
  set v := (elems t)[n] with hv
  have hsplit : elems t = (elems t).take n ++ v :: (elems t).drop (n + 1) := by
    rw [hv, List.getElem_cons_drop, List.take_append_drop]
  obtain ⟨s, f1, cs, p1, p2, p3, p4, p5⟩ := foldlM_list
    (P := fun l => CopyP C t (l ++ v :: (elems t).drop (n + 1))) ((elems t).take n) (s := t0)
    ⟨c0, z2, z4, z5, z6, by rw [z3, List.nil_append, ← hsplit]⟩ (fun w l s hs => copy_step hC h w _ s hs)
  rw [List.nil_append] at p5
  obtain ⟨hnew, hfree⟩ := copy_place hC h p1 p2 p5
  obtain ⟨i, ctrl', q1, q2, q3, q4, q5, q6, q7⟩ := place_spec hC p1 v hnew hfree
  obtain ⟨r1, r2⟩ := q7 s.size s.growthLeft
  have q6' := q6 s.size s.growthLeft s.slots
  have e1 : ({ s with size := s.size, growthLeft := s.growthLeft, slots := s.slots } : Tbl α) = s := rfl
  rw [e1] at q6'
  unfold Tbl.copyThrow
  rw [z1]
  simp only [Res.ok_bind]
  rw [iterate_spec hC.group h.core]
  simp only [Res.ok_bind]
  rw [List.getElem?_eq_getElem hlen]
  simp only
  rw [f1]
  simp only [Res.ok_bind]
  rw [q1]
  simp only [Res.ok_bind]
  rw [q6']
  simp only [Res.ok_bind]
  unfold destroySlots
  rw [if_neg (by simp only; omega)]
  have hbyte : ∀ j < s.capacity, ctrl'[j]? = some ((cs.set i (H2 (C.hash (C.key v)))).getD j kEmpty) := by
    intro j hj
    have := r1.raw.bytes j (by simp only; omega)
    simp only at this
    rw [this, lay_lt hj]
  rw [destroyFull_ub (t := { s with ctrl := ctrl' }) (i := i) (x := H2 (C.hash (C.key v))) q2
    (fun j hj => ⟨_, hbyte j hj⟩) ?_ ?_ (isFull_H2 _) q3]
  · rfl
  · intro j y hj hy hf
    simp only at hy ⊢
    rw [hbyte j (by omega)] at hy
    cases hy
    have hlt : j < (cs.set i (H2 (C.hash (C.key v)))).length := by
      rw [List.length_set, p1.raw.len]; omega
    obtain ⟨a, ha⟩ := r1.sync.full_slot (i := j) (by simp only; omega) (getElem?_getD hlt) hf
    simp only at ha
    rw [List.getElem?_set, if_neg (by omega)] at ha
    exact ⟨a, ha⟩
  · simp only
    rw [hbyte i q2]
    congr 1
    apply getD_eq_of
    rw [List.getElem?_set, if_pos rfl, if_pos (by rw [p1.raw.len]; exact q2)]

end Gtl.Swiss
