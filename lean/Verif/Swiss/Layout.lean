import Verif.Swiss.Arith
import Verif.Swiss.GroupLemmas
/-! The control array: logical bytes, sentinel, cloned bytes. -/

namespace Gtl.Swiss
variable {α κ : Type}

/-- The byte that must be stored at raw position `p` when the logical control bytes are `c`. -/
def lay (c : List Ctrl) (cap p : Nat) : Ctrl :=
  if p < cap then c.getD p kEmpty
  else if p = cap then kSentinel
  else if p ≤ 2 * cap then c.getD (p - cap - 1) kEmpty
  else kEmpty

/-- The raw control array of `t` represents the logical bytes `c`. -/
structure Raw (W : Nat) (t : Tbl α) (c : List Ctrl) : Prop where
  len : c.length = t.capacity
  bytes : ∀ p, p < t.capacity + W → t.ctrl[p]? = some (lay c t.capacity p)
  alloc : t.capacity ≠ 0 → t.ctrl.length = t.capacity + W + 1
  pow : ∃ k, t.capacity + 1 = 2 ^ k

/-- Logical bytes are full, empty or deleted. -/
def LValid (c : List Ctrl) : Prop := ∀ x ∈ c, isFull x = true ∨ x = kEmpty ∨ x = kDeleted

/-- `IsEmptyOrDeleted` (phmap.hpp:861): empty or deleted. -/
def Eod (c : Ctrl) : Prop := c = kEmpty ∨ c = kDeleted

instance (c : Ctrl) : Decidable (Eod c) := by unfold Eod; infer_instance

theorem sentinel_ne : kSentinel ≠ kEmpty ∧ kSentinel ≠ kDeleted ∧ kEmpty ≠ kDeleted := by decide

theorem not_eod_sentinel : ¬ Eod kSentinel := by decide

theorem not_eod_of_full {c : Ctrl} (h : isFull c = true) : ¬ Eod c := by
  rintro (rfl | rfl) <;> revert h <;> decide

theorem not_eod_H2 (h : Nat) : ¬ Eod (H2 h) := not_eod_of_full (isFull_H2 h)

theorem ne_of_full {c : Ctrl} (h : isFull c = true) : c ≠ kEmpty ∧ c ≠ kDeleted ∧ c ≠ kSentinel := by
  refine ⟨?_, ?_, ?_⟩ <;> rintro rfl <;> revert h <;> decide

theorem getD_eq_of {c : List Ctrl} {i : Nat} {x d : Ctrl} (h : c[i]? = some x) : c.getD i d = x := by
  simp [List.getD_eq_getElem?_getD, h]

theorem lay_valid {c : List Ctrl} {cap : Nat} (hl : c.length = cap) (hv : LValid c) (p : Nat) :
    Valid (lay c cap p) := by
  have key : ∀ q, q < cap → Valid (c.getD q kEmpty) := by
    intro q hq
    have hq' : q < c.length := by omega
    have : c.getD q kEmpty = c[q] := by simp [List.getD_eq_getElem?_getD, hq']
    rw [this]
    rcases hv _ (List.getElem_mem hq') with h | h | h
    · exact .inl h
    · exact .inr (.inl h)
    · exact .inr (.inr (.inl h))
  unfold lay
  split
  · exact key _ (by assumption)
  · split
    · right; right; right; rfl
    · split
      · exact key _ (by omega)
      · right; left; rfl

theorem lay_lt {c : List Ctrl} {cap p : Nat} (h : p < cap) : lay c cap p = c.getD p kEmpty := by
  simp [lay, h]

theorem lay_clone {c : List Ctrl} {cap i : Nat} (h : i < cap) : lay c cap (i + cap + 1) = c.getD i kEmpty := by
  unfold lay
  rw [if_neg (by omega), if_neg (by omega), if_pos (by omega)]
  congr 1; omega

/-- A real position of the layout, reduced modulo `cap + 1`, is the logical byte. -/
theorem lay_mod {c : List Ctrl} {cap p : Nat} (h : p ≤ 2 * cap) (hne : p % (cap + 1) ≠ cap) :
    lay c cap p = c.getD (p % (cap + 1)) kEmpty := by
  by_cases hp : p < cap + 1
  · rw [Nat.mod_eq_of_lt hp] at *
    exact lay_lt (by omega)
  · have : p % (cap + 1) = p - (cap + 1) := by
      rw [Nat.mod_eq_sub_mod (by omega), Nat.mod_eq_of_lt (by omega)]
    rw [this] at *
    unfold lay
    rw [if_neg (by omega), if_neg (by omega), if_pos h]
    congr 1

theorem lay_mod_cap {c : List Ctrl} {cap p : Nat} (h : p ≤ 2 * cap) (he : p % (cap + 1) = cap) :
    lay c cap p = kSentinel := by
  by_cases hp : p < cap + 1
  · rw [Nat.mod_eq_of_lt hp] at he
    simp [lay, he]
  · have : p % (cap + 1) = p - (cap + 1) := by
      rw [Nat.mod_eq_sub_mod (by omega), Nat.mod_eq_of_lt (by omega)]
    omega

/-- The list of bytes loaded by a group at position `o`. -/
def win (c : List Ctrl) (cap W o : Nat) : List Ctrl := (List.range W).map (fun j => lay c cap (o + j))

theorem win_length (c : List Ctrl) (cap W o : Nat) : (win c cap W o).length = W := by simp [win]

theorem win_getElem? {c : List Ctrl} {cap W o j : Nat} (h : j < W) :
    (win c cap W o)[j]? = some (lay c cap (o + j)) := by simp [win, h]

theorem win_getElem?_some {c : List Ctrl} {cap W o j : Nat} {x : Ctrl} (h : (win c cap W o)[j]? = some x) :
    j < W ∧ x = lay c cap (o + j) := by
  have hj : j < W := by
    rw [List.getElem?_eq_some_iff] at h
    obtain ⟨h, _⟩ := h
    rwa [win_length] at h
  rw [win_getElem? hj] at h
  exact ⟨hj, by simpa using h.symm⟩

theorem win_valid {c : List Ctrl} {cap W o : Nat} (hl : c.length = cap) (hv : LValid c) :
    ∀ x ∈ win c cap W o, Valid x := by
  intro x hx
  simp only [win, List.mem_map] at hx
  obtain ⟨j, _, rfl⟩ := hx
  exact lay_valid hl hv _

theorem Raw.load {W : Nat} {t : Tbl α} {c : List Ctrl} (r : Raw W t c) (hW : 0 < W) {o : Nat} (ho : o ≤ t.capacity) :
    t.load W o = .ok (win c t.capacity W o) := by
  unfold Tbl.load
  have hlen : o + W ≤ t.ctrl.length := by
    have := r.bytes (t.capacity + W - 1) (by omega)
    rw [List.getElem?_eq_some_iff] at this
    obtain ⟨h, _⟩ := this
    omega
  rw [if_pos hlen]
  congr 1
  apply List.ext_getElem?
  intro j
  by_cases hj : j < W
  · rw [win_getElem? hj, List.getElem?_take_of_lt hj, List.getElem?_drop]
    exact r.bytes _ (by omega)
  · rw [List.getElem?_eq_none (l := (t.ctrl.drop o).take W) (by simp; omega),
      List.getElem?_eq_none (by rw [win_length]; omega)]

theorem Raw.ctrlAt {W : Nat} {t : Tbl α} {c : List Ctrl} (r : Raw W t c) (hW : 0 < W) {i : Nat} (hi : i ≤ t.capacity) :
    t.ctrlAt i = .ok (lay c t.capacity i) := by
  unfold Tbl.ctrlAt
  rw [r.bytes i (by omega)]; rfl

/-- Group widths are powers of two. -/
theorem width_pow {W : Nat} (hW : W = 8 ∨ W = 16) : ∃ w, 3 ≤ w ∧ W = 2 ^ w := by
  rcases hW with rfl | rfl
  · exact ⟨3, by omega, by norm_num⟩
  · exact ⟨4, by omega, by norm_num⟩

theorem width_cases {W cap : Nat} (hW : W = 8 ∨ W = 16) (hp : ∃ k, cap + 1 = 2 ^ k) :
    (W ≤ cap + 1 ∧ W ∣ cap + 1) ∨ (2 * (cap + 1) ≤ W ∧ (cap + 1) ∣ W) := by
  obtain ⟨k, hk⟩ := hp
  obtain ⟨w, _, hw⟩ := width_pow hW
  rcases Nat.lt_or_ge k w with h | h
  · right
    refine ⟨?_, ?_⟩
    · rw [hk, hw, Nat.mul_comm, ← Nat.pow_succ]; exact Nat.pow_le_pow_right (by omega) h
    · rw [hk, hw]; exact Nat.pow_dvd_pow 2 (by omega)
  · left
    refine ⟨?_, ?_⟩
    · rw [hk, hw]; exact Nat.pow_le_pow_right (by omega) h
    · rw [hk, hw]; exact Nat.pow_dvd_pow 2 h

/-- Where `set_ctrl` writes the clone. -/
theorem clone_pos {W cap i : Nat} (hW : W = 8 ∨ W = 16) (hp : ∃ k, cap + 1 = 2 ^ k) (hi : i < cap) :
    (W ≤ i ∧ subMask i W cap + 1 + ((W - 1) &&& cap) = i) ∨
    (i < W ∧ subMask i W cap + 1 + ((W - 1) &&& cap) = i + (cap + 1)) := by
  obtain ⟨k, hk⟩ := hp
  have hmask : (W - 1) &&& cap = min W (cap + 1) - 1 := by
    rw [land_cap hk]
    rcases width_cases hW ⟨k, hk⟩ with ⟨h1, h2⟩ | ⟨h1, h2⟩
    · rw [min_eq_left h1, Nat.mod_eq_of_lt (by omega)]
    · rw [min_eq_right (by omega)]
      obtain ⟨q, hq⟩ := h2
      have hq1 : 1 ≤ q := by
        rcases Nat.eq_zero_or_pos q with h0 | h0
        · subst h0; omega
        · exact h0
      have e : W - 1 = (cap + 1) * (q - 1) + cap := by
        have h3 : (cap + 1) * (q - 1) = (cap + 1) * q - (cap + 1) := by rw [Nat.mul_sub, Nat.mul_one]
        have h4 : cap + 1 ≤ (cap + 1) * q := Nat.le_mul_of_pos_right _ hq1
        omega
      rw [e, Nat.mul_add_mod, Nat.mod_eq_of_lt (by omega)]; omega
  rw [hmask, subMask_mod hk]
  rcases width_cases hW ⟨k, hk⟩ with ⟨h1, h2⟩ | ⟨h1, h2⟩
  · rw [min_eq_left h1]
    have hle : W ≤ (cap + 1) * W := Nat.le_mul_of_pos_left _ (by omega)
    have hWpos : 0 < W := by omega
    -- (cap+1)*W - W = (cap+1)*(W-1) + (cap+1-W)
    have e : (cap + 1) * W - W = (cap + 1) * (W - 1) + (cap + 1 - W) := by
      rw [Nat.mul_sub, Nat.mul_one]
      have : cap + 1 ≤ (cap + 1) * W := Nat.le_mul_of_pos_right _ hWpos
      omega
    have e2 : i + ((cap + 1) * W - W) = (cap + 1) * (W - 1) + (i + (cap + 1 - W)) := by omega
    rw [e2, Nat.mul_add_mod]
    by_cases hiW : W ≤ i
    · left
      refine ⟨hiW, ?_⟩
      have e3 : i + (cap + 1 - W) = (i - W) + (cap + 1) := by omega
      rw [e3, Nat.add_mod_right, Nat.mod_eq_of_lt (by omega)]; omega
    · right
      refine ⟨by omega, ?_⟩
      rw [Nat.mod_eq_of_lt (by omega)]; omega
  · right
    refine ⟨by omega, ?_⟩
    rw [min_eq_right (by omega)]
    obtain ⟨q, hq⟩ := h2
    have e : i + ((cap + 1) * W - W) = (cap + 1) * (W - q) + i := by
      rw [Nat.mul_sub, ← hq]; omega
    rw [e, Nat.mul_add_mod, Nat.mod_eq_of_lt (by omega)]; omega

theorem lay_set {c : List Ctrl} {cap i p : Nat} {h : Ctrl} (hl : c.length = cap) (hi : i < cap) :
    lay (c.set i h) cap p = if p = i ∨ p = i + (cap + 1) then h else lay c cap p := by
  have gs : ∀ q, (c.set i h).getD q kEmpty = if q = i then h else c.getD q kEmpty := by
    intro q
    rw [List.getD_eq_getElem?_getD, List.getD_eq_getElem?_getD, List.getElem?_set]
    by_cases hq : i = q
    · subst hq; simp [show i < c.length by omega]
    · rw [if_neg hq, if_neg (Ne.symm hq)]
  unfold lay
  by_cases h1 : p < cap
  · rw [if_pos h1, if_pos h1, gs]
    by_cases h2 : p = i
    · rw [if_pos h2, if_pos (Or.inl h2)]
    · rw [if_neg h2, if_neg (by omega)]
  · rw [if_neg h1, if_neg h1]
    by_cases h2 : p = cap
    · rw [if_pos h2, if_pos h2, if_neg (by omega)]
    · rw [if_neg h2, if_neg h2]
      by_cases h3 : p ≤ 2 * cap
      · rw [if_pos h3, if_pos h3, gs]
        by_cases h4 : p - cap - 1 = i
        · rw [if_pos h4, if_pos (by omega)]
        · rw [if_neg h4, if_neg (by omega)]
      · rw [if_neg h3, if_neg h3, if_neg (by omega)]

/-- `set_ctrl` updates exactly the logical byte. -/
theorem Raw.setCtrl {W : Nat} {t : Tbl α} {c : List Ctrl} (r : Raw W t c) (hW : W = 8 ∨ W = 16) {i : Nat}
    (hi : i < t.capacity) (h : Ctrl) :
    ∃ ctrl', t.setCtrl W i h = .ok { t with ctrl := ctrl' } ∧ Raw W { t with ctrl := ctrl' } (c.set i h) := by
  have hlen := r.alloc (by omega)
  have hcl := clone_pos hW r.pow hi
  unfold Tbl.setCtrl
  simp only
  set j := subMask i W t.capacity + 1 + ((W - 1) &&& t.capacity) with hj
  have hjl : j < t.ctrl.length := by rcases hcl with ⟨_, h⟩ | ⟨_, h⟩ <;> omega
  rw [if_pos ⟨hi, by omega, hjl⟩]
  refine ⟨_, rfl, ⟨by simpa using r.len, ?_, by simpa using r.alloc, r.pow⟩⟩
  intro p hp
  have hlay := lay_set (p := p) (h := h) r.len hi
  simp only at hp ⊢
  rw [hlay, List.getElem?_set, List.length_set]
  by_cases hpj : j = p
  · rw [if_pos hpj, if_pos hjl, if_pos (by rcases hcl with ⟨_, h⟩ | ⟨_, h⟩ <;> omega)]
  · rw [if_neg hpj, List.getElem?_set]
    by_cases hpi : i = p
    · rw [if_pos hpi, if_pos (by omega), if_pos (by omega)]
    · rw [if_neg hpi, r.bytes p hp, if_neg (by rcases hcl with ⟨_, h⟩ | ⟨_, h⟩ <;> omega)]

/-! ## Windows -/

/-- A slot of the `n`-th window of `hash`. -/
def InWin (W cap hash n i : Nat) : Prop := ∃ j < W, (off W cap hash n + j) % (cap + 1) = i

/-- Some raw byte of the `n`-th window satisfies `Q`. -/
def WinHas (Q : Ctrl → Prop) (W : Nat) (c : List Ctrl) (cap hash n : Nat) : Prop :=
  ∃ j < W, Q (lay c cap (off W cap hash n + j))

/-- Position inside a window of a slot that belongs to it. -/
theorem inWin_pos {W cap o i : Nat} (hW : W = 8 ∨ W = 16) (hp : ∃ k, cap + 1 = 2 ^ k) (ho : o ≤ cap) (hi : i < cap)
    (h : ∃ j < W, (o + j) % (cap + 1) = i) : ∃ j < W, (o + j) % (cap + 1) = i ∧ o + j ≤ 2 * cap := by
  obtain ⟨j, hj, he⟩ := h
  rcases width_cases hW hp with ⟨h1, _⟩ | ⟨h1, _⟩
  · refine ⟨j, hj, he, ?_⟩
    by_cases h2 : o + j < cap + 1
    · omega
    · by_contra hcon
      have hjc : o + j < 2 * (cap + 1) := by omega
      have : (o + j) % (cap + 1) = o + j - (cap + 1) := by
        rw [Nat.mod_eq_sub_mod (by omega), Nat.mod_eq_of_lt (by omega)]
      omega
  · by_cases h2 : o ≤ i
    · exact ⟨i - o, by omega, by rw [Nat.add_sub_cancel' h2]; exact Nat.mod_eq_of_lt (by omega), by omega⟩
    · refine ⟨i + (cap + 1) - o, by omega, ?_, by omega⟩
      have : o + (i + (cap + 1) - o) = i + (cap + 1) := by omega
      rw [this, Nat.add_mod_right, Nat.mod_eq_of_lt (by omega)]

theorem inWin_lay {W cap o i : Nat} {c : List Ctrl} (hW : W = 8 ∨ W = 16) (hp : ∃ k, cap + 1 = 2 ^ k) (ho : o ≤ cap)
    (hi : i < cap) (h : ∃ j < W, (o + j) % (cap + 1) = i) :
    ∃ j < W, (o + j) % (cap + 1) = i ∧ lay c cap (o + j) = c.getD i kEmpty := by
  obtain ⟨j, hj, he, hle⟩ := inWin_pos hW hp ho hi h
  refine ⟨j, hj, he, ?_⟩
  rw [lay_mod hle (by omega), he]

/-- In a small table every window sees every slot. -/
theorem inWin_small {W cap o i : Nat} (h : 2 * (cap + 1) ≤ W) (ho : o ≤ cap) (hi : i < cap) :
    ∃ j < W, (o + j) % (cap + 1) = i := by
  by_cases h2 : o ≤ i
  · exact ⟨i - o, by omega, by rw [Nat.add_sub_cancel' h2]; exact Nat.mod_eq_of_lt (by omega)⟩
  · refine ⟨i + (cap + 1) - o, by omega, ?_⟩
    have : o + (i + (cap + 1) - o) = i + (cap + 1) := by omega
    rw [this, Nat.add_mod_right, Nat.mod_eq_of_lt (by omega)]

/-- In a small table every window sees an empty byte (the padding behind the clones). -/
theorem small_has_empty {W cap o : Nat} {c : List Ctrl} (h : 2 * (cap + 1) ≤ W) (ho : o ≤ cap) :
    ∃ j < W, lay c cap (o + j) = kEmpty := by
  refine ⟨2 * cap + 1 - o, by omega, ?_⟩
  have : o + (2 * cap + 1 - o) = 2 * cap + 1 := by omega
  rw [this]; unfold lay
  rw [if_neg (by omega), if_neg (by omega), if_neg (by omega)]

/-- Coverage: every slot is in one of the first `cap + 1` windows. -/
theorem cover {W cap hash i : Nat} (hW : W = 8 ∨ W = 16) (hp : ∃ k, cap + 1 = 2 ^ k) (hi : i < cap) :
    ∃ n ≤ cap, InWin W cap hash n i := by
  rcases width_cases hW hp with ⟨h1, _⟩ | ⟨h1, _⟩
  · obtain ⟨k, hk⟩ := hp
    obtain ⟨w, _, hw⟩ := width_pow hW
    obtain ⟨n, j, hn, hj, he⟩ := off_cover hk hw h1 hash i (by omega)
    refine ⟨n, ?_, j, hj, he⟩
    have : n ≤ n * W := Nat.le_mul_of_pos_right _ (by omega)
    omega
  · exact ⟨0, by omega, inWin_small h1 (off_le _ _ _ _) hi⟩

theorem cover_has {W cap hash i : Nat} {c : List Ctrl} {Q : Ctrl → Prop} (hW : W = 8 ∨ W = 16)
    (hp : ∃ k, cap + 1 = 2 ^ k) (hi : i < cap) (hq : Q (c.getD i kEmpty)) :
    ∃ n ≤ cap, WinHas Q W c cap hash n := by
  obtain ⟨n, hn, hw⟩ := cover (hash := hash) hW hp hi
  obtain ⟨j, hj, _, hl⟩ := inWin_lay (c := c) hW hp (off_le _ _ _ _) hi hw
  exact ⟨n, hn, j, hj, by rw [hl]; exact hq⟩

/-- There is always a window with an empty byte: either the table is small or one of its slots is empty. -/
theorem cover_empty {W cap hash : Nat} {c : List Ctrl} (hW : W = 8 ∨ W = 16) (hp : ∃ k, cap + 1 = 2 ^ k)
    (hl : c.length = cap) (h : kEmpty ∈ c ∨ cap + 1 < W) : ∃ n ≤ cap, WinHas (· = kEmpty) W c cap hash n := by
  rcases h with h | h
  · rw [List.mem_iff_getElem] at h
    obtain ⟨i, hi, he⟩ := h
    apply cover_has hW hp (i := i) (by omega)
    simp [List.getD_eq_getElem?_getD, hi, he]
  · rcases width_cases hW hp with ⟨h1, _⟩ | ⟨h1, _⟩
    · omega
    · exact ⟨0, by omega, small_has_empty h1 (off_le _ _ _ _)⟩

end Gtl.Swiss
