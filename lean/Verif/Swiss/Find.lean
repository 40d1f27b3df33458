import Verif.Swiss.Layout
/-! The two probe loops. -/

namespace Gtl.Swiss
variable {α κ : Type}

open Tbl

/-- Slots and control bytes agree: full bytes are exactly the constructed slots. -/
structure Sync (t : Tbl α) (c : List Ctrl) : Prop where
  slen : t.slots.length = t.capacity
  some_full : ∀ (i : Nat) (a : α), t.slots[i]? = some (some a) → ∃ x, c[i]? = some x ∧ isFull x = true
  none_eod : ∀ (i : Nat), t.slots[i]? = some none → ∃ x, c[i]? = some x ∧ Eod x

theorem Sync.valid {t : Tbl α} {c : List Ctrl} (s : Sync t c) (hl : c.length = t.capacity) : LValid c := by
  intro x hx
  rw [List.mem_iff_getElem] at hx
  obtain ⟨i, hi, rfl⟩ := hx
  have hi' : i < t.slots.length := by rw [s.slen]; omega
  have hc : c[i]? = some c[i] := List.getElem?_eq_getElem hi
  cases hs : t.slots[i] with
  | none =>
    obtain ⟨x, h1, h2⟩ := s.none_eod i (by rw [List.getElem?_eq_getElem hi', hs])
    rw [hc] at h1; cases h1; exact .inr h2
  | some a =>
    obtain ⟨x, h1, h2⟩ := s.some_full i a (by rw [List.getElem?_eq_getElem hi', hs])
    rw [hc] at h1; cases h1; exact .inl h2

theorem Sync.full_slot {t : Tbl α} {c : List Ctrl} (s : Sync t c) {i : Nat} {x : Ctrl} (hi : i < t.capacity)
    (hc : c[i]? = some x) (hf : isFull x = true) : ∃ a, t.slots[i]? = some (some a) := by
  have hi' : i < t.slots.length := by rw [s.slen]; omega
  cases hs : t.slots[i] with
  | none =>
    obtain ⟨y, h1, h2⟩ := s.none_eod i (by rw [List.getElem?_eq_getElem hi', hs])
    rw [hc] at h1; cases h1; exact absurd h2 (not_eod_of_full hf)
  | some a => exact ⟨a, by rw [List.getElem?_eq_getElem hi', hs]⟩

theorem Sync.eod_slot {t : Tbl α} {c : List Ctrl} (s : Sync t c) {i : Nat} {x : Ctrl} (hi : i < t.capacity)
    (hc : c[i]? = some x) (hf : Eod x) : t.slots[i]? = some none := by
  have hi' : i < t.slots.length := by rw [s.slen]; omega
  cases hs : t.slots[i] with
  | none => rw [List.getElem?_eq_getElem hi', hs]
  | some a =>
    obtain ⟨y, h1, h2⟩ := s.some_full i a (by rw [List.getElem?_eq_getElem hi', hs])
    rw [hc] at h1; cases h1; exact absurd hf (not_eod_of_full h2)

theorem getElem?_getD {c : List Ctrl} {i : Nat} (h : i < c.length) : c[i]? = some (c.getD i kEmpty) := by
  simp [List.getD_eq_getElem?_getD, h]

/-- A full raw byte inside a window belongs to a real slot. -/
theorem full_real {c : List Ctrl} {cap p : Nat} (hf : isFull (lay c cap p) = true) :
    p ≤ 2 * cap ∧ p % (cap + 1) < cap ∧ lay c cap p = c.getD (p % (cap + 1)) kEmpty := by
  have h1 : p ≤ 2 * cap := by
    by_contra hcon
    unfold lay at hf
    rw [if_neg (by omega), if_neg (by omega), if_neg hcon] at hf
    revert hf; decide
  have h2 : p % (cap + 1) ≠ cap := by
    intro he
    rw [lay_mod_cap h1 he] at hf
    revert hf; decide
  have h3 := Nat.mod_lt p (show 0 < cap + 1 by omega)
  exact ⟨h1, by omega, lay_mod h1 h2⟩

theorem eod_real {c : List Ctrl} {cap p : Nat} (h1 : p ≤ 2 * cap) (hf : Eod (lay c cap p)) :
    p % (cap + 1) < cap ∧ lay c cap p = c.getD (p % (cap + 1)) kEmpty := by
  have h2 : p % (cap + 1) ≠ cap := by
    intro he
    rw [lay_mod_cap h1 he] at hf
    exact not_eod_sentinel hf
  have h3 := Nat.mod_lt p (show 0 < cap + 1 by omega)
  exact ⟨by omega, lay_mod h1 h2⟩

theorem readSlot_ok {t : Tbl α} {i : Nat} {a : α} (h : t.slots[i]? = some (some a)) : t.readSlot i = .ok a := by
  unfold Tbl.readSlot; rw [h]

/-- Inner loop: if all candidates are constructed slots the scan succeeds. -/
theorem scan_spec (t : Tbl α) (pred : α → Bool) (p : Probe) : ∀ l : List Nat,
    (∀ i ∈ l, ∃ a, t.slots[p.at_ t.capacity i]? = some (some a)) →
    ∃ r, t.scan pred p l = .ok r ∧
      (∀ o, r = some o → (∃ i ∈ l, o = p.at_ t.capacity i) ∧ ∃ a, t.slots[o]? = some (some a) ∧ pred a = true) ∧
      (r = none → ∀ i ∈ l, ∀ a, t.slots[p.at_ t.capacity i]? = some (some a) → pred a = false) := by
  intro l
  induction l with
  | nil => intro _; exact ⟨none, rfl, by simp, by simp⟩
  | cons i l ih =>
    intro h
    obtain ⟨a, ha⟩ := h i (by simp)
    unfold Tbl.scan
    simp only [readSlot_ok ha, Res.ok_bind]
    by_cases hp : pred a = true
    · rw [if_pos hp]
      refine ⟨_, rfl, ?_, by simp⟩
      intro o ho
      cases ho
      exact ⟨⟨i, by simp, rfl⟩, a, ha, hp⟩
    · rw [if_neg hp]
      obtain ⟨r, hr, h1, h2⟩ := ih (fun j hj => h j (by simp [hj]))
      refine ⟨r, hr, ?_, ?_⟩
      · intro o ho
        obtain ⟨⟨j, hj, e⟩, h3⟩ := h1 o ho
        exact ⟨⟨j, by simp [hj], e⟩, h3⟩
      · intro hn j hj b hb
        rcases List.mem_cons.1 hj with rfl | hj
        · rw [ha] at hb; cases hb; simpa using hp
        · exact h2 hn j hj b hb

/-- The find loop: it terminates when some window ahead has an empty byte, never touches raw slots, returns a
matching element, and otherwise has examined every slot with byte `h2` in all windows up to the first one with
an empty byte. -/
theorem probeFind_spec {C : Cfg α κ} (hG : GroupSpec C.G) {t : Tbl α} {c : List Ctrl} (r : Raw C.G.W t c)
    (s : Sync t c) (pred : α → Bool) (hash : Nat) (n0 : Nat)
    (h0 : WinHas (· = kEmpty) C.G.W c t.capacity hash n0) :
    ∀ fuel m, m ≤ n0 → n0 < m + fuel →
    ∃ res, t.probeFind C pred (H2 hash) fuel (probeAt C.G.W t.capacity hash m) = .ok res ∧
      (∀ o, res = some o → ∃ a, t.slots[o]? = some (some a) ∧ pred a = true) ∧
      (res = none → ∃ m', m ≤ m' ∧ m' ≤ n0 ∧ WinHas (· = kEmpty) C.G.W c t.capacity hash m' ∧
        ∀ q, m ≤ q → q ≤ m' → ∀ i < t.capacity, InWin C.G.W t.capacity hash q i → c[i]? = some (H2 hash) →
          ∀ a, t.slots[i]? = some (some a) → pred a = false) := by
  have hW := hG.width
  have hWpos : 0 < C.G.W := by rcases hW with h | h <;> omega
  obtain ⟨k, hk⟩ := r.pow
  have hv : LValid c := s.valid r.len
  intro fuel
  induction fuel with
  | zero => intro m h1 h2; omega
  | succ fuel ih =>
    intro m hm hf
    unfold Tbl.probeFind
    have hoff : (probeAt C.G.W t.capacity hash m).offset = off C.G.W t.capacity hash m := rfl
    rw [hoff, r.load hWpos (off_le _ _ _ _)]
    simp only [Res.ok_bind]
    set o := off C.G.W t.capacity hash m with ho
    have hole : o ≤ t.capacity := off_le _ _ _ _
    set g := win c t.capacity C.G.W o with hg
    have hgl : g.length = C.G.W := win_length _ _ _ _
    have hgv : ∀ x ∈ g, Valid x := win_valid r.len hv
    -- candidates are constructed slots
    have hcand : ∀ i ∈ (C.G.matchH2 g (H2 hash)).toList,
        ∃ a, t.slots[(probeAt C.G.W t.capacity hash m).at_ t.capacity i]? = some (some a) := by
      intro i hi
      obtain ⟨x, hx, hfull⟩ := hG.matchH2_sound g (H2 hash) hgl hgv (isFull_H2 _) i hi
      obtain ⟨hiW, rfl⟩ := win_getElem?_some hx
      rw [probe_at hk]
      obtain ⟨h1, h2, h3⟩ := full_real hfull
      rw [h3] at hfull
      exact s.full_slot h2 (getElem?_getD (by rw [r.len]; exact h2)) hfull
    obtain ⟨res, hres, hs1, hs2⟩ := scan_spec t pred (probeAt C.G.W t.capacity hash m) _ hcand
    rw [hres]
    simp only [Res.ok_bind]
    cases res with
    | some off' =>
      refine ⟨some off', rfl, ?_, by simp⟩
      intro o' ho'
      cases ho'
      exact (hs1 _ rfl).2
    | none =>
      simp only
      -- nothing in this window
      have hwin : ∀ i < t.capacity, InWin C.G.W t.capacity hash m i → c[i]? = some (H2 hash) →
          ∀ a, t.slots[i]? = some (some a) → pred a = false := by
        intro i hi hw hc a ha
        obtain ⟨j, hj, he, hl⟩ := inWin_lay (c := c) hW r.pow hole hi hw
        have hgj : g[j]? = some (H2 hash) := by
          rw [hg, win_getElem? hj, hl, getD_eq_of hc]
        have hmem := hG.matchH2_complete g (H2 hash) hgl hgv (isFull_H2 _) j hgj
        apply hs2 rfl j hmem a
        rw [probe_at hk, ← ho, he]; exact ha
      by_cases hE : (C.G.matchEmpty g).toBool = true
      · rw [if_pos hE]
        obtain ⟨j, hj⟩ := (hG.matchEmpty_bool g hgl hgv).1 hE
        obtain ⟨hjW, he⟩ := win_getElem?_some hj
        refine ⟨none, rfl, by simp, fun _ => ⟨m, le_refl _, hm, ⟨j, hjW, by rw [← ho]; exact he.symm⟩, ?_⟩⟩
        intro q hq1 hq2
        have : q = m := by omega
        subst this
        exact hwin
      · rw [if_neg hE]
        have hmn : m ≠ n0 := by
          rintro rfl
          obtain ⟨j, hj, he⟩ := h0
          apply hE
          rw [hG.matchEmpty_bool g hgl hgv]
          exact ⟨j, by rw [hg, win_getElem? hj, ho]; exact congrArg some he⟩
        rw [probe_next hk]
        obtain ⟨res, h1, h2, h3⟩ := ih (m + 1) (by omega) (by omega)
        refine ⟨res, h1, h2, fun hn => ?_⟩
        obtain ⟨m', a1, a2, a3, a4⟩ := h3 hn
        refine ⟨m', by omega, a2, a3, ?_⟩
        intro q hq1 hq2
        rcases Nat.lt_or_ge m q with h | h
        · exact a4 q (by omega) hq2
        · have : q = m := by omega
          subst this
          exact hwin

/-- The insertion loop finds the first empty or deleted byte along the probe sequence. -/
theorem probeNonFull_spec {C : Cfg α κ} (hG : GroupSpec C.G) {t : Tbl α} {c : List Ctrl} (r : Raw C.G.W t c)
    (hv : LValid c) (hash : Nat) (n0 : Nat) (h0 : WinHas Eod C.G.W c t.capacity hash n0) :
    ∀ fuel m, m ≤ n0 → n0 < m + fuel →
    ∃ n j, m ≤ n ∧ n ≤ n0 ∧ j < C.G.W ∧
      t.probeNonFull C fuel (probeAt C.G.W t.capacity hash m) =
        .ok ((off C.G.W t.capacity hash n + j) % (t.capacity + 1)) ∧
      Eod (lay c t.capacity (off C.G.W t.capacity hash n + j)) ∧
      (∀ j' < j, ¬ Eod (lay c t.capacity (off C.G.W t.capacity hash n + j'))) ∧
      (∀ q, m ≤ q → q < n → ¬ WinHas Eod C.G.W c t.capacity hash q) := by
  have hW := hG.width
  have hWpos : 0 < C.G.W := by rcases hW with h | h <;> omega
  obtain ⟨k, hk⟩ := r.pow
  intro fuel
  induction fuel with
  | zero => intro m h1 h2; omega
  | succ fuel ih =>
    intro m hm hf
    unfold Tbl.probeNonFull
    have hoff : (probeAt C.G.W t.capacity hash m).offset = off C.G.W t.capacity hash m := rfl
    rw [hoff, r.load hWpos (off_le _ _ _ _)]
    simp only [Res.ok_bind]
    set o := off C.G.W t.capacity hash m with ho
    set g := win c t.capacity C.G.W o with hg
    have hgl : g.length = C.G.W := win_length _ _ _ _
    have hgv : ∀ x ∈ g, Valid x := win_valid r.len hv
    by_cases hE : (C.G.matchEmptyOrDeleted g).toBool = true
    · rw [if_pos hE]
      obtain ⟨⟨x, hx, hxe⟩, hfirst⟩ := hG.matchEod_first g hgl hgv hE
      obtain ⟨hjW, rfl⟩ := win_getElem?_some hx
      refine ⟨m, (C.G.matchEmptyOrDeleted g).lowest, le_refl _, hm, hjW, ?_, ?_, ?_, ?_⟩
      · rw [probe_at hk]
      · exact hxe
      · intro j' hj' he
        exact hfirst j' hj' _ (by rw [hg, win_getElem? (by omega)]) he
      · intro q h1 h2; omega
    · rw [if_neg hE, probe_next hk]
      have hno : ¬ WinHas Eod C.G.W c t.capacity hash m := by
        rintro ⟨j, hj, he⟩
        apply hE
        rw [hG.matchEod_bool g hgl hgv]
        exact ⟨j, _, by rw [hg, win_getElem? hj], he⟩
      have hmn : m ≠ n0 := by rintro rfl; exact hno h0
      obtain ⟨n, j, h1, h2, h3, h4, h5, h6, h7⟩ := ih (m + 1) (by omega) (by omega)
      refine ⟨n, j, by omega, h2, h3, h4, h5, h6, ?_⟩
      intro q hq1 hq2
      rcases Nat.lt_or_ge m q with h | h
      · exact h7 q (by omega) hq2
      · have : q = m := by omega
        subst this
        exact hno

/-- `find_first_non_full` when some slot is free: it returns a free slot, first along the probe sequence. -/
theorem findFirstNonFull_spec {C : Cfg α κ} (hG : GroupSpec C.G) {t : Tbl α} {c : List Ctrl} (r : Raw C.G.W t c)
    (hv : LValid c) (hash : Nat) (hex : ∃ x ∈ c, Eod x) :
    ∃ i n, t.findFirstNonFull C hash = .ok i ∧ i < t.capacity ∧ Eod (c.getD i kEmpty) ∧
      InWin C.G.W t.capacity hash n i ∧ ∀ q < n, ¬ WinHas Eod C.G.W c t.capacity hash q := by
  have hW := hG.width
  obtain ⟨x, hx, hxe⟩ := hex
  rw [List.mem_iff_getElem] at hx
  obtain ⟨i0, hi0, rfl⟩ := hx
  have hi0' : i0 < t.capacity := by rw [← r.len]; exact hi0
  have hq : Eod (c.getD i0 kEmpty) := by simpa [List.getD_eq_getElem?_getD, hi0] using hxe
  obtain ⟨n0, hn0, hw0⟩ := cover_has (c := c) (hash := hash) hW r.pow hi0' hq
  obtain ⟨k, hk⟩ := r.pow
  obtain ⟨n, j, _, hn, hj, he, h5, h6, h7⟩ :=
    probeNonFull_spec hG r hv hash n0 hw0 t.fuel 0 (by omega) (by unfold Tbl.fuel; omega)
  have hole : off C.G.W t.capacity hash n ≤ t.capacity := off_le _ _ _ _
  have hreal : off C.G.W t.capacity hash n + j ≤ 2 * t.capacity := by
    rcases width_cases hW ⟨k, hk⟩ with ⟨h1, _⟩ | ⟨h1, _⟩
    · by_contra hcon
      -- the window would not contain the found byte unless W > cap + 1
      have : off C.G.W t.capacity hash n + j = 2 * t.capacity + 1 ∨ 2 * t.capacity + 1 < off C.G.W t.capacity hash n + j := by omega
      omega
    · by_contra hcon
      -- slot i0 is seen earlier in the same window
      obtain ⟨j', hj', he', hle'⟩ := inWin_pos hW ⟨k, hk⟩ hole hi0' (inWin_small h1 hole hi0')
      apply h6 j' (by omega)
      rw [lay_mod hle' (by omega), he']; exact hq
  obtain ⟨h8, h9⟩ := eod_real hreal h5
  refine ⟨_, n, ?_, h8, by rw [← h9]; exact h5, ⟨j, hj, rfl⟩, fun q hq => h7 q (by omega) hq⟩
  unfold Tbl.findFirstNonFull
  rw [probe_start hk C.G.W]; exact he

/-- `find_first_non_full` when every slot is full: it still terminates in a small table, returning the index of
the sentinel. -/
theorem findFirstNonFull_full {C : Cfg α κ} (hG : GroupSpec C.G) {t : Tbl α} {c : List Ctrl} (r : Raw C.G.W t c)
    (hv : LValid c) (hash : Nat) (hno : ∀ x ∈ c, ¬ Eod x) (hsm : t.capacity + 1 < C.G.W) :
    t.findFirstNonFull C hash = .ok t.capacity := by
  have hW := hG.width
  obtain ⟨k, hk⟩ := r.pow
  obtain ⟨n0, hn0, hw0⟩ := cover_empty (hash := hash) hW ⟨k, hk⟩ r.len (Or.inr hsm)
  have hw0' : WinHas Eod C.G.W c t.capacity hash n0 := by
    obtain ⟨j, hj, he⟩ := hw0
    exact ⟨j, hj, Or.inl he⟩
  obtain ⟨n, j, _, hn, hj, he, h5, h6, h7⟩ :=
    probeNonFull_spec hG r hv hash n0 hw0' t.fuel 0 (by omega) (by unfold Tbl.fuel; omega)
  have hole : off C.G.W t.capacity hash n ≤ t.capacity := off_le _ _ _ _
  unfold Tbl.findFirstNonFull
  rw [probe_start hk C.G.W, he]
  congr 1
  have hgt : 2 * t.capacity < off C.G.W t.capacity hash n + j := by
    by_contra hcon
    obtain ⟨h8, h9⟩ := eod_real (by omega) h5
    rw [h9] at h5
    have hm : c.getD ((off C.G.W t.capacity hash n + j) % (t.capacity + 1)) kEmpty ∈ c := by
      apply List.mem_of_getElem? (getElem?_getD (by rw [r.len]; exact h8))
    exact hno _ hm h5
  have hge : ¬ (2 * t.capacity + 1 < off C.G.W t.capacity hash n + j) := by
    intro hlt
    apply h6 (2 * t.capacity + 1 - off C.G.W t.capacity hash n) (by omega)
    have : off C.G.W t.capacity hash n + (2 * t.capacity + 1 - off C.G.W t.capacity hash n) = 2 * t.capacity + 1 := by
      omega
    rw [this]; unfold lay
    rw [if_neg (by omega), if_neg (by omega), if_neg (by omega)]
    exact Or.inl rfl
  have : off C.G.W t.capacity hash n + j = t.capacity + (t.capacity + 1) := by omega
  rw [this, Nat.add_mod_right, Nat.mod_eq_of_lt (by omega)]

end Gtl.Swiss
