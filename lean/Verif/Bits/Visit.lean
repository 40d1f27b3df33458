import Verif.Bits.Word
/-!
# Proof rules for the visitors
-/

namespace Gtl.Bits

/-- Bit `i` of the slots. -/
def bit (s : List Word) (i : Nat) : Bool :=
  match s[i / 64]? with
  | some w => w.getLsbD (i % 64)
  | none => false

theorem bit_at {s : List Word} {k : Nat} {w : Word} (h : s[k]? = some w) {j : Nat} (hj : j < 64) : bit s (64 * k + j) = w.getLsbD j := by
  unfold bit
  rw [show (64 * k + j) / 64 = k by omega, show (64 * k + j) % 64 = j by omega, h]

theorem bit_at' {s : List Word} {i : Nat} {w : Word} (h : s[i / 64]? = some w) : bit s i = w.getLsbD (i % 64) := by
  unfold bit; rw [h]

theorem bit_set {s : List Word} {k : Nat} (hk : k < s.length) (w : Word) (i : Nat) :
    bit (s.set k w) i = if i / 64 = k then w.getLsbD (i % 64) else bit s i := by
  unfold bit
  rw [List.getElem?_set]
  by_cases h : i / 64 = k
  · rw [if_pos h.symm, if_pos (by omega), if_pos h]
  · rw [if_neg (fun e => h e.symm), if_neg h]

theorem bit_out {s : List Word} {i : Nat} (h : 64 * s.length ≤ i) : bit s i = false := by
  unfold bit
  rw [List.getElem?_eq_none (by omega)]

theorem slots_ext {s s' : List Word} (hl : s.length = s'.length) (h : ∀ i, i < 64 * s.length → bit s i = bit s' i) : s = s' := by
  apply List.ext_getElem? 
  intro k
  by_cases hk : k < s.length
  · have h1 : s[k]? = some s[k] := List.getElem?_eq_getElem hk
    have h2 : s'[k]? = some (s'[k]'(by omega)) := List.getElem?_eq_getElem (by omega)
    simp only [h1, h2]
    congr 1
    apply word_ext
    intro j hj
    rw [← bit_at h1 hj, ← bit_at h2 hj]
    exact h _ (by omega)
  · rw [List.getElem?_eq_none (by omega), List.getElem?_eq_none (by omega)]

theorem ld_ok {s : List Word} {i : Nat} (h : i < s.length) : ∃ w, s[i]? = some w ∧ ld s i = .ok w := by
  refine ⟨s[i], List.getElem?_eq_getElem h, ?_⟩
  unfold ld
  rw [List.getElem?_eq_getElem h]; rfl

/-- The part of `[first, last)` handled in one go. -/
structure Seg (first last lo hi : Nat) : Prop where
  lo_ge : first ≤ lo
  lt : lo < hi
  hi_le : hi ≤ last
  same : lo / 64 = (hi - 1) / 64
  start : lo = first ∨ lo % 64 = 0
  stop : hi = last ∨ hi % 64 = 0

/-- The shift passed to the callback. -/
def shiftOf (first lo hi : Nat) : Int :=
  if lo = first then ((first % 64 : Nat) : Int) else if hi % 64 = 0 then 0 else -((first % 64 : Nat) : Int)

/-- The word passed to the callback: the bits of the slot that are in `[lo, hi)`, others 0. -/
def Win (s : List Word) (lo hi : Nat) (w : Word) : Prop :=
  ∀ j, j < 64 → w.getLsbD j = (decide (lo ≤ 64 * (lo / 64) + j ∧ 64 * (lo / 64) + j < hi) && bit s (64 * (lo / 64) + j))

/-- The same with others 1. -/
def WinOnes (s : List Word) (lo hi : Nat) (w : Word) : Prop :=
  ∀ j, j < 64 → w.getLsbD j = (!decide (lo ≤ 64 * (lo / 64) + j ∧ 64 * (lo / 64) + j < hi) || bit s (64 * (lo / 64) + j))

/-- `s'` is `s` with `[lo, hi)` taken from `fs`. -/
def Wrote (s : List Word) (lo hi : Nat) (fs : Word) (s' : List Word) : Prop :=
  s'.length = s.length ∧ ∀ i, bit s' i = if lo ≤ i ∧ i < hi then fs.getLsbD (i % 64) else bit s i

def MaskOf (m : Word) (lo hi : Nat) : Prop :=
  ∀ j, j < 64 → m.getLsbD j = !decide (lo ≤ 64 * (lo / 64) + j ∧ 64 * (lo / 64) + j < hi)

theorem mask_single {first last : Nat} (h : first < last) (hs : first / 64 = last / 64) :
    MaskOf (~~~ (lowmask first ^^^ lowmask last)) first last := by
  intro j hj
  rw [BitVec.getLsbD_not, BitVec.getLsbD_xor, lowmask_bit, lowmask_bit]
  have h1 : (first ≤ 64 * (first / 64) + j) ↔ first % 64 ≤ j := by omega
  have h2 : (64 * (first / 64) + j < last) ↔ j < last % 64 := by omega
  simp only [h1, h2]
  by_cases a : j < first % 64
  · have : j < last % 64 := by omega
    have a' : ¬ first % 64 ≤ j := by omega
    simp [a, this, hj, a']
  · have a' : first % 64 ≤ j := by omega
    by_cases b : j < last % 64 <;> simp [a, a', b, hj]

theorem mask_low (first : Nat) : MaskOf (lowmask first) first (64 * (first / 64) + 64) := by
  intro j hj
  rw [lowmask_bit]
  have h1 : (first ≤ 64 * (first / 64) + j) ↔ first % 64 ≤ j := by omega
  simp only [h1]
  by_cases a : j < first % 64
  · have a' : ¬ first % 64 ≤ j := by omega
    simp [a, a']
  · have a' : first % 64 ≤ j := by omega
    simp [a, a', hj]

theorem mask_high {last : Nat} (_h : last % 64 ≠ 0) : MaskOf (himask last) (64 * (last / 64)) last := by
  intro j hj
  rw [himask_bit]
  rw [show 64 * (64 * (last / 64) / 64) = 64 * (last / 64) by omega]
  have h2 : (64 * (last / 64) + j < last) ↔ j < last % 64 := by omega
  simp only [h2]
  by_cases a : j < last % 64
  · have a' : ¬ last % 64 ≤ j := by omega
    simp [a, a']
  · have a' : last % 64 ≤ j := by omega
    simp [a, a', hj]

theorem mask_full (k : Nat) : MaskOf 0 (64 * k) (64 * k + 64) := by
  intro j hj
  rw [show 64 * (64 * k / 64) = 64 * k by omega]
  simp [hj]

variable {τ : Type}

theorem updFull_eq (f : Upd τ) (i : Nat) (s : List Word) (t : τ) : updFull f i s t = updMasked f i 0 0 s t := by
  unfold updFull updMasked
  simp only [show ~~~ 0#64 = BitVec.allOnes 64 from rfl, BitVec.and_allOnes, BitVec.and_zero, BitVec.zero_or, show (0 : Word) = 0#64 from rfl]

theorem upd_seg {f : Upd τ} {m : Word} {sh : Int} {lo hi : Nat} {s : List Word} {t : τ} {J : List Word → τ → Prop}
    (hlt : lo < hi) (hsame : lo / 64 = (hi - 1) / 64) (hlen : hi ≤ 64 * s.length) (hm : MaskOf m lo hi)
    (hstep : ∀ w, Win s lo hi w → ∃ t' fs, f s t w sh = .ok (t', fs) ∧ ∀ s', Wrote s lo hi fs s' → J s' t') :
    ∃ s' t', updMasked f (lo / 64) m sh s t = .ok (s', t') ∧ s'.length = s.length ∧ J s' t' := by
  have hk : lo / 64 < s.length := by omega
  obtain ⟨v, hv, hl⟩ := ld_ok hk
  have hw : Win s lo hi (v &&& ~~~ m) := by
    intro j hj
    rw [BitVec.getLsbD_and, BitVec.getLsbD_not, hm j hj, bit_at hv hj]
    simp [hj, Bool.and_comm]
  obtain ⟨t', fs, h1, h2⟩ := hstep _ hw
  unfold updMasked
  rw [hl, Res.ok_bind, h1, Res.ok_bind]
  by_cases hne : v ≠ fs
  · simp only [if_pos hne, st, if_pos hk, Res.ok_bind]
    refine ⟨_, _, rfl, List.length_set, h2 _ ⟨List.length_set, fun i => ?_⟩⟩
    rw [bit_set hk]
    by_cases hi' : i / 64 = lo / 64
    · rw [if_pos hi', BitVec.getLsbD_or, BitVec.getLsbD_and, BitVec.getLsbD_and, BitVec.getLsbD_not,
        hm _ (Nat.mod_lt _ (by decide)), bit_at' (by rw [hi']; exact hv)]
      rw [show 64 * (lo / 64) + i % 64 = i by omega]
      have : i % 64 < 64 := Nat.mod_lt _ (by decide)
      by_cases hr : lo ≤ i ∧ i < hi <;> simp [hr, this]
    · rw [if_neg hi', if_neg (by omega)]
  · simp only [if_neg hne]
    refine ⟨_, _, rfl, rfl, h2 _ ⟨rfl, fun i => ?_⟩⟩
    split
    · rename_i hr
      have : v = fs := by simpa using hne
      rw [bit_at' (w := v) (by rw [show i / 64 = lo / 64 by omega]; exact hv), this]
    · rfl

/-- Rule for the upward visit: an invariant that holds at the start of each part and is kept by the callback. -/
theorem visit_up {f : Upd τ} {first last : Nat} {s : List Word} {t : τ} (I : Nat → List Word → τ → Prop)
    (hfl : first ≤ last) (hlen : last ≤ 64 * s.length) (h0 : I first s t)
    (hstep : ∀ lo hi s1 t1, Seg first last lo hi → s1.length = s.length → I lo s1 t1 → ∀ w, Win s1 lo hi w →
      ∃ t' fs, f s1 t1 w (shiftOf first lo hi) = .ok (t', fs) ∧ ∀ s', Wrote s1 lo hi fs s' → I hi s' t') :
    ∃ s' t', visit false first last f s t = .ok (s', t') ∧ s'.length = s.length ∧ I last s' t' := by
  unfold visit
  by_cases hle : last ≤ first
  · rw [if_pos hle]
    have : last = first := by omega
    subst this
    exact ⟨_, _, rfl, rfl, h0⟩
  rw [if_neg hle]
  simp only [slot_eq, mod_eq]
  by_cases hss : first / 64 = last / 64
  · rw [if_pos hss]
    have hseg : Seg first last first last := ⟨Nat.le_refl _, by omega, Nat.le_refl _, by omega, .inl rfl, .inl rfl⟩
    have := hstep first last s t hseg rfl h0
    unfold shiftOf at this
    rw [if_pos rfl] at this
    exact upd_seg (J := I last) (by omega) (by omega) hlen (mask_single (by omega) hss) this
  rw [if_neg hss]
  simp only [Bool.false_eq_true, not_false_eq_true, if_true]
  -- the loop over full slots and the last slot
  have hrest : ∀ n k s1 t1, k + n = last / 64 → s1.length = s.length → first ≤ 64 * k → I (64 * k) s1 t1 →
      ∃ s2 t2, fullUp f n k s1 t1 = .ok (s2, t2) ∧ s2.length = s.length ∧ I (64 * (last / 64)) s2 t2 := by
    intro n
    induction n with
    | zero => intro k s1 t1 h1 h2 h3 h4; refine ⟨s1, t1, rfl, h2, ?_⟩; rw [← h1]; exact h4
    | succ n ih =>
      intro k s1 t1 h1 h2 h3 h4
      have hseg : Seg first last (64 * k) (64 * k + 64) := ⟨h3, by omega, by omega, by omega, .inr (by omega), .inr (by omega)⟩
      have hs := hstep _ _ s1 t1 hseg h2 h4
      have hsh : shiftOf first (64 * k) (64 * k + 64) = 0 := by
        unfold shiftOf
        split
        · rename_i e; rw [← e]; simp
        · rw [if_pos (by omega)]
      rw [hsh] at hs
      obtain ⟨s2, t2, e1, e2, e3⟩ := upd_seg (J := I (64 * k + 64)) (by omega) (by omega) (by omega) (mask_full k) hs
      rw [show 64 * k / 64 = k by omega, ← updFull_eq] at e1
      obtain ⟨s3, t3, e4, e5, e6⟩ := ih (k + 1) s2 t2 (by omega) (by omega) (by omega) (by rw [Nat.mul_add]; exact e3)
      refine ⟨s3, t3, ?_, e5, e6⟩
      rw [fullUp, e1, Res.ok_bind]; exact e4
  have hlast : ∀ s1 t1, s1.length = s.length → I (64 * (last / 64)) s1 t1 →
      ∃ s2 t2, (if last % 64 ≠ 0 then updMasked f (last / 64) (himask last) (-((first % 64 : Nat) : Int)) s1 t1 else Res.ok (s1, t1)) =
        .ok (s2, t2) ∧ s2.length = s.length ∧ I last s2 t2 := by
    intro s1 t1 h2 h4
    by_cases hl : last % 64 = 0
    · rw [if_neg (by simp [hl])]
      refine ⟨_, _, rfl, h2, ?_⟩
      rw [show last = 64 * (last / 64) by omega]; exact h4
    · rw [if_pos (by simp [hl])]
      have hseg : Seg first last (64 * (last / 64)) last := ⟨by omega, by omega, by omega, by omega, .inr (by omega), .inl rfl⟩
      have hs := hstep _ _ s1 t1 hseg h2 h4
      have hsh : shiftOf first (64 * (last / 64)) last = -((first % 64 : Nat) : Int) := by
        unfold shiftOf
        rw [if_neg (by omega), if_neg hl]
      rw [hsh] at hs
      obtain ⟨s2, t2, e1, e2, e3⟩ := upd_seg (J := I last) (by omega) (by omega) (by omega) (mask_high hl) hs
      rw [show 64 * (last / 64) / 64 = last / 64 by omega] at e1
      exact ⟨s2, t2, e1, by omega, e3⟩
  by_cases hsh : first % 64 = 0
  · rw [if_neg (by simp [hsh])]
    simp only [Res.ok_bind]
    obtain ⟨s1, t1, e1, e2, e3⟩ := hrest (last / 64 - first / 64) (first / 64) s t (by omega) rfl (by omega)
      (by rw [show 64 * (first / 64) = first by omega]; exact h0)
    rw [e1, Res.ok_bind]
    exact hlast _ _ e2 e3
  · rw [if_pos (by simp [hsh])]
    have hseg : Seg first last first (64 * (first / 64) + 64) := ⟨by omega, by omega, by omega, by omega, .inl rfl, .inr (by omega)⟩
    have hs := hstep _ _ s t hseg rfl h0
    unfold shiftOf at hs
    rw [if_pos rfl] at hs
    obtain ⟨s1, t1, e1, e2, e3⟩ := upd_seg (J := I (64 * (first / 64) + 64)) (by omega) (by omega) (by omega) (mask_low first) hs
    rw [e1]
    simp only [Res.ok_bind]
    obtain ⟨s2, t2, e4, e5, e6⟩ := hrest (last / 64 - (first / 64 + 1)) (first / 64 + 1) s1 t1 (by omega) e2 (by omega)
      (by rw [Nat.mul_add]; exact e3)
    rw [e4, Res.ok_bind]
    exact hlast _ _ e5 e6

/-- Rule for the downward visit. -/
theorem visit_down {f : Upd τ} {first last : Nat} {s : List Word} {t : τ} (I : Nat → List Word → τ → Prop)
    (hfl : first ≤ last) (hlen : last ≤ 64 * s.length) (h0 : I last s t)
    (hstep : ∀ lo hi s1 t1, Seg first last lo hi → s1.length = s.length → I hi s1 t1 → ∀ w, Win s1 lo hi w →
      ∃ t' fs, f s1 t1 w (shiftOf first lo hi) = .ok (t', fs) ∧ ∀ s', Wrote s1 lo hi fs s' → I lo s' t') :
    ∃ s' t', visit true first last f s t = .ok (s', t') ∧ s'.length = s.length ∧ I first s' t' := by
  unfold visit
  by_cases hle : last ≤ first
  · rw [if_pos hle]
    have : last = first := by omega
    subst this
    exact ⟨_, _, rfl, rfl, h0⟩
  rw [if_neg hle]
  simp only [slot_eq, mod_eq]
  by_cases hss : first / 64 = last / 64
  · rw [if_pos hss]
    have hseg : Seg first last first last := ⟨Nat.le_refl _, by omega, Nat.le_refl _, by omega, .inl rfl, .inl rfl⟩
    have := hstep first last s t hseg rfl h0
    unfold shiftOf at this
    rw [if_pos rfl] at this
    exact upd_seg (J := I first) (by omega) (by omega) hlen (mask_single (by omega) hss) this
  rw [if_neg hss]
  simp only [not_true_eq_false, if_false]
  have hlast : ∃ s2 t2, (if last % 64 ≠ 0 then updMasked f (last / 64) (himask last) (-((first % 64 : Nat) : Int)) s t else Res.ok (s, t)) =
        .ok (s2, t2) ∧ s2.length = s.length ∧ I (64 * (last / 64)) s2 t2 := by
    by_cases hl : last % 64 = 0
    · rw [if_neg (by simp [hl])]
      refine ⟨_, _, rfl, rfl, ?_⟩
      rw [show 64 * (last / 64) = last by omega]; exact h0
    · rw [if_pos (by simp [hl])]
      have hseg : Seg first last (64 * (last / 64)) last := ⟨by omega, by omega, by omega, by omega, .inr (by omega), .inl rfl⟩
      have hs := hstep _ _ s t hseg rfl h0
      have hsh : shiftOf first (64 * (last / 64)) last = -((first % 64 : Nat) : Int) := by
        unfold shiftOf
        rw [if_neg (by omega), if_neg hl]
      rw [hsh] at hs
      obtain ⟨s2, t2, e1, e2, e3⟩ := upd_seg (J := I (64 * (last / 64))) (by omega) (by omega) (by omega) (mask_high hl) hs
      rw [show 64 * (last / 64) / 64 = last / 64 by omega] at e1
      exact ⟨s2, t2, e1, by omega, e3⟩
  have hrest : ∀ n k s1 t1, first / 64 + n = k → k < last / 64 → s1.length = s.length → I (64 * k + 64) s1 t1 →
      ∃ s2 t2, fullDown f n k s1 t1 = .ok (s2, t2) ∧ s2.length = s.length ∧ I (64 * (first / 64) + 64) s2 t2 := by
    intro n
    induction n with
    | zero =>
      intro k s1 t1 h1 h2 h3 h4
      refine ⟨s1, t1, rfl, h3, ?_⟩
      rw [Nat.add_zero] at h1; rw [h1]; exact h4
    | succ n ih =>
      intro k s1 t1 h1 h2 h3 h4
      have hseg : Seg first last (64 * k) (64 * k + 64) := ⟨by omega, by omega, by omega, by omega, .inr (by omega), .inr (by omega)⟩
      have hs := hstep _ _ s1 t1 hseg h3 h4
      have hsh : shiftOf first (64 * k) (64 * k + 64) = 0 := by
        unfold shiftOf
        split
        · omega
        · rw [if_pos (by omega)]
      rw [hsh] at hs
      obtain ⟨s2, t2, e1, e2, e3⟩ := upd_seg (J := I (64 * k)) (by omega) (by omega) (by omega) (mask_full k) hs
      rw [show 64 * k / 64 = k by omega, ← updFull_eq] at e1
      obtain ⟨s3, t3, e4, e5, e6⟩ := ih (k - 1) s2 t2 (by omega) (by omega) (by omega)
        (by rw [show 64 * (k - 1) + 64 = 64 * k by omega]; exact e3)
      refine ⟨s3, t3, ?_, e5, e6⟩
      rw [fullDown, e1, Res.ok_bind]; exact e4
  obtain ⟨s1, t1, e1, e2, e3⟩ := hlast
  rw [e1, Res.ok_bind]
  obtain ⟨s2, t2, e4, e5, e6⟩ := hrest (last / 64 - 1 - first / 64) (last / 64 - 1) s1 t1 (by omega) (by omega) e2
    (by rw [show 64 * (last / 64 - 1) + 64 = 64 * (last / 64) by omega]; exact e3)
  simp only
  rw [e4, Res.ok_bind]
  have hseg : Seg first last first (64 * (first / 64) + 64) := ⟨by omega, by omega, by omega, by omega, .inl rfl, .inr (by omega)⟩
  have hs := hstep _ _ s2 t2 hseg e5 e6
  unfold shiftOf at hs
  rw [if_pos rfl] at hs
  obtain ⟨s3, t3, e7, e8, e9⟩ := upd_seg (J := I first) (by omega) (by omega) (by omega) (mask_low first) hs
  exact ⟨s3, t3, e7, by omega, e9⟩

/-! ## Looking -/

/-- The word passed to a callback that only looks. -/
def WinO (oor : Bool) (s : List Word) (lo hi : Nat) (w : Word) : Prop := if oor then WinOnes s lo hi w else Win s lo hi w

theorem look_seg {oor : Bool} {f : Look τ} {m : Word} {sh : Int} {lo hi : Nat} {s : List Word} {t : τ} {I J : τ → Prop}
    (hlt : lo < hi) (hsame : lo / 64 = (hi - 1) / 64) (hlen : hi ≤ 64 * s.length) (hm : MaskOf m lo hi)
    (hstep : ∀ w, WinO oor s lo hi w → ∃ t' b, f t w sh = .ok (t', b) ∧ if b then J t' else I t') :
    ∃ t' b, lookMasked oor f (lo / 64) m sh s t = .ok (t', b) ∧ if b then J t' else I t' := by
  have hk : lo / 64 < s.length := by omega
  obtain ⟨v, hv, hl⟩ := ld_ok hk
  have hw : WinO oor s lo hi (oorBits oor v m) := by
    unfold WinO oorBits
    cases oor with
    | false =>
      simp only [Bool.false_eq_true, if_false]
      intro j hj
      rw [BitVec.getLsbD_and, BitVec.getLsbD_not, hm j hj, bit_at hv hj]
      simp [hj, Bool.and_comm]
    | true =>
      simp only [if_true]
      intro j hj
      rw [BitVec.getLsbD_or, hm j hj, bit_at hv hj, Bool.or_comm]
  obtain ⟨t', b, h1, h2⟩ := hstep _ hw
  refine ⟨t', b, ?_, h2⟩
  unfold lookMasked
  rw [hl, Res.ok_bind]; exact h1

theorem look_full {oor : Bool} {f : Look τ} {k : Nat} {s : List Word} {t : τ} :
    (do let v ← ld s k; f t v 0) = lookMasked oor f k 0 0 s t := by
  unfold lookMasked oorBits
  simp only [show ~~~ 0#64 = BitVec.allOnes 64 from rfl, BitVec.and_allOnes, BitVec.or_zero, show (0 : Word) = 0#64 from rfl, ite_self]

theorem lookUp_rule {oor : Bool} {f : Look τ} {first last : Nat} {s : List Word} (I : Nat → τ → Prop) (J : τ → Prop)
    (hlen : last ≤ 64 * s.length)
    (hstep : ∀ k t1, first ≤ 64 * k → 64 * k + 64 ≤ last → I (64 * k) t1 → ∀ w, WinO oor s (64 * k) (64 * k + 64) w →
      ∃ t' b, f t1 w 0 = .ok (t', b) ∧ if b then J t' else I (64 * k + 64) t') :
    ∀ n k t1, 64 * (k + n) ≤ last → first ≤ 64 * k → I (64 * k) t1 →
      ∃ t2 b, lookUp f s n k t1 = .ok (t2, b) ∧ if b then J t2 else I (64 * (k + n)) t2 := by
  intro n
  induction n with
  | zero => intro k t1 h1 h2 h3; exact ⟨t1, false, rfl, h3⟩
  | succ n ih =>
    intro k t1 h1 h2 h3
    obtain ⟨t2, b, e1, e2⟩ := look_seg (oor := oor) (f := f) (sh := 0) (t := t1) (I := I (64 * k + 64)) (J := J) (by omega) (by omega) (by omega) (mask_full k)
      (hstep k t1 h2 (by omega) h3)
    rw [show 64 * k / 64 = k by omega, ← look_full] at e1
    rw [Res.bind_eq_ok] at e1
    obtain ⟨v, e3, e4⟩ := e1
    rw [lookUp, e3, Res.ok_bind, e4, Res.ok_bind]
    cases b with
    | true => exact ⟨t2, true, rfl, e2⟩
    | false =>
      simp only [Bool.false_eq_true, if_false] at e2 ⊢
      obtain ⟨t3, b, e5, e6⟩ := ih (k + 1) t2 (by omega) (by omega) (by rw [Nat.mul_add]; exact e2)
      refine ⟨t3, b, e5, ?_⟩
      rw [show k + (n + 1) = k + 1 + n by omega]; exact e6

/-- Rule for the visit that only looks: `I` as long as it goes on, `J` if the callback has stopped it. -/
theorem visitV_rule {oor : Bool} {f : Look τ} {first last : Nat} {s : List Word} {t : τ} (I : Nat → τ → Prop) (J : τ → Prop)
    (hfl : first ≤ last) (hlen : last ≤ 64 * s.length) (h0 : I first t)
    (hstep : ∀ lo hi t1, Seg first last lo hi → I lo t1 → ∀ w, WinO oor s lo hi w →
      ∃ t' b, f t1 w (shiftOf first lo hi) = .ok (t', b) ∧ if b then J t' else I hi t') :
    ∃ t', visitV oor first last f s t = .ok t' ∧ (I last t' ∨ J t') := by
  unfold visitV
  by_cases hle : last ≤ first
  · rw [if_pos hle]
    have : last = first := by omega
    subst this
    exact ⟨_, rfl, .inl h0⟩
  rw [if_neg hle]
  simp only [slot_eq, mod_eq]
  by_cases hss : first / 64 = last / 64
  · rw [if_pos hss]
    have hseg : Seg first last first last := ⟨Nat.le_refl _, by omega, Nat.le_refl _, by omega, .inl rfl, .inl rfl⟩
    have hs := hstep first last t hseg h0
    unfold shiftOf at hs
    rw [if_pos rfl] at hs
    obtain ⟨t', b, e1, e2⟩ := look_seg (I := I last) (J := J) (by omega) (by omega) hlen (mask_single (by omega) hss) hs
    rw [e1, Res.ok_bind]
    refine ⟨t', rfl, ?_⟩
    cases b
    · exact .inl e2
    · exact .inr e2
  rw [if_neg hss]
  have hloop := lookUp_rule (first := first) (last := last) (oor := oor) (f := f) (s := s) I J hlen (fun k t1 h1 h2 h3 w hw => by
    have hseg : Seg first last (64 * k) (64 * k + 64) := ⟨h1, by omega, h2, by omega, .inr (by omega), .inr (by omega)⟩
    have hs := hstep _ _ t1 hseg h3 w hw
    have hsh : shiftOf first (64 * k) (64 * k + 64) = 0 := by
      unfold shiftOf
      split
      · rename_i e; rw [← e]; simp
      · rw [if_pos (by omega)]
    rw [hsh] at hs
    exact hs)
  have hlast : ∀ t1, I (64 * (last / 64)) t1 →
      ∃ t2, (if last % 64 ≠ 0 then do
          let (t, _) ← lookMasked oor f (last / 64) (himask last) (-((first % 64 : Nat) : Int)) s t1
          Res.ok t
        else Res.ok t1) = .ok t2 ∧ (I last t2 ∨ J t2) := by
    intro t1 h4
    by_cases hl : last % 64 = 0
    · rw [if_neg (by simp [hl])]
      refine ⟨_, rfl, .inl ?_⟩
      rw [show last = 64 * (last / 64) by omega]; exact h4
    · rw [if_pos (by simp [hl])]
      have hseg : Seg first last (64 * (last / 64)) last := ⟨by omega, by omega, by omega, by omega, .inr (by omega), .inl rfl⟩
      have hs := hstep _ _ t1 hseg h4
      have hsh : shiftOf first (64 * (last / 64)) last = -((first % 64 : Nat) : Int) := by
        unfold shiftOf
        rw [if_neg (by omega), if_neg hl]
      rw [hsh] at hs
      obtain ⟨t2, b, e1, e2⟩ := look_seg (I := I last) (J := J) (by omega) (by omega) (by omega) (mask_high hl) hs
      rw [show 64 * (last / 64) / 64 = last / 64 by omega] at e1
      rw [e1]
      refine ⟨t2, rfl, ?_⟩
      cases b
      · exact .inl e2
      · exact .inr e2
  by_cases hsh : first % 64 = 0
  · rw [if_neg (by simp [hsh])]
    simp only [Res.ok_bind, Bool.false_eq_true, if_false]
    obtain ⟨t1, b, e1, e2⟩ := hloop (last / 64 - first / 64) (first / 64) t (by omega) (by omega)
      (by rw [show 64 * (first / 64) = first by omega]; exact h0)
    rw [e1, Res.ok_bind]
    cases b with
    | true => exact ⟨t1, rfl, .inr e2⟩
    | false =>
      simp only [Bool.false_eq_true, if_false] at e2 ⊢
      rw [show first / 64 + (last / 64 - first / 64) = last / 64 by omega] at e2
      exact hlast _ e2
  · rw [if_pos (by simp [hsh])]
    have hseg : Seg first last first (64 * (first / 64) + 64) := ⟨by omega, by omega, by omega, by omega, .inl rfl, .inr (by omega)⟩
    have hs := hstep _ _ t hseg h0
    unfold shiftOf at hs
    rw [if_pos rfl] at hs
    obtain ⟨t1, b, e1, e2⟩ := look_seg (I := I (64 * (first / 64) + 64)) (J := J) (by omega) (by omega) (by omega) (mask_low first) hs
    rw [e1]
    simp only [Res.ok_bind]
    cases b with
    | true => exact ⟨t1, rfl, .inr e2⟩
    | false =>
      simp only [Bool.false_eq_true, if_false] at e2 ⊢
      obtain ⟨t2, b, e4, e5⟩ := hloop (last / 64 - (first / 64 + 1)) (first / 64 + 1) t1 (by omega) (by omega)
        (by rw [Nat.mul_add]; exact e2)
      rw [e4, Res.ok_bind]
      cases b with
      | true => exact ⟨t2, rfl, .inr e5⟩
      | false =>
        simp only [Bool.false_eq_true, if_false] at e5 ⊢
        rw [show first / 64 + 1 + (last / 64 - (first / 64 + 1)) = last / 64 by omega] at e5
        exact hlast _ e5

end Gtl.Bits
