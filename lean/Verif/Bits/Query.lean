import Verif.Bits.Ops
/-!
# The queries of a bit vector compute the queries on lists of bits
-/

namespace Gtl.Bits

open Gtl.Spec.Bits

variable {τ : Type}

theorem shiftOf_zero (lo hi : Nat) : shiftOf 0 lo hi = 0 := by
  unfold shiftOf
  split
  · rfl
  · split <;> rfl

/-- `visit_all` that only looks. -/
theorem lookAll_rule {oor : Bool} {f : Look τ} {v : Bv} {l : List Bool} {t : τ} (h : Sim v l) (I : Nat → τ → Prop) (J : τ → Prop)
    (h0 : I 0 t)
    (hstep : ∀ lo hi t1, Seg 0 l.length lo hi → I lo t1 → ∀ w, WinO oor v.s lo hi w →
      ∃ t' b, f t1 w 0 = .ok (t', b) ∧ if b then J t' else I hi t') :
    ∃ t', v.lookAll oor f t = .ok t' ∧ (I l.length t' ∨ J t') := by
  have hlen := h.len
  unfold Bv.lookAll
  simp only [slotCnt_eq, mod_eq, h.sz]
  by_cases c : (l.length + 63) / 64 = 0
  · rw [if_pos c]
    have : l.length = 0 := by omega
    exact ⟨t, rfl, .inl (by rw [this]; exact h0)⟩
  rw [if_neg c]
  obtain ⟨t1, b, e1, e2⟩ := lookUp_rule (oor := oor) (f := f) (s := v.s) (first := 0) (last := l.length) I J h.room
    (fun k t1 _ a2 a3 w hw => hstep _ _ t1 ⟨by omega, by omega, a2, by omega, by omega, by omega⟩ a3 w hw)
    ((l.length + 63) / 64 - 1) 0 t (by omega) (by omega) h0
  rw [e1, Res.ok_bind]
  cases b with
  | true => exact ⟨t1, rfl, .inr e2⟩
  | false =>
    simp only [Bool.false_eq_true, if_false, Nat.zero_add] at e2 ⊢
    have hm : MaskOf (if l.length % 64 ≠ 0 then himask l.length else 0) (64 * ((l.length + 63) / 64 - 1)) l.length := by
      by_cases d : l.length % 64 = 0
      · rw [if_neg (by simpa using d)]
        have := mask_full ((l.length + 63) / 64 - 1)
        rw [show 64 * ((l.length + 63) / 64 - 1) + 64 = l.length by omega] at this
        exact this
      · rw [if_pos (by simpa using d)]
        have := mask_high d
        rw [show 64 * (l.length / 64) = 64 * ((l.length + 63) / 64 - 1) by omega] at this
        exact this
    obtain ⟨t2, b2, e3, e4⟩ := look_seg (I := I l.length) (J := J) (oor := oor) (f := f) (s := v.s) (t := t1) (sh := 0)
      (by omega) (by omega) h.room hm
      (fun w hw => hstep _ _ t1 ⟨by omega, by omega, by omega, by omega, by omega, by omega⟩ e2 w hw)
    rw [show 64 * ((l.length + 63) / 64 - 1) / 64 = (l.length + 63) / 64 - 1 by omega] at e3
    rw [e3]
    refine ⟨t2, rfl, ?_⟩
    cases b2
    · exact .inl e4
    · exact .inr e4

theorem win_abs {v : Bv} {l : List Bool} (h : Sim v l) {lo hi : Nat} {w : Word} (hw : WinO false v.s lo hi w) : WinL l lo hi w := by
  intro j hj
  rw [show w.getLsbD j = _ from hw j hj, h.bits]

/-- Queries of the form "does every index satisfy `P`", with early exit. -/
theorem all_query {oor : Bool} {f : Look τ} {first last : Nat} {s : List Word} {t : τ} (P : Nat → Bool) (val : τ → Bool)
    (K : Nat → τ → Prop) (h1 : first ≤ last) (h2 : last ≤ 64 * s.length) (h0 : K first t) (hv : val t = true)
    (hstep : ∀ lo hi t1 w, Seg first last lo hi → K lo t1 → val t1 = true → WinO oor s lo hi w →
      ∃ t' b, f t1 w (shiftOf first lo hi) = .ok (t', b) ∧ b = !(val t') ∧ K hi t' ∧
        (val t' = true ↔ ∀ i, lo ≤ i → i < hi → P i = true)) :
    ∃ t', visitV oor first last f s t = .ok t' ∧ (val t' = true ↔ ∀ i, first ≤ i → i < last → P i = true) := by
  obtain ⟨t', e1, e2⟩ := visitV_rule (oor := oor) (f := f) (s := s) (t := t)
    (fun pos t1 => K pos t1 ∧ val t1 = true ∧ ∀ i, first ≤ i → i < pos → P i = true)
    (fun t1 => val t1 = false ∧ ∃ i, first ≤ i ∧ i < last ∧ P i = false) h1 h2 ⟨h0, hv, fun i _ _ => by omega⟩
    (fun lo hi t1 hseg hI w hw => by
      obtain ⟨a1, a2, a3⟩ := hI
      obtain ⟨t', b, b1, b2, b3, b4⟩ := hstep lo hi t1 w hseg a1 a2 hw
      refine ⟨t', b, b1, ?_⟩
      have := hseg.lo_ge
      have := hseg.hi_le
      cases e : val t' with
      | true =>
        rw [b2, e]
        simp only [Bool.not_true, Bool.false_eq_true, if_false]
        refine ⟨b3, trivial, fun i c1 c2 => ?_⟩
        by_cases d : i < lo
        · exact a3 i c1 d
        · exact b4.1 e i (by omega) c2
      | false =>
        rw [b2, e]
        simp only [Bool.not_false, if_true]
        refine ⟨trivial, ?_⟩
        by_contra hc
        have : val t' = true := b4.2 (fun i c1 c2 => by
          by_contra hp
          exact hc ⟨i, by omega, by omega, by simpa using hp⟩)
        rw [e] at this; cases this)
  refine ⟨t', e1, ?_⟩
  rcases e2 with ⟨_, c1, c2⟩ | ⟨c1, i, d1, d2, d3⟩
  · exact ⟨fun _ => c2, fun _ => c1⟩
  · constructor
    · intro e; rw [c1] at e; cases e
    · intro e; rw [e i d1 d2] at d3; cases d3

theorem bool_eq_of_iff {a b : Bool} (h : a = true ↔ b = true) : a = b := by
  cases a <;> cases b <;> simp_all

/-- Inside one part, an index is an offset in the slot. -/
theorem seg_forall {first last lo hi : Nat} (hseg : Seg first last lo hi) (P : Nat → Prop) :
    (∀ i, lo ≤ i → i < hi → P i) ↔ ∀ j, j < 64 → lo ≤ 64 * (lo / 64) + j → 64 * (lo / 64) + j < hi → P (64 * (lo / 64) + j) := by
  constructor
  · intro h j _ c1 c2; exact h _ c1 c2
  · intro h i c1 c2
    have := hseg.same
    have := h (i - 64 * (lo / 64)) (by omega) (by omega) (by omega)
    rw [show 64 * (lo / 64) + (i - 64 * (lo / 64)) = i by omega] at this
    exact this

theorem word_zero_iff {l : List Bool} {first last lo hi : Nat} (hseg : Seg first last lo hi) {w : Word} (hw : WinL l lo hi w) :
    w = 0 ↔ ∀ i, lo ≤ i → i < hi → at' l i = false := by
  rw [seg_forall hseg]
  constructor
  · intro e j hj c1 c2
    have := hw j hj
    rw [e] at this
    simp [c1, c2] at this
    exact this
  · intro h
    apply word_ext
    intro j hj
    rw [hw j hj]
    by_cases c : lo ≤ 64 * (lo / 64) + j ∧ 64 * (lo / 64) + j < hi
    · rw [h j hj c.1 c.2]; simp
    · simp [c]

theorem word_ones_iff {v : Bv} {l : List Bool} (h : Sim v l) {first last lo hi : Nat} (hseg : Seg first last lo hi) {w : Word}
    (hw : WinO true v.s lo hi w) : w = ones ↔ ∀ i, lo ≤ i → i < hi → at' l i = true := by
  rw [seg_forall hseg]
  have hw' : ∀ j, j < 64 → w.getLsbD j = (!decide (lo ≤ 64 * (lo / 64) + j ∧ 64 * (lo / 64) + j < hi) || at' l (64 * (lo / 64) + j)) := by
    intro j hj
    rw [show w.getLsbD j = _ from hw j hj, h.bits]
  constructor
  · intro e j hj c1 c2
    have := hw' j hj
    rw [e, ones_bit] at this
    simp [c1, c2, hj] at this
    exact this
  · intro h
    apply word_ext
    intro j hj
    rw [hw' j hj, ones_bit]
    by_cases c : lo ≤ 64 * (lo / 64) + j ∧ 64 * (lo / 64) + j < hi
    · rw [h j hj c.1 c.2]; simp [hj]
    · simp [c, hj]

theorem any_slice {l : List Bool} {first last : Nat} (h2 : last ≤ l.length) :
    (slice l first last).any id = true ↔ ∃ i, first ≤ i ∧ i < last ∧ at' l i = true := by
  rw [slice_eq h2]
  simp only [List.any_map, List.any_eq_true, List.mem_range, Function.comp_apply, id_eq]
  constructor
  · rintro ⟨k, a, b⟩; exact ⟨first + k, by omega, by omega, b⟩
  · rintro ⟨i, a, b, c⟩; exact ⟨i - first, by omega, by rw [show first + (i - first) = i by omega]; exact c⟩

theorem all_slice {l : List Bool} {first last : Nat} (h2 : last ≤ l.length) :
    (slice l first last).all id = true ↔ ∀ i, first ≤ i → i < last → at' l i = true := by
  rw [slice_eq h2]
  simp only [List.all_map, List.all_eq_true, List.mem_range, Function.comp_apply, id_eq]
  constructor
  · intro h i a b
    have := h (i - first) (by omega)
    rw [show first + (i - first) = i by omega] at this; exact this
  · intro h k a; exact h _ (by omega) (by omega)

theorem viewAny_sim {v : Bv} {l : List Bool} (h : Sim v l) {first last : Nat} (h1 : first ≤ last) (h2 : last ≤ l.length) :
    v.viewAny first last = .ok ((slice l first last).any id) := by
  have hroom := h.room
  unfold Bv.viewAny
  obtain ⟨r, e1, e2⟩ := all_query (oor := false) (f := Bv.anyF) (s := v.s) (t := false) (fun i => !at' l i) (fun r => !r) (fun _ _ => True)
    h1 (by omega) trivial rfl (fun lo hi t1 w hseg _ hv hw => by
      unfold Bv.anyF
      refine ⟨_, _, rfl, by simp, trivial, ?_⟩
      have ht : t1 = false := by simpa using hv
      subst ht
      have := word_zero_iff hseg (win_abs h hw)
      by_cases c : w = 0
      · simp only [c, ne_eq, not_true_eq_false, if_false, Bool.not_false, true_iff]
        intro i a b; rw [this.1 c i a b]; rfl
      · simp only [c, ne_eq, not_false_eq_true, if_true, Bool.not_true, Bool.false_eq_true, false_iff]
        intro hc
        exact c (this.2 (fun i a b => by simpa using hc i a b)))
  rw [e1]
  congr 1
  apply bool_eq_of_iff
  rw [any_slice h2]
  constructor
  · intro hr
    by_contra hc
    have : (!r) = true := e2.2 (fun i a b => by
      cases d : at' l i with
      | false => rfl
      | true => exact (hc ⟨i, a, b, d⟩).elim)
    rw [hr] at this; cases this
  · rintro ⟨i, a, b, c⟩
    cases r with
    | true => rfl
    | false => have := e2.1 rfl i a b; rw [c] at this; cases this

theorem viewEvery_sim {v : Bv} {l : List Bool} (h : Sim v l) {first last : Nat} (h1 : first ≤ last) (h2 : last ≤ l.length) :
    v.viewEvery first last = .ok ((slice l first last).all id) := by
  have hroom := h.room
  unfold Bv.viewEvery
  obtain ⟨r, e1, e2⟩ := all_query (oor := true) (f := Bv.everyF) (s := v.s) (t := true) (fun i => at' l i) id (fun _ _ => True)
    h1 (by omega) trivial rfl (fun lo hi t1 w hseg _ hv hw => by
      unfold Bv.everyF
      refine ⟨_, _, rfl, by simp, trivial, ?_⟩
      have ht : t1 = true := hv
      subst ht
      have := word_ones_iff h hseg hw
      rw [← this]
      by_cases c : w = ones <;> simp [c])
  rw [e1]
  congr 1
  apply bool_eq_of_iff
  rw [all_slice h2]
  exact e2

/-- `visit_all` and `visit` over everything see the same words. -/
theorem lookAll_any {v : Bv} {l : List Bool} (h : Sim v l) : v.any = .ok (l.any id) := by
  unfold Bv.any
  obtain ⟨r, e1, e2⟩ := lookAll_rule (oor := false) (f := Bv.anyF) (t := false) h
    (fun pos r => r = false ∧ ∀ i, i < pos → at' l i = false) (fun r => r = true ∧ ∃ i, i < l.length ∧ at' l i = true) ⟨rfl, fun i _ => by omega⟩
    (fun lo hi t1 hseg hI w hw => by
      obtain ⟨a1, a2⟩ := hI
      have := word_zero_iff hseg (win_abs h hw)
      unfold Bv.anyF
      refine ⟨_, _, rfl, ?_⟩
      subst a1
      by_cases c : w = 0
      · simp only [c, ne_eq, not_true_eq_false, if_false, Bool.false_eq_true]
        refine ⟨trivial, fun i hi => ?_⟩
        by_cases d : i < lo
        · exact a2 i d
        · exact this.1 c i (by omega) hi
      · simp only [c, ne_eq, not_false_eq_true, if_true]
        refine ⟨trivial, ?_⟩
        by_contra hc
        apply c
        refine this.2 (fun i a b => ?_)
        have := hseg.hi_le
        by_contra hp
        exact hc ⟨i, by omega, by simpa using hp⟩)
  rw [e1]
  congr 1
  apply bool_eq_of_iff
  have := any_slice (l := l) (first := 0) (last := l.length) (by omega)
  rw [slice_all] at this
  rw [this]
  rcases e2 with ⟨a, b⟩ | ⟨a, i, b, c⟩
  · rw [a]
    simp only [Bool.false_eq_true, false_iff]
    rintro ⟨i, _, d, e⟩
    rw [b i d] at e; cases e
  · rw [a]
    exact ⟨fun _ => ⟨i, by omega, b, c⟩, fun _ => rfl⟩

theorem lookAll_every {v : Bv} {l : List Bool} (h : Sim v l) : v.every = .ok (l.all id) := by
  unfold Bv.every
  obtain ⟨r, e1, e2⟩ := lookAll_rule (oor := true) (f := Bv.everyF) (t := true) h
    (fun pos r => r = true ∧ ∀ i, i < pos → at' l i = true) (fun r => r = false ∧ ∃ i, i < l.length ∧ at' l i = false) ⟨rfl, fun i _ => by omega⟩
    (fun lo hi t1 hseg hI w hw => by
      obtain ⟨a1, a2⟩ := hI
      have := word_ones_iff h hseg hw
      unfold Bv.everyF
      refine ⟨_, _, rfl, ?_⟩
      subst a1
      by_cases c : w = ones
      · simp only [c, ne_eq, not_true_eq_false, if_false, Bool.not_true, Bool.false_eq_true]
        refine ⟨trivial, fun i hi => ?_⟩
        by_cases d : i < lo
        · exact a2 i d
        · exact this.1 c i (by omega) hi
      · simp only [c, ne_eq, not_false_eq_true, if_true, Bool.not_false]
        refine ⟨trivial, ?_⟩
        by_contra hc
        apply c
        refine this.2 (fun i a b => ?_)
        have := hseg.hi_le
        by_contra hp
        exact hc ⟨i, by omega, by simpa using hp⟩)
  rw [e1]
  congr 1
  apply bool_eq_of_iff
  have := all_slice (l := l) (first := 0) (last := l.length) (by omega)
  rw [slice_all] at this
  rw [this]
  rcases e2 with ⟨a, b⟩ | ⟨a, i, b, c⟩
  · rw [a]
    exact ⟨fun _ i _ d => b i d, fun _ => rfl⟩
  · rw [a]
    simp only [Bool.false_eq_true, false_iff]
    intro hc
    rw [hc i (by omega) b] at c; cases c

/-! ## Two views -/

/-- A two-view query with a test on words that stands for a test on bits. -/
theorem pair_query {v o : Bv} {l lo : List Bool} (h : Sim v l) (ho : Sim o lo) {first last ofirst olast : Nat} (h1 : first ≤ last)
    (h2 : last ≤ l.length) (h3 : ofirst ≤ olast) (h4 : olast ≤ lo.length) (h5 : olast - ofirst = last - first)
    (bad : Word → Word → Prop) [∀ a b, Decidable (bad a b)] (p : Bool → Bool → Bool) (hff : p false false = true)
    (hbad : ∀ a b, ¬ bad a b ↔ ∀ j, j < 64 → p (a.getLsbD j) (b.getLsbD j) = true) :
    ∃ q, visitV false first last (fun ((q, res) : Seq × Bool) w _ => (do
      let (q, x) ← q.next o.s
      let r := if bad w x then false else res
      Res.ok ((q, r), !r))) v.s (mkSeq ofirst olast first, true) =
      .ok (q, (List.zip (slice l first last) (slice lo ofirst olast)).all fun x => p x.1 x.2) := by
  have hroom := h.room
  have horoom := ho.room
  obtain ⟨⟨q, r⟩, e1, e2⟩ := all_query (oor := false) (s := v.s) (t := (mkSeq ofirst olast first, true)) (f := fun ((q, res) : Seq × Bool) w _ => (do
      let (q, x) ← q.next o.s
      let r := if bad w x then false else res
      Res.ok ((q, r), !r)))
    (fun i => p (at' l i) (at' lo (ofirst + (i - first)))) (fun t => t.2) (fun pos t => SeqAt t.1 first ofirst olast pos) h1 (by omega)
    (mkSeq_at _ _ _) rfl (fun lo' hi t1 w hseg hq hv hw => by
      obtain ⟨q, r⟩ := t1
      simp only at hq hv
      subst hv
      obtain ⟨q', x, a1, a2, a3⟩ := seq_next (src := o.s) hseg hq h5 h3 (by omega)
      simp only [a1, Res.ok_bind]
      refine ⟨_, _, rfl, rfl, a2, ?_⟩
      have hw := win_abs h hw
      simp only
      rw [show (∀ i, lo' ≤ i → i < hi → p (at' l i) (at' lo (ofirst + (i - first))) = true) ↔ _ from
        seg_forall hseg (fun i => p (at' l i) (at' lo (ofirst + (i - first))) = true)]
      have hb := hbad w x
      have key : (∀ j, j < 64 → p (w.getLsbD j) (x.getLsbD j) = true) ↔ (∀ j, j < 64 → lo' ≤ 64 * (lo' / 64) + j → 64 * (lo' / 64) + j < hi →
          p (at' l (64 * (lo' / 64) + j)) (at' lo (ofirst + (64 * (lo' / 64) + j - first))) = true) := by
        constructor
        · intro hp j hj c1 c2
          have := hp j hj
          rw [hw j hj, a3 j hj, ho.bits] at this
          simpa [c1, c2] using this
        · intro hp j hj
          rw [hw j hj, a3 j hj, ho.bits]
          by_cases c : lo' ≤ 64 * (lo' / 64) + j ∧ 64 * (lo' / 64) + j < hi
          · simpa [c] using hp j hj c.1 c.2
          · simpa [c] using hff
      rw [← key, ← hb]
      by_cases c : bad w x <;> simp [c])
  refine ⟨q, ?_⟩
  rw [e1]
  congr 2
  apply bool_eq_of_iff
  rw [show (r = true) ↔ _ from e2, slice_eq h2, slice_eq h4, h5, List.zip_map']
  simp only [List.all_map, List.all_eq_true, List.mem_range, Function.comp_apply]
  constructor
  · intro hp k hk
    have := hp (first + k) (by omega) (by omega)
    rw [show first + k - first = k by omega] at this; exact this
  · intro hp i a b
    have := hp (i - first) (by omega)
    rw [show first + (i - first) = i by omega] at this; exact this

theorem viewEq_sim {v o : Bv} {l lo : List Bool} (h : Sim v l) (ho : Sim o lo) {first last ofirst olast : Nat} (h1 : first ≤ last)
    (h2 : last ≤ l.length) (h3 : ofirst ≤ olast) (h4 : olast ≤ lo.length) :
    v.viewEq first last o ofirst olast = .ok (decide (slice l first last = slice lo ofirst olast)) := by
  unfold Bv.viewEq
  by_cases h5 : olast - ofirst = last - first
  · rw [if_neg (by simpa using h5.symm)]
    obtain ⟨q, e⟩ := pair_query h ho h1 h2 h3 h4 h5 (fun a b => a ≠ b) (fun a b => a == b) rfl (fun a b => by
      simp only [ne_eq, not_not, beq_iff_eq]
      exact ⟨fun e j _ => by rw [e], fun e => word_ext e⟩)
    rw [e, Res.ok_bind]
    simp only
    congr 1
    apply bool_eq_of_iff
    rw [decide_eq_true_iff, slice_eq h2, slice_eq h4, h5, List.zip_map', List.all_map, List.map_inj_left]
    simp [List.all_eq_true]
  · rw [if_pos (fun e => h5 e.symm)]
    congr 1
    have : slice l first last ≠ slice lo ofirst olast := by
      intro e
      have := congrArg List.length e
      rw [slice_eq h2, slice_eq h4] at this
      simp at this
      omega
    simp [this]

theorem or_eq_iff (w x : Word) : ¬ (w ||| x ≠ w) ↔ ∀ j, j < 64 → (!x.getLsbD j || w.getLsbD j) = true := by
  simp only [ne_eq, not_not]
  have hb : ∀ a b : Bool, (a || b) = a ↔ (!b || a) = true := by decide
  constructor
  · intro e j _
    have := congrArg (fun y => y.getLsbD j) e
    simp only [BitVec.getLsbD_or] at this
    exact (hb _ _).1 this
  · intro e
    apply word_ext
    intro j hj
    rw [BitVec.getLsbD_or]
    exact (hb _ _).2 (e j hj)

theorem and_eq_iff (w x : Word) : ¬ (w &&& x ≠ 0) ↔ ∀ j, j < 64 → (!(w.getLsbD j && x.getLsbD j)) = true := by
  simp only [ne_eq, not_not]
  have hz : ∀ j, (0 : Word).getLsbD j = false := by intro j; simp
  constructor
  · intro e j _
    have := congrArg (fun y => y.getLsbD j) e
    simp only [BitVec.getLsbD_and] at this
    rw [this, hz]; rfl
  · intro e
    apply word_ext
    intro j hj
    have := e j hj
    rw [BitVec.getLsbD_and, hz]
    cases h : (w.getLsbD j && x.getLsbD j) with
    | false => rfl
    | true => rw [h] at this; cases this

theorem viewContains_sim {v o : Bv} {l lo : List Bool} (h : Sim v l) (ho : Sim o lo) {first last ofirst olast : Nat} (h1 : first ≤ last)
    (h2 : last ≤ l.length) (h3 : ofirst ≤ olast) (h4 : olast ≤ lo.length) (h5 : olast - ofirst = last - first) :
    v.viewContains first last o ofirst olast = .ok (contains (slice l first last) (slice lo ofirst olast)) := by
  unfold Bv.viewContains
  rw [if_neg (by omega)]
  obtain ⟨q, e⟩ := pair_query h ho h1 h2 h3 h4 h5 (fun a b => a ||| b ≠ a) (fun a b => !b || a) rfl or_eq_iff
  rw [e]; rfl

theorem zip_take_slice {l lo : List Bool} {first last ofirst olast : Nat} (h2 : last ≤ l.length) (h4 : olast ≤ lo.length)
    (n : Nat) (hn : n = min (last - first) (olast - ofirst)) (h1 : first ≤ last) (h3 : ofirst ≤ olast) :
    List.zip (slice l first last) (slice lo ofirst olast) = List.zip (slice l first (first + n)) (slice lo ofirst (ofirst + n)) := by
  rw [slice_eq h2, slice_eq h4, slice_eq (by omega), slice_eq (by omega)]
  apply List.ext_getElem
  · simp; omega
  · intro i a b
    simp

theorem viewDisjoint_sim {v o : Bv} {l lo : List Bool} (h : Sim v l) (ho : Sim o lo) {first last ofirst olast : Nat} (h1 : first ≤ last)
    (h2 : last ≤ l.length) (h3 : ofirst ≤ olast) (h4 : olast ≤ lo.length) :
    v.viewDisjoint first last o ofirst olast = .ok (disjoint (slice l first last) (slice lo ofirst olast)) := by
  unfold Bv.viewDisjoint disjoint
  simp only
  by_cases c : last - first ≤ olast - ofirst
  · rw [if_pos c]
    obtain ⟨q, e⟩ := pair_query h ho (first := first) (last := last) (ofirst := ofirst) (olast := ofirst + (last - first)) h1 h2 (by omega) (by omega)
      (by omega) (fun a b => a &&& b ≠ 0) (fun a b => !(a && b)) rfl and_eq_iff
    rw [e, Res.ok_bind, zip_take_slice h2 h4 (last - first) (by omega) h1 h3, show first + (last - first) = last by omega]
  · rw [if_neg c]
    obtain ⟨q, e⟩ := pair_query h ho (first := first) (last := first + (olast - ofirst)) (ofirst := ofirst) (olast := olast) (by omega) (by omega) h3 h4
      (by omega) (fun a b => a &&& b ≠ 0) (fun a b => !(a && b)) rfl and_eq_iff
    rw [e, Res.ok_bind, zip_take_slice h2 h4 (olast - ofirst) (by omega) h1 h3, show ofirst + (olast - ofirst) = olast by omega]

theorem eq_sim {v o : Bv} {l lo : List Bool} (h : Sim v l) (ho : Sim o lo) : v.eq o = .ok (decide (l = lo)) := by
  unfold Bv.eq
  rw [h.sz, ho.sz, viewEq_sim h ho (by omega) (by omega) (by omega) (by omega), slice_all, slice_all]

/-! ## Counting -/

theorem count_window (p : Nat → Bool) {base lo hi : Nat} (h1 : base ≤ lo) (h2 : lo ≤ hi) (h3 : hi ≤ base + 64) :
    (List.range 64).countP (fun j => decide (lo ≤ base + j ∧ base + j < hi) && p (base + j)) =
      (List.range (hi - lo)).countP (fun k => p (lo + k)) := by
  have e : List.range 64 = List.range (lo - base) ++ (List.range (hi - lo)).map ((lo - base) + ·) ++
      (List.range (base + 64 - hi)).map ((lo - base + (hi - lo)) + ·) := by
    rw [← List.range_add, ← List.range_add]
    congr 1; omega
  rw [e, List.countP_append, List.countP_append, List.countP_map, List.countP_map]
  have a1 : (List.range (lo - base)).countP (fun j => decide (lo ≤ base + j ∧ base + j < hi) && p (base + j)) = 0 := by
    rw [List.countP_eq_zero]
    intro j hj
    rw [List.mem_range] at hj
    have : ¬ lo ≤ base + j := by omega
    simp [this]
  have a2 : (List.range (base + 64 - hi)).countP ((fun j => decide (lo ≤ base + j ∧ base + j < hi) && p (base + j)) ∘ ((lo - base + (hi - lo)) + ·)) = 0 := by
    rw [List.countP_eq_zero]
    intro j hj
    have : ¬ base + (lo - base + (hi - lo) + j) < hi := by omega
    simp [this]
  rw [a1, a2, Nat.zero_add, Nat.add_zero]
  apply List.countP_congr
  intro k hk
  rw [List.mem_range] at hk
  have b1 : base + (lo - base + k) = lo + k := by omega
  have b2 : lo ≤ lo + k ∧ lo + k < hi := by omega
  simp [b1, b2]

theorem count_range_add (p : Nat → Bool) {first lo hi : Nat} (h1 : first ≤ lo) (h2 : lo ≤ hi) :
    (List.range (lo - first)).countP (fun k => p (first + k)) + (List.range (hi - lo)).countP (fun k => p (lo + k)) =
      (List.range (hi - first)).countP (fun k => p (first + k)) := by
  rw [show hi - first = (lo - first) + (hi - lo) by omega, List.range_add, List.countP_append, List.countP_map]
  congr 1
  apply List.countP_congr
  intro k _
  simp only [Function.comp_apply]
  rw [show first + (lo - first + k) = lo + k by omega]

theorem popcount_seg {l : List Bool} {first last lo hi : Nat} (hseg : Seg first last lo hi) {w : Word} (hw : WinL l lo hi w) :
    popcount64 w = (List.range (hi - lo)).countP (fun k => at' l (lo + k)) := by
  obtain ⟨g1, g2, g3, g4, g5, g6⟩ := hseg
  rw [popcount64_eq, ← count_window (fun i => at' l i) (base := 64 * (lo / 64)) (by omega) (by omega) (by omega)]
  apply List.countP_congr
  intro j hj
  rw [List.mem_range] at hj
  rw [hw j hj]

theorem count_slice {l : List Bool} {first last : Nat} (h2 : last ≤ l.length) :
    (slice l first last).count true = (List.range (last - first)).countP (fun k => at' l (first + k)) := by
  rw [slice_eq h2, List.count, List.countP_map]
  apply List.countP_congr
  intro k _
  simp

theorem viewCount_sim {v : Bv} {l : List Bool} (h : Sim v l) {first last : Nat} (h1 : first ≤ last) (h2 : last ≤ l.length) :
    v.viewCount first last = .ok ((slice l first last).count true) := by
  have hroom := h.room
  unfold Bv.viewCount
  obtain ⟨n, e1, e2⟩ := visitV_rule (oor := false) (f := fun n w _ => .ok (n + popcount64 w, false)) (s := v.s) (t := 0)
    (fun pos n => n = (List.range (pos - first)).countP (fun k => at' l (first + k))) (fun _ => False) h1 (by omega) (by simp)
    (fun lo hi n hseg hI w hw => ⟨_, _, rfl, by
      simp only [Bool.false_eq_true, if_false]
      rw [hI, popcount_seg hseg (win_abs h hw)]
      have := hseg.lt
      exact count_range_add _ hseg.lo_ge (by omega)⟩)
  rw [e1]
  rcases e2 with e2 | e2
  · rw [e2, count_slice h2]
  · exact e2.elim

theorem count_sim {v : Bv} {l : List Bool} (h : Sim v l) : v.count = .ok (l.count true) := by
  unfold Bv.count
  obtain ⟨n, e1, e2⟩ := lookAll_rule (oor := false) (f := fun n w _ => .ok (if w ≠ 0 then n + popcount64 w else n, false)) (t := 0) h
    (fun pos n => n = (List.range (pos - 0)).countP (fun k => at' l (0 + k))) (fun _ => False) (by simp)
    (fun lo hi n hseg hI w hw => ⟨_, _, rfl, by
      have hpop := popcount_seg hseg (win_abs h hw)
      have hz : (if w ≠ 0 then n + popcount64 w else n) = n + popcount64 w := by
        by_cases c : w = 0
        · rw [if_neg (by simpa using c), c]; rfl
        · rw [if_pos c]
      simp only [Bool.false_eq_true, if_false]
      rw [hz, hI, hpop]
      have := hseg.lt
      exact count_range_add _ hseg.lo_ge (by omega)⟩)
  rw [e1]
  rcases e2 with e2 | e2
  · have := count_slice (l := l) (first := 0) (last := l.length) (by omega)
    rw [slice_all] at this
    rw [e2, this]
  · exact e2.elim

/-! ## Searching -/

/-- `k` is the first set index of the view. -/
def IsFirst (l : List Bool) (first last k : Nat) : Prop :=
  first ≤ k ∧ k < last ∧ at' l k = true ∧ ∀ i, first ≤ i → i < k → at' l i = false

theorem findFirst_slice_some {l : List Bool} {first last k : Nat} (h2 : last ≤ l.length) (hk : IsFirst l first last k) :
    findFirst (slice l first last) = some (k - first) := by
  obtain ⟨a, b, c, d⟩ := hk
  unfold findFirst
  rw [List.findIdx?_eq_some_iff_getElem]
  refine ⟨by rw [slice_eq h2]; simp; omega, ?_, fun j hj => ?_⟩
  · simp only [slice_eq h2, List.getElem_map, List.getElem_range, id_eq]
    rw [show first + (k - first) = k by omega]; exact c
  · simp only [slice_eq h2, List.getElem_map, List.getElem_range, id_eq]
    rw [d _ (by omega) (by omega)]; simp

theorem findFirst_slice_none {l : List Bool} {first last : Nat} (h2 : last ≤ l.length) (h : ∀ i, first ≤ i → i < last → at' l i = false) :
    findFirst (slice l first last) = none := by
  unfold findFirst
  rw [List.findIdx?_eq_none_iff, slice_eq h2]
  intro x hx
  simp only [List.mem_map, List.mem_range] at hx
  obtain ⟨k, hk, rfl⟩ := hx
  rw [h _ (by omega) (by omega)]; rfl

/-- The position in the view that `find_first` computes for the set index `k`: off by the start offset if `k` is in a partial
last slot of a view over several slots. -/
def foundAt (first last k : Nat) : Nat :=
  if first / 64 ≠ last / 64 ∧ k / 64 = last / 64 then k + first % 64 else k

theorem findFirst_gen {v : Bv} {l : List Bool} (h : Sim v l) {first last : Nat} (h1 : first ≤ last) (h2 : last ≤ l.length) :
    (∃ k, IsFirst l first last k ∧
      v.findFirst first last = .ok (if foundAt first last k < last then some (foundAt first last k - first) else none)) ∨
    ((∀ i, first ≤ i → i < last → at' l i = false) ∧ v.findFirst first last = .ok none) := by
  have hroom := h.room
  unfold Bv.findFirst
  obtain ⟨idx, e1, e2⟩ := visitV_rule (oor := false) (f := Bv.findF) (s := v.s) (t := first)
    (fun pos idx => (∀ i, first ≤ i → i < pos → at' l i = false) ∧ (pos ≠ last → idx = pos) ∧ (pos = last → last ≤ idx))
    (fun idx => ∃ k, IsFirst l first last k ∧ idx = foundAt first last k) h1 (by omega)
    ⟨fun i _ _ => by omega, fun _ => rfl, fun e => by omega⟩
    (fun lo hi idx hseg hI w hw => by
      obtain ⟨a1, a2, _⟩ := hI
      have hw := win_abs h hw
      have hz := word_zero_iff hseg hw
      obtain ⟨g1, g2, g3, g4, g5, g6⟩ := hseg
      have hidx : idx = lo := a2 (by omega)
      subst hidx
      unfold Bv.findF
      by_cases c : w = 0
      · rw [if_neg (by simpa using c)]
        refine ⟨_, _, rfl, ?_⟩
        simp only [Bool.false_eq_true, if_false]
        refine ⟨fun i b1 b2 => ?_, ?_, ?_⟩
        · by_cases d : i < idx
          · exact a1 i b1 d
          · exact hz.1 c i (by omega) b2
        · intro hne
          unfold shiftOf
          split
          · omega
          · rw [if_pos (by omega)]; omega
        · intro he
          unfold shiftOf
          split
          · omega
          · split <;> omega
      · rw [if_pos c]
        obtain ⟨k, k1, k2, k3⟩ := lowest c
        rw [countrZero_ok k1 k2 k3, Res.ok_bind]
        refine ⟨_, _, rfl, ?_⟩
        simp only [if_true]
        have hk := hw k k1
        rw [k2] at hk
        have hin : idx ≤ 64 * (idx / 64) + k ∧ 64 * (idx / 64) + k < hi := by
          by_contra hc
          simp [hc] at hk
        simp only [hin, and_self, decide_true, Bool.true_and] at hk
        refine ⟨64 * (idx / 64) + k, ⟨by omega, by omega, hk.symm, fun i b1 b2 => ?_⟩, ?_⟩
        · by_cases d : i < idx
          · exact a1 i b1 d
          · have := k3 (i - 64 * (idx / 64)) (by omega)
            rw [hw _ (by omega), show 64 * (idx / 64) + (i - 64 * (idx / 64)) = i by omega] at this
            have b3 : idx ≤ i ∧ i < hi := by omega
            simpa [b3] using this
        · unfold foundAt shiftOf
          by_cases d : idx = first
          · rw [if_pos d, if_neg (by omega)]; omega
          · rw [if_neg d]
            by_cases e : hi % 64 = 0
            · rw [if_pos e, if_neg (by omega)]; omega
            · rw [if_neg e, if_pos (by omega)]; omega)
  rw [e1, Res.ok_bind]
  rcases e2 with ⟨a1, _, a3⟩ | ⟨k, hk, he⟩
  · refine .inr ⟨a1, ?_⟩
    rw [if_neg (by have := a3 rfl; omega)]
  · exact .inl ⟨k, hk, by rw [he]⟩

/-- Exact when the view starts at a slot boundary, is inside one slot, or ends at a slot boundary. -/
theorem findFirst_sim {v : Bv} {l : List Bool} (h : Sim v l) {first last : Nat} (h1 : first ≤ last) (h2 : last ≤ l.length)
    (hs : first % 64 = 0 ∨ last % 64 = 0 ∨ first / 64 = last / 64) :
    v.findFirst first last = .ok (findFirst (slice l first last)) := by
  rcases findFirst_gen h h1 h2 with ⟨k, hk, e⟩ | ⟨hn, e⟩
  · have hf : foundAt first last k = k := by
      unfold foundAt
      have := hk.2.1
      split <;> omega
    rw [e, hf, if_pos hk.2.1, findFirst_slice_some h2 hk]
  · rw [e, findFirst_slice_none h2 hn]

/-- Exact when the first set bit is not in the last slot. -/
theorem findFirst_sim' {v : Bv} {l : List Bool} (h : Sim v l) {first last : Nat} (h1 : first ≤ last) (h2 : last ≤ l.length)
    (hs : ∀ k, findFirst (slice l first last) = some k → (first + k) / 64 < last / 64) :
    v.findFirst first last = .ok (findFirst (slice l first last)) := by
  rcases findFirst_gen h h1 h2 with ⟨k, hk, e⟩ | ⟨hn, e⟩
  · have hsome := findFirst_slice_some h2 hk
    have := hs _ hsome
    have := hk.1
    have hf : foundAt first last k = k := by
      unfold foundAt
      split <;> omega
    rw [e, hf, if_pos hk.2.1, hsome]
  · rw [e, findFirst_slice_none h2 hn]

theorem slice_drop {l : List Bool} {first last start : Nat} : (slice l first last).drop start = slice l (first + start) last := by
  unfold slice; rw [List.drop_drop]

theorem findNext_sim {v : Bv} {l : List Bool} (h : Sim v l) {first last start : Nat} (h2 : last ≤ l.length)
    (hs : (first + start) % 64 = 0 ∨ last % 64 = 0 ∨ (first + start) / 64 = last / 64) :
    v.findNext first last start = .ok (findNext (slice l first last) start) := by
  unfold Bv.findNext findNext
  rw [slice_drop]
  by_cases c : first + start ≥ last
  · rw [if_pos c]
    have : slice l (first + start) last = [] := by
      rw [slice_eq h2, show last - (first + start) = 0 by omega]; rfl
    rw [this]; rfl
  · rw [if_neg c, findFirst_sim h (by omega) h2 hs]; rfl

/-! ## Conversions -/

theorem toStringBits_sim {v : Bv} {l : List Bool} (h : Sim v l) : ∀ n, n ≤ l.length → v.toStringBits n = .ok (l.take n).reverse
  | 0, _ => by simp [Bv.toStringBits]
  | n + 1, hn => by
    unfold Bv.toStringBits
    rw [get_sim h (by omega), Res.ok_bind, toStringBits_sim h n (by omega), Res.ok_bind, at_get (by omega)]
    rw [show (l.take (n + 1)).reverse = l[n] :: (l.take n).reverse by rw [← List.take_append_getElem (by omega), List.reverse_append]; rfl]

theorem value_bits : ∀ (n x : Nat), value ((List.range n).map fun j => x.testBit j) = x % 2 ^ n
  | 0, x => by simp [value, Nat.mod_one]
  | n + 1, x => by
    rw [List.range_succ_eq_map, List.map_cons, List.map_map]
    have : ((fun j => x.testBit j) ∘ Nat.succ) = fun j => (x / 2).testBit j := by
      funext j
      simp [Nat.testBit_succ]
    rw [this]
    simp only [value]
    rw [value_bits n (x / 2), Nat.pow_succ, Nat.mul_comm (2 ^ n), Nat.mod_mul]
    have : (x.testBit 0).toNat = x % 2 := by
      rw [Nat.testBit_zero]
      rcases Nat.mod_two_eq_zero_or_one x with e | e <;> simp [e]
    omega

theorem value_append_false : ∀ (l : List Bool) (n : Nat), value (l ++ List.replicate n false) = value l
  | [], 0 => rfl
  | [], n + 1 => by
    have := value_append_false [] n
    simp only [List.nil_append] at this
    simp [List.replicate_succ, value, this]
  | b :: l, n => by simp [value, value_append_false l n]

theorem toUllong_sim {v : Bv} {l : List Bool} (h : Sim v l) : v.toUllong = .ok (value (l.take 64)) := by
  unfold Bv.toUllong
  rw [h.sz]
  by_cases c : l.length = 0
  · rw [if_neg (by simpa using c)]
    have : l = [] := List.length_eq_zero_iff.1 c
    subst this; rfl
  rw [if_pos c]
  have hlen := h.len
  obtain ⟨w, e1, e2⟩ := ld_ok (s := v.s) (i := 0) (by omega)
  rw [e2, Res.ok_bind]
  congr 1
  have hlt : w.toNat < 2 ^ 64 := w.isLt
  have hv := value_bits 64 w.toNat
  rw [Nat.mod_eq_of_lt hlt] at hv
  suffices hl : ((List.range 64).map fun j => w.toNat.testBit j) = l.take 64 ++ List.replicate (64 - l.length) false by
    rw [← hv, hl, value_append_false]
  apply List.ext_getElem
  · simp; omega
  · intro i a b
    simp only [List.length_map, List.length_range] at a
    rw [List.getElem_map, List.getElem_range]
    have hb : w.toNat.testBit i = at' l i := by
      have := bit_at (k := 0) e1 a
      rw [show 64 * 0 + i = i by omega, h.bits] at this
      rw [this]; rfl
    rw [hb]
    by_cases d : i < l.length
    · rw [List.getElem_append_left (by simp; omega), at_get d]; simp
    · rw [List.getElem_append_right (by simp; omega), at_out (by omega)]; simp

theorem hashLoop_ok {v : Bv} : ∀ (n i : Nat) (x : Word), i + n ≤ v.s.length → ∃ y, v.hashLoop n i x = .ok y
  | 0, i, x, _ => ⟨x, rfl⟩
  | n + 1, i, x, hn => by
    obtain ⟨w, _, e⟩ := ld_ok (s := v.s) (i := i) (by omega)
    unfold Bv.hashLoop
    rw [e, Res.ok_bind]
    exact hashLoop_ok n (i + 1) _ (by omega)

theorem hash_ok {v : Bv} {l : List Bool} (h : Sim v l) : ∃ y, v.hash = .ok y := by
  unfold Bv.hash
  refine hashLoop_ok _ _ _ ?_
  rw [slotCnt_eq, h.sz, h.len]; omega

end Gtl.Bits
