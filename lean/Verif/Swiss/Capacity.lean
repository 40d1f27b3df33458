import Verif.Swiss.CostSim
import Verif.Swiss.More
import Verif.Spec.Room
/-!
# Helper lemmas: what each member function does to the number of buckets

Plain facts about the modelled functions: whatever they return, the capacity of the resulting table is this one.
-/

namespace Gtl.Swiss

open Gtl.Spec (Op WOp Resp put InsertsOne PutsNothing)

namespace Tbl
variable {α κ : Type}

theorem foldlM_keeps {σ β : Type} {f : σ → β → Res σ} {P : σ → Prop}
    (hf : ∀ s b s', P s → f s b = .ok s' → P s') : ∀ (l : List β) {s s' : σ}, P s → l.foldlM f s = .ok s' → P s'
  | [], s, s', h, e => by cases e; exact h
  | b :: l, s, s', h, e => by
    rw [List.foldlM_cons] at e
    obtain ⟨s1, h1, h2⟩ := Res.bind_eq_ok.1 e
    exact foldlM_keeps hf l (hf _ _ _ h h1) h2

theorem destroyFull_cap {t t' : Tbl α} (h : t.destroyFull = .ok t') : t'.capacity = t.capacity ∧ t'.size = t.size := by
  refine foldlM_keeps (P := fun s : Tbl α => s.capacity = t.capacity ∧ s.size = t.size) ?_ _ ⟨rfl, rfl⟩ h
  intro s i s' hs hi
  obtain ⟨c, _, h2⟩ := Res.bind_eq_ok.1 hi
  split at h2
  · have := destroy_frame h2
    exact ⟨this.2.1.trans hs.1, this.2.2.2.trans hs.2⟩
  · cases h2; exact hs

theorem destroySlots_cap {t t' : Tbl α} (h : t.destroySlots = .ok t') : t'.capacity = 0 := by
  unfold destroySlots at h
  split at h
  · cases h; assumption
  · obtain ⟨t1, _, h2⟩ := Res.bind_eq_ok.1 h
    split at h2
    · cases h2; rfl
    · cases h2

theorem clear_cap {C : Cfg α κ} {t t' : Tbl α} (h : t.clear C = .ok t') : t'.capacity = t.capacity := by
  unfold clear at h
  split at h
  · cases h; rfl
  split at h
  · cases h; rfl
  · obtain ⟨t1, h1, h2⟩ := Res.bind_eq_ok.1 h
    split at h2
    · cases h2; exact (destroyFull_cap h1).1
    · cases h2

theorem resize_cap {C : Cfg α κ} {t t' : Tbl α} {n : Nat} (h : t.resize C n = .ok t') :
    t'.capacity = n ∧ t'.size = t.size := by
  unfold resize at h
  obtain ⟨⟨old, new⟩, h1, h2⟩ := Res.bind_eq_ok.1 h
  have hk := foldlM_keeps (P := fun s : Tbl α × Tbl α => s.2.capacity = n ∧ s.2.size = t.size) ?_ _ ⟨rfl, rfl⟩ h1
  · dsimp only at h2
    split at h2
    · cases h2; exact hk
    · cases h2
  · rintro ⟨s, u⟩ i ⟨s', u'⟩ hs hi
    unfold resizeStep at hi
    obtain ⟨c, _, h3⟩ := Res.bind_eq_ok.1 hi
    split at h3
    · obtain ⟨a, _, h4⟩ := Res.bind_eq_ok.1 h3
      obtain ⟨j, _, h5⟩ := Res.bind_eq_ok.1 h4
      obtain ⟨t2, h6, h7⟩ := Res.bind_eq_ok.1 h5
      obtain ⟨t3, h8, h9⟩ := Res.bind_eq_ok.1 h7
      obtain ⟨t4, h10, h11⟩ := Res.bind_eq_ok.1 h9
      cases h11
      have e1 := set_frame h6
      have e2 := construct_frame h8
      exact ⟨e2.2.1.trans (e1.1.trans hs.1), e2.2.2.2.trans (e1.2.2.trans hs.2)⟩
    · cases h3; exact hs

theorem dropLoop_cap {C : Cfg α κ} : ∀ (n i : Nat) {t t' : Tbl α}, dropLoop C n i t = .ok t' →
    t'.capacity = t.capacity ∧ t'.size = t.size
  | 0, _, _, _, h => by cases h
  | n + 1, i, t, t', h => by
    unfold dropLoop at h
    split at h
    · cases h; exact ⟨rfl, rfl⟩
    obtain ⟨c, _, h1⟩ := Res.bind_eq_ok.1 h
    split at h1
    · exact dropLoop_cap n _ h1
    obtain ⟨a, _, h2⟩ := Res.bind_eq_ok.1 h1
    obtain ⟨j, _, h3⟩ := Res.bind_eq_ok.1 h2
    dsimp only at h3
    split at h3
    · obtain ⟨t1, h4, h5⟩ := Res.bind_eq_ok.1 h3
      have e1 := set_frame h4
      have e2 := dropLoop_cap n _ h5
      exact ⟨e2.1.trans e1.1, e2.2.trans e1.2.2⟩
    obtain ⟨cn, _, h4⟩ := Res.bind_eq_ok.1 h3
    split at h4
    · obtain ⟨t1, g1, h5⟩ := Res.bind_eq_ok.1 h4
      obtain ⟨t2, g2, h6⟩ := Res.bind_eq_ok.1 h5
      obtain ⟨t3, g3, h7⟩ := Res.bind_eq_ok.1 h6
      obtain ⟨t4, g4, h8⟩ := Res.bind_eq_ok.1 h7
      have e1 := set_frame g1
      have e2 := construct_frame g2
      have e3 := destroy_frame g3
      have e4 := set_frame g4
      have e5 := dropLoop_cap n _ h8
      exact ⟨by rw [e5.1, e4.1, e3.2.1, e2.2.1, e1.1], by rw [e5.2, e4.2.2, e3.2.2.2, e2.2.2.2, e1.2.2]⟩
    · obtain ⟨t1, g1, h5⟩ := Res.bind_eq_ok.1 h4
      obtain ⟨b, _, h6⟩ := Res.bind_eq_ok.1 h5
      obtain ⟨t2, g2, h7⟩ := Res.bind_eq_ok.1 h6
      obtain ⟨t3, g3, h8⟩ := Res.bind_eq_ok.1 h7
      obtain ⟨t4, g4, h9⟩ := Res.bind_eq_ok.1 h8
      obtain ⟨t5, g5, h10⟩ := Res.bind_eq_ok.1 h9
      have e1 := set_frame g1
      have e2 := destroy_frame g2
      have e3 := construct_frame g3
      have e4 := destroy_frame g4
      have e5 := construct_frame g5
      have e6 := dropLoop_cap n _ h10
      exact ⟨by rw [e6.1, e5.2.1, e4.2.1, e3.2.1, e2.2.1, e1.1],
        by rw [e6.2, e5.2.2.2, e4.2.2.2, e3.2.2.2, e2.2.2.2, e1.2.2]⟩

theorem dropDeletes_cap {C : Cfg α κ} {t t' : Tbl α} (h : t.dropDeletes C = .ok t') :
    t'.capacity = t.capacity ∧ t'.size = t.size := by
  unfold dropDeletes at h
  obtain ⟨t1, h1, h2⟩ := Res.bind_eq_ok.1 h
  obtain ⟨t2, h3, h4⟩ := Res.bind_eq_ok.1 h2
  cases h4
  have e1 : t1.capacity = t.capacity ∧ t1.size = t.size := by
    unfold convertCtrl at h1
    obtain ⟨c, _, h5⟩ := Res.bind_eq_ok.1 h1
    split at h5
    · cases h5; exact ⟨rfl, rfl⟩
    · cases h5
  have e2 := dropLoop_cap _ _ h3
  exact ⟨e2.1.trans e1.1, e2.2.trans e1.2⟩

/-- What an insertion may do to the number of buckets: nothing, or, when no room is left, from none to one, or from
`c` to `2c + 1` when more than half of what fits is in use. -/
def Grow (C : Cfg α κ) (t t' : Tbl α) : Prop :=
  t'.capacity = t.capacity ∨ (t.growthLeft = 0 ∧ t.capacity = 0 ∧ t'.capacity = 1) ∨
    (t.growthLeft = 0 ∧ t.capacity ≠ 0 ∧ capacityToGrowth C.G.W t.capacity / 2 < t.size ∧
      t'.capacity = t.capacity * 2 + 1)

theorem prepareInsert_cap {C : Cfg α κ} {t t' : Tbl α} {hv i : Nat} (h : t.prepareInsert C hv = .ok (t', i)) :
    t'.size = t.size + 1 ∧ Grow C t t' := by
  unfold prepareInsert at h
  obtain ⟨j, _, h1⟩ := Res.bind_eq_ok.1 h
  obtain ⟨c, _, h2⟩ := Res.bind_eq_ok.1 h1
  dsimp only at h2
  split at h2
  · rename_i hg
    obtain ⟨t2, h6, h7⟩ := Res.bind_eq_ok.1 h2
    obtain ⟨j3, _, h8⟩ := Res.bind_eq_ok.1 h7
    obtain ⟨⟨t3, j4⟩, e0, h9⟩ := Res.bind_eq_ok.1 h8
    cases e0
    obtain ⟨c2, _, h5⟩ := Res.bind_eq_ok.1 h9
    cases h5
    unfold rehashAndGrow at h6
    split at h6
    · have e := resize_cap h6
      exact ⟨congrArg (· + 1) e.2, .inr (.inl ⟨hg.1, by assumption, e.1⟩)⟩
    split at h6
    · have e := dropDeletes_cap h6
      exact ⟨congrArg (· + 1) e.2, .inl e.1⟩
    · have e := resize_cap h6
      exact ⟨congrArg (· + 1) e.2, .inr (.inr ⟨hg.1, by assumption, by omega, e.1⟩)⟩
  · obtain ⟨⟨t3, j4⟩, e0, h9⟩ := Res.bind_eq_ok.1 h2
    cases e0
    obtain ⟨c2, _, h5⟩ := Res.bind_eq_ok.1 h9
    cases h5
    exact ⟨rfl, .inl rfl⟩

theorem emplaceHash_cap {C : Cfg α κ} {t t' : Tbl α} {k : κ} {hv i : Nat} {mk : Unit → α} {ins : Bool}
    (h : t.emplaceHash C k hv mk = .ok (t', i, ins)) :
    (ins = false ∧ t' = t) ∨ (ins = true ∧ t'.size = t.size + 1 ∧ Grow C t t') := by
  unfold emplaceHash at h
  obtain ⟨o, _, h1⟩ := Res.bind_eq_ok.1 h
  cases o with
  | some off => cases h1; exact .inl ⟨rfl, rfl⟩
  | none =>
    dsimp only at h1
    obtain ⟨⟨t1, off⟩, h2, h3⟩ := Res.bind_eq_ok.1 h1
    obtain ⟨t2, h4, h5⟩ := Res.bind_eq_ok.1 h3
    obtain ⟨t3, h6, h7⟩ := Res.bind_eq_ok.1 h5
    cases h7
    have e1 := prepareInsert_cap h2
    have e2 := construct_frame h4
    have e3 := set_frame h6
    refine .inr ⟨rfl, by rw [e3.2.2, e2.2.2.2, e1.1], ?_⟩
    unfold Grow
    rw [e3.1, e2.2.1]; exact e1.2

theorem eraseMeta_cap {C : Cfg α κ} {t t' : Tbl α} {i : Nat} (h : t.eraseMetaOnly C i = .ok t') :
    t'.capacity = t.capacity := by
  unfold eraseMetaOnly at h
  dsimp only at h
  obtain ⟨_, _, h1⟩ := Res.bind_eq_ok.1 h
  obtain ⟨_, _, h2⟩ := Res.bind_eq_ok.1 h1
  obtain ⟨t1, h3, h4⟩ := Res.bind_eq_ok.1 h2
  cases h4
  exact (set_frame h3).1

theorem eraseAt_cap {C : Cfg α κ} {t t' : Tbl α} {i : Nat} (h : t.eraseAt C i = .ok t') : t'.capacity = t.capacity := by
  unfold eraseAt at h
  obtain ⟨t1, h1, h2⟩ := Res.bind_eq_ok.1 h
  exact (eraseMeta_cap h2).trans (destroy_frame h1).2.1

theorem eraseIfLoop_cap {C : Cfg α κ} {p : α → Bool} : ∀ (n i : Nat) {t t' : Tbl α}, eraseIfLoop C p n t i = .ok t' →
    t'.capacity = t.capacity
  | 0, _, _, _, h => by cases h
  | n + 1, i, t, t', h => by
    unfold eraseIfLoop at h
    split at h
    · cases h; rfl
    obtain ⟨a, _, h1⟩ := Res.bind_eq_ok.1 h
    split at h1
    · obtain ⟨nx, _, h2⟩ := Res.bind_eq_ok.1 h1
      obtain ⟨t1, h3, h4⟩ := Res.bind_eq_ok.1 h2
      exact (eraseIfLoop_cap n _ h4).trans (eraseAt_cap h3)
    · obtain ⟨nx, _, h2⟩ := Res.bind_eq_ok.1 h1
      exact eraseIfLoop_cap n _ h2

theorem assignAt_cap {t t' : Tbl α} {i : Nat} {f : α → α} (h : t.assignAt i f = .ok t') :
    t'.capacity = t.capacity ∧ t'.size = t.size := by
  unfold assignAt at h
  obtain ⟨a, _, h2⟩ := Res.bind_eq_ok.1 h
  cases h2; exact ⟨rfl, rfl⟩

theorem normalizeCapacity_lt (n : Nat) : normalizeCapacity n ≤ 2 * n + 1 ∧ (n ≠ 0 → normalizeCapacity n + 1 ≤ 2 * n) := by
  unfold normalizeCapacity
  split
  · omega
  · rename_i h
    have : 2 ^ n.log2 ≤ n := Nat.log2_self_le h
    rw [pow_succ]
    omega

/-- `rehash(n)`: the size stays; the number of buckets stays, becomes 0, or is less than twice the larger of `n` and
the size. -/
theorem rehash_cap {C : Cfg α κ} {t t' : Tbl α} {n : Nat} (h : t.rehash C n = .ok t') :
    t'.capacity = t.capacity ∨ t'.capacity = 0 ∨ t'.capacity + 1 ≤ 2 * max n t.size := by
  unfold rehash at h
  split at h
  · cases h; exact .inl rfl
  split at h
  · exact .inr (.inl (destroySlots_cap h))
  · rename_i h1 h2
    dsimp only at h
    split at h
    · rw [(resize_cap h).1]
      refine .inr (.inr ((normalizeCapacity_lt _).2 ?_))
      rcases Nat.eq_zero_or_pos n with h0 | h0
      · have : t.size ≠ 0 := fun e => h2 ⟨h0, e⟩
        omega
      · omega
    · cases h; exact .inl rfl

theorem rehash_size {C : Cfg α κ} {t t' : Tbl α} {n : Nat} (h : t.rehash C n = .ok t') : t'.size = t.size := by
  unfold rehash at h
  split at h
  · cases h; rfl
  split at h
  · rename_i h1
    unfold destroySlots at h
    split at h
    · cases h; rfl
    · obtain ⟨t1, _, h2⟩ := Res.bind_eq_ok.1 h
      split at h2
      · cases h2; exact h1.2.symm
      · cases h2
  · dsimp only at h
    split at h
    · exact (resize_cap h).2
    · cases h; rfl

/-- `reserve(n)` never makes the table larger than `16/7` times the larger of `n` and the size. -/
theorem reserve_cap {C : Cfg α κ} {t t' : Tbl α} {n : Nat} (h : t.reserve C n = .ok t') :
    t'.capacity = t.capacity ∨ 7 * t'.capacity ≤ 16 * max n t.size := by
  rcases rehash_cap h with e | e | e
  · exact .inl e
  · right; omega
  · right
    have : 7 * growthToLowerboundCapacity C.G.W n ≤ 8 * n := by
      unfold growthToLowerboundCapacity
      split <;> omega
    omega

/-! ### One call -/

theorem step_one {C : Cfg α κ} {t t' : Tbl α} {op : Op α κ} {r : Resp α} (ho : InsertsOne op)
    (h : t.step C op = .ok (t', r)) : t'.capacity = t.capacity ∨ (t'.size = t.size + 1 ∧ Grow C t t') := by
  have emp : ∀ {k : κ} {hv : Nat} {mk : Unit → α} {t1 : Tbl α} {i : Nat} {ins : Bool},
      t.emplaceHash C k hv mk = .ok (t1, i, ins) → t1.capacity = t.capacity ∨ (t1.size = t.size + 1 ∧ Grow C t t1) := by
    intro k hv mk t1 i ins h1
    rcases emplaceHash_cap h1 with ⟨_, e⟩ | ⟨_, e⟩
    · exact .inl (by rw [e])
    · exact .inr e
  cases op with
  | insert a =>
    simp only [Tbl.step] at h
    obtain ⟨⟨t1, i, ins⟩, h1, h2⟩ := Res.bind_eq_ok.1 h
    obtain ⟨b, _, h3⟩ := Res.bind_eq_ok.1 h2
    cases h3
    exact emp h1
  | insertOrAssign a f =>
    simp only [Tbl.step] at h
    obtain ⟨⟨t1, i, ins⟩, h1, h2⟩ := Res.bind_eq_ok.1 h
    obtain ⟨b, _, h3⟩ := Res.bind_eq_ok.1 h2
    cases h3
    unfold insertOrAssign at h1
    dsimp only at h1
    obtain ⟨o, _, h4⟩ := Res.bind_eq_ok.1 h1
    cases o with
    | some off =>
      dsimp only at h4
      obtain ⟨t2, h5, h6⟩ := Res.bind_eq_ok.1 h4
      cases h6
      exact .inl (assignAt_cap h5).1
    | none =>
      dsimp only at h4
      obtain ⟨⟨t2, off⟩, h5, h6⟩ := Res.bind_eq_ok.1 h4
      obtain ⟨t3, h7, h8⟩ := Res.bind_eq_ok.1 h6
      obtain ⟨t4, h9, h10⟩ := Res.bind_eq_ok.1 h8
      cases h10
      have e1 := prepareInsert_cap h5
      have e2 := construct_frame h7
      have e3 := set_frame h9
      refine .inr ⟨by rw [e3.2.2, e2.2.2.2, e1.1], ?_⟩
      unfold Grow
      rw [e3.1, e2.2.1]; exact e1.2
  | subscript a f =>
    simp only [Tbl.step, Tbl.subscript] at h
    obtain ⟨⟨t1, i⟩, h1, h2⟩ := Res.bind_eq_ok.1 h
    obtain ⟨⟨t2, j, ins⟩, h3, h4⟩ := Res.bind_eq_ok.1 h1
    cases h4
    obtain ⟨b, _, h5⟩ := Res.bind_eq_ok.1 h2
    obtain ⟨t3, h6, h7⟩ := Res.bind_eq_ok.1 h5
    cases h7
    have e := assignAt_cap h6
    rcases emp h3 with g | g
    · exact .inl (e.1.trans g)
    · refine .inr ⟨e.2.trans g.1, ?_⟩
      unfold Grow
      rw [e.1]; exact g.2
  | insertNode n =>
    simp only [Tbl.step] at h
    obtain ⟨⟨t1, off, ins, left⟩, h1, h2⟩ := Res.bind_eq_ok.1 h
    cases n with
    | none =>
      simp only [Tbl.insertNode] at h1
      cases h1; cases h2; exact .inl rfl
    | some a =>
      simp only [Tbl.insertNode] at h1
      obtain ⟨⟨t2, j, ins2⟩, h3, h4⟩ := Res.bind_eq_ok.1 h1
      cases h4
      obtain ⟨b, _, h5⟩ := Res.bind_eq_ok.1 h2
      cases h5
      exact emp h3
  | toggle a =>
    simp only [Tbl.step] at h
    obtain ⟨t1, h1, h2⟩ := Res.bind_eq_ok.1 h
    cases h2
    unfold emplaceSingle at h1
    obtain ⟨o, _, h4⟩ := Res.bind_eq_ok.1 h1
    cases o with
    | some off => exact .inl (eraseAt_cap h4)
    | none =>
      dsimp only at h4
      obtain ⟨⟨t2, off⟩, h5, h6⟩ := Res.bind_eq_ok.1 h4
      obtain ⟨t3, h7, h8⟩ := Res.bind_eq_ok.1 h6
      have e1 := prepareInsert_cap h5
      have e2 := construct_frame h7
      have e3 := set_frame h8
      refine .inr ⟨by rw [e3.2.2, e2.2.2.2, e1.1], ?_⟩
      unfold Grow
      rw [e3.1, e2.2.1]; exact e1.2
  | _ => exact ho.elim

theorem step_none {C : Cfg α κ} {t t' : Tbl α} {op : Op α κ} {r : Resp α} (ho : PutsNothing op)
    (h : t.step C op = .ok (t', r)) : t'.capacity = t.capacity := by
  cases op with
  | «at» k =>
    simp only [Tbl.step] at h
    obtain ⟨o, _, h2⟩ := Res.bind_eq_ok.1 h
    cases h2; rfl
  | find k =>
    simp only [Tbl.step] at h
    obtain ⟨o, _, h2⟩ := Res.bind_eq_ok.1 h
    cases o with
    | none => cases h2; rfl
    | some off =>
      obtain ⟨b, _, h3⟩ := Res.bind_eq_ok.1 h2
      cases h3; rfl
  | contains k =>
    simp only [Tbl.step] at h
    obtain ⟨o, _, h2⟩ := Res.bind_eq_ok.1 h
    cases h2; rfl
  | count k =>
    simp only [Tbl.step] at h
    obtain ⟨o, _, h2⟩ := Res.bind_eq_ok.1 h
    cases h2; rfl
  | erase k =>
    simp only [Tbl.step, Tbl.erase] at h
    obtain ⟨⟨t1, n⟩, h1, h2⟩ := Res.bind_eq_ok.1 h
    cases h2
    obtain ⟨o, _, h3⟩ := Res.bind_eq_ok.1 h1
    cases o with
    | none => cases h3; rfl
    | some off =>
      dsimp only at h3
      obtain ⟨t2, h4, h5⟩ := Res.bind_eq_ok.1 h3
      cases h5; exact eraseAt_cap h4
  | eraseIf p =>
    simp only [Tbl.step, Tbl.eraseIf] at h
    obtain ⟨⟨t1, n⟩, h1, h2⟩ := Res.bind_eq_ok.1 h
    cases h2
    obtain ⟨b, _, h3⟩ := Res.bind_eq_ok.1 h1
    obtain ⟨t2, h4, h5⟩ := Res.bind_eq_ok.1 h3
    cases h5
    exact eraseIfLoop_cap _ _ h4
  | extract k =>
    simp only [Tbl.step, Tbl.extract, Tbl.extractAt] at h
    obtain ⟨⟨t1, n⟩, h1, h2⟩ := Res.bind_eq_ok.1 h
    cases h2
    obtain ⟨o, _, h3⟩ := Res.bind_eq_ok.1 h1
    cases o with
    | none => cases h3; rfl
    | some off =>
      dsimp only at h3
      obtain ⟨⟨t2, a⟩, h4, h5⟩ := Res.bind_eq_ok.1 h3
      cases h5
      obtain ⟨a', _, h6⟩ := Res.bind_eq_ok.1 h4
      obtain ⟨t3, h7, h8⟩ := Res.bind_eq_ok.1 h6
      obtain ⟨t4, h9, h10⟩ := Res.bind_eq_ok.1 h8
      cases h10
      exact (eraseMeta_cap h9).trans (destroy_frame h7).2.1
  | size => cases h; rfl
  | clear =>
    simp only [Tbl.step] at h
    obtain ⟨t1, h1, h2⟩ := Res.bind_eq_ok.1 h
    cases h2
    exact clear_cap h1
  | _ => exact ho.elim

/-- A growing insertion leaves the table at least `7/32` full. -/
theorem Grow.bound {C : Cfg α κ} {t t' : Tbl α} (h : Grow C t t') (hs : t'.size = t.size + 1)
    (hne : t'.capacity ≠ t.capacity) : 7 * t'.capacity ≤ 32 * t'.size := by
  rcases h with h | ⟨_, _, h⟩ | ⟨_, h1, h2, h3⟩
  · exact absurd h hne
  · omega
  · unfold capacityToGrowth at h2
    split at h2 <;> omega

/-- Nothing was erased: a growing insertion leaves the table at least `7/16` full. -/
theorem Grow.bound_fresh {C : Cfg α κ} {t t' : Tbl α} (h : Grow C t t') (hs : t'.size = t.size + 1)
    (hT : NoTomb C t) (hne : t'.capacity ≠ t.capacity) : 7 * t'.capacity ≤ 16 * t'.size := by
  unfold NoTomb at hT
  rcases h with h | ⟨_, _, h⟩ | ⟨h0, h1, h2, h3⟩
  · exact absurd h hne
  · omega
  · unfold capacityToGrowth at h2 hT
    split at hT <;> omega

theorem Grow.le {C : Cfg α κ} {t t' : Tbl α} (h : Grow C t t') : t.capacity ≤ t'.capacity := by
  rcases h with h | ⟨_, h1, h⟩ | ⟨h0, h1, h2, h3⟩ <;> omega

theorem emplace_cap {C : Cfg α κ} {t t' : Tbl α} {a : α} {i : Nat} {ins : Bool}
    (h : t.emplace C a = .ok (t', i, ins)) :
    t.size ≤ t'.size ∧ (t'.capacity = t.capacity ∨ (t'.size = t.size + 1 ∧ Grow C t t')) := by
  rcases emplaceHash_cap h with ⟨_, e⟩ | ⟨_, e⟩
  · rw [e]; exact ⟨le_refl _, .inl rfl⟩
  · exact ⟨by omega, .inr e⟩

/-- The loop of a range insertion. `Q` is any fact about the tables the loop goes through. -/
theorem insertAll_cap {C : Cfg α κ} (Q : Tbl α → Prop) (K P : Nat)
    (hQ : ∀ t a t' i ins, Q t → t.emplace C a = .ok (t', i, ins) →
      Q t' ∧ (t'.capacity = t.capacity ∨ 7 * t'.capacity ≤ K * t'.size)) :
    ∀ (vs : List α) {t t' : Tbl α}, Q t → 7 * t.capacity ≤ K * P → t'.size ≤ P →
      vs.foldlM (fun t v => do
        let (t, _, _) ← t.emplace C v
        Res.ok t) t = .ok t' → 7 * t'.capacity ≤ K * P ∧ t.size ≤ t'.size
  | [], t, t', _, h, _, e => by cases e; exact ⟨h, le_refl _⟩
  | v :: vs, t, t', hq, h, hP, e => by
    rw [List.foldlM_cons] at e
    obtain ⟨t1, h1, h2⟩ := Res.bind_eq_ok.1 e
    obtain ⟨⟨t2, i, ins⟩, h3, h4⟩ := Res.bind_eq_ok.1 h1
    cases h4
    have hmono : ∀ (vs : List α) {t t' : Tbl α}, vs.foldlM (fun t v => do
        let (t, _, _) ← t.emplace C v
        Res.ok t) t = .ok t' → t.size ≤ t'.size := by
      intro vs
      induction vs with
      | nil => intro t t' e; cases e; exact le_refl _
      | cons v vs ih =>
        intro t t' e
        rw [List.foldlM_cons] at e
        obtain ⟨t1, h1, h2⟩ := Res.bind_eq_ok.1 e
        obtain ⟨⟨t2, i, ins⟩, h3, h4⟩ := Res.bind_eq_ok.1 h1
        cases h4
        exact (emplace_cap h3).1.trans (ih h2)
    have hm := hmono vs h2
    obtain ⟨q1, q2⟩ := hQ _ _ _ _ _ hq h3
    have hb : 7 * t1.capacity ≤ K * P := by
      rcases q2 with q | q
      · rw [q]; exact h
      · exact q.trans (Nat.mul_le_mul_left _ (hm.trans hP))
    exact ⟨(insertAll_cap Q K P hQ vs q1 hb hP h2).1, (emplace_cap h3).1.trans hm⟩

theorem mergeLoop_cap {C : Cfg α κ} (K P : Nat)
    (hQ : ∀ (t : Tbl α) (a : α) (t' : Tbl α) (i : Nat) (ins : Bool), t.emplace C a = .ok (t', i, ins) →
      t'.capacity = t.capacity ∨ 7 * t'.capacity ≤ K * t'.size) :
    ∀ (n p : Nat) {d s d' s' : Tbl α}, mergeLoop C n (d, s) p = .ok (d', s') → 7 * d.capacity ≤ K * P → d'.size ≤ P →
      7 * d'.capacity ≤ K * P ∧ s'.capacity = s.capacity ∧ d.size ≤ d'.size
  | 0, _, _, _, _, _, e, _, _ => by cases e
  | n + 1, p, d, s, d', s', e, h, hP => by
    unfold mergeLoop at e
    split at e
    · cases e; exact ⟨h, rfl, le_refl _⟩
    obtain ⟨a, _, h1⟩ := Res.bind_eq_ok.1 e
    obtain ⟨⟨d1, j, ins⟩, h2, h3⟩ := Res.bind_eq_ok.1 h1
    dsimp only at h3
    have hmono : ∀ (n p : Nat) {d s d' s' : Tbl α}, mergeLoop C n (d, s) p = .ok (d', s') → d.size ≤ d'.size := by
      intro n
      induction n with
      | zero => intro p d s d' s' e; cases e
      | succ n ih =>
        intro p d s d' s' e
        unfold mergeLoop at e
        split at e
        · cases e; exact le_refl _
        obtain ⟨a, _, h1⟩ := Res.bind_eq_ok.1 e
        obtain ⟨⟨d1, j, ins⟩, h2, h3⟩ := Res.bind_eq_ok.1 h1
        dsimp only at h3
        have hd := (emplace_cap h2).1
        split at h3
        · obtain ⟨s1, _, h4⟩ := Res.bind_eq_ok.1 h3
          obtain ⟨s2, _, h5⟩ := Res.bind_eq_ok.1 h4
          obtain ⟨nx, _, h6⟩ := Res.bind_eq_ok.1 h5
          exact hd.trans (ih _ h6)
        · obtain ⟨s1, e0, h4⟩ := Res.bind_eq_ok.1 h3
          obtain ⟨nx, _, h6⟩ := Res.bind_eq_ok.1 h4
          exact hd.trans (ih _ h6)
    have key : ∀ (p : Nat) {s1 : Tbl α}, s1.capacity = s.capacity → mergeLoop C n (d1, s1) p = .ok (d', s') →
        7 * d'.capacity ≤ K * P ∧ s'.capacity = s.capacity ∧ d.size ≤ d'.size := by
      intro p s1 hs1 hl
      have hm := hmono _ _ hl
      have hb : 7 * d1.capacity ≤ K * P := by
        rcases hQ _ _ _ _ _ h2 with q | q
        · rw [q]; exact h
        · exact q.trans (Nat.mul_le_mul_left _ (hm.trans hP))
      obtain ⟨r1, r2, r3⟩ := mergeLoop_cap K P hQ n _ hl hb hP
      exact ⟨r1, r2.trans hs1, (emplace_cap h2).1.trans hm⟩
    split at h3
    · obtain ⟨s1, g1, h4⟩ := Res.bind_eq_ok.1 h3
      obtain ⟨s2, g2, h5⟩ := Res.bind_eq_ok.1 h4
      obtain ⟨nx, _, h6⟩ := Res.bind_eq_ok.1 h5
      exact key _ ((eraseMeta_cap g2).trans (destroy_frame g1).2.1) h6
    · obtain ⟨s1, e0, h4⟩ := Res.bind_eq_ok.1 h3
      cases e0
      obtain ⟨nx, _, h6⟩ := Res.bind_eq_ok.1 h4
      exact key _ rfl h6

end Tbl
end Gtl.Swiss
