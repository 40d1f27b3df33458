import Verif.Swiss.NullCtrl
import Verif.Swiss.History
/-!
# The table with null control bytes follows the table with the static block

`Nul a b`: the two tables are the same, or the first has no control bytes where the second has the static block.
Every call that finishes on the second finishes on the first, with the same answer and related tables.
-/

namespace Gtl.Swiss

open Gtl.Spec (Op WOp Resp put)

namespace Tbl
variable {α κ β γ δ ε : Type}

def Nul (a b : Tbl α) : Prop := a = b ∨ (a = nil ∧ b = empty)

def NulP (a b : Tbl α × β) : Prop := Nul a.1 b.1 ∧ a.2 = b.2

theorem Nul.rfl' {a : Tbl α} : Nul a a := .inl rfl

theorem nul_empty : Nul (nil : Tbl α) empty := .inr ⟨rfl, rfl⟩

/-- Whenever `y` finishes, so does `x`, with related results. -/
def Fol (R : β → γ → Prop) (x : Res β) (y : Res γ) : Prop := ∀ b, y = .ok b → ∃ a, x = .ok a ∧ R a b

theorem Fol.ok {R : β → γ → Prop} {a : β} {b : γ} (h : R a b) : Fol R (.ok a) (.ok b) := by
  intro c hc; cases hc; exact ⟨a, rfl, h⟩

theorem Fol.ub {R : β → γ → Prop} {x : Res β} {y : Res γ} (h : y = .ub) : Fol R x y := by
  intro c hc; rw [h] at hc; cases hc

theorem Fol.hang {R : β → γ → Prop} {x : Res β} : Fol R x (.hang : Res γ) := by
  intro c hc; cases hc

theorem Fol.same {R : β → β → Prop} (x : Res β) (h : ∀ a, R a a) : Fol R x x :=
  fun b hb => ⟨b, hb, h b⟩

theorem Fol.bind {R : β → γ → Prop} {Q : δ → ε → Prop} {x : Res β} {y : Res γ} {f : β → Res δ} {g : γ → Res ε}
    (h : Fol R x y) (k : ∀ a b, R a b → Fol Q (f a) (g b)) : Fol Q (x >>= f) (y >>= g) := by
  intro c hc
  obtain ⟨b, hb, hg⟩ := Res.bind_eq_ok.1 hc
  obtain ⟨a, ha, hr⟩ := h b hb
  obtain ⟨d, hd, hq⟩ := k a b hr c hg
  exact ⟨d, by rw [ha]; exact hd, hq⟩

/-! ## Nothing can be done on a table without slots -/

theorem readSlot_e (i : Nat) : (empty : Tbl α).readSlot i = .ub := by simp [readSlot, empty]
theorem constructSlot_e (i : Nat) (x : α) : (empty : Tbl α).constructSlot i x = .ub := by simp [constructSlot, empty]
theorem destroySlot_e (i : Nat) : (empty : Tbl α).destroySlot i = .ub := by simp [destroySlot, empty]
theorem setCtrl_e (W i : Nat) (h : Ctrl) : (empty : Tbl α).setCtrl W i h = .ub := by simp [setCtrl, empty]

theorem Nul.readSlot {a b : Tbl α} (h : Nul a b) (i : Nat) : Fol Eq (a.readSlot i) (b.readSlot i) := by
  rcases h with rfl | ⟨rfl, rfl⟩
  · exact Fol.same _ fun _ => rfl
  · exact Fol.ub (readSlot_e i)

theorem Nul.constructSlot {a b : Tbl α} (h : Nul a b) (i : Nat) (x : α) :
    Fol Nul (a.constructSlot i x) (b.constructSlot i x) := by
  rcases h with rfl | ⟨rfl, rfl⟩
  · exact Fol.same _ fun _ => Nul.rfl'
  · exact Fol.ub (constructSlot_e i x)

theorem Nul.setCtrl {a b : Tbl α} (h : Nul a b) (W i : Nat) (x : Ctrl) :
    Fol Nul (a.setCtrl W i x) (b.setCtrl W i x) := by
  rcases h with rfl | ⟨rfl, rfl⟩
  · exact Fol.same _ fun _ => Nul.rfl'
  · exact Fol.ub (setCtrl_e W i x)

theorem Nul.eraseAt {a b : Tbl α} (C : Cfg α κ) (h : Nul a b) (i : Nat) :
    Fol Nul (a.eraseAt C i) (b.eraseAt C i) := by
  rcases h with rfl | ⟨rfl, rfl⟩
  · exact Fol.same _ fun _ => Nul.rfl'
  · exact Fol.ub (by unfold Tbl.eraseAt; rw [destroySlot_e]; rfl)

theorem Nul.extractAt {a b : Tbl α} (C : Cfg α κ) (h : Nul a b) (i : Nat) :
    Fol NulP (a.extractAt C i) (b.extractAt C i) := by
  rcases h with rfl | ⟨rfl, rfl⟩
  · exact Fol.same _ fun _ => ⟨Nul.rfl', rfl⟩
  · exact Fol.ub (by unfold Tbl.extractAt; rw [readSlot_e]; rfl)

theorem Nul.assignAt {a b : Tbl α} (h : Nul a b) (i : Nat) (f : α → α) :
    Fol Nul (a.assignAt i f) (b.assignAt i f) := by
  rcases h with rfl | ⟨rfl, rfl⟩
  · exact Fol.same _ fun _ => Nul.rfl'
  · exact Fol.ub (by unfold Tbl.assignAt; rw [readSlot_e]; rfl)

theorem Nul.size {a b : Tbl α} (h : Nul a b) : a.size = b.size := by
  rcases h with rfl | ⟨rfl, rfl⟩ <;> rfl

theorem Nul.capacity {a b : Tbl α} (h : Nul a b) : a.capacity = b.capacity := by
  rcases h with rfl | ⟨rfl, rfl⟩ <;> rfl

theorem Nul.fuel {a b : Tbl α} (h : Nul a b) : a.fuel = b.fuel := by
  unfold Tbl.fuel; rw [h.capacity]

/-! ## The tests of the pointer -/

section
variable {C : Cfg α κ}

theorem load_null {t : Tbl α} (h : t.isNull = true) {W : Nat} (hW : 0 < W) (p : Nat) : t.load W p = .ub := by
  have : t.ctrl = [] := List.isEmpty_iff.1 h
  unfold load; rw [this, if_neg (by simp; omega)]

theorem ctrlAt_null {t : Tbl α} (h : t.isNull = true) (p : Nat) : t.ctrlAt p = .ub := by
  have : t.ctrl = [] := List.isEmpty_iff.1 h
  unfold ctrlAt; rw [this]; simp

theorem probeFind_null {t : Tbl α} (hW : 0 < C.G.W) (h : t.isNull = true) (pred : α → Bool) (h2 : Ctrl) (n : Nat) (p : Probe) :
    t.probeFind C pred h2 (n + 1) p = .ub := by
  unfold probeFind; rw [load_null h hW]; rfl

/-- On the static block a search finds nothing. -/
theorem probeFind_e (pred : α → Bool) (h2 : Ctrl) (p : Probe) (b : Option Nat)
    (h : (empty : Tbl α).probeFind C pred h2 1 p = .ok b) : b = none := by
  unfold probeFind at h
  obtain ⟨g, _, h⟩ := Res.bind_eq_ok.1 h
  obtain ⟨r, hr, h⟩ := Res.bind_eq_ok.1 h
  have hn : r = none := by
    cases hl : (C.G.matchH2 g h2).toList with
    | nil => rw [hl] at hr; unfold scan at hr; cases hr; rfl
    | cons i is => rw [hl] at hr; unfold scan at hr; dsimp only at hr; rw [readSlot_e] at hr; cases hr
  subst hn
  dsimp only at h
  by_cases hm : (C.G.matchEmpty g).toBool = true
  · rw [if_pos hm] at h; cases h; rfl
  · rw [if_neg hm] at h; unfold probeFind at h; cases h

theorem Nul.findHash (hW : 0 < C.G.W) {a b : Tbl α} (h : Nul a b) (k : κ) (hv : Nat) :
    Fol Eq (a.findHashN C k hv) (b.findHash C k hv) := by
  unfold findHashN
  rcases h with rfl | ⟨rfl, rfl⟩
  · by_cases hn : a.isNull = true
    · exact Fol.ub (probeFind_null hW hn _ _ _ _)
    · rw [if_neg hn]; exact Fol.same _ fun _ => rfl
  · rw [if_pos (show (nil : Tbl α).isNull = true from rfl)]
    intro r hr
    exact ⟨none, rfl, (probeFind_e _ _ _ r hr).symm⟩

theorem Nul.find (hW : 0 < C.G.W) {a b : Tbl α} (h : Nul a b) (k : κ) : Fol Eq (a.findN C k) (b.find C k) :=
  h.findHash hW k _

theorem Nul.hasElement (hW : 0 < C.G.W) {a b : Tbl α} (h : Nul a b) (veq : α → α → Bool) (x : α) :
    Fol Eq (a.hasElementN C veq x) (b.hasElement C veq x) := by
  unfold hasElementN
  rcases h with rfl | ⟨rfl, rfl⟩
  · by_cases hn : a.isNull = true
    · refine Fol.ub ?_
      unfold Tbl.hasElement
      dsimp only
      rw [show a.fuel = a.capacity + 1 from rfl, probeFind_null hW hn]; rfl
    · rw [if_neg hn]; exact Fol.same _ fun _ => rfl
  · rw [if_pos (show (nil : Tbl α).isNull = true from rfl)]
    intro r hr
    unfold Tbl.hasElement at hr
    obtain ⟨o, ho, hr⟩ := Res.bind_eq_ok.1 hr
    have := probeFind_e _ _ _ o ho
    subst this
    cases hr
    exact ⟨false, rfl, rfl⟩

theorem resize_nil (m : Nat) : (nil : Tbl α).resize C m = (empty : Tbl α).resize C m := rfl

theorem findFirstNonFull_null {t : Tbl α} (hW : 0 < C.G.W) (h : t.isNull = true) (hv : Nat) :
    t.findFirstNonFull C hv = .ub := by
  unfold findFirstNonFull fuel probeNonFull; rw [load_null h hW]; rfl

theorem ctrlAt_e {i : Nat} {c : Ctrl} (h : (empty : Tbl α).ctrlAt i = .ok c) : isDeleted c = false := by
  unfold ctrlAt at h
  cases hc : (empty : Tbl α).ctrl[i]? with
  | none => rw [hc] at h; cases h
  | some d =>
    rw [hc] at h
    have e : d = c := by simpa using h
    subst e
    have hm := List.mem_of_getElem? hc
    have : ∀ x ∈ emptyGroup, isDeleted x = false := by decide
    exact this _ hm

/-- On a table without memory, testing the pointer and growing first is the same as finding the static block full. -/
theorem Nul.prepareInsert (hW : 0 < C.G.W) {a b : Tbl α} (h : Nul a b) (hv : Nat) :
    Fol NulP (a.prepareInsertN C hv) (b.prepareInsert C hv) := by
  unfold prepareInsertN
  rcases h with rfl | ⟨rfl, rfl⟩
  · by_cases hn : a.isNull = true
    · refine Fol.ub ?_
      unfold Tbl.prepareInsert; rw [findFirstNonFull_null hW hn]; rfl
    · rw [if_neg hn, Res.ok_bind]; exact Fol.same _ fun _ => ⟨Nul.rfl', rfl⟩
  · rw [if_pos (show (nil : Tbl α).isNull = true from rfl)]
    intro r hr
    refine ⟨r, ?_, Nul.rfl', rfl⟩
    have hg : (nil : Tbl α).rehashAndGrow C = .ok (initializeSlots C empty 1) := rfl
    have hg' : (empty : Tbl α).rehashAndGrow C = .ok (initializeSlots C empty 1) := rfl
    unfold Tbl.prepareInsert at hr
    obtain ⟨tg, _, hr⟩ := Res.bind_eq_ok.1 hr
    obtain ⟨c, hc, hr⟩ := Res.bind_eq_ok.1 hr
    have hd := ctrlAt_e hc
    rw [if_pos ⟨rfl, by rw [hd]; simp⟩, hg', Res.ok_bind] at hr
    rw [hg, Res.ok_bind]
    obtain ⟨tg2, h2, hr⟩ := Res.bind_eq_ok.1 hr
    rw [Res.ok_bind] at hr
    dsimp only at hr
    obtain ⟨c2, hc2, hr'⟩ := Res.bind_eq_ok.1 hr
    unfold Tbl.prepareInsert
    rw [h2, Res.ok_bind, hc2, Res.ok_bind]
    have hgl : (initializeSlots C (empty : Tbl α) 1).growthLeft ≠ 0 := by
      simp [initializeSlots, capacityToGrowth, usub, empty]
    rw [if_neg (fun h => hgl h.1), Res.ok_bind]
    dsimp only
    rw [hc2, Res.ok_bind]
    exact hr'

theorem skip_null {t : Tbl α} (h : t.isNull = true) (p n : Nat) : t.skip C (n + 1) p = .ub := by
  unfold skip; rw [ctrlAt_null h]; rfl

theorem skipN_same (t : Tbl α) (p : Nat) : Fol Eq (t.skipN C p) (t.skip C t.fuel p) := by
  unfold skipN
  by_cases hn : t.isNull = true
  · exact Fol.ub (skip_null hn _ _)
  · rw [if_neg (fun h => hn h.1)]; exact Fol.same _ fun _ => rfl

theorem Nul.begin_ {a b : Tbl α} (h : Nul a b) : Fol Eq (a.beginN C) (b.begin_ C) := by
  unfold beginN Tbl.begin_
  rcases h with rfl | ⟨rfl, rfl⟩
  · exact skipN_same a 0
  · exact Fol.ok rfl

theorem collectN_same (t : Tbl α) : ∀ (n p : Nat), Fol Eq (t.collectN C n p) (t.collect C n p)
  | 0, _ => Fol.hang
  | n + 1, p => by
    unfold collectN collect
    by_cases hp : p = t.capacity
    · rw [if_pos hp, if_pos hp]; exact Fol.ok rfl
    · rw [if_neg hp, if_neg hp]
      refine Fol.bind (R := Eq) (Fol.same _ fun _ => rfl) ?_
      rintro x _ rfl
      refine Fol.bind (R := Eq) (skipN_same t (p + 1)) ?_
      rintro q _ rfl
      refine Fol.bind (R := Eq) (collectN_same t n q) ?_
      rintro r _ rfl
      exact Fol.ok rfl

theorem Nul.iterate {a b : Tbl α} (h : Nul a b) : Fol Eq (a.iterateN C) (b.iterate C) := by
  unfold iterateN Tbl.iterate
  rcases h with rfl | ⟨rfl, rfl⟩
  · refine Fol.bind (R := Eq) (Nul.begin_ Nul.rfl') ?_
    rintro p _ rfl
    exact collectN_same a _ p
  · exact Fol.ok rfl

/-! ## Inserting and erasing -/

theorem Nul.place {a b : Tbl α} (h : Nul a b) (W off : Nat) (x : α) (c : Ctrl) :
    Fol Nul (do let t ← a.constructSlot off x; t.setCtrl W off c) (do let t ← b.constructSlot off x; t.setCtrl W off c) :=
  Fol.bind (h.constructSlot off x) fun _ _ h => h.setCtrl W off c

theorem Nul.emplaceHash (hW : 0 < C.G.W) {a b : Tbl α} (h : Nul a b) (k : κ) (hv : Nat) (mk : Unit → α) :
    Fol NulP (a.emplaceHashN C k hv mk) (b.emplaceHash C k hv mk) := by
  unfold emplaceHashN Tbl.emplaceHash
  refine Fol.bind (h.findHash hW k hv) ?_
  rintro o _ rfl
  cases o with
  | some off => exact Fol.ok ⟨h, rfl⟩
  | none =>
    refine Fol.bind (h.prepareInsert hW hv) ?_
    rintro ⟨a, off⟩ ⟨b, off'⟩ ⟨h, e⟩
    cases e
    exact Fol.bind (h.constructSlot off _) fun _ _ h => Fol.bind (h.setCtrl _ _ _) fun _ _ h => Fol.ok ⟨h, rfl⟩

theorem Nul.emplace (hW : 0 < C.G.W) {a b : Tbl α} (h : Nul a b) (x : α) :
    Fol NulP (a.emplaceN C x) (b.emplace C x) := h.emplaceHash hW _ _ _

theorem Nul.erase (hW : 0 < C.G.W) {a b : Tbl α} (h : Nul a b) (k : κ) :
    Fol NulP (a.eraseN C k) (b.erase C k) := by
  unfold eraseN Tbl.erase
  refine Fol.bind (h.find hW k) ?_
  rintro o _ rfl
  cases o with
  | none => exact Fol.ok ⟨h, rfl⟩
  | some off => exact Fol.bind (h.eraseAt C off) fun _ _ h => Fol.ok ⟨h, rfl⟩

theorem Nul.extract (hW : 0 < C.G.W) {a b : Tbl α} (h : Nul a b) (k : κ) :
    Fol NulP (a.extractN C k) (b.extract C k) := by
  unfold extractN Tbl.extract
  refine Fol.bind (h.find hW k) ?_
  rintro o _ rfl
  cases o with
  | none => exact Fol.ok ⟨h, rfl⟩
  | some off =>
    refine Fol.bind (h.extractAt C off) ?_
    rintro ⟨a, x⟩ ⟨b, y⟩ ⟨h, e⟩
    cases e
    exact Fol.ok ⟨h, rfl⟩

theorem Nul.insertNode (hW : 0 < C.G.W) {a b : Tbl α} (h : Nul a b) (o : Option α) :
    Fol NulP (a.insertNodeN C o) (b.insertNode C o) := by
  cases o with
  | none => exact Fol.ok ⟨h, rfl⟩
  | some x =>
    refine Fol.bind (h.emplaceHash hW _ _ _) ?_
    rintro ⟨a, off, ins⟩ ⟨b, off', ins'⟩ ⟨h, e⟩
    cases e
    exact Fol.ok ⟨h, rfl⟩

theorem Nul.emplaceSingle (hW : 0 < C.G.W) {a b : Tbl α} (h : Nul a b) (k : κ) (hv : Nat) (mk : Unit → α) :
    Fol Nul (a.emplaceSingleN C k hv mk) (b.emplaceSingle C k hv mk) := by
  unfold emplaceSingleN Tbl.emplaceSingle
  refine Fol.bind (h.findHash hW k hv) ?_
  rintro o _ rfl
  cases o with
  | some off => exact h.eraseAt C off
  | none =>
    refine Fol.bind (h.prepareInsert hW hv) ?_
    rintro ⟨a, off⟩ ⟨b, off'⟩ ⟨h, e⟩
    cases e
    exact h.place _ _ _ _

theorem Nul.insertOrAssign (hW : 0 < C.G.W) {a b : Tbl α} (h : Nul a b) (x : α) (f : α → α) :
    Fol NulP (a.insertOrAssignN C x f) (b.insertOrAssign C x f) := by
  unfold insertOrAssignN Tbl.insertOrAssign
  refine Fol.bind (h.findHash hW _ _) ?_
  rintro o _ rfl
  cases o with
  | some off => exact Fol.bind (h.assignAt off f) fun _ _ h => Fol.ok ⟨h, rfl⟩
  | none =>
    refine Fol.bind (h.prepareInsert hW _) ?_
    rintro ⟨a, off⟩ ⟨b, off'⟩ ⟨h, e⟩
    cases e
    exact Fol.bind (h.constructSlot off _) fun _ _ h => Fol.bind (h.setCtrl _ _ _) fun _ _ h => Fol.ok ⟨h, rfl⟩

theorem Nul.subscript (hW : 0 < C.G.W) {a b : Tbl α} (h : Nul a b) (x : α) :
    Fol NulP (a.subscriptN C x) (b.subscript C x) := by
  unfold subscriptN Tbl.subscript
  refine Fol.bind (h.emplace hW x) ?_
  rintro ⟨a, off, i⟩ ⟨b, off', i'⟩ ⟨h, e⟩
  cases e
  exact Fol.ok ⟨h, rfl⟩

theorem Nul.at_ (hW : 0 < C.G.W) {a b : Tbl α} (h : Nul a b) (k : κ) : Fol Eq (a.atN C k) (b.at_ C k) := by
  unfold atN Tbl.at_
  refine Fol.bind (h.find hW k) ?_
  rintro o _ rfl
  cases o with
  | none => exact Fol.ok rfl
  | some off =>
    refine Fol.bind (h.readSlot off) ?_
    rintro x _ rfl
    exact Fol.ok rfl

/-! ## Memory -/

theorem Nul.destroySlots {a b : Tbl α} (h : Nul a b) : Fol Nul a.destroySlotsN b.destroySlots := by
  unfold destroySlotsN Tbl.destroySlots
  rcases h with rfl | ⟨rfl, rfl⟩
  · by_cases hc : a.capacity = 0
    · rw [if_pos hc, if_pos hc]; exact Fol.ok Nul.rfl'
    · rw [if_neg hc, if_neg hc]
      refine Fol.bind (R := Eq) (Fol.same _ fun _ => rfl) ?_
      rintro t _ rfl
      by_cases hs : t.slots.all Option.isNone = true
      · rw [if_pos hs, if_pos hs]; exact Fol.ok nul_empty
      · rw [if_neg hs, if_neg hs]; exact Fol.ub rfl
  · exact Fol.ok nul_empty

theorem Nul.rehash {a b : Tbl α} (h : Nul a b) (n : Nat) : Fol Nul (a.rehashN C n) (b.rehash C n) := by
  unfold rehashN Tbl.rehash
  rw [h.capacity, h.size]
  by_cases h1 : n = 0 ∧ b.capacity = 0
  · rw [if_pos h1, if_pos h1]; exact Fol.ok h
  · rw [if_neg h1, if_neg h1]
    by_cases h2 : n = 0 ∧ b.size = 0
    · rw [if_pos h2, if_pos h2]; exact h.destroySlots
    · rw [if_neg h2, if_neg h2]
      dsimp only
      split
      · rcases h with rfl | ⟨rfl, rfl⟩
        · exact Fol.same _ fun _ => Nul.rfl'
        · rw [resize_nil]; exact Fol.same _ fun _ => Nul.rfl'
      · exact Fol.ok h

theorem Nul.reserve {a b : Tbl α} (h : Nul a b) (n : Nat) : Fol Nul (a.reserveN C n) (b.reserve C n) := h.rehash _

theorem Nul.clear {a b : Tbl α} (h : Nul a b) : Fol Nul (a.clear C) (b.clear C) := by
  rcases h with rfl | ⟨rfl, rfl⟩
  · exact Fol.same _ fun _ => Nul.rfl'
  · exact Fol.ok nul_empty

theorem Nul.withBuckets (n : Nat) : Nul (withBucketsN C n : Tbl α) (withBuckets C n) := by
  unfold withBucketsN Tbl.withBuckets
  by_cases h : n = 0
  · rw [if_pos h, if_pos h]; exact nul_empty
  · rw [if_neg h, if_neg h]; exact .inl rfl

theorem foldlM_fol {R : β → γ → Prop} {f : β → δ → Res β} {g : γ → δ → Res γ}
    (h : ∀ a b x, R a b → Fol R (f a x) (g b x)) : ∀ (l : List δ) (a : β) (b : γ), R a b →
    Fol R (l.foldlM f a) (l.foldlM g b)
  | [], a, b, hr => by
    simp only [List.foldlM_nil, Res.pure_eq]; exact Fol.ok hr
  | x :: l, a, b, hr => by
    simp only [List.foldlM_cons]
    exact Fol.bind (h a b x hr) fun a b hr => foldlM_fol h l a b hr

theorem Nul.insertRange (hW : 0 < C.G.W) {a b : Tbl α} (h : Nul a b) (vs : List α) :
    Fol Nul (a.insertRangeN C vs) (b.insertRange C vs) := by
  unfold insertRangeN Tbl.insertRange
  rw [h.size]
  refine Fol.bind (h.reserve _) fun a b h => foldlM_fol ?_ vs a b h
  intro a b x h
  refine Fol.bind (h.emplace hW x) ?_
  rintro ⟨a, p⟩ ⟨b, q⟩ ⟨h, e⟩
  exact Fol.ok h

theorem normCap_pos (n : Nat) : 0 < normalizeCapacity n := by
  obtain ⟨k, h1, h2⟩ := normalizeCapacity_pow n
  have : 2 ^ 1 ≤ 2 ^ k := Nat.pow_le_pow_right (by omega) h1
  omega

theorem copy_eq (that : Tbl α) : that.copy C = (do
    let t ← (empty : Tbl α).rehash C that.capacity
    let vs ← that.iterate C
    let t ← vs.foldlM (copyStep C) t
    .ok { t with size := that.size, growthLeft := usub t.growthLeft that.size }) := rfl

theorem copyStep_fol {a b : Tbl α} (h : Nul a b) (v : α) : Fol Nul (copyStep C a v) (copyStep C b v) := by
  rcases h with rfl | ⟨rfl, rfl⟩
  · exact Fol.same _ fun _ => Nul.rfl'
  · intro r hr
    unfold copyStep at hr
    obtain ⟨tg, _, hr⟩ := Res.bind_eq_ok.1 hr
    rw [setCtrl_e] at hr
    cases hr

theorem Nul.copy {a b : Tbl α} (h : Nul a b) (hz : b.capacity = 0 → b.size = 0) :
    Fol Nul (a.copyN C) (b.copy C) := by
  rw [copy_eq]
  unfold copyN
  rw [h.capacity, h.size]
  by_cases hc : b.capacity = 0
  · rw [hc, hz hc]
    refine Fol.bind (nul_empty.rehash 0) fun a0 b0 h0 => ?_
    refine Fol.bind h.iterate ?_
    rintro vs _ rfl
    refine Fol.bind (foldlM_fol (fun a b x h => copyStep_fol h x) vs a0 b0 h0) fun a1 b1 h1 => ?_
    rcases h1 with rfl | ⟨rfl, rfl⟩
    · exact Fol.ok Nul.rfl'
    · exact Fol.ok nul_empty
  · have e : (nil : Tbl α).rehashN C b.capacity = (empty : Tbl α).rehash C b.capacity := by
      unfold rehashN Tbl.rehash
      have hp := normCap_pos (max b.capacity 0)
      have h0 : ∀ q : Prop, ¬ (b.capacity = 0 ∧ q) := fun _ h => hc h.1
      simp only [if_neg (h0 _), resize_nil]
      rw [if_pos (.inr hp), if_pos (.inr hp)]
      rfl
    rw [e]
    refine Fol.bind (R := Eq) (Fol.same _ fun _ => rfl) ?_
    rintro t _ rfl
    refine Fol.bind h.iterate ?_
    rintro vs _ rfl
    exact Fol.same _ fun _ => Nul.rfl'

/-! ## Loops over iterators -/

theorem eraseIfLoopN_same (pred : α → Bool) : ∀ (n : Nat) (t : Tbl α) (p : Nat),
    Fol Nul (eraseIfLoopN C pred n t p) (eraseIfLoop C pred n t p)
  | 0, _, _ => Fol.hang
  | n + 1, t, p => by
    unfold eraseIfLoopN eraseIfLoop
    by_cases hp : p = t.capacity
    · rw [if_pos hp, if_pos hp]; exact Fol.ok Nul.rfl'
    · rw [if_neg hp, if_neg hp]
      refine Fol.bind (R := Eq) (Fol.same _ fun _ => rfl) ?_
      rintro x _ rfl
      by_cases hx : pred x = true
      · rw [if_pos hx, if_pos hx]
        refine Fol.bind (skipN_same t (p + 1)) ?_
        rintro q _ rfl
        refine Fol.bind (R := Eq) (Fol.same _ fun _ => rfl) ?_
        rintro u _ rfl
        exact eraseIfLoopN_same pred n u q
      · rw [if_neg hx, if_neg hx]
        refine Fol.bind (skipN_same t (p + 1)) ?_
        rintro q _ rfl
        exact eraseIfLoopN_same pred n t q

theorem Nul.eraseIf {a b : Tbl α} (h : Nul a b) (pred : α → Bool) : Fol NulP (a.eraseIfN C pred) (b.eraseIf C pred) := by
  unfold eraseIfN Tbl.eraseIf
  rcases h with rfl | ⟨rfl, rfl⟩
  · refine Fol.bind (Nul.begin_ Nul.rfl') ?_
    rintro p _ rfl
    refine Fol.bind (eraseIfLoopN_same pred _ a p) fun u v h => ?_
    exact Fol.ok ⟨h, by dsimp only; rw [h.size]⟩
  · exact Fol.ok ⟨nul_empty, rfl⟩

theorem mergeLoopN_fol (hW : 0 < C.G.W) : ∀ (n : Nat) (a b s : Tbl α) (p : Nat), Nul a b →
    Fol (fun x y => Nul x.1 y.1 ∧ Nul x.2 y.2) (mergeLoopN C n (a, s) p) (mergeLoop C n (b, s) p)
  | 0, _, _, _, _, _ => Fol.hang
  | n + 1, a, b, s, p, h => by
    unfold mergeLoopN mergeLoop
    by_cases hp : p = s.capacity
    · rw [if_pos hp, if_pos hp]; exact Fol.ok ⟨h, Nul.rfl'⟩
    · rw [if_neg hp, if_neg hp]
      refine Fol.bind (R := Eq) (Fol.same _ fun _ => rfl) ?_
      rintro x _ rfl
      refine Fol.bind (h.emplaceHash hW _ _ _) ?_
      rintro ⟨a, off, ins⟩ ⟨b, off', ins'⟩ ⟨h, e⟩
      cases e
      cases ins with
      | true =>
        dsimp only
        simp only [if_true, bind_assoc]
        refine Fol.bind (R := Eq) (Fol.same _ fun _ => rfl) ?_
        rintro u _ rfl
        refine Fol.bind (R := Eq) (Fol.same _ fun _ => rfl) ?_
        rintro u _ rfl
        refine Fol.bind (skipN_same u (p + 1)) ?_
        rintro q _ rfl
        exact mergeLoopN_fol hW n a b u q h
      | false =>
        dsimp only
        simp only [Bool.false_eq_true, if_false, Res.ok_bind]
        refine Fol.bind (skipN_same s (p + 1)) ?_
        rintro q _ rfl
        exact mergeLoopN_fol hW n a b s q h

theorem Nul.merge (hW : 0 < C.G.W) {a b s u : Tbl α} (h : Nul a b) (h' : Nul s u) :
    Fol (fun x y => Nul x.1 y.1 ∧ Nul x.2 y.2) (a.mergeN C s) (b.merge C u) := by
  unfold mergeN Tbl.merge
  rcases h' with rfl | ⟨rfl, rfl⟩
  · refine Fol.bind (Nul.begin_ Nul.rfl') ?_
    rintro p _ rfl
    exact mergeLoopN_fol hW _ a b s p h
  · exact Fol.ok ⟨h, nul_empty⟩

theorem allInN_fol (hW : 0 < C.G.W) (veq : α → α → Bool) {a b : Tbl α} (h : Nul a b) : ∀ vs : List α,
    Fol Eq (allInN C veq a vs) (allIn C veq b vs)
  | [] => Fol.ok rfl
  | v :: vs => by
    unfold allInN allIn
    refine Fol.bind (h.hasElement hW veq v) ?_
    rintro r _ rfl
    cases r with
    | true => exact allInN_fol hW veq h vs
    | false => exact Fol.ok rfl

theorem Nul.beqTbl (hW : 0 < C.G.W) (veq : α → α → Bool) {a b s u : Tbl α} (h : Nul a b) (h' : Nul s u) :
    Fol Eq (beqTblN C veq a s) (Tbl.beqTbl C veq b u) := by
  unfold beqTblN Tbl.beqTbl
  rw [h.size, h'.size, h.capacity, h'.capacity]
  by_cases hs : b.size ≠ u.size
  · rw [if_pos hs, if_pos hs]; exact Fol.ok rfl
  · rw [if_neg hs, if_neg hs]
    by_cases hc : b.capacity > u.capacity
    · simp only [if_pos hc]
      refine Fol.bind h'.iterate ?_
      rintro vs _ rfl
      exact allInN_fol hW veq h vs
    · simp only [if_neg hc]
      refine Fol.bind h.iterate ?_
      rintro vs _ rfl
      exact allInN_fol hW veq h' vs

/-! ## Whole histories -/

theorem stepN_fol (hW : 0 < C.G.W) {a b : Tbl α} (h : Nul a b) (op : Op α κ) : Fol NulP (a.stepN C op) (b.step C op) := by
  cases op with
  | insert x =>
    refine Fol.bind (h.emplace hW x) ?_
    rintro ⟨a, off, ins⟩ ⟨b, off', ins'⟩ ⟨h, e⟩
    cases e
    refine Fol.bind (h.readSlot off) ?_
    rintro y _ rfl
    exact Fol.ok ⟨h, rfl⟩
  | insertOrAssign x f =>
    refine Fol.bind (h.insertOrAssign hW x f) ?_
    rintro ⟨a, off, ins⟩ ⟨b, off', ins'⟩ ⟨h, e⟩
    cases e
    refine Fol.bind (h.readSlot off) ?_
    rintro y _ rfl
    exact Fol.ok ⟨h, rfl⟩
  | subscript x f =>
    refine Fol.bind (h.subscript hW x) ?_
    rintro ⟨a, off⟩ ⟨b, off'⟩ ⟨h, e⟩
    cases e
    refine Fol.bind (h.readSlot off) ?_
    rintro y _ rfl
    exact Fol.bind (h.assignAt off f) fun _ _ h => Fol.ok ⟨h, rfl⟩
  | «at» k =>
    refine Fol.bind (h.at_ hW k) ?_
    rintro y _ rfl
    exact Fol.ok ⟨h, rfl⟩
  | find k =>
    refine Fol.bind (h.find hW k) ?_
    rintro o _ rfl
    cases o with
    | none => exact Fol.ok ⟨h, rfl⟩
    | some off =>
      refine Fol.bind (h.readSlot off) ?_
      rintro y _ rfl
      exact Fol.ok ⟨h, rfl⟩
  | contains k =>
    refine Fol.bind (R := Eq) (Fol.bind (h.find hW k) ?_) ?_
    · rintro o _ rfl; exact Fol.ok rfl
    · rintro o _ rfl; exact Fol.ok ⟨h, rfl⟩
  | count k =>
    refine Fol.bind (R := Eq) (Fol.bind (h.find hW k) ?_) ?_
    · rintro o _ rfl; exact Fol.ok rfl
    · rintro o _ rfl; exact Fol.ok ⟨h, rfl⟩
  | erase k =>
    refine Fol.bind (h.erase hW k) ?_
    rintro ⟨a, n⟩ ⟨b, m⟩ ⟨h, e⟩
    cases e
    exact Fol.ok ⟨h, rfl⟩
  | eraseIf p =>
    refine Fol.bind (h.eraseIf p) ?_
    rintro ⟨a, n⟩ ⟨b, m⟩ ⟨h, e⟩
    cases e
    exact Fol.ok ⟨h, rfl⟩
  | extract k =>
    refine Fol.bind (h.extract hW k) ?_
    rintro ⟨a, n⟩ ⟨b, m⟩ ⟨h, e⟩
    cases e
    exact Fol.ok ⟨h, rfl⟩
  | insertNode o =>
    refine Fol.bind (h.insertNode hW o) ?_
    rintro ⟨a, off, ins, left⟩ ⟨b, _⟩ ⟨h, e⟩
    cases e
    cases off with
    | none => exact Fol.ok ⟨h, rfl⟩
    | some off =>
      refine Fol.bind (h.readSlot off) ?_
      rintro y _ rfl
      exact Fol.ok ⟨h, rfl⟩
  | toggle x => exact Fol.bind (h.emplaceSingle hW _ _ _) fun _ _ h => Fol.ok ⟨h, rfl⟩
  | insertRange vs => exact Fol.bind (h.insertRange hW vs) fun _ _ h => Fol.ok ⟨h, rfl⟩
  | size => exact Fol.ok ⟨h, by dsimp only; rw [h.size]⟩
  | clear => exact Fol.bind h.clear fun _ _ h => Fol.ok ⟨h, rfl⟩
  | reserve n => exact Fol.bind (h.reserve n) fun _ _ h => Fol.ok ⟨h, rfl⟩
  | rehash n => exact Fol.bind (h.rehash n) fun _ _ h => Fol.ok ⟨h, rfl⟩

def WNul (v w : Nat → Tbl α) : Prop := ∀ i, Nul (v i) (w i)

theorem WNul.put {v w : Nat → Tbl α} (h : WNul v w) (i : Nat) {a b : Tbl α} (hab : Nul a b) :
    WNul (put v i a) (put w i b) := by
  intro j
  unfold Spec.put
  by_cases hj : j = i
  · simp only [hj, if_true]; exact hab
  · simp only [if_neg hj]; exact h j

theorem Nul.copyAssign {a b s u : Tbl α} (h : Nul a b) (h' : Nul s u) (hz : u.capacity = 0 → u.size = 0) :
    Fol Nul (copyAssignN C a s) (Tbl.copyAssign C b u) := by
  unfold copyAssignN Tbl.copyAssign
  refine Fol.bind (h'.copy hz) fun a1 b1 h1 => ?_
  exact Fol.bind h.destroySlots fun _ _ _ => Fol.ok h1

theorem Nul.moveAssign {a b s u : Tbl α} (h : Nul a b) (h' : Nul s u) :
    Fol (fun x y => Nul x.1 y.1 ∧ Nul x.2 y.2) (moveAssignN a s) (Tbl.moveAssign b u) :=
  Fol.bind h.destroySlots fun _ _ _ => Fol.ok ⟨h', nul_empty⟩

theorem wstepN_fol [BEq α] (hW : 0 < C.G.W) {v w : Nat → Tbl α} (h : WNul v w)
    (hz : ∀ i, (w i).capacity = 0 → (w i).size = 0) (op : WOp α κ) :
    Fol (fun x y => WNul x.1 y.1 ∧ x.2 = y.2) (wstepN C v op) (wstep C w op) := by
  cases op with
  | on i op =>
    refine Fol.bind (stepN_fol hW (h i) op) ?_
    rintro ⟨a, r⟩ ⟨b, s⟩ ⟨hab, e⟩
    cases e
    exact Fol.ok ⟨h.put i hab, rfl⟩
  | create i n =>
    refine Fol.bind ((h i).moveAssign (Nul.withBuckets n)) ?_
    rintro ⟨a, r⟩ ⟨b, s⟩ ⟨hab, e⟩
    exact Fol.ok ⟨h.put i hab, rfl⟩
  | copy i j =>
    refine Fol.bind ((h i).copyAssign (h j) (hz j)) fun a b hab => ?_
    exact Fol.ok ⟨h.put i hab, rfl⟩
  | move i j =>
    simp only [wstepN, wstep]
    by_cases hij : i = j
    · rw [if_pos hij, if_pos hij]
      exact Fol.bind (R := Nul) (Fol.ok (a := nil) (b := empty) nul_empty) fun _ _ _ => Fol.ok ⟨h.put i (h i), rfl⟩
    · rw [if_neg hij, if_neg hij]
      refine Fol.bind ((h i).moveAssign (h j)) ?_
      rintro ⟨a, r⟩ ⟨b, s⟩ ⟨hab, e⟩
      exact Fol.ok ⟨(h.put j e).put i hab, rfl⟩
  | swap i j => exact Fol.ok ⟨(h.put i (h j)).put j (h i), rfl⟩
  | merge i j =>
    refine Fol.bind ((h i).merge hW (h j)) ?_
    rintro ⟨a, r⟩ ⟨b, s⟩ ⟨hab, e⟩
    exact Fol.ok ⟨(h.put i hab).put j e, rfl⟩
  | equal i j =>
    refine Fol.bind ((h i).beqTbl hW _ (h j)) ?_
    rintro r _ rfl
    exact Fol.ok ⟨h, rfl⟩

theorem wrunN_fol [BEq α] [LawfulBEq α] (hC : CfgOk C) (hW : 0 < C.G.W) : ∀ (ops : List (WOp α κ)) {v w : Nat → Tbl α}
    {m : Nat → List α}, WNul v w → WSim C w m → (∀ op ∈ ops, op.Valid C.key) →
    Fol (fun x y => WNul x.1 y.1 ∧ x.2 = y.2) (wrunN C v ops) (wrun C w ops)
  | [], v, w, m, h, _, _ => Fol.ok ⟨h, rfl⟩
  | op :: ops, v, w, m, h, hs, hv => by
    obtain ⟨w1, h1, h2⟩ := wstep_sim hC hs op (hv op List.mem_cons_self)
    have hz : ∀ i, (w i).capacity = 0 → (w i).size = 0 := by
      intro i hc
      obtain ⟨⟨c, hi⟩, _⟩ := hs i
      have := hi.core.counts
      rw [hi.size_eq]; omega
    obtain ⟨⟨v1, r1⟩, hv1, hw1, e1⟩ := wstepN_fol hW h hz op _ h1
    unfold wrunN wrun
    rw [hv1, h1, Res.ok_bind, Res.ok_bind]
    dsimp only at e1 hw1 ⊢
    refine Fol.bind (wrunN_fol hC hW ops hw1 h2 (fun o ho => hv o (List.mem_cons_of_mem _ ho))) ?_
    rintro ⟨x, rs⟩ ⟨y, rs'⟩ ⟨hxy, e⟩
    cases e
    exact Fol.ok ⟨hxy, by rw [e1]⟩

end

end Tbl
end Gtl.Swiss
