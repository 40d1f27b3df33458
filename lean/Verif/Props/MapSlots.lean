import Verif.Btree.MapSlots
import Verif.Spec.MapSlots
/-!
# Property theorems C125: map elements that are moved from place to place
-/

namespace Gtl.Props.MapSlots

open Gtl.Btree.MapSlots
open Gtl.Spec.MapSlots

variable {K V : Type}

/-- Nothing throws: keys are moved, or copying them does not throw. -/
def Safe (T : Types K V) : Prop := T.mutableKeys = true ∨ ∀ n, T.fails n = false

/-! ## Glue -/

theorem ne_none {E : Type} {o : Option E} (h : o ≠ none) : ∃ x, o = some x := by
  cases o with
  | none => exact absurd rfl h
  | some x => exact ⟨x, rfl⟩

theorem construct_ok {T : Types K V} (hT : Safe T) {m : Mem K V} {dst src : Nat} {x : K × V} (hd : m.slots dst = none)
    (hs : m.slots src = some x) :
    ∃ m' g, construct T m dst src = .ok m' ∧
      ∀ j, m'.slots j = if j = dst then some x else if j = src then some g else m.slots j := by
  obtain ⟨k, v⟩ := x
  unfold construct
  rw [hd, hs]
  dsimp only
  by_cases hm : T.mutableKeys = true
  · rw [if_pos hm]
    exact ⟨_, _, rfl, fun j => rfl⟩
  · rw [if_neg hm, if_neg (by rcases hT with h | h; exact absurd h hm; rw [h]; simp)]
    exact ⟨_, _, rfl, fun j => rfl⟩

theorem destroy_ok {m : Mem K V} {i : Nat} (h : m.slots i ≠ none) :
    ∃ m', destroy m i = .ok m' ∧ (∀ j, m'.slots j = if j = i then none else m.slots j) ∧ m'.copies = m.copies := by
  obtain ⟨x, hx⟩ := ne_none h
  unfold destroy
  rw [hx]
  exact ⟨_, rfl, fun j => rfl, rfl⟩

theorem move_ok {T : Types K V} (hT : Safe T) {m : Mem K V} {dst src : Nat} (hne : src ≠ dst) (hd : m.slots dst ≠ none)
    (hs : m.slots src ≠ none) :
    ∃ m' g, move T m src dst = .ok m' ∧
      ∀ j, m'.slots j = if j = dst then m.slots src else if j = src then some g else m.slots j := by
  obtain ⟨⟨k, v⟩, hx⟩ := ne_none hs
  obtain ⟨y, hy⟩ := ne_none hd
  unfold move
  by_cases hm : T.mutableKeys = true
  · rw [if_pos hm, hx, hy]
    refine ⟨_, (T.goneK k, T.goneV v), rfl, fun j => ?_⟩
    simp only [Mem.set]
    by_cases e : j = src
    · subst e; simp [hne]
    · simp [e]
  · rw [if_neg hm]
    obtain ⟨m1, h1, h2, _⟩ := destroy_ok hd
    rw [h1]
    obtain ⟨m2, g, h3, h4⟩ := construct_ok hT (m := m1) (dst := dst) (src := src) (x := (k, v)) (by rw [h2]; simp)
      (by rw [h2, if_neg hne]; exact hx)
    refine ⟨m2, g, h3, fun j => ?_⟩
    rw [h4, h2, hx]
    by_cases e : j = dst
    · simp [e]
    · simp [e]

theorem shift_ok {T : Types K V} (hT : Safe T) {i : Nat} : ∀ (n : Nat) (m : Mem K V),
    (∀ j, i ≤ j → j ≤ i + n → m.slots j ≠ none) →
    ∃ m', shift T m i n = .ok m' ∧ m'.slots i ≠ none ∧
      ∀ j, j ≠ i → m'.slots j = if i < j ∧ j ≤ i + n then m.slots (j - 1) else m.slots j
  | 0, m, h => ⟨m, rfl, h i (Nat.le_refl _) (by omega), fun j hj => by rw [if_neg (by omega)]⟩
  | n + 1, m, h => by
    obtain ⟨m1, g, h1, h2⟩ := move_ok hT (m := m) (src := i + n) (dst := i + n + 1) (by omega)
      (h (i + n + 1) (by omega) (by omega)) (h (i + n) (by omega) (by omega))
    obtain ⟨m2, h3, h4, h5⟩ := shift_ok hT (i := i) n m1 (fun j j1 j2 => by
      rw [h2, if_neg (by omega)]
      split
      · simp
      · exact h j j1 (by omega))
    refine ⟨m2, by unfold shift; rw [h1]; exact h3, h4, fun j hj => ?_⟩
    rw [h5 j hj, h2, h2]
    by_cases c1 : i < j ∧ j ≤ i + n
    · rw [if_pos c1, if_pos (c := i < j ∧ j ≤ i + (n + 1)) ⟨c1.1, by omega⟩, if_neg (by omega), if_neg (by omega)]
    · rw [if_neg c1]
      by_cases c2 : j = i + n + 1
      · subst c2
        rw [if_pos rfl, if_pos (c := i < i + n + 1 ∧ i + n + 1 ≤ i + (n + 1)) ⟨by omega, by omega⟩]
        rfl
      · rw [if_neg c2, if_neg (c := i < j ∧ j ≤ i + (n + 1)) (by omega)]
        rw [if_neg (by omega)]

theorem moveRange_ok {T : Types K V} (hT : Safe T) {d : Nat} (hd : 1 ≤ d) : ∀ (s dst : Nat) (m : Mem K V),
    (∀ j, dst ≤ j → j < dst + d + s → m.slots j ≠ none) →
    ∃ m', moveRange T m (dst + d) dst s = .ok m' ∧ (∀ j, j < dst → m'.slots j = m.slots j) ∧
      (∀ j, dst ≤ j → j < dst + s → m'.slots j = m.slots (j + d)) ∧
      (∀ j, dst + s ≤ j → j < dst + s + d → m'.slots j ≠ none) ∧ (∀ j, dst + s + d ≤ j → m'.slots j = m.slots j)
  | 0, dst, m, h => ⟨m, rfl, fun j _ => rfl, fun j _ _ => by omega, fun j h1 h2 => h j (by omega) (by omega), fun j _ => rfl⟩
  | s + 1, dst, m, h => by
    obtain ⟨m1, g, h1, h2⟩ := move_ok hT (m := m) (src := dst + d) (dst := dst) (by omega)
      (h dst (by omega) (by omega)) (h (dst + d) (by omega) (by omega))
    obtain ⟨m2, h3, h4, h5, h6, h7⟩ := moveRange_ok hT hd s (dst + 1) m1 (fun j j1 j2 => by
      rw [h2, if_neg (by omega)]
      split
      · simp
      · exact h j (by omega) (by omega))
    have e : dst + d + 1 = dst + 1 + d := by omega
    refine ⟨m2, by unfold moveRange; rw [h1]; show moveRange T m1 (dst + d + 1) (dst + 1) s = _; rw [e]; exact h3, ?_, ?_, ?_, ?_⟩
    · intro j hj
      rw [h4 j (by omega), h2, if_neg (by omega), if_neg (by omega)]
    · intro j j1 j2
      by_cases c : j = dst
      · subst c
        rw [h4 j (by omega), h2, if_pos rfl]
      · rw [h5 j (by omega) (by omega), h2, if_neg (by omega), if_neg (by omega)]
    · intro j j1 j2
      exact h6 j (by omega) (by omega)
    · intro j hj
      rw [h7 j (by omega), h2, if_neg (by omega), if_neg (by omega)]

theorem destroyN_ok : ∀ (n i : Nat) (m : Mem K V), (∀ j, i ≤ j → j < i + n → m.slots j ≠ none) →
    ∃ m', destroyN m i n = .ok m' ∧ ∀ j, m'.slots j = if i ≤ j ∧ j < i + n then none else m.slots j
  | 0, i, m, h => ⟨m, rfl, fun j => by rw [if_neg (by omega)]⟩
  | n + 1, i, m, h => by
    obtain ⟨m1, h1, h2, _⟩ := destroy_ok (h i (Nat.le_refl _) (by omega))
    obtain ⟨m2, h3, h4⟩ := destroyN_ok n (i + 1) m1 (fun j j1 j2 => by
      rw [h2, if_neg (by omega)]; exact h j (by omega) (by omega))
    refine ⟨m2, by unfold destroyN; rw [h1]; exact h3, fun j => ?_⟩
    rw [h4, h2]
    by_cases c : j = i
    · subst c
      rw [if_neg (by omega), if_pos rfl, if_pos (by omega)]
    · by_cases c2 : i + 1 ≤ j ∧ j < i + 1 + n
      · rw [if_pos c2, if_pos (by omega)]
      · rw [if_neg c2, if_neg c, if_neg (by omega)]

/-- Destroying a range with an empty place in it is undefined. -/
theorem destroyN_ub : ∀ (n i : Nat) (m : Mem K V) (d : Nat), i ≤ d → d < i + n → m.slots d = none → destroyN m i n = .ub
  | 0, i, m, d, h1, h2, _ => by omega
  | n + 1, i, m, d, h1, h2, h3 => by
    unfold destroyN
    by_cases hi : m.slots i = none
    · unfold destroy
      rw [hi]
      rfl
    · obtain ⟨m1, g1, g2, _⟩ := destroy_ok hi
      rw [g1]
      have hne : d ≠ i := fun e => hi (e ▸ h3)
      exact destroyN_ub n (i + 1) m1 d (by omega) (by omega) (by rw [g2, if_neg hne]; exact h3)

theorem construct_threw {T : Types K V} {m m' : Mem K V} {dst src : Nat} (h : construct T m dst src = .threw m') :
    m'.slots = m.slots ∧ m.slots dst = none ∧ T.fails m.copies = true := by
  unfold construct at h
  split at h
  · rename_i h1 _
    split at h
    · cases h
    · split at h
      · rename_i hf
        cases h; exact ⟨rfl, h1, hf⟩
      · cases h
  · cases h

theorem destroy_not_threw {m m' : Mem K V} {i : Nat} (h : destroy m i = .threw m') : False := by
  unfold destroy at h
  split at h <;> cases h

theorem move_threw {T : Types K V} {m m' : Mem K V} {dst src : Nat} (h : move T m src dst = .threw m') :
    m'.slots dst = none := by
  unfold move at h
  split at h
  · split at h <;> cases h
  · cases hd : destroy m dst with
    | ok m1 =>
      rw [hd] at h
      obtain ⟨g1, g2, _⟩ := construct_threw (show construct T m1 dst src = .threw m' from h)
      rw [g1]; exact g2
    | threw m1 => exact (destroy_not_threw hd).elim
    | ub => rw [hd] at h; cases h

theorem moveRange_threw {T : Types K V} : ∀ (s src dst : Nat) (m m' : Mem K V), moveRange T m src dst s = .threw m' →
    ∃ d, dst ≤ d ∧ d < dst + s ∧ m'.slots d = none
  | 0, _, _, _, _, h => by cases h
  | s + 1, src, dst, m, m', h => by
    unfold moveRange at h
    cases hm : move T m src dst with
    | ok m1 =>
      rw [hm] at h
      obtain ⟨d, g1, g2, g3⟩ := moveRange_threw s (src + 1) (dst + 1) m1 m' h
      exact ⟨d, by omega, by omega, g3⟩
    | threw m1 =>
      rw [hm] at h
      cases h
      exact ⟨dst, Nat.le_refl _, by omega, move_threw hm⟩
    | ub => rw [hm] at h; cases h

theorem shift_threw {T : Types K V} {i : Nat} : ∀ (n : Nat) (m m' : Mem K V), shift T m i n = .threw m' →
    ∃ d, i < d ∧ d ≤ i + n ∧ m'.slots d = none
  | 0, _, _, h => by cases h
  | n + 1, m, m', h => by
    unfold shift at h
    cases hm : move T m (i + n) (i + n + 1) with
    | ok m1 =>
      rw [hm] at h
      obtain ⟨d, g1, g2, g3⟩ := shift_threw n m1 m' h
      exact ⟨d, g1, by omega, g3⟩
    | threw m1 =>
      rw [hm] at h
      cases h
      exact ⟨i + n + 1, by omega, by omega, move_threw hm⟩
    | ub => rw [hm] at h; cases h

theorem destroyN_not_threw : ∀ (n i : Nat) (m m' : Mem K V), destroyN m i n = .threw m' → False
  | 0, _, _, _, h => by cases h
  | n + 1, i, m, m', h => by
    unfold destroyN at h
    cases hd : destroy m i with
    | ok m1 => rw [hd] at h; exact destroyN_not_threw n (i + 1) m1 m' h
    | threw m1 => exact destroy_not_threw hd
    | ub => rw [hd] at h; cases h

theorem holds_live {m : Mem K V} {l : List (K × V)} (h : Holds m.slots l) {j : Nat} (hj : j < l.length) :
    m.slots j ≠ none := by
  rw [h j, List.getElem?_eq_getElem hj]; simp

theorem holds_dead {m : Mem K V} {l : List (K × V)} (h : Holds m.slots l) {j : Nat} (hj : l.length ≤ j) :
    m.slots j = none := by
  rw [h j, List.getElem?_eq_none hj]

/-! ## C125 -/

/-- **Insertion**: the elements behind the new one are shifted by one place; no key or value is lost, and every place holds
one object. -/
theorem C125_insert_partial {T : Types K V} (hT : Safe T) {m : Mem K V} {l : List (K × V)} (h : Holds m.slots l) {i : Nat}
    (hi : i ≤ l.length) (x : K × V) :
    ∃ m', emplaceValue T m l.length i x = .ok m' ∧ Holds m'.slots (inserted l i x) := by
  have hins : ∀ j, (inserted l i x)[j]? = if j < i then l[j]? else if j = i then some x else l[j - 1]? := by
    intro j
    unfold inserted
    have hl : (l.take i).length = i := by rw [List.length_take]; omega
    by_cases c1 : j < i
    · rw [if_pos c1, List.getElem?_append_left (by omega), List.getElem?_take, if_pos c1]
    · rw [if_neg c1, List.getElem?_append_right (by omega), hl]
      by_cases c2 : j = i
      · subst c2; simp
      · rw [if_neg c2, show j - i = (j - i - 1) + 1 from by omega, List.getElem?_cons_succ, List.getElem?_drop]
        congr 1
        omega
  unfold emplaceValue
  by_cases hlt : i < l.length
  · rw [if_pos hlt]
    obtain ⟨y, hy⟩ := ne_none (holds_live h (j := l.length - 1) (by omega))
    obtain ⟨m1, g, h1, h2⟩ := construct_ok hT (holds_dead h (Nat.le_refl _)) hy
    obtain ⟨m2, h3, h4, h5⟩ := shift_ok hT (i := i) (l.length - 1 - i) m1 (fun j j1 j2 => by
      rw [h2, if_neg (by omega)]
      split
      · simp
      · exact holds_live h (by omega))
    obtain ⟨m3, h6, h7, _⟩ := destroy_ok h4
    have h8 : init m3 i x = .ok (m3.set i (some x)) := by
      unfold init
      rw [h7, if_pos rfl]
    refine ⟨m3.set i (some x), ?_, fun j => ?_⟩
    · rw [h1]
      show ((shift T m1 i (l.length - 1 - i)).then (fun m => destroy m i)).then _ = _
      rw [h3]
      show (destroy m2 i).then _ = _
      rw [h6]
      exact h8
    · rw [hins]
      show (if j = i then some x else m3.slots j) = _
      by_cases c : j = i
      · rw [if_pos c, if_neg (by omega), if_pos c]
      · rw [if_neg c, if_neg c, h7, if_neg c, h5 j c, h2, h2]
        by_cases c1 : j < i
        · rw [if_pos c1, if_neg (by omega), if_neg (by omega), if_neg (by omega), h j]
        · rw [if_neg c1]
          by_cases c2 : j ≤ i + (l.length - 1 - i)
          · rw [if_pos ⟨by omega, c2⟩, if_neg (by omega), if_neg (by omega), h (j - 1)]
          · rw [if_neg (by omega)]
            by_cases c3 : j = l.length
            · rw [if_pos c3, ← hy, c3, h]
            · rw [if_neg c3, if_neg (by omega), h j, List.getElem?_eq_none (by omega), List.getElem?_eq_none (by omega)]
  · rw [if_neg hlt]
    have e : i = l.length := by omega
    refine ⟨m.set i (some x), ?_, fun j => ?_⟩
    · show init m i x = _
      unfold init
      rw [holds_dead h (by omega)]
    · rw [hins]
      show (if j = i then some x else m.slots j) = _
      by_cases c : j = i
      · rw [if_pos c, if_neg (by omega), if_pos c]
      · rw [if_neg c, if_neg c, h j]
        by_cases c1 : j < i
        · rw [if_pos c1]
        · rw [if_neg c1, List.getElem?_eq_none (by omega), List.getElem?_eq_none (by omega)]

/-- **Removal** of `n` elements: those behind are moved down. -/
theorem C125_erase_partial {T : Types K V} (hT : Safe T) {m : Mem K V} {l : List (K × V)} (h : Holds m.slots l) {i n : Nat}
    (hn : 1 ≤ n) (hi : i + n ≤ l.length) :
    ∃ m', removeValues T m l.length i n = .ok m' ∧ Holds m'.slots (without l i n) := by
  have hw : ∀ j, (without l i n)[j]? = if j < i then l[j]? else l[j + n]? := by
    intro j
    unfold without
    have hl : (l.take i).length = i := by rw [List.length_take]; omega
    by_cases c1 : j < i
    · rw [if_pos c1, List.getElem?_append_left (by omega), List.getElem?_take, if_pos c1]
    · rw [if_neg c1, List.getElem?_append_right (by omega), hl, List.getElem?_drop]
      congr 1
      omega
  obtain ⟨m1, h1, h2, h3, h4, h5⟩ := moveRange_ok hT hn (l.length - (i + n)) i m (fun j j1 j2 => holds_live h (by omega))
  obtain ⟨m2, h6, h7⟩ := destroyN_ok n (l.length - n) m1 (fun j j1 j2 => h4 j (by omega) (by omega))
  refine ⟨m2, ?_, fun j => ?_⟩
  · unfold removeValues
    rw [h1]
    exact h6
  · rw [hw, h7]
    by_cases c1 : j < i
    · rw [if_pos c1, if_neg (by omega), h2 j c1, h j]
    · rw [if_neg c1]
      by_cases c2 : j < l.length - n
      · rw [if_neg (by omega), h3 j (by omega) (by omega), h (j + n)]
      · rw [List.getElem?_eq_none (by omega)]
        by_cases c3 : j < l.length
        · rw [if_pos (by omega)]
        · rw [if_neg (by omega), h5 j (by omega), holds_dead h (by omega)]

/-- **Transfer** to an empty place: the element is there afterwards, with its key and value, and the old place is empty. -/
theorem C125_transfer_partial {T : Types K V} (hT : Safe T) {m : Mem K V} {a b : Nat} {x : K × V} (ha : m.slots a = some x)
    (hb : m.slots b = none) :
    ∃ m', transfer T m b a = .ok m' ∧ m'.slots b = some x ∧ m'.slots a = none ∧
      ∀ j, j ≠ a → j ≠ b → m'.slots j = m.slots j := by
  have hne : a ≠ b := fun e => by rw [e, hb] at ha; cases ha
  obtain ⟨m1, g, h1, h2⟩ := construct_ok hT hb ha
  obtain ⟨m2, h3, h4, _⟩ := destroy_ok (m := m1) (i := a) (by rw [h2, if_neg hne, if_pos rfl]; simp)
  refine ⟨m2, ?_, ?_, ?_, fun j j1 j2 => ?_⟩
  · unfold transfer; rw [h1]; exact h3
  · rw [h4, if_neg hne.symm, h2, if_pos rfl]
  · rw [h4, if_pos rfl]
  · rw [h4, if_neg j1, h2, if_neg j2, if_neg j1]

/-- **Swapping** the elements of two places. -/
theorem C125_swap_partial {T : Types K V} (hT : Safe T) {m : Mem K V} {a b : Nat} (hne : a ≠ b) {x y : K × V}
    (ha : m.slots a = some x) (hb : m.slots b = some y) :
    ∃ m', swap T m a b = .ok m' ∧ m'.slots a = some y ∧ m'.slots b = some x ∧
      ∀ j, j ≠ a → j ≠ b → m'.slots j = m.slots j := by
  unfold swap
  by_cases hm : T.mutableKeys = true
  · rw [if_pos hm, ha, hb]
    refine ⟨_, rfl, ?_, ?_, fun j j1 j2 => ?_⟩
    · simp [Mem.set, hne]
    · simp [Mem.set]
    · simp [Mem.set, j1, j2]
  · have hf : ∀ n, ¬ T.fails n = true := by
      intro n
      rcases hT with h | h
      · exact absurd h hm
      · rw [h]; simp
    rw [if_neg hm, ha]
    obtain ⟨k, v⟩ := x
    dsimp only
    rw [if_neg (hf _)]
    have hl : (({ m with copies := m.copies + 1 } : Mem K V).set a (some (k, T.goneV v))).slots =
        fun j => if j = a then some (k, T.goneV v) else m.slots j := rfl
    obtain ⟨m1, h1, h2, _⟩ := destroy_ok (m := ({ m with copies := m.copies + 1 } : Mem K V).set a (some (k, T.goneV v)))
      (i := a) (by rw [hl]; simp)
    rw [hl] at h2
    obtain ⟨m2, g, h3, h4⟩ := construct_ok hT (m := m1) (dst := a) (src := b) (x := y) (by rw [h2]; simp)
      (by rw [h2, if_neg hne.symm]; show (if b = a then _ else m.slots b) = _; rw [if_neg hne.symm]; exact hb)
    obtain ⟨m3, h5, h6, _⟩ := destroy_ok (m := m2) (i := b) (by rw [h4, if_neg hne.symm, if_pos rfl]; simp)
    have h7 : init { m3 with copies := m3.copies + 1 } b (k, v) =
        .ok (({ m3 with copies := m3.copies + 1 } : Mem K V).set b (some (k, v))) := by
      unfold init
      show (match m3.slots b with | none => _ | some _ => _) = _
      rw [h6, if_pos rfl]
    refine ⟨({ m3 with copies := m3.copies + 1 } : Mem K V).set b (some (k, v)), ?_, ?_, ?_, fun j j1 j2 => ?_⟩
    · rw [h1]
      show (construct T m1 a b).then _ = _
      rw [h3]
      show (destroy m2 b).then _ = _
      rw [h5]
      show (if _ then _ else _) = _
      rw [if_neg (hf _)]
      exact h7
    · show (if a = b then _ else m3.slots a) = _
      rw [if_neg hne, h6, if_neg hne, h4, if_pos rfl]
    · show (if b = b then _ else _) = _
      rw [if_pos rfl]
    · show (if j = b then _ else m3.slots j) = _
      rw [if_neg j2, h6, if_neg j2, h4, if_neg j1, if_neg j2, h2, if_neg j1]
      show (if j = a then _ else m.slots j) = _
      rw [if_neg j1]

/-- **Refutation, for every node**: if copying a key throws while elements are removed, one of the places that still count
as elements is empty. Destroying the container (or clearing it) is undefined. -/
theorem C125_erase_throws {T : Types K V} {m m' : Mem K V} {count i n : Nat} (hi : i + n ≤ count)
    (h : removeValues T m count i n = .threw m') : destroyN m' 0 count = .ub := by
  unfold removeValues at h
  cases hm : moveRange T m (i + n) i (count - (i + n)) with
  | ok m1 => rw [hm] at h; exact (destroyN_not_threw _ _ _ _ h).elim
  | threw m1 =>
    rw [hm] at h
    cases h
    obtain ⟨d, g1, g2, g3⟩ := moveRange_threw _ _ _ _ _ hm
    exact destroyN_ub _ _ _ d (by omega) (by omega) g3
  | ub => rw [hm] at h; cases h

/-- If it throws in an insertion, either it was the first copy, and the node is as before, or destroying it is
undefined. -/
theorem C125_insert_throws {T : Types K V} {m m' : Mem K V} {count i : Nat} {x : K × V}
    (h : emplaceValue T m count i x = .threw m') :
    (T.fails m.copies = true ∧ m'.slots = m.slots) ∨ destroyN m' 0 count = .ub := by
  have hinit : ∀ (m1 : Mem K V), init m1 i x ≠ .threw m' := by
    intro m1 hh
    unfold init at hh
    split at hh <;> cases hh
  unfold emplaceValue at h
  split at h
  · cases hc : construct T m count (count - 1) with
    | ub => rw [hc] at h; cases h
    | threw m1 =>
      rw [hc] at h
      cases h
      obtain ⟨g1, _, g3⟩ := construct_threw hc
      exact .inl ⟨g3, g1⟩
    | ok m1 =>
      rw [hc] at h
      have h' : ((shift T m1 i (count - 1 - i)).then (fun m => destroy m i)).then (fun m => init m i x) = .threw m' := h
      cases hs : shift T m1 i (count - 1 - i) with
      | ub => rw [hs] at h'; cases h'
      | threw m2 =>
        rw [hs] at h'
        cases h'
        obtain ⟨d, g1, g2, g3⟩ := shift_threw _ _ _ hs
        exact .inr (destroyN_ub _ _ _ d (by omega) (by omega) g3)
      | ok m2 =>
        rw [hs] at h'
        have h2 : (destroy m2 i).then (fun m => init m i x) = .threw m' := h'
        cases hd : destroy m2 i with
        | ub => rw [hd] at h2; cases h2
        | threw m3 => exact (destroy_not_threw hd).elim
        | ok m3 => rw [hd] at h2; exact (hinit m3 h2).elim
  · exact (hinit m h).elim

/-! ## Concrete cases -/

/-- Keys that are copied; the copy number `bad` throws. Moved values become 0. -/
def copied (bad : Nat) : Types Nat Nat := { mutableKeys := false, goneK := id, goneV := fun _ => 0, fails := fun n => n == bad }

/-- Four elements. -/
def four : Mem Nat Nat := { slots := fun j => [(1, 10), (2, 20), (3, 30), (4, 40)][j]?, copies := 0 }

/-- The first places afterwards, and whether there was an exception. -/
def look : Out (Mem Nat Nat) → Option (Bool × List (Option (Nat × Nat)))
  | .ok m => some (false, (List.range 6).map m.slots)
  | .threw m => some (true, (List.range 6).map m.slots)
  | .ub => none

/-- The hypotheses of the theorems are met. -/
example : Holds four.slots [(1, 10), (2, 20), (3, 30), (4, 40)] ∧ Safe ({ copied 0 with mutableKeys := true }) ∧
    look (emplaceValue { copied 0 with mutableKeys := true } four 4 1 (9, 90)) =
      some (false, [some (1, 10), some (9, 90), some (2, 20), some (3, 30), some (4, 40), none]) ∧
    look (removeValues (copied 7) four 4 0 2) = some (false, [some (3, 30), some (4, 40), none, none, none, none]) :=
  ⟨fun _ => rfl, .inl rfl, by decide, by decide⟩

/-- **Refutation.** An exception in a removal leaves an empty place among the elements, one in an insertion also. -/
theorem C125_throws_refuted :
    look (removeValues (copied 1) four 4 0 1) = some (true, [some (2, 20), none, some (3, 30), some (4, 40), none, none]) ∧
    look (emplaceValue (copied 1) four 4 1 (9, 90)) =
      some (true, [some (1, 10), some (2, 20), some (3, 30), none, some (4, 40), none]) := by
  decide

/-- **Refutation.** Swapping the element of a place with itself is undefined if keys are copied, and fine if they are
moved. -/
theorem C125_self_swap_refuted : (∀ (T : Types K V) (m : Mem K V) (a : Nat), T.mutableKeys = false → (∀ n, T.fails n = false) →
      swap T m a a = .ub) ∧
    (∀ (T : Types K V) (m : Mem K V) (a : Nat) (x : K × V), T.mutableKeys = true → m.slots a = some x →
      ∃ m', swap T m a a = .ok m' ∧ m'.slots = m.slots) := by
  refine ⟨fun T m a hm hf => ?_, fun T m a x hm hx => ?_⟩
  · unfold swap
    rw [if_neg (by rw [hm]; simp)]
    cases ha : m.slots a with
    | none => rfl
    | some x =>
      obtain ⟨k, v⟩ := x
      dsimp only
      rw [if_neg (by rw [hf]; simp)]
      obtain ⟨m1, h1, h2, _⟩ := destroy_ok (m := ({ m with copies := m.copies + 1 } : Mem K V).set a (some (k, T.goneV v)))
        (i := a) (by simp [Mem.set])
      rw [h1]
      show (construct T m1 a a).then _ = _
      have : construct T m1 a a = .ub := by
        unfold construct
        rw [h2, if_pos rfl]
      rw [this]
      rfl
  · unfold swap
    rw [if_pos hm, hx]
    refine ⟨_, rfl, ?_⟩
    funext j
    simp only [Mem.set]
    by_cases c : j = a
    · rw [if_pos c, c, hx]
    · rw [if_neg c, if_neg c]

end Gtl.Props.MapSlots
