import Verif.Props.MapSlots
import Verif.Btree.MapNodes
import Verif.Spec.MapNodes
/-!
# Property theorems C125: map elements that are moved between the nodes of a tree
-/

namespace Gtl.Props.MapNodes

open Gtl.Btree.MapSlots
open Gtl.Spec.MapNodes
open Gtl.Props.MapSlots

variable {K V : Type}

/-! ## Glue -/

theorem construct_ok' {T : Types K V} (hT : Safe T) {m : Mem K V} {dst src : Nat} (hd : m.slots dst = none)
    (hs : m.slots src ≠ none) :
    ∃ m' g, construct T m dst src = .ok m' ∧
      ∀ j, m'.slots j = if j = dst then m.slots src else if j = src then some g else m.slots j := by
  obtain ⟨x, hx⟩ := ne_none hs
  obtain ⟨m', g, h1, h2⟩ := construct_ok hT hd hx
  exact ⟨m', g, h1, fun j => by rw [h2, hx]⟩

theorem uninitMove_ok {T : Types K V} (hT : Safe T) : ∀ (n s d : Nat) (m : Mem K V), (s + n ≤ d ∨ d + n ≤ s) →
    (∀ j, s ≤ j → j < s + n → m.slots j ≠ none) → (∀ j, d ≤ j → j < d + n → m.slots j = none) →
    ∃ m', uninitMove T m s d n = .ok m' ∧ (∀ j, d ≤ j → j < d + n → m'.slots j = m.slots (j - d + s)) ∧
      (∀ j, s ≤ j → j < s + n → m'.slots j ≠ none) ∧
      (∀ j, ¬ (d ≤ j ∧ j < d + n) → ¬ (s ≤ j ∧ j < s + n) → m'.slots j = m.slots j)
  | 0, s, d, m, _, _, _ => ⟨m, rfl, fun j _ _ => by omega, fun j _ _ => by omega, fun j _ _ => rfl⟩
  | n + 1, s, d, m, hap, hs, hd => by
    obtain ⟨m1, g, h1, h2⟩ := construct_ok' hT (m := m) (dst := d) (src := s) (hd d (by omega) (by omega))
      (hs s (by omega) (by omega))
    obtain ⟨m2, h3, h4, h5, h6⟩ := uninitMove_ok hT n (s + 1) (d + 1) m1 (by omega)
      (fun j j1 j2 => by rw [h2, if_neg (by omega), if_neg (by omega)]; exact hs j (by omega) (by omega))
      (fun j j1 j2 => by rw [h2, if_neg (by omega), if_neg (by omega)]; exact hd j (by omega) (by omega))
    refine ⟨m2, by unfold uninitMove; rw [h1]; exact h3, fun j j1 j2 => ?_, fun j j1 j2 => ?_, fun j j1 j2 => ?_⟩
    · by_cases c : j = d
      · subst c
        rw [h6 j (by omega) (by omega), h2, if_pos rfl, Nat.sub_self, Nat.zero_add]
      · rw [h4 j (by omega) (by omega), h2, if_neg (by omega), if_neg (by omega)]
        congr 1; omega
    · by_cases c : j = s
      · subst c
        rw [h6 j (by omega) (by omega), h2, if_neg (by omega), if_pos rfl]; simp
      · exact h5 j (by omega) (by omega)
    · rw [h6 j (by omega) (by omega), h2, if_neg (by omega), if_neg (by omega)]

theorem moveApart_ok {T : Types K V} (hT : Safe T) : ∀ (n s d : Nat) (m : Mem K V), (s + n ≤ d ∨ d + n ≤ s) →
    (∀ j, s ≤ j → j < s + n → m.slots j ≠ none) → (∀ j, d ≤ j → j < d + n → m.slots j ≠ none) →
    ∃ m', moveRange T m s d n = .ok m' ∧ (∀ j, d ≤ j → j < d + n → m'.slots j = m.slots (j - d + s)) ∧
      (∀ j, s ≤ j → j < s + n → m'.slots j ≠ none) ∧
      (∀ j, ¬ (d ≤ j ∧ j < d + n) → ¬ (s ≤ j ∧ j < s + n) → m'.slots j = m.slots j)
  | 0, s, d, m, _, _, _ => ⟨m, rfl, fun j _ _ => by omega, fun j _ _ => by omega, fun j _ _ => rfl⟩
  | n + 1, s, d, m, hap, hs, hd => by
    obtain ⟨m1, g, h1, h2⟩ := move_ok hT (m := m) (dst := d) (src := s) (by omega) (hd d (by omega) (by omega))
      (hs s (by omega) (by omega))
    obtain ⟨m2, h3, h4, h5, h6⟩ := moveApart_ok hT n (s + 1) (d + 1) m1 (by omega)
      (fun j j1 j2 => by rw [h2, if_neg (by omega), if_neg (by omega)]; exact hs j (by omega) (by omega))
      (fun j j1 j2 => by rw [h2, if_neg (by omega), if_neg (by omega)]; exact hd j (by omega) (by omega))
    refine ⟨m2, by unfold moveRange; rw [h1]; exact h3, fun j j1 j2 => ?_, fun j j1 j2 => ?_, fun j j1 j2 => ?_⟩
    · by_cases c : j = d
      · subst c
        rw [h6 j (by omega) (by omega), h2, if_pos rfl, Nat.sub_self, Nat.zero_add]
      · rw [h4 j (by omega) (by omega), h2, if_neg (by omega), if_neg (by omega)]
        congr 1; omega
    · by_cases c : j = s
      · subst c
        rw [h6 j (by omega) (by omega), h2, if_neg (by omega), if_pos rfl]; simp
      · exact h5 j (by omega) (by omega)
    · rw [h6 j (by omega) (by omega), h2, if_neg (by omega), if_neg (by omega)]

theorem moveBack_ok {T : Types K V} (hT : Safe T) {s t : Nat} (ht : 1 ≤ t) : ∀ (n : Nat) (m : Mem K V),
    (∀ j, s ≤ j → j < s + n + t → m.slots j ≠ none) →
    ∃ m', moveBack T m s (s + t) n = .ok m' ∧ (∀ j, s + t ≤ j → j < s + t + n → m'.slots j = m.slots (j - t)) ∧
      (∀ j, s ≤ j → j < s + t → m'.slots j ≠ none) ∧
      (∀ j, ¬ (s ≤ j ∧ j < s + n + t) → m'.slots j = m.slots j)
  | 0, m, h => ⟨m, rfl, fun j _ _ => by omega, fun j j1 j2 => h j j1 (by omega), fun j _ => rfl⟩
  | n + 1, m, h => by
    obtain ⟨m1, g, h1, h2⟩ := move_ok hT (m := m) (dst := s + t + n) (src := s + n) (by omega)
      (h (s + t + n) (by omega) (by omega)) (h (s + n) (by omega) (by omega))
    obtain ⟨m2, h3, h4, h5, h6⟩ := moveBack_ok hT (s := s) ht n m1 (fun j j1 j2 => by
      rw [h2, if_neg (by omega)]
      split
      · simp
      · exact h j j1 (by omega))
    refine ⟨m2, by unfold moveBack; rw [h1]; exact h3, fun j j1 j2 => ?_, h5, fun j j1 => ?_⟩
    · by_cases c : j = s + t + n
      · subst c
        rw [h6 _ (by omega), h2, if_pos rfl]
        congr 1; omega
      · rw [h4 j (by omega) (by omega), h2, if_neg (by omega), if_neg (by omega)]
    · rw [h6 j (by omega), h2, if_neg (by omega), if_neg (by omega)]

theorem node_live {slots : Nat → Option (K × V)} {cap a : Nat} {l : List (K × V)} (h : Node slots cap a l) {x : Nat}
    (h1 : a ≤ x) (h2 : x < a + l.length) : slots x ≠ none := by
  obtain ⟨j, rfl⟩ : ∃ j, x = a + j := ⟨x - a, by omega⟩
  have := h.1
  rw [h.2 j (by omega), List.getElem?_eq_getElem (by omega)]; simp

theorem node_dead {slots : Nat → Option (K × V)} {cap a : Nat} {l : List (K × V)} (h : Node slots cap a l) {x : Nat}
    (h1 : a + l.length ≤ x) (h2 : x < a + cap) : slots x = none := by
  obtain ⟨j, rfl⟩ : ∃ j, x = a + j := ⟨x - a, by omega⟩
  rw [h.2 j (by omega), List.getElem?_eq_none (by omega)]

theorem node_at {slots : Nat → Option (K × V)} {cap a : Nat} {l : List (K × V)} (h : Node slots cap a l) {x : Nat} (j : Nat)
    (h1 : x = a + j) (h2 : j < cap) : slots x = l[j]? := by
  subst h1
  exact h.2 j h2

theorem get_take {E : Type} (l : List E) (n j : Nat) (h : j < n) : (l.take n)[j]? = l[j]? := by
  rw [List.getElem?_take, if_pos h]

/-- The list `l ++ d :: r` at an index. -/
theorem get_mid {E : Type} (l : List E) (d : E) (r : List E) (j : Nat) :
    (l ++ d :: r)[j]? = if j < l.length then l[j]? else if j = l.length then some d else r[j - l.length - 1]? := by
  by_cases c : j < l.length
  · rw [if_pos c, List.getElem?_append_left c]
  · rw [if_neg c, List.getElem?_append_right (by omega)]
    by_cases c2 : j = l.length
    · rw [if_pos c2, c2]; simp
    · rw [if_neg c2, show j - l.length = (j - l.length - 1) + 1 from by omega, List.getElem?_cons_succ]
      congr 1

/-! ## C125 -/

/-- **Elements from the right node to the left one**: of the elements of both nodes and the one between them, in order, the
left node has `t` more than before, the next one is in the parent and the rest is in the right node. No other place
changes. -/
theorem C125_rebalance_left_partial {T : Types K V} (hT : Safe T) {m : Mem K V} {cap a b p t : Nat} {l r : List (K × V)}
    {d : K × V} (ha : Node m.slots cap a l) (hb : Node m.slots cap b r) (hp : m.slots p = some d) (hab : Apart cap a b)
    (hpa : Outside cap a p) (hpb : Outside cap b p) (ht : 1 ≤ t) (htr : t ≤ r.length) (hcap : l.length + t ≤ cap) :
    ∃ m', rebalanceRL T m a l.length b r.length p t = .ok m' ∧
      Node m'.slots cap a ((l ++ d :: r).take (l.length + t)) ∧
      m'.slots p = (l ++ d :: r)[l.length + t]? ∧
      Node m'.slots cap b ((l ++ d :: r).drop (l.length + t + 1)) ∧
      ∀ x, Outside cap a x → Outside cap b x → x ≠ p → m'.slots x = m.slots x := by
  unfold Apart Outside at *
  have hrc := hb.1
  obtain ⟨m1, g1, e1, f1⟩ := construct_ok' hT (m := m) (dst := a + l.length) (src := p)
    (node_dead ha (by omega) (by omega)) (by rw [hp]; simp)
  obtain ⟨m2, e2, f2, f2', f2''⟩ := uninitMove_ok hT (t - 1) b (a + (l.length + 1)) m1 (by omega)
    (fun j j1 j2 => by rw [f1, if_neg (by omega), if_neg (by omega)]; exact node_live hb j1 (by omega))
    (fun j j1 j2 => by rw [f1, if_neg (by omega), if_neg (by omega)]; exact node_dead ha (by omega) (by omega))
  have live2 : ∀ j, b ≤ j → j < b + r.length → m2.slots j ≠ none := by
    intro j j1 j2
    by_cases c : j < b + (t - 1)
    · exact f2' j j1 c
    · rw [f2'' j (by omega) (by omega), f1, if_neg (by omega), if_neg (by omega)]
      exact node_live hb j1 j2
  obtain ⟨m3, g3, e3, f3⟩ := move_ok hT (m := m2) (src := b + (t - 1)) (dst := p) (by omega)
    (by rw [f2'' p (by omega) (by omega), f1, if_neg (by omega), if_pos rfl]; simp)
    (live2 _ (by omega) (by omega))
  have live3 : ∀ j, b ≤ j → j < b + r.length → m3.slots j ≠ none := by
    intro j j1 j2
    rw [f3, if_neg (by omega)]
    split
    · simp
    · exact live2 j j1 j2
  obtain ⟨m4, e4, f4a, f4b, f4c, f4d⟩ := moveRange_ok hT ht (r.length - t) b m3 (fun j j1 j2 => live3 j j1 (by omega))
  obtain ⟨m5, e5, f5⟩ := destroyN_ok t (b + (r.length - t)) m4 (fun j j1 j2 => f4c j j1 j2)
  have out4 : ∀ x, (x < b ∨ b + r.length ≤ x) → m5.slots x = m3.slots x := by
    intro x hx
    rw [f5, if_neg (by omega)]
    rcases hx with hx | hx
    · exact f4a x hx
    · exact f4d x (by omega)
  have hlen : (l ++ d :: r).length = l.length + r.length + 1 := by simp; omega
  refine ⟨m5, ?_, ⟨by rw [List.length_take]; omega, fun j hj => ?_⟩, ?_, ⟨by rw [List.length_drop]; omega, fun j hj => ?_⟩, ?_⟩
  · unfold rebalanceRL
    rw [e1]; show (uninitMove _ _ _ _ _).then _ = _
    rw [e2]; show (move _ _ _ _).then _ = _
    rw [e3]; show (moveRange _ _ _ _ _).then _ = _
    rw [e4]; exact e5
  · rw [out4 _ (by omega), f3, if_neg (by omega), if_neg (by omega)]
    by_cases c : j < l.length + t
    · rw [get_take _ _ _ c, get_mid]
      by_cases c1 : j < l.length
      · rw [if_pos c1, f2'' _ (by omega) (by omega), f1, if_neg (by omega), if_neg (by omega), ha.2 j hj]
      · rw [if_neg c1]
        by_cases c2 : j = l.length
        · rw [if_pos c2, f2'' _ (by omega) (by omega), f1, if_pos (by omega), hp]
        · rw [if_neg c2, f2 _ (by omega) (by omega), f1, if_neg (by omega), if_neg (by omega)]
          exact node_at hb _ (by omega) (by omega)
    · rw [List.getElem?_eq_none (by rw [List.length_take]; omega), f2'' _ (by omega) (by omega), f1, if_neg (by omega),
        if_neg (by omega)]
      exact node_dead ha (by omega) (by omega)
  · rw [out4 _ (by omega), f3, if_pos rfl, get_mid, if_neg (by omega), if_neg (by omega), f2'' _ (by omega) (by omega), f1,
      if_neg (by omega), if_neg (by omega)]
    exact node_at hb _ (by omega) (by omega)
  · rw [List.getElem?_drop, get_mid, if_neg (by omega), if_neg (by omega), f5]
    by_cases c : j < r.length - t
    · rw [if_neg (by omega), f4b _ (by omega) (by omega), f3, if_neg (by omega), if_neg (by omega),
        f2'' _ (by omega) (by omega), f1, if_neg (by omega), if_neg (by omega)]
      exact node_at hb _ (by omega) (by omega)
    · rw [List.getElem?_eq_none (by omega)]
      by_cases c1 : j < r.length
      · rw [if_pos (by omega)]
      · rw [if_neg (by omega), f4d _ (by omega), f3, if_neg (by omega), if_neg (by omega), f2'' _ (by omega) (by omega), f1,
          if_neg (by omega), if_neg (by omega)]
        exact node_dead hb (by omega) (by omega)
  · intro x xa xb xp
    rw [out4 _ (by omega), f3, if_neg xp, if_neg (by omega), f2'' _ (by omega) (by omega), f1, if_neg (by omega), if_neg xp]

/-- **Merging**: all elements of both nodes and the one between them are in the left node, in order, and the right one is
empty. The parent still has an object in the place of the element, to be removed. -/
theorem C125_merge_partial {T : Types K V} (hT : Safe T) {m : Mem K V} {cap a b p : Nat} {l r : List (K × V)}
    {d : K × V} (ha : Node m.slots cap a l) (hb : Node m.slots cap b r) (hp : m.slots p = some d) (hab : Apart cap a b)
    (hpa : Outside cap a p) (hpb : Outside cap b p) (hcap : l.length + 1 + r.length ≤ cap) :
    ∃ m', mergeNodes T m a l.length b r.length p = .ok m' ∧ Node m'.slots cap a (l ++ d :: r) ∧ Node m'.slots cap b [] ∧
      m'.slots p ≠ none ∧ ∀ x, Outside cap a x → Outside cap b x → x ≠ p → m'.slots x = m.slots x := by
  unfold Apart Outside at *
  obtain ⟨m1, g1, e1, f1⟩ := construct_ok' hT (m := m) (dst := a + l.length) (src := p)
    (node_dead ha (by omega) (by omega)) (by rw [hp]; simp)
  obtain ⟨m2, e2, f2, f2', f2''⟩ := uninitMove_ok hT r.length b (a + (l.length + 1)) m1 (by omega)
    (fun j j1 j2 => by rw [f1, if_neg (by omega), if_neg (by omega)]; exact node_live hb j1 (by omega))
    (fun j j1 j2 => by rw [f1, if_neg (by omega), if_neg (by omega)]; exact node_dead ha (by omega) (by omega))
  obtain ⟨m3, e3, f3⟩ := destroyN_ok r.length b m2 f2'
  refine ⟨m3, ?_, ⟨by simp; omega, fun j hj => ?_⟩, ⟨by simp, fun j hj => ?_⟩, ?_, ?_⟩
  · unfold mergeNodes
    rw [e1]; show (uninitMove _ _ _ _ _).then _ = _
    rw [e2]; exact e3
  · rw [f3, if_neg (by omega), get_mid]
    by_cases c1 : j < l.length
    · rw [if_pos c1, f2'' _ (by omega) (by omega), f1, if_neg (by omega), if_neg (by omega), ha.2 j hj]
    · rw [if_neg c1]
      by_cases c2 : j = l.length
      · rw [if_pos c2, f2'' _ (by omega) (by omega), f1, if_pos (by omega), hp]
      · rw [if_neg c2]
        by_cases c3 : j < l.length + 1 + r.length
        · rw [f2 _ (by omega) (by omega), f1, if_neg (by omega), if_neg (by omega)]
          exact node_at hb _ (by omega) (by omega)
        · rw [f2'' _ (by omega) (by omega), f1, if_neg (by omega), if_neg (by omega), List.getElem?_eq_none (by omega)]
          exact node_dead ha (by omega) (by omega)
  · rw [f3]
    by_cases c : j < r.length
    · rw [if_pos (by omega)]; simp
    · rw [if_neg (by omega), f2'' _ (by omega) (by omega), f1, if_neg (by omega), if_neg (by omega),
        node_dead hb (by omega) (by omega)]; simp
  · rw [f3, if_neg (by omega), f2'' _ (by omega) (by omega), f1, if_neg (by omega), if_pos rfl]; simp
  · intro x xa xb xp
    rw [f3, if_neg (by omega), f2'' _ (by omega) (by omega), f1, if_neg (by omega), if_neg xp]

/-- The first part of `rebalanceLR`: the elements of the left node and the one of the parent are in the right node. -/
theorem fill_right {T : Types K V} (hT : Safe T) {m : Mem K V} {cap a b p t : Nat} {l r : List (K × V)}
    {d : K × V} (ha : Node m.slots cap a l) (hb : Node m.slots cap b r) (hp : m.slots p = some d) (hab : Apart cap a b)
    (hpa : Outside cap a p) (hpb : Outside cap b p) (ht : 1 ≤ t) (htl : t ≤ l.length) (hcap : r.length + t ≤ cap) :
    ∃ m', (if t ≤ r.length then
        (uninitMove T m (b + (r.length - t)) (b + r.length) t).then fun m =>
        (moveBack T m b (b + t) (r.length - t)).then fun m =>
        (move T m p (b + (t - 1))).then fun m =>
        moveRange T m (a + (l.length - (t - 1))) b (t - 1)
      else
        (uninitMove T m b (b + t) r.length).then fun m =>
        (construct T m (b + (t - 1)) p).then fun m =>
        (uninitMove T m (a + (l.length - (t - r.length - 1))) (b + r.length) (t - r.length - 1)).then fun m =>
        moveRange T m (a + (l.length - (t - 1))) b r.length) = .ok m' ∧
      (∀ j, j < cap → m'.slots (b + j) =
        if j < t - 1 then l[l.length - (t - 1) + j]? else if j = t - 1 then some d else r[j - t]?) ∧
      (∀ x, a ≤ x → x < a + l.length → m'.slots x ≠ none) ∧ m'.slots p ≠ none ∧
      (∀ x, ¬ (a + (l.length - (t - 1)) ≤ x ∧ x < a + l.length) → (x < b ∨ b + cap ≤ x) → x ≠ p → m'.slots x = m.slots x) := by
  unfold Apart Outside at *
  have hlc := ha.1
  by_cases hc : t ≤ r.length
  · rw [if_pos hc]
    obtain ⟨m1, e1, f1, f1', f1''⟩ := uninitMove_ok hT t (b + (r.length - t)) (b + r.length) m (by omega)
      (fun j j1 j2 => node_live hb (by omega) (by omega)) (fun j j1 j2 => node_dead hb (by omega) (by omega))
    obtain ⟨m2, e2, f2, f2', f2''⟩ := moveBack_ok hT (s := b) ht (r.length - t) m1 (fun j j1 j2 => by
      by_cases c : b + (r.length - t) ≤ j
      · exact f1' j c (by omega)
      · rw [f1'' j (by omega) (by omega)]; exact node_live hb j1 (by omega))
    have p2 : m2.slots p = some d := by rw [f2'' p (by omega), f1'' p (by omega) (by omega), hp]
    obtain ⟨m3, g3, e3, f3⟩ := move_ok hT (m := m2) (src := p) (dst := b + (t - 1)) (by omega)
      (f2' _ (by omega) (by omega)) (by rw [p2]; simp)
    have a3 : ∀ x, ¬ (b ≤ x ∧ x < b + cap) → x ≠ p → m3.slots x = m.slots x := fun x h1 h2 => by
      rw [f3, if_neg (by omega), if_neg h2, f2'' x (by omega), f1'' x (by omega) (by omega)]
    obtain ⟨m4, e4, f4, f4', f4''⟩ := moveApart_ok hT (t - 1) (a + (l.length - (t - 1))) b m3 (by omega)
      (fun j j1 j2 => by rw [a3 j (by omega) (by omega)]; exact node_live ha (by omega) (by omega))
      (fun j j1 j2 => by rw [f3, if_neg (by omega), if_neg (by omega)]; exact f2' j j1 (by omega))
    refine ⟨m4, ?_, fun j hj => ?_, fun x h1 h2 => ?_, ?_, fun x h1 h2 h3 => ?_⟩
    · rw [e1]; show (moveBack _ _ _ _ _).then _ = _
      rw [e2]; show (move _ _ _ _).then _ = _
      rw [e3]; exact e4
    · by_cases c1 : j < t - 1
      · rw [if_pos c1, f4 _ (by omega) (by omega), a3 _ (by omega) (by omega)]
        exact node_at ha _ (by omega) (by omega)
      · rw [if_neg c1, f4'' _ (by omega) (by omega), f3]
        by_cases c2 : j = t - 1
        · rw [if_pos c2, if_pos (by omega), p2]
        · rw [if_neg c2, if_neg (by omega), if_neg (by omega)]
          by_cases c3 : j < r.length
          · rw [f2 _ (by omega) (by omega), f1'' _ (by omega) (by omega)]
            exact node_at hb _ (by omega) (by omega)
          · rw [f2'' _ (by omega)]
            by_cases c4 : j < r.length + t
            · rw [f1 _ (by omega) (by omega)]
              exact node_at hb _ (by omega) (by omega)
            · rw [f1'' _ (by omega) (by omega), List.getElem?_eq_none (by omega)]
              exact node_dead hb (by omega) (by omega)
    · by_cases c : a + (l.length - (t - 1)) ≤ x
      · exact f4' x c (by omega)
      · rw [f4'' x (by omega) (by omega), a3 x (by omega) (by omega)]; exact node_live ha h1 h2
    · rw [f4'' p (by omega) (by omega), f3, if_neg (by omega), if_pos rfl]; simp
    · rw [f4'' x (by omega) (by omega), a3 x (by omega) h3]
  · rw [if_neg hc]
    obtain ⟨m1, e1, f1, f1', f1''⟩ := uninitMove_ok hT r.length b (b + t) m (by omega)
      (fun j j1 j2 => node_live hb (by omega) (by omega)) (fun j j1 j2 => node_dead hb (by omega) (by omega))
    obtain ⟨m2, g2, e2, f2⟩ := construct_ok' hT (m := m1) (dst := b + (t - 1)) (src := p)
      (by rw [f1'' _ (by omega) (by omega)]; exact node_dead hb (by omega) (by omega))
      (by rw [f1'' _ (by omega) (by omega), hp]; simp)
    have a2 : ∀ x, ¬ (b ≤ x ∧ x < b + cap) → x ≠ p → m2.slots x = m.slots x := fun x h1 h2 => by
      rw [f2, if_neg (by omega), if_neg h2, f1'' x (by omega) (by omega)]
    obtain ⟨m3, e3, f3, f3', f3''⟩ := uninitMove_ok hT (t - r.length - 1) (a + (l.length - (t - r.length - 1))) (b + r.length)
      m2 (by omega)
      (fun j j1 j2 => by rw [a2 j (by omega) (by omega)]; exact node_live ha (by omega) (by omega))
      (fun j j1 j2 => by
        rw [f2, if_neg (by omega), if_neg (by omega), f1'' _ (by omega) (by omega)]; exact node_dead hb (by omega) (by omega))
    obtain ⟨m4, e4, f4, f4', f4''⟩ := moveApart_ok hT r.length (a + (l.length - (t - 1))) b m3 (by omega)
      (fun j j1 j2 => by
        rw [f3'' j (by omega) (by omega), a2 j (by omega) (by omega)]; exact node_live ha (by omega) (by omega))
      (fun j j1 j2 => by
        rw [f3'' j (by omega) (by omega), f2, if_neg (by omega), if_neg (by omega)]; exact f1' j j1 (by omega))
    refine ⟨m4, ?_, fun j hj => ?_, fun x h1 h2 => ?_, ?_, fun x h1 h2 h3 => ?_⟩
    · rw [e1]; show (construct _ _ _ _).then _ = _
      rw [e2]; show (uninitMove _ _ _ _ _).then _ = _
      rw [e3]; exact e4
    · by_cases c1 : j < t - 1
      · rw [if_pos c1]
        by_cases c0 : j < r.length
        · rw [f4 _ (by omega) (by omega), f3'' _ (by omega) (by omega), a2 _ (by omega) (by omega)]
          exact node_at ha _ (by omega) (by omega)
        · rw [f4'' _ (by omega) (by omega), f3 _ (by omega) (by omega), a2 _ (by omega) (by omega)]
          exact node_at ha _ (by omega) (by omega)
      · rw [if_neg c1, f4'' _ (by omega) (by omega), f3'' _ (by omega) (by omega), f2]
        by_cases c2 : j = t - 1
        · rw [if_pos c2, if_pos (by omega), f1'' _ (by omega) (by omega), hp]
        · rw [if_neg c2, if_neg (by omega), if_neg (by omega)]
          by_cases c3 : j < r.length + t
          · rw [f1 _ (by omega) (by omega)]
            exact node_at hb _ (by omega) (by omega)
          · rw [f1'' _ (by omega) (by omega), List.getElem?_eq_none (by omega)]
            exact node_dead hb (by omega) (by omega)
    · by_cases c : a + (l.length - (t - 1)) ≤ x ∧ x < a + (l.length - (t - 1)) + r.length
      · exact f4' x c.1 c.2
      · rw [f4'' x (by omega) (by omega)]
        by_cases c2 : a + (l.length - (t - r.length - 1)) ≤ x
        · exact f3' x c2 (by omega)
        · rw [f3'' x (by omega) (by omega), a2 x (by omega) (by omega)]; exact node_live ha h1 h2
    · rw [f4'' p (by omega) (by omega), f3'' p (by omega) (by omega), f2, if_neg (by omega), if_pos rfl]; simp
    · rw [f4'' x (by omega) (by omega), f3'' x (by omega) (by omega), a2 x (by omega) h3]

/-- **Elements from the left node to the right one**: of the elements of both nodes and the one between them, in order, the
left node has `t` fewer than before, the next one is in the parent and the rest is in the right node. No other place
changes. -/
theorem C125_rebalance_right_partial {T : Types K V} (hT : Safe T) {m : Mem K V} {cap a b p t : Nat} {l r : List (K × V)}
    {d : K × V} (ha : Node m.slots cap a l) (hb : Node m.slots cap b r) (hp : m.slots p = some d) (hab : Apart cap a b)
    (hpa : Outside cap a p) (hpb : Outside cap b p) (ht : 1 ≤ t) (htl : t ≤ l.length) (hcap : r.length + t ≤ cap) :
    ∃ m', rebalanceLR T m a l.length b r.length p t = .ok m' ∧
      Node m'.slots cap a ((l ++ d :: r).take (l.length - t)) ∧
      m'.slots p = (l ++ d :: r)[l.length - t]? ∧
      Node m'.slots cap b ((l ++ d :: r).drop (l.length - t + 1)) ∧
      ∀ x, Outside cap a x → Outside cap b x → x ≠ p → m'.slots x = m.slots x := by
  obtain ⟨m4, e4, f4, f4', f4p, f4''⟩ := fill_right hT ha hb hp hab hpa hpb ht htl hcap
  unfold Apart Outside at *
  have hlc := ha.1
  obtain ⟨m5, g5, e5, f5⟩ := move_ok hT (m := m4) (src := a + (l.length - t)) (dst := p) (by omega) f4p
    (f4' _ (by omega) (by omega))
  obtain ⟨m6, e6, f6⟩ := destroyN_ok t (a + (l.length - t)) m5 (fun j j1 j2 => by
    rw [f5, if_neg (by omega)]
    split
    · simp
    · exact f4' j (by omega) (by omega))
  have hlen : (l ++ d :: r).length = l.length + r.length + 1 := by simp; omega
  refine ⟨m6, ?_, ⟨by rw [List.length_take]; omega, fun j hj => ?_⟩, ?_, ⟨by rw [List.length_drop]; omega, fun j hj => ?_⟩, ?_⟩
  · unfold rebalanceLR
    rw [e4]; show (move _ _ _ _).then _ = _
    rw [e5]; exact e6
  · rw [f6]
    by_cases c : j < l.length - t
    · rw [if_neg (by omega), f5, if_neg (by omega), if_neg (by omega), f4'' _ (by omega) (by omega) (by omega),
        get_take _ _ _ c, get_mid, if_pos (by omega), ha.2 j hj]
    · rw [List.getElem?_eq_none (by rw [List.length_take]; omega)]
      by_cases c1 : j < l.length
      · rw [if_pos (by omega)]
      · rw [if_neg (by omega), f5, if_neg (by omega), if_neg (by omega), f4'' _ (by omega) (by omega) (by omega)]
        exact node_dead ha (by omega) (by omega)
  · rw [f6, if_neg (by omega), f5, if_pos rfl, f4'' _ (by omega) (by omega) (by omega), get_mid, if_pos (by omega)]
    exact node_at ha _ rfl (by omega)
  · rw [f6, if_neg (by omega), f5, if_neg (by omega), if_neg (by omega), f4 j hj, List.getElem?_drop, get_mid]
    by_cases c1 : j < t - 1
    · rw [if_pos c1, if_pos (by omega)]
      congr 1; omega
    · rw [if_neg c1]
      by_cases c2 : j = t - 1
      · rw [if_pos c2, if_neg (by omega), if_pos (by omega)]
      · rw [if_neg c2, if_neg (by omega), if_neg (by omega)]
        congr 1; omega
  · intro x xa xb xp
    rw [f6, if_neg (by omega), f5, if_neg xp, if_neg (by omega), f4'' x (by omega) xb xp]

/-- Making room for an element at the place `i` of the parent (`emplace_value`). -/
theorem room_ok {T : Types K V} (hT : Safe T) {m : Mem K V} {cap q i : Nat} {l : List (K × V)} (hq : Node m.slots cap q l)
    (hi : i ≤ l.length) (hcap : l.length + 1 ≤ cap) :
    ∃ m', (if i < l.length then
        (construct T m (q + l.length) (q + (l.length - 1))).then fun m =>
        (moveBack T m (q + i) (q + i + 1) (l.length - 1 - i)).then fun m => destroy m (q + i)
      else .ok m) = .ok m' ∧
      (∀ j, j < cap → m'.slots (q + j) = if j < i then l[j]? else if j = i then none else l[j - 1]?) ∧
      (∀ x, (x < q ∨ q + cap ≤ x) → m'.slots x = m.slots x) := by
  by_cases hc : i < l.length
  · rw [if_pos hc]
    obtain ⟨m1, g1, e1, f1⟩ := construct_ok' hT (m := m) (dst := q + l.length) (src := q + (l.length - 1))
      (node_dead hq (by omega) (by omega)) (node_live hq (by omega) (by omega))
    obtain ⟨m2, e2, f2, f2', f2''⟩ := moveBack_ok hT (s := q + i) (t := 1) (by omega) (l.length - 1 - i) m1 (fun j j1 j2 => by
      rw [f1, if_neg (by omega)]
      split
      · simp
      · exact node_live hq (by omega) (by omega))
    obtain ⟨m3, e3, f3, _⟩ := destroy_ok (m := m2) (i := q + i) (f2' _ (by omega) (by omega))
    refine ⟨m3, ?_, fun j hj => ?_, fun x hx => ?_⟩
    · rw [e1]; show (moveBack _ _ _ _ _).then _ = _
      rw [e2]; exact e3
    · rw [f3]
      by_cases c1 : j < i
      · rw [if_neg (by omega), if_pos c1, f2'' _ (by omega), f1, if_neg (by omega), if_neg (by omega), hq.2 j hj]
      · rw [if_neg c1]
        by_cases c2 : j = i
        · rw [if_pos (by omega), if_pos c2]
        · rw [if_neg (by omega), if_neg c2]
          by_cases c3 : j < l.length
          · rw [f2 _ (by omega) (by omega), f1, if_neg (by omega), if_neg (by omega)]
            exact node_at hq _ (by omega) (by omega)
          · rw [f2'' _ (by omega), f1]
            by_cases c4 : j = l.length
            · rw [if_pos (by omega)]
              exact node_at hq _ (by omega) (by omega)
            · rw [if_neg (by omega), if_neg (by omega), List.getElem?_eq_none (by omega)]
              exact node_dead hq (by omega) (by omega)
    · rw [f3, if_neg (by omega), f2'' _ (by omega), f1, if_neg (by omega), if_neg (by omega)]
  · rw [if_neg hc]
    refine ⟨m, rfl, fun j hj => ?_, fun x _ => rfl⟩
    rw [hq.2 j hj]
    by_cases c1 : j < i
    · rw [if_pos c1]
    · rw [if_neg c1, List.getElem?_eq_none (by omega)]
      split
      · rfl
      · rw [List.getElem?_eq_none (by omega)]

/-- **Splitting**: the last `e` elements are in the new node, the one before them is in the parent, at the place of the node
that was split, and the others stay where they are. No other place changes. -/
theorem C125_split_partial {T : Types K V} (hT : Safe T) {m : Mem K V} {cap a b q i e : Nat} {l r : List (K × V)}
    (ha : Node m.slots cap a l) (hb : Node m.slots cap b []) (hq : Node m.slots cap q r) (hab : Apart cap a b)
    (haq : Apart cap a q) (hbq : Apart cap b q) (he : e < l.length) (hi : i ≤ r.length) (hcap : r.length + 1 ≤ cap) :
    ∃ m' x, splitNode T m a l.length b e q r.length i = .ok m' ∧ l[l.length - e - 1]? = some x ∧
      Node m'.slots cap a (l.take (l.length - e - 1)) ∧ Node m'.slots cap b (l.drop (l.length - e)) ∧
      Node m'.slots cap q (r.take i ++ x :: r.drop i) ∧
      ∀ x, Outside cap a x → Outside cap b x → Outside cap q x → m'.slots x = m.slots x := by
  unfold Apart Outside at *
  have hlc := ha.1
  obtain ⟨m1, e1, f1, f1', f1''⟩ := uninitMove_ok hT e (a + (l.length - e)) b m (by omega)
    (fun j j1 j2 => node_live ha (by omega) (by omega)) (fun j j1 j2 => node_dead hb (by simpa using j1) (by omega))
  obtain ⟨m2, e2, f2⟩ := destroyN_ok e (a + (l.length - e)) m1 f1'
  have hq2 : Node m2.slots cap q r := ⟨hq.1, fun j hj => by
    rw [f2, if_neg (by omega), f1'' _ (by omega) (by omega), hq.2 j hj]⟩
  obtain ⟨m3, e3, f3, f3'⟩ := room_ok hT hq2 hi hcap
  have hx3 : m3.slots (a + (l.length - e - 1)) = l[l.length - e - 1]? := by
    rw [f3' _ (by omega), f2, if_neg (by omega), f1'' _ (by omega) (by omega)]
    exact node_at ha _ rfl (by omega)
  have hx : l[l.length - e - 1]? = some (l[l.length - e - 1]'(by omega)) := List.getElem?_eq_getElem _
  obtain ⟨m4, g4, e4, f4⟩ := construct_ok' hT (m := m3) (dst := q + i) (src := a + (l.length - e - 1))
    (by rw [f3 i (by omega), if_neg (by omega), if_pos rfl]) (by rw [hx3, hx]; simp)
  obtain ⟨m5, e5, f5, _⟩ := destroy_ok (m := m4) (i := a + (l.length - e - 1)) (by
    rw [f4, if_neg (by omega), if_pos rfl]; simp)
  refine ⟨m5, _, ?_, hx, ⟨by rw [List.length_take]; omega, fun j hj => ?_⟩, ⟨by rw [List.length_drop]; omega, fun j hj => ?_⟩,
    ⟨by simp; omega, fun j hj => ?_⟩, ?_⟩
  · unfold splitNode
    rw [e1]; show (destroyN _ _ _).then _ = _
    rw [e2]; show (if _ then _ else _ : Out _).then _ = _
    rw [e3]; show (construct _ _ _ _).then _ = _
    rw [e4]; exact e5
  · rw [f5]
    by_cases c : j < l.length - e - 1
    · rw [if_neg (by omega), f4, if_neg (by omega), if_neg (by omega), f3' _ (by omega), f2, if_neg (by omega),
        f1'' _ (by omega) (by omega), get_take _ _ _ c, ha.2 j hj]
    · rw [List.getElem?_eq_none (by rw [List.length_take]; omega)]
      by_cases c1 : j = l.length - e - 1
      · rw [if_pos (by omega)]
      · rw [if_neg (by omega), f4, if_neg (by omega), if_neg (by omega), f3' _ (by omega), f2]
        by_cases c2 : j < l.length
        · rw [if_pos (by omega)]
        · rw [if_neg (by omega), f1'' _ (by omega) (by omega)]
          exact node_dead ha (by omega) (by omega)
  · rw [f5, if_neg (by omega), f4, if_neg (by omega), if_neg (by omega), f3' _ (by omega), f2, if_neg (by omega),
      List.getElem?_drop]
    by_cases c : j < e
    · rw [f1 _ (by omega) (by omega)]
      exact node_at ha _ (by omega) (by omega)
    · rw [f1'' _ (by omega) (by omega), List.getElem?_eq_none (by omega), hb.2 j hj]; simp
  · have hl : (r.take i).length = i := by rw [List.length_take]; omega
    rw [f5, if_neg (by omega), f4, get_mid, hl]
    by_cases c1 : j < i
    · rw [if_neg (by omega), if_neg (by omega), if_pos c1, f3 j hj, if_pos c1, get_take _ _ _ c1]
    · rw [if_neg c1]
      by_cases c2 : j = i
      · rw [if_pos (by omega), if_pos c2, hx3, hx]
      · rw [if_neg (by omega), if_neg (by omega), if_neg c2, f3 j hj, if_neg c1, if_neg c2, List.getElem?_drop]
        congr 1; omega
  · intro x xa xb xq
    rw [f5, if_neg (by omega), f4, if_neg (by omega), if_neg (by omega), f3' _ (by omega), f2, if_neg (by omega),
      f1'' _ (by omega) (by omega)]

/-- Non-vacuous: nodes with four places at 0, 4 and 8, with three, one and one elements; keys are copied. The calls move
elements between them. -/
def exT : Types Nat Nat := ⟨false, fun _ => 0, fun _ => 0, fun _ => false⟩

def exMem : Mem Nat Nat :=
  { slots := fun j => match j with
      | 0 => some (1, 10) | 1 => some (2, 20) | 2 => some (3, 30) | 4 => some (5, 50) | 8 => some (4, 40) | _ => none,
    copies := 0 }

theorem exNodes : Safe exT ∧ Node exMem.slots 4 0 [(1, 10), (2, 20), (3, 30)] ∧ Node exMem.slots 4 4 [(5, 50)] ∧
    exMem.slots 8 = some (4, 40) ∧ Apart 4 0 4 ∧ Outside 4 0 8 ∧ Outside 4 4 8 ∧ Node exMem.slots 4 12 [] ∧
    Node exMem.slots 4 8 [(4, 40)] := by
  refine ⟨Or.inr fun _ => rfl, ⟨by decide, fun j hj => ?_⟩, ⟨by decide, fun j hj => ?_⟩, rfl, Or.inl (by decide),
    Or.inr (by decide), Or.inr (by decide), ⟨by decide, fun j hj => ?_⟩, ⟨by decide, fun j hj => ?_⟩⟩ <;>
  · match j, hj with
    | 0, _ => rfl
    | 1, _ => rfl
    | 2, _ => rfl
    | 3, _ => rfl

example : ∃ m', rebalanceLR exT exMem 0 3 4 1 8 2 = .ok m' ∧ m'.slots 0 = some (1, 10) ∧ m'.slots 8 = some (2, 20) ∧
    m'.slots 1 = none ∧ m'.slots 4 = some (3, 30) ∧ m'.slots 5 = some (4, 40) ∧ m'.slots 6 = some (5, 50) := by
  obtain ⟨h0, h1, h2, h3, h4, h5, h6, _⟩ := exNodes
  obtain ⟨m', g1, g2, g3, g4, _⟩ := C125_rebalance_right_partial h0 h1 h2 h3 h4 h5 h6 (t := 2) (by decide) (by decide) (by decide)
  exact ⟨m', g1, g2.2 0 (by decide), g3, g2.2 1 (by decide), g4.2 0 (by decide), g4.2 1 (by decide), g4.2 2 (by decide)⟩

example : ∃ m', rebalanceRL exT exMem 0 3 4 1 8 1 = .ok m' ∧ m'.slots 3 = some (4, 40) ∧ m'.slots 8 = some (5, 50) ∧
    m'.slots 4 = none := by
  obtain ⟨h0, h1, h2, h3, h4, h5, h6, _⟩ := exNodes
  obtain ⟨m', g1, g2, g3, g4, _⟩ := C125_rebalance_left_partial h0 h1 h2 h3 h4 h5 h6 (t := 1) (by decide) (by decide) (by decide)
  exact ⟨m', g1, g2.2 3 (by decide), g3, g4.2 0 (by decide)⟩

example : ∃ m', splitNode exT exMem 0 3 12 1 8 1 0 = .ok m' ∧ m'.slots 0 = some (1, 10) ∧ m'.slots 1 = none ∧
    m'.slots 12 = some (3, 30) ∧ m'.slots 8 = some (2, 20) ∧ m'.slots 9 = some (4, 40) := by
  obtain ⟨h0, h1, h2, h3, h4, h5, h6, h7, h8⟩ := exNodes
  obtain ⟨m', x, g1, gx, g2, g3, g4, _⟩ := C125_split_partial h0 h1 h7 h8 (i := 0) (e := 1) (Or.inl (by decide))
    (Or.inl (by decide)) (Or.inr (by decide)) (by decide) (by decide) (by decide)
  cases gx
  exact ⟨m', g1, g2.2 0 (by decide), g2.2 1 (by decide), g3.2 0 (by decide), g4.2 0 (by decide), g4.2 1 (by decide)⟩

example : ∃ m', mergeNodes exT (exMem.set 2 none) 0 2 4 1 8 = .ok m' ∧ m'.slots 2 = some (4, 40) ∧ m'.slots 3 = some (5, 50) ∧
    m'.slots 4 = none := by
  obtain ⟨h0, h1, h2, h3, h4, h5, h6, _⟩ := exNodes
  have h1' : Node (exMem.set 2 none).slots 4 0 [(1, 10), (2, 20)] := ⟨by decide, fun j hj => by
    match j, hj with
    | 0, _ => rfl
    | 1, _ => rfl
    | 2, _ => rfl
    | 3, _ => rfl⟩
  have h2' : Node (exMem.set 2 none).slots 4 4 [(5, 50)] := ⟨by decide, fun j hj => by
    match j, hj with
    | 0, _ => rfl
    | 1, _ => rfl
    | 2, _ => rfl
    | 3, _ => rfl⟩
  obtain ⟨m', g1, g2, g3, _⟩ := C125_merge_partial h0 h1' h2' (p := 8) (d := (4, 40)) rfl h4 h5 h6 (by decide)
  exact ⟨m', g1, g2.2 2 (by decide), g2.2 3 (by decide), g3.2 0 (by decide)⟩

end Gtl.Props.MapNodes
