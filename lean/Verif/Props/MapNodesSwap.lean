import Verif.Props.MapNodes
/-!
# Property theorems C125: swapping the elements of two nodes
-/

namespace Gtl.Props.MapNodes

open Gtl.Btree.MapSlots
open Gtl.Spec.MapNodes
open Gtl.Props.MapSlots

variable {K V : Type}

/-! ## Glue -/

theorem swapValues_ok {T : Types K V} (hT : Safe T) : ∀ (n a b : Nat) (m : Mem K V), (a + n ≤ b ∨ b + n ≤ a) →
    (∀ j, a ≤ j → j < a + n → m.slots j ≠ none) → (∀ j, b ≤ j → j < b + n → m.slots j ≠ none) →
    ∃ m', swapValues T m a b n = .ok m' ∧ (∀ j, a ≤ j → j < a + n → m'.slots j = m.slots (j - a + b)) ∧
      (∀ j, b ≤ j → j < b + n → m'.slots j = m.slots (j - b + a)) ∧
      (∀ j, ¬ (a ≤ j ∧ j < a + n) → ¬ (b ≤ j ∧ j < b + n) → m'.slots j = m.slots j)
  | 0, a, b, m, _, _, _ => ⟨m, rfl, fun j _ _ => by omega, fun j _ _ => by omega, fun j _ _ => rfl⟩
  | n + 1, a, b, m, hap, ha, hb => by
    obtain ⟨x, hx⟩ := ne_none (ha a (by omega) (by omega))
    obtain ⟨y, hy⟩ := ne_none (hb b (by omega) (by omega))
    obtain ⟨m1, h1, h2, h3, h4⟩ := C125_swap_partial hT (a := a) (b := b) (by omega) hx hy
    obtain ⟨m2, g1, g2, g3, g4⟩ := swapValues_ok hT n (a + 1) (b + 1) m1 (by omega)
      (fun j j1 j2 => by rw [h4 j (by omega) (by omega)]; exact ha j (by omega) (by omega))
      (fun j j1 j2 => by rw [h4 j (by omega) (by omega)]; exact hb j (by omega) (by omega))
    refine ⟨m2, by unfold swapValues; rw [h1]; exact g1, fun j j1 j2 => ?_, fun j j1 j2 => ?_, fun j j1 j2 => ?_⟩
    · by_cases c : j = a
      · subst c
        rw [g4 j (by omega) (by omega), h2, Nat.sub_self, Nat.zero_add, hy]
      · rw [g2 j (by omega) (by omega), h4 _ (by omega) (by omega)]
        congr 1; omega
    · by_cases c : j = b
      · subst c
        rw [g4 j (by omega) (by omega), h3, Nat.sub_self, Nat.zero_add, hx]
      · rw [g3 j (by omega) (by omega), h4 _ (by omega) (by omega)]
        congr 1; omega
    · rw [g4 j (by omega) (by omega), h4 j (by omega) (by omega)]

theorem swapSorted_ok {T : Types K V} (hT : Safe T) {m : Mem K V} {capA capB a b : Nat} {l r : List (K × V)}
    (ha : Node m.slots capA a l) (hb : Node m.slots capB b r) (hab : a + capA ≤ b ∨ b + capB ≤ a)
    (hle : l.length ≤ r.length) (hfit : r.length ≤ capA) :
    ∃ m', swapSorted T m a l.length b r.length = .ok m' ∧ Node m'.slots capA a r ∧ Node m'.slots capB b l ∧
      ∀ x, Outside capA a x → Outside capB b x → m'.slots x = m.slots x := by
  have hrb := hb.1
  unfold Outside
  obtain ⟨m1, e1, f1, f1', f1''⟩ := swapValues_ok hT l.length a b m (by omega)
    (fun j j1 j2 => node_live ha j1 j2) (fun j j1 j2 => node_live hb j1 (by omega))
  obtain ⟨m2, e2, f2, f2', f2''⟩ := uninitMove_ok hT (r.length - l.length) (b + l.length) (a + l.length) m1 (by omega)
    (fun j j1 j2 => by rw [f1'' j (by omega) (by omega)]; exact node_live hb (by omega) (by omega))
    (fun j j1 j2 => by rw [f1'' j (by omega) (by omega)]; exact node_dead ha (by omega) (by omega))
  obtain ⟨m3, e3, f3⟩ := destroyN_ok (r.length - l.length) (b + l.length) m2 f2'
  refine ⟨m3, ?_, ⟨hfit, fun j hj => ?_⟩, ⟨by omega, fun j hj => ?_⟩, fun x xa xb => ?_⟩
  · unfold swapSorted
    rw [e1]; show (uninitMove _ _ _ _ _).then _ = _
    rw [e2]; exact e3
  · rw [f3, if_neg (by omega)]
    by_cases c : j < l.length
    · rw [f2'' _ (by omega) (by omega), f1 _ (by omega) (by omega)]
      exact node_at hb _ (by omega) (by omega)
    · by_cases c1 : j < r.length
      · rw [f2 _ (by omega) (by omega), f1'' _ (by omega) (by omega)]
        exact node_at hb _ (by omega) (by omega)
      · rw [f2'' _ (by omega) (by omega), f1'' _ (by omega) (by omega), List.getElem?_eq_none (by omega)]
        exact node_dead ha (by omega) (by omega)
  · rw [f3]
    by_cases c : j < l.length
    · rw [if_neg (by omega), f2'' _ (by omega) (by omega), f1' _ (by omega) (by omega)]
      exact node_at ha _ (by omega) (by omega)
    · rw [List.getElem?_eq_none (by omega)]
      by_cases c1 : j < r.length
      · rw [if_pos (by omega)]
      · rw [if_neg (by omega), f2'' _ (by omega) (by omega), f1'' _ (by omega) (by omega)]
        exact node_dead hb (by omega) (by omega)
  · rw [f3, if_neg (by omega), f2'' _ (by omega) (by omega), f1'' _ (by omega) (by omega)]

/-! ## C125 -/

/-- **Swapping two nodes**, which need not have the same capacity (a small root is replaced by a larger one): each has the
elements of the other. No other place changes. -/
theorem C125_swap_nodes_partial {T : Types K V} (hT : Safe T) {m : Mem K V} {capA capB a b : Nat} {l r : List (K × V)}
    (ha : Node m.slots capA a l) (hb : Node m.slots capB b r) (hab : a + capA ≤ b ∨ b + capB ≤ a)
    (hl : l.length ≤ capB) (hr : r.length ≤ capA) :
    ∃ m', swapNodes T m a l.length b r.length = .ok m' ∧ Node m'.slots capA a r ∧ Node m'.slots capB b l ∧
      ∀ x, Outside capA a x → Outside capB b x → m'.slots x = m.slots x := by
  unfold swapNodes
  by_cases c : l.length > r.length
  · rw [if_pos c]
    obtain ⟨m', h1, h2, h3, h4⟩ := swapSorted_ok hT hb ha (by omega) (by omega) hl
    exact ⟨m', h1, h3, h2, fun x xa xb => h4 x xb xa⟩
  · rw [if_neg c]
    exact swapSorted_ok hT ha hb hab (by omega) hr

/-- A node with three elements and one with one. -/
example : ∃ m', swapNodes exT exMem 0 3 4 1 = .ok m' ∧ m'.slots 0 = some (5, 50) ∧ m'.slots 1 = none ∧
    m'.slots 4 = some (1, 10) ∧ m'.slots 5 = some (2, 20) ∧ m'.slots 6 = some (3, 30) := by
  obtain ⟨h0, h1, h2, _⟩ := exNodes
  obtain ⟨m', g1, g2, g3, _⟩ := C125_swap_nodes_partial h0 h1 h2 (Or.inl (by decide)) (by decide) (by decide)
  exact ⟨m', g1, g2.2 0 (by decide), g2.2 1 (by decide), g3.2 0 (by decide), g3.2 1 (by decide), g3.2 2 (by decide)⟩

end Gtl.Props.MapNodes
