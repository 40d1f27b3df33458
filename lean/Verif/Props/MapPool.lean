import Verif.Props.MapNodesSwap
import Verif.Btree.MapPool
/-!
# Property theorems C125: sequences of calls that move map elements
-/

namespace Gtl.Props.MapNodes

open Gtl.Btree.MapSlots
open Gtl.Spec.MapNodes
open Gtl.Spec.MapPool
open Gtl.Props.MapSlots

variable {K V : Type}

/-- Every node holds its list, and there are no other objects: the places of all nodes are all places. -/
def Pool (cap : Nat) (m : Mem K V) (f : Nat → List (K × V)) : Prop := ∀ n, Node m.slots cap (n * cap) (f n)

/-! ## Glue -/

theorem apart_mul {cap a b : Nat} (h : a ≠ b) : Apart cap (a * cap) (b * cap) := by
  rcases Nat.lt_or_gt_of_ne h with c | c
  · left
    have := Nat.mul_le_mul_right cap (show a + 1 ≤ b from c)
    rw [Nat.add_mul, Nat.one_mul] at this
    exact this
  · right
    have := Nat.mul_le_mul_right cap (show b + 1 ≤ a from c)
    rw [Nat.add_mul, Nat.one_mul] at this
    exact this

theorem outside_mul {cap a q i : Nat} (h : q ≠ a) (hi : i < cap) : Outside cap (a * cap) (q * cap + i) := by
  unfold Outside
  rcases apart_mul (cap := cap) h with c | c
  · left; omega
  · right; omega

theorem node_same {s s' : Nat → Option (K × V)} {cap a : Nat} {l : List (K × V)} (h : Node s cap a l)
    (hs : ∀ j, j < cap → s' (a + j) = s (a + j)) : Node s' cap a l :=
  ⟨h.1, fun j hj => by rw [hs j hj, h.2 j hj]⟩

theorem node_set {s s' : Nat → Option (K × V)} {cap a i : Nat} {l : List (K × V)} {y : K × V} (h : Node s cap a l)
    (hi : i < l.length) (hy : s' (a + i) = some y) (hs : ∀ j, j < cap → j ≠ i → s' (a + j) = s (a + j)) :
    Node s' cap a (l.set i y) := by
  refine ⟨by simpa using h.1, fun j hj => ?_⟩
  by_cases c : j = i
  · subst c
    rw [hy]; simp [hi]
  · rw [hs j hj c, h.2 j hj, List.getElem?_set, if_neg (fun e => c e.symm)]

theorem emplaceAt_ok {T : Types K V} (hT : Safe T) {m : Mem K V} {cap q i : Nat} {l : List (K × V)} (hq : Node m.slots cap q l)
    (hi : i ≤ l.length) (hcap : l.length < cap) (x : K × V) :
    ∃ m', emplaceAt T m q l.length i x = .ok m' ∧ Node m'.slots cap q (l.take i ++ x :: l.drop i) ∧
      ∀ y, Outside cap q y → m'.slots y = m.slots y := by
  obtain ⟨m1, e1, f1, f1'⟩ := room_ok hT hq hi (by omega)
  have e2 : init m1 (q + i) x = .ok (m1.set (q + i) (some x)) := by
    unfold init
    rw [f1 i (by omega), if_neg (by omega), if_pos rfl]
  refine ⟨_, by unfold emplaceAt; rw [e1]; exact e2, ⟨by simp; omega, fun j hj => ?_⟩, fun y hy => ?_⟩
  · have hl : (l.take i).length = i := by rw [List.length_take]; omega
    rw [get_mid, hl]
    show (if q + j = q + i then some x else m1.slots (q + j)) = _
    by_cases c1 : j < i
    · rw [if_neg (by omega), if_pos c1, f1 j hj, if_pos c1, get_take _ _ _ c1]
    · rw [if_neg c1]
      by_cases c2 : j = i
      · rw [if_pos (by omega), if_pos c2]
      · rw [if_neg (by omega), if_neg c2, f1 j hj, if_neg c1, if_neg c2, List.getElem?_drop]
        congr 1; omega
  · unfold Outside at hy
    show (if y = q + i then some x else m1.slots y) = _
    rw [if_neg (by omega), f1' y hy]

/-- Removal, when the places of the removed elements hold any objects. -/
theorem removeAt_ok {T : Types K V} (hT : Safe T) {m : Mem K V} {cap q i n : Nat} {l : List (K × V)} (hcap : l.length ≤ cap)
    (hq : ∀ j, j < cap → ¬ (i ≤ j ∧ j < i + n) → m.slots (q + j) = l[j]?)
    (hl : ∀ j, i ≤ j → j < i + n → m.slots (q + j) ≠ none) (hn : 1 ≤ n) (hi : i + n ≤ l.length) :
    ∃ m', removeAt T m q l.length i n = .ok m' ∧ Node m'.slots cap q (l.take i ++ l.drop (i + n)) ∧
      ∀ y, Outside cap q y → m'.slots y = m.slots y := by
  have live : ∀ x, q ≤ x → x < q + l.length → m.slots x ≠ none := by
    intro x h1 h2
    obtain ⟨j, rfl⟩ : ∃ j, x = q + j := ⟨x - q, by omega⟩
    by_cases c : i ≤ j ∧ j < i + n
    · exact hl j c.1 c.2
    · rw [hq j (by omega) c, List.getElem?_eq_getElem (by omega)]; simp
  obtain ⟨m1, h1, h2, h3, h4, h5⟩ := moveRange_ok hT hn (l.length - (i + n)) (q + i) m (fun j j1 j2 => live j (by omega) (by omega))
  obtain ⟨m2, h6, h7⟩ := destroyN_ok n (q + (l.length - n)) m1 (fun j j1 j2 => h4 j (by omega) (by omega))
  have ht : (l.take i).length = i := by rw [List.length_take]; omega
  refine ⟨m2, ?_, ⟨by simp; omega, fun j hj => ?_⟩, fun y hy => ?_⟩
  · unfold removeAt
    rw [show q + (i + n) = q + i + n from by omega, h1]
    exact h6
  · rw [h7]
    by_cases c1 : j < i
    · rw [if_neg (by omega), h2 _ (by omega), hq j hj (by omega), List.getElem?_append_left (by omega), get_take _ _ _ c1]
    · rw [List.getElem?_append_right (by omega), ht, List.getElem?_drop]
      by_cases c2 : j < l.length - n
      · rw [if_neg (by omega), h3 _ (by omega) (by omega), show q + j + n = q + (j + n) from by omega,
          hq (j + n) (by omega) (by omega)]
        congr 1; omega
      · rw [List.getElem?_eq_none (by omega)]
        by_cases c3 : j < l.length
        · rw [if_pos (by omega)]
        · rw [if_neg (by omega), h5 _ (by omega), hq j hj (by omega), List.getElem?_eq_none (by omega)]
  · unfold Outside at hy
    rw [h7, if_neg (by omega)]
    rcases hy with hy | hy
    · rw [h2 y (by omega)]
    · rw [h5 y (by omega)]

theorem pool_put {cap : Nat} {m m' : Mem K V} {f : Nat → List (K × V)} (h : Pool cap m f) {n : Nat} {l : List (K × V)}
    (hn : Node m'.slots cap (n * cap) l) (hr : ∀ y, Outside cap (n * cap) y → m'.slots y = m.slots y) : Pool cap m' (put f n l) := by
  intro k
  unfold put
  by_cases c : k = n
  · subst c; rw [if_pos rfl]; exact hn
  · rw [if_neg c]
    exact node_same (h k) (fun j hj => hr _ (outside_mul c hj))

theorem pool_put3 {cap : Nat} {m m' : Mem K V} {f : Nat → List (K × V)} (h : Pool cap m f) {a b q : Nat}
    {la lb lq : List (K × V)} (hab : a ≠ b) (hqa : q ≠ a) (hqb : q ≠ b) (ha : Node m'.slots cap (a * cap) la)
    (hb : Node m'.slots cap (b * cap) lb) (hq : Node m'.slots cap (q * cap) lq)
    (hr : ∀ y, Outside cap (a * cap) y → Outside cap (b * cap) y → Outside cap (q * cap) y → m'.slots y = m.slots y) :
    Pool cap m' (put (put (put f a la) b lb) q lq) := by
  intro k
  unfold put
  by_cases c : k = q
  · subst c; rw [if_pos rfl]; exact hq
  · rw [if_neg c]
    by_cases c1 : k = b
    · subst c1; rw [if_pos rfl]; exact hb
    · rw [if_neg c1]
      by_cases c2 : k = a
      · subst c2; rw [if_pos rfl]; exact ha
      · rw [if_neg c2]
        exact node_same (h k) (fun j hj => hr _ (outside_mul c2 hj) (outside_mul c1 hj) (outside_mul c hj))

theorem at_lt {E : Type} {l : List E} {i : Nat} {d : E} (h : l[i]? = some d) : i < l.length := by
  by_cases c : i < l.length
  · exact c
  · rw [List.getElem?_eq_none (by omega)] at h; cases h

/-- The parent of two siblings when only its element `i` has changed. -/
theorem parent_set {cap : Nat} {m m' : Mem K V} {f : Nat → List (K × V)} (h : Pool cap m f) {a b q i : Nat} {y : K × V}
    (hqa : q ≠ a) (hqb : q ≠ b) (hi : i < (f q).length) (hy : m'.slots (q * cap + i) = some y)
    (hr : ∀ x, Outside cap (a * cap) x → Outside cap (b * cap) x → x ≠ q * cap + i → m'.slots x = m.slots x) :
    Node m'.slots cap (q * cap) ((f q).set i y) :=
  node_set (h q) hi hy (fun j hj hne => hr _ (outside_mul hqa hj) (outside_mul hqb hj) (by omega))

/-! ## C125 -/

/-- **Every call**: it does what it should to the lists, with every object constructed and destroyed once. -/
theorem C125_step_partial {T : Types K V} (hT : Safe T) {cap : Nat} {m : Mem K V} {f g : Nat → List (K × V)} {o : Act (K × V)}
    (h : Pool cap m f) (hd : Does cap f o g) :
    ∃ m', act T cap m (fun n => (f n).length) o = .ok m' ∧ Pool cap m' g ∧
      counts (fun n => (f n).length) o = fun n => (g n).length := by
  cases hd with
  | @insert n i x h1 h2 =>
    obtain ⟨m', e1, e2, e3⟩ := emplaceAt_ok hT (h n) h1 h2 x
    refine ⟨m', e1, pool_put h e2 e3, funext fun k => ?_⟩
    simp only [counts, counts.upd, put]
    split
    · simp; omega
    · rfl
  | @erase n i k h1 h2 =>
    obtain ⟨m', e1, e2, e3⟩ := removeAt_ok hT (q := n * cap) (i := i) (n := k) (h n).1 (fun j hj _ => (h n).2 j hj)
      (fun j j1 j2 => node_live (h n) (by omega) (by omega)) h1 h2
    refine ⟨m', e1, pool_put h e2 e3, funext fun k => ?_⟩
    simp only [counts, counts.upd, put]
    split
    · simp; omega
    · rfl
  | @toLeft a b q i t d y hab hqa hqb hd ht htb hcap hy =>
    have hi := at_lt hd
    have hic : i < cap := Nat.lt_of_lt_of_le hi (h q).1
    obtain ⟨m', e1, e2, e3, e4, e5⟩ := C125_rebalance_left_partial hT (h a) (h b) (p := q * cap + i) (d := d)
      (by rw [(h q).2 i hic, hd]) (apart_mul hab) (outside_mul hqa hic) (outside_mul hqb hic) ht htb hcap
    rw [hy] at e3
    refine ⟨m', e1, pool_put3 h hab hqa hqb e2 e4 (parent_set h hqa hqb hi e3 e5) (fun x xa xb xq => e5 x xa xb ?_),
      funext fun k => ?_⟩
    · intro e; rw [e] at xq; unfold Outside at xq; omega
    · simp only [counts, counts.upd, put]
      by_cases c : k = q
      · subst c; rw [if_pos rfl, if_neg hqb, if_neg hqa]; simp
      · rw [if_neg c]
        split
        · simp; omega
        · split
          · simp; omega
          · rfl
  | @toRight a b q i t d y hab hqa hqb hd ht hta hcap hy =>
    have hi := at_lt hd
    have hic : i < cap := Nat.lt_of_lt_of_le hi (h q).1
    obtain ⟨m', e1, e2, e3, e4, e5⟩ := C125_rebalance_right_partial hT (h a) (h b) (p := q * cap + i) (d := d)
      (by rw [(h q).2 i hic, hd]) (apart_mul hab) (outside_mul hqa hic) (outside_mul hqb hic) ht hta hcap
    rw [hy] at e3
    refine ⟨m', e1, pool_put3 h hab hqa hqb e2 e4 (parent_set h hqa hqb hi e3 e5) (fun x xa xb xq => e5 x xa xb ?_),
      funext fun k => ?_⟩
    · intro e; rw [e] at xq; unfold Outside at xq; omega
    · simp only [counts, counts.upd, put]
      by_cases c : k = q
      · subst c; rw [if_pos rfl, if_neg hqb, if_neg hqa]; simp
      · rw [if_neg c]
        split
        · simp; omega
        · split
          · simp; omega
          · rfl
  | @merge a b q i d hab hqa hqb hd hcap =>
    have hi := at_lt hd
    have hic : i < cap := Nat.lt_of_lt_of_le hi (h q).1
    obtain ⟨m1, e1, e2, e3, e4, e5⟩ := C125_merge_partial hT (h a) (h b) (p := q * cap + i) (d := d)
      (by rw [(h q).2 i hic, hd]) (apart_mul hab) (outside_mul hqa hic) (outside_mul hqb hic) hcap
    obtain ⟨m', g1, g2, g3⟩ := removeAt_ok hT (m := m1) (q := q * cap) (i := i) (n := 1) (h q).1
      (fun j hj hne => by rw [e5 _ (outside_mul hqa hj) (outside_mul hqb hj) (by omega), (h q).2 j hj])
      (fun j j1 j2 => by rw [show j = i from by omega]; exact e4) (Nat.le_refl _) hi
    refine ⟨m', by simp only [act]; rw [e1]; exact g1, pool_put3 h hab hqa hqb
      (node_same e2 fun j hj => g3 _ (outside_mul hqa.symm hj)) (node_same e3 fun j hj => g3 _ (outside_mul hqb.symm hj)) g2
      (fun x xa xb xq => by rw [g3 x xq, e5 x xa xb (by intro e; rw [e] at xq; unfold Outside at xq; omega)]), funext fun k => ?_⟩
    simp only [counts, counts.upd, put]
    split
    · simp; omega
    · split
      · simp
      · split
        · simp; omega
        · rfl
  | @split a b q i e x hab hqa hqb hb he hi hcap hx =>
    obtain ⟨m', x', e1, ex, e2, e3, e4, e5⟩ := C125_split_partial hT (h a) (by have := h b; rw [hb] at this; exact this) (h q)
      (apart_mul hab) (apart_mul hqa.symm) (apart_mul hqb.symm) he hi (by omega)
    rw [hx] at ex
    cases ex
    refine ⟨m', e1, pool_put3 h hab hqa hqb e2 e3 e4 e5, funext fun k => ?_⟩
    simp only [counts, counts.upd, put]
    by_cases c : k = q
    · rw [if_pos c, if_pos c]; simp; omega
    · rw [if_neg c, if_neg c]
      by_cases c1 : k = a
      · subst c1; rw [if_pos rfl, if_neg hab, if_pos rfl]; simp; omega
      · rw [if_neg c1]
        split
        · simp; omega
        · rfl
  | @swap a b hab =>
    obtain ⟨m', e1, e2, e3, e4⟩ := C125_swap_nodes_partial hT (h a) (h b) (apart_mul hab) (h a).1 (h b).1
    refine ⟨m', e1, fun k => ?_, funext fun k => ?_⟩
    · unfold put
      by_cases c : k = b
      · subst c; rw [if_pos rfl]; exact e3
      · rw [if_neg c]
        by_cases c1 : k = a
        · subst c1; rw [if_pos rfl]; exact e2
        · rw [if_neg c1]
          exact node_same (h k) (fun j hj => e4 _ (outside_mul c1 hj) (outside_mul c hj))
    · simp only [counts, counts.upd, put]
      split
      · rfl
      · split <;> rfl

/-- **Every sequence of calls**: nothing is undefined, no element is lost and none is there twice, keys stay with their
values, the counts are right, and every place that is not counted is empty. -/
theorem C125_history_partial {T : Types K V} (hT : Safe T) {cap : Nat} {f g : Nat → List (K × V)} {os : List (Act (K × V))}
    (hd : DoesAll cap f os g) : ∀ {m : Mem K V}, Pool cap m f →
    ∃ m', acts T cap m (fun n => (f n).length) os = .ok (m', fun n => (g n).length) ∧ Pool cap m' g := by
  induction hd with
  | nil => exact fun h => ⟨_, rfl, h⟩
  | cons h1 _ ih =>
    intro m h
    obtain ⟨m1, e1, e2, e3⟩ := C125_step_partial hT h h1
    obtain ⟨m2, g1, g2⟩ := ih e2
    refine ⟨m2, ?_, g2⟩
    unfold acts
    rw [e1, e3]
    exact g1

/-- From empty nodes: four insertions, a split and an element moved between the halves, with keys that are copied. -/
example : ∃ m', acts exT 4 ⟨fun _ => none, 0⟩ (fun _ => 0)
      [.insert 0 0 (2, 20), .insert 0 0 (1, 10), .insert 0 2 (3, 30), .insert 0 3 (4, 40), .split 0 1 2 0 2] =
      .ok (m', fun n => if n = 2 then 1 else if n = 0 then 1 else if n = 1 then 2 else 0) ∧
    m'.slots 0 = some (1, 10) ∧ m'.slots 8 = some (2, 20) ∧ m'.slots 4 = some (3, 30) ∧ m'.slots 5 = some (4, 40) := by
  have hp : Pool 4 (⟨fun _ => none, 0⟩ : Mem Nat Nat) (fun _ => []) := fun n => ⟨by simp, fun j _ => by simp⟩
  obtain ⟨m', h1, h2⟩ := C125_history_partial (T := exT) (Or.inr fun _ => rfl)
    (.cons (.insert (n := 0) (i := 0) (x := (2, 20)) (by decide) (by decide))
    (.cons (.insert (n := 0) (i := 0) (x := (1, 10)) (by decide) (by decide))
    (.cons (.insert (n := 0) (i := 2) (x := (3, 30)) (by decide) (by decide))
    (.cons (.insert (n := 0) (i := 3) (x := (4, 40)) (by decide) (by decide))
    (.cons (.split (a := 0) (b := 1) (q := 2) (i := 0) (e := 2) (x := (2, 20)) (by decide) (by decide) (by decide) rfl
      (by decide) (by decide) (by decide) rfl) .nil))))) hp
  refine ⟨m', ?_, (h2 0).2 0 (by decide), (h2 2).2 0 (by decide), (h2 1).2 0 (by decide), (h2 1).2 1 (by decide)⟩
  refine h1.trans ?_
  congr 2
  funext n
  simp only [put]
  split
  · rfl
  · rename_i c
    by_cases c1 : n = 1
    · subst c1; rfl
    · rw [if_neg c1]
      by_cases c0 : n = 0
      · subst c0; rfl
      · simp [c0, c1]

end Gtl.Props.MapNodes
