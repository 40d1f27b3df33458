import Verif.Props.MapNodes
/-!
# Property theorems C125: what an exception leaves in the nodes of a tree
-/

namespace Gtl.Props.MapNodes

open Gtl.Btree.MapSlots
open Gtl.Spec.MapNodes
open Gtl.Props.MapSlots

variable {K V : Type}

/-! ## Glue -/

/-- `P` holds whether there was an exception or not. -/
def Ends (P : Mem K V → Prop) : Out (Mem K V) → Prop
  | .ok m => P m
  | .threw m => P m
  | .ub => True

theorem ends_then {P : Mem K V → Prop} {o : Out (Mem K V)} {f : Mem K V → Out (Mem K V)} (h : Ends P o)
    (hf : ∀ m, P m → Ends P (f m)) : Ends P (o.then f) := by
  cases o with
  | ok m => exact hf m h
  | threw m => exact h
  | ub => trivial

theorem construct_ends {T : Types K V} {m : Mem K V} {dst src x : Nat} (h : m.slots x ≠ none) :
    Ends (fun m => m.slots x ≠ none) (construct T m dst src) := by
  unfold construct
  split
  · split
    · simp only [Ends, Mem.set]
      split
      · simp
      · split
        · simp
        · exact h
    · split
      · exact h
      · simp only [Ends, Mem.set]
        split
        · simp
        · split
          · simp
          · exact h
  · trivial

theorem uninitMove_ends {T : Types K V} {x : Nat} : ∀ (n s d : Nat) (m : Mem K V), m.slots x ≠ none →
    Ends (fun m => m.slots x ≠ none) (uninitMove T m s d n)
  | 0, _, _, _, h => h
  | n + 1, s, d, _, h => ends_then (construct_ends h) (fun m hm => uninitMove_ends n (s + 1) (d + 1) m hm)

theorem move_ends {T : Types K V} {m : Mem K V} {dst src x : Nat} (hx : x ≠ dst) (h : m.slots x ≠ none) :
    Ends (fun m => m.slots x ≠ none) (move T m src dst) := by
  unfold move
  split
  · split
    · simp only [Ends, Mem.set]
      split
      · simp
      · exact h
    · trivial
  · refine ends_then ?_ (fun m hm => construct_ends hm)
    unfold destroy
    split
    · simp only [Ends, Mem.set]
      rw [if_neg hx]; exact h
    · trivial

theorem moveRange_ends {T : Types K V} {x : Nat} : ∀ (n s d : Nat) (m : Mem K V), ¬ (d ≤ x ∧ x < d + n) →
    m.slots x ≠ none → Ends (fun m => m.slots x ≠ none) (moveRange T m s d n)
  | 0, _, _, _, _, h => h
  | n + 1, s, d, _, hx, h => ends_then (move_ends (by omega) h) (fun m hm => moveRange_ends n (s + 1) (d + 1) m (by omega) hm)

theorem moveBack_ends {T : Types K V} {x : Nat} {s d : Nat} : ∀ (n : Nat) (m : Mem K V), ¬ (d ≤ x ∧ x < d + n) →
    m.slots x ≠ none → Ends (fun m => m.slots x ≠ none) (moveBack T m s d n)
  | 0, _, _, h => h
  | n + 1, _, hx, h => ends_then (move_ends (by omega) h) (fun m hm => moveBack_ends n m (by omega) hm)

theorem destroyN_ends {x : Nat} : ∀ (n i : Nat) (m : Mem K V), ¬ (i ≤ x ∧ x < i + n) →
    m.slots x ≠ none → Ends (fun m => m.slots x ≠ none) (destroyN m i n)
  | 0, _, _, _, h => h
  | n + 1, i, m, hx, h => by
    unfold destroyN
    refine ends_then ?_ (fun m hm => destroyN_ends n (i + 1) m (by omega) hm)
    unfold destroy
    split
    · simp only [Ends, Mem.set]
      rw [if_neg (by omega)]; exact h
    · trivial

/-- A call that starts with a construction: if it throws, the construction did and nothing has changed, or the constructed
object is still there. -/
theorem first_throws {T : Types K V} {m m' : Mem K V} {dst src : Nat} {f : Mem K V → Out (Mem K V)}
    (hf : ∀ m, m.slots dst ≠ none → Ends (fun m => m.slots dst ≠ none) (f m))
    (h : (construct T m dst src).then f = .threw m') :
    (T.fails m.copies = true ∧ m'.slots = m.slots) ∨ m'.slots dst ≠ none := by
  cases hc : construct T m dst src with
  | ok m1 =>
    right
    rw [hc] at h
    have h1 : m1.slots dst ≠ none := by
      unfold construct at hc
      split at hc
      · split at hc
        · cases hc; simp [Mem.set]
        · split at hc
          · cases hc
          · cases hc; simp [Mem.set]
      · cases hc
    have := hf m1 h1
    rw [show f m1 = .threw m' from h] at this
    exact this
  | threw m1 =>
    left
    rw [hc] at h
    cases h
    obtain ⟨g1, _, g3⟩ := construct_threw hc
    exact ⟨g3, g1⟩
  | ub => rw [hc] at h; cases h

theorem then_assoc (o : Out (Mem K V)) (f g : Mem K V → Out (Mem K V)) : (o.then f).then g = o.then fun m => (f m).then g := by
  cases o <;> rfl

/-! ## C125 -/

/-- **Refutation, for all nodes**: if copying a key throws while elements go from the right node to the left one, and it was
not the first copy, there is an object behind the elements of the left node. It does not count, and nobody will destroy
it. -/
theorem C125_rebalance_left_throws {T : Types K V} {m m' : Mem K V} {cap a c b e p t : Nat} (hab : Apart cap a b)
    (hpa : Outside cap a p) (hc : c < cap) (he : e ≤ cap) (ht : t ≤ e)
    (h : rebalanceRL T m a c b e p t = .threw m') :
    (T.fails m.copies = true ∧ m'.slots = m.slots) ∨ m'.slots (a + c) ≠ none := by
  unfold Apart Outside at *
  exact first_throws (fun m hm => ends_then (uninitMove_ends _ _ _ m hm) fun m hm =>
    ends_then (move_ends (by omega) hm) fun m hm => ends_then (moveRange_ends _ _ _ m (by omega) hm) fun m hm =>
    destroyN_ends _ _ m (by omega) hm) h

/-- The same for merging. The elements of both nodes and the one between them still have objects, so that destroying them is
not undefined. -/
theorem C125_merge_throws {T : Types K V} {m m' : Mem K V} {cap a b p : Nat} {l r : List (K × V)}
    (ha : Node m.slots cap a l) (hb : Node m.slots cap b r) (hab : Apart cap a b)
    (hc : l.length < cap) (h : mergeNodes T m a l.length b r.length p = .threw m') :
    ((T.fails m.copies = true ∧ m'.slots = m.slots) ∨ m'.slots (a + l.length) ≠ none) ∧
    (∀ j, j < l.length → m'.slots (a + j) ≠ none) ∧ (∀ j, j < r.length → m'.slots (b + j) ≠ none) ∧
    (m.slots p ≠ none → m'.slots p ≠ none) := by
  have hr := hb.1
  unfold Apart at *
  have keep : ∀ x, m.slots x ≠ none → m'.slots x ≠ none := by
    intro x hx
    unfold mergeNodes at h
    rw [← then_assoc] at h
    have h1 : Ends (fun m => m.slots x ≠ none) ((construct T m (a + l.length) p).then
        fun m => uninitMove T m b (a + (l.length + 1)) r.length) :=
      ends_then (construct_ends hx) fun m hm => uninitMove_ends _ _ _ m hm
    cases hq : (construct T m (a + l.length) p).then fun m => uninitMove T m b (a + (l.length + 1)) r.length with
    | ok m1 => rw [hq] at h; exact (destroyN_not_threw _ _ _ _ h).elim
    | threw m1 => rw [hq] at h; cases h; rw [hq] at h1; exact h1
    | ub => rw [hq] at h; cases h
  refine ⟨?_, fun j hj => keep _ (node_live ha (by omega) (by omega)), fun j hj => keep _ (node_live hb (by omega) (by omega)),
    keep p⟩
  exact first_throws (fun m hm => ends_then (uninitMove_ends _ _ _ m hm) fun m hm => destroyN_ends _ _ m (by omega) hm) h

/-- The same when elements go from the left node to the right one: there is an object behind the elements of the right
node. -/
theorem C125_rebalance_right_throws {T : Types K V} {m m' : Mem K V} {cap a c b e p t : Nat} (hab : Apart cap a b)
    (hpb : Outside cap b p) (hc : c ≤ cap) (ht : 1 ≤ t) (htc : t ≤ c) (hcap : e + t ≤ cap)
    (h : rebalanceLR T m a c b e p t = .threw m') :
    (T.fails m.copies = true ∧ m'.slots = m.slots) ∨ ∃ j, e ≤ j ∧ j < cap ∧ m'.slots (b + j) ≠ none := by
  unfold Apart Outside at *
  unfold rebalanceLR at h
  have tail : ∀ j, e ≤ j → j < cap → ∀ m : Mem K V, m.slots (b + j) ≠ none → Ends (fun m => m.slots (b + j) ≠ none)
      ((move T m (a + (c - t)) p).then fun m => destroyN m (a + (c - t)) t) := fun j j1 j2 m hm =>
    ends_then (move_ends (by omega) hm) fun m hm => destroyN_ends _ _ m (by omega) hm
  by_cases h1 : t ≤ e
  · rw [if_pos h1, then_assoc] at h
    obtain ⟨n, rfl⟩ : ∃ n, t = n + 1 := ⟨t - 1, by omega⟩
    unfold uninitMove at h
    rw [then_assoc] at h
    rcases first_throws (dst := b + e) (fun m hm => ends_then (uninitMove_ends _ _ _ m hm) fun m hm =>
      ends_then (ends_then (moveBack_ends _ m (by omega) hm) fun m hm => ends_then (move_ends (by omega) hm) fun m hm =>
        moveRange_ends _ _ _ m (by omega) hm) fun m hm => tail e (by omega) (by omega) m hm) h with g | g
    · exact .inl g
    · exact .inr ⟨e, by omega, by omega, g⟩
  · rw [if_neg h1, then_assoc] at h
    cases e with
    | zero =>
      rw [show uninitMove T m b (b + t) 0 = .ok m from rfl, show ∀ f : Mem K V → Out (Mem K V), (Out.ok m).then f = f m from fun _ => rfl, then_assoc] at h
      rcases first_throws (dst := b + (t - 1)) (fun m hm => ends_then (ends_then (uninitMove_ends _ _ _ m hm) fun m hm =>
        moveRange_ends 0 _ b m (by omega) hm) fun m hm => tail (t - 1) (by omega) (by omega) m hm) h with g | g
      · exact .inl g
      · exact .inr ⟨t - 1, by omega, by omega, g⟩
    | succ e =>
      rw [show uninitMove T m b (b + t) (e + 1) = (construct T m (b + t) b).then
        (fun m => uninitMove T m (b + 1) (b + t + 1) e) from rfl, then_assoc] at h
      rcases first_throws (dst := b + t) (fun m hm => ends_then (uninitMove_ends _ _ _ m hm) fun m hm =>
        ends_then (ends_then (construct_ends hm) fun m hm => ends_then (uninitMove_ends _ _ _ m hm) fun m hm =>
          moveRange_ends (e + 1) _ b m (by omega) hm) fun m hm => tail t (by omega) (by omega) m hm) h with g | g
      · exact .inl g
      · exact .inr ⟨t, by omega, by omega, g⟩

/-- An exception while elements go to the new node in a split: the elements behind those that stay, which do not count any
more (the counts are set before, btree.hpp:2127-2134), still have objects that nobody will destroy. The new node is not
yet in the tree. -/
theorem C125_split_throws {T : Types K V} {m m' : Mem K V} {cap a b q i e k : Nat} {l : List (K × V)}
    (ha : Node m.slots cap a l) (he : e < l.length)
    (h : uninitMove T m (a + (l.length - e)) b e = .threw m') :
    splitNode T m a l.length b e q k i = .threw m' ∧
    ∀ j, l.length - e ≤ j → j < l.length → m'.slots (a + j) ≠ none := by
  refine ⟨by unfold splitNode; rw [h]; rfl, fun j j1 j2 => ?_⟩
  have := uninitMove_ends (T := T) (x := a + j) e (a + (l.length - e)) b m (node_live ha (by omega) (by omega))
  rw [h] at this
  exact this

/-- The second of two copies to the new node throws; the first element there has no owner either. -/
example : ∃ m', uninitMove (⟨false, fun _ => 0, fun _ => 0, fun n => n == 1⟩ : Types Nat Nat) exMem (0 + (3 - 2)) 12 2 = .threw m' ∧ m'.slots 12 = some (2, 20) ∧ m'.slots 1 = some (2, 0) :=
  ⟨_, rfl, rfl, rfl⟩

/-- Such an exception: the second copy throws in each of the three calls. -/
def exThrow : Types Nat Nat := ⟨false, fun _ => 0, fun _ => 0, fun n => n == 1⟩

theorem C125_leak_refuted : ∃ (m1 m2 m3 : Mem Nat Nat), rebalanceRL exThrow exMem 0 3 4 1 8 1 = .threw m1 ∧
    m1.slots 3 = some (4, 40) ∧ rebalanceLR exThrow exMem 0 3 4 1 8 2 = .threw m2 ∧ m2.slots 6 = some (5, 50) ∧
    mergeNodes exThrow (exMem.set 2 none) 0 2 4 1 8 = .threw m3 ∧ m3.slots 2 = some (4, 40) :=
  ⟨_, _, _, rfl, rfl, rfl, rfl, rfl, rfl⟩

end Gtl.Props.MapNodes
