import Verif.Btree.Whole
/-
Insertions in which constructing the new value throws (btree.hpp:1948-1968, 2363-2385, 2425-2435,
2953-2982). Until then everything goes as usual: a leaf with room is found or made. Then the values from
the place on are moved one slot to the right, the slot is destroyed and the constructor called; nothing
is undone when it throws. Moving values does not throw.

Slots can be raw then. They are values of `Option α`: `none` is raw storage.
-/
set_option linter.unusedSectionVars false
namespace Gtl.Btree
variable {α κ : Type}

/-- The nodes with their values as slots. -/
def Node.slots (n : Node α) : Node (Option α) :=
  { parent := n.parent, position := n.position, maxCount := n.maxCount, vals := n.vals.map some, kids := n.kids }

/-- A heap as one with slots that may be raw. -/
def Heap.slots (h : Heap α) : Heap (Option α) := h.map (Option.map Node.slots)

/-- A tree as one with slots that may be raw. -/
def Tree.slots (t : Tree α) : Tree (Option α) :=
  { heap := t.heap.slots, root := t.root, rightmost := t.rightmost, size := t.size }

/-- internal_emplace up to the construction of the value (btree.hpp:2953-2977): the tree with a leaf that
has room, and the place. -/
def makeRoom (c : Cfg α κ) (t : Tree α) (it : It) : Option (Tree α × It) := do
  let n ← t.heap.get it.node
  let it ← if n.leaf then some it
    else do
      let it ← decrement t.heap it
      some ⟨it.node, it.pos + 1⟩
  let n ← t.heap.get it.node
  if n.count = n.cap c then
    if n.cap c < c.K then growLeafRoot c t it (n.cap c)
    else rebalanceOrSplit c (t.heap.length + 1) t it
  else some (t, it)

/-- It is the first part of internal_emplace. -/
theorem internalEmplace_eq (c : Cfg α κ) (t : Tree α) (it : It) (a : Arg α) :
    internalEmplace c t it a = (do
      let (t, it) ← makeRoom c t it
      let h ← emplaceLeaf c t.heap it.node it.pos a
      some (it, { t with heap := h, size := t.size + 1 })) := by
  unfold internalEmplace makeRoom
  simp only [Option.bind_eq_bind, Option.bind_assoc]
  cases t.heap.get it.node with
  | none => rfl
  | some n =>
    have tail : ∀ it : It, ((t.heap.get it.node).bind fun n =>
        if n.count = n.cap c then
          if n.cap c < c.K then
            (growLeafRoot c t it (n.cap c)).bind fun x =>
              (emplaceLeaf c x.1.heap x.2.node x.2.pos a).bind fun h => some (x.2, { x.1 with heap := h, size := x.1.size + 1 })
          else
            (rebalanceOrSplit c (t.heap.length + 1) t it).bind fun x =>
              (emplaceLeaf c x.1.heap x.2.node x.2.pos a).bind fun h => some (x.2, { x.1 with heap := h, size := x.1.size + 1 })
        else
          (some (t, it)).bind fun x =>
            (emplaceLeaf c x.1.heap x.2.node x.2.pos a).bind fun h => some (x.2, { x.1 with heap := h, size := x.1.size + 1 })) =
        ((t.heap.get it.node).bind fun n =>
          if n.count = n.cap c then
            if n.cap c < c.K then growLeafRoot c t it (n.cap c)
            else rebalanceOrSplit c (t.heap.length + 1) t it
          else some (t, it)).bind fun x =>
            (emplaceLeaf c x.1.heap x.2.node x.2.pos a).bind fun h => some (x.2, { x.1 with heap := h, size := x.1.size + 1 }) := by
      intro it
      cases t.heap.get it.node with
      | none => rfl
      | some n =>
        simp only [Option.bind_some]
        by_cases h1 : n.count = n.cap c
        · by_cases h2 : n.cap c < c.K
          · simp only [if_pos h1, if_pos h2]
          · simp only [if_pos h1, if_neg h2]
        · simp only [if_neg h1, Option.bind_some]
    simp only [Option.bind_some]
    by_cases hl : n.leaf = true
    · simp only [if_pos hl]
      exact tail it
    · simp only [if_neg hl]
      cases decrement t.heap it with
      | none => rfl
      | some it' => exact tail ⟨it'.node, it'.pos + 1⟩

/-- btree_node::emplace_value on a leaf, left by an exception of the constructor (btree.hpp:1953-1959):
the values from `i` on are one slot further, slot `i` is raw, and `count()` has not changed, so that the
last value is outside of the node: nobody will destroy it. -/
def emplaceLeafThrow (c : Cfg α κ) (h : Heap α) (id : Nat) (i : Nat) : Option (Heap (Option α) × List α) := do
  let n ← h.get id
  check (n.leaf && i ≤ n.count && n.count < n.cap c)
  let after := n.slots.vals.insertIdx i none
  some (h.slots.set id { n.slots with vals := after.take n.count }, (after.drop n.count).filterMap fun v => v)

/-- How an insertion ends when the constructor throws: `found` when the key is there, so that nothing is
constructed; otherwise the tree, and the values that live outside of all nodes. -/
inductive Thrown (α : Type) where
  | found (it : It) (t : Tree α)
  | threw (t : Tree (Option α)) (lost : List α)
deriving DecidableEq, Repr

/-- internal_emplace left by an exception (btree.hpp:2953-2982): `size_` is not changed. -/
def internalEmplaceThrow (c : Cfg α κ) (t : Tree α) (it : It) : Option (Thrown α) := do
  let (t, it) ← makeRoom c t it
  let (h, lost) ← emplaceLeafThrow c t.heap it.node it.pos
  some (.threw { t.slots with heap := h } lost)

/-- The place at which `insert` is going to construct a value, if the key is not there (btree.hpp:2363-2384,
2425-2434): the tree with room, and the slot. -/
def insertPlace (c : Cfg α κ) (t : Tree α) (k : κ) : Option (It ⊕ It) :=
  if c.multi then do
    let it ← internalUpperBound c (firstRoot t) k
    let it ← internalEnd (firstRoot t) it
    some (.inr it)
  else do
    let (it, eq) ← internalLocate c (firstRoot t) k
    match ← locateFound c (firstRoot t) k it eq with
    | some it => some (.inl it)
    | none => some (.inr it)

/-- `insert(v)` with key `k` where constructing the value throws (insert_unique, btree.hpp:2363-2385;
insert_multi, btree.hpp:2425-2435). -/
def insertThrow (c : Cfg α κ) (t : Tree α) (k : κ) : Option (Thrown α) := do
  match ← insertPlace c t k with
  | .inl it => some (.found it (firstRoot t))
  | .inr it => internalEmplaceThrow c (firstRoot t) it

/-- The places are those of insert_unique and insert_multi. -/
theorem insertUnique_place (c : Cfg α κ) (hm : c.multi = false) (t : Tree α) (k : κ) (a : Arg α) :
    insertUnique c t k a = (do
      match ← insertPlace c t k with
      | .inl it => some ((it, false), firstRoot t)
      | .inr it => do
        let (it, t) ← internalEmplace c (firstRoot t) it a
        some ((it, true), t)) := by
  unfold insertUnique insertPlace
  simp only [hm, Bool.false_eq_true, if_false, Option.bind_eq_bind, Option.bind_assoc]
  cases internalLocate c (firstRoot t) k with
  | none => rfl
  | some x =>
    obtain ⟨it, eq⟩ := x
    simp only [Option.bind_some]
    cases locateFound c (firstRoot t) k it eq with
    | none => rfl
    | some y => cases y <;> rfl

theorem insertMulti_place (c : Cfg α κ) (hm : c.multi = true) (t : Tree α) (k : κ) (a : Arg α) :
    insertMulti c t k a = (do
      match ← insertPlace c t k with
      | .inl _ => none
      | .inr it => internalEmplace c (firstRoot t) it a) := by
  unfold insertMulti insertPlace
  simp only [hm, if_true, Option.bind_eq_bind, Option.bind_assoc]
  rfl

/-- internal_clear (btree.hpp:3074-3082), destroying the values of the nodes (btree.hpp:1190-1194, 1823-1830): a raw
slot is undefined behaviour. -/
def internalClearSlots (h : Heap (Option α)) : Nat → Nat → Option (Heap (Option α))
  | 0, _ => none
  | f + 1, id => do
    let n ← h.get id
    let h ← if n.leaf then some h
      else n.kids.foldlM (fun h k => internalClearSlots h f k) h
    check (n.vals.all Option.isSome)
    deleteNode h id

/-- ~btree (btree.hpp:1508-1514) and clear (btree.hpp:2703-2710) of a tree with raw slots. -/
def Tree.destroy (t : Tree (Option α)) : Option (Tree (Option α)) := do
  let h ← if t.size = 0 then some t.heap else internalClearSlots t.heap (t.heap.length + 1) t.root
  some { heap := h, root := 0, rightmost := 0, size := 0 }

/-! ### Slots -/

theorem Heap.get_slots (h : Heap α) (i : Nat) : h.slots.get i = (h.get i).map Node.slots := by
  unfold Heap.slots Heap.get
  rw [List.getElem?_map]
  cases h[i]? with
  | none => rfl
  | some o => cases o <;> rfl

@[simp] theorem Heap.length_slots (h : Heap α) : h.slots.length = h.length := by simp [Heap.slots]

/-- The parameters for slots. -/
def Cfg.slots (c : Cfg α κ) : Cfg (Option α) Nat := ⟨c.K, c.multi, c.linear, c.cmpTo, fun _ => 0, fun _ _ => false⟩

variable {c : Cfg α κ} {h : Heap α} {root H : Nat} {ht : Nat → Nat}

theorem WF.slots (w : WF c h root H ht) : WF c.slots h.slots root H ht where
  zero := by rw [Heap.get_slots, w.zero]; rfl
  root0 := w.root0
  rootLive := by
    obtain ⟨nd, e⟩ := w.rootLive
    exact ⟨nd.slots, by rw [Heap.get_slots, e]; rfl⟩
  rootHt := w.rootHt
  bound := by
    intro n nd e n0
    have e' := e; clear e; rw [Heap.get_slots] at e'
    obtain ⟨nd, e, rfl⟩ := Option.map_eq_some_iff.1 e'
    exact w.bound _ _ e n0
  shape := by
    intro n nd e n0
    have e' := e; clear e; rw [Heap.get_slots] at e'
    obtain ⟨nd, e, rfl⟩ := Option.map_eq_some_iff.1 e'
    have := w.shape _ _ e n0
    simpa [Shape, Node.slots, Cfg.slots] using this
  kid := by
    intro n nd i x e n0 hx
    have e' := e; clear e; rw [Heap.get_slots] at e'
    obtain ⟨nd, e, rfl⟩ := Option.map_eq_some_iff.1 e'
    obtain ⟨h1, h2, h3, xd, h4, h5, h6⟩ := w.kid _ _ _ _ e n0 hx
    exact ⟨h1, h2, h3, xd.slots, by rw [Heap.get_slots, h4]; rfl, h5, h6⟩
  par := by
    intro n nd e n0 nr
    have e' := e; clear e; rw [Heap.get_slots] at e'
    obtain ⟨nd, e, rfl⟩ := Option.map_eq_some_iff.1 e'
    obtain ⟨h1, pd, h2, h3⟩ := w.par _ _ e n0 nr
    exact ⟨h1, pd.slots, by rw [Heap.get_slots]; show Option.map _ (h.get nd.parent) = _; rw [h2]; rfl, h3⟩

/-! ### Destruction -/

/-- What destruction frees held values in all its slots. -/
theorem foldl_slots {step1 step2 : Heap (Option α) → Nat → Option (Heap (Option α))}
    (hs : ∀ h k h', step1 h k = some h' → step2 h k = some h' ∧
      ∀ n nd, h.get n = some nd → h'.get n = none → nd.vals.all Option.isSome = true)
    (keep : ∀ h k h', step2 h k = some h' → ∀ n nd, h.get n = some nd → h'.get n = none ∨ h'.get n = some nd) :
    ∀ (ks : List Nat) (h h' : Heap (Option α)), ks.foldlM step1 h = some h' → ks.foldlM step2 h = some h' ∧
      ∀ n nd, h.get n = some nd → h'.get n = none → nd.vals.all Option.isSome = true
  | [], h, h', e => by
    simp only [List.foldlM_nil] at e ⊢
    cases e
    exact ⟨rfl, fun n nd e1 e2 => by rw [e1] at e2; cases e2⟩
  | k :: ks, h, h', e => by
    rw [List.foldlM_cons, Option.bind_eq_bind, Option.bind_eq_some_iff] at e
    obtain ⟨h1, e1, e2⟩ := e
    obtain ⟨f1, f2⟩ := hs _ _ _ e1
    obtain ⟨g1, g2⟩ := foldl_slots hs keep ks h1 h' e2
    refine ⟨by rw [List.foldlM_cons, Option.bind_eq_bind, f1]; exact g1, ?_⟩
    intro n nd a b
    rcases keep _ _ _ f1 n nd a with hn | hn
    · exact f2 n nd a hn
    · exact g2 n nd hn b

theorem deleteNode_eq {β : Type} {h h' : Heap β} {id : Nat} (e : deleteNode h id = some h') :
    (∃ nd, h.get id = some nd) ∧ h' = h.free id := by
  unfold deleteNode at e
  cases e1 : h.get id with
  | none => rw [e1] at e; cases e
  | some nd =>
    rw [e1] at e
    simp only [Option.bind_eq_bind, Option.bind_some] at e
    cases e
    exact ⟨⟨nd, rfl⟩, rfl⟩

theorem foldl_keep {β : Type} {step : Heap β → Nat → Option (Heap β)}
    (hs : ∀ h k h', step h k = some h' → ∀ n nd, h.get n = some nd → h'.get n = none ∨ h'.get n = some nd)
    (hn : ∀ h k h', step h k = some h' → ∀ n, h.get n = none → h'.get n = none) :
    ∀ (ks : List Nat) (h h' : Heap β), ks.foldlM step h = some h' →
      (∀ n nd, h.get n = some nd → h'.get n = none ∨ h'.get n = some nd) ∧ (∀ n, h.get n = none → h'.get n = none)
  | [], h, h', e => by
    simp only [List.foldlM_nil] at e
    cases e
    exact ⟨fun _ _ e => .inr e, fun _ e => e⟩
  | k :: ks, h, h', e => by
    rw [List.foldlM_cons, Option.bind_eq_bind, Option.bind_eq_some_iff] at e
    obtain ⟨h1, e1, e2⟩ := e
    obtain ⟨g1, g2⟩ := foldl_keep hs hn ks h1 h' e2
    refine ⟨fun n nd a => ?_, fun n a => g2 n (hn _ _ _ e1 n a)⟩
    rcases hs _ _ _ e1 n nd a with b | b
    · exact .inl (g2 n b)
    · exact g1 n nd b

theorem internalClear_succ {β : Type} (h : Heap β) (f k : Nat) : internalClear h (f + 1) k = (h.get k).bind fun n =>
    (if n.leaf then some h else n.kids.foldlM (fun h k => internalClear h f k) h).bind fun h => deleteNode h k := by
  rw [internalClear]
  simp only [Option.bind_eq_bind]
  congr 1
  funext n
  by_cases hl : n.leaf = true
  · simp only [if_pos hl]
  · simp only [if_neg hl]

theorem internalClearSlots_succ (h : Heap (Option α)) (f k : Nat) : internalClearSlots h (f + 1) k = (h.get k).bind fun n =>
    (if n.leaf then some h else n.kids.foldlM (fun h k => internalClearSlots h f k) h).bind fun h =>
      (check (n.vals.all Option.isSome)).bind fun _ => deleteNode h k := by
  rw [internalClearSlots]
  simp only [Option.bind_eq_bind]
  congr 1
  funext n
  by_cases hl : n.leaf = true
  · simp only [if_pos hl]
  · simp only [if_neg hl]

theorem internalClear_keep {β : Type} : ∀ (f : Nat) (h : Heap β) (k : Nat) (h' : Heap β), internalClear h f k = some h' →
    (∀ n nd, h.get n = some nd → h'.get n = none ∨ h'.get n = some nd) ∧ (∀ n, h.get n = none → h'.get n = none)
  | 0, _, _, _, e => by cases e
  | f + 1, h, k, h', e => by
    rw [internalClear_succ] at e
    simp only [Option.bind_eq_some_iff] at e
    obtain ⟨nd, e1, h1, e2, e3⟩ := e
    obtain ⟨_, rfl⟩ := deleteNode_eq e3
    have hk : (∀ n nd, h.get n = some nd → h1.get n = none ∨ h1.get n = some nd) ∧ (∀ n, h.get n = none → h1.get n = none) := by
      by_cases hl : nd.leaf = true
      · rw [if_pos hl] at e2
        cases e2
        exact ⟨fun _ _ e => .inr e, fun _ e => e⟩
      · rw [if_neg hl] at e2
        exact foldl_keep (fun h k h' e => (internalClear_keep f h k h' e).1) (fun h k h' e => (internalClear_keep f h k h' e).2)
          _ _ _ e2
    refine ⟨fun n nd a => ?_, fun n a => ?_⟩
    · rw [Heap.get_free]
      split
      · exact .inl rfl
      · exact hk.1 n nd a
    · rw [Heap.get_free]
      split
      · rfl
      · exact hk.2 n a

theorem internalClearSlots_eq : ∀ (f : Nat) (h : Heap (Option α)) (k : Nat) (h' : Heap (Option α)),
    internalClearSlots h f k = some h' → internalClear h f k = some h' ∧
      ∀ n nd, h.get n = some nd → h'.get n = none → nd.vals.all Option.isSome = true
  | 0, _, _, _, e => by cases e
  | f + 1, h, k, h', e => by
    rw [internalClearSlots_succ] at e
    simp only [Option.bind_eq_some_iff] at e
    obtain ⟨kd, e1, h1, e2, _, e3, e4⟩ := e
    obtain ⟨_, rfl⟩ := deleteNode_eq e4
    have hv : kd.vals.all Option.isSome = true := by
      by_contra hc
      rw [Bool.not_eq_true] at hc
      rw [hc] at e3
      cases e3
    have key : (if kd.leaf = true then some h else kd.kids.foldlM (fun h k => internalClear h f k) h) = some h1 ∧
        ∀ n nd, h.get n = some nd → h1.get n = none → nd.vals.all Option.isSome = true := by
      by_cases hl : kd.leaf = true
      · rw [if_pos hl] at e2 ⊢
        cases e2
        exact ⟨rfl, fun n nd a b => by rw [a] at b; cases b⟩
      · rw [if_neg hl] at e2 ⊢
        exact foldl_slots (fun h k h' e => internalClearSlots_eq f h k h' e)
          (fun h k h' e => (internalClear_keep f h k h' e).1) _ _ _ e2
    refine ⟨?_, ?_⟩
    · rw [internalClear_succ, e1, Option.bind_some, key.1, Option.bind_some]
      exact e4
    · intro n nd a b
      rw [Heap.get_free] at b
      by_cases hn : n = k
      · subst hn
        rw [e1] at a
        cases a
        exact hv
      · rw [if_neg hn] at b
        exact key.2 n nd a b

/-- A tree that is not empty and has a raw slot cannot be destroyed. -/
theorem Tree.destroy_raw {c : Cfg (Option α) κ} {t : Tree (Option α)} {n : Nat} {nd : Node (Option α)}
    (w : WF c t.heap t.root H ht) (hs : t.size ≠ 0)
    (e : t.heap.get n = some nd) (n0 : n ≠ 0) (hv : none ∈ nd.vals) : t.destroy = none := by
  cases hd : t.destroy with
  | none => rfl
  | some t' =>
    exfalso
    unfold Tree.destroy at hd
    rw [if_neg hs] at hd
    simp only [Option.bind_eq_bind, Option.bind_eq_some_iff] at hd
    obtain ⟨h', e1, _⟩ := hd
    obtain ⟨e2, e3⟩ := internalClearSlots_eq _ _ _ _ e1
    obtain ⟨rd, er⟩ := w.rootLive
    obtain ⟨h1, e4, _, g1⟩ := internalClear_ok w H (f := t.heap.length + 1) t.heap er w.root0 w.rootHt
      (by have := w.height_lt; omega) rfl (fun _ _ => rfl)
    rw [e4] at e2
    cases e2
    have hb := w.bound _ _ e n0
    obtain ⟨h2, h3, ⟨_, h4⟩, h5⟩ := mem_desc w (H - ht n) (k := H) e n0 (by omega) (Nat.le_refl _) rfl
    rw [w.root_of_ht h4 h3 h5] at h2
    have := e3 n nd e (by rw [g1, if_pos h2])
    rw [List.all_eq_true] at this
    have := this none hv
    cases this

/-- A tree without raw slots is destroyed like any other. -/
theorem clear_slots_ok {step1 step2 : Heap (Option α) → Nat → Option (Heap (Option α))} {P : Heap (Option α) → Prop}
    (hs : ∀ h k h', P h → step2 h k = some h' → step1 h k = some h' ∧ P h') :
    ∀ (ks : List Nat) (h h' : Heap (Option α)), P h → ks.foldlM step2 h = some h' → ks.foldlM step1 h = some h' ∧ P h'
  | [], h, h', p, e => by
    simp only [List.foldlM_nil] at e ⊢
    cases e
    exact ⟨rfl, p⟩
  | k :: ks, h, h', p, e => by
    rw [List.foldlM_cons, Option.bind_eq_bind, Option.bind_eq_some_iff] at e
    obtain ⟨h1, e1, e2⟩ := e
    obtain ⟨f1, p1⟩ := hs _ _ _ p e1
    obtain ⟨g1, p2⟩ := clear_slots_ok hs ks h1 h' p1 e2
    exact ⟨by rw [List.foldlM_cons, Option.bind_eq_bind, f1]; exact g1, p2⟩

/-- All slots of all nodes hold values. -/
def NoRaw (h : Heap (Option α)) : Prop := ∀ n nd, h.get n = some nd → nd.vals.all Option.isSome = true

theorem internalClearSlots_of : ∀ (f : Nat) (h : Heap (Option α)) (k : Nat) (h' : Heap (Option α)), NoRaw h →
    internalClear h f k = some h' → internalClearSlots h f k = some h' ∧ NoRaw h'
  | 0, _, _, _, _, e => by cases e
  | f + 1, h, k, h', p, e => by
    rw [internalClear_succ] at e
    simp only [Option.bind_eq_some_iff] at e
    obtain ⟨kd, e1, h1, e2, e4⟩ := e
    obtain ⟨_, rfl⟩ := deleteNode_eq e4
    have key : (if kd.leaf = true then some h else kd.kids.foldlM (fun h k => internalClearSlots h f k) h) = some h1 ∧
        NoRaw h1 := by
      by_cases hl : kd.leaf = true
      · rw [if_pos hl] at e2 ⊢
        cases e2
        exact ⟨rfl, p⟩
      · rw [if_neg hl] at e2 ⊢
        exact clear_slots_ok (fun h k h' p e => internalClearSlots_of f h k h' p e) _ _ _ p e2
    refine ⟨?_, ?_⟩
    · rw [internalClearSlots_succ, e1, Option.bind_some, key.1, Option.bind_some, check_of (p k kd e1), Option.bind_some]
      exact e4
    · intro n nd a
      rw [Heap.get_free] at a
      split at a
      · cases a
      · exact key.2 n nd a

theorem noRaw_slots (h : Heap α) : NoRaw h.slots := by
  intro n nd e
  have e' := e; clear e; rw [Heap.get_slots] at e'
  obtain ⟨nd, _, rfl⟩ := Option.map_eq_some_iff.1 e'
  simp [Node.slots]

/-- A tree that represents a sequence is destroyed without trouble, and leaves no node. -/
theorem Tree.destroy_slots {t : Tree α} {L : List α} (r : Rep c t L) :
    ∃ t', t.slots.destroy = some t' ∧ ∀ n nd, t'.heap.get n = some nd → n = 0 := by
  rcases r with ⟨e, rfl⟩ | ⟨H, ht, g, hs⟩
  · refine ⟨{ t.slots with heap := t.slots.heap, root := 0, rightmost := 0, size := 0 }, ?_, ?_⟩
    · have : t.slots.size = 0 := e.size
      simp [Tree.destroy, this]
    · intro n nd en
      have en : t.heap.slots.get n = some nd := en
      rw [Heap.get_slots] at en
      obtain ⟨nd, en, _⟩ := Option.map_eq_some_iff.1 en
      exact e.only n nd en
  · have hne : t.slots.size ≠ 0 := by
      show t.size ≠ 0
      rw [hs]
      exact fun h => g.ne_nil (List.length_eq_zero_iff.1 h)
    have w : WF c.slots t.slots.heap t.slots.root H ht := g.wf.slots
    obtain ⟨rd, er⟩ := w.rootLive
    obtain ⟨h1, e1, _, g1⟩ := internalClear_ok w H (f := t.slots.heap.length + 1) t.slots.heap er w.root0 w.rootHt
      (by have := w.height_lt; omega) rfl (fun _ _ => rfl)
    obtain ⟨e2, _⟩ := internalClearSlots_of _ _ _ _ (noRaw_slots t.heap) e1
    refine ⟨⟨h1, 0, 0, 0⟩, ?_, ?_⟩
    · unfold Tree.destroy
      rw [if_neg hne]
      have e2 : internalClearSlots t.slots.heap (t.slots.heap.length + 1) t.slots.root = some h1 := e2
      simp [e2]
    · intro y yd ey
      have ey : h1.get y = some yd := ey
      by_contra y0
      rw [g1] at ey
      split at ey
      · cases ey
      · rename_i hny
        apply hny
        have hb := w.bound _ _ ey y0
        obtain ⟨h2, h3, ⟨_, h4⟩, h5⟩ := mem_desc w (H - ht y) (k := H) ey y0 (by omega) (Nat.le_refl _) rfl
        rw [w.root_of_ht h4 h3 h5] at h2
        exact h2

/-! ### Room -/

/-- What making room does: the values stay, and the place is in a leaf with room. -/
theorem makeRoom_ok (hK : 3 ≤ c.K) {t : Tree α} {E : Nat → Prop} {L : List α} {k n i : Nat} {X Y : List α}
    (g : Good c t E H ht L)
    (hE : (∀ m, ¬ E m) ∨ (k = 0 ∧ (∀ m, E m → m = n) ∧ ∃ nd, t.heap.get n = some nd ∧ nd.vals.length < nd.cap c))
    (p : Pt t.heap t.root H k n i X Y) :
    ∃ t' it' H' ht' nd', makeRoom c t ⟨n, i⟩ = some (t', it') ∧ Good c t' (· = it'.node) H' ht' L ∧
      t'.size = t.size ∧ Pt t'.heap t'.root H' 0 it'.node it'.pos X Y ∧ t'.heap.get it'.node = some nd' ∧
      it'.node ≠ 0 ∧ nd'.leaf = true ∧ nd'.vals.length < nd'.cap c := by
  obtain ⟨nd, e, n0, hnt, hi⟩ := p.live g.wf
  have main : ∀ (n i : Nat) (nd : Node α), t.heap.get n = some nd → nd.leaf = true → Pt t.heap t.root H 0 n i X Y →
      ((∀ m, ¬ E m) ∨ ((∀ m, E m → m = n) ∧ nd.vals.length < nd.cap c)) →
      ∃ t' it' H' ht' nd', (if nd.count = nd.cap c then
            if nd.cap c < c.K then growLeafRoot c t ⟨n, i⟩ (nd.cap c)
            else rebalanceOrSplit c (t.heap.length + 1) t ⟨n, i⟩
          else some (t, ⟨n, i⟩)) = some (t', it') ∧ Good c t' (· = it'.node) H' ht' L ∧
      t'.size = t.size ∧ Pt t'.heap t'.root H' 0 it'.node it'.pos X Y ∧ t'.heap.get it'.node = some nd' ∧
      it'.node ≠ 0 ∧ nd'.leaf = true ∧ nd'.vals.length < nd'.cap c := by
    intro n i nd e hleaf p hE
    obtain ⟨nd', e', n0, hnt, hi⟩ := p.live g.wf
    rw [e] at e'; cases e'
    by_cases hfull : nd.count = nd.cap c
    · have hno : ∀ m, ¬ E m := by
        rcases hE with h | h
        · exact h
        · have : nd.count = nd.vals.length := rfl
          omega
      have g0 : Good c t (Loose False ht) H ht L :=
        ⟨g.wf, g.left, g.right, fun m md em m0 _ => g.full m md em m0 (hno m), g.seq⟩
      rw [if_pos hfull]
      by_cases hsmall : nd.cap c < c.K
      · rw [if_pos hsmall]
        have hroot : n = t.root := by
          by_contra hr
          have := g.wf.cap_eq e n0 (.inl hr)
          omega
        subst hroot
        have hH : H = 0 := by rw [← g.wf.rootHt, hnt]
        subst hH
        obtain ⟨t1, it1, nd1, e1, g1, s1, p1, en1, room⟩ := growLeafRoot_ok g0 e hfull hsmall p
        obtain ⟨nd2, en2, n10, hnt1, _⟩ := p1.live g1.wf
        rw [en1] at en2; cases en2
        exact ⟨t1, it1, 0, _, nd1, e1, g1, s1, p1, en1, n10, (g1.wf.leaf_iff en1 n10).2 hnt1, room⟩
      · rw [if_neg hsmall]
        have hcapK : nd.cap c = c.K := by
          have := g.wf.vals_le e n0
          have : nd.count = nd.vals.length := rfl
          omega
        have hfu := g.fuel
        obtain ⟨t1, it1, H1, ht1, e1, m1⟩ := rebalanceOrSplit_ok hK (t.heap.length + 1) g0 e
          (by rw [← hcapK]; exact hfull) hcapK p (by omega)
        obtain ⟨nd1, en1, n10, hnt1, _⟩ := m1.pt.live m1.good.wf
        have room := m1.room
        rw [valsOf_eq en1] at room
        have hnr : it1.node ≠ t1.root := by
          intro h
          have := m1.good.wf.rootHt
          rw [← h, hnt1] at this
          have := m1.deep
          omega
        have cap1 := m1.good.wf.cap_eq en1 n10 (.inl hnr)
        exact ⟨t1, it1, H1, ht1, nd1, e1, m1.good.mono fun _ h => h.resolve_left (by simp), m1.size, m1.pt, en1, n10,
          (m1.good.wf.leaf_iff en1 n10).2 hnt1, by omega⟩
    · rw [if_neg hfull]
      have hle := g.wf.vals_le_cap e n0
      have : nd.count = nd.vals.length := rfl
      have g1 : Good c t (· = n) H ht L :=
        ⟨g.wf, g.left, g.right, fun m md em m0 hm => g.full m md em m0 (by
          rcases hE with h | h
          · exact h m
          · exact fun hEm => hm (h.1 m hEm)), g.seq⟩
      exact ⟨t, ⟨n, i⟩, H, ht, nd, rfl, g1, rfl, p, e, n0, hleaf, by omega⟩
  unfold makeRoom
  simp only [e, Option.bind_eq_bind, Option.bind_some]
  cases k with
  | zero =>
    have hleaf := (g.wf.leaf_iff e n0).2 hnt
    simp only [hleaf, if_true, Option.bind_some, e]
    apply main n i nd e hleaf p
    rcases hE with h | ⟨_, h1, nd', e', h2⟩
    · exact .inl h
    · rw [e] at e'; cases e'
      exact .inr ⟨h1, h2⟩
  | succ k =>
    have hno : ∀ m, ¬ E m := by
      rcases hE with h | h
      · exact h
      · omega
    have hleaf := g.wf.leaf_false e n0 (by omega)
    obtain ⟨l, ld, q, el, l0, hl, nd', e', _, z, hz, hlz, hd⟩ := decrement_node g p
    rw [e] at e'; cases e'
    have hlc : 1 ≤ ld.vals.length := g.full l ld el l0 (hno l)
    have hdec : decrement t.heap ⟨n, i⟩ = some ⟨l, ld.count - 1⟩ := by
      unfold decrement
      simp only [e, Option.bind_eq_bind, Option.bind_some, hleaf, Bool.false_eq_true, if_false, hz, hd, el]
      rw [check_of (by simp [Node.count, hlc])]
      rfl
    have hpos : ld.count - 1 + 1 = ld.vals.length := by unfold Node.count; omega
    simp only [hleaf, Bool.false_eq_true, if_false, hdec, Option.bind_some, hpos, el]
    exact main l ld.vals.length ld el hl q (.inl hno)

end Gtl.Btree
