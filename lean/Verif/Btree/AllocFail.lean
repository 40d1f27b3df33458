import Verif.Btree.Throw
import Verif.Btree.History
/-
Insertions in which an allocation of a node fails (btree.hpp:1765-1795: new_internal_node, new_leaf_node and
new_leaf_root_node call the allocator first and let its exception pass). Every call has a number of
allocations that succeed; the next one throws. Nothing is undone then.
-/
set_option linter.unusedSectionVars false
namespace Gtl.Btree
open Gtl.Spec.SortedSeq
variable {α κ : Type}

/-- How a function that allocates ends: with a value and the number of allocations that would still succeed,
or left by the exception, with the tree as it is then. -/
inductive Tried (α β : Type) where
  | done (x : β) (left : Nat)
  | failed (t : Tree α)
deriving DecidableEq, Repr

/-- The end of rebalance_or_split (btree.hpp:2832-2847): the new node is allocated first. -/
def splitNodeA (c : Cfg α κ) (b : Nat) (t : Tree α) (it : It) (parent : Nat) : Option (Tried α (Tree α × It)) :=
  match b with
  | 0 => some (.failed t)
  | b + 1 => do
    let x ← splitNode c t it parent
    some (.done x b)

/-- btree::rebalance_or_split (btree.hpp:2743-2847). -/
def rebalanceOrSplitA (c : Cfg α κ) : Nat → Nat → Tree α → It → Option (Tried α (Tree α × It))
  | 0, _, _, _ => none
  | f + 1, b, t, it => do
    let n ← t.heap.get it.node
    check (n.count == n.cap c && n.cap c == c.K)
    if it.node = t.root then
      match b with
      | 0 => some (.failed t)
      | b + 1 => do
        let t' ← growRoot t
        splitNodeA c b t' it t'.root
    else do
      match ← tryLeft c t.heap it with
      | some (h, it) => some (.done ({ t with heap := h }, it) b)
      | none =>
        match ← tryRight c t.heap it with
        | some (h, it) => some (.done ({ t with heap := h }, it) b)
        | none => do
          let p ← t.heap.get n.parent
          check (p.cap c == c.K)
          if p.count = c.K then do
            match ← rebalanceOrSplitA c f b t ⟨n.parent, n.position⟩ with
            | .failed t' => some (.failed t')
            | .done (t', _) b => splitNodeA c b t' it n.parent
          else splitNodeA c b t it n.parent

/-- internal_emplace up to the construction of the value (btree.hpp:2953-2977). -/
def makeRoomA (c : Cfg α κ) (b : Nat) (t : Tree α) (it : It) : Option (Tried α (Tree α × It)) := do
  let n ← t.heap.get it.node
  let it ← if n.leaf then some it
    else do
      let it ← decrement t.heap it
      some ⟨it.node, it.pos + 1⟩
  let n ← t.heap.get it.node
  if n.count = n.cap c then
    if n.cap c < c.K then
      match b with
      | 0 => some (.failed t)
      | b + 1 => do
        let x ← growLeafRoot c t it (n.cap c)
        some (.done x b)
    else rebalanceOrSplitA c (t.heap.length + 1) b t it
  else some (.done (t, it) b)

/-- internal_emplace (btree.hpp:2953-2982). -/
def internalEmplaceA (c : Cfg α κ) (b : Nat) (t : Tree α) (it : It) (v : α) : Option (Tried α (It × Tree α)) := do
  match ← makeRoomA c b t it with
  | .failed t => some (.failed t)
  | .done (t, it) b => do
    let h ← emplaceLeaf c t.heap it.node it.pos (.val v)
    some (.done (it, { t with heap := h, size := t.size + 1 }) b)

/-- The rest of a function after one that allocates. -/
def Tried.map {β γ : Type} (f : β → γ) : Tried α β → Tried α γ
  | .done x left => .done (f x) left
  | .failed t => .failed t

/-- `mutable_root() = rightmost_ = new_leaf_root_node(1)` in an empty tree (btree.hpp:2364-2366, 2426-2428), and
what comes after it. -/
def withRootA {β : Type} (b : Nat) (t : Tree α) (f : Nat → Tree α → Option (Tried α β)) : Option (Tried α β) :=
  if t.size = 0 then
    match b with
    | 0 => some (.failed t)
    | b + 1 => f b (firstRoot t)
  else f b t

/-- btree::insert_unique (btree.hpp:2363-2385). -/
def insertUniqueA (c : Cfg α κ) (b : Nat) (t : Tree α) (v : α) : Option (Tried α ((It × Bool) × Tree α)) :=
  withRootA b t fun b t => do
    let (it, eq) ← internalLocate c t (c.key v)
    match ← locateFound c t (c.key v) it eq with
    | some it => some (.done ((it, false), t) b)
    | none => do
      let x ← internalEmplaceA c b t it v
      some (x.map fun x => ((x.1, true), x.2))

/-- btree::insert_multi (btree.hpp:2425-2435). -/
def insertMultiA (c : Cfg α κ) (b : Nat) (t : Tree α) (v : α) : Option (Tried α (It × Tree α)) :=
  withRootA b t fun b t => do
    let it ← internalUpperBound c t (c.key v)
    let it ← internalEnd t it
    internalEmplaceA c b t it v

/-- btree::insert_hint_unique (btree.hpp:2389-2413). -/
def insertHintUniqueA (c : Cfg α κ) (b : Nat) (t : Tree α) (pos : It) (v : α) :
    Option (Tried α ((It × Bool) × Tree α)) :=
  if t.size = 0 then insertUniqueA c b t v
  else do
    let e ← t.end
    let bg ← t.begin
    if ← stopOrAt t.heap pos e (fun w => c.lt (c.key v) (c.key w)) then do
      if ← stopOrBefore t.heap pos bg (fun w => c.lt (c.key w) (c.key v)) then do
        let x ← internalEmplaceA c b t pos v
        some (x.map fun x => ((x.1, true), x.2))
      else insertUniqueA c b t v
    else do
      let w ← deref t.heap pos
      if c.lt (c.key w) (c.key v) then do
        let next ← increment t.heap pos
        if ← stopOrAt t.heap next e (fun w => c.lt (c.key v) (c.key w)) then do
          let x ← internalEmplaceA c b t next v
          some (x.map fun x => ((x.1, true), x.2))
        else insertUniqueA c b t v
      else some (.done ((pos, false), t) b)

/-- btree::insert_hint_multi (btree.hpp:2439-2460). -/
def insertHintMultiA (c : Cfg α κ) (b : Nat) (t : Tree α) (pos : It) (v : α) : Option (Tried α (It × Tree α)) :=
  if t.size = 0 then insertMultiA c b t v
  else do
    let e ← t.end
    let bg ← t.begin
    if ← stopOrAt t.heap pos e (fun w => !(c.lt (c.key w) (c.key v))) then do
      if ← stopOrBefore t.heap pos bg (fun w => !(c.lt (c.key v) (c.key w))) then internalEmplaceA c b t pos v
      else insertMultiA c b t v
    else do
      let next ← increment t.heap pos
      if ← stopOrAt t.heap next e (fun w => !(c.lt (c.key w) (c.key v))) then internalEmplaceA c b t next v
      else insertMultiA c b t v

/-- btree::insert_iterator_unique (btree.hpp:2415-2421) and insert_iterator_multi (btree.hpp:2462-2468): the
exception leaves the loop. -/
def insertAllA (c : Cfg α κ) (b : Nat) (t : Tree α) : List α → Option (Tried α (Tree α))
  | [] => some (.done t b)
  | v :: vs => do
    let e ← t.end
    let x ← if c.multi then (insertHintMultiA c b t e v).map (Tried.map Prod.snd)
      else (insertHintUniqueA c b t e v).map (Tried.map Prod.snd)
    match x with
    | .failed t => some (.failed t)
    | .done t b => insertAllA c b t vs

/-- The loop of copy_or_move_values_in_order (btree.hpp:2302-2321). -/
def appendAllA (c : Cfg α κ) (b : Nat) (t : Tree α) : List α → Option (Tried α (Tree α))
  | [] => some (.done t b)
  | v :: vs => do
    let e ← t.end
    match ← internalEmplaceA c b t e v with
    | .failed t => some (.failed t)
    | .done (_, t) b => appendAllA c b t vs

/-- copy_or_move_values_in_order (btree.hpp:2302-2321). -/
def copyIntoA (c : Cfg α κ) (b : Nat) (t x : Tree α) : Option (Tried α (Tree α)) := do
  match ← x.toList with
  | [] => some (.done t b)
  | v :: vs => do
    match ← insertMultiA c b t v with
    | .failed t => some (.failed t)
    | .done (_, t) b => appendAllA c b t vs

/-- btree::btree(const btree&) (btree.hpp:2357-2360): it delegates to another constructor first, so that an
exception of its body calls the destructor (btree.hpp:1508-1514), which calls clear(). -/
def Tree.copyA (c : Cfg α κ) (b : Nat) (x : Tree α) : Option (Tried α (Tree α)) := do
  match ← copyIntoA c b Tree.empty x with
  | .failed t => do
    let t ← t.clear
    some (.failed t)
  | .done t b => some (.done t b)

/-- btree::operator=(const btree&) of two different trees (btree.hpp:2471-2483). -/
def Tree.assignA (c : Cfg α κ) (b : Nat) (t x : Tree α) : Option (Tried α (Tree α)) := do
  let t ← t.clear
  copyIntoA c b t x

/-- A call in which the first `b` allocations succeed. The calls that do not insert do not allocate. -/
def execA (c : Cfg α κ) (b : Nat) (t : Tree α) : Op α κ → Option (Out α × Tree α)
  | .insert v =>
    if c.multi then do
      match ← insertMultiA c b t v with
      | .failed t => some (.badAlloc, t)
      | .done (it, t) _ => some (.ok (.pos (← t.index it)), t)
    else do
      match ← insertUniqueA c b t v with
      | .failed t => some (.badAlloc, t)
      | .done ((it, n), t) _ => some (.ok (.posNew (← t.index it) n), t)
  | .insertHint i v => do
    let hint ← t.iterAt i
    if c.multi then do
      match ← insertHintMultiA c b t hint v with
      | .failed t => some (.badAlloc, t)
      | .done (it, t) _ => some (.ok (.pos (← t.index it)), t)
    else do
      match ← insertHintUniqueA c b t hint v with
      | .failed t => some (.badAlloc, t)
      | .done ((it, _), t) _ => some (.ok (.pos (← t.index it)), t)
  | .insertAll vs => do
    match ← insertAllA c b t vs with
    | .failed t => some (.badAlloc, t)
    | .done t _ => some (.ok .done, t)
  | op => do
    let (r, t) ← exec c t op
    some (.ok r, t)

/-- A sequence of calls. -/
def execAllA (c : Cfg α κ) (t : Tree α) : List (Call α κ) → Option (List (Out α) × Tree α)
  | [] => some ([], t)
  | call :: calls => do
    let (r, t) ← execA c call.room t call.op
    let (rs, t) ← execAllA c t calls
    some (r :: rs, t)

/-- The first calls of a caller, how they end, and the container after them. -/
def Caller.run (c : Cfg α κ) (who : Caller α κ) : Nat → Option (List (Out α) × Tree α)
  | 0 => some ([], Tree.empty)
  | n + 1 => do
    let (outs, t) ← Caller.run c who n
    match who outs with
    | none => some (outs, t)
    | some call => do
      let (out, t) ← execA c call.room t call.op
      some (out :: outs, t)

variable {c : Cfg α κ} {t t' : Tree α} {H H' : Nat} {ht ht' : Nat → Nat} {L : List α} {E : Nat → Prop} {z : Prop}

/-- What an allocation that failed leaves: the same values, perhaps in inner nodes without values. If it was
the first allocation of the call, there are no new nodes of this kind. -/
def Left (z : Prop) (c : Cfg α κ) (b : Nat) (t t' : Tree α) (L : List α) : Prop :=
  ∃ H ht, Good c t' (Loose (z ∨ b ≠ 0) ht) H ht L ∧ t'.size = t.size

theorem Left.refl (b : Nat) (g : Good c t (Loose z ht) H ht L) : Left z c b t t L :=
  ⟨H, ht, g.mono fun _ h => ⟨.inl h.1, h.2⟩, rfl⟩

/-- rebalance_or_split makes room or leaves the values. It allocates at most two nodes more than there are
levels above. -/
theorem rebalanceOrSplitA_ok (hK : 3 ≤ c.K) (b : Nat) : ∀ (f : Nat) {t : Tree α} {H k n i : Nat} {ht : Nat → Nat}
    {nd : Node α} {X Y : List α}, Good c t (Loose z ht) H ht L → t.heap.get n = some nd → nd.vals.length = c.K →
    nd.cap c = c.K → Pt t.heap t.root H k n i X Y → H - k < f →
    (∃ t' it' H' ht' left, rebalanceOrSplitA c f b t ⟨n, i⟩ = some (.done (t', it') left) ∧
      left ≤ b ∧ b ≤ left + (H - k) + 2 ∧
      rebalanceOrSplit c f t ⟨n, i⟩ = some (t', it') ∧ Moved c z t t' ⟨n, i⟩ it' H H' k ht ht' L X Y ∧
      (b = 0 → Good c t' (Loose z ht') H' ht' L)) ∨
    ∃ t', rebalanceOrSplitA c f b t ⟨n, i⟩ = some (.failed t') ∧ b ≤ H - k + 1 ∧ Left z c b t t' L
  | 0, _, _, _, _, _, _, _, _, _, _, _, _, _, _, hf => absurd hf (Nat.not_lt_zero _)
  | f + 1, t, H, k, n, i, ht, nd, X, Y, g, e, hfull, hcap, p, hf => by
    obtain ⟨t0, it0, H0, ht0, run, m0⟩ := rebalanceOrSplit_ok hK (f + 1) g e hfull hcap p hf
    have run' := run
    obtain ⟨nd', e', n0, hnt, hi⟩ := p.live g.wf
    rw [e] at e'; cases e'
    unfold rebalanceOrSplitA
    unfold rebalanceOrSplit at run'
    have hc : nd.count = c.K := hfull
    simp only [e, Option.bind_eq_bind, Option.bind_some, hc, hcap, beq_self_eq_true, Bool.and_self, check_true] at run' ⊢
    by_cases hroot : n = t.root
    · rw [if_pos hroot] at run' ⊢
      subst hroot
      obtain ⟨t1, ht1, pd, e1, g1, s1, b1, ep, hk1, hv1⟩ := growRoot_ok g e hcap
      cases b with
      | zero => exact .inr ⟨t, rfl, by omega, .refl _ g⟩
      | succ b =>
        simp only [e1, Option.bind_some] at run' ⊢
        cases b with
        | zero =>
          refine .inr ⟨t1, rfl, by omega, H + 1, ht1, g1.mono ?_, s1⟩
          rintro m (h | rfl)
          · exact ⟨.inl h.1, h.2⟩
          · exact ⟨.inr (by simp), by rw [g1.wf.rootHt]; omega⟩
        | succ b =>
          refine .inl ⟨t0, it0, H0, ht0, b, ?_, by omega, by omega, run, m0, by simp⟩
          simp [splitNodeA, run']
    · rw [if_neg hroot] at run' ⊢
      rcases tryLeft_ok g hK e hfull hroot p with h1 | ⟨h', it', ht', h1, m1, g1⟩
      swap
      · exact .inl ⟨_, _, H, ht', b, by simp [h1], Nat.le_refl _, by omega, by rw [run]; simpa [h1] using run'.symm, m1,
          fun _ => g1⟩
      rcases tryRight_ok g hK e hfull hroot p with h2 | ⟨h', it', ht', h2, m2, g2⟩
      swap
      · exact .inl ⟨_, _, H, ht', b, by simp [h1, h2], Nat.le_refl _, by omega, by rw [run]; simpa [h1, h2] using run'.symm,
          m2, fun _ => g2⟩
      obtain ⟨pd, ep, p0, hkid, hpt, _, _, hkl, hiK⟩ := siblings g hK e hfull hroot p
      have capp := g.wf.cap_eq ep p0 (.inr (by omega))
      simp only [h1, h2, Option.bind_some, ep, capp, beq_self_eq_true, check_true] at run' ⊢
      have hpc : pd.count = pd.vals.length := rfl
      have hbp := g.wf.bound _ _ ep p0
      by_cases hpf : pd.count = c.K
      · rw [if_pos hpf] at run' ⊢
        have hposl := (List.getElem?_eq_some_iff.1 hkid).1
        obtain ⟨X1, Y1, pp⟩ := g.wf.pt (i := nd.position) ep p0 (by omega)
        rw [hpt] at pp
        rcases rebalanceOrSplitA_ok hK b f g ep (by omega) capp pp (by omega) with
          ⟨t1, it1, H1, ht1, left, e1, hle, hub, e2, m1, z1⟩ | ⟨t1, e1, hub, l1⟩
        · simp only [e1, e2, Option.bind_some] at run' ⊢
          cases left with
          | zero =>
            obtain ⟨pd1, ep1, p10, hpk1, _⟩ := m1.pt.live m1.good.wf
            refine .inr ⟨t1, rfl, by omega, H1, ht1, ?_, m1.size⟩
            by_cases hb0 : b = 0
            · exact (z1 hb0).mono fun m h => ⟨.inl h.1, h.2⟩
            · refine m1.good.mono ?_
              rintro m (h | rfl)
              · exact ⟨.inl h.1, h.2⟩
              · exact ⟨.inr hb0, by omega⟩
          | succ left =>
            refine .inl ⟨t0, it0, H0, ht0, left, ?_, by omega, by omega, run, m0, fun h => by omega⟩
            simp [splitNodeA, run']
        · refine .inr ⟨t1, ?_, by omega, l1⟩
          simp only [e1, Option.bind_some]
      · rw [if_neg hpf] at run' ⊢
        cases b with
        | zero => exact .inr ⟨t, rfl, by omega, .refl _ g⟩
        | succ b =>
          refine .inl ⟨t0, it0, H0, ht0, b, ?_, by omega, by omega, run, m0, fun h => by omega⟩
          have : splitNode c t ⟨n, i⟩ nd.parent = some (t0, it0) := by simpa using run'
          simp [splitNodeA, this]

/-- Making room. -/
theorem makeRoomA_ok (hK : 3 ≤ c.K) (b : Nat) {k n i : Nat} {X Y : List α} (g : Good c t (Loose z ht) H ht L)
    (p : Pt t.heap t.root H k n i X Y) :
    (∃ x left, makeRoomA c b t ⟨n, i⟩ = some (.done x left) ∧ left ≤ b ∧ b ≤ left + H + 2 ∧
      makeRoom c t ⟨n, i⟩ = some x) ∨
    ∃ t', makeRoomA c b t ⟨n, i⟩ = some (.failed t') ∧ b ≤ H + 1 ∧ Left z c b t t' L := by
  obtain ⟨nd, e, n0, hnt, hi⟩ := p.live g.wf
  have main : ∀ (n i : Nat) (nd : Node α), t.heap.get n = some nd → nd.leaf = true → Pt t.heap t.root H 0 n i X Y →
      (∃ x left, (if nd.count = nd.cap c then
        if nd.cap c < c.K then
          match b with
          | 0 => some (.failed t)
          | b + 1 => do
            let x ← growLeafRoot c t ⟨n, i⟩ (nd.cap c)
            some (.done x b)
        else rebalanceOrSplitA c (t.heap.length + 1) b t ⟨n, i⟩
      else some (.done (t, ⟨n, i⟩) b)) = some (.done x left) ∧ left ≤ b ∧ b ≤ left + H + 2 ∧
        (if nd.count = nd.cap c then
            if nd.cap c < c.K then growLeafRoot c t ⟨n, i⟩ (nd.cap c)
            else rebalanceOrSplit c (t.heap.length + 1) t ⟨n, i⟩
          else some (t, ⟨n, i⟩)) = some x) ∨
      ∃ t', (if nd.count = nd.cap c then
        if nd.cap c < c.K then
          match b with
          | 0 => some (.failed t)
          | b + 1 => do
            let x ← growLeafRoot c t ⟨n, i⟩ (nd.cap c)
            some (.done x b)
        else rebalanceOrSplitA c (t.heap.length + 1) b t ⟨n, i⟩
      else some (Tried.done (t, (⟨n, i⟩ : It)) b)) = some (.failed t') ∧ b ≤ H + 1 ∧ Left z c b t t' L := by
    intro n i nd e hleaf p
    obtain ⟨nd', e', n0, hnt, hi⟩ := p.live g.wf
    rw [e] at e'; cases e'
    by_cases hfull : nd.count = nd.cap c
    · simp only [if_pos hfull]
      by_cases hsmall : nd.cap c < c.K
      · simp only [if_pos hsmall]
        have hroot : n = t.root := by
          by_contra hr
          have := g.wf.cap_eq e n0 (.inl hr)
          omega
        subst hroot
        have hH : H = 0 := by rw [← g.wf.rootHt, hnt]
        subst hH
        obtain ⟨t1, it1, nd1, e1, _⟩ := growLeafRoot_ok g e hfull hsmall p
        cases b with
        | zero => exact .inr ⟨t, rfl, by omega, .refl _ g⟩
        | succ b => exact .inl ⟨(t1, it1), b, by simp [e1], by omega, by omega, e1⟩
      · simp only [if_neg hsmall]
        have hcapK : nd.cap c = c.K := by
          have := g.wf.vals_le e n0
          have : nd.count = nd.vals.length := rfl
          omega
        have hfu := g.fuel
        rcases rebalanceOrSplitA_ok hK b (t.heap.length + 1) g e (by rw [← hcapK]; exact hfull) hcapK p (by omega) with
          ⟨t1, it1, H1, ht1, left, e1, hle, hub, e2, m1, z1⟩ | ⟨t1, e1, hub, l1⟩
        · exact .inl ⟨(t1, it1), left, e1, hle, by omega, e2⟩
        · exact .inr ⟨t1, e1, by omega, l1⟩
    · simp only [if_neg hfull]
      exact .inl ⟨_, b, rfl, Nat.le_refl _, by omega, rfl⟩
  unfold makeRoomA makeRoom
  simp only [e, Option.bind_eq_bind, Option.bind_some]
  cases k with
  | zero =>
    have hleaf := (g.wf.leaf_iff e n0).2 hnt
    simp only [hleaf, if_true, Option.bind_some, e]
    exact main n i nd e hleaf p
  | succ k =>
    have hleaf := g.wf.leaf_false e n0 (by omega)
    obtain ⟨l, ld, q, el, l0, hl, nd', e', _, w, hz, hlz, hd⟩ := decrement_node g p
    rw [e] at e'; cases e'
    have hlc : 1 ≤ ld.vals.length := g.full l ld el l0 (fun h => by
      have := h.2; have := (g.wf.leaf_iff el l0).1 hl; omega)
    have hdec : decrement t.heap ⟨n, i⟩ = some ⟨l, ld.count - 1⟩ := by
      unfold decrement
      simp only [e, Option.bind_eq_bind, Option.bind_some, hleaf, Bool.false_eq_true, if_false, hz, hd, el]
      rw [check_of (by simp [Node.count, hlc])]
      rfl
    have hpos : ld.count - 1 + 1 = ld.vals.length := by unfold Node.count; omega
    simp only [hleaf, Bool.false_eq_true, if_false, hdec, Option.bind_some, hpos, el]
    exact main l ld.vals.length ld el hl q

/-! ### Insertions -/

/-- The function that may be left by an exception has the result of the one that is not, or leaves the values. It
allocates less than `B` nodes; `P` says more of the results it could not give. -/
def Sim {β : Type} (z : Prop) (c : Cfg α κ) (b B : Nat) (L : List α) (P : β → Prop) (xA : Option (Tried α β))
    (x : Option β) : Prop :=
  ∃ y, x = some y ∧ ((∃ left, xA = some (.done y left) ∧ left ≤ b ∧ b ≤ left + B) ∨
    ∃ t', xA = some (.failed t') ∧ b < B ∧ P y ∧ RepZ (z ∨ b ≠ 0) c t' L)

theorem Sim.imp {β : Type} {b B B' : Nat} {P Q : β → Prop} {xA : Option (Tried α β)} {x : Option β}
    (h : Sim z c b B L P xA x) (hB : B ≤ B') (hPQ : ∀ y, P y → Q y) : Sim z c b B' L Q xA x := by
  obtain ⟨y, e, ⟨left, h1, h2, h3⟩ | ⟨t', h1, h2, h3, h4⟩⟩ := h
  · exact ⟨y, e, .inl ⟨left, h1, h2, by omega⟩⟩
  · exact ⟨y, e, .inr ⟨t', h1, by omega, hPQ y h3, h4⟩⟩

theorem Sim.map {β γ : Type} {b B : Nat} {P : β → Prop} {Q : γ → Prop} {xA : Option (Tried α β)} {x : Option β}
    (h : Sim z c b B L P xA x) (f : β → γ) (hPQ : ∀ y, P y → Q (f y)) :
    Sim z c b B L Q (xA.bind fun x => some (x.map f)) (x.bind fun x => some (f x)) := by
  obtain ⟨y, rfl, ⟨left, rfl, h2, h3⟩ | ⟨t', rfl, h2, h3, h4⟩⟩ := h
  · exact ⟨f y, rfl, .inl ⟨left, rfl, h2, h3⟩⟩
  · exact ⟨f y, rfl, .inr ⟨t', rfl, h2, hPQ y h3, h4⟩⟩

/-- internal_emplace. -/
theorem Good.emplaceA (hK : 3 ≤ c.K) (b : Nat) {v : α} {it : It} {k : Nat} {X Y : List α} (g : Good c t (Loose z ht) H ht L)
    (hs : t.size = L.length) (p : Pt t.heap t.root H k it.node it.pos X Y) :
    Sim z c b (t.heap.length + 3) L (fun _ => True) (internalEmplaceA c b t it v) (internalEmplace c t it (.val v)) := by
  obtain ⟨it', t', e, _⟩ := g.emplace hK (v := v) hs p
  have hf := g.fuel
  refine ⟨(it', t'), e, ?_⟩
  rw [internalEmplace_eq] at e
  simp only [Option.bind_eq_bind] at e
  rcases makeRoomA_ok hK b g p with ⟨⟨t1, it1⟩, left, e1, hle, hub, e2⟩ | ⟨t1, e1, hub, H1, ht1, g1, s1⟩
  · have e2 : makeRoom c t it = some (t1, it1) := e2
    have e1 : makeRoomA c b t it = some (.done (t1, it1) left) := e1
    rw [e2] at e
    simp only [Option.bind_some] at e
    obtain ⟨h, e3, e4⟩ := Option.bind_eq_some_iff.1 e
    simp only [Option.some.injEq] at e4
    refine .inl ⟨left, ?_, hle, by omega⟩
    unfold internalEmplaceA
    simp only [e1, Option.bind_eq_bind, Option.bind_some, e3]
    rw [e4]
  · have e1 : makeRoomA c b t it = some (.failed t1) := e1
    refine .inr ⟨t1, ?_, by omega, trivial, .inr ⟨H1, ht1, g1, by rw [s1, hs]⟩⟩
    unfold internalEmplaceA
    simp only [e1, Option.bind_eq_bind, Option.bind_some]

/-- The first value. -/
theorem Empty.emplaceA (hK : 3 ≤ c.K) (b : Nat) {v : α} {it : It} {k : Nat} {X Y : List α} (e : Empty t)
    (p : Pt (firstRoot t).heap (firstRoot t).root 0 k it.node it.pos X Y) :
    ∃ y, internalEmplace c (firstRoot t) it (.val v) = some y ∧
      internalEmplaceA c b (firstRoot t) it v = some (.done y b) := by
  obtain ⟨it', t', e', _⟩ := e.emplace (z := False) hK (v := v) p
  refine ⟨(it', t'), e', ?_⟩
  obtain ⟨g, sz, nd, en, room⟩ := e.first hK
  obtain ⟨nd', en', n0, hk, _⟩ := p.live g.wf
  have hn : it.node = (firstRoot t).root := by
    rcases g.wf.only_root _ nd' en' with h | h
    · exact absurd h n0
    · exact h
  have hnd : nd' = nd := by
    rw [hn, en] at en'
    cases en'; rfl
  subst hnd
  have hleaf := (g.wf.leaf_iff en' n0).2 rfl
  have hne : nd'.count ≠ nd'.cap c := by
    have : nd'.count = nd'.vals.length := rfl
    omega
  have e1 : makeRoomA c b (firstRoot t) it = some (.done (firstRoot t, it) b) := by
    unfold makeRoomA
    simp only [en', hleaf, Option.bind_eq_bind, Option.bind_some, if_true, if_neg hne]
  have e2 : makeRoom c (firstRoot t) it = some (firstRoot t, it) := by
    unfold makeRoom
    simp only [en', hleaf, Option.bind_eq_bind, Option.bind_some, if_true, if_neg hne]
  rw [internalEmplace_eq, e2] at e'
  simp only [Option.bind_eq_bind, Option.bind_some] at e'
  obtain ⟨h, e3, e4⟩ := Option.bind_eq_some_iff.1 e'
  simp only [Option.some.injEq] at e4
  unfold internalEmplaceA
  simp only [e1, Option.bind_eq_bind, Option.bind_some, e3]
  rw [e4]

theorem addUnique_isNew {key : α → κ} {lt : κ → κ → Bool} {l : List α} {v : α} (h : (addUnique key lt l v).2.1 = true) :
    l.any (same key lt (key v)) = false := by
  unfold addUnique at h
  by_cases hs : l.any (same key lt (key v)) = true
  · simp [hs] at h
  · simpa using hs

section
variable (hK : 3 ≤ c.K) (o : StrictWeak c.lt) (r : RepZ z c t L) (s : Sorted c.multi c.key c.lt L)
include hK o r s

theorem insertUniqueA_sim (b : Nat) (v : α) : Sim z c b (t.heap.length + 3) L (fun y => y.1.2 = true)
    (insertUniqueA c b t v) (insertUnique c t (c.key v) (.val v)) := by
  rcases r with ⟨e, rfl⟩ | ⟨H, ht, g, hs⟩
  · obtain ⟨g, sz, nd, en, room⟩ := e.first hK
    obtain ⟨it, eq, found, e1, hf, h⟩ := locate_found_ok g o (by unfold Sorted; split <;> simp) (c.key v)
    cases found with
    | some r =>
      obtain ⟨X, v', Y, ⟨k, q, _⟩, _⟩ := h
      have := q.total g.wf
      rw [g.seq] at this
      simp at this
    | none =>
      obtain ⟨X, Y, p, h1, h2⟩ := h
      obtain ⟨y, ey, eyA⟩ := e.emplaceA hK (b - 1) (v := v) p
      refine ⟨((y.1, true), y.2), ?_, ?_⟩
      · unfold insertUnique
        simp only [e1, Option.bind_eq_bind, Option.bind_some]
        rw [hf]
        simp [ey]
      · unfold insertUniqueA withRootA
        rw [if_pos e.size]
        cases b with
        | zero => exact .inr ⟨t, rfl, by omega, rfl, .inl ⟨e, rfl⟩⟩
        | succ b =>
          refine .inl ⟨b, ?_, by omega, by omega⟩
          simp only [e1, Option.bind_eq_bind, Option.bind_some]
          rw [hf]
          simp only [Option.bind_some]
          have : internalEmplaceA c b (firstRoot t) it v = some (.done y b) := eyA
          rw [this]
          rfl
  · have hs0 : t.size ≠ 0 := by
      have := g.ne_nil
      rw [hs]
      exact fun h => this (List.length_eq_zero_iff.1 h)
    have hfr : firstRoot t = t := by
      unfold firstRoot
      rw [if_neg hs0]
    obtain ⟨it, eq, found, e1, hf, h⟩ := locate_found_ok g o s (c.key v)
    unfold insertUniqueA withRootA insertUnique
    rw [if_neg hs0]
    simp only [hfr, e1, Option.bind_eq_bind, Option.bind_some]
    rw [hf]
    simp only [Option.bind_some]
    cases found with
    | some r => exact ⟨_, rfl, .inl ⟨b, rfl, Nat.le_refl _, by omega⟩⟩
    | none =>
      obtain ⟨X, Y, p, h1, h2⟩ := h
      exact (g.emplaceA hK b (v := v) hs p).map (fun x => ((x.1, true), x.2)) fun _ _ => rfl

theorem insertMultiA_sim (b : Nat) (v : α) : Sim z c b (t.heap.length + 3) L (fun _ => True)
    (insertMultiA c b t v) (insertMulti c t (c.key v) (.val v)) := by
  rcases r with ⟨e, rfl⟩ | ⟨H, ht, g, hs⟩
  · obtain ⟨g, sz, nd, en, room⟩ := e.first hK
    obtain ⟨r, X, Y, e1, hr, ⟨it, e2, k, p, _⟩, hL, hX, hY⟩ :=
      internalUpperBound_ok g o (by unfold Sorted; split <;> simp) (c.key v)
    obtain ⟨y, ey, eyA⟩ := e.emplaceA hK (b - 1) (v := v) p
    refine ⟨y, by simp [insertMulti, e1, e2, ey], ?_⟩
    unfold insertMultiA withRootA
    rw [if_pos e.size]
    cases b with
    | zero => exact .inr ⟨t, rfl, by omega, trivial, .inl ⟨e, rfl⟩⟩
    | succ b =>
      refine .inl ⟨b, ?_, by omega, by omega⟩
      simp only [e1, e2, Option.bind_eq_bind, Option.bind_some]
      exact eyA
  · have hs0 : t.size ≠ 0 := by
      have := g.ne_nil
      rw [hs]
      exact fun h => this (List.length_eq_zero_iff.1 h)
    have hfr : firstRoot t = t := by
      unfold firstRoot
      rw [if_neg hs0]
    obtain ⟨r, X, Y, e1, hr, ⟨it, e2, k, p, _⟩, hL, hX, hY⟩ := internalUpperBound_ok g o s (c.key v)
    unfold insertMultiA withRootA insertMulti
    rw [if_neg hs0]
    simp only [hfr, e1, e2, Option.bind_eq_bind, Option.bind_some]
    exact g.emplaceA hK b (v := v) hs p

theorem insertHintUniqueA_sim (b : Nat) (v : α) {X Y : List α} {pos : It} (hL : X ++ Y = L)
    (hp : t.iterAt X.length = some pos) : Sim z c b (t.heap.length + 3) L (fun y => y.1.2 = true)
    (insertHintUniqueA c b t pos v) (insertHintUnique c t pos (c.key v) (.val v)) := by
  have plain := insertUniqueA_sim hK o r s b v
  rcases r with ⟨e, rfl⟩ | ⟨H, ht, g, hs⟩
  · unfold insertHintUniqueA insertHintUnique
    rw [if_pos e.size, if_pos e.size]
    exact plain
  · have hs0 : t.size ≠ 0 := by
      have := g.ne_nil
      rw [hs]
      exact fun h => this (List.length_eq_zero_iff.1 h)
    obtain ⟨pos', e', q⟩ := g.iterAt_ok hL
    rw [hp] at e'; cases e'
    obtain ⟨en, ee, qe, _⟩ := g.end_ok
    obtain ⟨bg, eb, qb⟩ := g.begin_ok
    unfold insertHintUniqueA insertHintUnique
    rw [if_neg hs0, if_neg hs0]
    simp only [ee, eb, Option.bind_eq_bind, Option.bind_some, q.stopOrAt g qe, q.stopOrBefore g qb]
    by_cases hb : Y.head?.all (fun w => c.lt (c.key v) (c.key w)) = true
    · simp only [if_pos hb]
      by_cases hf : X.getLast?.all (fun w => c.lt (c.key w) (c.key v)) = true
      · simp only [if_pos hf]
        obtain ⟨k, p, _⟩ := q
        exact (g.emplaceA hK b (v := v) hs p).map (fun x => ((x.1, true), x.2)) fun _ _ => rfl
      · simp only [if_neg hf]
        exact plain
    · simp only [if_neg hb]
      cases Y with
      | nil => exact absurd rfl hb
      | cons y Y' =>
        rw [q.deref g]
        simp only [Option.bind_some]
        by_cases hy : c.lt (c.key y) (c.key v) = true
        · simp only [if_pos hy]
          obtain ⟨nx, en', qn⟩ := q.increment g
          rw [en']
          simp only [Option.bind_some, qn.stopOrAt g qe]
          by_cases hf : Y'.head?.all (fun w => c.lt (c.key v) (c.key w)) = true
          · simp only [if_pos hf]
            obtain ⟨k, p, _⟩ := qn
            exact (g.emplaceA hK b (v := v) hs p).map (fun x => ((x.1, true), x.2)) fun _ _ => rfl
          · simp only [if_neg hf]
            exact plain
        · simp only [if_neg hy]
          exact ⟨_, rfl, .inl ⟨b, rfl, Nat.le_refl _, by omega⟩⟩

theorem insertHintMultiA_sim (b : Nat) (v : α) {X Y : List α} {pos : It} (hL : X ++ Y = L)
    (hp : t.iterAt X.length = some pos) : Sim z c b (t.heap.length + 3) L (fun _ => True)
    (insertHintMultiA c b t pos v) (insertHintMulti c t pos (c.key v) (.val v)) := by
  have plain := insertMultiA_sim hK o r s b v
  rcases r with ⟨e, rfl⟩ | ⟨H, ht, g, hs⟩
  · unfold insertHintMultiA insertHintMulti
    rw [if_pos e.size, if_pos e.size]
    exact plain
  · have hs0 : t.size ≠ 0 := by
      have := g.ne_nil
      rw [hs]
      exact fun h => this (List.length_eq_zero_iff.1 h)
    obtain ⟨pos', e', q⟩ := g.iterAt_ok hL
    rw [hp] at e'; cases e'
    obtain ⟨en, ee, qe, _⟩ := g.end_ok
    obtain ⟨bg, eb, qb⟩ := g.begin_ok
    unfold insertHintMultiA insertHintMulti
    rw [if_neg hs0, if_neg hs0]
    simp only [ee, eb, Option.bind_eq_bind, Option.bind_some, q.stopOrAt g qe, q.stopOrBefore g qb]
    by_cases hb : Y.head?.all (fun w => !(c.lt (c.key w) (c.key v))) = true
    · simp only [if_pos hb]
      by_cases hf : X.getLast?.all (fun w => !(c.lt (c.key v) (c.key w))) = true
      · simp only [if_pos hf]
        obtain ⟨k, p, _⟩ := q
        exact g.emplaceA hK b (v := v) hs p
      · simp only [if_neg hf]
        exact plain
    · simp only [if_neg hb]
      cases Y with
      | nil => exact absurd rfl hb
      | cons y Y' =>
        obtain ⟨nx, en', qn⟩ := q.increment g
        rw [en']
        simp only [Option.bind_some, qn.stopOrAt g qe]
        by_cases hf : Y'.head?.all (fun w => !(c.lt (c.key w) (c.key v))) = true
        · simp only [if_pos hf]
          obtain ⟨k, p, _⟩ := qn
          exact g.emplaceA hK b (v := v) hs p
        · simp only [if_neg hf]
          exact plain

theorem insertUnique_new (hm : c.multi = false) {v : α} {y : (It × Bool) × Tree α}
    (e : insertUnique c t (c.key v) (.val v) = some y) (hy : y.1.2 = true) :
    L.any (same c.key c.lt (c.key v)) = false := by
  obtain ⟨it, t', e1, _⟩ := insertUnique_add hK o r s hm v
  rw [e] at e1; cases e1
  exact addUnique_isNew hy

theorem insertHintUnique_new (hm : c.multi = false) {i : Nat} {pos : It} (hi : i ≤ L.length) (hp : t.iterAt i = some pos)
    {v : α} {y : (It × Bool) × Tree α}
    (e : insertHintUnique c t pos (c.key v) (.val v) = some y) (hy : y.1.2 = true) :
    L.any (same c.key c.lt (c.key v)) = false := by
  obtain ⟨it, t', e1, _⟩ := insertHintUnique_add hK o r s hm hi hp v
  rw [e] at e1; cases e1
  exact addUnique_isNew hy

end

/-- One insertion of a range, at the end. -/
theorem insertEndA_ok (hK : 3 ≤ c.K) (o : StrictWeak c.lt) (h : HoldsZ z c t L) (b : Nat) (v : α) :
    ∃ e, t.end = some e ∧
      ((∃ t' left, (if c.multi then (insertHintMultiA c b t e v).map (Tried.map Prod.snd)
          else (insertHintUniqueA c b t e v).map (Tried.map Prod.snd)) = some (.done t' left) ∧ left ≤ b ∧
          b ≤ left + (t.heap.length + 3) ∧
          (if c.multi then (insertHintMulti c t e (c.key v) (.val v)).map Prod.snd
            else (insertHintUnique c t e (c.key v) (.val v)).map Prod.snd) = some t' ∧
          HoldsZ z c t' (if c.multi then (addMulti c.key c.lt L v).2 else (addUnique c.key c.lt L v).2.2)) ∨
        ∃ t', (if c.multi then (insertHintMultiA c b t e v).map (Tried.map Prod.snd)
          else (insertHintUniqueA c b t e v).map (Tried.map Prod.snd)) = some (.failed t') ∧ b < t.heap.length + 3 ∧
          HoldsZ (z ∨ b ≠ 0) c t' L) := by
  obtain ⟨r, s⟩ := h
  obtain ⟨e, ee, ie⟩ := r.end_ok
  refine ⟨e, ee, ?_⟩
  cases hm : c.multi with
  | true =>
    simp only [if_true]
    obtain ⟨it, t', e1, r1, s1⟩ := insertEndMulti_add hK o r s hm ee v
    obtain ⟨y, e2, ⟨left, e3, h1, h2⟩ | ⟨t'', e3, h1, _, h2⟩⟩ := insertHintMultiA_sim hK o r s b v (X := L) (Y := []) (by simp) ie
    · rw [e1] at e2; cases e2
      exact .inl ⟨t', left, by simp [e3, Tried.map], h1, h2, by simp [e1], r1, s1⟩
    · exact .inr ⟨t'', by simp [e3, Tried.map], h1, h2, s⟩
  | false =>
    simp only [Bool.false_eq_true, if_false]
    obtain ⟨it, t', e1, r1, _, s1, _⟩ := insertHintUnique_add hK o r s hm (Nat.le_refl _) ie v
    obtain ⟨y, e2, ⟨left, e3, h1, h2⟩ | ⟨t'', e3, h1, _, h2⟩⟩ := insertHintUniqueA_sim hK o r s b v (X := L) (Y := []) (by simp) ie
    · rw [e1] at e2; cases e2
      exact .inl ⟨t', left, by simp [e3, Tried.map], h1, h2, by simp [e1], r1, s1⟩
    · exact .inr ⟨t'', by simp [e3, Tried.map], h1, h2, s⟩

theorem HoldsZ.mono {z' : Prop} (h : HoldsZ z c t L) (hz : z → z') : HoldsZ z' c t L := ⟨h.1.mono hz, h.2⟩

/-- The spec of the insertion of a range. -/
abbrev addAll (c : Cfg α κ) (L vs : List α) : List α :=
  vs.foldl (fun l v => if c.multi then (addMulti c.key c.lt l v).2 else (addUnique c.key c.lt l v).2.2) L

/-- Insertion of a range. -/
theorem insertAllA_ok (hK : 3 ≤ c.K) (o : StrictWeak c.lt) : ∀ (vs : List α) {t : Tree α} {L : List α} (b : Nat),
    HoldsZ z c t L →
    (∃ t' left, insertAllA c b t vs = some (.done t' left) ∧
      (if c.multi then insertAllMulti c t vs else insertAllUnique c t vs) = some t' ∧ HoldsZ z c t' (addAll c L vs)) ∨
    ∃ t' n, insertAllA c b t vs = some (.failed t') ∧ n < vs.length ∧
      HoldsZ (z ∨ b ≠ 0) c t' (addAll c L (vs.take n))
  | [], t, L, b, h => .inl ⟨t, b, rfl, by split <;> rfl, h⟩
  | v :: vs, t, L, b, h => by
    obtain ⟨e, ee, ⟨t1, left, e1, hle, hub, e2, h1⟩ | ⟨t1, e1, hub, h1⟩⟩ := insertEndA_ok hK o h b v
    · have run : insertAllA c b t (v :: vs) = insertAllA c left t1 vs := by
        rw [insertAllA]
        by_cases hm : c.multi = true
        · rw [if_pos hm] at e1
          simp only [ee, hm, if_true, Option.bind_eq_bind, Option.bind_some, e1]
        · rw [if_neg hm] at e1
          simp only [ee, hm, if_false, Bool.false_eq_true, Option.bind_eq_bind, Option.bind_some, e1]
      rw [run]
      rcases insertAllA_ok hK o vs left h1 with ⟨t2, left2, e3, e4, h2⟩ | ⟨t2, n, e3, hn, h2⟩
      · refine .inl ⟨t2, left2, e3, ?_, h2⟩
        by_cases hm : c.multi = true
        · rw [if_pos hm] at e2 e4 ⊢
          obtain ⟨x, e5, e6⟩ := Option.map_eq_some_iff.1 e2
          simp only [insertAllMulti, ee, Option.bind_eq_bind, Option.bind_some, e5]
          rw [e6, e4]
        · rw [if_neg hm] at e2 e4 ⊢
          obtain ⟨x, e5, e6⟩ := Option.map_eq_some_iff.1 e2
          simp only [insertAllUnique, ee, Option.bind_eq_bind, Option.bind_some, e5]
          rw [e6, e4]
      · refine .inr ⟨t2, n + 1, e3, by simpa using hn, ?_⟩
        exact h2.mono fun hz => hz.imp_right fun hl => by omega
    · refine .inr ⟨t1, 0, ?_, by simp, h1⟩
      rw [insertAllA]
      by_cases hm : c.multi = true
      · rw [if_pos hm] at e1
        simp only [ee, hm, if_true, Option.bind_eq_bind, Option.bind_some, e1]
      · rw [if_neg hm] at e1
        simp only [ee, hm, if_false, Bool.false_eq_true, Option.bind_eq_bind, Option.bind_some, e1]

/-- Each call. -/
theorem execA_ok (hK : 3 ≤ c.K) (o : StrictWeak c.lt) {d : Bool} (h : HoldsZ (d = true) c t L) (call : Call α κ)
    (hok : Ok c.key L call.op) (hq : d = true → call.op.erases = false) :
    ∃ out t' L', execA c call.room t call.op = some (out, t') ∧ StepA c.multi c.key c.lt L call.op out L' ∧
      HoldsZ (midway d call out = true) c t' L' := by
  obtain ⟨op, b⟩ := call
  have bad : midway d (⟨op, b⟩ : Call α κ) .badAlloc = true ↔ d = true ∨ b ≠ 0 := by simp [midway]
  cases op with
  | insert v =>
    obtain ⟨rr, t1, L1, e1, st, h1⟩ := exec_okZ hK o h (.insert v) hok (fun _ => rfl)
    obtain ⟨r, s⟩ := h
    by_cases hm : c.multi = true
    · obtain ⟨⟨it, t2⟩, e2, ⟨left, e3, _⟩ | ⟨t3, e3, _, _, h3⟩⟩ := insertMultiA_sim hK o r s b v
      · refine ⟨.ok rr, t1, L1, ?_, st, h1⟩
        simp only [exec, hm, if_true, e2, Option.bind_eq_bind, Option.bind_some] at e1
        simp only [execA, hm, if_true, e3, Option.bind_eq_bind, Option.bind_some]
        cases hi : t2.index it with
        | none => rw [hi] at e1; cases e1
        | some i => rw [hi] at e1; cases e1; rfl
      · exact ⟨.badAlloc, t3, L, by simp [execA, hm, e3], ⟨by simp [hm], rfl⟩, h3.mono bad.2, s⟩
    · rw [Bool.not_eq_true] at hm
      obtain ⟨⟨⟨it, nw⟩, t2⟩, e2, ⟨left, e3, _⟩ | ⟨t3, e3, _, hnw, h3⟩⟩ := insertUniqueA_sim hK o r s b v
      · refine ⟨.ok rr, t1, L1, ?_, st, h1⟩
        simp only [exec, hm, Bool.false_eq_true, if_false, e2, Option.bind_eq_bind, Option.bind_some] at e1
        simp only [execA, hm, Bool.false_eq_true, if_false, e3, Option.bind_eq_bind, Option.bind_some]
        cases hi : t2.index it with
        | none => rw [hi] at e1; cases e1
        | some i => rw [hi] at e1; cases e1; rfl
      · refine ⟨.badAlloc, t3, L, by simp [execA, hm, e3], ⟨fun _ => ?_, rfl⟩, h3.mono bad.2, s⟩
        exact insertUnique_new hK o r s hm e2 hnw
  | insertHint i v =>
    obtain ⟨rr, t1, L1, e1, st, h1⟩ := exec_okZ hK o h (.insertHint i v) hok (fun _ => rfl)
    obtain ⟨r, s⟩ := h
    obtain ⟨pos, hp⟩ := r.iter hok
    have hl : (L.take i).length = i := by simp; exact hok
    by_cases hm : c.multi = true
    · obtain ⟨⟨it, t2⟩, e2, ⟨left, e3, _⟩ | ⟨t3, e3, _, _, h3⟩⟩ :=
        insertHintMultiA_sim hK o r s b v (X := L.take i) (Y := L.drop i) (by simp) (by rw [hl]; exact hp)
      · refine ⟨.ok rr, t1, L1, ?_, st, h1⟩
        simp only [exec, hp, hm, if_true, e2, Option.bind_eq_bind, Option.bind_some] at e1
        simp only [execA, hp, hm, if_true, e3, Option.bind_eq_bind, Option.bind_some]
        cases hi : t2.index it with
        | none => rw [hi] at e1; cases e1
        | some i => rw [hi] at e1; cases e1; rfl
      · exact ⟨.badAlloc, t3, L, by simp [execA, hp, hm, e3], ⟨by simp [hm], rfl⟩, h3.mono bad.2, s⟩
    · rw [Bool.not_eq_true] at hm
      obtain ⟨⟨⟨it, nw⟩, t2⟩, e2, ⟨left, e3, _⟩ | ⟨t3, e3, _, hnw, h3⟩⟩ :=
        insertHintUniqueA_sim hK o r s b v (X := L.take i) (Y := L.drop i) (by simp) (by rw [hl]; exact hp)
      · refine ⟨.ok rr, t1, L1, ?_, st, h1⟩
        simp only [exec, hp, hm, Bool.false_eq_true, if_false, e2, Option.bind_eq_bind, Option.bind_some] at e1
        simp only [execA, hp, hm, Bool.false_eq_true, if_false, e3, Option.bind_eq_bind, Option.bind_some]
        cases hi : t2.index it with
        | none => rw [hi] at e1; cases e1
        | some i => rw [hi] at e1; cases e1; rfl
      · refine ⟨.badAlloc, t3, L, by simp [execA, hp, hm, e3], ⟨fun _ => ?_, rfl⟩, h3.mono bad.2, s⟩
        exact insertHintUnique_new hK o r s hm hok hp e2 hnw
  | insertAll vs =>
    rcases insertAllA_ok hK o vs b h with ⟨t1, left, e1, _, h1⟩ | ⟨t1, n, e1, hn, h1⟩
    · exact ⟨.ok .done, t1, _, by simp [execA, e1], ⟨rfl, rfl⟩, h1⟩
    · exact ⟨.badAlloc, t1, _, by simp [execA, e1], ⟨n, hn, rfl, rfl⟩, h1.mono bad.2⟩
  | clear =>
    obtain ⟨t', e, he⟩ := Tree.clear_ok h.1
    exact ⟨.ok .done, t', [], by simp [execA, exec, e], ⟨rfl, rfl⟩, .inl ⟨he, rfl⟩, (holds_empty c).2⟩
  | _ =>
    obtain ⟨rr, t1, L1, e1, st, h1⟩ := exec_okZ hK o h _ hok hq
    exact ⟨.ok rr, t1, L1, by simp [execA, e1], st, h1⟩

/-- Each caller. -/
theorem Caller.run_ok (hK : 3 ≤ c.K) (o : StrictWeak c.lt) {who : Caller α κ} (hs : who.Safe c.multi c.key c.lt) :
    ∀ n, ∃ outs t L d, Caller.run c who n = some (outs, t) ∧ Sees c.multi c.key c.lt who outs L d ∧ HoldsZ (d = true) c t L
  | 0 => ⟨[], Tree.empty, [], false, rfl, .start, (holds_empty c).mono (by simp)⟩
  | n + 1 => by
    obtain ⟨outs, t, L, d, e, h, hh⟩ := Caller.run_ok hK o hs n
    cases hw : who outs with
    | none => exact ⟨outs, t, L, d, by simp [Caller.run, e, hw], h, hh⟩
    | some call =>
      obtain ⟨hok, hq⟩ := hs outs L d call h hw
      obtain ⟨out, t', L', e', st, hh'⟩ := execA_ok hK o hh call hok hq
      exact ⟨out :: outs, t', L', _, by simp [Caller.run, e, hw, e'], .call h hw st, hh'⟩

/-! ### Enough room -/

theorem insertAllA_enough (hK : 3 ≤ c.K) (o : StrictWeak c.lt) : ∀ (vs : List α) {t : Tree α} {L : List α},
    HoldsZ z c t L → ∃ N, ∀ b, N ≤ b → ∃ t' left, insertAllA c b t vs = some (.done t' left)
  | [], t, L, _ => ⟨0, fun b _ => ⟨t, b, rfl⟩⟩
  | v :: vs, t, L, h => by
    have step : ∀ b, t.heap.length + 3 ≤ b → ∃ t1 left, b ≤ left + (t.heap.length + 3) ∧
        insertAllA c b t (v :: vs) = insertAllA c left t1 vs ∧
        (∃ e, t.end = some e ∧ (if c.multi then (insertHintMulti c t e (c.key v) (.val v)).map Prod.snd
            else (insertHintUnique c t e (c.key v) (.val v)).map Prod.snd) = some t1) ∧ ∃ L1, HoldsZ z c t1 L1 := by
      intro b hb
      obtain ⟨e, ee, ⟨t1, left, e1, hle, hub, e2, h1⟩ | ⟨t1, e1, hub, h1⟩⟩ := insertEndA_ok hK o h b v
      · refine ⟨t1, left, hub, ?_, ⟨e, ee, e2⟩, _, h1⟩
        rw [insertAllA]
        by_cases hm : c.multi = true
        · rw [if_pos hm] at e1
          simp only [ee, hm, if_true, Option.bind_eq_bind, Option.bind_some, e1]
        · rw [if_neg hm] at e1
          simp only [ee, hm, if_false, Bool.false_eq_true, Option.bind_eq_bind, Option.bind_some, e1]
      · omega
    obtain ⟨t1, _, _, _, ⟨e, ee, e2⟩, L1, h1⟩ := step _ (Nat.le_refl _)
    obtain ⟨N, hN⟩ := insertAllA_enough hK o vs h1
    refine ⟨N + (t.heap.length + 3), fun b hb => ?_⟩
    obtain ⟨t1', left, hub, run, ⟨e', ee', e2'⟩, _⟩ := step b (by omega)
    rw [ee] at ee'; cases ee'
    rw [e2] at e2'; cases e2'
    rw [run]
    exact hN left (by omega)

/-- With enough room the calls do what they do without failures. -/
theorem execA_enough (hK : 3 ≤ c.K) (o : StrictWeak c.lt) (h : HoldsZ z c t L) (op : Op α κ) (hok : Ok c.key L op) :
    ∃ N, ∀ b, N ≤ b → execA c b t op = (exec c t op).map fun x => (.ok x.1, x.2) := by
  have plain : ∀ x : Option (Res α × Tree α), (do let (r, t) ← x; some (Out.ok r, t)) = x.map fun x => (.ok x.1, x.2) := by
    intro x; cases x <;> rfl
  cases op with
  | insert v =>
    obtain ⟨r, s⟩ := h
    refine ⟨t.heap.length + 3, fun b hb => ?_⟩
    by_cases hm : c.multi = true
    · obtain ⟨⟨it, t2⟩, e2, ⟨left, e3, _⟩ | ⟨t3, e3, h3, _⟩⟩ := insertMultiA_sim hK o r s b v
      · simp only [exec, execA, hm, if_true, e2, e3, Option.bind_eq_bind, Option.bind_some]
        cases t2.index it <;> rfl
      · omega
    · rw [Bool.not_eq_true] at hm
      obtain ⟨⟨⟨it, nw⟩, t2⟩, e2, ⟨left, e3, _⟩ | ⟨t3, e3, h3, _⟩⟩ := insertUniqueA_sim hK o r s b v
      · simp only [exec, execA, hm, Bool.false_eq_true, if_false, e2, e3, Option.bind_eq_bind, Option.bind_some]
        cases t2.index it <;> rfl
      · omega
  | insertHint i v =>
    obtain ⟨r, s⟩ := h
    obtain ⟨pos, hp⟩ := r.iter hok
    have hl : (L.take i).length = i := by simp; exact hok
    refine ⟨t.heap.length + 3, fun b hb => ?_⟩
    by_cases hm : c.multi = true
    · obtain ⟨⟨it, t2⟩, e2, ⟨left, e3, _⟩ | ⟨t3, e3, h3, _⟩⟩ :=
        insertHintMultiA_sim hK o r s b v (X := L.take i) (Y := L.drop i) (by simp) (by rw [hl]; exact hp)
      · simp only [exec, execA, hp, hm, if_true, e2, e3, Option.bind_eq_bind, Option.bind_some]
        cases t2.index it <;> rfl
      · omega
    · rw [Bool.not_eq_true] at hm
      obtain ⟨⟨⟨it, nw⟩, t2⟩, e2, ⟨left, e3, _⟩ | ⟨t3, e3, h3, _⟩⟩ :=
        insertHintUniqueA_sim hK o r s b v (X := L.take i) (Y := L.drop i) (by simp) (by rw [hl]; exact hp)
      · simp only [exec, execA, hp, hm, Bool.false_eq_true, if_false, e2, e3, Option.bind_eq_bind, Option.bind_some]
        cases t2.index it <;> rfl
      · omega
  | insertAll vs =>
    obtain ⟨N, hN⟩ := insertAllA_enough hK o vs h
    refine ⟨N, fun b hb => ?_⟩
    obtain ⟨t1, left1, e1⟩ := hN b hb
    rcases insertAllA_ok hK o vs b h with ⟨t2, left, e2, e3, _⟩ | ⟨t2, n, e2, _⟩
    · by_cases hm : c.multi = true
      · rw [if_pos hm] at e3
        simp [exec, execA, hm, e2, e3]
      · rw [if_neg hm] at e3
        simp [exec, execA, hm, e2, e3]
    · rw [e1] at e2; cases e2
  | _ => exact ⟨0, fun b _ => plain _⟩

/-! ### Copies -/

theorem appendAllA_ok (hK : 3 ≤ c.K) : ∀ (vs : List α) {t : Tree α} {L : List α}, RepZ z c t L → L ≠ [] →
    ∃ N t', appendAll c t vs = some t' ∧ RepZ z c t' (L ++ vs) ∧ ∀ b,
      (∃ left, appendAllA c b t vs = some (.done t' left)) ∨
      ∃ t'' n, appendAllA c b t vs = some (.failed t'') ∧ b < N ∧ n < vs.length ∧
        RepZ (z ∨ b ≠ 0) c t'' (L ++ vs.take n)
  | [], t, L, r, _ => ⟨0, t, rfl, by simpa using r, fun b => .inl ⟨b, rfl⟩⟩
  | v :: vs, t, L, r, hL => by
    obtain ⟨H, ht, g, hs⟩ := r.good hL
    obtain ⟨e, ee, ⟨k, p, _⟩, _⟩ := g.end_ok
    obtain ⟨it', t1, e1, r1, _⟩ := g.emplace hK (v := v) hs p
    obtain ⟨N, t2, e2, r2, h2⟩ := appendAllA_ok hK vs r1 (by simp)
    refine ⟨N + (t.heap.length + 3), t2, by simp [appendAll, ee, e1, e2], by simpa using r2, fun b => ?_⟩
    obtain ⟨y, e1', ⟨left, e3, h3, h4⟩ | ⟨t3, e3, h3, _, r3⟩⟩ := g.emplaceA hK b (v := v) hs p
    · rw [e1] at e1'; cases e1'
      rcases h2 left with ⟨left', e4⟩ | ⟨t4, n, e4, hb, hn, r4⟩
      · exact .inl ⟨left', by simp [appendAllA, ee, e3, e4]⟩
      · exact .inr ⟨t4, n + 1, by simp [appendAllA, ee, e3, e4], by omega, by simpa using hn,
          (by simpa using r4 : RepZ (z ∨ left ≠ 0) c t4 (L ++ v :: vs.take n)).mono (Or.imp_right fun hl => by omega)⟩
    · exact .inr ⟨t3, 0, by simp [appendAllA, ee, e3], by omega, by simp, by simpa using r3⟩

theorem copyIntoA_ok (hK : 3 ≤ c.K) (o : StrictWeak c.lt) {x : Tree α} (e : Empty t) (r : RepZ z c x L) :
    ∃ N t', copyInto c t x = some t' ∧ Rep c t' L ∧ ∀ b,
      (∃ left, copyIntoA c b t x = some (.done t' left)) ∨
      ∃ t'' n, copyIntoA c b t x = some (.failed t'') ∧ b < N ∧ n < L.length ∧ RepZ (b ≠ 0) c t'' (L.take n) := by
  have re : Rep c t [] := .inl ⟨e, rfl⟩
  cases L with
  | nil => exact ⟨0, t, by simp [copyInto, r.toList], re, fun b => .inl ⟨b, by simp [copyIntoA, r.toList]⟩⟩
  | cons v vs =>
    have s0 : Sorted c.multi c.key c.lt ([] : List α) := by unfold Sorted; split <;> simp
    obtain ⟨X, Y, it, t', hL, _, _, _, e1, r1, _⟩ := insertMulti_ok hK o re s0 v
    have : X = [] ∧ Y = [] := by simpa using hL.symm
    obtain ⟨rfl, rfl⟩ := this
    obtain ⟨N, t2, e2, r2, h2⟩ := appendAllA_ok hK vs r1 (by simp)
    refine ⟨N + (t.heap.length + 3), t2, by simp [copyInto, r.toList, e1, e2], by simpa using r2, fun b => ?_⟩
    obtain ⟨y, e1', ⟨left, e3, h3, h4⟩ | ⟨t3, e3, h3, _, r3⟩⟩ := insertMultiA_sim hK o re s0 b v
    · rw [e1] at e1'; cases e1'
      rcases h2 left with ⟨left', e4⟩ | ⟨t4, n, e4, hb, hn, r4⟩
      · exact .inl ⟨left', by simp [copyIntoA, r.toList, e3, e4]⟩
      · exact .inr ⟨t4, n + 1, by simp [copyIntoA, r.toList, e3, e4], by omega, by simpa using hn,
          (by simpa using r4 : RepZ (left ≠ 0) c t4 (v :: vs.take n)).mono fun hz => by omega⟩
    · exact .inr ⟨t3, 0, by simp [copyIntoA, r.toList, e3], by omega, by simp, r3.mono fun hz => by simpa using hz⟩

theorem copyA_ok (hK : 3 ≤ c.K) (o : StrictWeak c.lt) {x : Tree α} (r : RepZ z c x L) :
    ∃ N t', x.copy c = some t' ∧ Rep c t' L ∧ ∀ b,
      (∃ left, x.copyA c b = some (.done t' left)) ∨ ∃ t'', x.copyA c b = some (.failed t'') ∧ b < N ∧ Empty t'' := by
  obtain ⟨N, t', e1, r1, h⟩ := copyIntoA_ok hK o (rep_empty (z := False) c).empty r
  refine ⟨N, t', e1, r1, fun b => ?_⟩
  rcases h b with ⟨left, e2⟩ | ⟨t2, n, e2, hb, hn, r2⟩
  · exact .inl ⟨left, by simp [Tree.copyA, e2]⟩
  · obtain ⟨t3, e3, h3⟩ := Tree.clear_ok r2
    exact .inr ⟨t3, by simp [Tree.copyA, e2, e3], hb, h3⟩

theorem assignA_ok {zx : Prop} (hK : 3 ≤ c.K) (o : StrictWeak c.lt) {x : Tree α} {L' : List α} (r : RepZ z c t L')
    (rx : RepZ zx c x L) : ∃ N t', t.assign c x = some t' ∧ Rep c t' L ∧ ∀ b,
      (∃ left, t.assignA c b x = some (.done t' left)) ∨
      ∃ t'' n, t.assignA c b x = some (.failed t'') ∧ b < N ∧ n < L.length ∧ RepZ (b ≠ 0) c t'' (L.take n) := by
  obtain ⟨t1, e1, h1⟩ := Tree.clear_ok r
  obtain ⟨N, t', e2, r2, h⟩ := copyIntoA_ok hK o h1 rx
  refine ⟨N, t', by simp [Tree.assign, e1, e2], r2, fun b => ?_⟩
  rcases h b with ⟨left, e3⟩ | ⟨t3, n, e3, hb, hn, r3⟩
  · exact .inl ⟨left, by simp [Tree.assignA, e1, e3]⟩
  · exact .inr ⟨t3, n, by simp [Tree.assignA, e1, e3], hb, hn, r3⟩

end Gtl.Btree
