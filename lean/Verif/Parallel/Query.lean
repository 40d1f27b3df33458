import Verif.Swiss.Query
import Verif.Parallel.Iter
/-!
# Lookups in parallel hash containers with something that is not a key (one thread)
-/

namespace Gtl.Parallel
open Gtl.Swiss Gtl.Spec.HashQuery
variable {α κ : Type}

namespace PTbl
variable (P : PCfg α κ)

/-- `find(key)` (phmap.hpp:4195-4214, 4388-4394): the submap is that of the hash of `key`. -/
def findOf (p : PTbl α) (q : HQuery κ) : Res It := do
  let t ← p.sub (subidx P.N q.hash)
  let r ← t.findOf P.C q
  .ok (r.map (fun pos => (subidx P.N q.hash, pos)))

/-- `contains(key)` (phmap.hpp:4215-4232). -/
def containsOf (p : PTbl α) (q : HQuery κ) : Res Bool := do
  let t ← p.sub (subidx P.N q.hash)
  t.containsOf P.C q

/-- `count(key)` (phmap.hpp:4163-4166). -/
def countOf (p : PTbl α) (q : HQuery κ) : Res Nat := do
  let b ← p.containsOf P q
  .ok (if b then 1 else 0)

/-- `erase_if_impl` (phmap.hpp:3914-3934) under the lock of the submap. -/
def eraseSubOf (t : Tbl α) (q : HQuery κ) (pred : α → Bool) : Res (Tbl α × Nat) := do
  match ← t.findOf P.C q with
  | none => .ok (t, 0)
  | some off =>
    let r ← if P.mtx = .shared then t.findOf P.C q else Res.ok (some off)
    match r with
    | none => .ok (t, 1)
    | some off => do
      let a ← t.readSlot off
      if pred a then do
        let t ← t.eraseAt P.C off
        .ok (t, 1)
      else .ok (t, 0)

/-- `erase_if(key, pred)` (phmap.hpp:3908-3934); `erase(key)` (4050-4054) is the one whose predicate is always true. -/
def eraseIfOf (p : PTbl α) (q : HQuery κ) (pred : α → Bool) : Res (PTbl α × Nat) :=
  p.withSub (subidx P.N q.hash) (fun t => eraseSubOf P t q pred)

/-- `erase(key)` (phmap.hpp:4050-4054). -/
def eraseOf (p : PTbl α) (q : HQuery κ) : Res (PTbl α × Nat) := p.eraseIfOf P q (fun _ => true)

/-- `extract(key)` (phmap.hpp:4116-4124): `find(key)`, then the submap of the iterator extracts. -/
def extractOf (p : PTbl α) (q : HQuery κ) : Res (PTbl α × Option α) := do
  match ← p.findOf P q with
  | none => .ok (p, none)
  | some it =>
    p.withSub it.1 (fun t => do
      let (t, a) ← t.extractAt P.C it.2
      .ok (t, some a))

/-- `equal_range(key)` (phmap.hpp:4234-4249). -/
def equalRangeOf (p : PTbl α) (q : HQuery κ) : Res (It × It) := do
  match ← p.findOf P q with
  | some it => do
    let nxt ← p.next P it
    .ok (some it, nxt)
  | none => .ok (none, none)

/-- The loop `for (it = b; it != e; ++it) out.push_back(*it)` of a user; `n` bounds its steps and `end()` cannot be
incremented. -/
def between (p : PTbl α) : Nat → It → It → Res (List α)
  | 0, _, _ => .hang
  | n + 1, b, e =>
    if b = e then .ok []
    else match b with
      | none => .ub
      | some it => do
        let a ← p.deref it
        let b ← p.next P it
        let r ← between p n b e
        .ok (a :: r)

end PTbl

theorem idx_of_hits {P : PCfg α κ} {q : HQuery κ} (hq : Fits P.C.hash q) {a : α} (ha : q.hits (P.C.key a) = true) :
    idx P a = subidx P.N q.hash := by
  unfold idx
  rw [hq _ ha]

theorem mem_flat_sub {P : PCfg α κ} {p : PTbl α} (h : WF P p) {i : Nat} {t : Tbl α} (ht : p.sets[i]? = some t) {a : α}
    (ha : a ∈ flat p) (hi : idx P a = i) : a ∈ elems t := by
  obtain ⟨u, hu, hau⟩ := List.mem_flatMap.1 ha
  obtain ⟨j, hj⟩ := List.mem_iff_getElem?.1 hu
  have : j = i := by rw [← hi]; exact ((h.inv j u hj).2 a hau).symm
  subst this
  rw [ht] at hj
  cases hj
  exact hau

theorem flat_split {p : PTbl α} {i : Nat} {t : Tbl α} (h : p.sets[i]? = some t) :
    flat p = (p.sets.take i).flatMap elems ++ (elems t ++ (p.sets.drop (i + 1)).flatMap elems) := by
  unfold flat
  conv_lhs => rw [split p h]
  rw [List.flatMap_append, List.flatMap_cons]

theorem flat_set {p : PTbl α} {i : Nat} {t t' : Tbl α} (h : p.sets[i]? = some t) :
    flat ({ sets := p.sets.set i t' } : PTbl α) =
      (p.sets.take i).flatMap elems ++ (elems t' ++ (p.sets.drop (i + 1)).flatMap elems) := by
  have hi : i < p.sets.length := (List.getElem?_eq_some_iff.1 h).1
  have hs : ({ sets := p.sets.set i t' } : PTbl α).sets[i]? = some t' := by
    show (p.sets.set i t')[i]? = _
    rw [List.getElem?_set_self hi]
  rw [flat_split hs]
  show ((p.sets.set i t').take i).flatMap elems ++ (elems t' ++ ((p.sets.set i t').drop (i + 1)).flatMap elems) = _
  rw [List.take_set_of_le (Nat.le_refl i), List.drop_set_of_lt (Nat.lt_succ_self i)]

theorem wf_set {P : PCfg α κ} {p : PTbl α} (h : WF P p) {i : Nat} {t t' : Tbl α} (ht : p.sets[i]? = some t) {c' : List Ctrl}
    (hi : Inv P.C t' c') (hsub : ∀ a ∈ elems t', a ∈ elems t) : WF P ({ sets := p.sets.set i t' } : PTbl α) := by
  refine ⟨by show (p.sets.set i t').length = _; rw [List.length_set]; exact h.len, fun j u hu => ?_⟩
  replace hu : (p.sets.set i t')[j]? = some u := hu
  rw [List.getElem?_set] at hu
  split at hu
  · rename_i hij; subst hij
    split at hu
    · cases hu
      exact ⟨⟨c', hi⟩, fun b hb => (h.inv i t ht).2 b (hsub b hb)⟩
    · cases hu
  · exact h.inv j u hu

/-- The submap of `q`. -/
theorem sub_of {P : PCfg α κ} {p : PTbl α} (h : WF P p) (q : HQuery κ) :
    ∃ t c, p.sets[subidx P.N q.hash]? = some t ∧ Inv P.C t c := by
  have : subidx P.N q.hash < p.sets.length := by rw [h.len]; exact subidx_lt _ _
  have e := List.getElem?_eq_getElem this
  obtain ⟨c, hc⟩ := h.inv' _ _ e
  exact ⟨_, c, e, hc⟩

theorem pfindOf {P : PCfg α κ} (hC : CfgOk P.C) {p : PTbl α} (h : WF P p) {q : HQuery κ} (hq : Fits P.C.hash q) :
    (∃ i pos t a, p.findOf P q = .ok (some (i, pos)) ∧ p.sets[i]? = some t ∧ t.slots[pos]? = some (some a) ∧
      a ∈ flat p ∧ q.hits (P.C.key a) = true ∧ p.containsOf P q = .ok true) ∨
    (p.findOf P q = .ok none ∧ (∀ a ∈ flat p, q.hits (P.C.key a) = false) ∧ p.containsOf P q = .ok false) := by
  obtain ⟨t, c, ht, hc⟩ := sub_of h q
  rcases findOf_inv hC hc hq with ⟨i, a, h1, h2, h3⟩ | ⟨h1, h2⟩
  · left
    refine ⟨_, i, t, a, ?_, ht, h2, ?_, h3, ?_⟩
    · unfold PTbl.findOf PTbl.sub
      rw [ht, Res.ofOption_some, Res.ok_bind, h1]
      rfl
    · rw [flat_split ht]
      exact List.mem_append_right _ (List.mem_append_left _ (mem_elems.2 ⟨i, h2⟩))
    · unfold PTbl.containsOf PTbl.sub Tbl.containsOf
      rw [ht, Res.ofOption_some, Res.ok_bind, h1]
      rfl
  · right
    refine ⟨?_, ?_, ?_⟩
    · unfold PTbl.findOf PTbl.sub
      rw [ht, Res.ofOption_some, Res.ok_bind, h1]
      rfl
    · intro a ha
      cases hh : q.hits (P.C.key a) with
      | false => rfl
      | true =>
        have := h2 a (mem_flat_sub h ht ha (idx_of_hits hq hh))
        rw [hh] at this
        cases this
    · unfold PTbl.containsOf PTbl.sub Tbl.containsOf
      rw [ht, Res.ofOption_some, Res.ok_bind, h1]
      rfl

theorem pbetween_one {P : PCfg α κ} {p : PTbl α} {it : Nat × Nat} {e : PTbl.It} {a : α} {n : Nat} (hb : p.deref it = .ok a)
    (hn : p.next P it = .ok e) (hne : some it ≠ e) : p.between P (n + 2) (some it) e = .ok [a] := by
  have hnil : p.between P (n + 1) e e = .ok [] := by
    cases e <;> exact if_pos rfl
  rw [PTbl.between, if_neg hne, hb, Res.ok_bind, hn, Res.ok_bind, hnil]
  rfl

/-- What a predicate that is asked about the element found makes of `erase_if(key, pred)`. -/
theorem peraseIfOf {P : PCfg α κ} (hC : CfgOk P.C) {p : PTbl α} (h : WF P p) {q : HQuery κ} (hq : Fits P.C.hash q)
    (pred : α → Bool) :
    (∃ v, v ∈ flat p ∧ q.hits (P.C.key v) = true ∧
      ((pred v = false ∧ ∃ p', p.eraseIfOf P q pred = .ok (p', 0) ∧ p' = p) ∨
       (pred v = true ∧ ∃ p' l1 l2, p.eraseIfOf P q pred = .ok (p', 1) ∧ WF P p' ∧
          flat p = l1 ++ v :: l2 ∧ flat p' = l1 ++ l2))) ∨
    ((∀ a ∈ flat p, q.hits (P.C.key a) = false) ∧ p.eraseIfOf P q pred = .ok (p, 0)) := by
  obtain ⟨t, c, ht, hc⟩ := sub_of h q
  have hlt : subidx P.N q.hash < p.sets.length := (List.getElem?_eq_some_iff.1 ht).1
  have hsame : ({ sets := p.sets.set (subidx P.N q.hash) t } : PTbl α) = p := by
    have e : p.sets[subidx P.N q.hash] = t := (List.getElem?_eq_some_iff.1 ht).2
    rw [← e, List.set_getElem_self]
  rcases findOf_inv hC hc hq with ⟨i, a, h1, h2, h3⟩ | ⟨h1, h2⟩
  · left
    refine ⟨a, ?_, h3, ?_⟩
    · rw [flat_split ht]
      exact List.mem_append_right _ (List.mem_append_left _ (mem_elems.2 ⟨i, h2⟩))
    · cases hp : pred a with
      | false =>
        refine .inl ⟨rfl, p, ?_, rfl⟩
        unfold PTbl.eraseIfOf PTbl.withSub PTbl.sub PTbl.eraseSubOf
        rw [ht]
        by_cases hm : P.mtx = .shared <;>
          simp [h1, hm, readSlot_ok' h2, hp, hsame]
      | true =>
        obtain ⟨t', c', e1, e2, e3, e4, e5, _⟩ := eraseAt_spec hC hc h2
        have hpos : i < t.slots.length := (List.getElem?_eq_some_iff.1 h2).1
        refine .inr ⟨rfl, { sets := p.sets.set (subidx P.N q.hash) t' }, (p.sets.take (subidx P.N q.hash)).flatMap elems ++
            (t.slots.take i).filterMap id, (t.slots.drop (i + 1)).filterMap id ++
            (p.sets.drop (subidx P.N q.hash + 1)).flatMap elems, ?_, wf_set h ht e2 ?_, ?_, ?_⟩
        · unfold PTbl.eraseIfOf PTbl.withSub PTbl.sub PTbl.eraseSubOf
          rw [ht]
          by_cases hm : P.mtx = .shared <;>
            simp [h1, hm, readSlot_ok' h2, hp, e1]
        · intro b hb
          exact e3.mem_iff.2 (List.mem_cons_of_mem _ hb)
        · rw [flat_split ht, elems_split h2]
          simp only [List.append_assoc, List.cons_append]
        · rw [flat_set ht, elems_erased hpos e5]
          simp only [List.append_assoc]
  · right
    constructor
    · intro a ha
      cases hh : q.hits (P.C.key a) with
      | false => rfl
      | true =>
        have := h2 a (mem_flat_sub h ht ha (idx_of_hits hq hh))
        rw [hh] at this
        cases this
    · unfold PTbl.eraseIfOf PTbl.withSub PTbl.sub PTbl.eraseSubOf
      rw [ht]
      simp only [Res.ofOption_some, Res.ok_bind, h1, hsame]

/-- `extract(key)` takes out what `erase(key)` erases. -/
theorem pextractOf {P : PCfg α κ} (hC : CfgOk P.C) {p : PTbl α} (h : WF P p) {q : HQuery κ} (hq : Fits P.C.hash q) :
    (∃ p' v l1 l2, p.extractOf P q = .ok (p', some v) ∧ p.eraseOf P q = .ok (p', 1) ∧ q.hits (P.C.key v) = true ∧ WF P p' ∧
      flat p = l1 ++ v :: l2 ∧ flat p' = l1 ++ l2) ∨
    ((∀ a ∈ flat p, q.hits (P.C.key a) = false) ∧ p.extractOf P q = .ok (p, none) ∧ p.eraseOf P q = .ok (p, 0)) := by
  obtain ⟨t, c, ht, hc⟩ := sub_of h q
  rcases findOf_inv hC hc hq with ⟨i, a, h1, h2, h3⟩ | ⟨h1, h2⟩
  · left
    obtain ⟨t', c', e1, e2, e3, e4, e5, _⟩ := eraseAt_spec hC hc h2
    have hpos : i < t.slots.length := (List.getElem?_eq_some_iff.1 h2).1
    refine ⟨{ sets := p.sets.set (subidx P.N q.hash) t' }, a, (p.sets.take (subidx P.N q.hash)).flatMap elems ++
        (t.slots.take i).filterMap id, (t.slots.drop (i + 1)).filterMap id ++
        (p.sets.drop (subidx P.N q.hash + 1)).flatMap elems, ?_, ?_, h3, wf_set h ht e2 ?_, ?_, ?_⟩
    · unfold PTbl.extractOf PTbl.findOf PTbl.sub
      rw [ht]
      simp only [Res.ofOption_some, Res.ok_bind, h1, Option.map_some]
      unfold PTbl.withSub PTbl.sub
      rw [ht]
      simp only [Res.ofOption_some, Res.ok_bind]
      unfold Tbl.extractAt
      rw [readSlot_ok' h2]
      simp only [Res.ok_bind]
      unfold Tbl.eraseAt at e1
      rw [destroySlot_ok h2] at e1 ⊢
      simp only [Res.ok_bind] at e1 ⊢
      rw [e1]
      rfl
    · unfold PTbl.eraseOf PTbl.eraseIfOf PTbl.withSub PTbl.sub PTbl.eraseSubOf
      rw [ht]
      by_cases hm : P.mtx = .shared <;>
        simp [h1, hm, readSlot_ok' h2, e1]
    · intro b hb
      exact e3.mem_iff.2 (List.mem_cons_of_mem _ hb)
    · rw [flat_split ht, elems_split h2]
      simp only [List.append_assoc, List.cons_append]
    · rw [flat_set ht, elems_erased hpos e5]
      simp only [List.append_assoc]
  · right
    rcases peraseIfOf hC h hq (fun _ => true) with ⟨v, g1, g2, _⟩ | ⟨g1, g2⟩
    · exfalso
      rcases pfindOf hC h hq with ⟨j, pos, u, b, f1, f2, f3, _⟩ | ⟨_, f2, _⟩
      · unfold PTbl.findOf PTbl.sub at f1
        rw [ht] at f1
        simp only [Res.ofOption_some, Res.ok_bind, h1, Option.map_none] at f1
        cases f1
      · rw [f2 v g1] at g2; cases g2
    · refine ⟨g1, ?_, g2⟩
      unfold PTbl.extractOf PTbl.findOf PTbl.sub
      rw [ht]
      simp only [Res.ofOption_some, Res.ok_bind, h1, Option.map_none]

end Gtl.Parallel
