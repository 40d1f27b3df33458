import Verif.Parallel.Sim
/-!
# Iteration over the parallel containers
-/

namespace Gtl.Parallel

open Gtl.Swiss
open Gtl.Spec (Op POp PWOp Resp put)

variable {α κ : Type}

/-- All elements, submap by submap. -/
def flat (p : PTbl α) : List α := p.sets.flatMap elems

/-- Every submap is a good table and holds only elements that belong to it. -/
structure WF (P : PCfg α κ) (p : PTbl α) : Prop where
  len : p.sets.length = 2 ^ P.N
  inv : ∀ (i : Nat) t, p.sets[i]? = some t → (∃ c, Inv P.C t c) ∧ ∀ a ∈ elems t, idx P a = i

theorem flatMap_range_get {β γ : Type} (f : β → List γ) : ∀ (l : List β) (g : Nat → List γ),
    (∀ (i : Nat) b, l[i]? = some b → (f b).Perm (g i)) → (l.flatMap f).Perm ((List.range l.length).flatMap g) := by
  intro l
  induction l with
  | nil => intro g _; exact List.Perm.refl _
  | cons b l ih =>
    intro g h
    rw [List.length_cons, List.range_succ_eq_map, List.flatMap_cons, List.flatMap_cons, List.flatMap_map]
    exact (h 0 b rfl).append (ih (fun i => g (i + 1)) (fun i b' hb => h (i + 1) b' (by simpa using hb)))

theorem filter_flatMap_idx {P : PCfg α κ} : ∀ (ts : List (Tbl α)) (o : Nat),
    (∀ (i : Nat) t, ts[i]? = some t → ∀ a ∈ elems t, idx P a = o + i) →
    ∀ (i : Nat) t, ts[i]? = some t → (ts.flatMap elems).filter (fun a => idx P a == o + i) = elems t := by
  intro ts
  induction ts with
  | nil => intro o h i t ht; simp at ht
  | cons u ts ih =>
    intro o h i t ht
    rw [List.flatMap_cons, List.filter_append]
    have hu := h 0 u rfl
    have hts : ∀ (i : Nat) t, ts[i]? = some t → ∀ a ∈ elems t, idx P a = (o + 1) + i := by
      intro i t ht a ha
      have := h (i + 1) t (by simpa using ht) a ha
      omega
    cases i with
    | zero =>
      simp only [List.getElem?_cons_zero, Option.some.injEq] at ht
      subst ht
      rw [List.filter_eq_self.2 (by intro a ha; simp [hu a ha]), List.filter_eq_nil_iff.2, List.append_nil]
      intro a ha
      obtain ⟨t', h1, h2⟩ := List.mem_flatMap.1 ha
      obtain ⟨j, hj⟩ := List.mem_iff_getElem?.1 h1
      have := hts j t' hj a h2
      simp; omega
    | succ i =>
      rw [List.filter_eq_nil_iff.2 (by intro a ha; have := hu a ha; simp; omega), List.nil_append]
      have := ih (o + 1) hts i t (by simpa using ht)
      rw [show o + (i + 1) = o + 1 + i by omega]
      exact this

theorem PSim.wf {P : PCfg α κ} {p : PTbl α} {l : List α} (h : PSim P p l) : WF P p :=
  ⟨h.len, fun i t ht => ⟨(h.sim i t ht).1, fun a ha => (mem_part.1 ((h.sim i t ht).2.mem_iff.1 ha)).2⟩⟩

theorem PSim.flat {P : PCfg α κ} {p : PTbl α} {l : List α} (h : PSim P p l) : (flat p).Perm l := by
  refine (flatMap_range_get elems p.sets (part P l) (fun i t ht => (h.sim i t ht).2)).trans ?_
  rw [h.len]
  exact parts_perm P l

theorem WF.sim {P : PCfg α κ} {p : PTbl α} {l : List α} (h : WF P p) (hp : (Parallel.flat p).Perm l) : PSim P p l := by
  refine ⟨h.len, fun i t ht => ⟨(h.inv i t ht).1, ?_⟩⟩
  have := filter_flatMap_idx p.sets 0 (fun i t ht a ha => by rw [Nat.zero_add]; exact (h.inv i t ht).2 a ha) i t ht
  rw [Nat.zero_add] at this
  rw [← this]
  exact part_perm hp i

theorem PSim.distinct {P : PCfg α κ} (hC : CfgOk P.C) {p : PTbl α} {l : List α} (h : PSim P p l) : Distinct P.C l := by
  unfold Distinct
  have : ∀ (l : List α), (∀ i, Distinct P.C (part P l i)) → Distinct P.C l := by
    intro l
    induction l with
    | nil => intro _; exact List.Pairwise.nil
    | cons a l ih =>
      intro hd
      refine List.Pairwise.cons ?_ (ih ?_)
      · intro b hb
        have h1 := hd (idx P a)
        rw [part_cons_same] at h1
        cases he : P.C.eqv (P.C.key a) (P.C.key b) with
        | false => rfl
        | true =>
          have hi : idx P b = idx P a := (key_idx hC (hC.symm _ _ he))
          rw [(List.pairwise_cons.1 h1).1 b (mem_part.2 ⟨hb, hi⟩)] at he
          cases he
      · intro i
        have h1 := hd i
        by_cases hi : i = idx P a
        · subst hi; rw [part_cons_same] at h1; exact (List.pairwise_cons.1 h1).2
        · rwa [part_cons_other _ hi] at h1
  apply this
  intro i
  by_cases hi : i < 2 ^ P.N
  · obtain ⟨t, _, ht⟩ := h.get hi
    exact ht.distinct hC
  · have : part P l i = [] := by
      rw [List.eq_nil_iff_forall_not_mem]
      intro a ha
      have h1 := (mem_part.1 ha).2
      have h2 := subidx_lt P.N (P.C.hash (P.C.key a))
      unfold idx at h1
      omega
    rw [this]
    exact List.Pairwise.nil

theorem PSim.size {P : PCfg α κ} {p : PTbl α} {l : List α} (h : PSim P p l) : p.size = l.length := by
  rw [← h.flat.length_eq]
  unfold PTbl.size Parallel.flat
  rw [List.length_flatMap]
  congr 1
  apply List.map_congr_left
  intro t ht
  obtain ⟨i, hi⟩ := List.mem_iff_getElem?.1 ht
  obtain ⟨⟨c, hc⟩, _⟩ := h.wf.inv i t hi
  exact Sim.size ⟨⟨c, hc⟩, List.Perm.refl _⟩

/-! ## Positions -/

/-- What is still to come from position `pos` of submap `i`. -/
def tail (p : PTbl α) (i pos : Nat) : List α :=
  (match p.sets[i]? with
    | some t => (t.slots.drop pos).filterMap id
    | none => []) ++ (p.sets.drop (i + 1)).flatMap elems

def bef (p : PTbl α) (i pos : Nat) : List α :=
  (p.sets.take i).flatMap elems ++ (match p.sets[i]? with
    | some t => (t.slots.take pos).filterMap id
    | none => [])

def ItOk (p : PTbl α) : PTbl.It → Prop
  | none => True
  | some (i, pos) => ∃ t a, p.sets[i]? = some t ∧ t.slots[pos]? = some (some a)

def itRest (p : PTbl α) : PTbl.It → List α
  | none => []
  | some (i, pos) => tail p i pos

def itBef (p : PTbl α) : PTbl.It → List α
  | none => flat p
  | some (i, pos) => bef p i pos

/-- `it` is at or after position `pos` of submap `i`. -/
def After (i pos : Nat) : PTbl.It → Prop
  | none => True
  | some (j, q) => i < j ∨ (j = i ∧ pos ≤ q)

theorem split (p : PTbl α) {i : Nat} {t : Tbl α} (h : p.sets[i]? = some t) :
    p.sets = p.sets.take i ++ t :: p.sets.drop (i + 1) := by
  have hi : i < p.sets.length := (List.getElem?_eq_some_iff.1 h).1
  have e : p.sets[i] = t := (List.getElem?_eq_some_iff.1 h).2
  rw [← e, List.getElem_cons_drop, List.take_append_drop]

theorem bef_rest (p : PTbl α) {it : PTbl.It} (h : ItOk p it) : flat p = itBef p it ++ itRest p it := by
  cases it with
  | none => simp [itBef, itRest]
  | some x =>
    obtain ⟨i, pos⟩ := x
    obtain ⟨t, a, h1, h2⟩ := h
    unfold itBef itRest bef tail flat
    dsimp only
    rw [h1]
    dsimp only
    conv => lhs; rw [split p h1]
    rw [List.flatMap_append, List.flatMap_cons]
    simp only [List.append_assoc]
    congr 1
    rw [← List.append_assoc, ← List.filterMap_append, List.take_append_drop]
    rfl

theorem tail_end {p : PTbl α} {i pos : Nat} {t : Tbl α} (h : p.sets[i]? = some t) (hp : t.slots.length ≤ pos) :
    tail p i pos = (p.sets.drop (i + 1)).flatMap elems := by
  unfold tail; rw [h]; simp [List.drop_eq_nil_of_le hp]

theorem tail_zero {p : PTbl α} {i : Nat} {t : Tbl α} (h : p.sets[i]? = some t) :
    tail p i 0 = (p.sets.drop i).flatMap elems := by
  unfold tail; rw [h]; dsimp only
  have hi : i < p.sets.length := (List.getElem?_eq_some_iff.1 h).1
  have e : p.sets[i] = t := (List.getElem?_eq_some_iff.1 h).2
  rw [List.drop_eq_getElem_cons hi, e, List.flatMap_cons]; rfl

theorem skipEmpty_spec {P : PCfg α κ} (hG : GroupSpec P.C.G) {p : PTbl α}
    (hI : ∀ (i : Nat) t, p.sets[i]? = some t → ∃ c, Inv P.C t c) :
    ∀ n i pos t, p.sets[i]? = some t → pos ≤ t.capacity → (pos < t.capacity → ∃ a, t.slots[pos]? = some (some a)) →
    p.sets.length - i < n → ∃ it, p.skipEmpty P n i pos = .ok it ∧ ItOk p it ∧ itRest p it = tail p i pos ∧ After i pos it := by
  intro n
  induction n with
  | zero => intro i pos t _ _ _ h; omega
  | succ n ih =>
    intro i pos t ht hpos hfull hn
    have hi : i < p.sets.length := (List.getElem?_eq_some_iff.1 ht).1
    unfold PTbl.skipEmpty PTbl.sub
    rw [ht]
    simp only [Res.ofOption_some, Res.ok_bind]
    obtain ⟨c, hc⟩ := hI i t ht
    by_cases hcap : pos = t.capacity
    · rw [if_pos hcap]
      by_cases hlast : i + 1 = p.sets.length
      · rw [if_pos hlast]
        refine ⟨none, rfl, trivial, ?_, trivial⟩
        rw [tail_end ht (by rw [hc.core.sync.slen]; omega), hlast, List.drop_length]
        rfl
      · rw [if_neg hlast]
        have hi1 : i + 1 < p.sets.length := by omega
        have hu : p.sets[i + 1]? = some p.sets[i + 1] := List.getElem?_eq_getElem hi1
        obtain ⟨d, hd⟩ := hI (i + 1) _ hu
        obtain ⟨q, b1, b2, b3, b4⟩ := begin_spec hG hd.core
        rw [hu]
        simp only [Res.ofOption_some, Res.ok_bind]
        rw [b1]
        simp only [Res.ok_bind]
        obtain ⟨it, r1, r2, r3, r4⟩ := ih (i + 1) q _ hu b2 b4 (by omega)
        refine ⟨it, r1, r2, ?_, ?_⟩
        · rw [r3, tail_end ht (by rw [hc.core.sync.slen]; omega), ← tail_zero hu]
          unfold tail
          rw [hu]
          dsimp only
          rw [← drop_filterMap_none (Nat.zero_le q) (fun j _ h => b3 j h)]
        · cases it with
          | none => trivial
          | some x => obtain ⟨j, q'⟩ := x; unfold After at r4 ⊢; dsimp only at r4 ⊢; omega
    · rw [if_neg hcap]
      obtain ⟨a, ha⟩ := hfull (by omega)
      refine ⟨some (i, pos), rfl, ⟨t, a, ht, ha⟩, rfl, ?_⟩
      unfold After; dsimp only; omega

theorem WF.inv' {P : PCfg α κ} {p : PTbl α} (h : WF P p) (i : Nat) (t) (ht : p.sets[i]? = some t) : ∃ c, Inv P.C t c :=
  (h.inv i t ht).1

theorem begin_at {P : PCfg α κ} (hG : GroupSpec P.C.G) {p : PTbl α} (h : WF P p) :
    ∃ it, p.begin_ P = .ok it ∧ ItOk p it ∧ itRest p it = flat p := by
  have h0 : 0 < p.sets.length := by rw [h.len]; exact Nat.two_pow_pos _
  have hu : p.sets[0]? = some p.sets[0] := List.getElem?_eq_getElem h0
  obtain ⟨d, hd⟩ := h.inv' 0 _ hu
  obtain ⟨q, b1, b2, b3, b4⟩ := begin_spec hG hd.core
  obtain ⟨it, r1, r2, r3, _⟩ := skipEmpty_spec hG h.inv' (p.sets.length + 1) 0 q _ hu b2 b4 (by omega)
  refine ⟨it, ?_, r2, ?_⟩
  · unfold PTbl.begin_ PTbl.sub
    rw [hu]
    simp only [Res.ofOption_some, Res.ok_bind]
    rw [b1]
    exact r1
  · rw [r3]
    have := tail_zero hu
    rw [List.drop_zero] at this
    show _ = p.sets.flatMap elems
    rw [← this]
    unfold tail
    rw [hu]
    dsimp only
    rw [← drop_filterMap_none (Nat.zero_le q) (fun j _ h => b3 j h)]

theorem deref_at {p : PTbl α} {i pos : Nat} {t : Tbl α} {a : α} (h1 : p.sets[i]? = some t)
    (h2 : t.slots[pos]? = some (some a)) : p.deref (i, pos) = .ok a := by
  unfold PTbl.deref PTbl.sub
  rw [h1]
  simp only [Res.ofOption_some, Res.ok_bind]
  exact readSlot_ok' h2

theorem next_at {P : PCfg α κ} (hG : GroupSpec P.C.G) {p : PTbl α} (h : WF P p) {i pos : Nat} {t : Tbl α} {a : α}
    (h1 : p.sets[i]? = some t) (h2 : t.slots[pos]? = some (some a)) :
    ∃ it, p.next P (i, pos) = .ok it ∧ ItOk p it ∧ tail p i pos = a :: itRest p it ∧ After i (pos + 1) it := by
  obtain ⟨c, hc⟩ := h.inv' i t h1
  have hpos : pos < t.capacity := by rw [← hc.core.sync.slen]; exact (List.getElem?_eq_some_iff.1 h2).1
  have hi : i < p.sets.length := (List.getElem?_eq_some_iff.1 h1).1
  obtain ⟨q, b1, b2, b3, b4, b5⟩ := next_spec hG hc.core hpos
  obtain ⟨it, r1, r2, r3, r4⟩ := skipEmpty_spec hG h.inv' (p.sets.length + 1) i q t h1 b3 b5 (by omega)
  refine ⟨it, ?_, r2, ?_, ?_⟩
  · unfold PTbl.next PTbl.sub
    dsimp only
    rw [h1]
    simp only [Res.ofOption_some, Res.ok_bind]
    rw [b1]
    exact r1
  · rw [r3]
    unfold tail
    rw [h1]
    dsimp only
    rw [drop_filterMap_some h2, drop_filterMap_none (Nat.succ_le_of_lt b2) (fun j h h' => b4 j h h')]
    rfl
  · cases it with
    | none => trivial
    | some x => obtain ⟨j, q'⟩ := x; unfold After at r4 ⊢; dsimp only at r4 ⊢; omega

theorem collect_at {P : PCfg α κ} (hG : GroupSpec P.C.G) {p : PTbl α} (h : WF P p) :
    ∀ n it, ItOk p it → (itRest p it).length < n → p.collect P n it = .ok (itRest p it) := by
  intro n
  induction n with
  | zero => intro it _ hn; omega
  | succ n ih =>
    intro it hit hn
    cases it with
    | none => rfl
    | some x =>
      obtain ⟨i, pos⟩ := x
      obtain ⟨t, a, h1, h2⟩ := hit
      obtain ⟨it', r1, r2, r3, _⟩ := next_at hG h h1 h2
      unfold PTbl.collect
      rw [deref_at h1 h2, r1]
      simp only [Res.ok_bind]
      have e : itRest p (some (i, pos)) = a :: itRest p it' := r3
      rw [e, List.length_cons] at hn
      rw [ih it' r2 (by omega)]
      simp only [Res.ok_bind]
      rw [e]

theorem flat_fuel {P : PCfg α κ} {p : PTbl α} (h : WF P p) : (flat p).length < p.fuel := by
  have : ∀ (ts : List (Tbl α)), (∀ t ∈ ts, (elems t).length ≤ t.fuel) →
      (ts.flatMap elems).length ≤ (ts.map Tbl.fuel).sum := by
    intro ts
    induction ts with
    | nil => intro _; simp
    | cons t ts ih =>
      intro h
      rw [List.flatMap_cons, List.length_append, List.map_cons, List.sum_cons]
      exact Nat.add_le_add (h t (List.mem_cons_self ..)) (ih (fun t ht => h t (List.mem_cons_of_mem _ ht)))
  refine Nat.lt_succ_of_le (this p.sets ?_)
  intro t ht
  obtain ⟨i, hi⟩ := List.mem_iff_getElem?.1 ht
  obtain ⟨c, hc⟩ := h.inv' i t hi
  have h1 : (elems t).length ≤ t.slots.length := List.length_filterMap_le _ _
  rw [hc.core.sync.slen] at h1
  unfold Tbl.fuel
  omega

theorem iterate_at {P : PCfg α κ} (hG : GroupSpec P.C.G) {p : PTbl α} (h : WF P p) : p.iterate P = .ok (flat p) := by
  obtain ⟨it, r1, r2, r3⟩ := begin_at hG h
  unfold PTbl.iterate
  rw [r1]
  simp only [Res.ok_bind]
  rw [collect_at hG h _ it r2 (by rw [r3]; exact flat_fuel h), r3]

/-! ## Erasing while iterating -/

theorem erase_at {P : PCfg α κ} (hC : CfgOk P.C) {p : PTbl α} (h : WF P p) {i pos : Nat} {t : Tbl α} {a : α}
    (h1 : p.sets[i]? = some t) (h2 : t.slots[pos]? = some (some a)) {nxt : PTbl.It} (hn : ItOk p nxt)
    (ha : After i (pos + 1) nxt) (hr : tail p i pos = a :: itRest p nxt) :
    ∃ p', p.eraseAt P (i, pos) = .ok p' ∧ WF P p' ∧ ItOk p' nxt ∧ itRest p' nxt = itRest p nxt ∧
      itBef p' nxt = bef p i pos := by
  obtain ⟨c, hc⟩ := h.inv' i t h1
  have hpos : pos < t.slots.length := (List.getElem?_eq_some_iff.1 h2).1
  have hi : i < p.sets.length := (List.getElem?_eq_some_iff.1 h1).1
  obtain ⟨t', c', e1, e2, e3, e4, e5, _⟩ := eraseAt_spec hC hc h2
  have hset : ({ sets := p.sets.set i t' } : PTbl α).sets[i]? = some t' := by
    show (p.sets.set i t')[i]? = _
    rw [List.getElem?_set_self hi]
  have hwf : WF P ({ sets := p.sets.set i t' } : PTbl α) := by
    refine ⟨by show (p.sets.set i t').length = _; rw [List.length_set]; exact h.len, fun j u hu => ?_⟩
    replace hu : (p.sets.set i t')[j]? = some u := hu
    rw [List.getElem?_set] at hu
    split at hu
    · rename_i hij; subst hij
      cases hu
      refine ⟨⟨c', e2⟩, fun b hb => (h.inv i t h1).2 b ?_⟩
      exact e3.mem_iff.2 (List.mem_cons_of_mem _ hb)
    · exact h.inv j u hu
  have hno : ItOk ({ sets := p.sets.set i t' } : PTbl α) nxt := by
    cases nxt with
    | none => trivial
    | some x =>
      obtain ⟨j, q⟩ := x
      obtain ⟨u, b, g1, g2⟩ := hn
      rcases ha with ha | ⟨ha, hq⟩
      · exact ⟨u, b, by show (p.sets.set i t')[j]? = _; rw [List.getElem?_set_ne (by omega)]; exact g1, g2⟩
      · subst ha
        rw [h1] at g1
        cases g1
        refine ⟨t', b, hset, ?_⟩
        rw [e5, List.getElem?_set_ne (by omega)]
        exact g2
  have hrest : itRest ({ sets := p.sets.set i t' } : PTbl α) nxt = itRest p nxt := by
    cases nxt with
    | none => rfl
    | some x =>
      obtain ⟨j, q⟩ := x
      obtain ⟨u, b, g1, g2⟩ := hn
      unfold itRest tail
      rcases ha with ha | ⟨ha, hq⟩
      · have : (p.sets.set i t')[j]? = some u := by rw [List.getElem?_set_ne (by omega)]; exact g1
        dsimp only
        rw [this, g1, List.drop_set_of_lt (by omega)]
      · subst ha
        have : (p.sets.set j t')[j]? = some t' := hset
        dsimp only
        rw [this, h1, List.drop_set_of_lt (by omega)]
        dsimp only
        rw [e5, List.drop_set_of_lt (by omega)]
  refine ⟨_, ?_, hwf, hno, hrest, ?_⟩
  · unfold PTbl.eraseAt PTbl.sub
    dsimp only
    rw [h1]
    simp only [Res.ofOption_some, Res.ok_bind]
    rw [e1]
    rfl
  · have f1 := bef_rest _ hno
    rw [hrest] at f1
    apply List.append_cancel_right (bs := itRest p nxt)
    rw [← f1]
    have f2 : flat ({ sets := p.sets.set i t' } : PTbl α) = (p.sets.take i).flatMap elems ++
        (elems t' ++ (p.sets.drop (i + 1)).flatMap elems) := by
      unfold flat
      dsimp only
      rw [List.set_eq_take_append_cons_drop, if_pos hi, List.flatMap_append, List.flatMap_cons]
    rw [f2]
    unfold bef
    rw [h1]
    dsimp only
    have f3 : elems t' = (t.slots.take pos).filterMap id ++ (t.slots.drop (pos + 1)).filterMap id := by
      unfold elems
      rw [e5, List.set_eq_take_append_cons_drop, if_pos hpos, List.filterMap_append]
      rfl
    have f4 : itRest p nxt = (t.slots.drop (pos + 1)).filterMap id ++ (p.sets.drop (i + 1)).flatMap elems := by
      unfold tail at hr
      rw [h1] at hr
      dsimp only at hr
      rw [drop_filterMap_some h2, List.cons_append] at hr
      injection hr with _ hr
      exact hr.symm
    rw [f3, f4]
    simp only [List.append_assoc]

theorem eraseIfLoop_at {P : PCfg α κ} (hC : CfgOk P.C) (pred : α → Bool) :
    ∀ n (p : PTbl α) it, WF P p → ItOk p it → (itRest p it).length < n →
    ∃ p', PTbl.eraseIfLoop P pred n p it = .ok p' ∧ WF P p' ∧
      flat p' = itBef p it ++ (itRest p it).filter (fun a => !pred a) := by
  intro n
  induction n with
  | zero => intro p it _ _ h; omega
  | succ n ih =>
    intro p it hw hit hn
    cases it with
    | none => exact ⟨p, rfl, hw, by simp [itBef, itRest]⟩
    | some x =>
      obtain ⟨i, pos⟩ := x
      obtain ⟨t, a, h1, h2⟩ := id hit
      obtain ⟨it', r1, r2, r3, r4⟩ := next_at hC.group hw h1 h2
      unfold PTbl.eraseIfLoop
      rw [deref_at h1 h2]
      simp only [Res.ok_bind]
      rw [r1]
      simp only [Res.ok_bind]
      have e : itRest p (some (i, pos)) = a :: itRest p it' := r3
      rw [e, List.length_cons] at hn
      cases hp : pred a with
      | true =>
        simp only [if_true]
        obtain ⟨p1, s1, s2, s3, s4, s5⟩ := erase_at hC hw h1 h2 r2 r4 r3
        rw [s1]
        simp only [Res.ok_bind]
        obtain ⟨p', u1, u2, u3⟩ := ih p1 it' s2 s3 (by rw [s4]; omega)
        refine ⟨p', u1, u2, ?_⟩
        rw [u3, s4, s5, e, List.filter_cons, hp]
        rfl
      | false =>
        simp only [Bool.false_eq_true, if_false]
        obtain ⟨p', u1, u2, u3⟩ := ih p it' hw r2 (by omega)
        refine ⟨p', u1, u2, ?_⟩
        have e2 : itBef p it' = itBef p (some (i, pos)) ++ [a] := by
          apply List.append_cancel_right (bs := itRest p it')
          rw [← bef_rest p r2, bef_rest p hit, e, List.append_assoc]
          rfl
        rw [u3, e, List.filter_cons, hp, e2, List.append_assoc]
        rfl

theorem eraseIf_psim {P : PCfg α κ} (hC : CfgOk P.C) {p : PTbl α} {l : List α} (h : PSim P p l) (pred : α → Bool) :
    ∃ p', p.eraseIf P pred = .ok (p', l.countP pred) ∧ PSim P p' (l.filter (fun a => !pred a)) := by
  obtain ⟨it, r1, r2, r3⟩ := begin_at hC.group h.wf
  obtain ⟨p', s1, s2, s3⟩ := eraseIfLoop_at hC pred p.fuel p it h.wf r2 (by rw [r3]; exact flat_fuel h.wf)
  have hb : itBef p it = [] := by
    apply List.append_cancel_right (bs := itRest p it)
    rw [← bef_rest p r2, r3]; rfl
  rw [hb, List.nil_append, r3] at s3
  have hs : PSim P p' (l.filter (fun a => !pred a)) := s2.sim (by rw [s3]; exact h.flat.filter _)
  refine ⟨p', ?_, hs⟩
  unfold PTbl.eraseIf
  rw [r1]
  simp only [Res.ok_bind]
  rw [s1]
  simp only [Res.ok_bind]
  rw [h.size, hs.size]
  have := List.length_eq_countP_add_countP pred (l := l)
  rw [← List.countP_eq_length_filter]
  have e : l.countP (fun a => !pred a) = l.countP (fun a => decide ¬pred a = true) := by
    apply List.countP_congr; intro a _; simp
  rw [e]
  congr 2
  omega

end Gtl.Parallel
