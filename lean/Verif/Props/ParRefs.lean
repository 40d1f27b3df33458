import Verif.Props.Parallel
import Verif.Parallel.Iterators
/-!
# Property theorems C101: iterators of the parallel hash containers
-/

namespace Gtl.Props.Parallel

open Gtl.Swiss Gtl.Parallel
open Gtl.Spec (Op POp WOp PWOp Resp PKeeps addsTo)
open Gtl.Props.Hash (Contract exEqv exCfg exCfg_contract)

variable {α κ : Type}

/-- The submap a key belongs to: `subidx(hash(k))`. -/
def subOf (P : PCfg α κ) (k : κ) : Nat := subidx P.N (P.C.hash k)

/-! ## Glue -/

theorem prun_stay {P : PCfg α κ} (h : Contract P.C) {k : κ} {i pos : Nat} : ∀ (ops : List (POp α κ)) {p : PTbl α} {l : List α}
    {t : Tbl α}, PSim P p l → (∀ op ∈ ops, op.Valid P.C.key (2 ^ P.N)) → (∀ op ∈ ops, PKeeps P.C.key P.C.eqv k op) →
    (∀ op ∈ ops, ¬ op.Resizes) → p.sets[i]? = some t → addsTo P.C.key (kidx P) i ops ≤ t.growthLeft → Holds P.C k pos t →
    ∃ p' rs l' t', prun P p ops = .ok (p', rs) ∧ PSim P p' l' ∧ p'.sets[i]? = some t' ∧ t'.capacity = t.capacity ∧
      Holds P.C k pos t'
  | [], p, l, t, hs, _, _, _, ht, _, hh => ⟨p, [], l, t, rfl, hs, ht, rfl, hh⟩
  | op :: ops, p, l, t, hs, hv, hk, hr, ht, hg, hh => by
    obtain ⟨p1, h1, h2⟩ := pstep_sim h.cfgOk hs op (hv op List.mem_cons_self)
    rw [addsTo_cons] at hg
    obtain ⟨t1, g1, g2⟩ := pstep_stay h.cfgOk hs (hv op List.mem_cons_self) (hk op List.mem_cons_self)
      (hr op List.mem_cons_self) ht hh (by omega) h1
    have := g2.2.2
    obtain ⟨p2, rs, l2, t2, f1, f2, f3, f4, f5⟩ := prun_stay h ops h2 (fun o ho => hv o (List.mem_cons_of_mem _ ho))
      (fun o ho => hk o (List.mem_cons_of_mem _ ho)) (fun o ho => hr o (List.mem_cons_of_mem _ ho)) g1 (by omega) g2.1
    exact ⟨p2, _, l2, t2, by simp only [prun, h1, f1, Res.ok_bind]; rfl, f2, f3, by rw [f4, g2.2.1], f5⟩

theorem reach_wf [BEq α] [LawfulBEq α] {P : PCfg α κ} (h : Contract P.C) {p : PTbl α} (hr : PReachable P p) : WF P p :=
  (hr.sim h).wf

/-! ## C101: which operations move elements -/

/-- An iterator (the pair of a submap and a position in it that `find(k)` gives) stays valid through every history that
does not remove the element, contains no `rehash`, `reserve` or `clear`, and adds to the submap of the element no more
elements than it has room for.  Whatever is added to the other submaps, however often they are resized, does not matter. -/
theorem C101_room_partial [BEq α] [LawfulBEq α] {P : PCfg α κ} (h : Contract P.C) {p : PTbl α} (hr : PReachable P p)
    {k : κ} {i pos : Nat} {t : Tbl α} (hf : p.locate P k = .ok (some (i, pos))) (ht : p.sets[i]? = some t)
    (ops : List (POp α κ)) (hv : ∀ op ∈ ops, op.Valid P.C.key (2 ^ P.N))
    (hk : ∀ op ∈ ops, PKeeps P.C.key P.C.eqv k op) (hn : ∀ op ∈ ops, ¬ op.Resizes)
    (hg : addsTo P.C.key (subOf P) i ops ≤ t.growthLeft) :
    ∃ p' rs t', prun P p ops = .ok (p', rs) ∧ p'.locate P k = .ok (some (i, pos)) ∧ p'.sets[i]? = some t' ∧
      t'.capacity = t.capacity := by
  obtain ⟨e, u, h1, h2⟩ := locate_inv h.cfgOk (hr.sim h) hf
  rw [ht] at h1; cases h1
  obtain ⟨p', rs, l', t', f1, f2, f3, f4, f5⟩ := prun_stay h ops (hr.sim h) hv hk hn ht hg h2
  subst e
  exact ⟨p', rs, t', f1, locate_of_holds h.cfgOk f2 f3 f5, f3, f4⟩

/-- In particular: reading, changing elements, erasing other elements, and adding any number of elements that belong to
other submaps. -/
theorem C101_no_adds_partial [BEq α] [LawfulBEq α] {P : PCfg α κ} (h : Contract P.C) {p : PTbl α} (hr : PReachable P p)
    {k : κ} {i pos : Nat} (hf : p.locate P k = .ok (some (i, pos)))
    (ops : List (POp α κ)) (hv : ∀ op ∈ ops, op.Valid P.C.key (2 ^ P.N))
    (hk : ∀ op ∈ ops, PKeeps P.C.key P.C.eqv k op) (hn : ∀ op ∈ ops, ¬ op.Resizes)
    (h0 : ∀ op ∈ ops, ∀ k' ∈ op.adds P.C.key, subOf P k' ≠ subOf P k) :
    ∃ p' rs, prun P p ops = .ok (p', rs) ∧ p'.locate P k = .ok (some (i, pos)) := by
  obtain ⟨e, t, h1, h2⟩ := locate_inv h.cfgOk (hr.sim h) hf
  have hz : addsTo P.C.key (subOf P) i ops = 0 := by
    unfold addsTo
    rw [List.countP_eq_zero]
    intro k' hk'
    obtain ⟨op, ho, hk'⟩ := List.mem_flatMap.1 hk'
    have := h0 op ho k' hk'
    rw [e]
    unfold kidx
    simpa [subOf] using this
  obtain ⟨p', rs, t', f1, f2, _⟩ := C101_room_partial h hr hf h1 ops hv hk hn (by rw [hz]; exact Nat.zero_le _)
  exact ⟨p', rs, f1, f2⟩

/-- The call works on the element with one key. -/
def onKey (P : PCfg α κ) : POp α κ → Option κ
  | .base op => keyOf P op
  | .ifContains k => some k
  | .modifyIf k _ => some k
  | .eraseIfKey k _ => some k
  | .emplaceL a _ => some (P.C.key a)
  | .forEachM _ => none

/-- A call for one key touches only the submap of the key: all others, their capacities included, are as before. So at
most one submap is resized. -/
theorem C101_one_submap {P : PCfg α κ} {p p' : PTbl α} {op : POp α κ} {k : κ} (hk : onKey P op = some k) {r : Resp α}
    (hst : p.pstep P op = .ok (p', r)) (j : Nat) (hj : j ≠ subOf P k) : p'.sets[j]? = p.sets[j]? := by
  cases op with
  | base op =>
    cases op with
    | insertNode n =>
      cases n with
      | none => cases hst; rfl
      | some a => cases hk; exact withSub_other hst hj
    | eraseIf _ => cases hk
    | insertRange _ => cases hk
    | size => cases hst; rfl
    | clear => cases hk
    | reserve _ => cases hk
    | rehash _ => cases hk
    | _ => cases hk; exact withSub_other hst hj
  | forEachM f => cases hk
  | _ => cases hk; exact withSub_other hst hj

/-- Such calls exist for every reachable container. -/
example [BEq α] [LawfulBEq α] {P : PCfg α κ} (h : Contract P.C) {p : PTbl α} (hr : PReachable P p) (a : α) :
    ∃ p' r, onKey P (.base (.insert a)) = some (P.C.key a) ∧ p.pstep P (.base (.insert a)) = .ok (p', r) := by
  obtain ⟨p', h1, _⟩ := pstep_sim h.cfgOk (hr.sim h) (.base (.insert a)) trivial
  exact ⟨p', _, rfl, h1⟩

/-! ## C101: swapping containers -/

/-- The containers `a` and `b` share no memory (except for the static control bytes of empty submaps). -/
def Apart (m : Mem α) (a b : Nat) : Prop := ∀ n, n ∈ m.home a → n ∈ m.home b → (m.arr n).capacity = 0

/-- The elements of the submaps of container `c` after submap `i`, in the order of iteration. -/
def later (m : Mem α) (c i : Nat) : List α := ((m.tbl c).sets.drop (i + 1)).flatMap elems

/-- What `find` gives, as a position. -/
theorem find_make {P : PCfg α κ} (h : CfgOk P.C) {m : Mem α} {c : Nat} {l : List α} (hs : PSim P (m.tbl c) l) {k : κ} {x : PIter}
    (hx : PIter.find P m c k = .ok (some x)) :
    ∃ a pos e, (m.home c)[subOf P k]? = some a ∧ PIter.make m c (subOf P k) pos = .ok x ∧ x.inner = some (c, subOf P k) ∧
      x.it = (a, pos) ∧ (m.tbl c).sets[subOf P k]? = some (m.arr a) ∧ (m.arr a).slots[pos]? = some (some e) ∧
      P.C.eqv (P.C.key e) k = true := by
  unfold PIter.find at hx
  dsimp only at hx
  cases ha : (m.home c)[subidx P.N (P.C.hash k)]? with
  | none => rw [ha] at hx; cases hx
  | some a =>
    rw [ha] at hx
    simp only [Res.ofOption_some, Res.ok_bind] at hx
    have ht : (m.tbl c).sets[subidx P.N (P.C.hash k)]? = some (m.arr a) := by unfold Mem.tbl; simp [ha]
    rcases find_sim h (hs.sim _ _ ht) k with ⟨pos, e, f1, f2, f3, f4, f5⟩ | ⟨f1, _⟩
    · rw [f1] at hx
      simp only [Res.ok_bind] at hx
      obtain ⟨y, h1, hx⟩ := Res.bind_eq_ok.1 hx
      cases hx
      refine ⟨a, pos, e, ha, h1, ?_, ?_, ht, f2, f4⟩
      all_goals
        unfold PIter.make at h1
        rw [ha] at h1
        cases h1
        rfl
    · rw [f1] at hx
      cases hx

/-- After `a.swap(b)` an iterator into `a` still refers to its element (so references and pointers stay valid), but it
has become useless as an iterator into `b`: it is not equal to any iterator `b.find` returns, and `b.erase(it)` is
undefined. -/
theorem C101_swap_iterator [BEq α] [LawfulBEq α] {P : PCfg α κ} (h : Contract P.C) {m : Mem α} {a b : Nat} (hab : a ≠ b)
    (ha : PReachable P (m.tbl a)) (hb : PReachable P (m.tbl b)) (hm : Apart m a b) {k : κ} {x : PIter}
    (hx : PIter.find P m a k = .ok (some x)) :
    (∃ e, P.C.eqv (P.C.key e) k = true ∧ x.deref m = .ok e ∧ x.deref (m.swap a b) = .ok e) ∧
    (∀ k' y, PIter.find P (m.swap a b) b k' = .ok (some y) → x.eq y = false) ∧
    x.erase P (m.swap a b) = .ub := by
  obtain ⟨n, pos, e, h1, h2, h3, h4, h5, h6, h7⟩ := find_make h.cfgOk (ha.sim h) hx
  refine ⟨⟨e, h7, ?_, ?_⟩, ?_, ?_⟩
  · unfold PIter.deref; rw [h4]; exact readSlot_ok' h6
  · unfold PIter.deref; rw [h4]; exact readSlot_ok' h6
  · intro k' y hy
    have hs : PSim P ((m.swap a b).tbl b) (flat (m.tbl a)) := by
      have : (m.swap a b).tbl b = m.tbl a := by
        unfold Mem.tbl Mem.swap
        dsimp only
        rw [if_neg (fun e => hab e.symm), if_pos rfl]
      rw [this]
      exact ha.sim h
    obtain ⟨_, _, _, _, _, g3, _⟩ := find_make h.cfgOk hs hy
    unfold PIter.eq
    rw [h3, g3]
    simp [hab]
  · unfold PIter.erase
    rw [h3]
    simp only [Res.ofOption_some, Res.ok_bind]
    have e1 : (m.swap a b).home a = m.home b := by
      unfold Mem.swap; dsimp only; rw [if_pos rfl]
    rw [e1]
    cases hn : (m.home b)[subOf P k]? with
    | none =>
      exfalso
      have l1 := (reach_wf h hb).len
      have l2 := (reach_wf h ha).len
      have l3 := (List.getElem?_eq_some_iff.1 h5).1
      rw [l2, ← l1] at l3
      unfold Mem.tbl at l3
      rw [List.getElem?_eq_none_iff] at hn
      simp at l3
      omega
    | some n' =>
      simp only [Res.ofOption_some, Res.ok_bind]
      rw [if_neg]
      rw [h4]
      dsimp only
      rintro rfl
      have := hm n (List.mem_of_getElem? h1) (List.mem_of_getElem? hn)
      obtain ⟨c, hc⟩ := (reach_wf h ha).inv' _ _ h5
      have l4 := (List.getElem?_eq_some_iff.1 h6).1
      rw [hc.core.sync.slen] at l4
      omega

/-- And a loop that goes on from the iterator does not visit the rest of its elements: after those of the submap it is
in, it visits the elements that were in the later submaps of the other container, where it visited those of its own
before. -/
theorem C101_swap_walk [BEq α] [LawfulBEq α] {P : PCfg α κ} (h : Contract P.C) {m : Mem α} {a b : Nat}
    (ha : PReachable P (m.tbl a)) (hb : PReachable P (m.tbl b)) {k : κ} {x : PIter}
    (hx : PIter.find P m a k = .ok (some x)) :
    ∃ here, ∀ n, here.length + (m.tbl a).size + (m.tbl b).size < n →
      x.walk P m n = .ok (here ++ later m a (subOf P k)) ∧
      x.walk P (m.swap a b) n = .ok (here ++ later m b (subOf P k)) := by
  obtain ⟨n, pos, e, h1, h2, h3, h4, h5, h6, h7⟩ := find_make h.cfgOk (ha.sim h) hx
  have hl : ∀ c i, PReachable P (m.tbl c) → (later m c i).length ≤ (m.tbl c).size := by
    intro c i hc
    rw [(hc.sim h).size]
    unfold later flat
    conv => rhs; rw [← List.take_append_drop (i + 1) (m.tbl c).sets, List.flatMap_append, List.length_append]
    omega
  refine ⟨((m.arr n).slots.drop pos).filterMap id, ?_⟩
  intro N hN
  have ea : tail (m.tbl a) (subOf P k) pos = ((m.arr n).slots.drop pos).filterMap id ++ later m a (subOf P k) := by
    unfold tail later; rw [h5]
  have la := hl a (subOf P k) ha
  have lb := hl b (subOf P k) hb
  constructor
  · rw [← ea]
    refine walk_make h.cfgOk (reach_wf h ha) h2 h5 h6 ?_
    rw [ea, List.length_append]
    omega
  · refine walk_swapped h.cfgOk (reach_wf h ha) (reach_wf h hb) h2 h5 h6 ?_
    show (_ ++ later m b (subOf P k)).length < N
    rw [List.length_append]
    omega

/-- The iterators of ordinary hash containers survive `swap`: `b.find(k)` gives the iterator `a.find(k)` gave before. -/
theorem C101_swap_plain {C : Cfg α κ} {m : Mem α} {a b : Nat} (hab : a ≠ b) (k : κ) :
    (m.swap a b).plainFind C b k = m.plainFind C a k := by
  unfold Mem.plainFind Mem.swap
  dsimp only
  rw [if_neg (fun e => hab e.symm), if_pos rfl]

/-! ## Concrete cases -/

/-- Elements 5 and 10 (in submaps 1 and 3). -/
def twoElems (P : PCfg (Nat × Nat) Nat) : PTbl (Nat × Nat) :=
  match PTbl.wrun P (fun _ => PTbl.empty P) [.on 0 (.base (.insert (5, 25))), .on 0 (.base (.insert (10, 100)))] with
  | .ok (w, _) => w 0
  | _ => { sets := [] }

theorem twoElems_ok : (match PTbl.wrun (exP groupPortable) (fun _ => PTbl.empty (exP groupPortable))
      [.on 0 (.base (.insert (5, 25))), .on 0 (.base (.insert (10, 100)))] with
    | .ok _ => true | _ => false) = true := by decide +kernel

theorem twoElems_reach : PReachable (exP groupPortable) (twoElems (exP groupPortable)) := by
  have hP := twoElems_ok
  cases h : PTbl.wrun (exP groupPortable) (fun _ => PTbl.empty (exP groupPortable))
      [.on 0 (.base (.insert (5, 25))), .on 0 (.base (.insert (10, 100)))] with
  | ok r =>
    refine ⟨_, r.1, r.2, 0, ?_, h, ?_⟩
    · intro op hop
      simp at hop
      rcases hop with rfl | rfl <;> trivial
    · unfold twoElems; rw [h]
  | ub => rw [h] at hP; cases hP
  | hang => rw [h] at hP; cases hP

/-- Container 0 has the two elements, container 1 is empty. -/
def exMem : Mem (Nat × Nat) where
  arr n := ((twoElems (exP groupPortable)).sets[n]?).getD Tbl.empty
  home c := if c = 0 then List.range 8 else List.replicate 8 8

theorem exMem_zero : exMem.tbl 0 = twoElems (exP groupPortable) := by
  have h8 := (reach_wf (exP_contract (.inr (.inr rfl))) twoElems_reach).len
  unfold Mem.tbl exMem
  dsimp only
  rw [if_pos rfl]
  generalize twoElems (exP groupPortable) = p at *
  have h8' : p.sets.length = 8 := h8
  have : (List.range 8).map (fun n => (p.sets[n]?).getD Tbl.empty) = p.sets := by
    apply List.ext_getElem
    · simp [h8']
    · intro n h1 h2
      simp [List.getElem?_eq_getElem h2]
  rw [this]

theorem exMem_one : exMem.tbl 1 = PTbl.empty (exP groupPortable) := by
  have h8 := (reach_wf (exP_contract (.inr (.inr rfl))) twoElems_reach).len
  have h8' : (twoElems (exP groupPortable)).sets.length = 8 := h8
  unfold Mem.tbl exMem PTbl.empty
  dsimp only
  rw [if_neg (by decide), List.map_replicate, List.getElem?_eq_none (by omega)]
  rfl

theorem exMem_reach : PReachable (exP groupPortable) (exMem.tbl 0) ∧ PReachable (exP groupPortable) (exMem.tbl 1) := by
  rw [exMem_zero, exMem_one]
  exact ⟨twoElems_reach, [], _, [], 0, fun _ h => by simp at h, rfl, rfl⟩

theorem exMem_apart : Apart exMem 0 1 := by
  intro n h1 h2
  have h1' : n ∈ List.range 8 := h1
  have h2' : n ∈ List.replicate 8 8 := h2
  rw [List.mem_range] at h1'
  have := (List.mem_replicate.1 h2').2
  omega

theorem exMem_find : (match PIter.find (exP groupPortable) exMem 0 5 with
    | .ok (some x) => (x.walk (exP groupPortable) exMem 20, x.walk (exP groupPortable) (exMem.swap 0 1) 20)
    | _ => (.ub, .ub)) = (.ok [(5, 25), (10, 100)], .ok [(5, 25)]) := by decide +kernel

theorem exMem_iter : ∃ x, PIter.find (exP groupPortable) exMem 0 5 = .ok (some x) ∧
    x.walk (exP groupPortable) exMem 20 = .ok [(5, 25), (10, 100)] ∧
    x.walk (exP groupPortable) (exMem.swap 0 1) 20 = .ok [(5, 25)] := by
  have hf := exMem_find
  cases h : PIter.find (exP groupPortable) exMem 0 5 with
  | ok o =>
    rw [h] at hf
    cases o with
    | none => simp at hf
    | some x =>
      dsimp only at hf
      exact ⟨x, rfl, (Prod.mk.inj hf).1, (Prod.mk.inj hf).2⟩
  | ub => rw [h] at hf; simp at hf
  | hang => rw [h] at hf; simp at hf

/-- **Refutation.** The documentation says that `swap` never invalidates the iterators of the parallel containers. It
does: an iterator that would visit the two elements of its container visits only one of them after the swap. -/
theorem C101_swap_refuted :
    ¬ (∀ (P : PCfg (Nat × Nat) Nat) (m : Mem (Nat × Nat)) (a b k : Nat) (x : PIter) (n : Nat) (l : List (Nat × Nat)),
      Contract P.C → a ≠ b → PReachable P (m.tbl a) → PReachable P (m.tbl b) → Apart m a b →
      PIter.find P m a k = .ok (some x) → x.walk P m n = .ok l → x.walk P (m.swap a b) n = .ok l) := by
  intro H
  obtain ⟨x, h1, h2, h3⟩ := exMem_iter
  have := H (exP groupPortable) exMem 0 1 5 x 20 _ (exP_contract (.inr (.inr rfl))) (by decide) exMem_reach.1 exMem_reach.2
    exMem_apart h1 h2
  rw [h3] at this
  simp at this

/-- The hypotheses of the theorems on swapping are met by a container with two elements and an empty one. -/
example : ∃ (m : Mem (Nat × Nat)) (x : PIter), Contract (exP groupPortable).C ∧ PReachable (exP groupPortable) (m.tbl 0) ∧
    PReachable (exP groupPortable) (m.tbl 1) ∧ Apart m 0 1 ∧ PIter.find (exP groupPortable) m 0 5 = .ok (some x) := by
  obtain ⟨x, h1, _⟩ := exMem_iter
  exact ⟨exMem, x, exP_contract (.inr (.inr rfl)), exMem_reach.1, exMem_reach.2, exMem_apart, h1⟩

theorem two_locate : (twoElems (exP groupPortable)).locate (exP groupPortable) 5 = .ok (some (1, 0)) := by decide +kernel

/-- A history as in `C101_no_adds_partial`: element 10 goes away, twenty elements of other submaps come. -/
def exQuiet : List (POp (Nat × Nat) Nat) :=
  [.base (.erase 10), .modifyIf 5 (fun b => (b.1, 7)), .base (.insertRange ((List.range 20).map (fun i => (i + 7, i)))),
   .forEachM (fun b => (b.1, b.2 + 1)), .base (.eraseIf (fun a => a.1 == 13)), .emplaceL (27, 3) id, .ifContains 5]

theorem exQuiet_sub : ∀ k ∈ exQuiet.flatMap (POp.adds Prod.fst), subOf (exP groupPortable) k ≠ subOf (exP groupPortable) 5 := by
  decide +kernel

/-- The hypotheses of `C101_room_partial` and `C101_no_adds_partial` are met. -/
example : (∀ op ∈ exQuiet, op.Valid (exP groupPortable).C.key (2 ^ (exP groupPortable).N)) ∧
    (∀ op ∈ exQuiet, PKeeps (exP groupPortable).C.key (exP groupPortable).C.eqv 5 op) ∧ (∀ op ∈ exQuiet, ¬ op.Resizes) ∧
    (∀ op ∈ exQuiet, ∀ k' ∈ op.adds (exP groupPortable).C.key, subOf (exP groupPortable) k' ≠ subOf (exP groupPortable) 5) ∧
    ∃ p rs, prun (exP groupPortable) (twoElems (exP groupPortable)) exQuiet = .ok (p, rs) ∧
      p.locate (exP groupPortable) 5 = .ok (some (1, 0)) := by
  have h1 : ∀ op ∈ exQuiet, op.Valid (exP groupPortable).C.key (2 ^ (exP groupPortable).N) := by
    intro op ho
    simp only [exQuiet, List.mem_cons, List.not_mem_nil, or_false] at ho
    rcases ho with rfl | rfl | rfl | rfl | rfl | rfl | rfl <;> simp [POp.Valid, exP, exCfg]
  have h2 : ∀ op ∈ exQuiet, PKeeps (exP groupPortable).C.key (exP groupPortable).C.eqv 5 op := by
    intro op ho
    simp only [exQuiet, List.mem_cons, List.not_mem_nil, or_false] at ho
    rcases ho with rfl | rfl | rfl | rfl | rfl | rfl | rfl
    · show exEqv 5 10 = false; decide
    · trivial
    · trivial
    · trivial
    · intro a ha
      have ha' : exEqv a.1 5 = true := ha
      simp only [exEqv, beq_iff_eq] at ha'
      show (a.1 == 13) = false
      rw [beq_eq_false_iff_ne]
      rintro e
      rw [e] at ha'
      omega
    · trivial
    · trivial
  have h3 : ∀ op ∈ exQuiet, ¬ op.Resizes := by
    intro op ho
    simp only [exQuiet, List.mem_cons, List.not_mem_nil, or_false] at ho
    rcases ho with rfl | rfl | rfl | rfl | rfl | rfl | rfl <;> exact fun h => h
  have h4 : ∀ op ∈ exQuiet, ∀ k' ∈ op.adds (exP groupPortable).C.key,
      subOf (exP groupPortable) k' ≠ subOf (exP groupPortable) 5 :=
    fun op ho k' hk => exQuiet_sub k' (List.mem_flatMap.2 ⟨op, ho, hk⟩)
  exact ⟨h1, h2, h3, h4, C101_no_adds_partial (exP_contract (.inr (.inr rfl))) twoElems_reach two_locate exQuiet h1 h2 h3 h4⟩

end Gtl.Props.Parallel
