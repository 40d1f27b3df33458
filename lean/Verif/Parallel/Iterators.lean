import Verif.Parallel.FunctorProof
import Verif.Parallel.Stay
/-!
# Model of the iterator objects of the hash containers

`Verif.Parallel.Table` treats an iterator as a submap number and a position.  Here an iterator is what it is in the
code: pointers into the array of submaps of one container and pointers into the control bytes of one submap.  This
makes visible what happens to iterators when containers are swapped.

Addresses: a slot array has a number; a position in it is the pair of this number and an offset (the pointers `ctrl_`
and `slot_` of the embedded iterator move together, phmap.hpp:1640-1666).  All empty submaps may share one number, as
they share `EmptyGroup()` (phmap.hpp:823-833, 2992).
-/

namespace Gtl.Parallel

open Gtl.Swiss

variable {α κ : Type}

/-- The slot arrays by number, and for each container the numbers of the arrays of its submaps. -/
structure Mem (α : Type) where
  arr : Nat → Tbl α
  home : Nat → List Nat

/-- The container `c` as a value. -/
def Mem.tbl (m : Mem α) (c : Nat) : PTbl α := { sets := (m.home c).map m.arr }

/-- `iterator` (phmap.hpp:3351-3353): `inner_` (`none` for `nullptr`), `inner_end_`, `it_` and `it_end_`. -/
structure PIter where
  inner : Option (Nat × Nat)
  innerEnd : Nat × Nat
  it : Nat × Nat
  itEnd : Nat × Nat
  deriving DecidableEq

namespace PIter

/-- `iterator_at(inner, it)` (phmap.hpp:4416) with the constructor of the iterator (3329-3335). -/
def make (m : Mem α) (c i : Nat) (pos : Nat) : Res PIter := do
  let a ← Res.ofOption (m.home c)[i]?
  .ok { inner := some (c, i), innerEnd := (c, (m.home c).length), it := (a, pos), itEnd := (a, (m.arr a).capacity) }

/-- `operator==` (phmap.hpp:3321-3323). -/
def eq (x y : PIter) : Bool := decide (x.inner = y.inner) && (decide (x.inner = none) || decide (x.it = y.it))

/-- `operator*` (phmap.hpp:3304). -/
def deref (m : Mem α) (x : PIter) : Res α := (m.arr x.it.1).readSlot x.it.2

/-- `skip_empty()` (phmap.hpp:3337-3348). Incrementing `inner_` and comparing it with `inner_end_` stays within one
container. -/
def skipEmpty (P : PCfg α κ) (m : Mem α) : Nat → PIter → Res PIter
  | 0, _ => .hang
  | n + 1, x =>
    if x.it = x.itEnd then do
      let ci ← Res.ofOption x.inner
      if (ci.1, ci.2 + 1) = x.innerEnd then .ok { x with inner := none }
      else do
        let a ← Res.ofOption (m.home ci.1)[ci.2 + 1]?
        let b ← (m.arr a).begin_ P.C
        skipEmpty P m n { inner := some (ci.1, ci.2 + 1), innerEnd := x.innerEnd, it := (a, b), itEnd := (a, (m.arr a).capacity) }
    else .ok x

/-- `operator++` (phmap.hpp:3307-3312). The assertion that `inner_` is not null is a precondition. -/
def next (P : PCfg α κ) (m : Mem α) (x : PIter) : Res PIter := do
  let _ ← Res.ofOption x.inner
  let q ← (m.arr x.it.1).next P.C x.it.2
  skipEmpty P m (x.innerEnd.2 + 1) { x with it := (x.it.1, q) }

/-- `for (; x != end(); ++x) out.push_back(*x)`; `end()` has a null `inner_` (phmap.hpp:3550). -/
def walk (P : PCfg α κ) (m : Mem α) : Nat → PIter → Res (List α)
  | 0, _ => .hang
  | n + 1, x =>
    if x.inner = none then .ok []
    else do
      let a ← x.deref m
      let y ← x.next P m
      let r ← walk P m n y
      .ok (a :: r)

/-- `_erase(it)` (phmap.hpp:4074-4077): `it.inner_->set_._erase(it.it_)`. The submap computes the index of the element
as the difference of the pointer in the iterator and the start of its own array (`erase_meta_only`, 2614-2617): it has no
meaning if these are different arrays. -/
def erase (P : PCfg α κ) (m : Mem α) (x : PIter) : Res (Mem α) := do
  let ci ← Res.ofOption x.inner
  let a ← Res.ofOption (m.home ci.1)[ci.2]?
  if x.it.1 = a then do
    let t ← (m.arr a).eraseAt P.C x.it.2
    .ok { m with arr := fun b => if b = a then t else m.arr b }
  else .ub

/-- `find(k)` (phmap.hpp:4388-4394). -/
def find (P : PCfg α κ) (m : Mem α) (c : Nat) (k : κ) : Res (Option PIter) := do
  let i := subidx P.N (P.C.hash k)
  let a ← Res.ofOption (m.home c)[i]?
  match ← (m.arr a).find P.C k with
  | none => .ok none
  | some pos => do
    let x ← make m c i pos
    .ok (some x)

end PIter

/-- `a.swap(b)` (phmap.hpp:4126-4138): the submaps exchange their arrays (2308-2328); the objects that hold the submaps
stay where they are. -/
def Mem.swap (m : Mem α) (a b : Nat) : Mem α :=
  { m with home := fun c => if c = a then m.home b else if c = b then m.home a else m.home c }

/-- `a.swap(b)` of ordinary hash containers, seen as containers with one submap: the same exchange. Their iterators have
no pointer to the container: `iterator` is `ctrl_` and `slot_` (phmap.hpp:1658-1665). `find(k)` (2394-2401) gives this
pair. -/
def Mem.plainFind (C : Cfg α κ) (m : Mem α) (c : Nat) (k : κ) : Res (Option (Nat × Nat)) := do
  let a ← Res.ofOption (m.home c)[0]?
  let o ← (m.arr a).find C k
  .ok (o.map (fun pos => (a, pos)))

/-! ## Walking -/

/-- The iterator `x` behaves like the position `it` of the table `p`. -/
def Rel (m : Mem α) (p : PTbl α) (c : Nat) (x : PIter) : PTbl.It → Prop
  | none => x.inner = none
  | some (i, pos) => x.inner = some (c, i) ∧ x.innerEnd = (c, p.sets.length) ∧
      ∃ a, x.it = (a, pos) ∧ x.itEnd = (a, (m.arr a).capacity) ∧ p.sets[i]? = some (m.arr a) ∧
        ∀ j, i < j → p.sets[j]? = (m.home c)[j]?.map m.arr

theorem skipEmpty_rel {P : PCfg α κ} {m : Mem α} {p : PTbl α} {c : Nat} : ∀ (n : Nat) (x : PIter) (i pos : Nat) (it : PTbl.It),
    Rel m p c x (some (i, pos)) → p.skipEmpty P n i pos = .ok it → ∃ y, x.skipEmpty P m n = .ok y ∧ Rel m p c y it
  | 0, _, _, _, _, _, h => by cases h
  | n + 1, x, i, pos, it, hr, h => by
    obtain ⟨h1, h2, a, h3, h4, h5, h6⟩ := id hr
    unfold PTbl.skipEmpty PTbl.sub at h
    rw [h5] at h
    simp only [Res.ofOption_some, Res.ok_bind] at h
    unfold PIter.skipEmpty
    by_cases hp : pos = (m.arr a).capacity
    · rw [if_pos hp] at h
      rw [if_pos (by rw [h3, h4, hp]), h1]
      simp only [Res.ofOption_some, Res.ok_bind]
      by_cases hl : i + 1 = p.sets.length
      · rw [if_pos hl] at h
        cases h
        rw [if_pos (by rw [h2, hl])]
        exact ⟨_, rfl, rfl⟩
      · rw [if_neg hl] at h
        rw [if_neg (by rw [h2]; intro e; exact hl (Prod.mk.inj e).2)]
        have h7 := h6 (i + 1) (Nat.lt_succ_self i)
        cases hb : (m.home c)[i + 1]? with
        | none =>
          rw [hb] at h7
          rw [h7] at h
          cases h
        | some b =>
          rw [hb] at h7
          rw [h7] at h
          simp only [Option.map_some, Res.ofOption_some, Res.ok_bind] at h ⊢
          obtain ⟨q, g1, h⟩ := Res.bind_eq_ok.1 h
          rw [g1]
          simp only [Res.ok_bind]
          exact skipEmpty_rel n _ (i + 1) q it ⟨rfl, h2, b, rfl, rfl, h7, fun j hj => h6 j (by omega)⟩ h
    · rw [if_neg hp] at h
      cases h
      rw [if_neg (by rw [h3, h4]; intro e; exact hp (Prod.mk.inj e).2)]
      exact ⟨x, rfl, hr⟩

theorem next_rel {P : PCfg α κ} {m : Mem α} {p : PTbl α} {c i pos : Nat} {x : PIter} {it : PTbl.It}
    (hr : Rel m p c x (some (i, pos))) (h : p.next P (i, pos) = .ok it) : ∃ y, x.next P m = .ok y ∧ Rel m p c y it := by
  obtain ⟨h1, h2, a, h3, h4, h5, h6⟩ := id hr
  unfold PTbl.next PTbl.sub at h
  dsimp only at h
  rw [h5] at h
  simp only [Res.ofOption_some, Res.ok_bind] at h
  obtain ⟨q, g1, h⟩ := Res.bind_eq_ok.1 h
  unfold PIter.next
  rw [h1, h2, h3]
  simp only [Res.ofOption_some, Res.ok_bind]
  rw [g1]
  simp only [Res.ok_bind]
  exact skipEmpty_rel _ _ i q it ⟨rfl, rfl, a, rfl, h4, h5, h6⟩ h

theorem walk_rel {P : PCfg α κ} {m : Mem α} {p : PTbl α} {c : Nat} : ∀ (n : Nat) (x : PIter) (it : PTbl.It) (l : List α),
    Rel m p c x it → p.collect P n it = .ok l → x.walk P m n = .ok l
  | 0, _, _, _, _, h => by cases h
  | n + 1, x, none, l, hr, h => by
    cases h
    unfold PIter.walk
    rw [if_pos (show x.inner = none from hr)]
  | n + 1, x, some (i, pos), l, hr, h => by
    obtain ⟨h1, h2, a, h3, h4, h5, h6⟩ := id hr
    unfold PTbl.collect at h
    obtain ⟨e, g1, h⟩ := Res.bind_eq_ok.1 h
    obtain ⟨it', g2, h⟩ := Res.bind_eq_ok.1 h
    obtain ⟨r, g3, h⟩ := Res.bind_eq_ok.1 h
    cases h
    obtain ⟨y, k1, k2⟩ := next_rel hr g2
    unfold PTbl.deref PTbl.sub at g1
    dsimp only at g1
    rw [h5] at g1
    simp only [Res.ofOption_some, Res.ok_bind] at g1
    unfold PIter.walk
    rw [if_neg (by rw [h1]; intro e; cases e)]
    unfold PIter.deref
    rw [h3, g1]
    simp only [Res.ok_bind]
    rw [k1]
    simp only [Res.ok_bind]
    rw [walk_rel n y it' r k2 g3]
    rfl

/-- An iterator made for the container `c` behaves like a position of it. -/
theorem make_rel {m : Mem α} {c i pos : Nat} {x : PIter} (h : PIter.make m c i pos = .ok x) :
    Rel m (m.tbl c) c x (some (i, pos)) := by
  unfold PIter.make at h
  cases ha : (m.home c)[i]? with
  | none => rw [ha] at h; cases h
  | some a =>
    rw [ha] at h
    cases h
    refine ⟨rfl, ?_, a, rfl, rfl, ?_, fun j _ => ?_⟩
    · unfold Mem.tbl; simp
    · unfold Mem.tbl; simp [ha]
    · unfold Mem.tbl; simp

/-- The rest of the elements, from an iterator made for `c`. -/
theorem walk_make {P : PCfg α κ} (hC : CfgOk P.C) {m : Mem α} {c i pos : Nat} {x : PIter} (hw : WF P (m.tbl c)) {t : Tbl α} {e : α}
    (hx : PIter.make m c i pos = .ok x) (ht : (m.tbl c).sets[i]? = some t) (he : t.slots[pos]? = some (some e)) {n : Nat}
    (hn : (tail (m.tbl c) i pos).length < n) : x.walk P m n = .ok (tail (m.tbl c) i pos) :=
  walk_rel n x (some (i, pos)) _ (make_rel hx) (collect_at hC.group hw n (some (i, pos)) ⟨t, e, ht, he⟩ hn)

/-- What an iterator made for `a` gives after `a` was swapped with `b`: the rest of its submap, then the later submaps of
what `b` was. -/
theorem walk_swapped {P : PCfg α κ} (hC : CfgOk P.C) {m : Mem α} {a b i pos : Nat} {x : PIter}
    (hwa : WF P (m.tbl a)) (hwb : WF P (m.tbl b)) {t : Tbl α} {e : α}
    (hx : PIter.make m a i pos = .ok x) (ht : (m.tbl a).sets[i]? = some t) (he : t.slots[pos]? = some (some e)) {n : Nat}
    (hn : (((t.slots.drop pos).filterMap id) ++ ((m.tbl b).sets.drop (i + 1)).flatMap elems).length < n) :
    x.walk P (m.swap a b) n =
      .ok (((t.slots.drop pos).filterMap id) ++ ((m.tbl b).sets.drop (i + 1)).flatMap elems) := by
  have hi : i < (m.tbl b).sets.length := by
    rw [hwb.len, ← hwa.len]; exact (List.getElem?_eq_some_iff.1 ht).1
  have hib : i < (m.home b).length := by unfold Mem.tbl at hi; simpa using hi
  have hset : ((m.tbl b).sets.set i t)[i]? = some t := List.getElem?_set_self hi
  have hwf : WF P ({ sets := (m.tbl b).sets.set i t } : PTbl α) := by
    refine ⟨by show ((m.tbl b).sets.set i t).length = _; rw [List.length_set]; exact hwb.len, fun j u hu => ?_⟩
    replace hu : ((m.tbl b).sets.set i t)[j]? = some u := hu
    rw [List.getElem?_set] at hu
    split at hu
    · rename_i hij; subst hij
      cases hu
      exact hwa.inv i t ht
    · exact hwb.inv j u hu
  have htail : tail ({ sets := (m.tbl b).sets.set i t } : PTbl α) i pos =
      (t.slots.drop pos).filterMap id ++ ((m.tbl b).sets.drop (i + 1)).flatMap elems := by
    unfold tail
    dsimp only
    rw [hset, List.drop_set_of_lt (Nat.lt_succ_self i)]
  rw [← htail] at hn ⊢
  refine walk_rel (c := a) n x (some (i, pos)) _ ?_ (collect_at hC.group hwf n (some (i, pos)) ⟨t, e, hset, he⟩ hn)
  obtain ⟨h1, h2, c, h3, h4, h5, h6⟩ := make_rel hx
  rw [ht] at h5
  cases h5
  refine ⟨h1, ?_, c, h3, h4, hset, fun j hj => ?_⟩
  · rw [h2, hwa.len]
    show _ = (a, ((m.tbl b).sets.set i (m.arr c)).length)
    rw [List.length_set, hwb.len]
  · show ((m.tbl b).sets.set i (m.arr c))[j]? = _
    rw [List.getElem?_set_ne (by omega)]
    unfold Mem.tbl Mem.swap
    simp

end Gtl.Parallel
