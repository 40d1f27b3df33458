import Verif.Spec.HashQuery
import Verif.Swiss.More
/-!
# Lookups with something that is not a key

The member functions of `raw_hash_set` take `key_arg<K>` (phmap.hpp:1531-1535): any type when
hash and equality are transparent. The models below are the instances of these templates for a type other than the
key type, and `equal_range`.
-/

namespace Gtl.Swiss
open Gtl.Spec.HashQuery
variable {α κ : Type}

namespace Tbl
variable (C : Cfg α κ)

/-- `find(key)` (phmap.hpp:2395-2424, 2491-2510) for a `key` that is not a key: the hash is `hash()(key)`, the elements
are compared with `eq()(elem, key)` (`EqualElement`, 2532-2540). -/
def findOf (t : Tbl α) (q : HQuery κ) : Res (Option Nat) :=
  t.probeFind C (fun a => q.hits (C.key a)) (H2 q.hash) t.fuel (Probe.start q.hash t.capacity)

/-- `contains(key)` (phmap.hpp:2425-2428). -/
def containsOf (t : Tbl α) (q : HQuery κ) : Res Bool := do
  let r ← t.findOf C q
  .ok r.isSome

/-- `count(key)` (phmap.hpp:2367-2370). -/
def countOf (t : Tbl α) (q : HQuery κ) : Res Nat := do
  let r ← t.findOf C q
  .ok (if r.isSome then 1 else 0)

/-- `erase(key)` (phmap.hpp:2230-2237). -/
def eraseOf (t : Tbl α) (q : HQuery κ) : Res (Tbl α × Nat) := do
  match ← t.findOf C q with
  | none => .ok (t, 0)
  | some off => do
    let t ← t.eraseAt C off
    .ok (t, 1)

/-- `extract(key)` (phmap.hpp:2304-2308). -/
def extractOf (t : Tbl α) (q : HQuery κ) : Res (Tbl α × Option α) := do
  match ← t.findOf C q with
  | none => .ok (t, none)
  | some off => do
    let (t, a) ← t.extractAt C off
    .ok (t, some a)

/-- `try_emplace(key, args...)`, `operator[](key)` and `lazy_emplace(key, f)` (phmap.hpp:2187-2196, 2571-2588, 3154-3167):
the element `mk ()` is constructed when nothing was found. -/
def emplaceOf (t : Tbl α) (q : HQuery κ) (mk : Unit → α) : Res (Tbl α × Nat × Bool) := do
  match ← t.findOf C q with
  | some off => .ok (t, off, false)
  | none => do
    let (t, off) ← t.prepareInsert C q.hash
    let t ← t.constructSlot off (mk ())
    let t ← t.setCtrl C.G.W off (H2 q.hash)
    .ok (t, off, true)

/-- `equal_range(key)` (phmap.hpp:2435-2449); `end()` is `capacity`. -/
def equalRangeOf (t : Tbl α) (q : HQuery κ) : Res (Nat × Nat) := do
  match ← t.findOf C q with
  | some off => do
    let nxt ← t.next C off
    .ok (off, nxt)
  | none => .ok (t.capacity, t.capacity)

/-- `equal_range(key)` with a key (phmap.hpp:2435-2449). -/
def equalRange (t : Tbl α) (k : κ) : Res (Nat × Nat) := do
  match ← t.find C k with
  | some off => do
    let nxt ← t.next C off
    .ok (off, nxt)
  | none => .ok (t.capacity, t.capacity)

/-- The loop `for (it = b; it != e; ++it) out.push_back(*it)` of a user; `n` bounds its steps. -/
def between (t : Tbl α) : Nat → Nat → Nat → Res (List α)
  | 0, _, _ => .hang
  | n + 1, b, e =>
    if b = e then .ok []
    else do
      let a ← t.readSlot b
      let b ← t.next C b
      let r ← between t n b e
      .ok (a :: r)

end Tbl

open Tbl

theorem findOf_inv {C : Cfg α κ} (hC : CfgOk C) {t : Tbl α} {c : List Ctrl} (h : Inv C t c) {q : HQuery κ}
    (hq : Fits C.hash q) :
    (∃ i a, t.findOf C q = .ok (some i) ∧ t.slots[i]? = some (some a) ∧ q.hits (C.key a) = true) ∨
    (t.findOf C q = .ok none ∧ ∀ a ∈ elems t, q.hits (C.key a) = false) :=
  probeFind_core hC.group h.core (h.has_empty hC) _ _ (fun a _ hp => hq (C.key a) hp)

theorem between_one {C : Cfg α κ} {t : Tbl α} {b e : Nat} {a : α} {n : Nat} (hb : t.slots[b]? = some (some a))
    (hn : t.next C b = .ok e) (hlt : b < e) : t.between C (n + 2) b e = .ok [a] := by
  rw [between, if_neg (by omega), readSlot_ok' hb, Res.ok_bind, hn, Res.ok_bind, between, if_pos rfl]
  rfl

theorem between_nil {C : Cfg α κ} {t : Tbl α} {b : Nat} {n : Nat} : t.between C (n + 1) b b = .ok [] := by
  rw [between, if_pos rfl]

/-- A slot splits the elements. -/
theorem elems_split {t : Tbl α} {p : Nat} {a : α} (hs : t.slots[p]? = some (some a)) :
    elems t = (t.slots.take p).filterMap id ++ a :: (t.slots.drop (p + 1)).filterMap id := by
  unfold elems
  conv_lhs => rw [← List.take_append_drop p t.slots]
  rw [List.filterMap_append, drop_filterMap_some hs]

theorem elems_erased {t t' : Tbl α} {p : Nat} (hp : p < t.slots.length) (h : t'.slots = t.slots.set p none) :
    elems t' = (t.slots.take p).filterMap id ++ (t.slots.drop (p + 1)).filterMap id := by
  obtain ⟨s1, s2⟩ := set_take_drop (x := (none : Option α)) hp
  have hnone : (t'.slots)[p]? = some none := by rw [h, List.getElem?_set, if_pos rfl, if_pos hp]
  unfold elems
  conv_lhs => rw [← List.take_append_drop p t'.slots]
  rw [List.filterMap_append]
  congr 1
  · rw [h, s1]
  · rw [drop_filterMap_none (p := p) (q := p + 1) (by omega) (by
      intro j h1 h2
      have : j = p := by omega
      subst this; exact hnone), h, s2]

theorem eraseOf_inv {C : Cfg α κ} (hC : CfgOk C) {t : Tbl α} {c : List Ctrl} (h : Inv C t c) {q : HQuery κ}
    (hq : Fits C.hash q) :
    (∃ t' c' l1 v l2, t.eraseOf C q = .ok (t', 1) ∧ t.extractOf C q = .ok (t', some v) ∧ Inv C t' c' ∧
      q.hits (C.key v) = true ∧ elems t = l1 ++ v :: l2 ∧ elems t' = l1 ++ l2) ∨
    (t.eraseOf C q = .ok (t, 0) ∧ t.extractOf C q = .ok (t, none) ∧ ∀ a ∈ elems t, q.hits (C.key a) = false) := by
  rcases findOf_inv hC h hq with ⟨i, a, h1, h2, h3⟩ | ⟨h1, h2⟩
  · left
    obtain ⟨t', c', e1, e2, e3, e4, e5, _⟩ := eraseAt_spec hC h h2
    have hp : i < t.slots.length := (List.getElem?_eq_some_iff.1 h2).1
    refine ⟨t', c', _, a, _, ?_, ?_, e2, h3, elems_split h2, elems_erased hp e5⟩
    · unfold Tbl.eraseOf
      rw [h1]
      simp only [Res.ok_bind, e1]
    · unfold Tbl.extractOf
      rw [h1]
      simp only [Res.ok_bind]
      unfold Tbl.extractAt
      rw [readSlot_ok' h2]
      simp only [Res.ok_bind]
      unfold Tbl.eraseAt at e1
      rw [destroySlot_ok h2] at e1 ⊢
      simp only [Res.ok_bind] at e1 ⊢
      rw [e1]
      rfl
  · right
    refine ⟨?_, ?_, h2⟩
    · unfold Tbl.eraseOf; rw [h1]; rfl
    · unfold Tbl.extractOf; rw [h1]; rfl

end Gtl.Swiss
