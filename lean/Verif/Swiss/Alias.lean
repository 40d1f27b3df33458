import Verif.Swiss.Stay
/-!
# Insertions whose arguments refer to an element of the same flat container

`m.try_emplace(k, m.at(j))`, `m.insert_or_assign(k, m.at(j))`, `m.emplace(k, m.at(j))`: the mapped value is passed
by reference and copied only after `prepare_insert` has possibly moved the elements.
-/

namespace Gtl.Swiss

namespace Tbl
variable {α κ : Type} (C : Cfg α κ)

/-- `try_emplace_impl` (phmap.hpp:3154-3167), `insert_or_assign_impl` for an absent key (3140-3148) and
`emplace_decomposable` (2543-2552) with an argument that refers to slot `src` of the same table: the reference is read
by `emplace_at`, after `prepare_insert`.  `mk b` is the element built from the referenced one.  `resize` frees the old
slots (2686-2691) and always changes the capacity here; then the reference is dangling.  Otherwise the slot is read
as it is now. -/
def emplaceFrom (t : Tbl α) (k : κ) (src : Nat) (mk : α → α) : Res (Tbl α × Nat × Bool) := do
  let hashval := C.hash k
  match ← t.findHash C k hashval with
  | some off => .ok (t, off, false)
  | none => do
    let (t', off) ← t.prepareInsert C hashval
    let b ← if t'.capacity = t.capacity then t'.readSlot src else .ub
    let t' ← t'.constructSlot off (mk b)
    let t' ← t'.setCtrl C.G.W off (H2 hashval)
    .ok (t', off, true)

end Tbl

open Tbl
variable {α κ : Type}

/-- With room left, the referenced element is still there. -/
theorem emplaceFrom_room {C : Cfg α κ} (hC : CfgOk C) {t : Tbl α} {l : List α} (h : Sim C t l) {src : Nat} {b : α}
    (hs : t.slots[src]? = some (some b)) (mk : α → α) {k : κ} (hk : C.key (mk b) = k) (hg : t.growthLeft ≠ 0) :
    t.emplaceFrom C k src mk = t.emplaceHash C k (C.hash k) (fun _ => mk b) := by
  obtain ⟨⟨c, hi⟩, hp⟩ := h
  rcases find_inv hC hi k with ⟨i, a, f1, f2, f3⟩ | ⟨f1, f2⟩
  · unfold emplaceFrom emplaceHash
    unfold find at f1
    dsimp only
    rw [f1]
    rfl
  · subst hk
    obtain ⟨t1, i, t3, c3, p1, p2, p3, p4, p5, p6, _⟩ := prepareInsert_spec hC hi (mk b) f2
    obtain ⟨q1, q2, q3⟩ := p6 hg
    have hm := setCtrl_fields p2.mark
    obtain ⟨m1, m2, m3, m4⟩ := hm
    dsimp only at m1 m3
    have hcap : t1.capacity = t.capacity := by rw [← m3, q1]
    have hne : src ≠ i := by
      rintro rfl
      have hlen : (elems t3).length = (elems t).length := by
        unfold elems; rw [q2]
        obtain ⟨l1, l2, e1, e2⟩ := filterMap_set_map (b := mk b) hs
        rw [e1, e2]; simp
      have := p2.perm.length_eq
      simp only [List.length_cons] at this
      omega
    have hrd : t1.readSlot src = .ok b := by
      apply readSlot_ok
      have e : t3.slots[src]? = t1.slots[src]? := by
        rw [m1, List.getElem?_set, if_neg (Ne.symm hne)]
      rw [← e, q2, List.getElem?_set, if_neg (Ne.symm hne)]
      exact hs
    unfold emplaceFrom emplaceHash
    unfold find at f1
    dsimp only
    rw [f1]
    simp only [Res.ok_bind]
    rw [p1]
    simp only [Res.ok_bind]
    rw [if_pos hcap, hrd]
    simp only [Res.ok_bind]

/-- When the table has to be enlarged, the reference is read after the slots were freed. -/
theorem emplaceFrom_grow {C : Cfg α κ} (hC : CfgOk C) {t : Tbl α} {l : List α} (h : Sim C t l) {k : κ} (a : α)
    (hk : C.key a = k) {t' : Tbl α} {i : Nat} (he : t.emplace C a = .ok (t', i, true)) (hc : t'.capacity ≠ t.capacity)
    (src : Nat) (mk : α → α) : t.emplaceFrom C k src mk = .ub := by
  subst hk
  obtain ⟨⟨c, hi⟩, hp⟩ := h
  rcases find_inv hC hi (C.key a) with ⟨i, b, f1, f2, f3⟩ | ⟨f1, f2⟩
  · unfold emplace emplaceHash at he
    unfold find at f1
    rw [f1] at he
    simp only [Res.ok_bind] at he
    cases he
  · unfold emplace emplaceHash at he
    unfold find at f1
    unfold emplaceFrom
    dsimp only
    rw [f1] at he ⊢
    simp only [Res.ok_bind] at he ⊢
    obtain ⟨⟨t1, off⟩, h1, h2⟩ := Res.bind_eq_ok.1 he
    obtain ⟨t2, h3, h4⟩ := Res.bind_eq_ok.1 h2
    obtain ⟨t3, h5, h6⟩ := Res.bind_eq_ok.1 h4
    cases h6
    rw [h1]
    simp only [Res.ok_bind]
    have hcap : t'.capacity = t1.capacity := by
      rw [(setCtrl_fields h5).2.2.1]
      dsimp only at h3
      unfold constructSlot at h3
      split at h3
      · cases h3; rfl
      · cases h3
    rw [if_neg (by rw [← hcap]; exact hc)]
    rfl

end Gtl.Swiss
