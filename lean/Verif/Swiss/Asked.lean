import Verif.Swiss.Iterate
import Verif.Spec.Asked
/-
`erase_if` of hash containers with a predicate that may throw and may have a memory: the model and what
it does. The loop is that of `eraseIfLoop` (`Swiss/Table.lean`).
-/
namespace Gtl.Swiss
namespace Tbl
open Gtl.Spec.Asked
variable {α κ σ : Type}

/-- `priv::erase_if` (phmap.hpp:5597-5608): the loop body over a running iterator, with the state `s` of the
predicate. An exception of `pred(*i)` leaves the loop before `erase` or `++i`. The result says whether there
was one. -/
def eraseAskLoop (C : Cfg α κ) (pred : Pred σ α) : Nat → Tbl α → Nat → σ → Res (Tbl α × σ × Bool)
  | 0, _, _, _ => .hang
  | n + 1, t, p, s =>
    if p = t.capacity then .ok (t, s, false)
    else do
      let a ← t.readSlot p
      match pred s a with
      | (.throw, s) => .ok (t, s, true)
      | (.erase, s) => do
        let nxt ← t.next C p
        let t ← t.eraseAt C p
        eraseAskLoop C pred n t nxt s
      | (.keep, s) => do
        let nxt ← t.next C p
        eraseAskLoop C pred n t nxt s

/-- `erase_if(c, pred)` (phmap.hpp:5597-5608): returns `old_size - c.size()`; `none`: the exception goes on to
the caller. -/
def eraseAsk (C : Cfg α κ) (t : Tbl α) (pred : Pred σ α) (s : σ) : Res (Tbl α × σ × Option Nat) := do
  let b ← t.begin_ C
  let (t', s, thrown) ← eraseAskLoop C pred t.fuel t b s
  .ok (t', s, if thrown then none else some (t.size - t'.size))

end Tbl

open Gtl.Spec.Asked Tbl
variable {α κ σ : Type}

theorem eraseAskLoop_spec {C : Cfg α κ} (hC : CfgOk C) (pred : Pred σ α) : ∀ fuel (t : Tbl α) (c : List Ctrl) p (s : σ),
    Inv C t c → p ≤ t.capacity → t.capacity - p < fuel → (p < t.capacity → ∃ a, t.slots[p]? = some (some a)) →
    ∃ t' c', eraseAskLoop C pred fuel t p s = .ok (t', (left pred s ((t.slots.drop p).filterMap id)).2) ∧ Inv C t' c' ∧
      t'.capacity = t.capacity ∧
      elems t' = (t.slots.take p).filterMap id ++ (left pred s ((t.slots.drop p).filterMap id)).1 := by
  intro fuel
  induction fuel with
  | zero => intro t c p _ _ _ h; omega
  | succ fuel ih =>
    intro t c p s h hp hf hfull
    unfold eraseAskLoop
    by_cases hpc : p = t.capacity
    · rw [if_pos hpc]
      have e : (t.slots.drop p).filterMap id = [] := by
        rw [hpc, ← h.core.sync.slen, List.drop_length]; rfl
      rw [e]
      refine ⟨t, c, rfl, h, rfl, ?_⟩
      rw [hpc, ← h.core.sync.slen, List.take_length]
      simp [elems, left]
    · rw [if_neg hpc]
      have hlt : p < t.capacity := by omega
      obtain ⟨a, ha⟩ := hfull hlt
      rw [readSlot_ok ha]
      simp only [Res.ok_bind]
      obtain ⟨q, n1, n2, n3, n4, n5⟩ := next_spec hC.group h.core hlt
      have hsl : p < t.slots.length := by rw [h.core.sync.slen]; exact hlt
      have hdrop : ∀ s : List (Option α), (∀ j : Nat, p < j → j < q → s[j]? = some none) →
          (s.drop (p + 1)).filterMap id = (s.drop q).filterMap id :=
        fun s hs => drop_filterMap_none (by omega) (fun j h1 h2 => hs j (by omega) h2)
      have htake : ∀ s : List (Option α), (∀ j : Nat, p < j → j < q → s[j]? = some none) → ∀ o, s[p]? = some o →
          (s.take q).filterMap id = (s.take p).filterMap id ++ [o].filterMap id := by
        intro s hs o ho
        have hl : p < s.length := by rw [List.getElem?_eq_some_iff] at ho; exact ho.1
        have e1 : s.take q = s.take (p + 1) ++ (s.drop (p + 1)).take (q - (p + 1)) := by
          rw [← List.take_add]; congr 1; omega
        have e2 : ((s.drop (p + 1)).take (q - (p + 1))).filterMap id = [] := by
          rw [List.filterMap_eq_nil_iff]
          intro x hx
          rw [List.mem_iff_getElem?] at hx
          obtain ⟨j, hj⟩ := hx
          have hjl : j < q - (p + 1) := by
            by_contra hcon
            rw [List.getElem?_take, if_neg hcon] at hj; cases hj
          rw [List.getElem?_take, if_pos hjl, List.getElem?_drop, hs _ (by omega) (by omega)] at hj
          cases hj; rfl
        rw [e1, List.filterMap_append, e2, List.append_nil, List.take_add_one, ho, List.filterMap_append]
        rfl
      rw [drop_filterMap_some ha, left]
      rcases hpr : pred s a with ⟨an, s'⟩
      cases an with
      | throw =>
        refine ⟨t, c, rfl, h, rfl, ?_⟩
        dsimp only
        rw [← drop_filterMap_some ha, ← List.filterMap_append, List.take_append_drop]
        rfl
      | erase =>
        dsimp only
        rw [n1]
        simp only [Res.ok_bind]
        obtain ⟨t1, c1, e1, e2, e3, e4, e5, e6⟩ := eraseAt_spec hC h ha
        rw [e1]
        simp only [Res.ok_bind]
        have hs1 : ∀ j : Nat, p < j → t1.slots[j]? = t.slots[j]? := by
          intro j hj; rw [e5, List.getElem?_set, if_neg (by omega)]
        obtain ⟨t', c', r1, r2, r3, r4⟩ := ih t1 c1 q s' e2 (by omega) (by omega) (by
          intro hq; rw [hs1 q n2]; exact n5 (by omega))
        have hn1 : ∀ j : Nat, p < j → j < q → t1.slots[j]? = some none := fun j h1 h2 => by rw [hs1 j h1]; exact n4 j h1 h2
        have hd : (t1.slots.drop q).filterMap id = (t.slots.drop (p + 1)).filterMap id := by
          rw [← hdrop t1.slots hn1, e5, (set_take_drop hsl).2]
        rw [hd] at r1 r4
        refine ⟨t', c', r1, r2, by omega, ?_⟩
        rw [r4, htake t1.slots hn1 none (by rw [e5, List.getElem?_set, if_pos rfl, if_pos hsl]), e5, (set_take_drop hsl).1]
        simp
      | keep =>
        dsimp only
        rw [n1]
        simp only [Res.ok_bind]
        obtain ⟨t', c', r1, r2, r3, r4⟩ := ih t c q s' h (by omega) (by omega) n5
        rw [← hdrop t.slots n4] at r1 r4
        refine ⟨t', c', r1, r2, by omega, ?_⟩
        rw [r4, htake t.slots n4 (some a) ha]
        simp

theorem eraseAsk_spec {C : Cfg α κ} (hC : CfgOk C) {t : Tbl α} {c : List Ctrl} (h : Inv C t c) (pred : Pred σ α) (s : σ) :
    ∃ t' c', t.eraseAsk C pred s = .ok (t', (left pred s (elems t)).2.1,
        if (left pred s (elems t)).2.2 then none else some ((elems t).length - (left pred s (elems t)).1.length)) ∧
      Inv C t' c' ∧ elems t' = (left pred s (elems t)).1 := by
  obtain ⟨q, b1, b2, b3, b4⟩ := begin_spec hC.group h.core
  obtain ⟨t', c', r1, r2, r3, r4⟩ := eraseAskLoop_spec hC pred t.fuel t c q s h b2 (by unfold fuel; omega) b4
  have e1 : (t.slots.take q).filterMap id = [] := by
    rw [List.filterMap_eq_nil_iff]
    intro x hx
    rw [List.mem_iff_getElem?] at hx
    obtain ⟨j, hj⟩ := hx
    have hjl : j < q := by
      by_contra hcon
      rw [List.getElem?_take, if_neg hcon] at hj; cases hj
    rw [List.getElem?_take, if_pos hjl, b3 _ hjl] at hj
    cases hj; rfl
  have e2 : (t.slots.drop q).filterMap id = elems t := by
    have := drop_filterMap_none (s := t.slots) (p := 0) (q := q) (by omega) (fun j _ hj => b3 j hj)
    rw [← this]; rfl
  rw [e1, List.nil_append] at r4
  rw [e2] at r1 r4
  refine ⟨t', c', ?_, r2, r4⟩
  unfold eraseAsk
  rw [b1]
  simp only [Res.ok_bind]
  rw [r1]
  simp only [Res.ok_bind]
  rw [h.size_eq, r2.size_eq, r4]

end Gtl.Swiss
