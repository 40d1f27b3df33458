import Verif.Btree.Model
import Mathlib.Data.List.Nodup
/-
Reads after writes of nodes, and what the loops over children do.
-/
namespace Gtl.Btree
variable {α κ : Type}

namespace Heap

theorem get_lt {h : Heap α} {i : Nat} {n : Node α} (e : h.get i = some n) : i < h.length := by
  unfold get at e
  by_contra hc
  rw [List.getElem?_eq_none (by omega)] at e
  simp at e

theorem get_set {h : Heap α} {i : Nat} {o : Node α} (n : Node α) (e : h.get i = some o) (j : Nat) :
    (h.set i n).get j = if j = i then some n else h.get j := by
  have hl := get_lt e
  unfold get set
  rw [List.getElem?_set]
  by_cases hj : j = i
  · subst hj; simp [hl]
  · rw [if_neg (fun h => hj h.symm), if_neg hj]

theorem get_free {h : Heap α} (i j : Nat) :
    (h.free i).get j = if j = i then none else h.get j := by
  unfold get free
  rw [List.getElem?_set]
  by_cases hj : j = i
  · subst hj
    by_cases hl : j < h.length
    · simp [hl]
    · simp [hl]
  · rw [if_neg (fun h => hj h.symm), if_neg hj]

theorem get_alloc {h : Heap α} (n : Node α) (j : Nat) :
    (h.alloc n).get j = if j = h.length then some n else h.get j := by
  unfold get alloc
  by_cases hj : j = h.length
  · subst hj; simp
  · rw [if_neg hj]
    by_cases hl : j < h.length
    · rw [List.getElem?_append_left hl]
    · rw [List.getElem?_eq_none (by simp; omega), List.getElem?_eq_none (by omega)]

@[simp] theorem length_set (h : Heap α) (i : Nat) (n : Node α) : (h.set i n).length = h.length := by simp [set]
@[simp] theorem length_free (h : Heap α) (i : Nat) : (h.free i).length = h.length := by simp [free]
@[simp] theorem length_alloc (h : Heap α) (n : Node α) : (h.alloc n).length = h.length + 1 := by simp [alloc]

theorem get_length (h : Heap α) : h.get h.length = none := by simp [get]

theorem upd_some {h : Heap α} {i : Nat} {o : Node α} (f : Node α → Node α) (e : h.get i = some o) :
    h.upd i f = some (h.set i (f o)) := by simp [upd, e]

end Heap

@[simp] theorem check_true : check true = some () := rfl
@[simp] theorem check_false : check false = none := rfl

/-- A check that passes. -/
theorem check_of {b : Bool} (h : b = true) : check b = some () := by subst h; rfl

theorem initChildren_spec (p : Nat) : ∀ (cs : List Nat) (h : Heap α) (j : Nat), cs.Nodup →
    (∀ c ∈ cs, ∃ nd, h.get c = some nd) →
    ∃ h', initChildren h p j cs = some h' ∧ h'.length = h.length ∧
      (∀ x, x ∉ cs → h'.get x = h.get x) ∧
      (∀ (i : Nat) c nd, cs[i]? = some c → h.get c = some nd →
        h'.get c = some { nd with parent := p, position := j + i })
  | [], h, j, _, _ => ⟨h, rfl, rfl, fun _ _ => rfl, by simp⟩
  | c :: cs, h, j, hn, hl => by
    obtain ⟨hc, hn⟩ := List.nodup_cons.1 hn
    obtain ⟨nd, e⟩ := hl c (by simp)
    set h1 := h.set c { nd with parent := p, position := j } with hh1
    have g1 : ∀ x, h1.get x = if x = c then some { nd with parent := p, position := j } else h.get x :=
      Heap.get_set _ e
    obtain ⟨h', e', hlen, ho, hi⟩ := initChildren_spec p cs h1 (j + 1) hn (by
      intro x hx
      obtain ⟨nx, ex⟩ := hl x (by simp [hx])
      exact ⟨nx, by rw [g1, if_neg (by rintro rfl; exact hc hx), ex]⟩)
    refine ⟨h', ?_, by simpa [hh1] using hlen, ?_, ?_⟩
    · unfold initChildren
      rw [Heap.upd_some _ e]
      exact e'
    · intro x hx
      simp only [List.mem_cons, not_or] at hx
      rw [ho x hx.2, g1, if_neg hx.1]
    · intro i x nx hix ex
      cases i with
      | zero =>
        simp only [List.getElem?_cons_zero, Option.some.injEq] at hix
        subst hix
        rw [ho _ hc, g1, if_pos rfl]
        rw [e] at ex
        cases ex
        rfl
      | succ i =>
        simp only [List.getElem?_cons_succ] at hix
        have hm := List.mem_of_getElem? hix
        have := hi i x nx hix (by rw [g1, if_neg (by rintro rfl; exact hc hm), ex])
        rw [this]
        simp only [Option.some.injEq, Node.mk.injEq, and_true, true_and]
        omega

theorem setPositions_spec : ∀ (cs : List Nat) (h : Heap α) (j : Nat), cs.Nodup →
    (∀ c ∈ cs, ∃ nd, h.get c = some nd) →
    ∃ h', setPositions h j cs = some h' ∧ h'.length = h.length ∧
      (∀ x, x ∉ cs → h'.get x = h.get x) ∧
      (∀ (i : Nat) c nd, cs[i]? = some c → h.get c = some nd →
        h'.get c = some { nd with position := j + i })
  | [], h, j, _, _ => ⟨h, rfl, rfl, fun _ _ => rfl, by simp⟩
  | c :: cs, h, j, hn, hl => by
    obtain ⟨hc, hn⟩ := List.nodup_cons.1 hn
    obtain ⟨nd, e⟩ := hl c (by simp)
    set h1 := h.set c { nd with position := j } with hh1
    have g1 : ∀ x, h1.get x = if x = c then some { nd with position := j } else h.get x :=
      Heap.get_set _ e
    obtain ⟨h', e', hlen, ho, hi⟩ := setPositions_spec cs h1 (j + 1) hn (by
      intro x hx
      obtain ⟨nx, ex⟩ := hl x (by simp [hx])
      exact ⟨nx, by rw [g1, if_neg (by rintro rfl; exact hc hx), ex]⟩)
    refine ⟨h', ?_, by simpa [hh1] using hlen, ?_, ?_⟩
    · unfold setPositions
      rw [Heap.upd_some _ e]
      exact e'
    · intro x hx
      simp only [List.mem_cons, not_or] at hx
      rw [ho x hx.2, g1, if_neg hx.1]
    · intro i x nx hix ex
      cases i with
      | zero =>
        simp only [List.getElem?_cons_zero, Option.some.injEq] at hix
        subst hix
        rw [ho _ hc, g1, if_pos rfl]
        rw [e] at ex
        cases ex
        rfl
      | succ i =>
        simp only [List.getElem?_cons_succ] at hix
        have hm := List.mem_of_getElem? hix
        have := hi i x nx hix (by rw [g1, if_neg (by rintro rfl; exact hc hm), ex])
        rw [this]
        simp only [Option.some.injEq, Node.mk.injEq, and_true, true_and]
        omega

end Gtl.Btree
