import Verif.Soa.Sim
/-!
# `gtl::soa` when memory runs out (soa.hpp)

The columns are changed one after the other. `std::vector` either changes a column or throws and leaves it as it was, so
an exception in column `k` leaves the columns before it changed and the others not. Nothing in `soa` undoes that.
-/

namespace Gtl.Soa

open Gtl.Spec.Soa (Row Op)

variable {m : Nat} {T : Fin (m + 1) → Type}

/-- Can memory run out in this call? `insert` and growing need memory, `reserve` and the temporaries of `sort_by_field` too. -/
def MayThrow (s : Soa T) : Op T → Prop
  | .insert _ => True
  | .assign .. => False
  | .resize n => s.size < n
  | .reserve _ => True
  | .clear => False
  | .sort .. => True

/-- What is left when column `k` throws: `insert` (soa.hpp:70-73, 156-159: a fold over the columns), `resize` (97-99).
`reserve` (101-103) changes no entries. `sort_by_field` allocates `sort_tmp` before it touches a column (105-121). -/
def Soa.stepThrow (dflt : Row T) (s : Soa T) (k : Fin (m + 1)) : Op T → Res (Soa T)
  | .insert r => eachCol.go (fun i l => .ok (l ++ [r i])) k.val (by omega) s
  | .resize n => eachCol.go (fun i l => .ok (resizeVec (dflt i) n l)) k.val (by omega) s
  | _ => .ok s

/-- A caller that undoes the damage: it remembers the number of rows and, when the call throws, calls `resize` with it,
which only removes entries and so cannot throw. `some k` says that column `k` throws. -/
def Soa.guarded (S : Sorter) (dflt : Row T) (s : Soa T) (op : Op T) : Option (Fin (m + 1)) → Res (Soa T)
  | none => s.step S dflt op
  | some k => do
    let n := s.size
    let s ← s.stepThrow dflt k op
    s.step S dflt (.resize n)

/-- A history of such calls. -/
def runGuarded (S : Sorter) (dflt : Row T) (s : Soa T) : List (Op T × Option (Fin (m + 1))) → Res (Soa T)
  | [] => .ok s
  | (op, o) :: calls => do
    let s ← s.guarded S dflt op o
    runGuarded S dflt s calls

/-- The entries after an exception: the changed columns start with the old entries. -/
theorem stepThrow_ok {s : Soa T} {rows : List (Row T)} (h : Holds s rows) (dflt : Row T) (k : Fin (m + 1)) (op : Op T)
    (ht : MayThrow s op) :
    ∃ s', s.stepThrow dflt k op = .ok s' ∧ ∀ i, s'.col i = rows.map (fun r => r i) ++
      (if i.val < k.val then (match op with
        | .insert r => [r i]
        | .resize n => List.replicate (n - rows.length) (dflt i)
        | _ => []) else []) := by
  cases op with
  | insert r =>
    obtain ⟨s', e1, e2⟩ := eachCol_go (s := s) (f := fun i l => .ok (l ++ [r i])) (g := fun i => s.col i ++ [r i])
      (fun i => rfl) k.val (by omega)
    refine ⟨s', e1, fun i => ?_⟩
    rw [e2 i, h i]
    by_cases hi : i.val < k.val
    · rw [if_pos hi, if_pos hi]
    · rw [if_neg hi, if_neg hi, List.append_nil]
  | resize n =>
    obtain ⟨s', e1, e2⟩ := eachCol_go (s := s) (f := fun i l => .ok (resizeVec (dflt i) n l))
      (g := fun i => resizeVec (dflt i) n (s.col i)) (fun i => rfl) k.val (by omega)
    refine ⟨s', e1, fun i => ?_⟩
    have hn : rows.length < n := by rw [← h.size]; exact ht
    rw [e2 i, h i]
    by_cases hi : i.val < k.val
    · rw [if_pos hi, if_pos hi]
      unfold resizeVec
      rw [List.take_of_length_le (by rw [List.length_map]; omega), List.length_map]
    · rw [if_neg hi, if_neg hi, List.append_nil]
  | assign j c v => exact ht.elim
  | clear => exact ht.elim
  | reserve n => exact ⟨s, rfl, fun i => by rw [h i]; simp⟩
  | sort c lt => exact ⟨s, rfl, fun i => by rw [h i]; simp⟩

/-- `resize` to the old number of rows undoes everything. -/
theorem repair_ok {S : Sorter} {s : Soa T} {rows : List (Row T)} (dflt : Row T) (extra : (i : Fin (m + 1)) → List (T i))
    (h : ∀ i, s.col i = rows.map (fun r => r i) ++ extra i) :
    ∃ s', s.step S dflt (.resize rows.length) = .ok s' ∧ Holds s' rows := by
  obtain ⟨s', e1, e2⟩ := eachCol_ok (s := s) (f := fun i l => .ok (resizeVec (dflt i) rows.length l))
    (g := fun i => resizeVec (dflt i) rows.length (s.col i)) (fun i => rfl)
  refine ⟨s', e1, fun i => ?_⟩
  rw [e2 i, h i]
  unfold resizeVec
  rw [List.take_left' (by rw [List.length_map])]
  simp

theorem guarded_throw_ok {S : Sorter} {s : Soa T} {rows : List (Row T)} (h : Holds s rows) (dflt : Row T) (k : Fin (m + 1))
    (op : Op T) (ht : MayThrow s op) : ∃ s', s.guarded S dflt op (some k) = .ok s' ∧ Holds s' rows := by
  obtain ⟨s1, e1, e2⟩ := stepThrow_ok h dflt k op ht
  obtain ⟨s2, e3, e4⟩ := repair_ok (S := S) dflt _ e2
  refine ⟨s2, ?_, e4⟩
  unfold Soa.guarded
  dsimp only
  rw [e1, h.size]
  exact e3

end Gtl.Soa
