import Verif.Props.MapPoolClear
/-!
# Property theorems C125: the order of the elements
-/

namespace Gtl.Props.MapNodes

open Gtl.Spec.MapPool

variable {E : Type}

theorem take_at_drop {s : List E} {n : Nat} {y : E} (h : s[n]? = some y) : s.take n ++ y :: s.drop (n + 1) = s := by
  have hn := at_lt' h
  rw [List.getElem?_eq_getElem hn] at h
  cases h
  rw [← List.drop_eq_getElem_cons hn, List.take_append_drop]
where
  at_lt' {s : List E} {n : Nat} {y : E} (h : s[n]? = some y) : n < s.length := by
    by_cases c : n < s.length
    · exact c
    · rw [List.getElem?_eq_none (by omega)] at h; cases h

/-- **The order of the elements** of two siblings with the one between them in the parent is the same before and after, when
elements are moved from one to the other. -/
theorem C125_order {cap : Nat} {f g : Nat → List E} {a b q i t : Nat} {o : Act E} (ho : o = .toLeft a b q i t ∨ o = .toRight a b q i t)
    (h : Does cap f o g) :
    ∃ d y, (f q)[i]? = some d ∧ (g q)[i]? = some y ∧ g a ++ y :: g b = f a ++ d :: f b := by
  have fin : ∀ {d y : E} {n : Nat}, a ≠ b → q ≠ a → q ≠ b → (f q)[i]? = some d → (f a ++ d :: f b)[n]? = some y →
      ∃ d' y', (f q)[i]? = some d' ∧
        (put (put (put f a ((f a ++ d :: f b).take n)) b ((f a ++ d :: f b).drop (n + 1))) q ((f q).set i y) q)[i]? = some y' ∧
        put (put (put f a ((f a ++ d :: f b).take n)) b ((f a ++ d :: f b).drop (n + 1))) q ((f q).set i y) a ++ y' ::
          put (put (put f a ((f a ++ d :: f b).take n)) b ((f a ++ d :: f b).drop (n + 1))) q ((f q).set i y) b =
        f a ++ d' :: f b := by
    intro d y n hab hqa hqb hd hy
    refine ⟨d, y, hd, ?_, ?_⟩
    · simp [put, take_at_drop.at_lt' hd]
    · simp only [put, if_true, if_neg hqa.symm, if_neg hab, if_neg hqb.symm]
      exact take_at_drop hy
  rcases ho with rfl | rfl
  · cases h with
    | toLeft hab hqa hqb hd _ _ _ hy => exact fin hab hqa hqb hd hy
  · cases h with
    | toRight hab hqa hqb hd _ _ _ hy => exact fin hab hqa hqb hd hy

/-- A split keeps the order: the elements that stay, the one in the parent, and those of the new node. -/
theorem C125_split_order {cap : Nat} {f g : Nat → List E} {a b q i e : Nat} (h : Does cap f (.split a b q i e) g) :
    ∃ x, (g q)[i]? = some x ∧ g a ++ x :: g b = f a := by
  cases h with
  | @split _ _ _ _ _ x hab hqa hqb hb he hi _ hx =>
    refine ⟨x, ?_, ?_⟩
    · simp only [put, if_pos]
      have : ((f q).take i).length = i := by rw [List.length_take]; omega
      rw [List.getElem?_append_right (by omega), this]
      simp
    · simp only [put, if_true, if_neg hqa.symm, if_neg hab, if_neg hqb.symm]
      have := take_at_drop hx
      rw [show (f a).length - e - 1 + 1 = (f a).length - e from by omega] at this
      exact this

/-- Nodes with elements for which this is so. -/
example : ∃ g, Does 4 (fun n => if n = 0 then [1] else if n = 1 then [3, 4, 5] else if n = 2 then [2] else ([] : List Nat)) (.toLeft 0 1 2 0 1) g ∧
    g 0 = [1, 2] ∧ g 2 = [3] ∧ g 1 = [4, 5] :=
  ⟨_, .toLeft (d := 2) (y := 3) (by decide) (by decide) (by decide) rfl (by decide) (by decide) (by decide) rfl, rfl, rfl, rfl⟩

end Gtl.Props.MapNodes
