import Verif.Btree.StringKeys
import Verif.Spec.SortedSeq
/-! Facts about the comparison of strings, for `Verif/Props/StringKeys.lean`. -/

namespace Gtl.Btree
open Gtl.Spec.SortedSeq

/-- The same comparison by recursion over both strings. -/
def cmpRec : Str → Str → Ordering
  | [], [] => .eq
  | [], _ :: _ => .lt
  | _ :: _, [] => .gt
  | x :: a, y :: b => if x < y then .lt else if y < x then .gt else cmpRec a b

theorem stringLess_rec : ∀ a b, stringLess a b = cmpRec a b
  | [], [] => by simp [stringLess, svCompare, traitsCompare, resultAsOrdering, cmpRec]
  | [], y :: b => by
    have h : svCompare [] (y :: b) = -((b.length : Int) + 1) := by simp [svCompare, traitsCompare]
    unfold stringLess resultAsOrdering cmpRec
    rw [h, if_pos (by omega)]
  | x :: a, [] => by
    have h : svCompare (x :: a) [] = (a.length : Int) + 1 := by simp [svCompare, traitsCompare]
    unfold stringLess resultAsOrdering cmpRec
    rw [h, if_neg (by omega), if_neg (by omega)]
  | x :: a, y :: b => by
    have ih := stringLess_rec a b
    unfold cmpRec
    by_cases h1 : x < y
    · rw [if_pos h1]
      simp [stringLess, svCompare, traitsCompare, resultAsOrdering, Nat.add_min_add_right, h1]
    by_cases h2 : y < x
    · rw [if_neg h1, if_pos h2]
      simp [stringLess, svCompare, traitsCompare, resultAsOrdering, Nat.add_min_add_right, h1, h2]
    rw [if_neg h1, if_neg h2, ← ih]
    unfold stringLess svCompare
    simp only [List.length_cons, Nat.add_min_add_right, List.take_succ_cons, traitsCompare, if_neg h1, if_neg h2]
    congr 1
    split
    · rfl
    · push_cast; omega

theorem cmpRec_swap : ∀ a b, (cmpRec a b).swap = cmpRec b a
  | [], [] => rfl
  | [], _ :: _ => rfl
  | _ :: _, [] => rfl
  | x :: a, y :: b => by
    have ih := cmpRec_swap a b
    unfold cmpRec
    by_cases h1 : x < y
    · simp [h1, Fin.lt_asymm h1]
    · by_cases h2 : y < x
      · simp [h1, h2]
      · simp [h1, h2, ih]

theorem cmpRec_eq : ∀ a b, cmpRec a b = .eq ↔ a = b
  | [], [] => by simp [cmpRec]
  | [], _ :: _ => by simp [cmpRec]
  | _ :: _, [] => by simp [cmpRec]
  | x :: a, y :: b => by
    have ih := cmpRec_eq a b
    unfold cmpRec
    by_cases h1 : x < y
    · simp [h1, Fin.ne_of_lt h1]
    · by_cases h2 : y < x
      · simp [h1, h2, (Fin.ne_of_lt h2).symm]
      · have : x = y := Fin.le_antisymm (Fin.not_lt.1 h2) (Fin.not_lt.1 h1)
        simp [h1, h2, ih, this]

theorem cmpRec_trans : ∀ a b c, cmpRec a b = .lt → cmpRec b c = .lt → cmpRec a c = .lt
  | a, [], c => by cases a <;> simp [cmpRec]
  | [], y :: b, [] => by simp [cmpRec]
  | [], y :: b, z :: c => by simp [cmpRec]
  | x :: a, y :: b, [] => by simp [cmpRec]
  | x :: a, y :: b, z :: c => by
    have ih := cmpRec_trans a b c
    unfold cmpRec
    by_cases h1 : x < y
    · by_cases h2 : y < z
      · simp [h1, h2, Fin.lt_trans h1 h2]
      · by_cases h3 : z < y
        · simp [h2, h3]
        · have : y = z := Fin.le_antisymm (Fin.not_lt.1 h3) (Fin.not_lt.1 h2)
          subst this; simp [h1]
    · by_cases h2 : y < x
      · simp [h1, h2]
      · have : x = y := Fin.le_antisymm (Fin.not_lt.1 h2) (Fin.not_lt.1 h1)
        subst this
        by_cases h3 : x < z
        · simp [h3]
        · by_cases h4 : z < x
          · simp [h3, h4]
          · simp [h3, h4]; exact ih

/-- The specification's order decides it. -/
theorem cmpRec_lt_iff : ∀ a b : Str, cmpRec a b = .lt ↔
    (∃ y t, b = a ++ y :: t) ∨ (∃ p x s y t, a = p ++ x :: s ∧ b = p ++ y :: t ∧ x < y)
  | [], [] => by simp [cmpRec]
  | [], y :: b => by simp [cmpRec]
  | x :: a, [] => by simp [cmpRec]
  | x :: a, y :: b => by
    have ih := cmpRec_lt_iff a b
    unfold cmpRec
    by_cases h1 : x < y
    · rw [if_pos h1]
      simp only [true_iff]
      exact .inr ⟨[], x, a, y, b, rfl, rfl, h1⟩
    rw [if_neg h1]
    by_cases h2 : y < x
    · rw [if_pos h2]
      simp only [reduceCtorEq, false_iff]
      rintro (⟨z, t, h⟩ | ⟨p, x', s, y', t, h3, h4, h5⟩)
      · cases h; exact absurd h2 (Fin.lt_irrefl _)
      · cases p with
        | nil => cases h3; cases h4; exact h1 h5
        | cons q p => cases h3; cases h4; exact absurd h2 (Fin.lt_irrefl _)
    rw [if_neg h2, ih]
    have : x = y := Fin.le_antisymm (Fin.not_lt.1 h2) (Fin.not_lt.1 h1)
    subst this
    constructor
    · rintro (⟨z, t, h⟩ | ⟨p, x', s, y', t, h3, h4, h5⟩)
      · exact .inl ⟨z, t, by rw [h]; rfl⟩
      · exact .inr ⟨x :: p, x', s, y', t, by rw [h3]; rfl, by rw [h4]; rfl, h5⟩
    · rintro (⟨z, t, h⟩ | ⟨p, x', s, y', t, h3, h4, h5⟩)
      · exact .inl ⟨z, t, (List.cons.inj h).2⟩
      · cases p with
        | nil => cases h3; cases h4; exact absurd h5 h1
        | cons q p => cases h3; cases h4; exact .inr ⟨p, x', s, y', t, rfl, rfl, h5⟩

theorem adapted_rec (cmp : StrCompare) (a b : Str) :
    cmp.adapted a b = match cmp with | .less => cmpRec a b | .greater => cmpRec b a := by
  cases cmp
  · exact stringLess_rec a b
  · exact stringLess_rec b a

theorem cmpRec_incomp (a b c : Str) (h : cmpRec a c = .lt) : cmpRec a b = .lt ∨ cmpRec b c = .lt := by
  cases hab : cmpRec a b with
  | lt => exact .inl rfl
  | eq => right; rw [(cmpRec_eq a b).1 hab] at h; exact h
  | gt =>
    right
    have : cmpRec b a = .lt := by rw [← cmpRec_swap, hab]; rfl
    exact cmpRec_trans b a c this h

theorem adapted_weak (cmp : StrCompare) : StrictWeak (fun a b => resultAsLess (cmp.adapted a b)) := by
  have hl : ∀ r : Ordering, resultAsLess r = true ↔ r = .lt := by intro r; cases r <;> simp [resultAsLess]
  have hr : ∀ a : Str, cmpRec a a = .eq := fun a => (cmpRec_eq a a).2 rfl
  cases cmp
  · refine ⟨fun a => ?_, fun a b c => ?_, fun a b c => ?_⟩ <;> simp only [adapted_rec, hl]
    · rw [hr]; rfl
    · exact cmpRec_trans a b c
    · exact cmpRec_incomp a b c
  · refine ⟨fun a => ?_, fun a b c => ?_, fun a b c => ?_⟩ <;> simp only [adapted_rec, hl]
    · rw [hr]; rfl
    · exact fun h1 h2 => cmpRec_trans c b a h2 h1
    · exact fun h => (cmpRec_incomp c b a h).symm

/-- The three-way comparison that the searches use (`Cfg.cmp3`) is the function of the container. -/
theorem strCfg_cmp3 {α : Type} (K : Nat) (multi : Bool) (key : α → Str) (cmp : StrCompare) (a b : Str) :
    (strCfg K multi key cmp).cmp3 a b = cmp.adapted a b := by
  unfold Cfg.cmp3 strCfg resultAsLess
  simp only [adapted_rec]
  cases cmp <;> dsimp only
  · rw [← cmpRec_swap a b]
    cases cmpRec a b <;> rfl
  · rw [← cmpRec_swap b a]
    cases cmpRec b a <;> rfl

end Gtl.Btree
