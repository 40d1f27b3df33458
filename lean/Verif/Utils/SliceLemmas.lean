import Mathlib.Tactic.Ring
import Mathlib.Tactic.Linarith
import Mathlib.Data.List.Sort
import Verif.Utils.Slice
import Verif.Spec.Slices
/-!
# Lemmas about `slice`
-/

namespace Gtl.Slice

open Spec.Slices

variable {α : Type}

theorem positions_eq (n f l s : Nat) (hs : 0 < s) (hl : l ≤ n) :
    (List.range n).filter (fun p => decide (f ≤ p ∧ p < l ∧ (p - f) % s = 0)) =
      (List.range ((l - f + (s - 1)) / s)).map (fun i => f + s * i) := by
  apply List.Perm.eq_of_pairwise (le := (· < ·))
  · intro a b _ _ h1 h2; omega
  · exact List.Pairwise.filter _ List.pairwise_lt_range
  · refine List.Pairwise.map _ ?_ List.pairwise_lt_range
    intro a b hab
    have := Nat.mul_lt_mul_of_pos_left hab hs
    omega
  · rw [List.perm_ext_iff_of_nodup]
    · intro p
      simp only [List.mem_filter, List.mem_range, decide_eq_true_eq, List.mem_map]
      constructor
      · rintro ⟨hp, h1, h2, h3⟩
        refine ⟨(p - f) / s, ?_, ?_⟩
        · have h4 := Nat.div_add_mod (p - f) s
          rw [h3] at h4
          rw [Nat.lt_div_iff_mul_lt hs]
          have : (p - f) / s * s = s * ((p - f) / s) := Nat.mul_comm ..
          omega
        · have h4 := Nat.div_add_mod (p - f) s
          omega
      · rintro ⟨i, hi, rfl⟩
        rw [Nat.lt_div_iff_mul_lt hs] at hi
        have : i * s = s * i := Nat.mul_comm ..
        refine ⟨by omega, by omega, by omega, ?_⟩
        rw [Nat.add_sub_cancel_left]
        exact Nat.mul_mod_right s i
    · exact List.Nodup.filter _ List.nodup_range
    · refine List.Nodup.map ?_ List.nodup_range
      intro a b hab
      dsimp only at hab
      have : s * a = s * b := by omega
      exact Nat.eq_of_mul_eq_mul_left hs this

theorem loop_eq (v : List α) (s : Nat) : ∀ (cnt it : Nat) (res : List α), 0 < s → it + s * cnt ≤ v.length →
    loop v s cnt it res = .ok (res ++ ((List.range cnt).map (fun i => it + s * i)).filterMap (fun p => v[p]?))
  | 0, it, res, _, _ => by simp [loop]
  | cnt + 1, it, res, hs, h => by
    rw [Nat.mul_succ] at h
    have h1 : it < v.length := by omega
    have h2 : v[it]? = some v[it] := List.getElem?_eq_getElem h1
    unfold loop deref iter
    rw [if_pos (by omega), Int.toNat_natCast, h2]
    simp only [Res.ofOption, Res.ok_bind]
    rw [if_pos (by omega), Res.ok_bind]
    have := loop_eq v s cnt (it + s) (res ++ [v[it]]) hs (by omega)
    push_cast at this
    rw [this, List.range_succ_eq_map, List.map_cons, Nat.mul_zero, Nat.add_zero, List.filterMap_cons, h2, List.map_map,
      List.append_assoc]
    have hm : List.map (fun i => it + s + s * i) (List.range cnt) =
        List.map ((fun i => it + s * i) ∘ Nat.succ) (List.range cnt) := by
      apply List.map_congr_left
      intro i _
      simp only [Function.comp]
      rw [Nat.mul_succ]
      omega
    rw [hm]
    rfl

theorem position_eq {v : List α} {i : Int} {p : Nat} (h : fromEnd v.length i = p) (hp : p ≤ v.length) :
    position v i = .ok p := by
  unfold fromEnd at h
  unfold position iter
  by_cases hi : 0 ≤ i
  · rw [if_pos hi] at h
    rw [if_pos (by omega), h, if_pos (by omega)]
  · rw [if_neg hi] at h
    rw [if_neg (by omega), show (v.length : Int) + (i + 1) = p by omega, if_pos (by omega)]

theorem slice_eq {max : Nat} (v : List α) {first last : Int} {f l s : Nat} (hv : v.length ≤ max) (hm : max < 2 ^ 63) (hf : fromEnd v.length first = f)
    (hl : fromEnd v.length last = l) (hf' : f ≤ v.length) (hl' : l ≤ v.length) (hs : 0 < s) :
    slice max v first last s = .ok (some (elements v f (f + s * ((l - f) / s)) s)) := by
  unfold slice
  rw [position_eq hf hf', position_eq hl hl']
  simp only [Res.ok_bind]
  by_cases hc : f < l
  · rw [if_pos (by omega), Res.guardUb_of (by simp; omega), Res.ok_bind]
    have h1 : ((l : Int) - f).tdiv s = (((l - f) / s : Nat) : Int) := by
      rw [show (l : Int) - f = ((l - f : Nat) : Int) by omega]
      rfl
    have h2 : (l - f) / s ≤ l - f := Nat.div_le_self _ _
    have h3 : s * ((l - f) / s) ≤ l - f := Nat.mul_div_le _ _
    have h4 : (((l - f) / s : Nat) : Int) % 2 ^ 64 = (((l - f) / s : Nat) : Int) := by
      generalize (l - f) / s = q at *
      exact Int.emod_eq_of_lt (by omega) (by omega)
    rw [h1, h4, Int.toNat_natCast, if_neg (by omega), loop_eq v s _ f [] hs (by omega)]
    simp only [Res.ok_bind]
    unfold elements
    rw [positions_eq _ _ _ _ hs (by omega), Nat.add_sub_cancel_left]
    have : (s * ((l - f) / s) + (s - 1)) / s = (l - f) / s := by
      have h5 : (s - 1) / s = 0 := Nat.div_eq_of_lt (Nat.sub_lt hs Nat.one_pos)
      rw [Nat.mul_add_div hs, h5, Nat.add_zero]
    rw [this]
    rfl
  · rw [if_neg (by omega)]
    unfold elements
    rw [show l - f = 0 by omega]
    simp only [Nat.zero_div, Nat.mul_zero, Nat.add_zero]
    congr 2
    symm
    rw [List.filterMap_eq_nil_iff]
    intro p hp
    simp only [List.mem_filter, decide_eq_true_eq] at hp
    omega

theorem position_ub {v : List α} {i : Int} (h : fromEnd v.length i < 0 ∨ (v.length : Int) < fromEnd v.length i) :
    position v i = .ub := by
  unfold fromEnd at h
  unfold position iter
  by_cases hi : 0 ≤ i
  · rw [if_pos hi] at h
    rw [if_pos (by omega), if_neg (by omega)]
  · rw [if_neg hi] at h
    rw [if_neg (by omega), if_neg (by omega)]

theorem slice_negative {max : Nat} (v : List α) {first last : Int} {f l s : Nat} (hv : v.length ≤ max) (hm : max < 2 ^ 63)
    (hf : fromEnd v.length first = f) (hl : fromEnd v.length last = l) (hf' : f ≤ v.length) (hl' : l ≤ v.length) (hs : 0 < s) :
    slice max v first last (-(s : Int)) = if f + s ≤ l then .ok none else .ok (some []) := by
  unfold slice
  rw [position_eq hf hf', position_eq hl hl']
  simp only [Res.ok_bind]
  by_cases hc : f < l
  · rw [if_pos (by omega), Res.guardUb_of (by simp; omega), Res.ok_bind]
    have h1 : ((l : Int) - f).tdiv (-(s : Int)) = -(((l - f) / s : Nat) : Int) := by
      rw [Int.tdiv_neg, show (l : Int) - f = ((l - f : Nat) : Int) by omega]
      rfl
    have h2 : (l - f) / s ≤ l - f := Nat.div_le_self _ _
    have h3 : f + s ≤ l ↔ 0 < (l - f) / s := by
      rw [Nat.div_pos_iff]; omega
    rw [h1]
    by_cases hq : f + s ≤ l
    · rw [if_pos hq, if_pos ?_]
      have := h3.1 hq
      generalize (l - f) / s = q at *
      omega
    · rw [if_neg hq]
      have : (l - f) / s = 0 := Nat.eq_zero_of_not_pos (fun h => hq (h3.2 h))
      rw [this]
      rfl
  · rw [if_neg (by omega), if_neg (by omega)]

theorem cat_eq (vs : List (List α)) : cat vs = vs.flatten := by
  unfold cat
  have : ∀ (vs : List (List α)) (res : List α), vs.foldl (fun res v => res ++ v) res = res ++ vs.flatten := by
    intro vs
    induction vs with
    | nil => intro res; simp
    | cons v vs ih => intro res; rw [List.foldl_cons, ih]; simp
  rw [this]; rfl

theorem map_eq {β : Type} (f : α → β) (v : List α) : map f v = List.map f v := by
  unfold map
  have : ∀ (v : List α) (res : List β), v.foldl (fun res x => res ++ [f x]) res = res ++ List.map f v := by
    intro v
    induction v with
    | nil => intro res; simp
    | cons x v ih => intro res; rw [List.foldl_cons, ih]; simp
  rw [this]; rfl

end Gtl.Slice
