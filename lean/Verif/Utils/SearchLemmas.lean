import Mathlib.Tactic.Ring
import Mathlib.Tactic.Linarith
import Verif.Utils.Search
import Verif.Spec.Double
/-!
# Lemmas about `binary_search` and `middle`
-/

namespace Gtl.Search

variable {T : Type}

theorem search_ok (mid : T → T → Res (Option T)) (pred : T → Bool) (rank : T → Int) (P : T → T → Prop)
    (hmid : ∀ l r, P l r → rank l < rank r → ∃ o, mid l r = .ok o ∧
      ∀ m, o = some m → rank l < rank m ∧ rank m < rank r ∧ P l m ∧ P m r) :
    ∀ (f : Nat) (l r : T), P l r → rank l < rank r → rank r - rank l ≤ f → pred l = false → pred r = true →
      ∃ a b, binarySearch mid pred f l r = .ok (a, b) ∧ pred a = false ∧ pred b = true ∧ mid a b = .ok none ∧
        rank l ≤ rank a ∧ rank a < rank b ∧ rank b ≤ rank r ∧ P a b := by
  intro f
  induction f with
  | zero => intro l r _ h1 h2; exfalso; simp at h2; omega
  | succ f ih =>
    intro l r hP hlr hf hpl hpr
    obtain ⟨o, ho, hm⟩ := hmid l r hP hlr
    unfold binarySearch
    rw [hpl, hpr, ho]
    simp only [Bool.not_false, Bool.and_self, Res.guardUb_true, Res.ok_bind]
    cases o with
    | none => exact ⟨l, r, rfl, hpl, hpr, ho, le_refl _, hlr, le_refl _, hP⟩
    | some m =>
      obtain ⟨h1, h2, h3, h4⟩ := hm m rfl
      dsimp only
      push_cast at hf
      by_cases hp : pred m = true
      · rw [if_pos hp]
        obtain ⟨a, b, e, q1, q2, q3, q4, q5, q6, q7⟩ := ih l m h3 h1 (by omega) hpl hp
        exact ⟨a, b, e, q1, q2, q3, q4, q5, by omega, q7⟩
      · rw [if_neg hp]
        obtain ⟨a, b, e, q1, q2, q3, q4, q5, q6, q7⟩ := ih m r h4 h2 (by omega) (by simpa using hp) hpr
        exact ⟨a, b, e, q1, q2, q3, by omega, q5, q6, q7⟩

/-- More fuel does not change an answer. -/
theorem search_more_ok (mid : T → T → Res (Option T)) (pred : T → Bool) (a b : T) : ∀ (f k : Nat) (l r : T),
    binarySearch mid pred f l r = .ok (a, b) → binarySearch mid pred (f + k) l r = binarySearch mid pred f l r
  | 0, _, _, _, h => by cases h
  | f + 1, k, l, r, h => by
    rw [show f + 1 + k = (f + k) + 1 by omega]
    unfold binarySearch at h ⊢
    by_cases hc : (!pred l && pred r) = true
    · rw [Res.guardUb_of hc, Res.ok_bind] at h
      rw [Res.guardUb_of hc, Res.ok_bind, Res.ok_bind]
      cases hm : mid l r with
      | ok o =>
        rw [hm, Res.ok_bind] at h
        rw [Res.ok_bind, Res.ok_bind]
        cases o with
        | none => rfl
        | some m =>
          dsimp only at h ⊢
          by_cases hp : pred m = true
          · rw [if_pos hp] at h; rw [if_pos hp, if_pos hp]; exact search_more_ok mid pred a b f k _ _ h
          · rw [if_neg hp] at h; rw [if_neg hp, if_neg hp]; exact search_more_ok mid pred a b f k _ _ h
      | ub => rfl
      | hang => rfl
    · rw [Bool.not_eq_true] at hc
      rw [hc]; rfl

theorem midpoint_between {l r : Int} (h : r - l > 1) : l < midpoint l r ∧ midpoint l r < r := by
  unfold midpoint
  rw [if_pos (by omega)]
  omega

/-- `r - l` does not leave the type, for values of the type. -/
def Fits (t : IntTy) (l r : Int) : Prop := t.bits < 32 ∨ t.signed = false ∨ r - l ≤ t.max

theorem pow_pos' (n : Nat) : (0 : Int) < 2 ^ n := by positivity

theorem sub_eq {t : IntTy} {l r : Int} (hl : t.min ≤ l) (hr : r ≤ t.max) (hlr : l < r) (hf : Fits t l r) :
    t.sub r l = .ok (r - l) := by
  unfold IntTy.sub
  by_cases h1 : t.bits < 32
  · rw [if_pos h1]
  rw [if_neg h1]
  by_cases h2 : t.signed = true
  · rw [if_pos h2]
    have h3 : r - l ≤ t.max := by
      rcases hf with h | h | h
      · exact absurd h h1
      · rw [h2] at h; cases h
      · exact h
    have h4 : t.min ≤ r - l := by
      have : t.min ≤ 0 := by
        unfold IntTy.min; rw [if_pos h2]
        have := pow_pos' (t.bits - 1); omega
      omega
    rw [Res.guardUb_of (by simp [h3, h4])]
    rfl
  · rw [if_neg h2]
    unfold IntTy.min at hl
    unfold IntTy.max at hr
    rw [if_neg h2] at hl hr
    rw [Int.emod_eq_of_lt (by omega) (by omega)]

theorem middleInt_ok {t : IntTy} {l r : Int} (hl : t.min ≤ l) (hr : r ≤ t.max) (hlr : l < r) (hf : Fits t l r) :
    middleInt t l r = .ok (if r - l > 1 then some (midpoint l r) else none) := by
  unfold middleInt
  rw [sub_eq hl hr hlr hf, Res.ok_bind]
  split <;> rfl

theorem searchInt_ok {t : IntTy} (pred : Int → Bool) {l r : Int} (hl : t.min ≤ l) (hr : r ≤ t.max) (hlr : l < r)
    (hf : Fits t l r) (hpl : pred l = false) (hpr : pred r = true) (f : Nat) (hfu : r - l ≤ f) :
    ∃ a, binarySearch (middleInt t) pred f l r = .ok (a, a + 1) ∧ l ≤ a ∧ a < r ∧ pred a = false ∧ pred (a + 1) = true := by
  obtain ⟨a, b, e, q1, q2, q3, q4, q5, q6, q7⟩ := search_ok (middleInt t) pred id
    (fun l r => t.min ≤ l ∧ r ≤ t.max ∧ Fits t l r) (by
      intro l r ⟨h1, h2, h3⟩ hlr
      refine ⟨_, middleInt_ok h1 h2 hlr h3, ?_⟩
      intro m hm
      simp only [id] at hlr
      by_cases hd : r - l > 1
      · rw [if_pos hd] at hm
        injection hm with hm
        obtain ⟨h4, h5⟩ := midpoint_between hd
        rw [hm] at h4 h5
        refine ⟨h4, h5, ⟨h1, by omega, ?_⟩, ⟨by omega, h2, ?_⟩⟩
        all_goals
          unfold Fits at *
          rcases h3 with h | h | h
          · exact .inl h
          · exact .inr (.inl h)
          · exact .inr (.inr (by omega))
      · rw [if_neg hd] at hm; cases hm) f l r ⟨hl, hr, hf⟩ hlr hfu hpl hpr
  simp only [id] at q4 q5 q6
  rw [middleInt_ok q7.1 q7.2.1 q5 q7.2.2] at q3
  have hb : b = a + 1 := by
    by_cases hd : b - a > 1
    · rw [if_pos hd] at q3; injection q3 with q3; cases q3
    · omega
  subst hb
  exact ⟨a, e, q4, by omega, q1, q2⟩

/-! ## Doubles -/

open Spec.Double

theorem magnitude_step {b : Int} (h0 : 0 ≤ b) (h1 : b + 1 < 2 ^ 63) : magnitude b < magnitude (b + 1) := by
  unfold magnitude
  dsimp only
  rw [Int.emod_eq_of_lt h0 (by omega), Int.emod_eq_of_lt (by omega) h1]
  by_cases hc : b % 2 ^ 52 = 2 ^ 52 - 1
  · have e1 : (b + 1) % 2 ^ 52 = 0 := by omega
    have e2 : (b + 1) / 2 ^ 52 = b / 2 ^ 52 + 1 := by omega
    rw [e1, e2, hc]
    have hd : 0 ≤ b / 2 ^ 52 := by omega
    have hne : ¬ (b / 2 ^ 52 + 1 = 0) := by omega
    rw [if_neg hne]
    by_cases h : b / 2 ^ 52 = 0
    · rw [if_pos h, h]; simp
    · rw [if_neg h]
      generalize hk : b / 2 ^ 52 = k at *
      have : (k + 1).toNat - 1 = (k.toNat - 1) + 1 := by omega
      rw [this]
      have h3 := pow_pos' (k.toNat - 1)
      generalize hx : k.toNat - 1 = x at *
      rw [show (2 : Int) ^ (x + 1) = 2 ^ x * 2 from Int.pow_succ ..]
      generalize (2 : Int) ^ x = y at *
      omega
  · have e1 : (b + 1) % 2 ^ 52 = b % 2 ^ 52 + 1 := by omega
    have e2 : (b + 1) / 2 ^ 52 = b / 2 ^ 52 := by omega
    rw [e1, e2]
    split
    · omega
    · have := pow_pos' ((b / 2 ^ 52).toNat - 1)
      nlinarith

theorem magnitude_add (n : Nat) : ∀ {b : Int}, 0 ≤ b → b + n < 2 ^ 63 → magnitude b ≤ magnitude (b + n) := by
  induction n with
  | zero => intro b _ _; simp
  | succ n ih =>
    intro b h0 h1
    push_cast at h1
    have h2 := ih h0 (by omega)
    have h3 := magnitude_step (b := b + n) (by omega) (by omega)
    push_cast
    rw [← add_assoc]
    omega

theorem magnitude_mono {a b : Int} (h0 : 0 ≤ a) (hab : a ≤ b) (hb : b < 2 ^ 63) : magnitude a ≤ magnitude b := by
  have := magnitude_add (b - a).toNat (b := a) h0 (by omega)
  rwa [show a + ((b - a).toNat : Int) = b by omega] at this

theorem magnitude_lt {a b : Int} (h0 : 0 ≤ a) (hab : a < b) (hb : b < 2 ^ 63) : magnitude a < magnitude b := by
  have h1 := magnitude_step h0 (show a + 1 < 2 ^ 63 by omega)
  have h2 := magnitude_mono (a := a + 1) (by omega) (by omega) hb
  omega

theorem magnitude_nonneg (b : Int) : 0 ≤ magnitude b := by
  unfold magnitude
  dsimp only
  split
  · omega
  · have := pow_pos' (((b % 2 ^ 63) / 2 ^ 52).toNat - 1)
    have : 0 ≤ b % 2 ^ 52 := by omega
    positivity

theorem value_lt_iff {a b : Int} (ha : 0 ≤ a) (ha' : a < 2 ^ 63) (hb : 0 ≤ b) (hb' : b < 2 ^ 63) : value a < value b ↔ a < b := by
  unfold value
  rw [if_pos ha', if_pos hb']
  constructor
  · intro h
    by_contra hc
    have := magnitude_mono hb (by omega : b ≤ a) ha'
    omega
  · intro h; exact magnitude_lt ha h hb'

/-! ## Recursion that does not end -/

/-- One call of `binary_search`, when it calls itself again. -/
def next (mid : T → T → Res (Option T)) (pred : T → Bool) (s : T × T) : Option (T × T) :=
  if !pred s.1 && pred s.2 then
    match mid s.1 s.2 with
    | .ok (some m) => if pred m then some (s.1, m) else some (m, s.2)
    | _ => none
  else none

def nexts (mid : T → T → Res (Option T)) (pred : T → Bool) : Nat → T × T → Option (T × T)
  | 0, s => some s
  | n + 1, s => (next mid pred s).bind (nexts mid pred n)

theorem search_next {mid : T → T → Res (Option T)} {pred : T → Bool} {s s' : T × T} (h : next mid pred s = some s') (f : Nat) :
    binarySearch mid pred (f + 1) s.1 s.2 = binarySearch mid pred f s'.1 s'.2 := by
  unfold next at h
  split at h
  · rename_i hg
    conv_lhs => unfold binarySearch
    rw [Res.guardUb_of hg, Res.ok_bind]
    split at h
    · rename_i m hm
      rw [hm, Res.ok_bind]
      dsimp only
      split at h <;> rename_i hp
      · injection h with h; subst h; rw [if_pos hp]
      · injection h with h; subst h; rw [if_neg hp]
    · cases h
  · cases h

theorem search_nexts {mid : T → T → Res (Option T)} {pred : T → Bool} : ∀ (n : Nat) {s s' : T × T},
    nexts mid pred n s = some s' → ∀ f, binarySearch mid pred (f + n) s.1 s.2 = binarySearch mid pred f s'.1 s'.2
  | 0, s, s', h, f => by cases h; rfl
  | n + 1, s, s', h, f => by
    unfold nexts at h
    obtain ⟨t, ht, h'⟩ := Option.bind_eq_some_iff.1 h
    rw [← add_assoc, search_next ht, search_nexts n h']

theorem search_stuck {mid : T → T → Res (Option T)} {pred : T → Bool} {s : T × T} (h : next mid pred s = some s) (f : Nat) :
    binarySearch mid pred f s.1 s.2 = .hang := by
  induction f with
  | zero => rfl
  | succ f ih => rw [search_next h, ih]

theorem search_hang_le {mid : T → T → Res (Option T)} {pred : T → Bool} : ∀ (f g : Nat) (l r : T),
    f ≤ g → binarySearch mid pred g l r = .hang → binarySearch mid pred f l r = .hang
  | 0, _, _, _, _, _ => rfl
  | f + 1, 0, _, _, h, _ => by omega
  | f + 1, g + 1, l, r, h, hg => by
    unfold binarySearch at hg ⊢
    by_cases hc : (!pred l && pred r) = true
    · rw [Res.guardUb_of hc, Res.ok_bind] at hg ⊢
      cases hm : mid l r with
      | ok o =>
        rw [hm, Res.ok_bind] at hg
        rw [Res.ok_bind]
        cases o with
        | none => exact hg
        | some m =>
          dsimp only at hg ⊢
          split
          · rename_i hp; rw [if_pos hp] at hg; exact search_hang_le f g _ _ (by omega) hg
          · rename_i hp; rw [if_neg hp] at hg; exact search_hang_le f g _ _ (by omega) hg
      | ub => rw [hm] at hg; exact hg
      | hang => rfl
    · rw [Bool.not_eq_true] at hc
      rw [hc] at hg; cases hg

end Gtl.Search
