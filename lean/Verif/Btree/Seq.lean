import Mathlib.Data.List.Nodup
/-
The sequence of the values of a node and of its subtrees, `inter ks vs`: the
sequences `ks` of the children with the values `vs` between them.
-/
namespace Gtl.Btree
variable {α β : Type}

/-- `k₀ v₀ k₁ v₁ … vₙ₋₁ kₙ`. -/
def inter : List (List α) → List α → List α
  | [], _ => []
  | k :: _, [] => k
  | k :: ks, v :: vs => k ++ v :: inter ks vs

/-- `k₀ v₀ … kₙ₋₁ vₙ₋₁`. -/
def zF : List (List α) → List α → List α
  | k :: ks, v :: vs => k ++ v :: zF ks vs
  | _, _ => []

/-- `v₀ k₀ … vₙ₋₁ kₙ₋₁`. -/
def zB : List α → List (List α) → List α
  | v :: vs, k :: ks => v :: (k ++ zB vs ks)
  | _, _ => []

@[simp] theorem zF_nil_left (vs : List α) : zF [] vs = [] := by cases vs <;> rfl
@[simp] theorem zF_nil_right (ks : List (List α)) : zF ks [] = [] := by cases ks <;> rfl
@[simp] theorem zB_nil_left (ks : List (List α)) : zB ([] : List α) ks = [] := by cases ks <;> rfl
@[simp] theorem zB_nil_right (vs : List α) : zB vs [] = [] := by cases vs <;> rfl
@[simp] theorem zF_cons (k : List α) (ks v vs) : zF (k :: ks) (v :: vs) = k ++ v :: zF ks vs := rfl
@[simp] theorem zB_cons (v : α) (vs k ks) : zB (v :: vs) (k :: ks) = v :: (k ++ zB vs ks) := rfl
@[simp] theorem inter_one (k : List α) (ks) : inter (k :: ks) [] = k := rfl
@[simp] theorem inter_cons (k : List α) (ks v vs) : inter (k :: ks) (v :: vs) = k ++ v :: inter ks vs := rfl

theorem inter_eq_zB (k : List α) : ∀ (ks : List (List α)) (vs : List α), ks.length = vs.length →
    inter (k :: ks) vs = k ++ zB vs ks
  | [], [], _ => by simp
  | k' :: ks, v :: vs, h => by
    simp only [List.length_cons, Nat.add_right_cancel_iff] at h
    rw [inter_cons, inter_eq_zB k' ks vs h, zB_cons]
  | [], _ :: _, h => by simp at h
  | _ :: _, [], h => by simp at h

theorem inter_zF : ∀ (ks₁ : List (List α)) (vs₁ : List α) (ks₂ : List (List α)) (vs₂ : List α),
    ks₁.length = vs₁.length → inter (ks₁ ++ ks₂) (vs₁ ++ vs₂) = zF ks₁ vs₁ ++ inter ks₂ vs₂
  | [], [], _, _, _ => by simp
  | k :: ks, v :: vs, ks₂, vs₂, h => by
    simp only [List.length_cons, Nat.add_right_cancel_iff] at h
    simp [inter_zF ks vs ks₂ vs₂ h]
  | [], _ :: _, _, _, h => by simp at h
  | _ :: _, [], _, _, h => by simp at h

theorem inter_append : ∀ (ks₁ : List (List α)) (vs₁ : List α) (ks₂ : List (List α)) (v : α) (vs₂ : List α),
    ks₁.length = vs₁.length + 1 →
    inter (ks₁ ++ ks₂) (vs₁ ++ v :: vs₂) = inter ks₁ vs₁ ++ v :: inter ks₂ vs₂
  | [k], [], _, _, _, _ => by simp
  | k :: k' :: ks, w :: vs, ks₂, v, vs₂, h => by
    simp only [List.length_cons, Nat.add_right_cancel_iff] at h
    have := inter_append (k' :: ks) vs ks₂ v vs₂ (by simpa using h)
    simp only [List.cons_append, inter_cons] at this ⊢
    rw [this]
    simp
  | [], _, _, _, _, h => by simp at h
  | [_], _ :: _, _, _, _, h => by simp at h
  | _ :: _ :: _, [], _, _, _, h => by simp at h

theorem zF_append : ∀ (ks₁ : List (List α)) (vs₁ : List α) (ks₂ : List (List α)) (vs₂ : List α),
    ks₁.length = vs₁.length → zF (ks₁ ++ ks₂) (vs₁ ++ vs₂) = zF ks₁ vs₁ ++ zF ks₂ vs₂
  | [], [], _, _, _ => by simp
  | k :: ks, v :: vs, ks₂, vs₂, h => by
    simp only [List.length_cons, Nat.add_right_cancel_iff] at h
    simp [zF_append ks vs ks₂ vs₂ h]
  | [], _ :: _, _, _, h => by simp at h
  | _ :: _, [], _, _, h => by simp at h

theorem zB_append : ∀ (vs₁ : List α) (ks₁ : List (List α)) (vs₂ : List α) (ks₂ : List (List α)),
    ks₁.length = vs₁.length → zB (vs₁ ++ vs₂) (ks₁ ++ ks₂) = zB vs₁ ks₁ ++ zB vs₂ ks₂
  | [], [], _, _, _ => by simp
  | v :: vs, k :: ks, vs₂, ks₂, h => by
    simp only [List.length_cons, Nat.add_right_cancel_iff] at h
    simp [zB_append vs ks vs₂ ks₂ h]
  | [], _ :: _, _, _, h => by simp at h
  | _ :: _, [], _, _, h => by simp at h

/-- One child in its context. -/
theorem inter_split (ks₁ : List (List α)) (vs₁ : List α) (k : List α) (ks₂ : List (List α)) (vs₂ : List α)
    (h₁ : ks₁.length = vs₁.length) (h₂ : ks₂.length = vs₂.length) :
    inter (ks₁ ++ k :: ks₂) (vs₁ ++ vs₂) = zF ks₁ vs₁ ++ (k ++ zB vs₂ ks₂) := by
  rw [inter_zF _ _ _ _ h₁, inter_eq_zB _ _ _ h₂]

/-- Several neighbouring children in their context. -/
theorem inter_zB : ∀ (ks₁ : List (List α)) (vs₁ : List α) (ks₂ : List (List α)) (vs₂ : List α),
    ks₁.length = vs₁.length + 1 → ks₂.length = vs₂.length →
    inter (ks₁ ++ ks₂) (vs₁ ++ vs₂) = inter ks₁ vs₁ ++ zB vs₂ ks₂
  | [k], [], ks₂, vs₂, _, h₂ => by simp [inter_eq_zB k ks₂ vs₂ h₂]
  | k :: k' :: ks, w :: vs, ks₂, vs₂, h, h₂ => by
    simp only [List.length_cons, Nat.add_right_cancel_iff] at h
    have := inter_zB (k' :: ks) vs ks₂ vs₂ (by simpa using h) h₂
    simp only [List.cons_append, inter_cons] at this ⊢
    rw [this]
    simp
  | [], _, _, _, h, _ => by simp at h
  | [_], _ :: _, _, _, h, _ => by simp at h
  | _ :: _ :: _, [], _, _, h, _ => by simp at h

theorem inter_segment (A ls B : List (List α)) (VA ms VB : List α)
    (hA : A.length = VA.length) (hl : ls.length = ms.length + 1) (hB : B.length = VB.length) :
    inter (A ++ ls ++ B) (VA ++ ms ++ VB) = zF A VA ++ (inter ls ms ++ zB VB B) := by
  rw [List.append_assoc, List.append_assoc, inter_zF _ _ _ _ hA, inter_zB _ _ _ _ hl hB]

/-- Two levels at once: the children of neighbouring children. -/
theorem inter_expand {γ : Type} (f : γ → List (List α)) (g : γ → List α) :
    ∀ (xs : List γ) (ms : List α), xs.length = ms.length + 1 →
      (∀ x ∈ xs, (f x).length = (g x).length + 1) →
      inter (xs.map fun x => inter (f x) (g x)) ms = inter (xs.flatMap f) (inter (xs.map g) ms)
  | [x], [], _, _ => by simp
  | x :: y :: xs, m :: ms, h, hl => by
    simp only [List.length_cons, Nat.add_right_cancel_iff] at h
    have ih := inter_expand f g (y :: xs) ms (by simpa using h) (fun z hz => hl z (by simp [hz]))
    have e1 : (x :: y :: xs).flatMap f = f x ++ (y :: xs).flatMap f := List.flatMap_cons
    rw [List.map_cons, inter_cons, ih, e1, List.map_cons (f := g) (a := x), inter_cons,
      inter_append _ _ _ _ _ (hl x (by simp))]
  | [], _, h, _ => by simp at h
  | [_], _ :: _, h, _ => by simp at h
  | _ :: _ :: _, [], h, _ => by simp at h

/-- The part before a child, at two levels at once. -/
theorem zF_expand {γ : Type} (f : γ → List (List α)) (g : γ → List α) :
    ∀ (xs : List γ) (ms : List α) (k₁ : List (List α)) (v₁ : List α), xs.length = ms.length →
      (∀ x ∈ xs, (f x).length = (g x).length + 1) → k₁.length = v₁.length →
      zF (xs.map fun x => inter (f x) (g x)) ms ++ zF k₁ v₁ =
        zF (xs.flatMap f ++ k₁) (zF (xs.map g) ms ++ v₁)
  | [], [], k₁, v₁, _, _, _ => by simp
  | x :: xs, m :: ms, k₁, v₁, h, hl, hk => by
    simp only [List.length_cons, Nat.add_right_cancel_iff] at h
    have ih := zF_expand f g xs ms k₁ v₁ h (fun z hz => hl z (by simp [hz])) hk
    have hx := hl x (by simp)
    simp only [List.map_cons, zF_cons, List.flatMap_cons, List.append_assoc, List.cons_append]
    rw [ih]
    -- the children of `x` end with one more than its values
    generalize hK : xs.flatMap f ++ k₁ = K
    generalize hV : zF (xs.map g) ms ++ v₁ = V
    clear ih hK hV
    generalize f x = F at hx ⊢
    generalize g x = G at hx ⊢
    induction F generalizing G with
    | nil => simp at hx
    | cons a F ihF =>
      cases G with
      | nil =>
        have : F = [] := by simpa using hx
        subst this
        simp
      | cons b G =>
        simp only [List.length_cons, Nat.add_right_cancel_iff] at hx
        have := ihF G (by simpa using hx)
        simp only [inter_cons, List.cons_append, zF_cons, List.append_assoc] at this ⊢
        rw [this]
  | [], _ :: _, _, _, h, _, _ => by simp at h
  | _ :: _, [], _, _, h, _, _ => by simp at h

theorem zF_length_expand {γ δ : Type} (f : γ → List δ) (g : γ → List α) :
    ∀ (xs : List γ) (ms : List α), xs.length = ms.length →
      (∀ x ∈ xs, (f x).length = (g x).length + 1) →
      (zF (xs.map g) ms).length = (xs.flatMap f).length
  | [], [], _, _ => by simp
  | x :: xs, m :: ms, h, hl => by
    simp only [List.length_cons, Nat.add_right_cancel_iff] at h
    have ih := zF_length_expand f g xs ms h (fun z hz => hl z (by simp [hz]))
    have hx := hl x (by simp)
    simp only [List.map_cons, zF_cons, List.flatMap_cons, List.length_append, List.length_cons, ih, hx]
    omega
  | [], _ :: _, h, _ => by simp at h
  | _ :: _, [], h, _ => by simp at h

theorem inter_length_expand {γ δ : Type} (f : γ → List δ) (g : γ → List α) :
    ∀ (xs : List γ) (ms : List α), xs.length = ms.length + 1 →
      (∀ x ∈ xs, (f x).length = (g x).length + 1) →
      (xs.flatMap f).length = (inter (xs.map g) ms).length + 1
  | [x], [], _, hl => by simpa using hl x (by simp)
  | x :: y :: xs, m :: ms, h, hl => by
    simp only [List.length_cons, Nat.add_right_cancel_iff] at h
    have ih := inter_length_expand f g (y :: xs) ms (by simpa using h) (fun z hz => hl z (by simp [hz]))
    have hx := hl x (by simp)
    rw [List.map_cons, inter_cons, List.flatMap_cons, List.length_append, List.length_append,
      List.length_cons, ih, hx]
    omega
  | [], _, h, _ => by simp at h
  | [_], _ :: _, h, _ => by simp at h
  | _ :: _ :: _, [], h, _ => by simp at h

end Gtl.Btree
