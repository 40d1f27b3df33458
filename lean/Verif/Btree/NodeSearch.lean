import Verif.Btree.Model
/-
Search in one node: the linear and the binary variants find the same place.
-/
namespace Gtl.Btree
variable {α κ : Type}

/-- Once `p` is false it stays false. -/
def Mono (p : α → Bool) (vs : List α) : Prop := vs.Pairwise fun a b => p b = true → p a = true

/-- `p` holds up to index `r` and not from there on. -/
def Part (p : α → Bool) (vs : List α) (r : Nat) : Prop :=
  r ≤ vs.length ∧ (∀ v ∈ vs.take r, p v = true) ∧ (∀ v ∈ vs.drop r, p v = false)

theorem Mono.tail {p : α → Bool} {v : α} {vs : List α} (m : Mono p (v :: vs)) (hv : p v = false) :
    ∀ x ∈ v :: vs, p x = false := by
  intro x hx
  rcases List.mem_cons.1 hx with rfl | hx
  · exact hv
  · have := (List.pairwise_cons.1 m).1 x hx
    cases hp : p x with
    | false => rfl
    | true => rw [this hp] at hv; cases hv

theorem linearPlain_ok {p : α → Bool} : ∀ {vs : List α}, Mono p vs → Part p vs (linearPlain p vs)
  | [], _ => ⟨Nat.le_refl _, by simp, by simp⟩
  | v :: vs, m => by
    unfold linearPlain
    cases hv : p v with
    | false =>
      simp only [Bool.false_eq_true, if_false]
      exact ⟨Nat.zero_le _, by simp, by simpa using m.tail hv⟩
    | true =>
      obtain ⟨a, b, d⟩ := linearPlain_ok (List.pairwise_cons.1 m).2
      simp only [if_true]
      refine ⟨by simpa using a, ?_, by simpa using d⟩
      intro x hx
      rw [List.take_succ_cons, List.mem_cons] at hx
      rcases hx with rfl | hx
      · exact hv
      · exact b x hx

theorem part_of_index {p : α → Bool} {vs : List α} {r : Nat} (hr : r ≤ vs.length)
    (h1 : ∀ (j : Nat) v, vs[j]? = some v → j < r → p v = true)
    (h2 : ∀ (j : Nat) v, vs[j]? = some v → r ≤ j → p v = false) : Part p vs r := by
  refine ⟨hr, ?_, ?_⟩
  · intro v hv
    obtain ⟨j, hj, e⟩ := List.mem_take_iff_getElem.1 hv
    exact h1 j v (by rw [List.getElem?_eq_some_iff]; exact ⟨by omega, e⟩) (by omega)
  · intro v hv
    obtain ⟨j, hj⟩ := List.getElem?_of_mem hv
    rw [List.getElem?_drop] at hj
    exact h2 (r + j) v hj (by omega)

theorem Mono.before {p : α → Bool} {vs : List α} (m : Mono p vs) {i j : Nat} {v u : α} (hi : vs[i]? = some v)
    (hj : vs[j]? = some u) (hij : j ≤ i) (hp : p v = true) : p u = true := by
  obtain ⟨hi1, hi2⟩ := List.getElem?_eq_some_iff.1 hi
  obtain ⟨hj1, hj2⟩ := List.getElem?_eq_some_iff.1 hj
  rcases Nat.lt_or_eq_of_le hij with hlt | heq
  · have := List.pairwise_iff_getElem.1 m j i hj1 hi1 hlt
    rw [hi2, hj2] at this
    exact this hp
  · subst heq
    rw [← hj2, hi2]; exact hp

theorem Mono.after {p : α → Bool} {vs : List α} (m : Mono p vs) {i j : Nat} {v u : α} (hi : vs[i]? = some v)
    (hj : vs[j]? = some u) (hij : i ≤ j) (hp : p v = false) : p u = false := by
  cases hu : p u with
  | false => rfl
  | true => rw [m.before hj hi hij hu] at hp; cases hp

theorem binaryPlain_ok {p : α → Bool} {vs : List α} (m : Mono p vs) : ∀ (f s e : Nat), s ≤ e → e ≤ vs.length →
    e - s ≤ f → (∀ (j : Nat) v, vs[j]? = some v → j < s → p v = true) →
    (∀ (j : Nat) v, vs[j]? = some v → e ≤ j → p v = false) →
    ∃ r, binaryPlain p vs f s e = some r ∧ Part p vs r
  | 0, s, e, h1, h2, h3, h4, h5 => by
    have : s = e := by omega
    subst this
    exact ⟨s, by simp [binaryPlain], part_of_index h2 h4 h5⟩
  | f + 1, s, e, h1, h2, h3, h4, h5 => by
    by_cases he : s = e
    · subst he
      exact ⟨s, by simp [binaryPlain], part_of_index h2 h4 h5⟩
    · have hmid : (s + e) / 2 < vs.length := by omega
      have hg : vs[(s + e) / 2]? = some vs[(s + e) / 2] := List.getElem?_eq_getElem hmid
      unfold binaryPlain
      simp only [he, if_false, hg, Option.bind_eq_bind, Option.bind_some]
      cases hp : p vs[(s + e) / 2] with
      | true =>
        simp only [if_true]
        refine binaryPlain_ok m f _ e (by omega) h2 (by omega) ?_ h5
        intro j v hj hlt
        exact m.before hg hj (by omega) hp
      | false =>
        simp only [Bool.false_eq_true, if_false]
        refine binaryPlain_ok m f s _ (by omega) (by omega) (by omega) h4 ?_
        intro j v hj hle
        exact m.after hg hj hle hp

/-- The three way variants: where a value equal to the key is, if there is one. -/
def PartTo (p : α → Ordering) (vs : List α) (r : SR) : Prop :=
  Part (fun v => p v == .lt) vs r.value ∧
    (if r.eq then ∃ v, vs[r.value]? = some v ∧ p v = .eq else ∀ v ∈ vs, p v ≠ .eq)

theorem linearTo_ok {p : α → Ordering} : ∀ {vs : List α}, Mono (fun v => p v == .lt) vs → Mono (fun v => p v != .gt) vs →
    PartTo p vs (linearTo p vs)
  | [], _, _ => ⟨⟨Nat.le_refl _, by simp, by simp⟩, by simp [linearTo]⟩
  | v :: vs, m, m' => by
    unfold linearTo
    cases hv : p v with
    | eq =>
      exact ⟨⟨Nat.zero_le _, by simp, by simpa using m.tail (by simp [hv])⟩, by simp [hv]⟩
    | gt =>
      refine ⟨⟨Nat.zero_le _, by simp, by simpa using m.tail (by simp [hv])⟩, ?_⟩
      have := m'.tail (v := v) (by simp [hv])
      simp only [Bool.false_eq_true, if_false]
      intro x hx hc
      have := this x hx
      simp [hc] at this
    | lt =>
      obtain ⟨⟨a, b, d⟩, e⟩ := linearTo_ok (List.pairwise_cons.1 m).2 (List.pairwise_cons.1 m').2
      refine ⟨⟨by simpa using a, ?_, by simpa using d⟩, ?_⟩
      · intro x hx
        simp only [List.take_succ_cons, List.mem_cons] at hx
        rcases hx with rfl | hx
        · simp [hv]
        · exact b x hx
      · cases he : (linearTo p vs).eq with
        | true =>
          rw [he] at e
          simpa [he] using e
        | false =>
          rw [he] at e
          simp only [he, Bool.false_eq_true, if_false] at e ⊢
          intro x hx
          rcases List.mem_cons.1 hx with rfl | hx
          · rw [hv]; simp
          · exact e x hx

theorem partTo_of {p : α → Ordering} {vs : List α} {s : Nat} {b : Bool} (m : Mono (fun v => p v != .gt) vs)
    (hs : s ≤ vs.length) (h1 : ∀ (j : Nat) v, vs[j]? = some v → j < s → p v = .lt)
    (h2 : ∀ (j : Nat) v, vs[j]? = some v → s ≤ j → p v ≠ .lt)
    (hb : if b then ∃ v, vs[s]? = some v ∧ p v = .eq else ∀ (j : Nat) v, vs[j]? = some v → s ≤ j → p v = .gt) :
    PartTo p vs ⟨s, b⟩ := by
  refine ⟨part_of_index hs (fun j v hj hl => by simp [h1 j v hj hl]) (fun j v hj hl => by
    have := h2 j v hj hl
    cases hp : p v <;> simp_all), ?_⟩
  cases b with
  | true => simpa using hb
  | false =>
    simp only [Bool.false_eq_true, if_false] at hb ⊢
    intro v hv
    obtain ⟨j, hj⟩ := List.getElem?_of_mem hv
    by_cases hl : j < s
    · rw [h1 j v hj hl]; simp
    · rw [hb j v hj (by omega)]; simp

theorem binaryToMulti_ok {p : α → Ordering} {vs : List α} (m : Mono (fun v => p v == .lt) vs)
    (m' : Mono (fun v => p v != .gt) vs) : ∀ (f s e : Nat) (b : Bool), s ≤ e → e ≤ vs.length →
    e - s ≤ f → (∀ (j : Nat) v, vs[j]? = some v → j < s → p v = .lt) →
    (∀ (j : Nat) v, vs[j]? = some v → e ≤ j → p v ≠ .lt) →
    (if b then ∃ v, vs[e]? = some v ∧ p v = .eq else ∀ (j : Nat) v, vs[j]? = some v → e ≤ j → p v = .gt) →
    ∃ r, binaryToMulti p vs f s e b = some r ∧ PartTo p vs r
  | 0, s, e, b, h1, h2, h3, h4, h5, h6 => by
    have : s = e := by omega
    subst this
    exact ⟨⟨s, b⟩, by simp [binaryToMulti], partTo_of m' h2 h4 h5 h6⟩
  | f + 1, s, e, b, h1, h2, h3, h4, h5, h6 => by
    by_cases he : s = e
    · subst he
      exact ⟨⟨s, b⟩, by simp [binaryToMulti], partTo_of m' h2 h4 h5 h6⟩
    · have hmid : (s + e) / 2 < vs.length := by omega
      have hg : vs[(s + e) / 2]? = some vs[(s + e) / 2] := List.getElem?_eq_getElem hmid
      unfold binaryToMulti
      simp only [he, if_false, hg, Option.bind_eq_bind, Option.bind_some]
      have hnot : p vs[(s + e) / 2] ≠ .lt → ∀ (j : Nat) v, vs[j]? = some v → (s + e) / 2 ≤ j → p v ≠ .lt := by
        intro hne j v hj hle hc
        have := m.after hg hj hle (by simpa using hne)
        simp [hc] at this
      cases hp : p vs[(s + e) / 2] with
      | lt =>
        refine binaryToMulti_ok m m' f _ e b (by omega) h2 (by omega) ?_ h5 h6
        intro j v hj hlt
        have := m.before hg hj (by omega) (by simp [hp])
        simpa using this
      | eq =>
        refine binaryToMulti_ok m m' f s _ true (by omega) (by omega) (by omega) h4 (hnot (by simp [hp])) ?_
        simp only [if_true]
        exact ⟨_, hg, hp⟩
      | gt =>
        have hgt : ∀ (j : Nat) v, vs[j]? = some v → (s + e) / 2 ≤ j → p v = .gt := by
          intro j v hj hle
          have := m'.after hg hj hle (by simp [hp])
          simpa using this
        cases hb : b with
        | false =>
          refine binaryToMulti_ok m m' f s _ false (by omega) (by omega) (by omega) h4 (hnot (by simp [hp])) ?_
          simpa using hgt
        | true =>
          rw [hb] at h6
          simp only [if_true] at h6
          obtain ⟨v, hv, hve⟩ := h6
          have := hgt e v hv (by omega)
          rw [hve] at this; cases this

theorem binaryToUnique_ok {p : α → Ordering} {vs : List α} (m : Mono (fun v => p v == .lt) vs)
    (m' : Mono (fun v => p v != .gt) vs)
    (u : ∀ (i j : Nat) x y, vs[i]? = some x → vs[j]? = some y → p x = .eq → p y = .eq → i = j) :
    ∀ (f s e : Nat), s ≤ e → e ≤ vs.length →
    e - s ≤ f → (∀ (j : Nat) v, vs[j]? = some v → j < s → p v = .lt) →
    (∀ (j : Nat) v, vs[j]? = some v → e ≤ j → p v = .gt) →
    ∃ r, binaryToUnique p vs f s e = some r ∧ PartTo p vs r
  | 0, s, e, h1, h2, h3, h4, h5 => by
    have : s = e := by omega
    subst this
    exact ⟨⟨s, false⟩, by simp [binaryToUnique],
      partTo_of m' h2 h4 (fun j v hj hl => by rw [h5 j v hj hl]; simp) (by simpa using h5)⟩
  | f + 1, s, e, h1, h2, h3, h4, h5 => by
    by_cases he : s = e
    · subst he
      exact ⟨⟨s, false⟩, by simp [binaryToUnique],
        partTo_of m' h2 h4 (fun j v hj hl => by rw [h5 j v hj hl]; simp) (by simpa using h5)⟩
    · have hmid : (s + e) / 2 < vs.length := by omega
      have hg : vs[(s + e) / 2]? = some vs[(s + e) / 2] := List.getElem?_eq_getElem hmid
      unfold binaryToUnique
      simp only [he, if_false, hg, Option.bind_eq_bind, Option.bind_some]
      cases hp : p vs[(s + e) / 2] with
      | lt =>
        refine binaryToUnique_ok m m' u f _ e (by omega) h2 (by omega) ?_ h5
        intro j v hj hlt
        have := m.before hg hj (by omega) (by simp [hp])
        simpa using this
      | gt =>
        refine binaryToUnique_ok m m' u f s _ (by omega) (by omega) (by omega) h4 ?_
        intro j v hj hle
        have := m'.after hg hj hle (by simp [hp])
        simpa using this
      | eq =>
        refine ⟨_, rfl, partTo_of m' (by omega) ?_ ?_ ?_⟩
        · intro j v hj hlt
          have := m'.before hg hj (by omega) (by simp [hp])
          cases hpv : p v with
          | lt => rfl
          | eq => have := u _ _ _ _ hj hg hpv hp; omega
          | gt => simp [hpv] at this
        · intro j v hj hle hc
          have := m.after hg hj hle (by simp [hp])
          simp [hc] at this
        · simp only [if_true]
          exact ⟨_, hg, hp⟩

end Gtl.Btree
