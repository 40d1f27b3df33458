import Verif.Spec.SortedSeq
/-
Facts about sorted sequences.
-/
namespace Gtl.Spec.SortedSeq
variable {α κ : Type} {key : α → κ} {lt : κ → κ → Bool} {multi : Bool}

theorem same_iff {k : κ} {v : α} : same key lt k v = true ↔ KeyEquiv lt (key v) k := by
  simp [same, KeyEquiv]

theorem same_false {k : κ} {v : α} : same key lt k v = false ↔ ¬ KeyEquiv lt (key v) k := by
  rw [← same_iff (key := key)]
  simp

theorem lower_split {X Y : List α} {k : κ} (hX : ∀ a ∈ X, lt (key a) k = true) (hY : ∀ b ∈ Y, lt (key b) k = false) :
    lower key lt (X ++ Y) k = X.length := by
  unfold lower
  rw [List.countP_append, List.countP_eq_length.2 hX, List.countP_eq_zero.2 (by simpa using hY)]
  rfl

theorem upper_split {X Y : List α} {k : κ} (hX : ∀ a ∈ X, lt k (key a) = false) (hY : ∀ b ∈ Y, lt k (key b) = true) :
    upper key lt (X ++ Y) k = X.length := by
  unfold upper
  rw [List.countP_append, List.countP_eq_length.2 (by simpa using hX), List.countP_eq_zero.2 (by simpa using hY)]
  rfl

theorem insertIdx_split {X Y : List α} {v : α} : (X ++ Y).insertIdx X.length v = X ++ v :: Y := by
  induction X with
  | nil => simp
  | cons x X ih => simpa using ih

theorem eraseIdx_split {X Y : List α} {v : α} : (X ++ v :: Y).eraseIdx X.length = X ++ Y := by
  induction X with
  | nil => simp
  | cons x X ih => simpa using ih

theorem set_split {X Y : List α} {v w : α} : (X ++ v :: Y).set X.length w = X ++ w :: Y := by
  induction X with
  | nil => simp
  | cons x X ih => simpa using ih

theorem addUnique_old {l : List α} {v : α} (h : (addUnique key lt l v).2.1 = false) : (addUnique key lt l v).2.2 = l := by
  unfold addUnique at *
  dsimp only at *
  by_cases ha : l.any (same key lt (key v)) = true
  · rw [if_pos ha]
  · rw [if_neg ha] at h
    cases h

theorem mergeInto_sub (key : α → κ) (lt : κ → κ → Bool) : ∀ (l l' : List α), (mergeInto key lt l l').2.Sublist l'
  | l, [] => .slnil
  | l, v :: l' => by
    rw [mergeInto]
    split
    · exact (mergeInto_sub key lt _ l').cons _
    · exact (mergeInto_sub key lt l l').cons₂ _

variable (o : StrictWeak lt)
include o

theorem StrictWeak.asymm {a b : κ} (h : lt a b = true) : lt b a = false := by
  cases hb : lt b a with
  | false => rfl
  | true =>
    have := o.trans _ _ _ h hb
    rw [o.irrefl] at this; cases this

theorem StrictWeak.lt_equiv {a b k : κ} (h : lt a b = true) (e : KeyEquiv lt b k) : lt a k = true := by
  rcases o.incomp _ k _ h with h1 | h1
  · exact h1
  · rw [e.2] at h1; cases h1

theorem StrictWeak.equiv_lt {a b k : κ} (e : KeyEquiv lt a k) (h : lt a b = true) : lt k b = true := by
  rcases o.incomp _ k _ h with h1 | h1
  · rw [e.1] at h1; cases h1
  · exact h1

/-- The value with that key splits a sequence without duplicates. -/
theorem Sorted.at {X Y : List α} {v : α} {k : κ} (s : Sorted false key lt (X ++ v :: Y)) (e : KeyEquiv lt (key v) k) :
    (∀ a ∈ X, lt (key a) k = true) ∧ (∀ b ∈ Y, lt k (key b) = true) := by
  simp only [Sorted, Bool.false_eq_true, if_false] at s
  rw [List.pairwise_append] at s
  obtain ⟨_, s2, s3⟩ := s
  exact ⟨fun a ha => o.lt_equiv (s3 a ha v (by simp)) e, fun b hb => o.equiv_lt e ((List.pairwise_cons.1 s2).1 b hb)⟩

theorem addUnique_found {X Y : List α} {v w : α} (s : Sorted false key lt (X ++ v :: Y)) (e : KeyEquiv lt (key v) (key w)) :
    addUnique key lt (X ++ v :: Y) w = (X.length, false, X ++ v :: Y) := by
  obtain ⟨h1, h2⟩ := s.at o e
  unfold addUnique
  rw [if_pos, lower_split h1]
  · intro b hb
    rcases List.mem_cons.1 hb with rfl | hb
    · exact e.1
    · exact o.asymm (h2 b hb)
  · rw [List.any_eq_true]
    exact ⟨v, by simp, same_iff.2 e⟩

theorem addUnique_new {X Y : List α} {v : α} (hX : ∀ a ∈ X, lt (key a) (key v) = true)
    (hY : ∀ b ∈ Y, lt (key v) (key b) = true) :
    addUnique key lt (X ++ Y) v = (X.length, true, X ++ v :: Y) := by
  unfold addUnique
  rw [if_neg, lower_split hX (fun b hb => o.asymm (hY b hb)), insertIdx_split]
  rw [List.any_eq_true]
  rintro ⟨a, ha, hs⟩
  have := same_iff.1 hs
  rcases List.mem_append.1 ha with h | h
  · have h1 := hX a h; rw [this.1] at h1; cases h1
  · have h1 := hY a h; rw [this.2] at h1; cases h1

omit o in
theorem addMulti_at {X Y : List α} {v : α} (hX : ∀ a ∈ X, lt (key v) (key a) = false)
    (hY : ∀ b ∈ Y, lt (key v) (key b) = true) : addMulti key lt (X ++ Y) v = (X.length, X ++ v :: Y) := by
  unfold addMulti
  dsimp only
  rw [upper_split hX hY, insertIdx_split]

omit o in
theorem Sorted.insert_unique {X Y : List α} {v : α} (s : Sorted false key lt (X ++ Y))
    (hX : ∀ a ∈ X, lt (key a) (key v) = true) (hY : ∀ b ∈ Y, lt (key v) (key b) = true) :
    Sorted false key lt (X ++ v :: Y) := by
  simp only [Sorted, Bool.false_eq_true, if_false] at s ⊢
  rw [List.pairwise_append] at s ⊢
  obtain ⟨s1, s2, s3⟩ := s
  refine ⟨s1, List.pairwise_cons.2 ⟨hY, s2⟩, ?_⟩
  intro a ha b hb
  rcases List.mem_cons.1 hb with rfl | hb
  · exact hX a ha
  · exact s3 a ha b hb

omit o in
theorem Sorted.insert_multi {X Y : List α} {v : α} (s : Sorted true key lt (X ++ Y))
    (hX : ∀ a ∈ X, lt (key v) (key a) = false) (hY : ∀ b ∈ Y, lt (key b) (key v) = false) :
    Sorted true key lt (X ++ v :: Y) := by
  simp only [Sorted, if_true] at s ⊢
  rw [List.pairwise_append] at s ⊢
  obtain ⟨s1, s2, s3⟩ := s
  refine ⟨s1, List.pairwise_cons.2 ⟨hY, s2⟩, ?_⟩
  intro a ha b hb
  rcases List.mem_cons.1 hb with rfl | hb
  · exact hX a ha
  · exact s3 a ha b hb

omit o in
theorem Sorted.sub {l l' : List α} (s : Sorted multi key lt l) (h : l'.Sublist l) : Sorted multi key lt l' := by
  unfold Sorted at *
  split <;> rename_i hm <;> simp only [hm, if_true, if_false, Bool.false_eq_true] at s
  · exact s.sublist h
  · exact s.sublist h

omit o in
theorem Sorted.congr_key {l l' : List α} (s : Sorted multi key lt l) (h : l'.map key = l.map key) :
    Sorted multi key lt l' := by
  unfold Sorted at *
  split <;> rename_i hm <;> simp only [hm, if_true, if_false, Bool.false_eq_true] at s
  · rw [← List.pairwise_map (R := fun a b => lt b a = false)] at s ⊢
    rw [h]; exact s
  · rw [← List.pairwise_map (R := fun a b => lt a b = true)] at s ⊢
    rw [h]; exact s

omit o in
theorem filter_middle {X M Z : List α} {k : κ} (hX : ∀ a ∈ X, lt (key a) k = true) (hM : ∀ a ∈ M, KeyEquiv lt (key a) k)
    (hZ : ∀ a ∈ Z, lt k (key a) = true) :
    ((X ++ M ++ Z).filter fun v => !same key lt k v) = X ++ Z ∧ (X ++ M ++ Z).countP (same key lt k) = M.length ∧
      (X ++ M ++ Z).any (same key lt k) = decide (0 < M.length) := by
  have h1 : ∀ a ∈ X, same key lt k a = false := fun a ha => by simp [same, hX a ha]
  have h2 : ∀ a ∈ M, same key lt k a = true := fun a ha => same_iff.2 (hM a ha)
  have h3 : ∀ a ∈ Z, same key lt k a = false := fun a ha => by simp [same, hZ a ha]
  refine ⟨?_, ?_, ?_⟩
  · rw [List.filter_append, List.filter_append, List.filter_eq_self.2 (fun a ha => by simp [h1 a ha]),
      List.filter_eq_nil_iff.2 (fun a ha => by simp [h2 a ha]), List.filter_eq_self.2 (fun a ha => by simp [h3 a ha])]
    simp
  · rw [List.countP_append, List.countP_append, List.countP_eq_zero.2 (fun a ha => by simp [h1 a ha]),
      List.countP_eq_length.2 h2, List.countP_eq_zero.2 (fun a ha => by simp [h3 a ha])]
    simp
  · cases M with
    | nil =>
      rw [show decide (0 < ([] : List α).length) = false from rfl, List.any_eq_false]
      intro a ha
      rcases List.mem_append.1 ha with h | h
      · simp at h; simp [h1 a h]
      · simp [h3 a h]
    | cons m M =>
      rw [show decide (0 < (m :: M).length) = true from by simp, List.any_eq_true]
      exact ⟨m, by simp, h2 m (by simp)⟩

end Gtl.Spec.SortedSeq
