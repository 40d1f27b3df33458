import Verif.Btree.Search
/-
What lower_bound, upper_bound, find and count answer.
-/
set_option linter.unusedSectionVars false
namespace Gtl.Btree
open Gtl.Spec.SortedSeq
variable {α κ : Type} {c : Cfg α κ} {t : Tree α} {H : Nat} {ht : Nat → Nat} {L : List α} {E : Nat → Prop} {z : Prop}

/-- The answer of internal_lower_bound and internal_upper_bound: an iterator, or null at the end. -/
def Found (t : Tree α) (H : Nat) (X Y : List α) : Option It → Prop
  | some r => Y ≠ [] ∧ Cur t H r X Y
  | none => Y = []

section
variable (g : Good c t E H ht L)
include g

theorem Good.fuel : H < t.heap.length + 1 := by
  have := g.wf.height_lt
  omega

theorem Good.root_ctx : Ctx t.heap t.root H H t.root [] [] := Ctx.root

/-- From a place in the tree to an iterator. -/
theorem last_ok {k n i : Nat} {X Y : List α} (p : Pt t.heap t.root H k n i X Y) :
    ∃ o, internalLast t.heap (t.heap.length + 1) ⟨n, i⟩ = some o ∧
      Found t H X Y o ∧
      ∃ it, internalEnd t o = some it ∧ Cur t H it X Y := by
  have hf := g.fuel
  obtain ⟨o, e, ho⟩ := internalLast_ok g (t.heap.length + 1) p (by omega)
  refine ⟨o, e, ?_⟩
  have ht := p.total g.wf
  rw [g.seq] at ht
  cases o with
  | none =>
    subst ho
    obtain ⟨it, e', q, _⟩ := g.end_ok
    simp only [List.append_nil] at ht
    subst ht
    exact ⟨rfl, it, e', q⟩
  | some r =>
    obtain ⟨⟨k', q⟩, hlt⟩ := ho
    obtain ⟨nd, er, _, _, _⟩ := q.live g.wf
    rw [valsOf_eq er] at hlt
    obtain ⟨Y', rfl⟩ := q.value g.wf er (List.getElem?_eq_getElem hlt)
    have : Cur t H r X (nd.vals[r.pos] :: Y') := ⟨k', q, .inl (by rw [valsOf_eq er]; exact hlt)⟩
    exact ⟨⟨by simp, this⟩, r, rfl, this⟩

section
variable (o : StrictWeak c.lt) (s : Sorted c.multi c.key c.lt L)
include o s

theorem lower_pt (k : κ) : ∃ it X Y, locatePlain c t.heap k (t.heap.length + 1) t.root = some it ∧
    Pt t.heap t.root H 0 it.node it.pos X Y ∧
      (∀ a ∈ X, c.lt (c.key a) k = true) ∧ (∀ b ∈ Y, c.lt (c.key b) k = false) :=
  locatePlain_ok g o s k H _ g.root_ctx g.fuel (by simp) (by simp)

theorem internalLowerBound_ok (k : κ) : ∃ r X Y, internalLowerBound c t k = some r ∧
    Found t H X Y r ∧ (∃ it, internalEnd t r = some it ∧ Cur t H it X Y) ∧ X ++ Y = L ∧
    (∀ a ∈ X, c.lt (c.key a) k = true) ∧ (∀ b ∈ Y, c.lt (c.key b) k = false) := by
  obtain ⟨it, X, Y, e, p, hX, hY⟩ := lower_pt g o s k
  obtain ⟨r, er, hr, hi⟩ := last_ok g p
  refine ⟨r, X, Y, by simp [internalLowerBound, e, er], hr, hi, by rw [p.total g.wf, g.seq], hX, hY⟩

theorem internalUpperBound_ok (k : κ) : ∃ r X Y, internalUpperBound c t k = some r ∧
    Found t H X Y r ∧ (∃ it, internalEnd t r = some it ∧ Cur t H it X Y) ∧ X ++ Y = L ∧
    (∀ a ∈ X, c.lt k (c.key a) = false) ∧ (∀ b ∈ Y, c.lt k (c.key b) = true) := by
  obtain ⟨it, X, Y, e, p, hX, hY⟩ :=
    locateUpper_ok g o s k H _ g.root_ctx g.fuel (by simp) (by simp)
  obtain ⟨r, er, hr, hi⟩ := last_ok g p
  refine ⟨r, X, Y, by simp [internalUpperBound, e, er], hr, hi, by rw [p.total g.wf, g.seq], by simpa using hX,
    by simpa using hY⟩

theorem lowerBound_ok (k : κ) : ∃ it X Y, t.lowerBound c k = some it ∧ Cur t H it X Y ∧ X ++ Y = L ∧
    (∀ a ∈ X, c.lt (c.key a) k = true) ∧ (∀ b ∈ Y, c.lt (c.key b) k = false) := by
  obtain ⟨r, X, Y, e, _, ⟨it, e', q⟩, h⟩ := internalLowerBound_ok g o s k
  exact ⟨it, X, Y, by simp [Tree.lowerBound, e, e'], q, h⟩

theorem upperBound_ok (k : κ) : ∃ it X Y, t.upperBound c k = some it ∧ Cur t H it X Y ∧ X ++ Y = L ∧
    (∀ a ∈ X, c.lt k (c.key a) = false) ∧ (∀ b ∈ Y, c.lt k (c.key b) = true) := by
  obtain ⟨r, X, Y, e, _, ⟨it, e', q⟩, h⟩ := internalUpperBound_ok g o s k
  exact ⟨it, X, Y, by simp [Tree.upperBound, e, e'], q, h⟩

/-- Whether the search by `internal_locate` finds the key (btree.hpp:2368-2382,
3058-3071), and the place for it otherwise. -/
theorem locate_found_ok (k : κ) : ∃ it eq found, internalLocate c t k = some (it, eq) ∧
    locateFound c t k it eq = some found ∧
    (match found with
      | some r => ∃ X v Y, Cur t H r X (v :: Y) ∧ KeyEquiv c.lt (c.key v) k
      | none => ∃ X Y, Pt t.heap t.root H 0 it.node it.pos X Y ∧ (∀ a ∈ X, c.lt (c.key a) k = true) ∧
          (∀ b ∈ Y, c.lt k (c.key b) = true)) := by
  cases hc : c.cmpTo with
  | true =>
    obtain ⟨it, b, X, Y, j, e, p, h⟩ := locateTo_ok g o s k hc H _ g.root_ctx g.fuel (by simp) (by simp)
    refine ⟨it, b, _, by simp [internalLocate, hc, e], by simp only [locateFound, hc, if_true]; rfl, ?_⟩
    cases b with
    | true =>
      simp only [if_true] at h ⊢
      obtain ⟨hlt, v, Y', rfl, hv⟩ := h
      exact ⟨X, v, Y', ⟨j, p, .inl hlt⟩, hv⟩
    | false =>
      simp only [Bool.false_eq_true, if_false] at h ⊢
      obtain ⟨rfl, h1, h2⟩ := h
      exact ⟨X, Y, p, h1, by simpa using h2⟩
  | false =>
    obtain ⟨it, X, Y, e, p, hX, hY⟩ := lower_pt g o s k
    obtain ⟨r, er, hr, hi⟩ := last_ok g p
    simp only [locateFound, hc, Bool.false_eq_true, if_false]
    cases r with
    | none =>
      have hr : Y = [] := hr
      subst hr
      refine ⟨it, false, none, by simp [internalLocate, hc, e], by rw [er]; rfl, X, [], p, hX, by simp⟩
    | some r =>
      obtain ⟨hne, q⟩ := hr
      obtain ⟨v, Y', rfl⟩ := List.exists_cons_of_ne_nil hne
      have hd : deref t.heap r = some v := by
        obtain ⟨j, q, hq⟩ := q
        obtain ⟨nd, en, n0, hk, hi⟩ := q.live g.wf
        have hlt : r.pos < nd.vals.length := by
          rcases hq with hq | hq
          · rwa [valsOf_eq en] at hq
          · obtain ⟨A', ld, x, e', hL⟩ := g.rm_last
            subst hq
            have q' := g.end_pt
            obtain ⟨_, e'', n0', hk'⟩ := x.live g.wf
            have hj : j = 0 := by rw [← hk, ← hk']
            subst hj
            have := (q.det g.wf q').2
            simp at this
        obtain ⟨Y'', hY''⟩ := q.value g.wf en (List.getElem?_eq_getElem hlt)
        cases hY''
        simp [deref, en, hlt]
      have hv : c.lt (c.key v) k = false := hY v (by simp)
      cases hk : c.lt k (c.key v) with
      | false =>
        exact ⟨it, false, some r, by simp [internalLocate, hc, e], by simp [er, hd, hk], X, v, Y', q, hv, hk⟩
      | true =>
        refine ⟨it, false, none, by simp [internalLocate, hc, e], by simp [er, hd, hk], X, v :: Y', p, hX, ?_⟩
        intro b hb
        rcases List.mem_cons.1 hb with rfl | hb
        · exact hk
        · have hs := s.weak o
          have ht := p.total g.wf
          rw [g.seq] at ht
          rw [← ht] at hs
          have := (List.pairwise_cons.1 (List.pairwise_append.1 hs).2.1).1 b hb
          rcases o.incomp _ (c.key b) _ hk with h1 | h1
          · exact h1
          · rw [this] at h1; cases h1

theorem internalFind_ok (k : κ) : ∃ r, internalFind c t k = some r ∧
    (match r with
      | some it => ∃ X v Y, Cur t H it X (v :: Y) ∧ KeyEquiv c.lt (c.key v) k
      | none => ∀ v ∈ L, ¬ KeyEquiv c.lt (c.key v) k) := by
  obtain ⟨it, eq, found, e, hf, h⟩ := locate_found_ok g o s k
  refine ⟨found, ?_, ?_⟩
  · rw [← hf]
    unfold internalFind locateFound
    rw [e]
    cases hc : c.cmpTo with
    | true => cases eq <;> simp
    | false =>
      simp only [Option.bind_eq_bind, Option.bind_some, Bool.false_eq_true, if_false]
      congr 1
      funext last
      cases last with
      | none => rfl
      | some last =>
        dsimp only
        congr 1
        funext v
        cases c.lt k (c.key v) <;> rfl
  · cases found with
    | some r => exact h
    | none =>
      obtain ⟨X, Y, p, hX, hY⟩ := h
      intro v hv hk
      rw [← g.seq, ← p.total g.wf] at hv
      rcases List.mem_append.1 hv with hv | hv
      · have := hX v hv
        rw [hk.1] at this; cases this
      · have := hY v hv
        rw [hk.2] at this; cases this

theorem find_ok (k : κ) : ∃ it X Y, t.find c k = some it ∧ Cur t H it X Y ∧ X ++ Y = L ∧
    (match Y with
      | v :: _ => KeyEquiv c.lt (c.key v) k
      | [] => ∀ v ∈ L, ¬ KeyEquiv c.lt (c.key v) k) := by
  obtain ⟨r, e, h⟩ := internalFind_ok g o s k
  cases r with
  | some it =>
    obtain ⟨X, v, Y, q, hv⟩ := h
    refine ⟨it, X, v :: Y, by simp [Tree.find, e, internalEnd], q, ?_, hv⟩
    obtain ⟨j, q, _⟩ := q
    rw [q.total g.wf, g.seq]
  | none =>
    obtain ⟨it, ei, q, _⟩ := g.end_ok
    exact ⟨it, L, [], by simp [Tree.find, e, internalEnd, ei], q, by simp, h⟩

theorem countUnique_ok (k : κ) : t.countUnique c k = some 1 ∧ (∃ v ∈ L, KeyEquiv c.lt (c.key v) k) ∨
    t.countUnique c k = some 0 ∧ ∀ v ∈ L, ¬ KeyEquiv c.lt (c.key v) k := by
  obtain ⟨r, e, h⟩ := internalFind_ok g o s k
  cases r with
  | some it =>
    obtain ⟨X, v, Y, q, hv⟩ := h
    refine .inl ⟨by simp [Tree.countUnique, e], v, ?_, hv⟩
    obtain ⟨j, q, _⟩ := q
    rw [← g.seq, ← q.total g.wf]; simp
  | none => exact .inr ⟨by simp [Tree.countUnique, e], h⟩

end
end

section
variable (g : Good c t (Loose z ht) H ht L)
include g

theorem distance_ok : ∀ (M : List α) (f : Nat) {a b : It} {X Z : List α}, Cur t H a X (M ++ Z) → Cur t H b (X ++ M) Z →
    M.length ≤ f → distance t.heap f a b = some M.length
  | [], f, a, b, X, Z, p, q, hf => by
    have : a = b := p.unique g q (by simp)
    cases f <;> simp [distance, this]
  | v :: M, 0, _, _, _, _, _, _, hf => by simp at hf
  | v :: M, f + 1, a, b, X, Z, p, q, hf => by
    have hne : a ≠ b := by
      rintro rfl
      obtain ⟨j, p, _⟩ := p
      obtain ⟨j', q, _⟩ := q
      obtain ⟨nd, e, n0, hj, _⟩ := p.live g.wf
      obtain ⟨nd', e', n0', hj', _⟩ := q.live g.wf
      subst hj
      subst hj'
      have := (p.det g.wf q).1
      have := congrArg List.length this
      simp at this
    obtain ⟨a', ea, p'⟩ := Cur.increment g (v := v) (Y := M ++ Z) (by simpa using p)
    have ih := distance_ok M f (a := a') (b := b) (X := X ++ [v]) (Z := Z) p' (by simpa using q) (by simpa using hf)
    simp [distance, hne, ea, ih]

theorem countMulti_ok (o : StrictWeak c.lt) (s : Sorted c.multi c.key c.lt L) (hs : L.length ≤ t.size) (k : κ) :
    ∃ X M Z, L = X ++ M ++ Z ∧ t.countMulti c k = some M.length ∧ (∀ a ∈ X, c.lt (c.key a) k = true) ∧
      (∀ a ∈ M, KeyEquiv c.lt (c.key a) k) ∧ (∀ a ∈ Z, c.lt k (c.key a) = true) := by
  obtain ⟨a, X, Y, ea, p, hL, hX, hY⟩ := lowerBound_ok g o s k
  obtain ⟨b, X', Z, eb, q, hL', hX', hZ⟩ := upperBound_ok g o s k
  have hle : X.length ≤ X'.length := by
    by_contra hc
    have h1 : X'.length < X.length := by omega
    have h2 : X[X'.length]? = L[X'.length]? := by rw [← hL, List.getElem?_append_left h1]
    have h3 : Z[0]? = L[X'.length]? := by rw [← hL', List.getElem?_append_right (Nat.le_refl _)]; simp
    rw [List.getElem?_eq_getElem h1] at h2
    rw [← h2] at h3
    have m1 := hX X[X'.length] (List.getElem_mem h1)
    have m2 := hZ _ (List.mem_of_getElem? h3)
    rw [lt_asymm' o m1] at m2; cases m2
  obtain ⟨M, rfl⟩ : ∃ M, X' = X ++ M := by
    have : X <+: X' := by
      rw [List.prefix_iff_eq_take]
      have h1 : X = L.take X.length := by rw [← hL]; simp
      have h2 : X' = L.take X'.length := by rw [← hL']; simp
      rw [h2, List.take_take, Nat.min_eq_left hle]
      exact h1
    obtain ⟨M, hM⟩ := this
    exact ⟨M, hM.symm⟩
  have hY' : Y = M ++ Z := by
    rw [← hL', List.append_assoc] at hL
    exact List.append_cancel_left hL
  subst hY'
  refine ⟨X, M, Z, hL'.symm, ?_, hX, ?_, hZ⟩
  · have hlen : M.length ≤ t.size := by
      rw [← hL'] at hs
      simp at hs; omega
    simp [Tree.countMulti, ea, eb, distance_ok g M t.size p q hlen]
  · intro v hv
    exact ⟨hY v (by simp [hv]), hX' v (by simp [hv])⟩

end
end Gtl.Btree
