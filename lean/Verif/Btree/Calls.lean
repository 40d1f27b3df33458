import Verif.Btree.Whole
import Verif.Spec.SortedSeqLemmas
/-
Each call of a container does what the specification of sorted sequences says.
-/
set_option linter.unusedSectionVars false
namespace Gtl.Btree
open Gtl.Spec.SortedSeq
variable {α κ : Type}
variable {c : Cfg α κ} {t t' : Tree α} {L : List α} {z : Prop}

theorem split_at (L : List α) {i : Nat} (hi : i < L.length) : ∃ X v Y, X ++ v :: Y = L ∧ X.length = i :=
  ⟨L.take i, L[i], L.drop (i + 1), by simp, by simp; omega⟩

section
variable (hK : 3 ≤ c.K) (o : StrictWeak c.lt) (r : RepZ z c t L) (s : Sorted c.multi c.key c.lt L)
include hK o r s

/-- What insertion without duplicates answers. -/
theorem InsU.add {v : α} {x : Option ((It × Bool) × Tree α)} (hm : c.multi = false) (h : InsU z c t L v x) :
    ∃ it t', x = some ((it, (addUnique c.key c.lt L v).2.1), t') ∧ RepZ z c t' (addUnique c.key c.lt L v).2.2 ∧
      t'.index it = some (addUnique c.key c.lt L v).1 ∧ Sorted c.multi c.key c.lt (addUnique c.key c.lt L v).2.2 ∧
      ((addUnique c.key c.lt L v).2.1 = false → t' = t) := by
  rw [hm] at s
  rcases h with ⟨X, v', Y, it, rfl, he, rfl, hi⟩ | ⟨X, Y, it, t', rfl, hX, hY, rfl, r', hi⟩
  · rw [addUnique_found o s he, hm]
    exact ⟨it, t, rfl, r, r.index (by simp) hi, s, fun _ => rfl⟩
  · rw [addUnique_new o hX hY, hm]
    exact ⟨it, t', rfl, r', r'.index (by simp) hi, s.insert_unique hX hY, fun h => by cases h⟩

theorem insertUnique_add (hm : c.multi = false) (v : α) :
    ∃ it t', insertUnique c t (c.key v) (.val v) = some ((it, (addUnique c.key c.lt L v).2.1), t') ∧
      RepZ z c t' (addUnique c.key c.lt L v).2.2 ∧
      t'.index it = some (addUnique c.key c.lt L v).1 ∧ Sorted c.multi c.key c.lt (addUnique c.key c.lt L v).2.2 ∧
      ((addUnique c.key c.lt L v).2.1 = false → t' = t) :=
  InsU.add hK o r s hm (insertUnique_ok hK o r s v)

theorem insertHintUnique_add (hm : c.multi = false) {i : Nat} {pos : It} (hi : i ≤ L.length) (hp : t.iterAt i = some pos)
    (v : α) :
    ∃ it t', insertHintUnique c t pos (c.key v) (.val v) = some ((it, (addUnique c.key c.lt L v).2.1), t') ∧
      RepZ z c t' (addUnique c.key c.lt L v).2.2 ∧
      t'.index it = some (addUnique c.key c.lt L v).1 ∧ Sorted c.multi c.key c.lt (addUnique c.key c.lt L v).2.2 ∧
      ((addUnique c.key c.lt L v).2.1 = false → t' = t) := by
  have hl : (L.take i).length = i := by simp; omega
  exact InsU.add hK o r s hm (insertHintUnique_ok hK o r s v (X := L.take i) (Y := L.drop i) (by simp) (by rw [hl]; exact hp))

theorem insertMulti_add (hm : c.multi = true) (v : α) :
    ∃ it t', insertMulti c t (c.key v) (.val v) = some (it, t') ∧ RepZ z c t' (addMulti c.key c.lt L v).2 ∧
      t'.index it = some (addMulti c.key c.lt L v).1 ∧ Sorted c.multi c.key c.lt (addMulti c.key c.lt L v).2 := by
  obtain ⟨X, Y, it, t', rfl, hX, hY, hP, e, r', hi⟩ := insertMulti_ok hK o r s v
  rw [addMulti_at hX hP]
  rw [hm] at s ⊢
  exact ⟨it, t', e, r', r'.index (by simp) hi, s.insert_multi hX hY⟩

theorem insertHintMulti_add (hm : c.multi = true) {i : Nat} {pos : It} (hi : i ≤ L.length) (hp : t.iterAt i = some pos)
    (v : α) :
    ∃ it t' j, insertHintMulti c t pos (c.key v) (.val v) = some (it, t') ∧
      lower c.key c.lt L (c.key v) ≤ j ∧ j ≤ upper c.key c.lt L (c.key v) ∧
      (lower c.key c.lt L (c.key v) ≤ i → i ≤ upper c.key c.lt L (c.key v) → j = i) ∧
      RepZ z c t' (L.insertIdx j v) ∧ t'.index it = some j ∧ Sorted c.multi c.key c.lt (L.insertIdx j v) := by
  have hl : (L.take i).length = i := by simp; omega
  obtain ⟨X, Y, it, t', hL, hX, hY, hP, e, r', hit⟩ :=
    insertHintMulti_ok hK o r s v (X := L.take i) (Y := L.drop i) (by simp) (by rw [hl]; exact hp)
  -- what the bounds say of a place
  obtain ⟨A, M, Z, _, _, hAZ, _, _, _, _, hA, hM, hZ⟩ := r.between o s (c.key v)
  have lo : lower c.key c.lt L (c.key v) = A.length := by
    rw [← hAZ, List.append_assoc]
    refine lower_split hA fun b hb => ?_
    rcases List.mem_append.1 hb with h | h
    · exact (hM b h).1
    · exact o.asymm (hZ b h)
  have up : upper c.key c.lt L (c.key v) = (A ++ M).length := by
    rw [← hAZ]
    refine upper_split (fun a ha => ?_) hZ
    rcases List.mem_append.1 ha with h | h
    · exact o.asymm (hA a h)
    · exact (hM a h).2
  have pl : ∀ {X Y : List α}, L = X ++ Y → (∀ b ∈ Y, c.lt (c.key b) (c.key v) = false) → A.length ≤ X.length := by
    intro X Y hL hY
    by_contra hc
    have h1 : X.length < L.length := by rw [← hAZ]; simp; omega
    have h2 : A[X.length]? = some L[X.length] := by
      rw [← List.getElem?_eq_getElem h1, ← hAZ, List.append_assoc, List.getElem?_append_left (by omega)]
    have h3 : Y[0]? = some L[X.length] := by
      rw [← List.getElem?_eq_getElem h1, hL, List.getElem?_append_right (Nat.le_refl _)]; simp
    have h4 := hA _ (List.mem_of_getElem? h2)
    rw [hY _ (List.mem_of_getElem? h3)] at h4
    cases h4
  have pu : ∀ {X Y : List α}, L = X ++ Y → (∀ a ∈ X, c.lt (c.key v) (c.key a) = false) → X.length ≤ (A ++ M).length := by
    intro X Y hL hX
    by_contra hc
    have h0 : X.length ≤ L.length := by rw [hL]; simp
    have h1 : (A ++ M).length < L.length := by omega
    have h2 : X[(A ++ M).length]? = some L[(A ++ M).length] := by
      rw [← List.getElem?_eq_getElem h1, hL, List.getElem?_append_left (by omega)]
    have h3 : Z[0]? = some L[(A ++ M).length] := by
      rw [← List.getElem?_eq_getElem h1, ← hAZ, List.getElem?_append_right (Nat.le_refl _)]; simp
    have h4 := hZ _ (List.mem_of_getElem? h3)
    rw [hX _ (List.mem_of_getElem? h2)] at h4
    cases h4
  have hins : L.insertIdx X.length v = X ++ v :: Y := by rw [hL, insertIdx_split]
  rw [lo, up]
  refine ⟨it, t', X.length, e, pl hL hY, pu hL hX, ?_, by rw [hins]; exact r', r'.index (by simp) hit, ?_⟩
  · intro h1 h2
    have : X = L.take i := by
      refine hP ?_ ?_
      · intro a ha
        have : a ∈ (A ++ M) := by
          have h3 : L.take i <+: A ++ M := List.prefix_of_prefix_length_le ⟨L.drop i, by simp⟩ ⟨Z, hAZ⟩ (by rw [hl]; exact h2)
          exact h3.subset ha
        rcases List.mem_append.1 this with h | h
        · exact o.asymm (hA a h)
        · exact (hM a h).2
      · intro b hb
        have : b ∈ (M ++ Z) := by
          have h3 : L.drop i <:+ M ++ Z := List.suffix_of_suffix_length_le (l₃ := L) ⟨L.take i, by simp⟩
            ⟨A, by rw [← List.append_assoc]; exact hAZ⟩ (by
              have := congrArg List.length hAZ
              simp at this ⊢; omega)
          exact h3.subset hb
        rcases List.mem_append.1 this with h | h
        · exact (hM b h).1
        · exact o.asymm (hZ b h)
    rw [this, hl]
  · rw [hins]
    rw [hm] at s ⊢
    rw [hL] at s
    exact s.insert_multi hX hY

/-- Insertion of a range puts each value after those with the same key: the hint
is end(). -/
theorem insertEndMulti_add (hm : c.multi = true) {pos : It} (hp : t.end = some pos) (v : α) :
    ∃ it t', insertHintMulti c t pos (c.key v) (.val v) = some (it, t') ∧ RepZ z c t' (addMulti c.key c.lt L v).2 ∧
      Sorted c.multi c.key c.lt (addMulti c.key c.lt L v).2 := by
  have plain := insertMulti_add hK o r s hm v
  obtain ⟨en, ee, ie⟩ := r.end_ok
  rw [hp] at ee; cases ee
  by_cases hfit : ∀ a ∈ L, c.lt (c.key v) (c.key a) = false
  · obtain ⟨X, Y, it, t', hL, hX, hY, hP, e, r', hit⟩ :=
      insertHintMulti_ok hK o r s v (X := L) (Y := []) (by simp) ie
    have hXL := hP hfit (by simp)
    subst hXL
    have hY0 : Y = [] := List.self_eq_append_right.1 hL
    subst hY0
    have := addMulti_at (key := c.key) (lt := c.lt) (X := X) (Y := []) (v := v) hX (by simp)
    rw [List.append_nil] at this
    rw [this]
    refine ⟨it, t', e, r', ?_⟩
    rw [hm] at s ⊢
    exact Sorted.insert_multi (by simpa using s) hX (by simp)
  · obtain ⟨it, t', e, h1, _, h2⟩ := plain
    refine ⟨it, t', ?_, h1, h2⟩
    rw [← e]
    unfold insertHintMulti
    by_cases h0 : t.size = 0
    · rw [if_pos h0]
    rw [if_neg h0]
    have hne : L ≠ [] := by rintro rfl; exact h0 r.size
    obtain ⟨H, ht, g, hs⟩ := r.good hne
    obtain ⟨en', ee', qe, _⟩ := g.end_ok
    rw [hp] at ee'; cases ee'
    obtain ⟨b, eb, qb⟩ := g.begin_ok
    simp only [hp, eb, Option.bind_eq_bind, Option.bind_some, qe.stopOrAt g qe, qe.stopOrBefore g qb]
    rw [if_pos (by rfl), if_neg]
    intro hlast
    rcases List.eq_nil_or_concat L with rfl | ⟨L', x, rfl⟩
    · exact hne rfl
    · simp only [List.concat_eq_append, List.getLast?_append, List.getLast?_singleton, Option.some_or, Option.all_some,
        Bool.not_eq_true'] at hlast
      apply hfit
      rw [List.concat_eq_append]
      refine (between_weak (m := c.multi) o (X := L' ++ [x]) (Y := []) (k := c.key v) (by simpa using s) ?_ (by simp)).1
      intro a X' h
      have := List.append_inj_right' h (by simp)
      simp at this
      subst this
      exact hlast

end

section
variable (hK : 3 ≤ c.K) (o : StrictWeak c.lt)
include hK o

theorem insertAllUnique_ok (hm : c.multi = false) : ∀ (vs : List α) {t : Tree α} {L : List α}, RepZ z c t L →
    Sorted c.multi c.key c.lt L → ∃ t', insertAllUnique c t vs = some t' ∧
      RepZ z c t' (vs.foldl (fun l v => (addUnique c.key c.lt l v).2.2) L) ∧
      Sorted c.multi c.key c.lt (vs.foldl (fun l v => (addUnique c.key c.lt l v).2.2) L)
  | [], t, L, r, s => ⟨t, rfl, r, s⟩
  | v :: vs, t, L, r, s => by
    obtain ⟨e, ee, ie⟩ := r.end_ok
    obtain ⟨it, t1, e1, r1, _, s1, _⟩ := insertHintUnique_add hK o r s hm (Nat.le_refl _) ie v
    obtain ⟨t2, e2, h⟩ := insertAllUnique_ok hm vs r1 s1
    exact ⟨t2, by simp [insertAllUnique, ee, e1, e2], h⟩

theorem insertAllMulti_ok (hm : c.multi = true) : ∀ (vs : List α) {t : Tree α} {L : List α}, RepZ z c t L →
    Sorted c.multi c.key c.lt L → ∃ t', insertAllMulti c t vs = some t' ∧
      RepZ z c t' (vs.foldl (fun l v => (addMulti c.key c.lt l v).2) L) ∧
      Sorted c.multi c.key c.lt (vs.foldl (fun l v => (addMulti c.key c.lt l v).2) L)
  | [], t, L, r, s => ⟨t, rfl, r, s⟩
  | v :: vs, t, L, r, s => by
    obtain ⟨e, ee, ie⟩ := r.end_ok
    obtain ⟨it, t1, e1, r1, s1⟩ := insertEndMulti_add hK o r s hm ee v
    obtain ⟨t2, e2, h⟩ := insertAllMulti_ok hm vs r1 s1
    exact ⟨t2, by simp [insertAllMulti, ee, e1, e2], h⟩

variable (r : RepZ z c t L) (s : Sorted c.multi c.key c.lt L)
include r s

omit hK in
/-- The elements with the key, one at most without duplicates. -/
theorem middle_one (hm : c.multi = false) {X M Z : List α} {k : κ} (hL : X ++ M ++ Z = L)
    (hM : ∀ a ∈ M, KeyEquiv c.lt (c.key a) k) : M.length ≤ 1 := by
  rw [hm] at s
  simp only [Sorted, Bool.false_eq_true, if_false] at s
  rw [← hL, List.pairwise_append, List.pairwise_append] at s
  rcases M with _ | ⟨a, _ | ⟨b, M⟩⟩
  · simp
  · simp
  · have h1 := (List.pairwise_cons.1 s.1.2.1).1 b (by simp)
    have h2 := o.lt_equiv h1 (hM b (by simp))
    rw [(hM a (by simp)).1] at h2
    cases h2

omit r s in
theorem eraseUnique_ok (r : Rep c t L) (s : Sorted c.multi c.key c.lt L) (hm : c.multi = false) (k : κ) :
    ∃ t', eraseUnique c t k = some (L.countP (same c.key c.lt k), t') ∧
      Rep c t' (L.filter fun v => !same c.key c.lt k v) := by
  obtain ⟨A, M, Z, _, _, hAZ, _, _, _, _, hA, hM, hZ⟩ := r.between o s k
  obtain ⟨f1, f2, f3⟩ := filter_middle hA hM hZ
  have one := middle_one o r s hm hAZ hM
  rw [hAZ] at f1 f2 f3
  rcases r.internalFind o s k with ⟨it, X, v, Y, e, hL, hi, hv⟩ | ⟨e, hn⟩
  · obtain ⟨it', t', e', r', _⟩ := eraseIt_ok hK r hL hi
    have hs : same c.key c.lt k v = true := same_iff.2 hv
    have h1 : M.length = 1 := by
      have : L.countP (same c.key c.lt k) ≠ 0 := by
        rw [ne_eq, List.countP_eq_zero]
        exact fun h => h v (by rw [← hL]; simp) hs
      omega
    refine ⟨t', by simp [eraseUnique, e, e', f2, h1], ?_⟩
    have h2 : ∀ a ∈ X, same c.key c.lt k a = false := by
      rw [hm] at s; rw [← hL] at s
      intro a ha
      simp [same, (s.at o hv).1 a ha]
    have h3 : ∀ a ∈ Y, same c.key c.lt k a = false := by
      rw [hm] at s; rw [← hL] at s
      intro a ha
      simp [same, (s.at o hv).2 a ha]
    have : (L.filter fun v => !same c.key c.lt k v) = X ++ Y := by
      rw [← hL, List.filter_append, List.filter_cons_of_neg (by simp [hs]),
        List.filter_eq_self.2 (fun a ha => by simp [h2 a ha]), List.filter_eq_self.2 (fun a ha => by simp [h3 a ha])]
    rw [this]
    exact r'
  · have h0 : ∀ a ∈ L, same c.key c.lt k a = false := fun a ha => same_false.2 (hn a ha)
    refine ⟨t, ?_, ?_⟩
    · rw [List.countP_eq_zero.2 (fun a ha => by simp [h0 a ha])]
      simp [eraseUnique, e]
    · rw [List.filter_eq_self.2 (fun a ha => by simp [h0 a ha])]
      exact r

omit r s in
theorem eraseMulti_ok (r : Rep c t L) (s : Sorted c.multi c.key c.lt L) (k : κ) :
    ∃ t', eraseMulti c t k = some (L.countP (same c.key c.lt k), t') ∧
      Rep c t' (L.filter fun v => !same c.key c.lt k v) := by
  obtain ⟨A, M, Z, a, b, hAZ, ea, ia, eb, ib, hA, hM, hZ⟩ := r.between o s k
  obtain ⟨f1, f2, f3⟩ := filter_middle hA hM hZ
  rw [hAZ] at f1 f2
  rw [f1, f2]
  unfold Tree.lowerBound at ea
  unfold Tree.upperBound at eb
  obtain ⟨x, ex, ea⟩ := Option.bind_eq_some_iff.1 ea
  obtain ⟨y, ey, eb⟩ := Option.bind_eq_some_iff.1 eb
  unfold eraseMulti
  rw [ex]
  cases x with
  | none =>
    -- lower_bound is end()
    have hend : t.end = some a := ea
    have hlen := (r.at_end (by rw [← hAZ]; simp) ia hend).1 rfl
    have hMZ : M = [] ∧ Z = [] := by
      have := congrArg List.length hAZ
      simp only [List.length_append] at this
      constructor <;> exact List.length_eq_zero_iff.1 (by omega)
    obtain ⟨rfl, rfl⟩ := hMZ
    refine ⟨t, rfl, ?_⟩
    rw [← hAZ] at r
    simpa using r
  | some x =>
    have hx : x = a := Option.some.inj ea
    subst hx
    obtain ⟨b', t', e', r', _⟩ := eraseRange_ok hK (X := A) (M := M) (Y := Z) (by rw [hAZ]; exact r) ia ib
    refine ⟨t', ?_, r'⟩
    simp only [Option.bind_eq_bind, Option.bind_some, ey, eb, e']

theorem count_ok (k : κ) :
    (c.multi = false → t.countUnique c k = some (L.countP (same c.key c.lt k))) ∧
      t.countMulti c k = some (L.countP (same c.key c.lt k)) := by
  obtain ⟨A, M, Z, a, b, hAZ, ea, ia, eb, ib, hA, hM, hZ⟩ := r.between o s k
  obtain ⟨f1, f2, f3⟩ := filter_middle hA hM hZ
  rw [hAZ] at f1 f2
  constructor
  · intro hm
    have one := middle_one o r s hm hAZ hM
    rcases r.internalFind o s k with ⟨it, X, v, Y, e, hL, hi, hv⟩ | ⟨e, hn⟩
    · have : L.countP (same c.key c.lt k) ≠ 0 := by
        rw [ne_eq, List.countP_eq_zero]
        exact fun h => h v (by rw [← hL]; simp) (same_iff.2 hv)
      have h1 : M.length = 1 := by omega
      simp [Tree.countUnique, e, f2, h1]
    · rw [List.countP_eq_zero.2 (fun a ha => by simp [same_false.2 (hn a ha)])]
      simp [Tree.countUnique, e]
  · rw [f2]
    have := r.distance_ok hAZ ia (by simpa using ib)
    simp [Tree.countMulti, ea, eb, this]

theorem find_pos (k : κ) : ∃ it i, t.find c k = some it ∧ t.iterAt i = some it ∧ i ≤ L.length ∧
    (match L[i]? with
      | some v => same c.key c.lt k v = true
      | none => i = L.length ∧ L.any (same c.key c.lt k) = false) := by
  rcases r.internalFind o s k with ⟨it, X, v, Y, e, hL, hi, hv⟩ | ⟨e, hn⟩
  · refine ⟨it, X.length, by simp [Tree.find, e, internalEnd], hi, by rw [← hL]; simp, ?_⟩
    rw [← hL]
    simp [same_iff.2 hv]
  · obtain ⟨en, ee, ie⟩ := r.end_ok
    refine ⟨en, L.length, by simp [Tree.find, e, internalEnd, ee], ie, Nat.le_refl _, ?_⟩
    rw [List.getElem?_eq_none (Nat.le_refl _)]
    refine ⟨rfl, ?_⟩
    rw [List.any_eq_false]
    intro a ha
    simp [same_false.2 (hn a ha)]

theorem contains_ok (k : κ) : t.contains c k = some (L.any (same c.key c.lt k)) := by
  obtain ⟨it, i, e, hi, hle, h⟩ := find_pos hK o r s k
  obtain ⟨en, ee, ie⟩ := r.end_ok
  have hend := r.at_end hle hi ee
  by_cases hl : i = L.length
  · have : it = en := hend.2 hl
    subst this
    rw [hl, List.getElem?_eq_none (Nat.le_refl _)] at h
    simp [Tree.contains, e, ee, h.2]
  · have hne : it ≠ en := fun h => hl (hend.1 h)
    have hlt : i < L.length := by omega
    rw [List.getElem?_eq_getElem hlt] at h
    have : L.any (same c.key c.lt k) = true := by
      rw [List.any_eq_true]
      exact ⟨_, List.getElem_mem hlt, h⟩
    simp [Tree.contains, e, ee, this, hne]

end

/-- When the key is there already, what is to be inserted is not looked at. -/
theorem insertUnique_arg {k : κ} {a b : Arg α} {it : It} (h : insertUnique c t k a = some ((it, false), t')) :
    insertUnique c t k b = some ((it, false), t') := by
  unfold insertUnique at *
  simp only [Option.bind_eq_bind] at h ⊢
  obtain ⟨x, e1, h⟩ := Option.bind_eq_some_iff.1 h
  obtain ⟨y, e2, h⟩ := Option.bind_eq_some_iff.1 h
  simp only [e1, e2, Option.bind_some]
  cases y with
  | some it => exact h
  | none =>
    obtain ⟨z, e3, h⟩ := Option.bind_eq_some_iff.1 h
    simp at h

theorem insertHintUnique_arg {k : κ} {pos : It} {a b : Arg α} {it : It}
    (h : insertHintUnique c t pos k a = some ((it, false), t')) :
    insertHintUnique c t pos k b = some ((it, false), t') := by
  unfold insertHintUnique at *
  simp only [Option.bind_eq_bind] at h ⊢
  by_cases h0 : t.size = 0
  · rw [if_pos h0] at h ⊢
    exact insertUnique_arg h
  rw [if_neg h0] at h ⊢
  obtain ⟨e, e1, h⟩ := Option.bind_eq_some_iff.1 h
  obtain ⟨bg, e2, h⟩ := Option.bind_eq_some_iff.1 h
  obtain ⟨x, e3, h⟩ := Option.bind_eq_some_iff.1 h
  simp only [e1, e2, e3, Option.bind_some]
  cases x with
  | true =>
    simp only [if_true] at h ⊢
    obtain ⟨y, e4, h⟩ := Option.bind_eq_some_iff.1 h
    simp only [e4, Option.bind_some]
    cases y with
    | true =>
      simp only [if_true] at h
      obtain ⟨z, e5, h⟩ := Option.bind_eq_some_iff.1 h
      simp at h
    | false =>
      simp only [Bool.false_eq_true, if_false] at h ⊢
      exact insertUnique_arg h
  | false =>
    simp only [Bool.false_eq_true, if_false] at h ⊢
    obtain ⟨v, e4, h⟩ := Option.bind_eq_some_iff.1 h
    simp only [e4, Option.bind_some]
    by_cases hl : c.lt (c.key v) k = true
    · rw [if_pos hl] at h ⊢
      obtain ⟨n, e5, h⟩ := Option.bind_eq_some_iff.1 h
      obtain ⟨y, e6, h⟩ := Option.bind_eq_some_iff.1 h
      simp only [e5, e6, Option.bind_some]
      cases y with
      | true =>
        simp only [if_true] at h
        obtain ⟨z, e5, h⟩ := Option.bind_eq_some_iff.1 h
        simp at h
      | false =>
        simp only [Bool.false_eq_true, if_false] at h ⊢
        exact insertUnique_arg h
    · rw [if_neg hl] at h ⊢
      exact h

/-! ### Writing through iterators -/

theorem write_ok (r : RepZ z c t L) {X Y : List α} {v w : α} {it : It} (hL : X ++ v :: Y = L)
    (h : t.iterAt X.length = some it) : ∃ t', t.write it w = some t' ∧ RepZ z c t' (X ++ w :: Y) := by
  obtain ⟨H, ht, g, hs, q⟩ := r.cur hL h (by rw [← hL]; simp)
  obtain ⟨k, p, hq⟩ := id q
  obtain ⟨nd, e, n0, hk, hi⟩ := p.live g.wf
  have hlt : it.pos < nd.vals.length := by
    have := q.deref g
    simp only [Btree.deref, e, Option.bind_eq_bind, Option.bind_some] at this
    exact (List.getElem?_eq_some_iff.1 this).1
  obtain ⟨g', _⟩ := g.setVal (v' := w) (t' := { t with heap := t.heap.set it.node { nd with vals := nd.vals.set it.pos w } })
    e p hlt rfl rfl rfl
  refine ⟨_, by simp [Tree.write, e, Node.count, hlt, check], .inr ⟨H, ht, g', ?_⟩⟩
  rw [← hL] at hs
  simpa using hs

/-! ### erase_if -/

theorem eraseIfLoop_ok (hK : 3 ≤ c.K) (p : α → Bool) : ∀ (f : Nat) {t : Tree α} {X Y : List α} {it : It},
    Rep c t (X ++ Y) → t.iterAt X.length = some it → Y.length ≤ f →
    ∃ t', eraseIfLoop c p f t it = some t' ∧ Rep c t' (X ++ Y.filter fun v => !p v) := by
  intro f
  induction f with
  | zero =>
    intro t X Y it r hi hf
    obtain rfl : Y = [] := List.length_eq_zero_iff.1 (by omega)
    obtain ⟨e, ee, ie⟩ := r.end_ok
    have : it = e := (r.at_end (by simp) hi ee).2 (by simp)
    exact ⟨t, by simp [eraseIfLoop, ee, this], by simpa using r⟩
  | succ f ih =>
    intro t X Y it r hi hf
    obtain ⟨e, ee, ie⟩ := r.end_ok
    cases Y with
    | nil =>
      have : it = e := (r.at_end (by simp) hi ee).2 (by simp)
      exact ⟨t, by simp [eraseIfLoop, ee, this], by simpa using r⟩
    | cons v Y =>
      have hne : it ≠ e := fun h => by
        have := (r.at_end (by simp) hi ee).1 h
        simp at this
      have hd := r.deref rfl hi
      by_cases hp : p v = true
      · obtain ⟨it', t', e1, r1, i1⟩ := eraseIt_ok hK r rfl hi
        obtain ⟨t2, e2, r2⟩ := ih r1 i1 (by simpa using hf)
        refine ⟨t2, by simp [eraseIfLoop, ee, hne, hd, hp, e1, e2], ?_⟩
        simpa [hp] using r2
      · obtain ⟨it', e1, i1⟩ := r.increment rfl hi
        obtain ⟨t2, e2, r2⟩ := ih (X := X ++ [v]) (Y := Y) (by simpa using r) (by simpa using i1) (by simpa using hf)
        refine ⟨t2, by simp [eraseIfLoop, ee, hne, hd, hp, e1, e2], ?_⟩
        simpa [hp] using r2

theorem eraseIf_ok (hK : 3 ≤ c.K) (r : Rep c t L) (p : α → Bool) :
    ∃ t', t.eraseIf c p = some t' ∧ Rep c t' (L.filter fun v => !p v) := by
  obtain ⟨b, eb, ib⟩ := r.begin_ok
  obtain ⟨t', e, r'⟩ := eraseIfLoop_ok hK p t.size (X := []) (Y := L) (by simpa using r) ib (by rw [r.size])
  exact ⟨t', by simp [Tree.eraseIf, eb, e], by simpa using r'⟩

/-! ### Copies -/

theorem appendAll_ok (hK : 3 ≤ c.K) : ∀ (vs : List α) {t : Tree α} {L : List α}, RepZ z c t L → L ≠ [] →
    ∃ t', appendAll c t vs = some t' ∧ RepZ z c t' (L ++ vs)
  | [], t, L, r, _ => ⟨t, rfl, by simpa using r⟩
  | v :: vs, t, L, r, hne => by
    obtain ⟨H, ht, g, hs⟩ := r.good hne
    obtain ⟨e, ee, ⟨k, p, _⟩, _⟩ := g.end_ok
    obtain ⟨it', t', e', r', _⟩ := g.emplace hK (v := v) hs p
    obtain ⟨t2, e2, r2⟩ := appendAll_ok hK vs r' (by simp)
    exact ⟨t2, by simp [appendAll, ee, e', e2], by simpa using r2⟩

theorem copyInto_ok (hK : 3 ≤ c.K) (o : StrictWeak c.lt) {x : Tree α} (e : Empty t) (r : RepZ z c x L) :
    ∃ t', copyInto c t x = some t' ∧ Rep c t' L := by
  have re : Rep c t [] := .inl ⟨e, rfl⟩
  cases L with
  | nil => exact ⟨t, by simp [copyInto, r.toList], re⟩
  | cons v vs =>
    obtain ⟨X, Y, it, t', hL, _, _, _, e1, r1, _⟩ := insertMulti_ok hK o re (by unfold Sorted; split <;> simp) v
    have : X = [] ∧ Y = [] := by simpa using hL.symm
    obtain ⟨rfl, rfl⟩ := this
    obtain ⟨t2, e2, r2⟩ := appendAll_ok hK vs r1 (by simp)
    exact ⟨t2, by simp [copyInto, r.toList, e1, e2], by simpa using r2⟩

theorem copy_ok (hK : 3 ≤ c.K) (o : StrictWeak c.lt) (r : RepZ z c t L) : ∃ t', t.copy c = some t' ∧ Rep c t' L := by
  refine copyInto_ok hK o ?_ r
  exact (rep_empty (z := False) c).empty

theorem assign_ok {zx : Prop} (hK : 3 ≤ c.K) (o : StrictWeak c.lt) {x : Tree α} {L' : List α} (r : RepZ z c t L') (rx : RepZ zx c x L) :
    ∃ t', t.assign c x = some t' ∧ Rep c t' L := by
  obtain ⟨t1, e1, h1⟩ := Tree.clear_ok r
  obtain ⟨t2, e2, h2⟩ := copyInto_ok hK o h1 rx
  exact ⟨t2, by simp [Tree.assign, e1, e2], h2⟩

/-! ### Merging -/

theorem mergeLoop_ok {cs : Cfg α κ} (hK : 3 ≤ c.K) (hKs : 3 ≤ cs.K) (o : StrictWeak c.lt) (hm : c.multi = false) :
    ∀ (f : Nat) {t s : Tree α} {L X Y : List α} {it : It}, RepZ z c t L → Sorted c.multi c.key c.lt L →
    Rep cs s (X ++ Y) → s.iterAt X.length = some it → Y.length ≤ f →
    ∃ t' s', mergeLoop c cs f t s it = some (t', s') ∧ RepZ z c t' (mergeInto c.key c.lt L Y).1 ∧
      Rep cs s' (X ++ (mergeInto c.key c.lt L Y).2) ∧ Sorted c.multi c.key c.lt (mergeInto c.key c.lt L Y).1 := by
  intro f
  induction f with
  | zero =>
    intro t s L X Y it r so rs hi hf
    obtain rfl : Y = [] := List.length_eq_zero_iff.1 (by omega)
    obtain ⟨e, ee, ie⟩ := rs.end_ok
    have : it = e := (rs.at_end (by simp) hi ee).2 (by simp)
    exact ⟨t, s, by simp [mergeLoop, ee, this], r, by simpa [mergeInto] using rs, so⟩
  | succ f ih =>
    intro t s L X Y it r so rs hi hf
    obtain ⟨e, ee, ie⟩ := rs.end_ok
    cases Y with
    | nil =>
      have : it = e := (rs.at_end (by simp) hi ee).2 (by simp)
      exact ⟨t, s, by simp [mergeLoop, ee, this], r, by simpa [mergeInto] using rs, so⟩
    | cons v Y =>
      have hne : it ≠ e := fun h => by
        have := (rs.at_end (by simp) hi ee).1 h
        simp at this
      have hd := rs.deref rfl hi
      obtain ⟨it1, t1, e1, r1, _, s1, hsame⟩ := insertUnique_add hK o r so hm v
      by_cases hb : (addUnique c.key c.lt L v).2.1 = true
      · obtain ⟨it', s', e2, r2, i2⟩ := eraseIt_ok hKs rs rfl hi
        obtain ⟨t3, s3, e3, r3, rs3, so3⟩ := ih r1 s1 r2 i2 (by simpa using hf)
        refine ⟨t3, s3, by simp [mergeLoop, ee, hne, hd, e1, hb, e2, e3], ?_⟩
        rw [mergeInto, if_pos hb]
        exact ⟨r3, rs3, so3⟩
      · obtain ⟨it', e2, i2⟩ := rs.increment rfl hi
        obtain ⟨t3, s3, e3, r3, rs3, so3⟩ := ih r1 s1 (X := X ++ [v]) (Y := Y) (by simpa using rs) (by simpa using i2)
          (by simpa using hf)
        refine ⟨t3, s3, by simp [mergeLoop, ee, hne, hd, e1, hb, e2, e3], ?_⟩
        rw [mergeInto, if_neg hb]
        rw [addUnique_old (by simpa using hb)] at r3 rs3 so3
        exact ⟨r3, by simpa using rs3, so3⟩

theorem mergeUnique_ok {cs : Cfg α κ} (hK : 3 ≤ c.K) (hKs : 3 ≤ cs.K) (o : StrictWeak c.lt) (hm : c.multi = false)
    {s : Tree α} {L' : List α} (r : RepZ z c t L) (so : Sorted c.multi c.key c.lt L) (rs : Rep cs s L') :
    ∃ t' s', mergeUnique c cs t s = some (t', s') ∧ RepZ z c t' (mergeInto c.key c.lt L L').1 ∧
      Rep cs s' (mergeInto c.key c.lt L L').2 ∧ Sorted c.multi c.key c.lt (mergeInto c.key c.lt L L').1 := by
  obtain ⟨b, eb, ib⟩ := rs.begin_ok
  obtain ⟨t', s', e, h⟩ := mergeLoop_ok hK hKs o hm s.size (X := []) (Y := L') r so (by simpa using rs) ib (by rw [rs.size])
  exact ⟨t', s', by simp [mergeUnique, eb, e], by simpa using h⟩

theorem mergeMulti_ok {zs : Prop} {cs : Cfg α κ} (hK : 3 ≤ c.K) (o : StrictWeak c.lt) (hm : c.multi = true)
    {s : Tree α} {L' : List α} (r : RepZ z c t L) (so : Sorted c.multi c.key c.lt L) (rs : RepZ zs cs s L') :
    ∃ t' s', mergeMulti c t s = some (t', s') ∧ RepZ z c t' (L'.foldl (fun l v => (addMulti c.key c.lt l v).2) L) ∧
      Rep cs s' [] ∧ Sorted c.multi c.key c.lt (L'.foldl (fun l v => (addMulti c.key c.lt l v).2) L) := by
  obtain ⟨t', e, r', so'⟩ := insertAllMulti_ok hK o hm L' r so
  obtain ⟨s', e', h'⟩ := Tree.clear_ok rs
  exact ⟨t', s', by simp [mergeMulti, rs.toList, e, e'], r', .inl ⟨h', rfl⟩, so'⟩

/-! ### Comparison -/

theorem beq_ok {zs : Prop} {cs : Cfg α κ} {s : Tree α} {L' : List α} (r : RepZ z c t L) (rs : RepZ zs cs s L') (eq : α → α → Bool) :
    t.beq eq s = some (decide (L.length = L'.length) && (L.zip L').all fun x => eq x.1 x.2) := by
  unfold Tree.beq
  rw [r.size, rs.size, r.toList, rs.toList]
  by_cases h : L.length = L'.length <;> simp [h]

end Gtl.Btree
