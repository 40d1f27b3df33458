import Verif.Btree.Query
import Verif.Btree.History
/-
C107: lookups in `gtl::btree_set`, `btree_map`, `btree_multiset` and `btree_multimap` with something
that is not a key, through a transparent comparison. The specification is `Verif/Spec/Query.lean`: the
elements are split into those below what is looked up, those that match it, and those above. As in the
standard containers, lower_bound, upper_bound and equal_range should find the places where these parts
meet, find some match, count their number, and erase all of them.
-/
namespace Gtl.Props.BtreeQuery
open Gtl.Btree Gtl.Spec.SortedSeq Gtl.Spec.Query
variable {α κ : Type} {c : Cfg α κ}

/-- A container after any sequence of calls that keeps the rules, and its elements. -/
def After (c : Cfg α κ) (t : Tree α) (L : List α) : Prop :=
  ∃ ops rs, Safe c.multi c.key c.lt [] ops ∧ execAll c Tree.empty ops = some (rs, t) ∧ t.toList = some L

theorem After.rep {t : Tree α} {L : List α} (hK : 3 ≤ c.K) (o : StrictWeak c.lt) (a : After c t L) :
    Rep c t L ∧ Sorted c.multi c.key c.lt L := by
  obtain ⟨ops, rs, hs, e, hL⟩ := a
  obtain ⟨rs', t', L', e', _, hh⟩ := execAll_ok hK o ops (holds_empty c) hs
  rw [e] at e'; cases e'
  have := hh.1.toList
  rw [hL] at this; cases this
  exact hh

theorem lengths {p : α → Bool} {X Y : List α} (hX : ∀ a ∈ X, p a = true) (hY : ∀ b ∈ Y, p b = false) :
    (X ++ Y).countP p = X.length := by
  rw [List.countP_append, List.countP_eq_length.2 hX, List.countP_eq_zero.2 (fun a ha => by simp [hY a ha])]
  rfl

theorem sharp {q : Query κ} {L : List α} (h : c.cmpTo = false ∨ c.linear = true ∨ c.multi = true ∨
      L.countP (fun v => q.hits (c.key v)) ≤ 1) : Sharp (c.ask q) none L := by
  intro h1 h2 h3
  rcases h with h | h | h | h
  · exact absurd (h1.symm.trans h) (by simp)
  · exact absurd (h2.symm.trans h) (by simp)
  · exact absurd (h3.symm.trans h) (by simp)
  · exact ask_once h

section
variable (hK : 3 ≤ c.K) (o : StrictWeak c.lt) {q : Query κ} (f : Fits c.lt q) {t : Tree α} {L : List α}
  (a : After c t L)
include hK o f a

/-- C107: upper_bound(q) is the first element above. -/
theorem C107_upper : ∃ it, t.upperOf c q = some it ∧ t.index it = some (L.countP fun v => !q.above (c.key v)) := by
  obtain ⟨r, s⟩ := a.rep hK o
  obtain ⟨it, X, Y, e, i, rfl, hX, hY⟩ := RepZ.upperSplit (RepZ.ask.2 r) (ask_split o f s)
  refine ⟨it, e, ?_⟩
  rw [lengths (fun a ha => by simpa [Cfg.ask] using hX a ha) (fun b hb => by simpa [Cfg.ask] using hY b hb)]
  exact r.index (by simp) i

/-- C107: lower_bound(q) is the first element that is not below, unless the container has no duplicates,
its comparison gives a three way answer, nodes are searched by halves, and several elements match. -/
theorem C107_lower_partial (h : c.cmpTo = false ∨ c.linear = true ∨ c.multi = true ∨
      L.countP (fun v => q.hits (c.key v)) ≤ 1) :
    ∃ it, t.lowerOf c q = some it ∧ t.index it = some (L.countP fun v => q.below (c.key v)) := by
  obtain ⟨r, s⟩ := a.rep hK o
  obtain ⟨it, X, Y, e, i, rfl, _, hY, hX⟩ := RepZ.lowerSplit (RepZ.ask.2 r) (ask_split o f s)
  refine ⟨it, e, ?_⟩
  have hX : ∀ a ∈ X, q.below (c.key a) = true := hX (sharp h)
  have hY : ∀ b ∈ Y, q.below (c.key b) = false := hY
  rw [lengths hX hY]
  exact r.index (by simp) i

/-- C107: in every case lower_bound(q) is a match if there is one, and the first element above otherwise. -/
theorem C107_lower_any : ∃ it i, t.lowerOf c q = some it ∧ t.index it = some i ∧
    (if L.any (fun v => q.hits (c.key v)) then ∃ v, L[i]? = some v ∧ q.hits (c.key v) = true
      else i = L.countP fun v => q.below (c.key v)) := by
  obtain ⟨r, s⟩ := a.rep hK o
  have sp := ask_split o f s
  by_cases h1 : c.cmpTo = false ∨ c.linear = true ∨ c.multi = true ∨ L.countP (fun v => q.hits (c.key v)) ≤ 1
  · obtain ⟨it, e, i⟩ := C107_lower_partial hK o f a h1
    refine ⟨it, _, e, i, ?_⟩
    split
    case isFalse => rfl
    case isTrue h =>
      obtain ⟨X, M, Z, _, _, hL, _, _, _, _, hX, hM, hZ⟩ := RepZ.betweenSplit (RepZ.ask.2 r) sp (sharp h1)
      obtain ⟨v, hv, hq⟩ := List.any_eq_true.1 h
      have e1 : L.countP (fun v => q.below (c.key v)) = X.length := by
        rw [← hL, List.append_assoc]
        refine lengths (fun a ha => hX a ha) (fun b hb => ?_)
        rcases List.mem_append.1 hb with hb | hb
        · exact (hM b hb).1
        · have h2 : q.above (c.key b) = true := hZ b hb
          cases h3 : q.below (c.key b) with
          | false => rfl
          | true => rw [f.apart _ h3] at h2; cases h2
      have hvM : v ∈ M := by
        rw [← hL] at hv
        rcases List.mem_append.1 hv with hv | hv
        · rcases List.mem_append.1 hv with hv | hv
          · have : q.below (c.key v) = true := hX v hv
            simp [Query.hits, this] at hq
          · exact hv
        · have : q.above (c.key v) = true := hZ v hv
          simp [Query.hits, this] at hq
      cases M with
      | nil => simp at hvM
      | cons m M =>
        refine ⟨m, ?_, ask_equiv.1 (hM m (by simp))⟩
        rw [e1, ← hL]
        simp
  · simp only [not_or, Bool.not_eq_false, Bool.not_eq_true] at h1
    obtain ⟨hc, _, hm, h1⟩ := h1
    -- the last match
    have hne : (L.filter fun v => q.hits (c.key v)) ≠ [] := by
      intro h0
      rw [List.countP_eq_length_filter, h0] at h1
      simp at h1
    have hlast := List.getLast_mem hne
    have hw := List.mem_filter.1 hlast
    have hl : ∀ v ∈ L, q.hits (c.key v) = true →
        c.lt (c.key ((L.filter fun v => q.hits (c.key v)).getLast hne)) (c.key v) = false := by
      intro v hv hq
      have hs := (s.weak o).sublist (List.filter_sublist (p := fun v => q.hits (c.key v)))
      have hv' : v ∈ L.filter fun v => q.hits (c.key v) := List.mem_filter.2 ⟨hv, hq⟩
      rw [← List.dropLast_append_getLast hne] at hs hv'
      rcases List.mem_append.1 hv' with h | h
      · exact (List.pairwise_append.1 hs).2.2 v h _ (by simp)
      · simp only [List.mem_singleton] at h
        rw [← h]
        exact o.irrefl _
    obtain ⟨it, X, Y, e, i, hL, hX, hY⟩ := r.lowerLast o f s hm hc hw.1 hw.2 hl
    generalize (L.filter fun v => q.hits (c.key v)).getLast hne = w at hw hX
    refine ⟨it, X.length, e, r.index (by rw [← hL]; simp) i, ?_⟩
    rw [if_pos (List.any_eq_true.2 ⟨w, hw.1, hw.2⟩)]
    have hwY : w ∈ Y := by
      have := hw.1
      rw [← hL] at this
      rcases List.mem_append.1 this with h | h
      · have := hX w h
        rw [o.irrefl] at this; cases this
      · exact h
    cases Y with
    | nil => simp at hwY
    | cons y Y =>
      refine ⟨y, by rw [← hL]; simp, ?_⟩
      have h2 : q.above (c.key y) = false := by
        cases h3 : q.above (c.key y) with
        | false => rfl
        | true =>
          have h4 : c.lt (c.key w) (c.key y) = false := by
            rcases List.mem_cons.1 hwY with h | h
            · rw [h]; exact o.irrefl _
            · have hs := s.weak o
              rw [← hL] at hs
              exact (List.pairwise_cons.1 (List.pairwise_append.1 hs).2.1).1 w h
          have := f.up _ _ h4 h3
          simp [Query.hits, this] at hw
      simp [Query.hits, hY y (by simp), h2]

/-- C107: find(q) is a match, or end() if there is none; with a comparison that gives a bool it is the
first match. -/
theorem C107_find : ∃ it i, t.findOf c q = some it ∧ t.index it = some i ∧
    (if L.any (fun v => q.hits (c.key v)) then
      (∃ v, L[i]? = some v ∧ q.hits (c.key v) = true) ∧ (c.cmpTo = false → i = L.countP fun v => q.below (c.key v))
      else i = L.length) := by
  obtain ⟨r, s⟩ := a.rep hK o
  have sp := ask_split o f s
  rcases RepZ.findSplit (RepZ.ask.2 r) sp with ⟨it, X, v, Y, e, hL, i, hv, hX⟩ | ⟨e, hn⟩
  · refine ⟨it, X.length, by simp [Tree.findOf, Tree.find, e, internalEnd], r.index (by rw [← hL]; simp) i, ?_⟩
    rw [if_pos (List.any_eq_true.2 ⟨v, by rw [← hL]; simp, ask_equiv.1 hv⟩)]
    refine ⟨⟨v, by rw [← hL]; simp, ask_equiv.1 hv⟩, ?_⟩
    intro hc
    have hX : ∀ a ∈ X, q.below (c.key a) = true := hX hc
    have m := sp.lower
    rw [← hL] at m ⊢
    refine (lengths hX ?_).symm
    intro b hb
    rcases List.mem_cons.1 hb with rfl | hb
    · exact hv.1
    · exact m.back hv.1 b hb
  · obtain ⟨en, ee, ie⟩ := r.end_ok
    refine ⟨en, L.length, by simp [Tree.findOf, Tree.find, e, internalEnd, ee], r.index (Nat.le_refl _) ie, ?_⟩
    rw [if_neg]
    intro h
    obtain ⟨v, hv, hq⟩ := List.any_eq_true.1 h
    exact hn v hv (ask_equiv.2 hq)

/-- C107: contains(q) says whether an element matches. -/
theorem C107_contains : t.containsOf c q = some (L.any fun v => q.hits (c.key v)) := by
  obtain ⟨r, s⟩ := a.rep hK o
  have sp := ask_split o f s
  obtain ⟨en, ee, ie⟩ := r.end_ok
  rcases RepZ.findSplit (RepZ.ask.2 r) sp with ⟨it, X, v, Y, e, hL, i, hv, _⟩ | ⟨e, hn⟩
  · have hne : it ≠ en := by
      intro h
      have := (r.at_end (by rw [← hL]; simp) i ee).1 h
      rw [← hL] at this
      simp at this
    rw [List.any_eq_true.2 ⟨v, by rw [← hL]; simp, ask_equiv.1 hv⟩]
    simp [Tree.containsOf, Tree.contains, Tree.find, e, internalEnd, ee, hne]
  · have : (L.any fun v => q.hits (c.key v)) = false := by
      rw [List.any_eq_false]
      intro v hv hq
      exact hn v hv (ask_equiv.2 hq)
    simp [Tree.containsOf, Tree.contains, Tree.find, e, internalEnd, ee, this]

/-- C107: count(q) of a container with duplicates is the number of matches, erase(q) returns it and
leaves exactly the other elements in order. -/
theorem C107_count_erase_multi (hm : c.multi = true) :
    t.countOf c q = some (L.countP fun v => q.hits (c.key v)) ∧
    ∃ t', t.eraseOf c q = some (L.countP (fun v => q.hits (c.key v)), t') ∧
      t'.toList = some (L.filter fun v => !q.hits (c.key v)) ∧ t'.size = (L.filter fun v => !q.hits (c.key v)).length := by
  obtain ⟨r, s⟩ := a.rep hK o
  have sp := ask_split o f s
  have sh : Sharp (c.ask q) none L := sharp (.inr (.inr (.inl hm)))
  refine ⟨?_, ?_⟩
  · have := RepZ.countSplit (RepZ.ask.2 r) sp sh
    rw [ask_same] at this
    simpa [Tree.countOf, hm] using this
  · obtain ⟨t', e, r'⟩ := eraseMulti_split (c := c.ask q) sp hK (RepZ.ask.2 r) sh
    rw [ask_same] at e r'
    have r' := RepZ.ask.1 r'
    exact ⟨t', by simpa [Tree.eraseOf, hm] using e, r'.toList, r'.size⟩

/-- C107: count(q) of a container without duplicates is 1 if an element matches and 0 otherwise; erase(q)
then removes one match. -/
theorem C107_count_erase_one (hm : c.multi = false) :
    t.countOf c q = some (if L.any (fun v => q.hits (c.key v)) then 1 else 0) ∧
    ∃ n t', t.eraseOf c q = some (n, t') ∧
      (if L.any (fun v => q.hits (c.key v)) then
        n = 1 ∧ ∃ X v Y, L = X ++ v :: Y ∧ q.hits (c.key v) = true ∧ t'.toList = some (X ++ Y) ∧ t'.size + 1 = L.length
      else n = 0 ∧ t' = t) := by
  obtain ⟨r, s⟩ := a.rep hK o
  have sp := ask_split o f s
  rcases RepZ.findSplit (RepZ.ask.2 r) sp with ⟨it, X, v, Y, e, hL, i, hv, _⟩ | ⟨e, hn⟩
  · rw [List.any_eq_true.2 ⟨v, by rw [← hL]; simp, ask_equiv.1 hv⟩]
    refine ⟨by simp [Tree.countOf, hm, Tree.countUnique, e], ?_⟩
    obtain ⟨it', t', e', r', _⟩ := eraseIt_ok (c := c.ask q) hK (RepZ.ask.2 r) hL i
    have r' := RepZ.ask.1 r'
    refine ⟨1, t', by simp [Tree.eraseOf, hm, eraseUnique, e, e'], ?_⟩
    rw [if_pos rfl]
    refine ⟨rfl, X, v, Y, hL.symm, ask_equiv.1 hv, r'.toList, ?_⟩
    rw [r'.size, ← hL]
    simp; omega
  · have h0 : (L.any fun v => q.hits (c.key v)) = false := by
      rw [List.any_eq_false]
      intro v hv hq
      exact hn v hv (ask_equiv.2 hq)
    rw [h0]
    exact ⟨by simp [Tree.countOf, hm, Tree.countUnique, e], 0, t, by simp [Tree.eraseOf, hm, eraseUnique, e], by simp⟩

/-- C107: count(q) is the number of matches, erase(q) returns it and leaves exactly the other elements, if
the container has duplicates or at most one of its elements matches. -/
theorem C107_count_erase_partial (h : c.multi = true ∨ L.countP (fun v => q.hits (c.key v)) ≤ 1) :
    t.countOf c q = some (L.countP fun v => q.hits (c.key v)) ∧
    ∃ t', t.eraseOf c q = some (L.countP (fun v => q.hits (c.key v)), t') ∧
      t'.toList = some (L.filter fun v => !q.hits (c.key v)) := by
  by_cases hm : c.multi = true
  · obtain ⟨h1, t', h2, h3, _⟩ := C107_count_erase_multi hK o f a hm
    exact ⟨h1, t', h2, h3⟩
  · have hm : c.multi = false := by simpa using hm
    have h1 : L.countP (fun v => q.hits (c.key v)) ≤ 1 := by
      rcases h with h | h
      · rw [h] at hm; cases hm
      · exact h
    obtain ⟨e1, n, t', e2, e3⟩ := C107_count_erase_one hK o f a hm
    cases ha : L.any (fun v => q.hits (c.key v)) with
    | true =>
      rw [ha, if_pos rfl] at e1 e3
      obtain ⟨rfl, X, v, Y, rfl, hv, ht, _⟩ := e3
      have hX : ∀ x ∈ X ++ Y, q.hits (c.key x) = false := by
        rw [List.countP_append, List.countP_cons_of_pos (p := fun v => q.hits (c.key v)) hv] at h1
        intro x hx
        cases hq : q.hits (c.key x) with
        | false => rfl
        | true =>
          exfalso
          have h2 : 0 < (X ++ Y).countP fun v => q.hits (c.key v) := List.countP_pos_iff.2 ⟨x, hx, hq⟩
          rw [List.countP_append] at h2
          omega
      have e4 : (X ++ v :: Y).countP (fun v => q.hits (c.key v)) = 1 := by
        have h2 : (X ++ Y).countP (fun v => q.hits (c.key v)) = 0 :=
          List.countP_eq_zero.2 fun x hx => by simp [hX x hx]
        rw [List.countP_append] at h2
        rw [List.countP_append, List.countP_cons_of_pos (p := fun v => q.hits (c.key v)) hv]
        omega
      rw [e4]
      refine ⟨e1, t', e2, ?_⟩
      rw [ht, List.filter_append, List.filter_cons_of_neg (by simp [hv]), ← List.filter_append,
        List.filter_eq_self.2 (fun x hx => by simp [hX x hx])]
    | false =>
      rw [ha, if_neg (by simp)] at e1 e3
      obtain ⟨rfl, rfl⟩ := e3
      rw [List.any_eq_false] at ha
      rw [List.countP_eq_zero.2 ha]
      refine ⟨e1, _, e2, ?_⟩
      rw [List.filter_eq_self.2 (fun x hx => by simpa using ha x hx)]
      exact (a.rep hK o).1.toList

end

/-! ### Cases -/

/-- Numbers, 3 to a node; `multi`, `linear` and `cmpTo` as given. -/
def nums (multi linear cmpTo : Bool) : Cfg Nat Nat := ⟨3, multi, linear, cmpTo, id, fun a b => decide (a < b)⟩

theorem nums_order (m l p : Bool) : StrictWeak (nums m l p).lt := by
  constructor
  · simp [nums]
  · intro a b c h1 h2
    simp [nums] at h1 h2 ⊢; omega
  · intro a b c h
    simp [nums] at h ⊢; omega

/-- Looking up the tens: `20 ... 29` match 2. -/
def tens (d : Nat) : Query Nat := ⟨fun k => decide (k / 10 < d), fun k => decide (d < k / 10)⟩

theorem tens_fits (m l p : Bool) (d : Nat) : Fits (nums m l p).lt (tens d) := by
  constructor
  · intro a b h1 h2
    simp [nums, tens] at h1 h2 ⊢; omega
  · intro a b h1 h2
    simp [nums, tens] at h1 h2 ⊢; omega
  · intro a h1
    simp [tens] at h1 ⊢; omega

/-- The calls that fill a container with two levels of nodes. -/
def fill : List (Op Nat Nat) := [.insertAll [5, 21, 38, 12, 29, 25, 44, 23]]

theorem filled (m l p : Bool) : ∃ rs t, execAll (nums m l p) Tree.empty fill = some (rs, t) ∧
    t.toList = some [5, 12, 21, 23, 25, 29, 38, 44] ∧ After (nums m l p) t [5, 12, 21, 23, 25, 29, 38, 44] := by
  have hs : Safe (nums m l p).multi (nums m l p).key (nums m l p).lt [] fill := by
    simp [fill, Safe, Ok]
  cases m <;> cases l <;> cases p <;>
  exact ⟨_, _, by rfl, by decide +kernel, fill, _, hs, by rfl, by decide +kernel⟩

/-- The hypotheses can be met, with four elements that match, in every kind of container. -/
example (m l p : Bool) : ∃ t L, After (nums m l p) t L ∧ 3 ≤ (nums m l p).K ∧ StrictWeak (nums m l p).lt ∧
    Fits (nums m l p).lt (tens 2) ∧ L.countP (fun v => (tens 2).hits v) = 4 := by
  obtain ⟨_, t, _, _, h⟩ := filled m l p
  exact ⟨t, _, h, Nat.le_refl _, nums_order m l p, tens_fits m l p 2, by decide⟩

/-- And with one element that matches. -/
example : ([5, 12, 21, 23, 25, 29, 38, 44] : List Nat).countP (fun v => (tens 3).hits v) = 1 := by decide

/-! ### Refuted -/

/-- C107, refuted: in a set with four elements that match, count(q) is 1, and erase(q) removes one of them
and leaves three. -/
theorem C107_count_erase_refuted : ∃ t L t' L', After (nums false true false) t L ∧ Fits (nums false true false).lt (tens 2) ∧
    L.countP (fun v => (tens 2).hits v) = 4 ∧ t.countOf (nums false true false) (tens 2) = some 1 ∧
    t.eraseOf (nums false true false) (tens 2) = some (1, t') ∧ t'.toList = some L' ∧
    L'.countP (fun v => (tens 2).hits v) = 3 := by
  refine ⟨_, _, _, [5, 12, 23, 25, 29, 38, 44],
    ⟨fill, _, by simp [fill, Safe, Ok], by rfl, by rfl⟩, tens_fits _ _ _ 2, by decide +kernel, by decide +kernel, by rfl, by decide +kernel, by decide⟩

/-- C107, refuted: in a set with a three way comparison whose nodes are searched by halves, lower_bound(q)
is not the first element that matches, so that equal_range(q) misses it. -/
theorem C107_lower_refuted : ∃ t L it, After (nums false false true) t L ∧ Fits (nums false false true).lt (tens 2) ∧
    t.lowerOf (nums false false true) (tens 2) = some it ∧ t.index it ≠ some (L.countP fun v => (tens 2).below v) := by
  refine ⟨_, _, _, ⟨fill, _, by simp [fill, Safe, Ok], by rfl, by rfl⟩, tens_fits _ _ _ 2, by rfl, by decide +kernel⟩

end Gtl.Props.BtreeQuery
