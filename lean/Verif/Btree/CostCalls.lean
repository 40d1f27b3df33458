import Verif.Btree.CostBound
/-
The comparisons of each call.
-/
set_option linter.unusedSectionVars false
namespace Gtl.Btree
open Gtl.Spec.SortedSeq
variable {α κ : Type}
variable {c : Cfg α κ} {t t' : Tree α} {L : List α}

theorem Reach.mono {A B : Nat} (h : Reach c t A) (hl : A ≤ B) : Reach c t B :=
  ⟨fun k => (h.plain k).mono hl, fun k => (h.three k).mono hl, fun k => (h.upper k).mono hl⟩

theorem Empty.reach (e : Empty t) : Reach c t 0 :=
  reach_leaf (nd := emptyNode) (by rw [e.root]; exact e.zero) rfl rfl

theorem reach_first (h : t.size = 0) : Reach c (firstRoot t) 0 := by
  unfold firstRoot
  rw [if_pos h]
  exact reach_leaf (nd := ⟨t.heap.length, 0, 1, [], []⟩) (by simp only [Heap.get_alloc, if_true]) rfl rfl

theorem first_same (h : ¬ t.size = 0) : firstRoot t = t := by
  unfold firstRoot
  rw [if_neg h]

/-- The way down takes a number of comparisons logarithmic in the size. -/
theorem RepZ.reach (r : Rep c t L) : Reach c t (c.node * Nat.log2 (L.length + 1)) := by
  rcases r with ⟨e, rfl⟩ | ⟨H, ht, g, hs⟩
  · exact e.reach.mono (Nat.zero_le _)
  · rw [← hs]
    exact (g.balanced hs).reach

theorem RepZ.reachFirst (r : Rep c t L) : Reach c (firstRoot t) (c.node * Nat.log2 (L.length + 1)) := by
  by_cases h : t.size = 0
  · exact (reach_first h).mono (Nat.zero_le _)
  · rw [first_same h]
    exact r.reach

section
variable {B : Nat} (h : Reach c t B) (k : κ)
include h

theorem internalLocate_atMost : AtMost (internalLocateW c t k) B :=
  .ite (fun _ => h.three k) fun _ => (h.plain k).bind (locatePlain_same c _ k _ _) (B := 0) fun _ _ => .pure

theorem internalLowerBound_atMost : AtMost (internalLowerBoundW c t k) B :=
  (h.plain k).bind (locatePlain_same c _ k _ _) (B := 0) fun _ _ => .free

theorem internalUpperBound_atMost : AtMost (internalUpperBoundW c t k) B :=
  (h.upper k).bind (locateUpper_same c _ k _ _) (B := 0) fun _ _ => .free

omit h in
theorem locateFound_atMost (it : It) (eq : Bool) : AtMost (locateFoundW c t k it eq) 1 := by
  refine .ite (fun _ => .pure) fun _ => .bindFree fun o _ => ?_
  cases o with
  | none => exact .pure
  | some last => exact .bindFree fun v _ => .bindTick .pure

theorem internalFind_atMost : AtMost (internalFindW c t k) (B + 1) :=
  (internalLocate_atMost h k).bind (internalLocate_same c t k) fun _ _ => locateFound_atMost k _ _

theorem find_atMost : AtMost (t.findW c k) (B + 1) :=
  (internalFind_atMost h k).bind (internalFind_same c t k) (B := 0) fun _ _ => .free

theorem lowerBound_atMost : AtMost (t.lowerBoundW c k) B :=
  (internalLowerBound_atMost h k).bind (internalLowerBound_same c t k) (B := 0) fun _ _ => .free

theorem upperBound_atMost : AtMost (t.upperBoundW c k) B :=
  (internalUpperBound_atMost h k).bind (internalUpperBound_same c t k) (B := 0) fun _ _ => .free

theorem eraseUnique_atMost : AtMost (eraseUniqueW c t k) (B + 1) := by
  refine (internalFind_atMost h k).bind (internalFind_same c t k) (B := 0) fun o _ => ?_
  cases o with
  | none => exact .pure
  | some it => exact .bindFree fun _ _ => .pure

theorem eraseMulti_atMost : AtMost (eraseMultiW c t k) (B + B) := by
  refine (internalLowerBound_atMost h k).bind (internalLowerBound_same c t k) fun o _ => ?_
  cases o with
  | none => exact .pure
  | some it =>
    exact (internalUpperBound_atMost h k).bind (internalUpperBound_same c t k) (B := 0) fun _ _ =>
      .bindFree fun _ _ => .bindFree fun _ _ => .pure

end

section
variable {B : Nat} (h : Reach c (firstRoot t) B) (k : κ) (a : Arg α)
include h

theorem insertUnique_atMost : AtMost (insertUniqueW c t k a) (B + 1) := by
  refine (internalLocate_atMost h k).bind (internalLocate_same c _ k) fun r _ => ?_
  refine (locateFound_atMost k _ _).bind (locateFound_same c _ k _ _) (B := 0) fun o _ => ?_
  cases o with
  | some it => exact .pure
  | none => exact .bindFree fun _ _ => .pure

theorem insertMulti_atMost : AtMost (insertMultiW c t k a) B :=
  (internalUpperBound_atMost h k).bind (internalUpperBound_same c _ k) (B := 0) fun _ _ => .bindFree fun _ _ => .free

omit h in
theorem stopOrAt_atMost (hp : Heap α) (it stop : It) (p : α → Bool) : AtMost (stopOrAtW hp it stop p) 1 :=
  .ite (fun _ => .pure) fun _ => .bindFree fun _ _ => .bindTick .pure

omit h in
theorem stopOrAt_stop (hp : Heap α) (it : It) (p : α → Bool) : AtMost (stopOrAtW hp it it p) 0 := by
  unfold stopOrAtW
  rw [if_pos rfl]
  exact .pure

omit h in
theorem stopOrBefore_atMost (hp : Heap α) (it stop : It) (p : α → Bool) : AtMost (stopOrBeforeW hp it stop p) 1 :=
  .ite (fun _ => .pure) fun _ => .bindFree fun _ _ => .bindFree fun _ _ => .bindTick .pure

theorem insertHintUnique_atMost (pos : It) : AtMost (insertHintUniqueW c t pos k a) (B + 4) := by
  refine .ite (fun _ => (insertUnique_atMost h k a).mono (by omega)) fun _ => .bindFree fun e _ => .bindFree fun b _ => ?_
  refine ((stopOrAt_atMost _ _ _ _).bind (stopOrAt_same _ _ _ _) (B := B + 3) fun x _ => .ite (fun _ => ?_) fun _ => ?_).mono (by omega)
  · refine ((stopOrBefore_atMost _ _ _ _).bind (stopOrBefore_same _ _ _ _) (B := B + 1) fun x _ => ?_).mono (by omega)
    exact .ite (fun _ => .bindFree fun _ _ => .pure) fun _ => insertUnique_atMost h k a
  · refine .bindFree fun v _ => .bindTick (.ite (fun _ => .bindFree fun next _ => ?_) fun _ => .pure)
    refine ((stopOrAt_atMost _ _ _ _).bind (stopOrAt_same _ _ _ _) (B := B + 1) fun x _ => ?_).mono (by omega)
    exact .ite (fun _ => .bindFree fun _ _ => .pure) fun _ => insertUnique_atMost h k a

theorem insertHintMulti_atMost (pos : It) : AtMost (insertHintMultiW c t pos k a) (B + 2) := by
  refine .ite (fun _ => (insertMulti_atMost h k a).mono (by omega)) fun _ => .bindFree fun e _ => .bindFree fun b _ => ?_
  refine ((stopOrAt_atMost _ _ _ _).bind (stopOrAt_same _ _ _ _) (B := B + 1) fun x _ => .ite (fun _ => ?_) fun _ => ?_).mono (by omega)
  · refine ((stopOrBefore_atMost _ _ _ _).bind (stopOrBefore_same _ _ _ _) (B := B) fun x _ => ?_).mono (by omega)
    exact .ite (fun _ => .free) fun _ => insertMulti_atMost h k a
  · refine .bindFree fun next _ => ?_
    refine ((stopOrAt_atMost _ _ _ _).bind (stopOrAt_same _ _ _ _) (B := B) fun x _ => ?_).mono (by omega)
    exact .ite (fun _ => .free) fun _ => insertMulti_atMost h k a

/-- With the end as hint. -/
theorem insertEndUnique_atMost {e : It} (he : t.end = some e) : AtMost (insertHintUniqueW c t e k a) (B + 2) := by
  refine .ite (fun _ => (insertUnique_atMost h k a).mono (by omega)) fun _ => .bindFree fun e' he' => .bindFree fun b _ => ?_
  rw [he] at he'; cases he'
  refine ((stopOrAt_stop _ _ _).bind (stopOrAt_same _ _ _ _) (B := B + 2) fun x hx => ?_).mono (by omega)
  unfold stopOrAt at hx
  rw [if_pos rfl] at hx; cases hx
  rw [if_pos rfl]
  refine ((stopOrBefore_atMost _ _ _ _).bind (stopOrBefore_same _ _ _ _) (B := B + 1) fun x _ => ?_).mono (by omega)
  exact .ite (fun _ => .bindFree fun _ _ => .pure) fun _ => insertUnique_atMost h k a

theorem insertEndMulti_atMost {e : It} (he : t.end = some e) : AtMost (insertHintMultiW c t e k a) (B + 2) :=
  insertHintMulti_atMost h k a e

end

/-! ### Where the hint is right -/

theorem sorted_between {X Y : List α} {v : α} (s : Sorted c.multi c.key c.lt (X ++ v :: Y)) :
    (∀ a ∈ X, if c.multi then c.lt (c.key v) (c.key a) = false else c.lt (c.key a) (c.key v) = true) ∧
    (∀ b ∈ Y, if c.multi then c.lt (c.key b) (c.key v) = false else c.lt (c.key v) (c.key b) = true) := by
  unfold Sorted at s
  cases hm : c.multi with
  | true =>
    rw [if_pos hm, List.pairwise_append, List.pairwise_cons] at s
    exact ⟨fun a ha => by simpa using s.2.2 a ha v (by simp), fun b hb => by simpa using s.2.1.1 b hb⟩
  | false =>
    rw [if_neg (by rw [hm]; simp), List.pairwise_append, List.pairwise_cons] at s
    exact ⟨fun a ha => by simpa using s.2.2 a ha v (by simp), fun b hb => by simpa using s.2.1.1 b hb⟩

theorem all_head {p : α → Bool} : ∀ {Y : List α}, (∀ b ∈ Y, p b = true) → Y.head?.all p = true
  | [], _ => rfl
  | b :: _, h => h b (by simp)

theorem all_last {p : α → Bool} {X : List α} (h : ∀ a ∈ X, p a = true) : X.getLast?.all p = true := by
  cases e : X.getLast? with
  | none => rfl
  | some a => exact h a (List.mem_of_getLast? e)

section
variable (r : Rep c t L) {X Y : List α} {pos : It} (hL : X ++ Y = L) (hp : t.iterAt X.length = some pos) {v : α}
  (s : Sorted c.multi c.key c.lt (X ++ v :: Y)) (a : Arg α)
include r hL hp s

theorem insertHintUnique_right (hm : c.multi = false) : AtMost (insertHintUniqueW c t pos (c.key v) a) (if Y = [] then 1 else 2) := by
  obtain ⟨hX, hY⟩ := sorted_between s
  simp only [hm] at hX hY
  rcases r with ⟨e, rfl⟩ | ⟨H, ht, g, hs⟩
  · refine .ite (fun _ => ?_) fun h => absurd e.size h
    refine (insertUnique_atMost (reach_first e.size) _ a).mono ?_
    split <;> omega
  · have hs0 : ¬ t.size = 0 := by
      rw [hs]
      exact fun h => g.ne_nil (List.length_eq_zero_iff.1 h)
    obtain ⟨pos', e', q⟩ := g.iterAt_ok hL
    rw [hp] at e'; cases e'
    obtain ⟨en, ee, qe, _⟩ := g.end_ok
    obtain ⟨b, eb, qb⟩ := g.begin_ok
    refine .ite (fun h => absurd h hs0) fun _ => .bindFree fun e1 he1 => .bindFree fun b1 hb1 => ?_
    rw [ee] at he1; cases he1
    rw [eb] at hb1; cases hb1
    have first : AtMost (stopOrAtW t.heap pos en fun w => c.lt (c.key v) (c.key w)) (if Y = [] then 0 else 1) := by
      by_cases hy : Y = []
      · subst hy
        rw [if_pos rfl]
        rw [q.unique g qe (by rw [← hL]; simp)]
        exact stopOrAt_stop _ _ _
      · rw [if_neg hy]
        exact stopOrAt_atMost _ _ _ _
    refine (first.bind (stopOrAt_same _ _ _ _) (B := 1) fun x hx => ?_).mono (by split <;> omega)
    rw [q.stopOrAt g qe, all_head (by simpa using hY)] at hx
    cases hx
    rw [if_pos rfl]
    refine (stopOrBefore_atMost _ _ _ _).bind (stopOrBefore_same _ _ _ _) (B := 0) fun x hx => ?_
    rw [q.stopOrBefore g qb, all_last (by simpa using hX)] at hx
    cases hx
    rw [if_pos rfl]
    exact .bindFree fun _ _ => .pure

theorem insertHintMulti_right (hm : c.multi = true) : AtMost (insertHintMultiW c t pos (c.key v) a) (if Y = [] then 1 else 2) := by
  obtain ⟨hX, hY⟩ := sorted_between s
  simp only [hm, if_true] at hX hY
  rcases r with ⟨e, rfl⟩ | ⟨H, ht, g, hs⟩
  · refine .ite (fun _ => ?_) fun h => absurd e.size h
    exact (insertMulti_atMost (reach_first e.size) _ a).mono (Nat.zero_le _)
  · have hs0 : ¬ t.size = 0 := by
      rw [hs]
      exact fun h => g.ne_nil (List.length_eq_zero_iff.1 h)
    obtain ⟨pos', e', q⟩ := g.iterAt_ok hL
    rw [hp] at e'; cases e'
    obtain ⟨en, ee, qe, _⟩ := g.end_ok
    obtain ⟨b, eb, qb⟩ := g.begin_ok
    refine .ite (fun h => absurd h hs0) fun _ => .bindFree fun e1 he1 => .bindFree fun b1 hb1 => ?_
    rw [ee] at he1; cases he1
    rw [eb] at hb1; cases hb1
    have first : AtMost (stopOrAtW t.heap pos en fun w => !(c.lt (c.key w) (c.key v))) (if Y = [] then 0 else 1) := by
      by_cases hy : Y = []
      · subst hy
        rw [if_pos rfl]
        rw [q.unique g qe (by rw [← hL]; simp)]
        exact stopOrAt_stop _ _ _
      · rw [if_neg hy]
        exact stopOrAt_atMost _ _ _ _
    refine (first.bind (stopOrAt_same _ _ _ _) (B := 1) fun x hx => ?_).mono (by split <;> omega)
    rw [q.stopOrAt g qe, all_head (by simpa using hY)] at hx
    cases hx
    rw [if_pos rfl]
    refine (stopOrBefore_atMost _ _ _ _).bind (stopOrBefore_same _ _ _ _) (B := 0) fun x hx => ?_
    rw [q.stopOrBefore g qb, all_last (by simpa using hX)] at hx
    cases hx
    rw [if_pos rfl]
    exact .free

end

/-! ### Ranges -/

theorem addUnique_length (L : List α) (v : α) : (addUnique c.key c.lt L v).2.2.length ≤ L.length + 1 := by
  unfold addUnique
  dsimp only
  split
  · simp
  · exact List.length_insertIdx_le_succ

theorem addMulti_length (L : List α) (v : α) : (addMulti c.key c.lt L v).2.length ≤ L.length + 1 := by
  unfold addMulti
  exact List.length_insertIdx_le_succ

theorem lookup_mono {node m n : Nat} (h : m ≤ n) : lookup node m ≤ lookup node n := by
  unfold lookup
  have : Nat.log2 (m + 1) ≤ Nat.log2 (n + 1) := by
    rw [Nat.le_log2 (by omega)]
    exact Nat.le_trans (Nat.log2_self_le (by omega)) (by omega)
  have := Nat.mul_le_mul_left node this
  omega

section
variable (hK : 3 ≤ c.K) (o : StrictWeak c.lt)
include hK o

theorem insertAllUnique_atMost (hm : c.multi = false) : ∀ (vs : List α) {t : Tree α} {L : List α} {N : Nat}, Rep c t L →
    Sorted c.multi c.key c.lt L → L.length + vs.length ≤ N →
    AtMost (insertAllUniqueW c t vs) (vs.length * (lookup c.node N + 1))
  | [], t, L, N, r, s, h => .pure
  | v :: vs, t, L, N, r, s, h => by
    rw [List.length_cons] at h ⊢
    rw [Nat.add_mul, Nat.one_mul, Nat.add_comm (vs.length * _)]
    refine .bindFree fun e he => ?_
    have hi := (insertEndUnique_atMost r.reachFirst (c.key v) (.val v) he).mono (B := lookup c.node N + 1) (by
      have := lookup_mono (node := c.node) (show L.length ≤ N by omega)
      unfold lookup at this ⊢
      omega)
    refine hi.bind (insertHintUnique_same c t _ e _) fun x hx => ?_
    obtain ⟨e', ee, ie⟩ := r.end_ok
    rw [he] at ee; cases ee
    obtain ⟨it, t1, e1, r1, _, s1, _⟩ := insertHintUnique_add hK o r s hm (Nat.le_refl _) ie v
    rw [e1] at hx; cases hx
    have := addUnique_length (c := c) L v
    exact insertAllUnique_atMost hm vs r1 s1 (by omega)

theorem insertAllMulti_atMost (hm : c.multi = true) : ∀ (vs : List α) {t : Tree α} {L : List α} {N : Nat}, Rep c t L →
    Sorted c.multi c.key c.lt L → L.length + vs.length ≤ N →
    AtMost (insertAllMultiW c t vs) (vs.length * (lookup c.node N + 1))
  | [], t, L, N, r, s, h => .pure
  | v :: vs, t, L, N, r, s, h => by
    rw [List.length_cons] at h ⊢
    rw [Nat.add_mul, Nat.one_mul, Nat.add_comm (vs.length * _)]
    refine .bindFree fun e he => ?_
    have hi := (insertEndMulti_atMost r.reachFirst (c.key v) (.val v) he).mono (B := lookup c.node N + 1) (by
      have := lookup_mono (node := c.node) (show L.length ≤ N by omega)
      unfold lookup at this ⊢
      omega)
    refine hi.bind (insertHintMulti_same c t _ e _) fun x hx => ?_
    obtain ⟨it, t1, e1, r1, s1⟩ := insertEndMulti_add hK o r s hm he v
    rw [e1] at hx; cases hx
    have := addMulti_length (c := c) L v
    exact insertAllMulti_atMost hm vs r1 s1 (by omega)

/-- The part of a sorted sequence before and including an element. -/
theorem sorted_first {v : α} {vs : List α} (s : Sorted c.multi c.key c.lt (L ++ v :: vs)) :
    Sorted c.multi c.key c.lt L ∧ Sorted c.multi c.key c.lt (L ++ v :: []) :=
  ⟨s.sub (List.sublist_append_left _ _), s.sub ((List.Sublist.refl _).append (by simp))⟩

theorem insertAllUnique_sorted (hm : c.multi = false) : ∀ (vs : List α) {t : Tree α} {L : List α}, Rep c t L →
    Sorted c.multi c.key c.lt (L ++ vs) → AtMost (insertAllUniqueW c t vs) vs.length
  | [], t, L, r, s => .pure
  | v :: vs, t, L, r, s => by
    rw [List.length_cons, Nat.add_comm]
    obtain ⟨s0, s1⟩ := sorted_first hK o s
    obtain ⟨e, ee, ie⟩ := r.end_ok
    refine .bindFree fun e' he => ?_
    rw [ee] at he; cases he
    have hi := insertHintUnique_right r (X := L) (Y := []) (by simp) ie s1 (.val v) hm
    rw [if_pos rfl] at hi
    refine hi.bind (insertHintUnique_same c t _ e _) fun x hx => ?_
    obtain ⟨it, t1, e1, r1, _, _, _⟩ := insertHintUnique_add hK o r s0 hm (Nat.le_refl _) ie v
    rw [e1] at hx; cases hx
    have h1 := (sorted_between s1).1
    simp only [hm] at h1
    have h2 := addUnique_new (key := c.key) o (X := L) (Y := []) (v := v) (by simpa using h1) (by simp)
    rw [List.append_nil] at h2
    rw [h2] at r1
    exact insertAllUnique_sorted hm vs r1 (by simpa using s)

theorem insertAllMulti_sorted (hm : c.multi = true) : ∀ (vs : List α) {t : Tree α} {L : List α}, Rep c t L →
    Sorted c.multi c.key c.lt (L ++ vs) → AtMost (insertAllMultiW c t vs) vs.length
  | [], t, L, r, s => .pure
  | v :: vs, t, L, r, s => by
    rw [List.length_cons, Nat.add_comm]
    obtain ⟨s0, s1⟩ := sorted_first hK o s
    obtain ⟨e, ee, ie⟩ := r.end_ok
    refine .bindFree fun e' he => ?_
    rw [ee] at he; cases he
    have hi := insertHintMulti_right r (X := L) (Y := []) (by simp) ie s1 (.val v) hm
    rw [if_pos rfl] at hi
    refine hi.bind (insertHintMulti_same c t _ e _) fun x hx => ?_
    obtain ⟨it, t1, e1, r1, _⟩ := insertEndMulti_add hK o r s0 hm ee v
    rw [e1] at hx; cases hx
    have h1 := (sorted_between s1).1
    simp only [hm, if_true] at h1
    have h2 := addMulti_at (key := c.key) (lt := c.lt) (X := L) (Y := []) (v := v) h1 (by simp)
    rw [List.append_nil] at h2
    rw [h2] at r1
    exact insertAllMulti_sorted hm vs r1 (by simpa using s)

/-! ### Histories -/

theorem AtMost.from0 {β : Type} {m : Cnt β} {B n : Nat} {b : β} (h : AtMost m B) (e : count m = some (b, n)) : n ≤ B := by
  have := h 0 b n e
  omega

/-- Each call makes no more comparisons than it may. -/
theorem exec_cheap (hh : Holds c t L) (op : Op α κ) (hok : Ok c.key L op) {x : Res α × Tree α} {n : Nat}
    (e : count (execW c t op) = some (x, n)) : Cheap c.multi c.key c.lt c.node L op n := by
  obtain ⟨r, s⟩ := hh
  have R := r.reach
  have RF := r.reachFirst
  have two : 2 * lookup c.node L.length = lookup c.node L.length + lookup c.node L.length := by omega
  cases op with
  | insert v =>
    refine AtMost.from0 hK o (B := lookup c.node L.length) (.ite (fun _ => ?_) fun _ => ?_) e
    · exact ((insertMulti_atMost RF _ _).bind (insertMulti_same c t _ _) (B := 1) fun _ _ => .bindFree fun _ _ => .pure)
    · exact ((insertUnique_atMost RF _ _).bind (insertUnique_same c t _ _) (B := 0) fun _ _ => .bindFree fun _ _ => .pure)
  | insertHint i v =>
    constructor
    · refine AtMost.from0 hK o (B := lookup c.node L.length + 3) (.bindFree fun pos _ => .ite (fun _ => ?_) fun _ => ?_) e
      · exact (((insertHintMulti_atMost RF _ _ pos).bind (insertHintMulti_same c t _ _ _) (B := 0) fun _ _ =>
          .bindFree fun _ _ => .pure)).mono (by unfold lookup; omega)
      · exact (((insertHintUnique_atMost RF _ _ pos).bind (insertHintUnique_same c t _ _ _) (B := 0) fun _ _ =>
          .bindFree fun _ _ => .pure)).mono (by unfold lookup; omega)
    · intro hs
      have hl : (L.take i).length = i := by simp; exact hok
      have hs : Sorted c.multi c.key c.lt (L.take i ++ v :: L.drop i) := by
        have := insertIdx_split (X := L.take i) (Y := L.drop i) (v := v)
        rw [List.take_append_drop, hl] at this
        rwa [this] at hs
      refine AtMost.from0 hK o (B := 2) (.bindFree fun pos hp => .ite (fun hm => ?_) fun hm => ?_) e
      · exact ((insertHintMulti_right r (X := L.take i) (Y := L.drop i) (by simp) (by rw [hl]; exact hp) hs (.val v) hm).mono
          (B := 2) (by split <;> omega)).bind (insertHintMulti_same c t _ _ _) (B := 0) fun _ _ => .bindFree fun _ _ => .pure
      · exact ((insertHintUnique_right r (X := L.take i) (Y := L.drop i) (by simp) (by rw [hl]; exact hp) hs (.val v)
          (by simpa using hm)).mono (B := 2) (by split <;> omega)).bind (insertHintUnique_same c t _ _ _) (B := 0)
          fun _ _ => .bindFree fun _ _ => .pure
  | insertAll vs =>
    have same : Same (if c.multi then insertAllMultiW c t vs else insertAllUniqueW c t vs)
        (if c.multi then insertAllMulti c t vs else insertAllUnique c t vs) :=
      .ite (fun _ => insertAllMulti_same c vs t) fun _ => insertAllUnique_same c vs t
    constructor
    · have h : AtMost (if c.multi then insertAllMultiW c t vs else insertAllUniqueW c t vs)
          (vs.length * (lookup c.node (L.length + vs.length) + 1)) :=
        .ite (fun hm => insertAllMulti_atMost hK o hm vs r s (Nat.le_refl _))
          fun hm => insertAllUnique_atMost hK o (by simpa using hm) vs r s (Nat.le_refl _)
      exact AtMost.from0 hK o (h.bind same (B := 0) fun _ _ => .pure) e
    · intro hs
      have h : AtMost (if c.multi then insertAllMultiW c t vs else insertAllUniqueW c t vs) vs.length :=
        .ite (fun hm => insertAllMulti_sorted hK o hm vs r hs)
          fun hm => insertAllUnique_sorted hK o (by simpa using hm) vs r hs
      exact AtMost.from0 hK o (h.bind same (B := 0) fun _ _ => .pure) e
  | eraseKey k =>
    unfold Cheap
    have same : Same (if c.multi then eraseMultiW c t k else eraseUniqueW c t k)
        (if c.multi then eraseMulti c t k else eraseUnique c t k) :=
      .ite (fun _ => eraseMulti_same c t k) fun _ => eraseUnique_same c t k
    have h : AtMost (if c.multi then eraseMultiW c t k else eraseUniqueW c t k)
        (if c.multi then 2 * lookup c.node L.length else lookup c.node L.length) := by
      by_cases hm : c.multi = true
      · simp only [if_pos hm]
        exact (eraseMulti_atMost R k).mono (by unfold lookup; omega)
      · simp only [if_neg hm]
        exact eraseUnique_atMost R k
    exact AtMost.from0 hK o (h.bind same (B := 0) fun _ _ => .pure) e
  | extractKey k =>
    exact AtMost.from0 hK o ((find_atMost R k).bind (find_same c t k) (B := 0) fun _ _ => .free) e
  | find k =>
    exact AtMost.from0 hK o ((find_atMost R k).bind (find_same c t k) (B := 0) fun _ _ => .bindFree fun _ _ => .pure) e
  | contains k =>
    exact AtMost.from0 hK o ((find_atMost R k).bind (find_same c t k) (B := 0) fun _ _ => .bindFree fun _ _ => .pure) e
  | count k =>
    unfold Cheap
    by_cases hm : c.multi = true
    · rw [if_pos hm, two]
      simp only [execW, if_pos hm] at e
      exact AtMost.from0 hK o (((lowerBound_atMost R k).mono (Nat.le_succ _)).bind (lowerBound_same c t k) fun _ _ =>
        ((upperBound_atMost R k).bind (upperBound_same c t k) (B := 1) fun _ _ => .bindFree fun _ _ => .pure)) e
    · rw [if_neg hm]
      simp only [execW, if_neg hm] at e
      exact AtMost.from0 hK o ((internalFind_atMost R k).bind (internalFind_same c t k) (B := 0) fun _ _ => .pure) e
  | lowerBound k =>
    exact AtMost.from0 hK o ((lowerBound_atMost R k).bind (lowerBound_same c t k) (B := 1) fun _ _ => .bindFree fun _ _ => .pure) e
  | upperBound k =>
    exact AtMost.from0 hK o ((upperBound_atMost R k).bind (upperBound_same c t k) (B := 1) fun _ _ => .bindFree fun _ _ => .pure) e
  | equalRange k =>
    unfold Cheap
    rw [two]
    exact AtMost.from0 hK o (((lowerBound_atMost R k).mono (Nat.le_succ _)).bind (lowerBound_same c t k) fun _ _ =>
      ((upperBound_atMost R k).bind (upperBound_same c t k) (B := 1) fun _ _ => .bindFree fun _ _ => .bindFree fun _ _ => .pure)) e
  | _ => exact Nat.le_zero.1 (AtMost.from0 hK o .free e)

theorem execAll_cheap : ∀ (ops : List (Op α κ)) {t : Tree α} {L : List α}, Holds c t L → Safe c.multi c.key c.lt L ops →
    ∃ rs t' L', execAllW c t ops = some (rs, t') ∧ execAll c t ops = some (rs.map Prod.fst, t') ∧
      CheapRun c.multi c.key c.lt c.node L ops rs L' ∧ Holds c t' L'
  | [], t, L, h, _ => ⟨[], t, L, rfl, rfl, .nil, h⟩
  | op :: ops, t, L, h, sf => by
    obtain ⟨r, t1, L1, e1, s1, h1⟩ := exec_ok hK o h op sf.1
    obtain ⟨rs, t2, L2, e2, e2', s2, h2⟩ := execAll_cheap ops h1 (sf.2 r L1 s1)
    have same := exec_same c t op 0
    cases em : execW c t op 0 with
    | none => rw [em, e1] at same; cases same
    | some x =>
      obtain ⟨⟨r', t'⟩, n⟩ := x
      rw [em, e1] at same
      cases same
      have ec : count (execW c t op) = some ((r, t1), n) := em
      exact ⟨(r, n) :: rs, t2, L2, by simp [execAllW, ec, e2], by simp [execAll, e1, e2'],
        .cons s1 (exec_cheap hK o h op sf.1 ec) s2, h2⟩

end

end Gtl.Btree
