import Verif.Btree.Insert
/-
The insertions of a whole tree, empty or not.
-/
set_option linter.unusedSectionVars false
namespace Gtl.Btree
open Gtl.Spec.SortedSeq
variable {α κ : Type}
variable {c : Cfg α κ} {t t' t'' : Tree α} {H H' H'' : Nat} {ht ht' ht'' : Nat → Nat} {L : List α} {E E' : Nat → Prop} {z : Prop}

/-! ### Iterators by their distance from begin() -/

theorem Good.ne_nil (g : Good c t (Loose z ht) H ht L) : L ≠ [] := by
  rintro rfl
  obtain ⟨A', ld, x, e, hL⟩ := g.rm_last
  obtain ⟨_, e', n0, _⟩ := x.live g.wf
  rw [e] at e'; cases e'
  have := g.full _ _ e n0 (fun h => by have := h.2; omega)
  have h0 : A' ++ ld.vals = [] := hL.symm
  simp only [List.append_eq_nil_iff] at h0
  rw [h0.2] at this
  simp at this

theorem Cur.advance (g : Good c t (Loose z ht) H ht L) : ∀ (M : List α) {X Y : List α} {it : It}, Cur t H it X (M ++ Y) →
    ∃ it', advance t.heap M.length it = some it' ∧ Cur t H it' (X ++ M) Y
  | [], X, Y, it, q => ⟨it, rfl, by simpa using q⟩
  | v :: M, X, Y, it, q => by
    obtain ⟨it1, e1, q1⟩ := Cur.increment g (v := v) (Y := M ++ Y) q
    obtain ⟨it2, e2, q2⟩ := Cur.advance g M q1
    exact ⟨it2, by simp [Btree.advance, e1, e2], by simpa using q2⟩

theorem Good.iterAt_ok (g : Good c t (Loose z ht) H ht L) {X Y : List α} (h : X ++ Y = L) :
    ∃ it, t.iterAt X.length = some it ∧ Cur t H it X Y := by
  obtain ⟨b, eb, qb⟩ := g.begin_ok
  rw [← h] at qb
  obtain ⟨it, e, q⟩ := Cur.advance g X qb
  exact ⟨it, by simp [Tree.iterAt, eb, e], by simpa using q⟩

theorem Cur.iterAt (g : Good c t (Loose z ht) H ht L) {X Y : List α} {it : It} (q : Cur t H it X Y) :
    t.iterAt X.length = some it := by
  obtain ⟨it', e, q'⟩ := g.iterAt_ok (q.total g)
  rw [e, q.unique g q' rfl]

/-- Iterators at different places are different. -/
theorem Cur.inj (g : Good c t (Loose z ht) H ht L) {X Y X' Y' : List α} {it : It} (q : Cur t H it X Y) (q' : Cur t H it X' Y') :
    X = X' ∧ Y = Y' := by
  obtain ⟨k, p, hq⟩ := q
  obtain ⟨k', p', hq'⟩ := q'
  obtain ⟨nd, e1, n0, h1, _⟩ := p.live g.wf
  obtain ⟨nd', e1', _, h1', _⟩ := p'.live g.wf
  have : k = k' := by omega
  subst this
  exact p.det g.wf p'

theorem Cur.stopOrAt (g : Good c t (Loose z ht) H ht L) {X Y : List α} {it en : It} (q : Cur t H it X Y) (qe : Cur t H en L [])
    (p : α → Bool) : stopOrAt t.heap it en p = some (Y.head?.all p) := by
  unfold Btree.stopOrAt
  cases Y with
  | nil =>
    have := q.total g
    rw [if_pos (q.unique g qe (by rw [← this]; simp))]
    rfl
  | cons y Y =>
    rw [if_neg, q.deref g]
    · rfl
    · rintro rfl
      have := (q.inj g qe).2
      cases this

theorem Cur.stopOrBefore (g : Good c t (Loose z ht) H ht L) {X Y : List α} {it b : It} (q : Cur t H it X Y) (qb : Cur t H b [] L)
    (p : α → Bool) : stopOrBefore t.heap it b p = some (X.getLast?.all p) := by
  unfold Btree.stopOrBefore
  rcases List.eq_nil_or_concat X with rfl | ⟨X', x, rfl⟩
  · rw [if_pos (q.unique g qb rfl)]
    rfl
  · rw [if_neg]
    · obtain ⟨it', ed, qd⟩ := Cur.decrement g (X := X') (v := x) (by simpa using q)
      simp [ed, qd.deref g]
    · rintro rfl
      have := (q.inj g qb).1
      simp at this

/-- An empty tree. -/
structure Empty (t : Tree α) : Prop where
  zero : t.heap.get 0 = some emptyNode
  root : t.root = 0
  rightmost : t.rightmost = 0
  size : t.size = 0
  only : ∀ y yd, t.heap.get y = some yd → y = 0

/-- The tree holds the sequence `L`; if `z`, inner nodes may be without values. -/
def RepZ (z : Prop) (c : Cfg α κ) (t : Tree α) (L : List α) : Prop :=
  (Empty t ∧ L = []) ∨ ∃ H ht, Good c t (Loose z ht) H ht L ∧ t.size = L.length

/-- The tree holds the sequence `L`. -/
abbrev Rep (c : Cfg α κ) (t : Tree α) (L : List α) : Prop := RepZ False c t L

theorem Empty.begin (e : Empty t) : t.begin = some ⟨0, 0⟩ := by
  simp [Tree.begin, e.root, e.zero, emptyNode]

theorem Empty.end (e : Empty t) : t.end = some ⟨0, 0⟩ := by
  simp [Tree.end, e.rightmost, e.zero, emptyNode, Node.count]

theorem Empty.iterAt (e : Empty t) : t.iterAt 0 = some ⟨0, 0⟩ := by
  simp [Tree.iterAt, e.begin, advance]

theorem RepZ.size (r : RepZ z c t L) : t.size = L.length := by
  rcases r with ⟨e, rfl⟩ | ⟨_, _, _, h⟩
  · exact e.size
  · exact h

theorem RepZ.good (r : RepZ z c t L) (h : L ≠ []) : ∃ H ht, Good c t (Loose z ht) H ht L ∧ t.size = L.length := by
  rcases r with ⟨e, rfl⟩ | r
  · exact absurd rfl h
  · exact r

theorem RepZ.empty (r : RepZ z c t ([] : List α)) : Empty t := by
  rcases r with ⟨e, _⟩ | ⟨_, _, g, _⟩
  · exact e
  · exact absurd rfl g.ne_nil

theorem rep_empty (c : Cfg α κ) : RepZ z c Tree.empty [] := by
  refine .inl ⟨⟨rfl, rfl, rfl, rfl, ?_⟩, rfl⟩
  intro y yd h
  have := Heap.get_lt h
  simp [Tree.empty] at this
  exact this

theorem RepZ.iterAt (r : RepZ z c t L) {X Y : List α} (h : X ++ Y = L) : ∃ it, t.iterAt X.length = some it := by
  rcases r with ⟨e, rfl⟩ | ⟨_, _, g, _⟩
  · simp only [List.append_eq_nil_iff] at h
    rw [h.1]
    exact ⟨_, e.iterAt⟩
  · obtain ⟨it, h, _⟩ := g.iterAt_ok h
    exact ⟨it, h⟩

/-! ### Insertion -/

/-- What insertion without duplicates does. -/
def InsU (z : Prop) (c : Cfg α κ) (t : Tree α) (L : List α) (v : α) (r : Option ((It × Bool) × Tree α)) : Prop :=
  (∃ X v' Y it, L = X ++ v' :: Y ∧ KeyEquiv c.lt (c.key v') (c.key v) ∧ r = some ((it, false), t) ∧
    t.iterAt X.length = some it) ∨
  (∃ X Y it t', L = X ++ Y ∧ (∀ a ∈ X, c.lt (c.key a) (c.key v) = true) ∧ (∀ b ∈ Y, c.lt (c.key v) (c.key b) = true) ∧
    r = some ((it, true), t') ∧ RepZ z c t' (X ++ v :: Y) ∧ t'.iterAt X.length = some it)

/-- What insertion with duplicates does; `P` says more of the place. -/
def InsM (z : Prop) (c : Cfg α κ) (L : List α) (v : α) (P : List α → List α → Prop) (r : Option (It × Tree α)) : Prop :=
  ∃ X Y it t', L = X ++ Y ∧ (∀ a ∈ X, c.lt (c.key v) (c.key a) = false) ∧ (∀ b ∈ Y, c.lt (c.key b) (c.key v) = false) ∧
    P X Y ∧ r = some (it, t') ∧ RepZ z c t' (X ++ v :: Y) ∧ t'.iterAt X.length = some it

section
variable (hK : 3 ≤ c.K)
include hK

theorem Empty.first (e : Empty t) : Good c (firstRoot t) (· = (firstRoot t).root) 0 (fun _ => 0) [] ∧
    (firstRoot t).size = 0 ∧ (∃ nd, (firstRoot t).heap.get (firstRoot t).root = some nd ∧ nd.vals.length < nd.cap c) := by
  have hlt := Heap.get_lt e.zero
  set P := t.heap.length with hP
  have hd : firstRoot t = { t with heap := t.heap.alloc ⟨P, 0, 1, [], []⟩, root := P, rightmost := P } := by
    simp [firstRoot, e.size, hP]
  rw [hd]
  have g1 : ∀ j, (t.heap.alloc ⟨P, 0, 1, [], []⟩).get j = if j = P then some ⟨P, 0, 1, [], []⟩ else t.heap.get j :=
    Heap.get_alloc _
  have gP : (t.heap.alloc ⟨P, 0, 1, [], []⟩).get P = some ⟨P, 0, 1, [], []⟩ := by rw [g1, if_pos rfl]
  refine ⟨?_, e.size, _, gP, by simp [Node.cap]⟩
  have := leafRoot_good (c := c)
    (t := { t with heap := t.heap.alloc ⟨P, 0, 1, [], []⟩, root := P, rightmost := P }) (nd := ⟨P, 0, 1, [], []⟩)
    (by show (t.heap.alloc _).get 0 = _; rw [g1, if_neg (by omega), e.zero]) (by show P ≠ 0; omega) gP (by
      intro y yd ey
      have ey : (t.heap.alloc ⟨P, 0, 1, [], []⟩).get y = some yd := ey
      rw [g1] at ey
      by_cases hy : y = P
      · exact .inr hy
      · rw [if_neg hy] at ey; exact .inl (e.only y yd ey)) (by simp) rfl (by simp) (by show 1 ≤ c.K; omega) rfl rfl
  exact this

/-- `internal_emplace` at a place of a tree. -/
theorem Good.emplace {v : α} {k n i : Nat} {X Y : List α} (g : Good c t (Loose z ht) H ht L) (hs : t.size = L.length)
    (p : Pt t.heap t.root H k n i X Y) :
    ∃ it' t', internalEmplace c t ⟨n, i⟩ (.val v) = some (it', t') ∧ RepZ z c t' (X ++ v :: Y) ∧
      t'.iterAt X.length = some it' := by
  obtain ⟨it', t', H', ht', e, g', s', q'⟩ := internalEmplace_ok hK (v := v) g (.inl fun _ h => h) p
  refine ⟨it', t', e, .inr ⟨H', ht', g', ?_⟩, q'.iterAt g'⟩
  rw [s', hs, ← g.seq, ← p.total g.wf]
  simp; omega

theorem Empty.emplace {v : α} {k n i : Nat} {X Y : List α} (e : Empty t)
    (p : Pt (firstRoot t).heap (firstRoot t).root 0 k n i X Y) :
    ∃ it' t', internalEmplace c (firstRoot t) ⟨n, i⟩ (.val v) = some (it', t') ∧ RepZ z c t' [v] ∧
      t'.iterAt 0 = some it' ∧ X = [] ∧ Y = [] := by
  obtain ⟨g, s, nd, en, room⟩ := e.first hK
  obtain ⟨nd', en', n0, hk, _⟩ := p.live g.wf
  have hn : n = (firstRoot t).root := by
    rcases g.wf.only_root n nd' en' with h | h
    · exact absurd h n0
    · exact h
  subst hn
  obtain ⟨it', t', H', ht', e', g', s', q'⟩ := internalEmplace_ok hK (v := v) g
    (.inr ⟨hk.symm, fun m h => h, nd, en, room⟩) p
  have ht := p.total g.wf
  rw [g.seq] at ht
  simp only [List.append_eq_nil_iff] at ht
  obtain ⟨rfl, rfl⟩ := ht
  exact ⟨it', t', e', .inr ⟨H', ht', g', by rw [s', s]; rfl⟩, q'.iterAt g', rfl, rfl⟩

theorem insertUnique_ok (o : StrictWeak c.lt) (r : RepZ z c t L) (s : Sorted c.multi c.key c.lt L) (v : α) :
    InsU z c t L v (insertUnique c t (c.key v) (.val v)) := by
  rcases r with ⟨e, rfl⟩ | ⟨H, ht, g, hs⟩
  · obtain ⟨g, sz, nd, en, room⟩ := e.first hK
    obtain ⟨it, eq, found, e1, hf, h⟩ := locate_found_ok g o (by unfold Sorted; split <;> simp) (c.key v)
    cases found with
    | some r =>
      obtain ⟨X, v', Y, ⟨k, q, _⟩, _⟩ := h
      have := q.total g.wf
      rw [g.seq] at this
      simp at this
    | none =>
      obtain ⟨X, Y, p, h1, h2⟩ := h
      obtain ⟨it', t', e', r', i', rfl, rfl⟩ := e.emplace hK (v := v) p
      refine .inr ⟨[], [], it', t', rfl, by simp, by simp, ?_, r', i'⟩
      unfold insertUnique
      simp only [e1, Option.bind_eq_bind, Option.bind_some]
      rw [hf]
      simp [e']
  · have hfr : firstRoot t = t := by
      have := g.ne_nil
      unfold firstRoot
      rw [if_neg]
      rw [hs]
      exact fun h => this (List.length_eq_zero_iff.1 h)
    obtain ⟨it, eq, found, e1, hf, h⟩ := locate_found_ok g o s (c.key v)
    cases found with
    | some r =>
      obtain ⟨X, v', Y, q, hv⟩ := h
      refine .inl ⟨X, v', Y, r, (q.total g).symm, hv, ?_, q.iterAt g⟩
      unfold insertUnique
      simp only [hfr, e1, Option.bind_eq_bind, Option.bind_some]
      rw [hf]
      rfl
    | none =>
      obtain ⟨X, Y, p, h1, h2⟩ := h
      obtain ⟨it', t', e', r', i'⟩ := g.emplace hK (v := v) hs p
      refine .inr ⟨X, Y, it', t', ?_, h1, h2, ?_, r', i'⟩
      · rw [p.total g.wf, g.seq]
      · unfold insertUnique
        simp only [hfr, e1, Option.bind_eq_bind, Option.bind_some]
        rw [hf]
        simp [e']

theorem insertMulti_ok (o : StrictWeak c.lt) (r : RepZ z c t L) (s : Sorted c.multi c.key c.lt L) (v : α) :
    InsM z c L v (fun _ Y => ∀ b ∈ Y, c.lt (c.key v) (c.key b) = true) (insertMulti c t (c.key v) (.val v)) := by
  rcases r with ⟨e, rfl⟩ | ⟨H, ht, g, hs⟩
  · obtain ⟨g, sz, nd, en, room⟩ := e.first hK
    obtain ⟨r, X, Y, e1, hr, ⟨it, e2, k, p, _⟩, hL, hX, hY⟩ :=
      internalUpperBound_ok g o (by unfold Sorted; split <;> simp) (c.key v)
    obtain ⟨it', t', e', r', i', rfl, rfl⟩ := e.emplace hK (v := v) p
    refine ⟨[], [], it', t', rfl, by simp, by simp, by simp, ?_, r', i'⟩
    unfold insertMulti
    simp [e1, e2, e']
  · have hfr : firstRoot t = t := by
      have := g.ne_nil
      unfold firstRoot
      rw [if_neg]
      rw [hs]
      exact fun h => this (List.length_eq_zero_iff.1 h)
    obtain ⟨r, X, Y, e1, hr, ⟨it, e2, k, p, _⟩, hL, hX, hY⟩ := internalUpperBound_ok g o s (c.key v)
    obtain ⟨it', t', e', r', i'⟩ := g.emplace hK (v := v) hs p
    refine ⟨X, Y, it', t', hL.symm, hX, fun b hb => lt_asymm' o (hY b hb), hY, ?_, r', i'⟩
    unfold insertMulti
    simp [hfr, e1, e2, e']

/- A place between a smaller and a greater value is the place. -/
omit hK in
theorem between_strict (o : StrictWeak c.lt) {m : Bool} {X Y : List α} {k : κ} (s : Sorted m c.key c.lt (X ++ Y))
    (hX : ∀ a X', X = X' ++ [a] → c.lt (c.key a) k = true) (hY : ∀ b Y', Y = b :: Y' → c.lt k (c.key b) = true) :
    (∀ a ∈ X, c.lt (c.key a) k = true) ∧ (∀ b ∈ Y, c.lt k (c.key b) = true) := by
  have w := s.weak o
  constructor
  · intro a ha
    rcases List.eq_nil_or_concat X with rfl | ⟨X', x, rfl⟩
    · simp at ha
    · have hx := hX x X' (by simp)
      rcases List.mem_append.1 (by simpa using ha : a ∈ X' ++ [x]) with h | h
      · have := (List.pairwise_append.1 (List.pairwise_append.1 (by simpa using w : (X' ++ [x] ++ Y).Pairwise _)).1).2.2 a h x (by simp)
        rcases o.incomp _ (c.key a) _ hx with h1 | h1
        · rw [this] at h1; cases h1
        · exact h1
      · simp at h; subst h; exact hx
  · intro b hb
    cases Y with
    | nil => simp at hb
    | cons y Y' =>
      have hy := hY y Y' rfl
      rcases List.mem_cons.1 hb with rfl | h
      · exact hy
      · have := (List.pairwise_cons.1 (List.pairwise_append.1 w).2.1).1 b h
        rcases o.incomp _ (c.key b) _ hy with h1 | h1
        · exact h1
        · rw [this] at h1; cases h1

omit hK in
theorem between_weak (o : StrictWeak c.lt) {m : Bool} {X Y : List α} {k : κ} (s : Sorted m c.key c.lt (X ++ Y))
    (hX : ∀ a X', X = X' ++ [a] → c.lt k (c.key a) = false) (hY : ∀ b Y', Y = b :: Y' → c.lt (c.key b) k = false) :
    (∀ a ∈ X, c.lt k (c.key a) = false) ∧ (∀ b ∈ Y, c.lt (c.key b) k = false) := by
  have w := s.weak o
  constructor
  · intro a ha
    rcases List.eq_nil_or_concat X with rfl | ⟨X', x, rfl⟩
    · simp at ha
    · have hx := hX x X' (by simp)
      rcases List.mem_append.1 (by simpa using ha : a ∈ X' ++ [x]) with h | h
      · have := (List.pairwise_append.1 (List.pairwise_append.1 (by simpa using w : (X' ++ [x] ++ Y).Pairwise _)).1).2.2 a h x (by simp)
        cases hk : c.lt k (c.key a) with
        | false => rfl
        | true =>
          rcases o.incomp _ (c.key x) _ hk with h1 | h1
          · rw [hx] at h1; cases h1
          · rw [this] at h1; cases h1
      · simp at h; subst h; exact hx
  · intro b hb
    cases Y with
    | nil => simp at hb
    | cons y Y' =>
      have hy := hY y Y' rfl
      rcases List.mem_cons.1 hb with rfl | h
      · exact hy
      · have := (List.pairwise_cons.1 (List.pairwise_append.1 w).2.1).1 b h
        cases hk : c.lt (c.key b) k with
        | false => rfl
        | true =>
          rcases o.incomp _ (c.key y) _ hk with h1 | h1
          · rw [this] at h1; cases h1
          · rw [hy] at h1; cases h1

theorem insertHintUnique_ok (o : StrictWeak c.lt) (r : RepZ z c t L) (s : Sorted c.multi c.key c.lt L) (v : α)
    {X Y : List α} {pos : It} (hL : X ++ Y = L) (hp : t.iterAt X.length = some pos) :
    InsU z c t L v (insertHintUnique c t pos (c.key v) (.val v)) := by
  have plain := insertUnique_ok hK o r s v
  rcases r with ⟨e, rfl⟩ | ⟨H, ht, g, hs⟩
  · unfold insertHintUnique
    rw [if_pos e.size]
    exact plain
  · have hs0 : t.size ≠ 0 := by
      have := g.ne_nil
      rw [hs]
      exact fun h => this (List.length_eq_zero_iff.1 h)
    obtain ⟨pos', e', q⟩ := g.iterAt_ok hL
    rw [hp] at e'; cases e'
    obtain ⟨en, ee, qe, _⟩ := g.end_ok
    obtain ⟨b, eb, qb⟩ := g.begin_ok
    unfold insertHintUnique
    rw [if_neg hs0]
    simp only [ee, eb, Option.bind_eq_bind, Option.bind_some, q.stopOrAt g qe, q.stopOrBefore g qb]
    by_cases hb : Y.head?.all (fun w => c.lt (c.key v) (c.key w)) = true
    · rw [if_pos hb]
      have hY : ∀ y Y', Y = y :: Y' → c.lt (c.key v) (c.key y) = true := by
        rintro y Y' rfl; simpa using hb
      by_cases hf : X.getLast?.all (fun w => c.lt (c.key w) (c.key v)) = true
      · rw [if_pos hf]
        have hX : ∀ a X', X = X' ++ [a] → c.lt (c.key a) (c.key v) = true := by
          rintro x X' rfl; simpa using hf
        obtain ⟨k, p, _⟩ := q
        obtain ⟨it', t', e', r', i'⟩ := g.emplace hK (v := v) hs p
        obtain ⟨h1, h2⟩ := between_strict o (by rw [hL]; exact s) hX hY
        exact .inr ⟨X, Y, it', t', hL.symm, h1, h2, by simp [e'], r', i'⟩
      · rw [if_neg hf]
        exact plain
    · rw [if_neg hb]
      cases Y with
      | nil => exact absurd rfl hb
      | cons y Y' =>
        rw [q.deref g]
        simp only [Option.bind_some]
        have hb : c.lt (c.key v) (c.key y) = false := by simpa using hb
        by_cases hy : c.lt (c.key y) (c.key v) = true
        · rw [if_pos hy]
          obtain ⟨nx, en', qn⟩ := q.increment g
          rw [en']
          simp only [Option.bind_some, qn.stopOrAt g qe]
          by_cases hf : Y'.head?.all (fun w => c.lt (c.key v) (c.key w)) = true
          · rw [if_pos hf]
            obtain ⟨k, p, _⟩ := qn
            obtain ⟨it', t', e', r', i'⟩ := g.emplace hK (v := v) hs p
            obtain ⟨h1, h2⟩ := between_strict o (X := X ++ [y]) (Y := Y') (k := c.key v) (by simpa [hL] using s)
              (by
                intro a X'' h
                have := List.append_inj_right' h (by simp)
                simp at this
                subst this
                exact hy)
              (by rintro z Z rfl; simpa using hf)
            exact .inr ⟨X ++ [y], Y', it', t', by simp [hL], h1, h2, by simp [e'], r', i'⟩
          · rw [if_neg hf]
            exact plain
        · rw [if_neg hy]
          refine .inl ⟨X, y, Y', pos, hL.symm, ⟨by simpa using hy, hb⟩, rfl, hp⟩

/-- With duplicates: at the hint when the value fits there. -/
theorem insertHintMulti_ok (o : StrictWeak c.lt) (r : RepZ z c t L) (s : Sorted c.multi c.key c.lt L) (v : α)
    {X Y : List α} {pos : It} (hL : X ++ Y = L) (hp : t.iterAt X.length = some pos) :
    InsM z c L v (fun X' _ => (∀ a ∈ X, c.lt (c.key v) (c.key a) = false) → (∀ b ∈ Y, c.lt (c.key b) (c.key v) = false) →
      X' = X) (insertHintMulti c t pos (c.key v) (.val v)) := by
  have plain := insertMulti_ok hK o r s v
  rcases r with ⟨e, rfl⟩ | ⟨H, ht, g, hs⟩
  · unfold insertHintMulti
    rw [if_pos e.size]
    obtain ⟨X', Y', it, t', h1, h2, h3, h4, h5⟩ := plain
    refine ⟨X', Y', it, t', h1, h2, h3, fun _ _ => ?_, h5⟩
    rw [(List.append_eq_nil_iff.1 hL).1, (List.append_eq_nil_iff.1 h1.symm).1]
  · have hs0 : t.size ≠ 0 := by
      have := g.ne_nil
      rw [hs]
      exact fun h => this (List.length_eq_zero_iff.1 h)
    obtain ⟨pos', e', q⟩ := g.iterAt_ok hL
    rw [hp] at e'; cases e'
    obtain ⟨en, ee, qe, _⟩ := g.end_ok
    obtain ⟨b, eb, qb⟩ := g.begin_ok
    -- when the hint does not fit
    have other : ¬ ((∀ a ∈ X, c.lt (c.key v) (c.key a) = false) ∧ (∀ b ∈ Y, c.lt (c.key b) (c.key v) = false)) →
        InsM z c L v (fun X' _ => (∀ a ∈ X, c.lt (c.key v) (c.key a) = false) →
          (∀ b ∈ Y, c.lt (c.key b) (c.key v) = false) → X' = X) (insertMulti c t (c.key v) (.val v)) := by
      intro hn
      obtain ⟨X', Y', it, t', h1, h2, h3, h4, h5⟩ := plain
      exact ⟨X', Y', it, t', h1, h2, h3, fun a b => absurd ⟨a, b⟩ hn, h5⟩
    unfold insertHintMulti
    rw [if_neg hs0]
    simp only [ee, eb, Option.bind_eq_bind, Option.bind_some, q.stopOrAt g qe, q.stopOrBefore g qb]
    by_cases hb : Y.head?.all (fun w => !(c.lt (c.key w) (c.key v))) = true
    · rw [if_pos hb]
      have hY : ∀ y Y', Y = y :: Y' → c.lt (c.key y) (c.key v) = false := by
        rintro y Y' rfl; simpa using hb
      by_cases hf : X.getLast?.all (fun w => !(c.lt (c.key v) (c.key w))) = true
      · rw [if_pos hf]
        have hX : ∀ a X', X = X' ++ [a] → c.lt (c.key v) (c.key a) = false := by
          rintro x X' rfl; simpa using hf
        obtain ⟨k, p, _⟩ := q
        obtain ⟨it', t', e', r', i'⟩ := g.emplace hK (v := v) hs p
        obtain ⟨h1, h2⟩ := between_weak o (by rw [hL]; exact s) hX hY
        exact ⟨X, Y, it', t', hL.symm, h1, h2, fun _ _ => rfl, e', r', i'⟩
      · rw [if_neg hf]
        refine other fun ⟨hX, _⟩ => hf ?_
        rcases List.eq_nil_or_concat X with rfl | ⟨X', x, rfl⟩
        · rfl
        · simpa using hX x (by simp)
    · rw [if_neg hb]
      cases Y with
      | nil => exact absurd rfl hb
      | cons y Y' =>
        have hy : c.lt (c.key y) (c.key v) = true := by simpa using hb
        have no : ¬ ((∀ a ∈ X, c.lt (c.key v) (c.key a) = false) ∧ (∀ b ∈ y :: Y', c.lt (c.key b) (c.key v) = false)) := by
          intro ⟨_, h⟩
          rw [h y (by simp)] at hy; cases hy
        obtain ⟨nx, en', qn⟩ := q.increment g
        rw [en']
        simp only [Option.bind_some, qn.stopOrAt g qe]
        by_cases hf : Y'.head?.all (fun w => !(c.lt (c.key w) (c.key v))) = true
        · rw [if_pos hf]
          obtain ⟨k, p, _⟩ := qn
          obtain ⟨it', t', e', r', i'⟩ := g.emplace hK (v := v) hs p
          obtain ⟨h1, h2⟩ := between_weak o (X := X ++ [y]) (Y := Y') (k := c.key v) (by simpa [hL] using s)
            (by
              intro a X'' h
              have := List.append_inj_right' h (by simp)
              simp at this
              subst this
              exact lt_asymm' o hy)
            (by rintro z Z rfl; simpa using hf)
          exact ⟨X ++ [y], Y', it', t', by simp [hL], h1, h2, fun a b => absurd ⟨a, b⟩ no, e', r', i'⟩
        · rw [if_neg hf]
          exact other no

end
end Gtl.Btree
