import Verif.Btree.EraseRange
import Verif.Btree.Machine
/-
The functions of whole containers, empty or not, with iterators given by their
distance from begin().
-/
set_option linter.unusedSectionVars false
namespace Gtl.Btree
open Gtl.Spec.SortedSeq
variable {α κ : Type}
variable {c : Cfg α κ} {t t' : Tree α} {H : Nat} {ht : Nat → Nat} {L : List α} {z : Prop}

/-! ### Iterators -/

theorem RepZ.begin_ok (r : RepZ z c t L) : ∃ b, t.begin = some b ∧ t.iterAt 0 = some b := by
  rcases r with ⟨e, rfl⟩ | ⟨_, _, g, _⟩
  · exact ⟨_, e.begin, e.iterAt⟩
  · obtain ⟨b, eb, q⟩ := g.begin_ok
    exact ⟨b, eb, q.iterAt g⟩

theorem RepZ.end_ok (r : RepZ z c t L) : ∃ e, t.end = some e ∧ t.iterAt L.length = some e := by
  rcases r with ⟨e, rfl⟩ | ⟨_, _, g, _⟩
  · exact ⟨_, e.end, e.iterAt⟩
  · obtain ⟨e, ee, q, _⟩ := g.end_ok
    exact ⟨e, ee, q.iterAt g⟩

theorem RepZ.cur (r : RepZ z c t L) {X Y : List α} {it : It} (hL : X ++ Y = L) (hi : t.iterAt X.length = some it)
    (hne : L ≠ []) : ∃ H ht, Good c t (Loose z ht) H ht L ∧ t.size = L.length ∧ Cur t H it X Y := by
  obtain ⟨H, ht, g, hs⟩ := r.good hne
  obtain ⟨it', e, q⟩ := g.iterAt_ok hL
  rw [hi] at e; cases e
  exact ⟨H, ht, g, hs, q⟩

theorem RepZ.distance_ok (r : RepZ z c t L) {X M Z : List α} {a b : It} (hL : X ++ M ++ Z = L) (ha : t.iterAt X.length = some a)
    (hb : t.iterAt (X.length + M.length) = some b) : distance t.heap t.size a b = some M.length := by
  by_cases hne : L = []
  · subst hne
    simp only [List.append_eq_nil_iff] at hL
    obtain ⟨⟨rfl, rfl⟩, rfl⟩ := hL
    have : a = b := by
      rw [show ([] : List α).length + ([] : List α).length = ([] : List α).length from rfl, ha] at hb
      exact Option.some.inj hb
    subst this
    cases t.size <;> simp [distance]
  · obtain ⟨H, ht, g, hs, q⟩ := r.cur (X := X) (Y := M ++ Z) (by rw [← hL]; simp) ha hne
    obtain ⟨it', e, q'⟩ := g.iterAt_ok (X := X ++ M) hL
    rw [List.length_append, hb] at e; cases e
    exact Btree.distance_ok g M t.size q q' (by rw [hs, ← hL]; simp; omega)

theorem RepZ.index (r : RepZ z c t L) {i : Nat} {it : It} (hi : i ≤ L.length) (h : t.iterAt i = some it) :
    t.index it = some i := by
  obtain ⟨b, eb, ib⟩ := r.begin_ok
  have hl : (L.take i).length = i := by simp; omega
  have := r.distance_ok (X := []) (M := L.take i) (Z := L.drop i) (by simp) ib (by simpa [hl] using h)
  simp [Tree.index, eb, this, hl]

theorem RepZ.iter_inj (r : RepZ z c t L) {i j : Nat} {it : It} (hi : i ≤ L.length) (hj : j ≤ L.length)
    (h : t.iterAt i = some it) (h' : t.iterAt j = some it) : i = j := by
  have h1 := r.index hi h
  rw [r.index hj h'] at h1
  exact (Option.some.inj h1).symm

theorem RepZ.iter (r : RepZ z c t L) {i : Nat} (hi : i ≤ L.length) : ∃ it, t.iterAt i = some it := by
  obtain ⟨it, h⟩ := r.iterAt (X := L.take i) (Y := L.drop i) (by simp)
  have hl : (L.take i).length = i := by simp; omega
  rw [hl] at h
  exact ⟨it, h⟩

theorem RepZ.deref (r : RepZ z c t L) {X Y : List α} {v : α} {it : It} (hL : X ++ v :: Y = L)
    (h : t.iterAt X.length = some it) : deref t.heap it = some v := by
  obtain ⟨H, ht, g, hs, q⟩ := r.cur hL h (by rw [← hL]; simp)
  exact q.deref g

theorem RepZ.increment (r : RepZ z c t L) {X Y : List α} {v : α} {it : It} (hL : X ++ v :: Y = L)
    (h : t.iterAt X.length = some it) :
    ∃ it', increment t.heap it = some it' ∧ t.iterAt (X.length + 1) = some it' := by
  obtain ⟨H, ht, g, hs, q⟩ := r.cur hL h (by rw [← hL]; simp)
  obtain ⟨it', e, q'⟩ := q.increment g
  exact ⟨it', e, by simpa using q'.iterAt g⟩

theorem RepZ.decrement (r : RepZ z c t L) {X Y : List α} {v : α} {it : It} (hL : X ++ v :: Y = L)
    (h : t.iterAt (X.length + 1) = some it) :
    ∃ it', decrement t.heap it = some it' ∧ t.iterAt X.length = some it' := by
  obtain ⟨H, ht, g, hs, q⟩ := r.cur (X := X ++ [v]) (Y := Y) (by rw [← hL]; simp) (by simpa using h) (by rw [← hL]; simp)
  obtain ⟨it', e, q'⟩ := q.decrement g
  exact ⟨it', e, q'.iterAt g⟩

theorem RepZ.at_end (r : RepZ z c t L) {i : Nat} {it e : It} (hi : i ≤ L.length) (h : t.iterAt i = some it)
    (he : t.end = some e) : it = e ↔ i = L.length := by
  obtain ⟨e', ee, ie⟩ := r.end_ok
  rw [he] at ee; cases ee
  constructor
  · rintro rfl
    exact r.iter_inj hi (Nat.le_refl _) h ie
  · rintro rfl
    rw [h] at ie
    exact Option.some.inj ie

/-! ### Traversals -/

theorem RepZ.traverse (r : RepZ z c t L) {e : It} (he : t.end = some e) : ∀ (Y X : List α) (f : Nat) {it : It}, X ++ Y = L →
    t.iterAt X.length = some it → Y.length ≤ f → traverse t.heap e f it = some Y
  | [], X, f, it, hL, hi, hf => by
    have : it = e := (r.at_end (by rw [← hL]; simp) hi he).2 (by rw [← hL]; simp)
    cases f <;> simp [Btree.traverse, this]
  | v :: Y, X, 0, it, hL, hi, hf => by simp at hf
  | v :: Y, X, f + 1, it, hL, hi, hf => by
    have hne : it ≠ e := fun h => by
      have := (r.at_end (by rw [← hL]; simp) hi he).1 h
      rw [← hL] at this
      simp at this
    obtain ⟨it', e1, i1⟩ := r.increment hL hi
    have ih := RepZ.traverse r he Y (X ++ [v]) f (by simpa using hL) (by simpa using i1) (by simpa using hf)
    simp [Btree.traverse, hne, r.deref hL hi, e1, ih]

theorem RepZ.toList (r : RepZ z c t L) : t.toList = some L := by
  obtain ⟨b, eb, ib⟩ := r.begin_ok
  obtain ⟨e, ee, _⟩ := r.end_ok
  simp [Tree.toList, eb, ee, r.traverse ee L [] t.size (by simp) ib (by rw [r.size])]

theorem RepZ.traverseBack (r : RepZ z c t L) {b : It} (hb : t.begin = some b) : ∀ (X Y : List α) (f : Nat) {it : It},
    X.reverse ++ Y = L → t.iterAt X.length = some it → X.length ≤ f → traverseBack t.heap b f it = some X
  | [], Y, f, it, hL, hi, hf => by
    obtain ⟨b', eb, ib⟩ := r.begin_ok
    rw [hb] at eb; cases eb
    have : it = b := by simpa [ib] using hi.symm
    cases f <;> simp [Btree.traverseBack, this]
  | v :: X, Y, 0, it, hL, hi, hf => by simp at hf
  | v :: X, Y, f + 1, it, hL, hi, hf => by
    obtain ⟨b', eb, ib⟩ := r.begin_ok
    rw [hb] at eb; cases eb
    have hL' : X.reverse ++ v :: Y = L := by rw [← hL]; simp
    have hne : it ≠ b := by
      rintro rfl
      have := r.iter_inj (by rw [← hL]; simp) (by simp) hi ib
      simp at this
    obtain ⟨it', e1, i1⟩ := r.decrement hL' (by simpa using hi)
    have ih := RepZ.traverseBack r hb X (v :: Y) f hL' (by simpa using i1) (by simpa using hf)
    simp [Btree.traverseBack, hne, r.deref hL' i1, e1, ih]

theorem RepZ.toListBack (r : RepZ z c t L) : t.toListBack = some L.reverse := by
  obtain ⟨b, eb, ib⟩ := r.begin_ok
  obtain ⟨e, ee, ie⟩ := r.end_ok
  simp [Tree.toListBack, eb, ee, r.traverseBack eb L.reverse [] t.size (by simp) (by simpa using ie) (by rw [r.size]; simp)]

/-! ### Search -/

theorem Empty.lowerNode (k : κ) : lowerNode c (emptyNode : Node α) k = some ⟨0, false⟩ := by
  unfold Btree.lowerNode emptyNode
  cases c.cmpTo <;> cases c.linear <;> cases c.multi <;>
    simp [linearTo, linearPlain, binaryToMulti, binaryToUnique, binaryPlain, Node.count]

theorem Empty.upperNode (k : κ) : upperNode c (emptyNode : Node α) k = some 0 := by
  unfold Btree.upperNode emptyNode
  cases c.linear <;> simp [linearPlain, binaryPlain, Node.count]

theorem Empty.last (e : Empty t) : internalLast t.heap (t.heap.length + 1) ⟨0, 0⟩ = some none := by
  unfold internalLast
  simp [e.zero, emptyNode, Node.count, Node.leaf]

theorem Empty.lower (e : Empty t) (k : κ) : internalLowerBound c t k = some none := by
  have : locatePlain c t.heap k (t.heap.length + 1) t.root = some ⟨0, 0⟩ := by
    unfold locatePlain
    rw [e.root]
    simp [e.zero, Empty.lowerNode]
    simp [emptyNode, Node.leaf]
  simp [internalLowerBound, this, e.last]

theorem Empty.upper (e : Empty t) (k : κ) : internalUpperBound c t k = some none := by
  have : locateUpper c t.heap k (t.heap.length + 1) t.root = some ⟨0, 0⟩ := by
    unfold locateUpper
    rw [e.root]
    simp [e.zero, Empty.upperNode]
    simp [emptyNode, Node.leaf]
  simp [internalUpperBound, this, e.last]

theorem Empty.find (e : Empty t) (k : κ) : internalFind c t k = some none := by
  have : internalLocate c t k = some (⟨0, 0⟩, false) := by
    unfold internalLocate
    split
    · unfold locateTo
      rw [e.root]
      simp [e.zero, Empty.lowerNode]
      simp [emptyNode, Node.leaf]
    · unfold locatePlain
      rw [e.root]
      simp [e.zero, Empty.lowerNode]
      simp [emptyNode, Node.leaf]
  unfold internalFind
  simp [this, e.last]

section
variable (o : StrictWeak c.lt) (r : RepZ z c t L) (s : Sorted c.multi c.key c.lt L)
include o r s

theorem RepZ.lowerBound (k : κ) : ∃ it X Y, t.lowerBound c k = some it ∧ t.iterAt X.length = some it ∧ X ++ Y = L ∧
    (∀ a ∈ X, c.lt (c.key a) k = true) ∧ (∀ b ∈ Y, c.lt (c.key b) k = false) := by
  rcases r with ⟨e, rfl⟩ | ⟨_, _, g, _⟩
  · exact ⟨_, [], [], by simp [Tree.lowerBound, e.lower, internalEnd, e.end], e.iterAt, rfl, by simp, by simp⟩
  · obtain ⟨it, X, Y, e, q, h⟩ := lowerBound_ok g o s k
    exact ⟨it, X, Y, e, q.iterAt g, h⟩

theorem RepZ.upperBound (k : κ) : ∃ it X Y, t.upperBound c k = some it ∧ t.iterAt X.length = some it ∧ X ++ Y = L ∧
    (∀ a ∈ X, c.lt k (c.key a) = false) ∧ (∀ b ∈ Y, c.lt k (c.key b) = true) := by
  rcases r with ⟨e, rfl⟩ | ⟨_, _, g, _⟩
  · exact ⟨_, [], [], by simp [Tree.upperBound, e.upper, internalEnd, e.end], e.iterAt, rfl, by simp, by simp⟩
  · obtain ⟨it, X, Y, e, q, h⟩ := upperBound_ok g o s k
    exact ⟨it, X, Y, e, q.iterAt g, h⟩

theorem RepZ.internalFind (k : κ) :
    (∃ it X v Y, internalFind c t k = some (some it) ∧ X ++ v :: Y = L ∧ t.iterAt X.length = some it ∧
      KeyEquiv c.lt (c.key v) k) ∨
    (internalFind c t k = some none ∧ ∀ v ∈ L, ¬ KeyEquiv c.lt (c.key v) k) := by
  rcases r with ⟨e, rfl⟩ | ⟨_, _, g, _⟩
  · exact .inr ⟨e.find k, by simp⟩
  · obtain ⟨rr, e, h⟩ := internalFind_ok g o s k
    cases rr with
    | none => exact .inr ⟨e, h⟩
    | some it =>
      obtain ⟨X, v, Y, q, hv⟩ := h
      exact .inl ⟨it, X, v, Y, e, q.total g, q.iterAt g, hv⟩

/-- The elements with the same key are together. -/
theorem RepZ.between (k : κ) : ∃ X M Z a b, X ++ M ++ Z = L ∧ t.lowerBound c k = some a ∧ t.iterAt X.length = some a ∧
    t.upperBound c k = some b ∧ t.iterAt (X ++ M).length = some b ∧
    (∀ a ∈ X, c.lt (c.key a) k = true) ∧ (∀ a ∈ M, KeyEquiv c.lt (c.key a) k) ∧ (∀ a ∈ Z, c.lt k (c.key a) = true) := by
  obtain ⟨a, X, Y, ea, ia, hL, hX, hY⟩ := r.lowerBound o s k
  obtain ⟨b, X', Z, eb, ib, hL', hX', hZ⟩ := r.upperBound o s k
  have hle : X.length ≤ X'.length := by
    by_contra hc
    have h1 : X'.length < X.length := by omega
    have hlt : X'.length < L.length := by rw [← hL]; simp; omega
    have h2 : X[X'.length]? = some L[X'.length] := by
      rw [← List.getElem?_eq_getElem hlt, ← hL, List.getElem?_append_left h1]
    have h3 : Z[0]? = some L[X'.length] := by
      rw [← List.getElem?_eq_getElem hlt, ← hL', List.getElem?_append_right (Nat.le_refl _)]; simp
    have h4 := hX _ (List.mem_of_getElem? h2)
    have h5 := hZ _ (List.mem_of_getElem? h3)
    have := o.trans _ _ _ h4 h5
    rw [o.irrefl] at this
    cases this
  have hpre : ∃ M, X' = X ++ M := by
    have h1 : X <+: L := ⟨Y, hL⟩
    have h2 : X' <+: L := ⟨Z, hL'⟩
    obtain ⟨M, hM⟩ := List.prefix_of_prefix_length_le h1 h2 hle
    exact ⟨M, hM.symm⟩
  obtain ⟨M, rfl⟩ := hpre
  refine ⟨X, M, Z, a, b, hL', ea, ia, eb, ib, hX, ?_, hZ⟩
  intro v hv
  have hYM : Y = M ++ Z := by
    rw [← hL, List.append_assoc] at hL'
    exact (List.append_cancel_left hL').symm
  exact ⟨hY v (by rw [hYM]; simp [hv]), hX' v (by simp [hv])⟩

end
end Gtl.Btree
