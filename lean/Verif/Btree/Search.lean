import Verif.Btree.Iter
import Verif.Btree.NodeSearch
import Verif.Spec.SortedSeq
/-
Search in the tree.
-/
set_option linter.unusedSectionVars false
namespace Gtl.Btree
open Gtl.Spec.SortedSeq
variable {α κ : Type}

section order
variable {c : Cfg α κ} (o : StrictWeak c.lt)
include o

theorem lt_asymm' {a b : κ} (h : c.lt a b = true) : c.lt b a = false := by
  cases hb : c.lt b a with
  | false => rfl
  | true =>
    have := o.trans _ _ _ h hb
    rw [o.irrefl] at this; cases this

/-- The elements of a container are at least weakly sorted. -/
theorem _root_.Gtl.Spec.SortedSeq.Sorted.weak {L : List α} {m : Bool} (s : Sorted m c.key c.lt L) :
    L.Pairwise fun a b => c.lt (c.key b) (c.key a) = false := by
  unfold Sorted at s
  cases m with
  | true => simpa using s
  | false =>
    simp only [Bool.false_eq_true, if_false] at s
    exact s.imp fun h => lt_asymm' o h

theorem mono_lower {L : List α} {m : Bool} (s : Sorted m c.key c.lt L) (k : κ) :
    Mono (fun v => c.lt (c.key v) k) L := by
  refine (s.weak o).imp ?_
  intro a b h hb
  rcases o.incomp _ (c.key a) _ hb with h1 | h1
  · rw [h1] at h; cases h
  · exact h1

theorem mono_upper {L : List α} {m : Bool} (s : Sorted m c.key c.lt L) (k : κ) :
    Mono (fun v => !(c.lt k (c.key v))) L := by
  refine (s.weak o).imp ?_
  intro a b h hb
  simp only [Bool.not_eq_true', Bool.not_eq_eq_eq_not, Bool.not_true] at hb ⊢
  cases ha : c.lt k (c.key a) with
  | false => rfl
  | true =>
    rcases o.incomp _ (c.key b) _ ha with h1 | h1
    · rw [h1] at hb; cases hb
    · rw [h1] at h; cases h

omit o in
theorem cmp3_lt {a b : κ} : (c.cmp3 a b == .lt) = c.lt a b := by
  unfold Cfg.cmp3
  cases h1 : c.lt a b <;> cases h2 : c.lt b a <;> simp

theorem cmp3_gt {a b : κ} : (c.cmp3 a b != .gt) = !(c.lt b a) := by
  unfold Cfg.cmp3
  cases h1 : c.lt a b <;> cases h2 : c.lt b a <;> simp
  have := lt_asymm' o h1
  rw [h2] at this; cases this

omit o in
theorem cmp3_eq {a b : κ} : c.cmp3 a b = .eq ↔ KeyEquiv c.lt a b := by
  unfold Cfg.cmp3 KeyEquiv
  cases h1 : c.lt a b <;> cases h2 : c.lt b a <;> simp

theorem Mono.sublist {p : α → Bool} {l l' : List α} (m : Mono p l) (s : l'.Sublist l) : Mono p l' :=
  List.Pairwise.sublist s m

theorem _root_.Gtl.Spec.SortedSeq.Sorted.sublist {L L' : List α} {m : Bool} (s : Sorted m c.key c.lt L) (h : L'.Sublist L) :
    Sorted m c.key c.lt L' := by
  unfold Sorted at *
  cases m with
  | true => simpa using (by simpa using s : L.Pairwise _).sublist h
  | false => simpa using (by simpa using s : L.Pairwise _).sublist h

/-- The search in a node whose values are sorted. -/
theorem lowerNode_ok {nd : Node α} (s : Sorted c.multi c.key c.lt nd.vals) (k : κ) :
    ∃ r, lowerNode c nd k = some r ∧ Part (fun v => c.lt (c.key v) k) nd.vals r.value ∧
      (if c.cmpTo then
        (if r.eq then ∃ v, nd.vals[r.value]? = some v ∧ KeyEquiv c.lt (c.key v) k
          else ∀ v ∈ nd.vals, ¬ KeyEquiv c.lt (c.key v) k)
       else r.eq = false) := by
  have m1 := mono_lower o s k
  have m2 := mono_upper o s k
  have m1' : Mono (fun v => c.cmp3 (c.key v) k == .lt) nd.vals := by
    simpa only [cmp3_lt] using m1
  have m2' : Mono (fun v => c.cmp3 (c.key v) k != .gt) nd.vals := by
    simpa only [cmp3_gt o] using m2
  have fin : ∀ r, PartTo (fun v => c.cmp3 (c.key v) k) nd.vals r →
      Part (fun v => c.lt (c.key v) k) nd.vals r.value ∧
      (if r.eq then ∃ v, nd.vals[r.value]? = some v ∧ KeyEquiv c.lt (c.key v) k
          else ∀ v ∈ nd.vals, ¬ KeyEquiv c.lt (c.key v) k) := by
    intro r hr
    unfold PartTo at hr
    simp only [cmp3_lt, cmp3_eq, ne_eq] at hr
    exact hr
  unfold lowerNode
  cases hct : c.cmpTo with
  | true =>
    simp only [if_true]
    cases hl : c.linear with
    | true => exact ⟨_, rfl, fin _ (linearTo_ok m1' m2')⟩
    | false =>
      simp only [Bool.false_eq_true, if_false]
      cases hm : c.multi with
      | true =>
        simp only [if_true]
        obtain ⟨r, e, hr⟩ := binaryToMulti_ok m1' m2' nd.count 0 nd.count false (Nat.zero_le _) (Nat.le_refl _)
          (by omega) (by intro j v _ h; omega)
          (by
            intro j v hj h
            obtain ⟨h1, _⟩ := List.getElem?_eq_some_iff.1 hj
            unfold Node.count at h; omega)
          (by
            simp only [Bool.false_eq_true, if_false]
            intro j v hj h
            obtain ⟨h1, _⟩ := List.getElem?_eq_some_iff.1 hj
            unfold Node.count at h; omega)
        exact ⟨r, e, fin r hr⟩
      | false =>
        simp only [Bool.false_eq_true, if_false]
        have u : ∀ (i j : Nat) x y, nd.vals[i]? = some x → nd.vals[j]? = some y → c.cmp3 (c.key x) k = .eq →
            c.cmp3 (c.key y) k = .eq → i = j := by
          intro i j x y hi hj hx hy
          rw [hm] at s
          unfold Sorted at s
          simp only [Bool.false_eq_true, if_false] at s
          obtain ⟨hi1, hi2⟩ := List.getElem?_eq_some_iff.1 hi
          obtain ⟨hj1, hj2⟩ := List.getElem?_eq_some_iff.1 hj
          rw [cmp3_eq] at hx hy
          rcases Nat.lt_trichotomy i j with h | h | h
          · have := List.pairwise_iff_getElem.1 s i j hi1 hj1 h
            rw [hi2, hj2] at this
            rcases o.incomp _ k _ this with h1 | h1
            · rw [hx.1] at h1; cases h1
            · rw [hy.2] at h1; cases h1
          · exact h
          · have := List.pairwise_iff_getElem.1 s j i hj1 hi1 h
            rw [hi2, hj2] at this
            rcases o.incomp _ k _ this with h1 | h1
            · rw [hy.1] at h1; cases h1
            · rw [hx.2] at h1; cases h1
        obtain ⟨r, e, hr⟩ := binaryToUnique_ok m1' m2' u nd.count 0 nd.count (Nat.zero_le _) (Nat.le_refl _)
          (by omega) (by intro j v _ h; omega)
          (by
            intro j v hj h
            obtain ⟨h1, _⟩ := List.getElem?_eq_some_iff.1 hj
            unfold Node.count at h; omega)
        exact ⟨r, e, fin r hr⟩
  | false =>
    simp only [Bool.false_eq_true, if_false]
    cases hl : c.linear with
    | true => exact ⟨_, rfl, linearPlain_ok m1, rfl⟩
    | false =>
      simp only [Bool.false_eq_true, if_false]
      obtain ⟨r, e, hr⟩ := binaryPlain_ok m1 nd.count 0 nd.count (Nat.zero_le _) (Nat.le_refl _)
          (by omega) (by intro j v _ h; omega)
          (by
            intro j v hj h
            obtain ⟨h1, _⟩ := List.getElem?_eq_some_iff.1 hj
            unfold Node.count at h; omega)
      exact ⟨⟨r, false⟩, by rw [e]; rfl, hr, rfl⟩

theorem upperNode_ok {nd : Node α} (s : Sorted c.multi c.key c.lt nd.vals) (k : κ) :
    ∃ r, upperNode c nd k = some r ∧ Part (fun v => !(c.lt k (c.key v))) nd.vals r := by
  have m2 := mono_upper o s k
  unfold upperNode
  cases hl : c.linear with
  | true => exact ⟨_, rfl, linearPlain_ok m2⟩
  | false =>
    simp only [Bool.false_eq_true, if_false]
    exact binaryPlain_ok m2 nd.count 0 nd.count (Nat.zero_le _) (Nat.le_refl _)
      (by omega) (by intro j v _ h; omega)
      (by
        intro j v hj h
        obtain ⟨h1, _⟩ := List.getElem?_eq_some_iff.1 hj
        unfold Node.count at h; omega)

end order

/-! ### Descending -/

theorem mem_zF_lt {γ : Type} {E : γ → List α} : ∀ {ks : List γ} {vs : List α} {x : α},
    x ∈ vs.take ks.length → x ∈ zF (ks.map E) vs
  | [], _, _, h => by simp at h
  | k :: ks, [], _, h => by simp at h
  | k :: ks, v :: vs, x, h => by
    simp only [List.length_cons, List.take_succ_cons, List.mem_cons] at h
    simp only [List.map_cons, zF_cons, List.mem_append, List.mem_cons]
    rcases h with rfl | h
    · right; left; rfl
    · right; right; exact mem_zF_lt h

/-- A value that satisfies `p` has only values that satisfy `p` before it. -/
theorem Mono.front {p : α → Bool} {X Y : List α} {v : α} (m : Mono p (X ++ v :: Y)) (hv : p v = true) :
    ∀ x ∈ X, p x = true := by
  intro x hx
  exact (List.pairwise_append.1 m).2.2 x hx v (by simp) hv

theorem Mono.back {p : α → Bool} {X Y : List α} {v : α} (m : Mono p (X ++ v :: Y)) (hv : p v = false) :
    ∀ x ∈ Y, p x = false := by
  intro x hx
  have : Mono p (v :: Y) := (List.pairwise_append.1 m).2.1
  cases hx' : p x with
  | false => rfl
  | true =>
    have := (List.pairwise_cons.1 this).1 x hx hx'
    rw [hv] at this; cases this

variable {c : Cfg α κ} {t : Tree α} {H : Nat} {ht : Nat → Nat} {L : List α} {E : Nat → Prop}

/-- What is left and right of the child that a search goes to: with one condition for the left and
one for the right. -/
theorem descend2_ok {p p' : α → Bool} {h : Heap α} {root : Nat} (w : WF c h root H ht) (m : Mono p (elems h H root))
    (m' : Mono p' (elems h H root))
    {k n r : Nat} {A B : List α} {nd : Node α} (x : Ctx h root H (k + 1) n A B) (e : h.get n = some nd)
    (hA : ∀ a ∈ A, p a = true) (hB : ∀ b ∈ B, p' b = false) (hp : r ≤ nd.vals.length ∧ (∀ v ∈ nd.vals.take r, p v = true) ∧ ∀ v ∈ nd.vals.drop r, p' v = false) :
    ∃ z A' B', nd.kids[r]? = some z ∧ Ctx h root H k z A' B' ∧ (∀ a ∈ A', p a = true) ∧ (∀ b ∈ B', p' b = false) := by
  obtain ⟨_, e', n0, hk⟩ := x.live w
  rw [e] at e'; cases e'
  obtain ⟨hr, hp1, hp2⟩ := hp
  have hl := w.kids_len e n0 (by omega)
  obtain ⟨z, hz⟩ : ∃ z, nd.kids[r]? = some z := ⟨nd.kids[r]'(by omega), List.getElem?_eq_getElem _⟩
  have y := Ctx.kid x e hz
  have ht' := y.total w
  rw [ht'] at m m'
  refine ⟨z, _, _, hz, y, ?_, ?_⟩
  · rcases Nat.eq_zero_or_pos r with h0 | h0
    · subst h0
      simpa using hA
    · obtain ⟨j, rfl⟩ : ∃ j, r = j + 1 := ⟨r - 1, by omega⟩
      have hj : j < nd.vals.length := by omega
      have hv : p nd.vals[j] = true := by
        apply hp1
        rw [List.mem_take_iff_getElem]
        exact ⟨j, by omega, rfl⟩
      have e1 : zF ((nd.kids.take (j + 1)).map (elems h k)) (nd.vals.take (j + 1)) =
          zF ((nd.kids.take j).map (elems h k)) (nd.vals.take j) ++
            (elems h k (nd.kids[j]'(by omega)) ++ [nd.vals[j]]) := by
        rw [List.take_succ_eq_append_getElem hj, List.take_succ_eq_append_getElem (i := j) (by omega), List.map_append,
          zF_append _ _ _ _ (by simp; omega)]
        simp
      rw [e1] at m ⊢
      rw [← List.append_assoc, ← List.append_assoc] at ⊢
      rw [← List.append_assoc A, ← List.append_assoc (A ++ _), List.append_assoc _ [_]] at m
      intro a ha
      rcases List.mem_append.1 ha with ha | ha
      · rw [List.singleton_append] at m
        exact m.front hv a ha
      · simp only [List.mem_cons, List.not_mem_nil, or_false] at ha
        rw [ha]; exact hv
  · rcases Nat.lt_or_ge r nd.vals.length with h0 | h0
    · have hv : p' nd.vals[r] = false := by
        apply hp2
        rw [List.mem_drop_iff_getElem]
        exact ⟨0, by omega, by simp⟩
      have e1 : zB (nd.vals.drop r) ((nd.kids.drop (r + 1)).map (elems h k)) =
          nd.vals[r] :: (elems h k (nd.kids[r + 1]'(by omega)) ++
            zB (nd.vals.drop (r + 1)) ((nd.kids.drop (r + 2)).map (elems h k))) := by
        rw [← List.getElem_cons_drop h0, ← List.getElem_cons_drop (i := r + 1) (as := nd.kids) (by omega), List.map_cons,
          zB_cons]
      rw [e1, ← List.append_assoc, List.cons_append] at m'
      rw [e1, List.cons_append]
      intro b hb
      rcases List.mem_cons.1 hb with rfl | hb
      · exact hv
      · exact m'.back hv b hb
    · rw [List.drop_eq_nil_of_le h0]
      simpa using hB

/-- What is left and right of the child that a search goes to. -/
theorem descend_ok {p : α → Bool} {h : Heap α} {root : Nat} (w : WF c h root H ht) (m : Mono p (elems h H root))
    {k n r : Nat} {A B : List α} {nd : Node α} (x : Ctx h root H (k + 1) n A B) (e : h.get n = some nd)
    (hA : ∀ a ∈ A, p a = true) (hB : ∀ b ∈ B, p b = false) (hp : Part p nd.vals r) :
    ∃ z A' B', nd.kids[r]? = some z ∧ Ctx h root H k z A' B' ∧ (∀ a ∈ A', p a = true) ∧ (∀ b ∈ B', p b = false) :=
  descend2_ok w m m x e hA hB hp

theorem Part.leaf {p : α → Bool} {h : Heap α} {root : Nat} {n r : Nat} {A B : List α}
    {nd : Node α} (x : Ctx h root H 0 n A B) (e : h.get n = some nd) (hA : ∀ a ∈ A, p a = true)
    (hB : ∀ b ∈ B, p b = false) (hp : Part p nd.vals r) :
    ∃ X Y, Pt h root H 0 n r X Y ∧ (∀ a ∈ X, p a = true) ∧ (∀ b ∈ Y, p b = false) := by
  obtain ⟨hr, hp1, hp2⟩ := hp
  refine ⟨_, _, ⟨A, B, x, by rw [valsOf_eq e]; exact hr, rfl, rfl⟩, ?_, ?_⟩
  · simp only [pre, valsOf_eq e]
    intro a ha
    rcases List.mem_append.1 ha with ha | ha
    · exact hA a ha
    · exact hp1 a ha
  · simp only [post, valsOf_eq e]
    intro a ha
    rcases List.mem_append.1 ha with ha | ha
    · exact hp2 a ha
    · exact hB a ha

/-- The values of a node are a part of the sequence. -/
theorem vals_sublist_inter : ∀ (ks : List (List α)) (vs : List α), ks.length = vs.length + 1 →
    vs.Sublist (inter ks vs)
  | [k], [], _ => by simp
  | k :: k' :: ks, v :: vs, hl => by
    simp only [List.length_cons, Nat.add_right_cancel_iff] at hl
    have := vals_sublist_inter (k' :: ks) vs (by simp [hl])
    rw [inter_cons]
    exact (List.Sublist.cons_cons v this).trans (List.sublist_append_right _ _)

theorem Ctx.vals_sublist {h : Heap α} {root : Nat} (w : WF c h root H ht) {k n : Nat} {A B : List α} {nd : Node α}
    (x : Ctx h root H k n A B) (e : h.get n = some nd) : nd.vals.Sublist (elems h H root) := by
  obtain ⟨_, e', n0, hk⟩ := x.live w
  rw [e] at e'; cases e'
  rw [x.total w]
  refine List.Sublist.trans ?_ (List.Sublist.trans (List.sublist_append_left _ _) (List.sublist_append_right _ _))
  cases k with
  | zero => simp [elems, valsOf_eq e]
  | succ k =>
    have hl := w.kids_len e n0 (by omega)
    simp only [elems, valsOf_eq e, kidsOf_eq e]
    exact vals_sublist_inter _ _ (by simpa using hl)

section
variable (g : Good c t E H ht L) (o : StrictWeak c.lt) (s : Sorted c.multi c.key c.lt L)
include g o s

theorem locatePlain_ok (k : κ) : ∀ (j f : Nat) {n : Nat} {A B : List α}, Ctx t.heap t.root H j n A B → j < f →
    (∀ a ∈ A, c.lt (c.key a) k = true) → (∀ b ∈ B, c.lt (c.key b) k = false) →
    ∃ it X Y, locatePlain c t.heap k f n = some it ∧ Pt t.heap t.root H 0 it.node it.pos X Y ∧
      (∀ a ∈ X, c.lt (c.key a) k = true) ∧ (∀ b ∈ Y, c.lt (c.key b) k = false)
  | j, 0, _, _, _, _, hf, _, _ => absurd hf (Nat.not_lt_zero _)
  | j, f + 1, n, A, B, x, hf, hA, hB => by
    obtain ⟨nd, e, n0, hj⟩ := x.live g.wf
    have m : Mono (fun v => c.lt (c.key v) k) (elems t.heap H t.root) := by rw [g.seq]; exact mono_lower o s k
    obtain ⟨r, hr, hp, _⟩ := lowerNode_ok o (nd := nd) (s.sublist o (g.seq ▸ x.vals_sublist g.wf e)) k
    cases j with
    | zero =>
      obtain ⟨X, Y, q, h1, h2⟩ := hp.leaf x e hA hB
      refine ⟨⟨n, r.value⟩, X, Y, ?_, q, h1, h2⟩
      unfold locatePlain
      simp [e, hr, (g.wf.leaf_iff e n0).2 hj]
    | succ j =>
      obtain ⟨z, A', B', hz, y, h1, h2⟩ := descend_ok g.wf m x e hA hB hp
      obtain ⟨it, X, Y, ei, hit⟩ := locatePlain_ok k j f y (by omega) h1 h2
      refine ⟨it, X, Y, ?_, hit⟩
      unfold locatePlain
      simp [e, hr, g.wf.leaf_false e n0 (by omega), hz, ei]

theorem locateUpper_ok (k : κ) : ∀ (j f : Nat) {n : Nat} {A B : List α}, Ctx t.heap t.root H j n A B → j < f →
    (∀ a ∈ A, (!(c.lt k (c.key a))) = true) → (∀ b ∈ B, (!(c.lt k (c.key b))) = false) →
    ∃ it X Y, locateUpper c t.heap k f n = some it ∧ Pt t.heap t.root H 0 it.node it.pos X Y ∧
      (∀ a ∈ X, (!(c.lt k (c.key a))) = true) ∧ (∀ b ∈ Y, (!(c.lt k (c.key b))) = false)
  | j, 0, _, _, _, _, hf, _, _ => absurd hf (Nat.not_lt_zero _)
  | j, f + 1, n, A, B, x, hf, hA, hB => by
    obtain ⟨nd, e, n0, hj⟩ := x.live g.wf
    have m : Mono (fun v => !(c.lt k (c.key v))) (elems t.heap H t.root) := by rw [g.seq]; exact mono_upper o s k
    obtain ⟨r, hr, hp⟩ := upperNode_ok o (nd := nd) (s.sublist o (g.seq ▸ x.vals_sublist g.wf e)) k
    cases j with
    | zero =>
      obtain ⟨X, Y, q, h1, h2⟩ := hp.leaf x e hA hB
      refine ⟨⟨n, r⟩, X, Y, ?_, q, h1, h2⟩
      unfold locateUpper
      simp [e, hr, (g.wf.leaf_iff e n0).2 hj]
    | succ j =>
      obtain ⟨z, A', B', hz, y, h1, h2⟩ := descend_ok g.wf m x e hA hB hp
      obtain ⟨it, X, Y, ei, hit⟩ := locateUpper_ok k j f y (by omega) h1 h2
      refine ⟨it, X, Y, ?_, hit⟩
      unfold locateUpper
      simp [e, hr, g.wf.leaf_false e n0 (by omega), hz, ei]

/-- The search with three way comparisons: a value equal to the key, or the place
where it would be. -/
theorem locateTo_ok (k : κ) (hc : c.cmpTo = true) : ∀ (j f : Nat) {n : Nat} {A B : List α},
    Ctx t.heap t.root H j n A B → j < f →
    (∀ a ∈ A, c.lt (c.key a) k = true) → (∀ b ∈ B, (!(c.lt k (c.key b))) = false) →
    ∃ it b X Y j', locateTo c t.heap k f n = some (it, b) ∧ Pt t.heap t.root H j' it.node it.pos X Y ∧
      (if b then it.pos < (valsOf t.heap it.node).length ∧ ∃ v Y', Y = v :: Y' ∧ KeyEquiv c.lt (c.key v) k
       else j' = 0 ∧ (∀ a ∈ X, c.lt (c.key a) k = true) ∧ (∀ b ∈ Y, (!(c.lt k (c.key b))) = false))
  | j, 0, _, _, _, _, hf, _, _ => absurd hf (Nat.not_lt_zero _)
  | j, f + 1, n, A, B, x, hf, hA, hB => by
    obtain ⟨nd, e, n0, hj⟩ := x.live g.wf
    have m : Mono (fun v => c.lt (c.key v) k) (elems t.heap H t.root) := by rw [g.seq]; exact mono_lower o s k
    have m' : Mono (fun v => !(c.lt k (c.key v))) (elems t.heap H t.root) := by rw [g.seq]; exact mono_upper o s k
    obtain ⟨r, hr, hp, hq⟩ := lowerNode_ok o (nd := nd) (s.sublist o (g.seq ▸ x.vals_sublist g.wf e)) k
    rw [if_pos hc] at hq
    cases hb : r.eq with
    | true =>
      rw [hb, if_pos rfl] at hq
      obtain ⟨v, hv, hve⟩ := hq
      obtain ⟨hlt, _⟩ := List.getElem?_eq_some_iff.1 hv
      have p : Pt t.heap t.root H j n r.value (A ++ pre t.heap j n r.value) (post t.heap j n r.value ++ B) :=
        ⟨A, B, x, by rw [valsOf_eq e]; omega, rfl, rfl⟩
      refine ⟨⟨n, r.value⟩, true, _, _, j, ?_, p, ?_⟩
      · unfold locateTo; simp [e, hr, hb]
      · simp only [if_true]
        refine ⟨by rw [valsOf_eq e]; exact hlt, ?_⟩
        obtain ⟨Y', hY'⟩ := p.value g.wf e hv
        exact ⟨v, Y', hY', hve⟩
    | false =>
      rw [hb, if_neg (by simp)] at hq
      -- no value of this node is equal
      have hp' : Part (fun v => !(c.lt k (c.key v))) nd.vals r.value := by
        refine ⟨hp.1, ?_, ?_⟩
        · intro v hv
          have := lt_asymm' o (hp.2.1 v hv)
          simp [this]
        · intro v hv
          have h1 := hp.2.2 v hv
          have h2 := hq v (List.mem_of_mem_drop hv)
          cases h3 : c.lt k (c.key v) with
          | true => simp [h3]
          | false => exact absurd ⟨h1, h3⟩ h2
      have hA' : ∀ a ∈ A, (!(c.lt k (c.key a))) = true := by
        intro a ha
        have := lt_asymm' o (hA a ha)
        simp [this]
      have hB' : ∀ b ∈ B, c.lt (c.key b) k = false := by
        intro b hb
        have := hB b hb
        simp only [Bool.not_eq_eq_eq_not, Bool.not_false] at this
        exact lt_asymm' o this
      cases j with
      | zero =>
        obtain ⟨X, Y, q, h1, h2⟩ := hp'.leaf x e hA' hB
        obtain ⟨X', Y', q', h1', h2'⟩ := hp.leaf x e hA hB'
        obtain ⟨rfl, rfl⟩ := q.det g.wf q'
        refine ⟨⟨n, r.value⟩, false, X, Y, 0, ?_, q, by simpa using ⟨h1', by simpa using h2⟩⟩
        unfold locateTo
        simp [e, hr, hb, (g.wf.leaf_iff e n0).2 hj]
      | succ j =>
        obtain ⟨z, A', B', hz, y, h1, h2⟩ := descend_ok g.wf m' x e hA' hB hp'
        obtain ⟨z', A'', B'', hz', y', h1', h2'⟩ := descend_ok g.wf m x e hA hB' hp
        rw [hz] at hz'; cases hz'
        obtain ⟨rfl, rfl⟩ := y.det g.wf y'
        obtain ⟨it, b, X, Y, j', ei, hit⟩ := locateTo_ok k hc j f y (by omega) h1' h2
        refine ⟨it, b, X, Y, j', ?_, hit⟩
        unfold locateTo
        simp [e, hr, hb, g.wf.leaf_false e n0 (by omega), hz, ei]

end
end Gtl.Btree
