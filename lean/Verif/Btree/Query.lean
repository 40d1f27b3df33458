import Verif.Btree.Calls
import Verif.Spec.Query
/-
Lookups with transparent comparisons: what is looked up need not be a key, and several
different keys may match it.
-/
set_option linter.unusedSectionVars false
namespace Gtl.Btree
open Gtl.Spec.SortedSeq Gtl.Spec.Query
variable {α κ : Type}

/-- The instance of the lookup templates for a `K` that is not the key type (key_arg,
btree.hpp:3119-3127, KeyArg, gtl_base.hpp:655-668): the functions are those for keys, and compare keys only with what is
looked up, which is `none` here. `lt (some a) none` is `comp(key, q)` and `lt none (some b)` is
`comp(q, key)`. -/
def Cfg.ask (c : Cfg α κ) (q : Query κ) : Cfg α (Option κ) where
  K := c.K
  multi := c.multi
  linear := c.linear
  cmpTo := c.cmpTo
  key := fun v => some (c.key v)
  lt := fun a b =>
    match a, b with
    | some a, some b => c.lt a b
    | some a, none => q.below a
    | none, some b => q.above b
    | none, none => false

/-- lower_bound(q) (btree.hpp:3193-3200, 1531-1534). -/
def Tree.lowerOf (c : Cfg α κ) (t : Tree α) (q : Query κ) : Option It := t.lowerBound (c.ask q) none

/-- upper_bound(q) (btree.hpp:3203-3210, 1543-1546). -/
def Tree.upperOf (c : Cfg α κ) (t : Tree α) (q : Query κ) : Option It := t.upperBound (c.ask q) none

/-- find(q) (btree.hpp:3179-3185, 1641-1644). -/
def Tree.findOf (c : Cfg α κ) (t : Tree α) (q : Query κ) : Option It := t.find (c.ask q) none

/-- contains(q) (btree.hpp:3188-3190). -/
def Tree.containsOf (c : Cfg α κ) (t : Tree α) (q : Query κ) : Option Bool := t.contains (c.ask q) none

/-- count(q) of sets and maps (btree.hpp:3336-3338, 1654-1661) and of multisets and multimaps
(btree.hpp:3577-3579, 1665-1669). -/
def Tree.countOf (c : Cfg α κ) (t : Tree α) (q : Query κ) : Option Nat :=
  if c.multi then t.countMulti (c.ask q) none else t.countUnique (c.ask q) none

/-- erase(q) of sets and maps (btree.hpp:3395-3397, 2676-2686) and of multisets and multimaps
(btree.hpp:3624-3626, 2689-2700). -/
def Tree.eraseOf (c : Cfg α κ) (t : Tree α) (q : Query κ) : Option (Nat × Tree α) :=
  if c.multi then eraseMulti (c.ask q) t none else eraseUnique (c.ask q) t none

/-! ### The tree does not depend on what is looked up -/

theorem WF.ask {c : Cfg α κ} {q : Query κ} {h : Heap α} {root H : Nat} {ht : Nat → Nat} :
    WF (c.ask q) h root H ht ↔ WF c h root H ht :=
  ⟨fun w => ⟨w.zero, w.root0, w.rootLive, w.rootHt, w.bound, w.shape, w.kid, w.par⟩,
    fun w => ⟨w.zero, w.root0, w.rootLive, w.rootHt, w.bound, w.shape, w.kid, w.par⟩⟩

theorem RepZ.ask {c : Cfg α κ} {q : Query κ} {t : Tree α} {L : List α} {z : Prop} :
    RepZ z (c.ask q) t L ↔ RepZ z c t L := by
  constructor
  · rintro (h | ⟨H, ht, g, hs⟩)
    · exact .inl h
    · exact .inr ⟨H, ht, ⟨WF.ask.1 g.wf, g.left, g.right, g.full, g.seq⟩, hs⟩
  · rintro (h | ⟨H, ht, g, hs⟩)
    · exact .inl h
    · exact .inr ⟨H, ht, ⟨WF.ask.2 g.wf, g.left, g.right, g.full, g.seq⟩, hs⟩

/-! ### Searches that only need the elements to be split -/

/-- The elements are split by `k` into those less, those equivalent, and those greater. -/
structure Split (c : Cfg α κ) (k : κ) (L : List α) : Prop where
  lower : Mono (fun v => c.lt (c.key v) k) L
  upper : Mono (fun v => !(c.lt k (c.key v))) L
  apart : ∀ v ∈ L, c.lt (c.key v) k = true → c.lt k (c.key v) = false

theorem Split.sub {c : Cfg α κ} {k : κ} {L L' : List α} (s : Split c k L) (h : L'.Sublist L) : Split c k L' :=
  ⟨List.Pairwise.sublist h s.lower, List.Pairwise.sublist h s.upper, fun v hv => s.apart v (h.subset hv)⟩

/-- No two elements are equivalent to `k`. -/
def Once (c : Cfg α κ) (k : κ) (L : List α) : Prop :=
  L.Pairwise fun a b => KeyEquiv c.lt (c.key a) k → ¬ KeyEquiv c.lt (c.key b) k

/-- The search in a node finds the first element not less than `k`. -/
def Sharp (c : Cfg α κ) (k : κ) (L : List α) : Prop :=
  c.cmpTo = true → c.linear = false → c.multi = false → Once c k L

theorem Sharp.sub {c : Cfg α κ} {k : κ} {L L' : List α} (s : Sharp c k L) (h : L'.Sublist L) : Sharp c k L' :=
  fun h1 h2 h3 => List.Pairwise.sublist h (s h1 h2 h3)

theorem cmp3_gt' {c : Cfg α κ} {a b : κ} (h : c.lt a b = true → c.lt b a = false) : (c.cmp3 a b != .gt) = !(c.lt b a) := by
  unfold Cfg.cmp3
  cases h1 : c.lt a b <;> cases h2 : c.lt b a <;> simp
  rw [h h1] at h2; cases h2

/-- The binary search that stops at any equal element. -/
theorem binaryToUnique_any {p : α → Ordering} {vs : List α} (m : Mono (fun v => p v == .lt) vs)
    (m' : Mono (fun v => p v != .gt) vs) :
    ∀ (f s e : Nat), s ≤ e → e ≤ vs.length →
    e - s ≤ f → (∀ (j : Nat) v, vs[j]? = some v → j < s → p v = .lt) →
    (∀ (j : Nat) v, vs[j]? = some v → e ≤ j → p v = .gt) →
    ∃ r, binaryToUnique p vs f s e = some r ∧
      (if r.eq then ∃ v, vs[r.value]? = some v ∧ p v = .eq else PartTo p vs r)
  | 0, s, e, h1, h2, h3, h4, h5 => by
    have : s = e := by omega
    subst this
    exact ⟨⟨s, false⟩, by simp [binaryToUnique],
      partTo_of m' h2 h4 (fun j v hj hl => by rw [h5 j v hj hl]; simp) (by simpa using h5)⟩
  | f + 1, s, e, h1, h2, h3, h4, h5 => by
    by_cases he : s = e
    · subst he
      exact ⟨⟨s, false⟩, by simp [binaryToUnique],
        partTo_of m' h2 h4 (fun j v hj hl => by rw [h5 j v hj hl]; simp) (by simpa using h5)⟩
    · have hmid : (s + e) / 2 < vs.length := by omega
      have hg : vs[(s + e) / 2]? = some vs[(s + e) / 2] := List.getElem?_eq_getElem hmid
      unfold binaryToUnique
      simp only [he, if_false, hg, Option.bind_eq_bind, Option.bind_some]
      cases hp : p vs[(s + e) / 2] with
      | lt =>
        refine binaryToUnique_any m m' f _ e (by omega) h2 (by omega) ?_ h5
        intro j v hj hlt
        have := m.before hg hj (by omega) (by simp [hp])
        simpa using this
      | gt =>
        refine binaryToUnique_any m m' f s _ (by omega) (by omega) (by omega) h4 ?_
        intro j v hj hle
        have := m'.after hg hj hle (by simp [hp])
        simpa using this
      | eq => exact ⟨_, rfl, by simp only [if_true]; exact ⟨_, hg, hp⟩⟩

section
variable {c : Cfg α κ} {k : κ}

/-- What the search in a node says in every case: the place is not after the first greater element and
not before the first that is not less. -/
theorem lowerNode_split {nd : Node α} (s : Split c k nd.vals) :
    ∃ r, lowerNode c nd k = some r ∧
      (r.value ≤ nd.vals.length ∧ (∀ v ∈ nd.vals.take r.value, (!(c.lt k (c.key v))) = true) ∧
        ∀ v ∈ nd.vals.drop r.value, c.lt (c.key v) k = false) ∧
      (Sharp c k nd.vals → Part (fun v => c.lt (c.key v) k) nd.vals r.value) ∧
      (if c.cmpTo then
        (if r.eq then ∃ v, nd.vals[r.value]? = some v ∧ KeyEquiv c.lt (c.key v) k
          else (∀ v ∈ nd.vals, ¬ KeyEquiv c.lt (c.key v) k) ∧ Part (fun v => c.lt (c.key v) k) nd.vals r.value)
       else r.eq = false) := by
  have wk : ∀ {r : Nat}, Part (fun v => c.lt (c.key v) k) nd.vals r →
      r ≤ nd.vals.length ∧ (∀ v ∈ nd.vals.take r, (!(c.lt k (c.key v))) = true) ∧
        ∀ v ∈ nd.vals.drop r, c.lt (c.key v) k = false := by
    intro r h
    refine ⟨h.1, ?_, h.2.2⟩
    intro v hv
    rw [s.apart v (List.mem_of_mem_take hv) (h.2.1 v hv)]; rfl
  have m1' : Mono (fun v => c.cmp3 (c.key v) k == .lt) nd.vals := by
    simpa only [cmp3_lt] using s.lower
  have m2' : Mono (fun v => c.cmp3 (c.key v) k != .gt) nd.vals := by
    refine List.Pairwise.imp_of_mem ?_ s.upper
    intro a b ha hb h
    dsimp only
    rw [cmp3_gt' (s.apart a ha), cmp3_gt' (s.apart b hb)]
    exact h
  have fin : ∀ r, PartTo (fun v => c.cmp3 (c.key v) k) nd.vals r →
      (r.value ≤ nd.vals.length ∧ (∀ v ∈ nd.vals.take r.value, (!(c.lt k (c.key v))) = true) ∧
        ∀ v ∈ nd.vals.drop r.value, c.lt (c.key v) k = false) ∧
      (Sharp c k nd.vals → Part (fun v => c.lt (c.key v) k) nd.vals r.value) ∧
      (if r.eq then ∃ v, nd.vals[r.value]? = some v ∧ KeyEquiv c.lt (c.key v) k
          else (∀ v ∈ nd.vals, ¬ KeyEquiv c.lt (c.key v) k) ∧ Part (fun v => c.lt (c.key v) k) nd.vals r.value) := by
    intro r hr
    unfold PartTo at hr
    simp only [cmp3_lt, cmp3_eq, ne_eq] at hr
    refine ⟨wk hr.1, fun _ => hr.1, ?_⟩
    cases hq : r.eq with
    | true => simpa [hq] using hr.2
    | false => exact ⟨by simpa [hq] using hr.2, hr.1⟩
  have top : ∀ (j : Nat) v, nd.vals[j]? = some v → nd.count ≤ j → False := by
    intro j v hj h
    obtain ⟨h1, _⟩ := List.getElem?_eq_some_iff.1 hj
    unfold Node.count at h; omega
  unfold lowerNode
  cases hct : c.cmpTo with
  | true =>
    simp only [if_true]
    cases hl : c.linear with
    | true => exact ⟨_, rfl, fin _ (linearTo_ok m1' m2')⟩
    | false =>
      simp only [Bool.false_eq_true, if_false]
      cases hm : c.multi with
      | true =>
        simp only [if_true]
        obtain ⟨r, e, hr⟩ := binaryToMulti_ok m1' m2' nd.count 0 nd.count false (Nat.zero_le _) (Nat.le_refl _)
          (by omega) (by intro j v _ h; omega) (by intro j v hj h; exact (top j v hj h).elim)
          (by
            simp only [Bool.false_eq_true, if_false]
            intro j v hj h; exact (top j v hj h).elim)
        exact ⟨r, e, fin r hr⟩
      | false =>
        simp only [Bool.false_eq_true, if_false]
        obtain ⟨r, e, hr⟩ := binaryToUnique_any m1' m2' nd.count 0 nd.count (Nat.zero_le _) (Nat.le_refl _)
          (by omega) (by intro j v _ h; omega) (by intro j v hj h; exact (top j v hj h).elim)
        refine ⟨r, e, ?_⟩
        cases hq : r.eq with
        | false =>
          rw [hq, if_neg (by simp)] at hr
          have := fin r hr
          rw [hq] at this
          exact this
        | true =>
          rw [hq, if_pos rfl] at hr
          obtain ⟨v, hv, he⟩ := hr
          have hlt := (List.getElem?_eq_some_iff.1 hv).1
          rw [cmp3_eq] at he
          have hb : ∀ x ∈ nd.vals.take r.value, (!(c.lt k (c.key x))) = true := by
            intro x hx
            obtain ⟨i, hi, rfl⟩ := List.mem_take_iff_getElem.1 hx
            exact s.upper.before hv (List.getElem?_eq_getElem (by omega)) (by omega) (by simp [he.2])
          have ha : ∀ x ∈ nd.vals.drop r.value, c.lt (c.key x) k = false := by
            intro x hx
            obtain ⟨i, hi, rfl⟩ := List.mem_drop_iff_getElem.1 hx
            exact s.lower.after hv (List.getElem?_eq_getElem (by omega)) (by omega) (by simp [he.1])
          refine ⟨⟨by omega, hb, ha⟩, ?_, by simpa using ⟨v, hv, he⟩⟩
          intro sh
          refine ⟨by omega, ?_, ha⟩
          intro x hx
          have h1 := hb x hx
          obtain ⟨i, hi, rfl⟩ := List.mem_take_iff_getElem.1 hx
          have hp := List.pairwise_iff_getElem.1 (sh hct hl hm) i r.value (by omega) hlt (by omega)
          cases h2 : c.lt (c.key nd.vals[i]) k with
          | true => exact h2
          | false =>
            refine absurd ?_ (hp ⟨h2, by simpa using h1⟩)
            rw [(List.getElem?_eq_some_iff.1 hv).2]
            exact he
  | false =>
    simp only [Bool.false_eq_true, if_false]
    cases hl : c.linear with
    | true => exact ⟨_, rfl, wk (linearPlain_ok s.lower), fun _ => linearPlain_ok s.lower, rfl⟩
    | false =>
      simp only [Bool.false_eq_true, if_false]
      obtain ⟨r, e, hr⟩ := binaryPlain_ok s.lower nd.count 0 nd.count (Nat.zero_le _) (Nat.le_refl _)
          (by omega) (by intro j v _ h; omega) (by intro j v hj h; exact (top j v hj h).elim)
      exact ⟨⟨r, false⟩, by rw [e]; rfl, wk hr, fun _ => hr, rfl⟩

theorem upperNode_split {nd : Node α} (s : Split c k nd.vals) :
    ∃ r, upperNode c nd k = some r ∧ Part (fun v => !(c.lt k (c.key v))) nd.vals r := by
  unfold upperNode
  cases hl : c.linear with
  | true => exact ⟨_, rfl, linearPlain_ok s.upper⟩
  | false =>
    simp only [Bool.false_eq_true, if_false]
    exact binaryPlain_ok s.upper nd.count 0 nd.count (Nat.zero_le _) (Nat.le_refl _)
      (by omega) (by intro j v _ h; omega)
      (by
        intro j v hj h
        obtain ⟨h1, _⟩ := List.getElem?_eq_some_iff.1 hj
        unfold Node.count at h; omega)

variable {t : Tree α} {H : Nat} {ht : Nat → Nat} {L : List α} {E : Nat → Prop} {z : Prop}
  (g : Good c t E H ht L)
include g

/-- The descent of internal_lower_bound, for any two conditions that the searches in the nodes keep. -/
theorem locatePlain_split {p p' : α → Bool} (m : Mono p L) (m' : Mono p' L)
    (hn : ∀ nd : Node α, nd.vals.Sublist L → ∃ r, lowerNode c nd k = some r ∧
      (r.value ≤ nd.vals.length ∧ (∀ v ∈ nd.vals.take r.value, p v = true) ∧ ∀ v ∈ nd.vals.drop r.value, p' v = false)) :
    ∀ (j f : Nat) {n : Nat} {A B : List α}, Ctx t.heap t.root H j n A B → j < f →
    (∀ a ∈ A, p a = true) → (∀ b ∈ B, p' b = false) →
    ∃ it X Y, locatePlain c t.heap k f n = some it ∧ Pt t.heap t.root H 0 it.node it.pos X Y ∧
      (∀ a ∈ X, p a = true) ∧ (∀ b ∈ Y, p' b = false)
  | j, 0, _, _, _, _, hf, _, _ => absurd hf (Nat.not_lt_zero _)
  | j, f + 1, n, A, B, x, hf, hA, hB => by
    obtain ⟨nd, e, n0, hj⟩ := x.live g.wf
    obtain ⟨r, hr, hp⟩ := hn nd (g.seq ▸ x.vals_sublist g.wf e)
    cases j with
    | zero =>
      refine ⟨⟨n, r.value⟩, _, _, ?_, ⟨A, B, x, by rw [valsOf_eq e]; exact hp.1, rfl, rfl⟩, ?_, ?_⟩
      · unfold locatePlain
        simp [e, hr, (g.wf.leaf_iff e n0).2 hj]
      · simp only [pre, valsOf_eq e]
        intro a ha
        rcases List.mem_append.1 ha with ha | ha
        · exact hA a ha
        · exact hp.2.1 a ha
      · simp only [post, valsOf_eq e]
        intro a ha
        rcases List.mem_append.1 ha with ha | ha
        · exact hp.2.2 a ha
        · exact hB a ha
    | succ j =>
      obtain ⟨z, A', B', hz, y, h1, h2⟩ := descend2_ok g.wf (g.seq ▸ m) (g.seq ▸ m') x e hA hB hp
      obtain ⟨it, X, Y, ei, hit⟩ := locatePlain_split m m' hn j f y (by omega) h1 h2
      refine ⟨it, X, Y, ?_, hit⟩
      unfold locatePlain
      simp [e, hr, g.wf.leaf_false e n0 (by omega), hz, ei]

variable (s : Split c k L)
include s

theorem locateUpper_split : ∀ (j f : Nat) {n : Nat} {A B : List α}, Ctx t.heap t.root H j n A B → j < f →
    (∀ a ∈ A, (!(c.lt k (c.key a))) = true) → (∀ b ∈ B, (!(c.lt k (c.key b))) = false) →
    ∃ it X Y, locateUpper c t.heap k f n = some it ∧ Pt t.heap t.root H 0 it.node it.pos X Y ∧
      (∀ a ∈ X, (!(c.lt k (c.key a))) = true) ∧ (∀ b ∈ Y, (!(c.lt k (c.key b))) = false)
  | j, 0, _, _, _, _, hf, _, _ => absurd hf (Nat.not_lt_zero _)
  | j, f + 1, n, A, B, x, hf, hA, hB => by
    obtain ⟨nd, e, n0, hj⟩ := x.live g.wf
    have m : Mono (fun v => !(c.lt k (c.key v))) (elems t.heap H t.root) := by rw [g.seq]; exact s.upper
    obtain ⟨r, hr, hp⟩ := upperNode_split (nd := nd) (s.sub (g.seq ▸ x.vals_sublist g.wf e))
    cases j with
    | zero =>
      obtain ⟨X, Y, q, h1, h2⟩ := hp.leaf x e hA hB
      refine ⟨⟨n, r⟩, X, Y, ?_, q, h1, h2⟩
      unfold locateUpper
      simp [e, hr, (g.wf.leaf_iff e n0).2 hj]
    | succ j =>
      obtain ⟨z, A', B', hz, y, h1, h2⟩ := descend_ok g.wf m x e hA hB hp
      obtain ⟨it, X, Y, ei, hit⟩ := locateUpper_split j f y (by omega) h1 h2
      refine ⟨it, X, Y, ?_, hit⟩
      unfold locateUpper
      simp [e, hr, g.wf.leaf_false e n0 (by omega), hz, ei]

theorem locateTo_split (hc : c.cmpTo = true) : ∀ (j f : Nat) {n : Nat} {A B : List α},
    Ctx t.heap t.root H j n A B → j < f → (∀ x ∈ A ++ B, c.lt (c.key x) k = true → c.lt k (c.key x) = false) →
    (∀ a ∈ A, c.lt (c.key a) k = true) → (∀ b ∈ B, (!(c.lt k (c.key b))) = false) →
    ∃ it b X Y j', locateTo c t.heap k f n = some (it, b) ∧ Pt t.heap t.root H j' it.node it.pos X Y ∧
      (if b then it.pos < (valsOf t.heap it.node).length ∧ ∃ v Y', Y = v :: Y' ∧ KeyEquiv c.lt (c.key v) k
       else j' = 0 ∧ (∀ a ∈ X, c.lt (c.key a) k = true) ∧ (∀ b ∈ Y, (!(c.lt k (c.key b))) = false))
  | j, 0, _, _, _, _, hf, _, _, _ => absurd hf (Nat.not_lt_zero _)
  | j, f + 1, n, A, B, x, hf, hAB, hA, hB => by
    obtain ⟨nd, e, n0, hj⟩ := x.live g.wf
    have m : Mono (fun v => c.lt (c.key v) k) (elems t.heap H t.root) := by rw [g.seq]; exact s.lower
    have m' : Mono (fun v => !(c.lt k (c.key v))) (elems t.heap H t.root) := by rw [g.seq]; exact s.upper
    have sn := s.sub (g.seq ▸ x.vals_sublist g.wf e)
    obtain ⟨r, hr, _, _, hq⟩ := lowerNode_split (nd := nd) sn
    rw [if_pos hc] at hq
    cases hb : r.eq with
    | true =>
      rw [hb, if_pos rfl] at hq
      obtain ⟨v, hv, hve⟩ := hq
      obtain ⟨hlt, _⟩ := List.getElem?_eq_some_iff.1 hv
      have p : Pt t.heap t.root H j n r.value (A ++ pre t.heap j n r.value) (post t.heap j n r.value ++ B) :=
        ⟨A, B, x, by rw [valsOf_eq e]; omega, rfl, rfl⟩
      refine ⟨⟨n, r.value⟩, true, _, _, j, ?_, p, ?_⟩
      · unfold locateTo; simp [e, hr, hb]
      · simp only [if_true]
        refine ⟨by rw [valsOf_eq e]; exact hlt, ?_⟩
        obtain ⟨Y', hY'⟩ := p.value g.wf e hv
        exact ⟨v, Y', hY', hve⟩
    | false =>
      rw [hb, if_neg (by simp)] at hq
      obtain ⟨hq, hp⟩ := hq
      have hp' : Part (fun v => !(c.lt k (c.key v))) nd.vals r.value := by
        refine ⟨hp.1, ?_, ?_⟩
        · intro v hv
          have := sn.apart v (List.mem_of_mem_take hv) (hp.2.1 v hv)
          simp [this]
        · intro v hv
          have h1 := hp.2.2 v hv
          have h2 := hq v (List.mem_of_mem_drop hv)
          cases h3 : c.lt k (c.key v) with
          | true => simp [h3]
          | false => exact absurd ⟨h1, h3⟩ h2
      have hA' : ∀ a ∈ A, (!(c.lt k (c.key a))) = true := by
        intro a ha
        have := hAB a (by simp [ha]) (hA a ha)
        simp [this]
      have hB' : ∀ b ∈ B, c.lt (c.key b) k = false := by
        intro b hb
        have h1 := hB b hb
        simp only [Bool.not_eq_eq_eq_not, Bool.not_false] at h1
        cases h2 : c.lt (c.key b) k with
        | false => rfl
        | true => rw [hAB b (by simp [hb]) h2] at h1; cases h1
      cases j with
      | zero =>
        obtain ⟨X, Y, q, h1, h2⟩ := hp'.leaf x e hA' hB
        obtain ⟨X', Y', q', h1', h2'⟩ := hp.leaf x e hA hB'
        obtain ⟨rfl, rfl⟩ := q.det g.wf q'
        refine ⟨⟨n, r.value⟩, false, X, Y, 0, ?_, q, by simpa using ⟨h1', by simpa using h2⟩⟩
        unfold locateTo
        simp [e, hr, hb, (g.wf.leaf_iff e n0).2 hj]
      | succ j =>
        obtain ⟨z, A', B', hz, y, h1, h2⟩ := descend_ok g.wf m' x e hA' hB hp'
        obtain ⟨z', A'', B'', hz', y', h1', h2'⟩ := descend_ok g.wf m x e hA hB' hp
        rw [hz] at hz'; cases hz'
        obtain ⟨rfl, rfl⟩ := y.det g.wf y'
        have hAB' : ∀ x ∈ A' ++ B', c.lt (c.key x) k = true → c.lt k (c.key x) = false := by
          intro x hx
          refine s.apart x ?_
          rw [← g.seq, y.total g.wf]
          rcases List.mem_append.1 hx with h | h <;> simp [h]
        obtain ⟨it, b, X, Y, j', ei, hit⟩ := locateTo_split hc j f y (by omega) hAB' h1' h2
        refine ⟨it, b, X, Y, j', ?_, hit⟩
        unfold locateTo
        simp [e, hr, hb, g.wf.leaf_false e n0 (by omega), hz, ei]

/-- What lower_bound says in every case. -/
theorem lower_pt_split : ∃ it X Y, locatePlain c t.heap k (t.heap.length + 1) t.root = some it ∧
    Pt t.heap t.root H 0 it.node it.pos X Y ∧
      (∀ a ∈ X, c.lt k (c.key a) = false) ∧ (∀ b ∈ Y, c.lt (c.key b) k = false) ∧
      (Sharp c k L → ∀ a ∈ X, c.lt (c.key a) k = true) := by
  obtain ⟨it, X, Y, e, p, h1, h2⟩ := locatePlain_split (c := c) (k := k) g s.upper s.lower
    (fun nd hnd => by
      obtain ⟨r, hr, hp, _⟩ := lowerNode_split (nd := nd) (s.sub hnd)
      exact ⟨r, hr, hp⟩) H _ g.root_ctx g.fuel (by simp) (by simp)
  refine ⟨it, X, Y, e, p, by simpa using h1, h2, ?_⟩
  intro sh
  obtain ⟨it', X', Y', e', p', h1', h2'⟩ := locatePlain_split (c := c) (k := k) g s.lower s.lower
    (fun nd hnd => by
      obtain ⟨r, hr, _, hp, _⟩ := lowerNode_split (nd := nd) (s.sub hnd)
      exact ⟨r, hr, hp (sh.sub hnd)⟩) H _ g.root_ctx g.fuel (by simp) (by simp)
  rw [e] at e'; cases e'
  obtain ⟨rfl, rfl⟩ := p.det g.wf p'
  exact h1'

theorem internalFind_split : ∃ r, internalFind c t k = some r ∧
    (match r with
      | some it => ∃ X v Y, Cur t H it X (v :: Y) ∧ KeyEquiv c.lt (c.key v) k ∧
          (c.cmpTo = false → ∀ a ∈ X, c.lt (c.key a) k = true)
      | none => ∀ v ∈ L, ¬ KeyEquiv c.lt (c.key v) k) := by
  cases hc : c.cmpTo with
  | true =>
    obtain ⟨it, b, X, Y, j, e, p, h⟩ := locateTo_split g s hc H _ g.root_ctx g.fuel (by simp) (by simp) (by simp)
    cases b with
    | true =>
      simp only [if_true] at h
      obtain ⟨hlt, v, Y', rfl, hv⟩ := h
      exact ⟨some it, by simp [internalFind, internalLocate, hc, e], X, v, Y', ⟨j, p, .inl hlt⟩, hv, by simp⟩
    | false =>
      simp only [Bool.false_eq_true, if_false] at h
      obtain ⟨rfl, h1, h2⟩ := h
      refine ⟨none, by simp [internalFind, internalLocate, hc, e], ?_⟩
      intro v hv hk
      rw [← g.seq, ← p.total g.wf] at hv
      rcases List.mem_append.1 hv with hv | hv
      · have := h1 v hv
        rw [hk.1] at this; cases this
      · have := h2 v hv
        rw [hk.2] at this; cases this
  | false =>
    obtain ⟨it, X, Y, e, p, _, hY, hX⟩ := lower_pt_split g s
    have hX := hX (fun h => by rw [hc] at h; cases h)
    obtain ⟨r, er, hr, hi⟩ := last_ok g p
    have tot := p.total g.wf
    rw [g.seq] at tot
    cases r with
    | none =>
      have hr : Y = [] := hr
      subst hr
      refine ⟨none, by simp [internalFind, internalLocate, hc, e, er], ?_⟩
      intro v hv hk
      rw [← tot] at hv
      have := hX v (by simpa using hv)
      rw [hk.1] at this; cases this
    | some r =>
      obtain ⟨hne, q⟩ := hr
      obtain ⟨v, Y', rfl⟩ := List.exists_cons_of_ne_nil hne
      have hd : deref t.heap r = some v := by
        obtain ⟨j, q, hq⟩ := q
        obtain ⟨nd, en, n0, hk, hi⟩ := q.live g.wf
        have hlt : r.pos < nd.vals.length := by
          rcases hq with hq | hq
          · rwa [valsOf_eq en] at hq
          · obtain ⟨A', ld, x, e', hL⟩ := g.rm_last
            subst hq
            have q' := g.end_pt
            obtain ⟨_, e'', n0', hk'⟩ := x.live g.wf
            have hj : j = 0 := by rw [← hk, ← hk']
            subst hj
            have := (q.det g.wf q').2
            simp at this
        obtain ⟨Y'', hY''⟩ := q.value g.wf en (List.getElem?_eq_getElem hlt)
        cases hY''
        simp [deref, en, hlt]
      have hv : c.lt (c.key v) k = false := hY v (by simp)
      cases hk : c.lt k (c.key v) with
      | false =>
        exact ⟨some r, by simp [internalFind, internalLocate, hc, e, er, hd, hk], X, v, Y', q, ⟨hv, hk⟩, fun _ => hX⟩
      | true =>
        refine ⟨none, by simp [internalFind, internalLocate, hc, e, er, hd, hk], ?_⟩
        intro b hb hkb
        rw [← tot] at hb
        rcases List.mem_append.1 hb with hb | hb
        · have := hX b hb
          rw [hkb.1] at this; cases this
        · have m := s.upper
          rw [← tot] at m
          have h0 : (!(c.lt k (c.key b))) = false := by
            rcases List.mem_cons.1 hb with rfl | hb
            · simp [hk]
            · exact m.back (by simp [hk]) b hb
          rw [hkb.2] at h0; cases h0

end

section
variable {c : Cfg α κ} {k : κ} {t : Tree α} {L : List α} {z : Prop} (r : RepZ z c t L) (s : Split c k L)
include r s

theorem RepZ.lowerSplit : ∃ it X Y, t.lowerBound c k = some it ∧ t.iterAt X.length = some it ∧ X ++ Y = L ∧
    (∀ a ∈ X, c.lt k (c.key a) = false) ∧ (∀ b ∈ Y, c.lt (c.key b) k = false) ∧
    (Sharp c k L → ∀ a ∈ X, c.lt (c.key a) k = true) := by
  rcases r with ⟨e, rfl⟩ | ⟨_, _, g, _⟩
  · exact ⟨_, [], [], by simp [Tree.lowerBound, e.lower, internalEnd, e.end], e.iterAt, rfl, by simp, by simp, by simp⟩
  · obtain ⟨it, X, Y, e, p, h⟩ := lower_pt_split g s
    obtain ⟨rr, er, hr, it', ei, q⟩ := last_ok g p
    exact ⟨it', X, Y, by simp [Tree.lowerBound, internalLowerBound, e, er, ei], q.iterAt g, by rw [p.total g.wf, g.seq], h⟩

theorem RepZ.upperSplit : ∃ it X Y, t.upperBound c k = some it ∧ t.iterAt X.length = some it ∧ X ++ Y = L ∧
    (∀ a ∈ X, c.lt k (c.key a) = false) ∧ (∀ b ∈ Y, c.lt k (c.key b) = true) := by
  rcases r with ⟨e, rfl⟩ | ⟨_, _, g, _⟩
  · exact ⟨_, [], [], by simp [Tree.upperBound, e.upper, internalEnd, e.end], e.iterAt, rfl, by simp, by simp⟩
  · obtain ⟨it, X, Y, e, p, h1, h2⟩ := locateUpper_split g s _ _ g.root_ctx g.fuel (by simp) (by simp)
    obtain ⟨rr, er, hr, it', ei, q⟩ := last_ok g p
    exact ⟨it', X, Y, by simp [Tree.upperBound, internalUpperBound, e, er, ei], q.iterAt g, by rw [p.total g.wf, g.seq],
      by simpa using h1, by simpa using h2⟩

theorem RepZ.findSplit :
    (∃ it X v Y, Btree.internalFind c t k = some (some it) ∧ X ++ v :: Y = L ∧ t.iterAt X.length = some it ∧
      KeyEquiv c.lt (c.key v) k ∧ (c.cmpTo = false → ∀ a ∈ X, c.lt (c.key a) k = true)) ∨
    (Btree.internalFind c t k = some none ∧ ∀ v ∈ L, ¬ KeyEquiv c.lt (c.key v) k) := by
  rcases r with ⟨e, rfl⟩ | ⟨_, _, g, _⟩
  · exact .inr ⟨e.find k, by simp⟩
  · obtain ⟨rr, e, h⟩ := internalFind_split g s
    cases rr with
    | none => exact .inr ⟨e, h⟩
    | some it =>
      obtain ⟨X, v, Y, q, hv⟩ := h
      exact .inl ⟨it, X, v, Y, e, q.total g, q.iterAt g, hv⟩

/-- The elements equivalent to `k` are together, between lower_bound and upper_bound. -/
theorem RepZ.betweenSplit (sh : Sharp c k L) : ∃ X M Z a b, X ++ M ++ Z = L ∧ t.lowerBound c k = some a ∧
    t.iterAt X.length = some a ∧ t.upperBound c k = some b ∧ t.iterAt (X ++ M).length = some b ∧
    (∀ a ∈ X, c.lt (c.key a) k = true) ∧ (∀ a ∈ M, KeyEquiv c.lt (c.key a) k) ∧ (∀ a ∈ Z, c.lt k (c.key a) = true) := by
  obtain ⟨a, X, Y, ea, ia, hL, _, hY, hX⟩ := r.lowerSplit s
  have hX := hX sh
  obtain ⟨b, X', Z, eb, ib, hL', hX', hZ⟩ := r.upperSplit s
  have hle : X.length ≤ X'.length := by
    by_contra hc
    have h1 : X'.length < X.length := by omega
    have hlt : X'.length < L.length := by rw [← hL]; simp; omega
    have h2 : X[X'.length]? = some L[X'.length] := by
      rw [← List.getElem?_eq_getElem hlt, ← hL, List.getElem?_append_left h1]
    have h3 : Z[0]? = some L[X'.length] := by
      rw [← List.getElem?_eq_getElem hlt, ← hL', List.getElem?_append_right (Nat.le_refl _)]; simp
    have h4 := hX _ (List.mem_of_getElem? h2)
    have h5 := hZ _ (List.mem_of_getElem? h3)
    rw [s.apart _ (List.getElem_mem hlt) h4] at h5
    cases h5
  have hpre : ∃ M, X' = X ++ M := by
    have h1 : X <+: L := ⟨Y, hL⟩
    have h2 : X' <+: L := ⟨Z, hL'⟩
    obtain ⟨M, hM⟩ := List.prefix_of_prefix_length_le h1 h2 hle
    exact ⟨M, hM.symm⟩
  obtain ⟨M, rfl⟩ := hpre
  refine ⟨X, M, Z, a, b, hL', ea, ia, eb, ib, hX, ?_, hZ⟩
  intro v hv
  have hYM : Y = M ++ Z := by
    rw [← hL, List.append_assoc] at hL'
    exact (List.append_cancel_left hL').symm
  exact ⟨hY v (by rw [hYM]; simp [hv]), hX' v (by simp [hv])⟩

theorem RepZ.countSplit (sh : Sharp c k L) : t.countMulti c k = some (L.countP (same c.key c.lt k)) := by
  obtain ⟨A, M, Z, a, b, hAZ, ea, ia, eb, ib, hA, hM, hZ⟩ := r.betweenSplit s sh
  obtain ⟨f1, f2, f3⟩ := filter_middle hA hM hZ
  rw [hAZ] at f1 f2
  rw [f2]
  have := r.distance_ok hAZ ia (by simpa using ib)
  simp [Tree.countMulti, ea, eb, this]

omit r in
theorem eraseMulti_split (hK : 3 ≤ c.K) (r : Rep c t L) (sh : Sharp c k L) :
    ∃ t', eraseMulti c t k = some (L.countP (same c.key c.lt k), t') ∧
      Rep c t' (L.filter fun v => !same c.key c.lt k v) := by
  obtain ⟨A, M, Z, a, b, hAZ, ea, ia, eb, ib, hA, hM, hZ⟩ := r.betweenSplit s sh
  obtain ⟨f1, f2, f3⟩ := filter_middle hA hM hZ
  rw [hAZ] at f1 f2
  rw [f1, f2]
  unfold Tree.lowerBound at ea
  unfold Tree.upperBound at eb
  obtain ⟨x, ex, ea⟩ := Option.bind_eq_some_iff.1 ea
  obtain ⟨y, ey, eb⟩ := Option.bind_eq_some_iff.1 eb
  unfold eraseMulti
  rw [ex]
  cases x with
  | none =>
    have hend : t.end = some a := ea
    have hlen := (r.at_end (by rw [← hAZ]; simp) ia hend).1 rfl
    have hMZ : M = [] ∧ Z = [] := by
      have := congrArg List.length hAZ
      simp only [List.length_append] at this
      constructor <;> exact List.length_eq_zero_iff.1 (by omega)
    obtain ⟨rfl, rfl⟩ := hMZ
    refine ⟨t, rfl, ?_⟩
    rw [← hAZ] at r
    simpa using r
  | some x =>
    have hx : x = a := Option.some.inj ea
    subst hx
    obtain ⟨b', t', e', r', _⟩ := eraseRange_ok hK (X := A) (M := M) (Y := Z) (by rw [hAZ]; exact r) ia ib
    refine ⟨t', ?_, r'⟩
    simp only [Option.bind_eq_bind, Option.bind_some, ey, eb, e']

end

/-! ### The comparisons with what is looked up -/

section
variable {c : Cfg α κ} {q : Query κ} {L : List α}

theorem ask_split (o : StrictWeak c.lt) (f : Fits c.lt q) {m : Bool} (s : Sorted m c.key c.lt L) :
    Split (c.ask q) none L := by
  refine ⟨(s.weak o).imp fun h => f.down _ _ h, (s.weak o).imp ?_, fun v _ => f.apart _⟩
  intro a b h hb
  have hb : q.above (c.key b) = false := by simpa [Cfg.ask] using hb
  show (!q.above (c.key a)) = true
  cases ha : q.above (c.key a) with
  | false => rfl
  | true => rw [f.up _ _ h ha] at hb; cases hb

theorem ask_equiv {v : α} : KeyEquiv (c.ask q).lt ((c.ask q).key v) none ↔ q.hits (c.key v) = true := by
  simp [KeyEquiv, Cfg.ask, Query.hits]

theorem ask_same : same (c.ask q).key (c.ask q).lt none = fun v => q.hits (c.key v) := by
  funext v
  simp [same, Cfg.ask, Query.hits]

theorem ask_once (h : L.countP (fun v => q.hits (c.key v)) ≤ 1) : Once (c.ask q) none L := by
  rw [List.countP_eq_length_filter] at h
  have hp : (L.filter fun v => q.hits (c.key v)).Pairwise fun _ _ => False := by
    generalize (L.filter fun v => q.hits (c.key v)) = l at h
    rcases l with _ | ⟨a, _ | ⟨b, l⟩⟩
    · simp
    · simp
    · simp at h
  rw [List.pairwise_filter] at hp
  refine hp.imp ?_
  intro a b h ha hb
  exact h (ask_equiv.1 ha) (ask_equiv.1 hb)

/-- lower_bound stays before the last match, also when the search stops at any match. -/
theorem RepZ.lowerLast {t : Tree α} {z : Prop} (o : StrictWeak c.lt) (f : Fits c.lt q) (r : RepZ z c t L)
    (s : Sorted c.multi c.key c.lt L) (hm : c.multi = false) (hc : c.cmpTo = true) {w : α} (hw : w ∈ L)
    (hq : q.hits (c.key w) = true)
    (hl : ∀ v ∈ L, q.hits (c.key v) = true → c.lt (c.key w) (c.key v) = false) :
    ∃ it X Y, t.lowerBound (c.ask q) none = some it ∧ t.iterAt X.length = some it ∧ X ++ Y = L ∧
      (∀ a ∈ X, c.lt (c.key a) (c.key w) = true) ∧ (∀ b ∈ Y, q.below (c.key b) = false) := by
  have sp := ask_split o f s
  rcases (RepZ.ask (q := q)).2 r with ⟨_, rfl⟩ | ⟨_, _, g, _⟩
  · cases hw
  · obtain ⟨it, X, Y, e, p, hX, hY⟩ := locatePlain_split (c := c.ask q) (k := none) g (mono_lower o s (c.key w)) sp.lower
      (fun nd hnd => by
        obtain ⟨r, hr, ⟨h1, h2, h3⟩, _, h4⟩ := lowerNode_split (nd := nd) (sp.sub hnd)
        refine ⟨r, hr, h1, ?_, h3⟩
        rw [if_pos (show (c.ask q).cmpTo = true from hc)] at h4
        cases he : r.eq with
        | true =>
          rw [he, if_pos rfl] at h4
          obtain ⟨v, hv, hk⟩ := h4
          intro x hx
          obtain ⟨i, hi, rfl⟩ := List.mem_take_iff_getElem.1 hx
          obtain ⟨hlt, hv'⟩ := List.getElem?_eq_some_iff.1 hv
          have su := s.sublist o hnd
          rw [hm] at su
          simp only [Sorted, Bool.false_eq_true, if_false] at su
          have h5 := List.pairwise_iff_getElem.1 su i r.value (by omega) hlt (by omega)
          rw [hv'] at h5
          rcases o.incomp _ (c.key w) _ h5 with h6 | h6
          · exact h6
          · rw [hl v (hnd.subset (hv' ▸ List.getElem_mem hlt)) (ask_equiv.1 hk)] at h6; cases h6
        | false =>
          rw [he, if_neg (by simp)] at h4
          intro x hx
          have hb : q.below (c.key x) = true := h4.2.2.1 x hx
          cases h6 : c.lt (c.key x) (c.key w) with
          | true => rfl
          | false =>
            have := f.down _ _ h6 hb
            simp [Query.hits, this] at hq) _ _ g.root_ctx g.fuel (by simp) (by simp)
    obtain ⟨rr, er, hr, it', ei, qc⟩ := last_ok g p
    exact ⟨it', X, Y, by simp [Tree.lowerBound, internalLowerBound, e, er, ei], qc.iterAt g,
      by rw [p.total g.wf, g.seq], hX, hY⟩

end
end Gtl.Btree
