import Verif.Btree.NodeSplit
/-
Iterators as places in the sequence of values: `Pt ... n i X Y` says that slot `i`
of node `n` is where `X` ends and `Y` begins.
-/
set_option linter.unusedSectionVars false
namespace Gtl.Btree
variable {α κ : Type}

/-- What is below node `n` of height `k` before its slot `i`. -/
def pre (h : Heap α) : Nat → Nat → Nat → List α
  | 0, n, i => (valsOf h n).take i
  | k + 1, n, i => inter (((kidsOf h n).take (i + 1)).map (elems h k)) ((valsOf h n).take i)

/-- What is below node `n` of height `k` from its slot `i` on. -/
def post (h : Heap α) : Nat → Nat → Nat → List α
  | 0, n, i => (valsOf h n).drop i
  | k + 1, n, i => zB ((valsOf h n).drop i) (((kidsOf h n).drop (i + 1)).map (elems h k))

/-- Slot `i` of node `n` of height `k` is between `X` and `Y`. -/
def Pt (h : Heap α) (root H k n i : Nat) (X Y : List α) : Prop :=
  ∃ A B, Ctx h root H k n A B ∧ i ≤ (valsOf h n).length ∧ X = A ++ pre h k n i ∧ Y = post h k n i ++ B

/-- Every node but those of `E` has a value. -/
def Full (h : Heap α) (E : Nat → Prop) : Prop :=
  ∀ n nd, h.get n = some nd → n ≠ 0 → ¬ E n → 1 ≤ nd.vals.length

variable {c : Cfg α κ} {h : Heap α} {root H : Nat} {ht : Nat → Nat}

section
variable (w : WF c h root H ht)
include w

theorem pre_post {k n i : Nat} {nd : Node α} (e : h.get n = some nd) (n0 : n ≠ 0) (hk : ht n = k)
    (hi : i ≤ nd.vals.length) : pre h k n i ++ post h k n i = elems h k n := by
  cases k with
  | zero => simp [pre, post, elems]
  | succ k =>
    have hl := w.kids_len e n0 (by omega)
    simp only [pre, post, elems, valsOf_eq e, kidsOf_eq e]
    rw [← inter_zB _ _ _ _ (by simp; omega) (by simp; omega), ← List.map_append, List.take_append_drop,
      List.take_append_drop]

theorem Pt.total {k n i : Nat} {X Y : List α} (p : Pt h root H k n i X Y) : X ++ Y = elems h H root := by
  obtain ⟨A, B, x, hi, rfl, rfl⟩ := p
  obtain ⟨nd, e, n0, hk⟩ := x.live w
  rw [valsOf_eq e] at hi
  rw [x.total w, ← pre_post w e n0 hk hi]
  simp

theorem Pt.det {k n i : Nat} {X Y X' Y' : List α} (p : Pt h root H k n i X Y) (q : Pt h root H k n i X' Y') :
    X = X' ∧ Y = Y' := by
  obtain ⟨A, B, x, hi, rfl, rfl⟩ := p
  obtain ⟨A', B', x', hi', rfl, rfl⟩ := q
  obtain ⟨rfl, rfl⟩ := x.det w x'
  exact ⟨rfl, rfl⟩

theorem Pt.live {k n i : Nat} {X Y : List α} (p : Pt h root H k n i X Y) :
    ∃ nd, h.get n = some nd ∧ n ≠ 0 ∧ ht n = k ∧ i ≤ nd.vals.length := by
  obtain ⟨A, B, x, hi, -, -⟩ := p
  obtain ⟨nd, e, n0, hk⟩ := x.live w
  exact ⟨nd, e, n0, hk, by rwa [valsOf_eq e] at hi⟩

theorem WF.pt {n i : Nat} {nd : Node α} (e : h.get n = some nd) (n0 : n ≠ 0) (hi : i ≤ nd.vals.length) :
    ∃ X Y, Pt h root H (ht n) n i X Y := by
  obtain ⟨A, B, x⟩ := w.ctx' e n0
  exact ⟨_, _, A, B, x, by rwa [valsOf_eq e], rfl, rfl⟩

/-- The value in a slot. -/
theorem Pt.value {k n i : Nat} {nd : Node α} {v : α} {X Y : List α} (p : Pt h root H k n i X Y)
    (e : h.get n = some nd) (hv : nd.vals[i]? = some v) : ∃ Y', Y = v :: Y' := by
  obtain ⟨A, B, x, hi, rfl, rfl⟩ := p
  obtain ⟨nd', e', n0, hk⟩ := x.live w
  rw [e] at e'; cases e'
  obtain ⟨hlt, hg⟩ := List.getElem?_eq_some_iff.1 hv
  cases k with
  | zero =>
    simp only [post, valsOf_eq e]
    rw [← List.getElem_cons_drop hlt, hg]
    exact ⟨_, rfl⟩
  | succ k =>
    have hl := w.kids_len e n0 (by omega)
    simp only [post, valsOf_eq e, kidsOf_eq e]
    rw [← List.getElem_cons_drop hlt, hg, ← List.getElem_cons_drop (i := i + 1) (as := nd.kids) (by omega),
      List.map_cons]
    exact ⟨_, rfl⟩

/-- The end of a node is its place in the parent. -/
theorem Pt.up {k n : Nat} {nd : Node α} {X Y : List α} (p : Pt h root H k n nd.vals.length X Y)
    (e : h.get n = some nd) (hr : n ≠ root) : Pt h root H (k + 1) nd.parent nd.position X Y := by
  obtain ⟨A, B, x, hi, rfl, rfl⟩ := p
  obtain ⟨nd', e', n0, hk⟩ := x.live w
  rw [e] at e'; cases e'
  cases x with
  | root => exact absurd rfl hr
  | @kid _ q qd i _ A B xq eq hi2 =>
    obtain ⟨_, _, q0, hqk⟩ := xq.live w
    obtain ⟨_, _, _, xd, ex, e1, e2⟩ := w.kid _ _ _ _ eq q0 hi2
    rw [e] at ex; cases ex
    rw [e1, e2]
    have hl := w.kids_len eq q0 (by omega)
    obtain ⟨hlt, hg⟩ := List.getElem?_eq_some_iff.1 hi2
    refine ⟨A, B, xq, by rw [valsOf_eq eq]; omega, ?_, ?_⟩
    · have h1 := pre_post w e n0 hk (Nat.le_refl _)
      have h2 : post h k n nd.vals.length = [] := by
        cases k <;> simp [post, valsOf_eq e]
      rw [h2, List.append_nil] at h1
      rw [h1, List.append_assoc]
      congr 1
      simp only [pre, valsOf_eq eq, kidsOf_eq eq]
      rw [List.take_succ_eq_append_getElem hlt, hg, List.map_append, ← List.append_nil (qd.vals.take i),
        inter_zF _ _ _ _ (by simp; omega)]
      simp
    · have h2 : post h k n nd.vals.length = [] := by
        cases k <;> simp [post, valsOf_eq e]
      rw [h2, List.nil_append]
      simp only [post, valsOf_eq eq, kidsOf_eq eq]

/-- Nothing after a node: it is on the right edge. -/
theorem Ctx.rm_eq {k n : Nat} {A B : List α} (x : Ctx h root H k n A B) (hB : B = []) : rm h H root = rm h k n := by
  induction x with
  | root => rfl
  | @kid k q qd i z A B xq eq hi2 ih =>
    obtain ⟨_, _, q0, hqk⟩ := xq.live w
    have hl := w.kids_len eq q0 (by omega)
    obtain ⟨hlt, hg⟩ := List.getElem?_eq_some_iff.1 hi2
    have h1 := List.append_eq_nil_iff.1 hB
    have hlast : i = qd.vals.length := by
      by_contra hne
      have : i < qd.vals.length := by omega
      have h2 := h1.1
      rw [← List.getElem_cons_drop this, ← List.getElem_cons_drop (i := i + 1) (as := qd.kids) (by omega),
        List.map_cons, zB_cons] at h2
      cases h2
    rw [ih h1.2, rm_succ (x := z)]
    rw [kidsOf_eq eq, List.getLast?_eq_getElem?, hl, hlast.symm]
    exact hi2

/-- Nothing before a node: it is on the left edge. -/
theorem Ctx.lm_eq {k n : Nat} {A B : List α} (x : Ctx h root H k n A B) (hA : A = []) : lm h H root = lm h k n := by
  induction x with
  | root => rfl
  | @kid k q qd i z A B xq eq hi2 ih =>
    obtain ⟨_, _, q0, hqk⟩ := xq.live w
    have hl := w.kids_len eq q0 (by omega)
    obtain ⟨hlt, hg⟩ := List.getElem?_eq_some_iff.1 hi2
    have h1 := List.append_eq_nil_iff.1 hA
    have hfirst : i = 0 := by
      by_contra hne
      have h2 := h1.2
      cases hk : qd.kids with
      | nil => rw [hk] at hl; simp at hl
      | cons a as =>
        cases hv : qd.vals with
        | nil => rw [hv] at hl; simp at hl; omega
        | cons b bs =>
          rw [hk, hv] at h2
          obtain ⟨j, rfl⟩ : ∃ j, i = j + 1 := ⟨i - 1, by omega⟩
          simp at h2
    subst hfirst
    rw [ih h1.1, lm_succ (x := z)]
    rw [kidsOf_eq eq, List.head?_eq_getElem?]
    exact hi2

/-- The last leaf below a node. -/
theorem Ctx.rm_ctx {k n : Nat} {A B : List α} (x : Ctx h root H k n A B) :
    ∃ A', Ctx h root H 0 (rm h k n) A' B ∧ A ++ elems h k n = A' ++ valsOf h (rm h k n) := by
  induction k generalizing n A B with
  | zero => exact ⟨A, x, rfl⟩
  | succ k ih =>
    obtain ⟨nd, e, n0, hk⟩ := x.live w
    have hl := w.kids_len e n0 (by omega)
    obtain ⟨z, hlast⟩ : ∃ z, nd.kids[nd.vals.length]? = some z :=
      ⟨nd.kids[nd.vals.length]'(by omega), List.getElem?_eq_getElem _⟩
    have y := Ctx.kid x e hlast
    obtain ⟨A', zz, hz⟩ := ih y
    have hrm : rm h (k + 1) n = rm h k z := by
      apply rm_succ
      rw [kidsOf_eq e, List.getLast?_eq_getElem?, hl]
      exact hlast
    rw [hrm]
    refine ⟨A', ?_, ?_⟩
    · simpa using zz
    · rw [← hz, elems_kid e hl hlast]
      simp

/-- The first leaf below a node. -/
theorem Ctx.lm_ctx {k n : Nat} {A B : List α} (x : Ctx h root H k n A B) :
    ∃ B', Ctx h root H 0 (lm h k n) A B' ∧ elems h k n ++ B = valsOf h (lm h k n) ++ B' := by
  induction k generalizing n A B with
  | zero => exact ⟨B, x, rfl⟩
  | succ k ih =>
    obtain ⟨nd, e, n0, hk⟩ := x.live w
    have hl := w.kids_len e n0 (by omega)
    have hfirst : nd.kids[0]? = some (nd.kids[0]'(by omega)) := List.getElem?_eq_getElem _
    have y := Ctx.kid x e hfirst
    obtain ⟨B', z, hz⟩ := ih y
    have hlm : lm h (k + 1) n = lm h k (nd.kids[0]'(by omega)) := by
      apply lm_succ
      rw [kidsOf_eq e, List.head?_eq_getElem?]
      exact hfirst
    rw [hlm]
    refine ⟨B', ?_, ?_⟩
    · simpa using z
    · rw [← hz, elems_kid e hl hfirst]
      simp

end

/-! ### A place is one slot -/

/-- The slot at index `j` among the children `xs` of `n`, the first of which is
child `i`. -/
def locIn (f : Nat → Nat → It) (len : Nat → Nat) (n : Nat) : Nat → List Nat → Nat → It
  | i, [], _ => ⟨n, i⟩
  | i, x :: xs, j =>
    if j < len x then f x j else if j = len x then ⟨n, i⟩ else locIn f len n (i + 1) xs (j - len x - 1)

/-- The slot with the value at index `j` below node `n` of height `k`. -/
def loc (h : Heap α) : Nat → Nat → Nat → It
  | 0, n, j => ⟨n, j⟩
  | k + 1, n, j => locIn (loc h k) (fun x => (elems h k x).length) n 0 (kidsOf h n) j

theorem locIn_kid {f : Nat → Nat → It} {E : Nat → List α} (n x : Nat) :
    ∀ (xs : List Nat) (vs : List α) (ys : List Nat) (s j : Nat), xs.length = vs.length → j < (E x).length →
      locIn f (fun x => (E x).length) n s (xs ++ x :: ys) ((zF (xs.map E) vs).length + j) = f x j
  | [], [], ys, s, j, _, hj => by simp [locIn, hj]
  | a :: xs, v :: vs, ys, s, j, hl, hj => by
    simp only [List.length_cons, Nat.add_right_cancel_iff] at hl
    simp only [List.map_cons, zF_cons, List.length_append, List.length_cons, List.cons_append, locIn]
    rw [if_neg (by omega), if_neg (by omega)]
    have := locIn_kid (f := f) n x xs vs ys (s + 1) j hl hj
    rw [← this]
    congr 1
    omega

theorem locIn_val {f : Nat → Nat → It} {E : Nat → List α} (n : Nat) :
    ∀ (xs : List Nat) (vs : List α) (ys : List Nat) (s : Nat), xs.length = vs.length + 1 →
      locIn f (fun x => (E x).length) n s (xs ++ ys) (inter (xs.map E) vs).length = ⟨n, s + vs.length⟩
  | [x], [], ys, s, _ => by simp [locIn]
  | a :: b :: xs, v :: vs, ys, s, hl => by
    simp only [List.length_cons, Nat.add_right_cancel_iff] at hl
    have := locIn_val (f := f) (E := E) n (b :: xs) vs ys (s + 1) (by simp [hl])
    rw [List.map_cons, inter_cons, List.length_append, List.length_cons, List.cons_append, locIn]
    rw [if_neg (by omega), if_neg (by omega)]
    rw [show (E a).length + ((inter (List.map E (b :: xs)) vs).length + 1) - (E a).length - 1 =
      (inter (List.map E (b :: xs)) vs).length by omega, this]
    simp; omega

section
variable (w : WF c h root H ht)
include w

theorem Ctx.loc_eq {k n : Nat} {A B : List α} (x : Ctx h root H k n A B) (j : Nat) (hj : j < (elems h k n).length) :
    loc h H root (A.length + j) = loc h k n j := by
  induction x generalizing j with
  | root => simp
  | @kid k q qd i z A B xq eq hi2 ih =>
    obtain ⟨_, _, q0, hqk⟩ := xq.live w
    have hl := w.kids_len eq q0 (by omega)
    obtain ⟨hlt, hg⟩ := List.getElem?_eq_some_iff.1 hi2
    have e1 := elems_kid (k := k) eq hl hi2
    rw [List.length_append, Nat.add_assoc, ih _ (by rw [e1]; simp only [List.length_append]; omega)]
    simp only [loc, kidsOf_eq eq]
    have e2 : qd.kids = qd.kids.take i ++ z :: qd.kids.drop (i + 1) := by
      rw [← hg, List.getElem_cons_drop, List.take_append_drop]
    have := locIn_kid (f := loc h k) (E := elems h k) q z (qd.kids.take i) (qd.vals.take i) (qd.kids.drop (i + 1)) 0 j
      (by simp; omega) hj
    rw [← e2] at this
    exact this

/-- The slot of a value is determined by its index. -/
theorem Pt.loc_eq {k n i : Nat} {nd : Node α} {X Y : List α} (p : Pt h root H k n i X Y)
    (e : h.get n = some nd) (hi : i < nd.vals.length) : loc h H root X.length = ⟨n, i⟩ := by
  obtain ⟨A, B, x, hi', rfl, rfl⟩ := p
  obtain ⟨nd', e', n0, hk⟩ := x.live w
  rw [e] at e'; cases e'
  rw [List.length_append, x.loc_eq w _ (by
    have := pre_post w e n0 hk (Nat.le_of_lt hi)
    rw [← this, List.length_append]
    have : post h k n i ≠ [] := by
      cases k with
      | zero => simp [post, valsOf_eq e]; omega
      | succ k =>
        have hl := w.kids_len e n0 (by omega)
        simp only [post, valsOf_eq e, kidsOf_eq e]
        rw [← List.getElem_cons_drop hi, ← List.getElem_cons_drop (i := i + 1) (as := nd.kids) (by omega),
          List.map_cons, zB_cons]
        exact List.cons_ne_nil _ _
    have := List.length_pos_iff.2 this
    omega)]
  cases k with
  | zero => simp only [loc, pre, valsOf_eq e, List.length_take, It.mk.injEq, true_and]; omega
  | succ k =>
    have hl := w.kids_len e n0 (by omega)
    simp only [loc, pre, valsOf_eq e, kidsOf_eq e]
    have := locIn_val (f := loc h k) (E := elems h k) n (nd.kids.take (i + 1)) (nd.vals.take i) (nd.kids.drop (i + 1)) 0
      (by simp; omega)
    rw [List.take_append_drop] at this
    rw [this]
    simp; omega

theorem Pt.unique {k n i k' n' i' : Nat} {nd nd' : Node α} {X Y X' Y' : List α} (p : Pt h root H k n i X Y)
    (p' : Pt h root H k' n' i' X' Y') (e : h.get n = some nd) (e' : h.get n' = some nd')
    (hi : i < nd.vals.length) (hi' : i' < nd'.vals.length) (hX : X.length = X'.length) : n = n' ∧ i = i' := by
  have a := p.loc_eq w e hi
  have b := p'.loc_eq w e' hi'
  rw [hX, b] at a
  cases a
  exact ⟨rfl, rfl⟩

end
end Gtl.Btree
