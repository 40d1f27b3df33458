import Verif.Btree.Heap
import Verif.Btree.Seq
import Mathlib.Data.Fintype.Card
/-
Well-formed trees of nodes: shapes and links of nodes, the sequence of values
below a node, its first and its last leaf, and the place of a node in the whole
sequence.
-/
namespace Gtl.Btree
variable {α κ : Type}

/-- The values of a node. -/
def valsOf (h : Heap α) (n : Nat) : List α := match h.get n with | some nd => nd.vals | none => []

/-- The children of a node. -/
def kidsOf (h : Heap α) (n : Nat) : List Nat := match h.get n with | some nd => nd.kids | none => []

theorem valsOf_eq {h : Heap α} {n : Nat} {nd : Node α} (e : h.get n = some nd) : valsOf h n = nd.vals := by
  simp [valsOf, e]
theorem kidsOf_eq {h : Heap α} {n : Nat} {nd : Node α} (e : h.get n = some nd) : kidsOf h n = nd.kids := by
  simp [kidsOf, e]

/-- The values below node `n` of height `k`, in order. -/
def elems (h : Heap α) : Nat → Nat → List α
  | 0, n => valsOf h n
  | k + 1, n => inter ((kidsOf h n).map (elems h k)) (valsOf h n)

/-- The first leaf below node `n` of height `k`. -/
def lm (h : Heap α) : Nat → Nat → Nat
  | 0, n => n
  | k + 1, n => match (kidsOf h n).head? with | some c => lm h k c | none => n

/-- The last leaf below node `n` of height `k`. -/
def rm (h : Heap α) : Nat → Nat → Nat
  | 0, n => n
  | k + 1, n => match (kidsOf h n).getLast? with | some c => rm h k c | none => n

/-- The shape of a node of height `k`. -/
def Shape (c : Cfg α κ) (k : Nat) (isRoot : Prop) (nd : Node α) : Prop :=
  (k = 0 ∧ nd.maxCount ≠ 0 ∧ nd.kids = [] ∧ nd.vals.length ≤ nd.maxCount ∧ nd.maxCount ≤ c.K ∧
    (¬ isRoot → nd.maxCount = c.K)) ∨
  (0 < k ∧ nd.maxCount = 0 ∧ nd.kids.length = nd.vals.length + 1 ∧ nd.vals.length ≤ c.K)

/-- The nodes are a tree with root `root` of height `H`, all leaves at height 0,
with consistent links in both directions. -/
structure WF (c : Cfg α κ) (h : Heap α) (root H : Nat) (ht : Nat → Nat) : Prop where
  zero : h.get 0 = some emptyNode
  root0 : root ≠ 0
  rootLive : ∃ nd, h.get root = some nd
  rootHt : ht root = H
  bound : ∀ n nd, h.get n = some nd → n ≠ 0 → ht n ≤ H
  shape : ∀ n nd, h.get n = some nd → n ≠ 0 → Shape c (ht n) (n = root) nd
  kid : ∀ n nd (i : Nat) x, h.get n = some nd → n ≠ 0 → nd.kids[i]? = some x →
    x ≠ 0 ∧ x ≠ root ∧ ht n = ht x + 1 ∧ ∃ xd, h.get x = some xd ∧ xd.parent = n ∧ xd.position = i
  par : ∀ n nd, h.get n = some nd → n ≠ 0 → n ≠ root →
    nd.parent ≠ 0 ∧ ∃ pd, h.get nd.parent = some pd ∧ pd.kids[nd.position]? = some n

variable {c : Cfg α κ} {h : Heap α} {root H : Nat} {ht : Nat → Nat}

namespace WF

theorem leaf_iff (w : WF c h root H ht) {n : Nat} {nd : Node α} (e : h.get n = some nd) (h0 : n ≠ 0) :
    nd.leaf = true ↔ ht n = 0 := by
  rcases w.shape n nd e h0 with s | s
  · simp [Node.leaf, s.1, s.2.1]
  · simp only [Node.leaf, s.2.1, bne_self_eq_false, Bool.false_eq_true, false_iff]; omega

theorem leaf_false (w : WF c h root H ht) {n : Nat} {nd : Node α} (e : h.get n = some nd) (h0 : n ≠ 0)
    (hk : 0 < ht n) : nd.leaf = false := by
  have := w.leaf_iff e h0
  cases hb : nd.leaf
  · rfl
  · rw [this.1 hb] at hk; omega

theorem kids_nil (w : WF c h root H ht) {n : Nat} {nd : Node α} (e : h.get n = some nd) (h0 : n ≠ 0)
    (hk : ht n = 0) : nd.kids = [] := by
  rcases w.shape n nd e h0 with s | s
  · exact s.2.2.1
  · omega

theorem kids_len (w : WF c h root H ht) {n : Nat} {nd : Node α} (e : h.get n = some nd) (h0 : n ≠ 0)
    (hk : 0 < ht n) : nd.kids.length = nd.vals.length + 1 := by
  rcases w.shape n nd e h0 with s | s
  · omega
  · exact s.2.2.1

theorem vals_le (w : WF c h root H ht) {n : Nat} {nd : Node α} (e : h.get n = some nd) (h0 : n ≠ 0) :
    nd.vals.length ≤ c.K := by
  rcases w.shape n nd e h0 with s | s
  · have := s.2.2.2.1; have := s.2.2.2.2.1; omega
  · exact s.2.2.2

theorem vals_le_cap (w : WF c h root H ht) {n : Nat} {nd : Node α} (e : h.get n = some nd) (h0 : n ≠ 0) :
    nd.vals.length ≤ nd.cap c := by
  unfold Node.cap
  rcases w.shape n nd e h0 with s | s
  · rw [if_neg s.2.1]; exact s.2.2.2.1
  · rw [if_pos s.2.1]; exact s.2.2.2

theorem cap_eq (w : WF c h root H ht) {n : Nat} {nd : Node α} (e : h.get n = some nd) (h0 : n ≠ 0)
    (hr : n ≠ root ∨ 0 < ht n) : nd.cap c = c.K := by
  unfold Node.cap
  rcases w.shape n nd e h0 with s | s
  · rw [if_neg s.2.1]
    rcases hr with hr | hr
    · exact s.2.2.2.2.2 hr
    · omega
  · rw [if_pos s.2.1]

/-- The kids of node `n`, one at a time. -/
theorem kid_mem (w : WF c h root H ht) {n x : Nat} {nd : Node α} (e : h.get n = some nd) (h0 : n ≠ 0)
    (hx : x ∈ nd.kids) :
    x ≠ 0 ∧ x ≠ root ∧ ht n = ht x + 1 ∧ ∃ xd, h.get x = some xd ∧ xd.parent = n ∧
      nd.kids[xd.position]? = some x := by
  obtain ⟨i, hi⟩ := List.getElem?_of_mem hx
  obtain ⟨a, b, d, xd, ex, ep, epos⟩ := w.kid n nd i x e h0 hi
  exact ⟨a, b, d, xd, ex, ep, by rw [epos]; exact hi⟩

theorem kids_nodup (w : WF c h root H ht) {n : Nat} {nd : Node α} (e : h.get n = some nd) (h0 : n ≠ 0) :
    nd.kids.Nodup := by
  rw [List.nodup_iff_injective_getElem]
  intro ⟨i, hi⟩ ⟨j, hj⟩ hij
  simp only at hij
  obtain ⟨_, _, _, xd, ex, _, epos⟩ := w.kid n nd i _ e h0 (List.getElem?_eq_getElem hi)
  obtain ⟨_, _, _, yd, ey, _, fpos⟩ := w.kid n nd j _ e h0 (List.getElem?_eq_getElem hj)
  rw [hij, ey] at ex
  cases ex
  exact Fin.ext (epos.symm.trans fpos)

/-- Different nodes have different kids. -/
theorem kids_disj (w : WF c h root H ht) {n m x : Nat} {nd md : Node α} (e : h.get n = some nd) (h0 : n ≠ 0)
    (f : h.get m = some md) (f0 : m ≠ 0) (hx : x ∈ nd.kids) (hy : x ∈ md.kids) : n = m := by
  obtain ⟨_, _, _, xd, ex, ep, _⟩ := w.kid_mem e h0 hx
  obtain ⟨_, _, _, yd, ey, fp, _⟩ := w.kid_mem f f0 hy
  rw [ex] at ey
  cases ey
  rw [← ep, ← fp]

theorem par_ht (w : WF c h root H ht) {n : Nat} {nd : Node α} (e : h.get n = some nd) (h0 : n ≠ 0)
    (hr : n ≠ root) : ht nd.parent = ht n + 1 := by
  obtain ⟨p0, pd, ep, hk⟩ := w.par n nd e h0 hr
  exact (w.kid _ _ _ _ ep p0 hk).2.2.1

theorem root_of_ht (w : WF c h root H ht) {n : Nat} {nd : Node α} (e : h.get n = some nd) (h0 : n ≠ 0)
    (hn : ht n = H) : n = root := by
  by_contra hr
  have h1 := w.par_ht e h0 hr
  obtain ⟨p0, pd, ep, -⟩ := w.par n nd e h0 hr
  have := w.bound _ _ ep p0
  omega

/-- There is a node at every height. -/
theorem ex_height (w : WF c h root H ht) : ∀ d, d ≤ H → ∃ n nd, h.get n = some nd ∧ n ≠ 0 ∧ ht n + d = H
  | 0, _ => by
    obtain ⟨nd, e⟩ := w.rootLive
    exact ⟨root, nd, e, w.root0, by simp [w.rootHt]⟩
  | d + 1, hd => by
    obtain ⟨n, nd, e, h0, hh⟩ := w.ex_height d (by omega)
    have hl := w.kids_len e h0 (by omega)
    have : nd.kids[0]? = some (nd.kids[0]'(by omega)) := List.getElem?_eq_getElem _
    obtain ⟨x0, _, hx, xd, ex, _⟩ := w.kid _ _ _ _ e h0 this
    exact ⟨_, xd, ex, x0, by omega⟩

/-- The fuel of the loops suffices. -/
theorem height_lt (w : WF c h root H ht) : H < h.length := by
  have hex : ∀ k : Fin (H + 1), ∃ n, ht n = k.1 ∧ n < h.length := by
    intro k
    obtain ⟨n, nd, e, -, hh⟩ := w.ex_height (H - k.1) (by omega)
    exact ⟨n, by have := k.2; omega, Heap.get_lt e⟩
  choose f hf using hex
  have : Fintype.card (Fin (H + 1)) ≤ Fintype.card (Fin h.length) :=
    Fintype.card_le_of_injective (fun k => ⟨f k, (hf k).2⟩) (by
      intro a b hab
      simp only [Fin.mk.injEq] at hab
      apply Fin.ext
      rw [← (hf a).1, ← (hf b).1, hab])
  simp only [Fintype.card_fin] at this
  omega

end WF

/-- The place of node `n` of height `k` in the whole sequence: `A` comes before
the values below it and `B` after. -/
inductive Ctx (h : Heap α) (root H : Nat) : Nat → Nat → List α → List α → Prop
  | root : Ctx h root H H root [] []
  | kid {k p : Nat} {pd : Node α} {i x : Nat} {A B : List α} :
      Ctx h root H (k + 1) p A B → h.get p = some pd → pd.kids[i]? = some x →
      Ctx h root H k x (A ++ zF ((pd.kids.take i).map (elems h k)) (pd.vals.take i))
        (zB (pd.vals.drop i) ((pd.kids.drop (i + 1)).map (elems h k)) ++ B)

/-- The values below a node in their place. -/
theorem elems_kid {h : Heap α} {n k i x : Nat} {nd : Node α} (e : h.get n = some nd)
    (hl : nd.kids.length = nd.vals.length + 1) (hx : nd.kids[i]? = some x) :
    elems h (k + 1) n = zF ((nd.kids.take i).map (elems h k)) (nd.vals.take i) ++
      (elems h k x ++ zB (nd.vals.drop i) ((nd.kids.drop (i + 1)).map (elems h k))) := by
  obtain ⟨hi, hg⟩ := List.getElem?_eq_some_iff.1 hx
  simp only [elems, valsOf_eq e, kidsOf_eq e]
  have e1 : nd.kids = nd.kids.take i ++ x :: nd.kids.drop (i + 1) := by
    rw [← hg, List.getElem_cons_drop, List.take_append_drop]
  have e2 : nd.vals = nd.vals.take i ++ nd.vals.drop i := (List.take_append_drop _ _).symm
  conv => lhs; rw [e1, e2, List.map_append, List.map_cons]
  rw [inter_split]
  · simp; omega
  · simp; omega

theorem Ctx.live (w : WF c h root H ht) {k n : Nat} {A B : List α} (x : Ctx h root H k n A B) :
    ∃ nd, h.get n = some nd ∧ n ≠ 0 ∧ ht n = k := by
  induction x with
  | root => obtain ⟨nd, e⟩ := w.rootLive; exact ⟨nd, e, w.root0, w.rootHt⟩
  | kid _ ep hk ih =>
    obtain ⟨pd', e', p0, hp⟩ := ih
    rw [ep] at e'
    cases e'
    obtain ⟨x0, _, hx, xd, ex, _⟩ := w.kid _ _ _ _ ep p0 hk
    exact ⟨xd, ex, x0, by omega⟩

/-- The whole sequence is `A`, the values below the node, `B`. -/
theorem Ctx.total (w : WF c h root H ht) {k n : Nat} {A B : List α} (x : Ctx h root H k n A B) :
    elems h H root = A ++ (elems h k n ++ B) := by
  induction x with
  | root => simp
  | kid xp ep hk ih =>
    obtain ⟨pd', e', p0, hp⟩ := xp.live w
    rw [ep] at e'
    cases e'
    rw [ih, elems_kid ep (w.kids_len ep p0 (by omega)) hk]
    simp [List.append_assoc]

theorem WF.ctx (w : WF c h root H ht) : ∀ (d : Nat) {n : Nat} {nd : Node α}, h.get n = some nd → n ≠ 0 →
    ht n + d = H → ∃ A B, Ctx h root H (ht n) n A B
  | 0, n, nd, e, h0, hd => by
    have : n = root := w.root_of_ht e h0 (by omega)
    subst this
    rw [w.rootHt]
    exact ⟨[], [], .root⟩
  | d + 1, n, nd, e, h0, hd => by
    have hr : n ≠ root := by rintro rfl; have := w.rootHt; omega
    obtain ⟨p0, pd, ep, hk⟩ := w.par n nd e h0 hr
    have hp := w.par_ht e h0 hr
    obtain ⟨A, B, x⟩ := w.ctx d ep p0 (by omega)
    rw [hp] at x
    exact ⟨_, _, .kid x ep hk⟩

theorem WF.ctx' (w : WF c h root H ht) {n : Nat} {nd : Node α} (e : h.get n = some nd) (h0 : n ≠ 0) :
    ∃ A B, Ctx h root H (ht n) n A B :=
  w.ctx (H - ht n) e h0 (by have := w.bound _ _ e h0; omega)

/-- A node has one place. -/
theorem Ctx.det (w : WF c h root H ht) {k n : Nat} {A B : List α} (x : Ctx h root H k n A B) :
    ∀ {A' B' : List α}, Ctx h root H k n A' B' → A = A' ∧ B = B' := by
  induction x with
  | root =>
    intro A' B' y
    cases y with
    | root => exact ⟨rfl, rfl⟩
    | kid yp ep hk =>
      obtain ⟨_, e', p0, _⟩ := yp.live w
      exact absurd rfl (w.kid _ _ _ _ ep p0 hk).2.1
  | @kid k p pd i x A B xp ep hk ih =>
    intro A' B' y
    obtain ⟨_, _, p0, _⟩ := xp.live w
    cases y with
    | root => exact absurd rfl (w.kid _ _ _ _ ep p0 hk).2.1
    | @kid _ q qd j _ A₁ B₁ yp eq hj =>
      obtain ⟨_, _, q0, _⟩ := yp.live w
      obtain ⟨_, _, _, xd, ex, e1, e2⟩ := w.kid _ _ _ _ ep p0 hk
      obtain ⟨_, _, _, xd', ex', e1', e2'⟩ := w.kid _ _ _ _ eq q0 hj
      rw [ex] at ex'
      cases ex'
      have : p = q := e1.symm.trans e1'
      subst this
      have : i = j := e2.symm.trans e2'
      subst this
      rw [ep] at eq
      cases eq
      obtain ⟨rfl, rfl⟩ := ih yp
      exact ⟨rfl, rfl⟩

end Gtl.Btree
