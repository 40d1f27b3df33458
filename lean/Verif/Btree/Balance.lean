import Verif.Btree.History
import Mathlib.Tactic.Ring
import Mathlib.Algebra.Order.Ring.Nat
/-
Balance: all leaves at one depth, the fill of the nodes, no node that is not in
the tree.
-/
set_option linter.unusedSectionVars false
namespace Gtl.Btree
variable {α κ : Type}
variable {c : Cfg α κ} {t : Tree α} {H : Nat} {ht : Nat → Nat} {L : List α}

/-- Node `n` is in the tree, `d` steps below the root. -/
inductive Depth (t : Tree α) : Nat → Nat → Prop
  | root : Depth t t.root 0
  | kid {n d x : Nat} {nd : Node α} : Depth t n d → t.heap.get n = some nd → x ∈ nd.kids → Depth t x (d + 1)

/-- A balanced tree whose leaves are all at depth `D`. -/
structure Balanced (c : Cfg α κ) (t : Tree α) (D : Nat) : Prop where
  /-- Every node that has been allocated and not freed is in the tree. -/
  inTree : ∀ n nd, t.heap.get n = some nd → n ≠ 0 → ∃ d, Depth t n d
  /-- Every node in the tree holds between 1 and `K` values; those at depth `D` are
  leaves, the others have one child more than values. -/
  nodes : ∀ n d, Depth t n d → n ≠ 0 ∧ ∃ nd, t.heap.get n = some nd ∧ 1 ≤ nd.vals.length ∧ nd.vals.length ≤ c.K ∧
    ((d = D ∧ nd.leaf = true ∧ nd.kids = []) ∨ (d < D ∧ nd.leaf = false ∧ nd.kids.length = nd.vals.length + 1))
  /-- The depth is logarithmic in the size. -/
  low : 2 ^ (D + 1) ≤ t.size + 1
  high : t.size + 1 ≤ (c.K + 1) ^ (D + 1)

theorem inter_len_low (b : Nat) : ∀ (ks : List (List α)) (vs : List α), ks.length = vs.length + 1 →
    (∀ k ∈ ks, b ≤ k.length + 1) → (vs.length + 1) * b ≤ (inter ks vs).length + 1
  | [k], [], _, h => by
    have := h k (by simp)
    simpa using this
  | k :: k' :: ks, v :: vs, hl, h => by
    have h1 := h k (by simp)
    have h2 := inter_len_low b (k' :: ks) vs (by simpa using hl) (fun x hx => h x (by simp at hx ⊢; tauto))
    rw [inter_cons, List.length_append, List.length_cons, List.length_cons, Nat.add_mul (vs.length + 1), Nat.one_mul]
    omega
  | [], _, hl, _ => by simp at hl
  | [_], _ :: _, hl, _ => by simp at hl
  | _ :: _ :: _, [], hl, _ => by simp at hl

theorem inter_len_high (b : Nat) : ∀ (ks : List (List α)) (vs : List α), ks.length = vs.length + 1 →
    (∀ k ∈ ks, k.length + 1 ≤ b) → (inter ks vs).length + 1 ≤ (vs.length + 1) * b
  | [k], [], _, h => by
    have := h k (by simp)
    simpa using this
  | k :: k' :: ks, v :: vs, hl, h => by
    have h1 := h k (by simp)
    have h2 := inter_len_high b (k' :: ks) vs (by simpa using hl) (fun x hx => h x (by simp at hx ⊢; tauto))
    rw [inter_cons, List.length_append, List.length_cons, List.length_cons, Nat.add_mul (vs.length + 1), Nat.one_mul]
    omega
  | [], _, hl, _ => by simp at hl
  | [_], _ :: _, hl, _ => by simp at hl
  | _ :: _ :: _, [], hl, _ => by simp at hl

section
variable (g : Good c t (Loose False ht) H ht L)
include g

theorem Good.elems_len : ∀ (k : Nat) {n : Nat} {nd : Node α}, t.heap.get n = some nd → n ≠ 0 → ht n = k →
    2 ^ (k + 1) ≤ (elems t.heap k n).length + 1 ∧ (elems t.heap k n).length + 1 ≤ (c.K + 1) ^ (k + 1)
  | 0, n, nd, e, n0, hk => by
    have h1 := g.full n nd e n0 (by simp)
    have h2 := g.wf.vals_le e n0
    simp only [elems, valsOf_eq e]
    constructor <;> simp <;> omega
  | k + 1, n, nd, e, n0, hk => by
    have h1 := g.full n nd e n0 (by simp)
    have h2 := g.wf.vals_le e n0
    have h3 := g.wf.kids_len e n0 (by omega)
    have hkid : ∀ x ∈ nd.kids, 2 ^ (k + 1) ≤ (elems t.heap k x).length + 1 ∧
        (elems t.heap k x).length + 1 ≤ (c.K + 1) ^ (k + 1) := by
      intro x hx
      obtain ⟨x0, _, hx', xd, ex, _⟩ := g.wf.kid_mem e n0 hx
      exact Good.elems_len k ex x0 (by omega)
    have l1 := inter_len_low (2 ^ (k + 1)) (nd.kids.map (elems t.heap k)) nd.vals (by simpa using h3)
      (by intro z hz; obtain ⟨x, hx, rfl⟩ := List.mem_map.1 hz; exact (hkid x hx).1)
    have l2 := inter_len_high ((c.K + 1) ^ (k + 1)) (nd.kids.map (elems t.heap k)) nd.vals (by simpa using h3)
      (by intro z hz; obtain ⟨x, hx, rfl⟩ := List.mem_map.1 hz; exact (hkid x hx).2)
    simp only [elems, valsOf_eq e, kidsOf_eq e]
    constructor
    · refine Nat.le_trans ?_ l1
      rw [Nat.pow_succ, Nat.mul_comm]
      exact Nat.mul_le_mul_right _ (by omega)
    · refine Nat.le_trans l2 ?_
      rw [Nat.pow_succ _ (k + 1), Nat.mul_comm _ (c.K + 1)]
      exact Nat.mul_le_mul_right _ (by omega)

theorem Good.depth_ht {n d : Nat} (h : Depth t n d) : n ≠ 0 ∧ (∃ nd, t.heap.get n = some nd) ∧ ht n + d = H := by
  induction h with
  | root => exact ⟨g.wf.root0, g.wf.rootLive, by rw [g.wf.rootHt]; rfl⟩
  | kid _ e hx ih =>
    obtain ⟨x0, _, hx', xd, ex, _⟩ := g.wf.kid_mem e ih.1 hx
    exact ⟨x0, ⟨xd, ex⟩, by omega⟩

theorem Good.ht_depth : ∀ (d : Nat) {n : Nat} {nd : Node α}, t.heap.get n = some nd → n ≠ 0 → ht n + d = H → Depth t n d
  | 0, n, nd, e, n0, hd => by
    have : n = t.root := by
      by_contra hr
      have hp := g.wf.par_ht e n0 hr
      obtain ⟨p0, pd, ep, _⟩ := g.wf.par n nd e n0 hr
      have := g.wf.bound _ _ ep p0
      omega
    rw [this]
    exact .root
  | d + 1, n, nd, e, n0, hd => by
    have hr : n ≠ t.root := by
      rintro rfl
      rw [g.wf.rootHt] at hd
      omega
    have hp := g.wf.par_ht e n0 hr
    obtain ⟨p0, pd, ep, hk⟩ := g.wf.par n nd e n0 hr
    exact .kid (Good.ht_depth d ep p0 (by omega)) ep (List.mem_of_getElem? hk)

theorem Good.balanced (hs : t.size = L.length) : Balanced c t H := by
  refine ⟨?_, ?_, ?_, ?_⟩
  · intro n nd e n0
    have := g.wf.bound n nd e n0
    exact ⟨H - ht n, g.ht_depth _ e n0 (by omega)⟩
  · intro n d h
    obtain ⟨n0, ⟨nd, e⟩, hd⟩ := g.depth_ht h
    refine ⟨n0, nd, e, g.full n nd e n0 (by simp), g.wf.vals_le e n0, ?_⟩
    by_cases h0 : ht n = 0
    · exact .inl ⟨by omega, (g.wf.leaf_iff e n0).2 h0, g.wf.kids_nil e n0 h0⟩
    · exact .inr ⟨by omega, g.wf.leaf_false e n0 (by omega), g.wf.kids_len e n0 (by omega)⟩
  · obtain ⟨rn, er⟩ := g.wf.rootLive
    have := (g.elems_len H er g.wf.root0 g.wf.rootHt).1
    rw [g.seq, ← hs] at this
    exact this
  · obtain ⟨rn, er⟩ := g.wf.rootLive
    have := (g.elems_len H er g.wf.root0 g.wf.rootHt).2
    rw [g.seq, ← hs] at this
    exact this

end

theorem RepZ.balanced (r : RepZ False c t L) : (t.size = 0 ∧ ∀ n nd, t.heap.get n = some nd → n = 0) ∨ ∃ D, Balanced c t D := by
  rcases r with ⟨e, rfl⟩ | ⟨H, ht, g, hs⟩
  · exact .inl ⟨e.size, e.only⟩
  · exact .inr ⟨H, g.balanced hs⟩

end Gtl.Btree
