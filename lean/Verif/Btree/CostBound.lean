import Verif.Btree.CostSame
import Verif.Btree.Balance
import Verif.Spec.SortedSeqCost
/-
How many comparisons the calls make.
-/
set_option linter.unusedSectionVars false
namespace Gtl.Btree
open Gtl.Spec.SortedSeq
variable {α κ β γ : Type}

/-- `m` makes `B` comparisons at most. -/
def AtMost (m : Cnt β) (B : Nat) : Prop := ∀ n b n', m n = some (b, n') → n' ≤ n + B

theorem AtMost.pure {b : β} {B : Nat} : AtMost (pure b) B := by
  intro n b' n' h
  have h : some (b, n) = some (b', n') := h
  cases h
  omega

theorem AtMost.free {o : Option β} {B : Nat} : AtMost (free o) B := by
  intro n b' n' h
  unfold Btree.free at h
  cases o with
  | none => cases h
  | some b => cases h; omega

theorem AtMost.bind {m : Cnt β} {o : Option β} {f : β → Cnt γ} {A B : Nat} (h : AtMost m A) (s : Same m o)
    (hf : ∀ b, o = some b → AtMost (f b) B) : AtMost (m >>= f) (A + B) := by
  intro n c n' e
  have e : StateT.bind m f n = some (c, n') := e
  unfold StateT.bind at e
  cases em : m n with
  | none => rw [em] at e; cases e
  | some r =>
    obtain ⟨b, n1⟩ := r
    rw [em] at e
    have h1 := h n b n1 em
    have h2 := hf b (by rw [← s n, em]; rfl) n1 c n' e
    omega

theorem AtMost.bindFree {o : Option β} {f : β → Cnt γ} {B : Nat} (hf : ∀ b, o = some b → AtMost (f b) B) :
    AtMost (Btree.free o >>= f) B := by
  have := AtMost.bind (AtMost.free (B := 0)) Same.free hf
  rwa [Nat.zero_add] at this

theorem AtMost.bindTick {f : Unit → Cnt γ} {B : Nat} (hf : AtMost (f ()) B) : AtMost (tick >>= f) (B + 1) := by
  intro n c n' e
  have := hf (n + 1) c n' e
  omega

theorem AtMost.mono {m : Cnt β} {A B : Nat} (h : AtMost m A) (hl : A ≤ B) : AtMost m B := by
  intro n b n' e
  have := h n b n' e
  omega

theorem AtMost.ite {p : Prop} [Decidable p] {m m' : Cnt β} {B : Nat} (h : p → AtMost m B) (h' : ¬ p → AtMost m' B) :
    AtMost (if p then m else m') B := by
  by_cases hp : p
  · rw [if_pos hp]; exact h hp
  · rw [if_neg hp]; exact h' hp

/-! ### One node -/

theorem linearPlain_atMost (p : α → Bool) : ∀ vs : List α, AtMost (linearPlainW p vs) vs.length
  | [] => .pure
  | v :: vs => by
    refine .bindTick (.ite (fun _ => ?_) fun _ => .pure)
    exact (linearPlain_atMost p vs).bind (linearPlain_same p vs) (B := 0) fun _ _ => .pure

theorem linearTo_atMost (p : α → Ordering) : ∀ vs : List α, AtMost (linearToW p vs) vs.length
  | [] => .pure
  | v :: vs => by
    refine .bindTick ?_
    cases p v with
    | lt => exact (linearTo_atMost p vs).bind (linearTo_same p vs) (B := 0) fun _ _ => .pure
    | eq => exact .pure
    | gt => exact .pure

theorem halves {s e b : Nat} (h : e - s < 2 ^ (b + 1)) (hs : s ≤ e) (hne : ¬ s = e) :
    (e - ((s + e) / 2 + 1) < 2 ^ b ∧ (s + e) / 2 + 1 ≤ e) ∧ ((s + e) / 2 - s < 2 ^ b ∧ s ≤ (s + e) / 2) := by
  rw [Nat.pow_succ] at h
  omega

theorem binaryPlain_atMost (p : α → Bool) (vs : List α) : ∀ (b f s e : Nat), s ≤ e → e - s < 2 ^ b →
    AtMost (binaryPlainW p vs f s e) b
  | _, 0, s, e, _, _ => .ite (fun _ => .pure) fun _ => .free
  | 0, f + 1, s, e, hs, h => by
    refine .ite (fun _ => .pure) fun hne => ?_
    simp at h; omega
  | b + 1, f + 1, s, e, hs, h => by
    refine .ite (fun _ => .pure) fun hne => .bindFree fun v _ => .bindTick ?_
    obtain ⟨⟨h1, h2⟩, h3, h4⟩ := halves h hs hne
    exact .ite (fun _ => binaryPlain_atMost p vs b f _ _ h2 h1) fun _ => binaryPlain_atMost p vs b f _ _ h4 h3

theorem binaryToMulti_atMost (p : α → Ordering) (vs : List α) : ∀ (b f s e : Nat) (m : Bool), s ≤ e → e - s < 2 ^ b →
    AtMost (binaryToMultiW p vs f s e m) b
  | _, 0, s, e, _, _, _ => .ite (fun _ => .pure) fun _ => .free
  | 0, f + 1, s, e, _, hs, h => by
    refine .ite (fun _ => .pure) fun hne => ?_
    simp at h; omega
  | b + 1, f + 1, s, e, m, hs, h => by
    refine .ite (fun _ => .pure) fun hne => .bindFree fun v _ => .bindTick ?_
    obtain ⟨⟨h1, h2⟩, h3, h4⟩ := halves h hs hne
    cases p v with
    | lt => exact binaryToMulti_atMost p vs b f _ _ _ h2 h1
    | eq => exact binaryToMulti_atMost p vs b f _ _ _ h4 h3
    | gt => exact binaryToMulti_atMost p vs b f _ _ _ h4 h3

theorem binaryToUnique_atMost (p : α → Ordering) (vs : List α) : ∀ (b f s e : Nat), s ≤ e → e - s < 2 ^ b →
    AtMost (binaryToUniqueW p vs f s e) b
  | _, 0, s, e, _, _ => .ite (fun _ => .pure) fun _ => .free
  | 0, f + 1, s, e, hs, h => by
    refine .ite (fun _ => .pure) fun hne => ?_
    simp at h; omega
  | b + 1, f + 1, s, e, hs, h => by
    refine .ite (fun _ => .pure) fun hne => .bindFree fun v _ => .bindTick ?_
    obtain ⟨⟨h1, h2⟩, h3, h4⟩ := halves h hs hne
    cases p v with
    | lt => exact binaryToUnique_atMost p vs b f _ _ h2 h1
    | eq => exact .pure
    | gt => exact binaryToUnique_atMost p vs b f _ _ h4 h3

/-- The comparisons of a search in one node. -/
abbrev Cfg.node (c : Cfg α κ) : Nat := perNode c.linear c.K

variable {c : Cfg α κ}

section
variable {n : Node α} (h : n.vals.length ≤ c.K) (k : κ)
include h

theorem lt_log : n.vals.length < 2 ^ (Nat.log2 c.K + 1) := Nat.lt_of_le_of_lt h Nat.lt_log2_self

theorem lowerNode_atMost : AtMost (lowerNodeW c n k) c.node := by
  unfold lowerNodeW Cfg.node perNode
  have hl := lt_log h
  by_cases hlin : c.linear = true
  · simp only [hlin, if_true]
    refine .ite (fun _ => (linearTo_atMost _ _).mono h) fun _ => ?_
    exact (((linearPlain_atMost _ _).bind (linearPlain_same _ _) (B := 0) fun _ _ => .pure).mono h)
  · simp only [Bool.eq_false_iff.2 hlin, Bool.false_eq_true, if_false]
    refine .ite (fun _ => .ite (fun _ => ?_) fun _ => ?_) fun _ => ?_
    · exact binaryToMulti_atMost _ _ _ _ _ _ _ (Nat.zero_le _) (by simpa [Node.count] using hl)
    · exact binaryToUnique_atMost _ _ _ _ _ _ (Nat.zero_le _) (by simpa [Node.count] using hl)
    · exact (binaryPlain_atMost _ _ _ _ _ _ (Nat.zero_le _) (by simpa [Node.count] using hl)).bind
        (binaryPlain_same _ _ _ _ _) (B := 0) fun _ _ => .pure

theorem upperNode_atMost : AtMost (upperNodeW c n k) c.node := by
  unfold upperNodeW Cfg.node perNode
  have hl := lt_log h
  by_cases hlin : c.linear = true
  · simp only [hlin, if_true]
    exact (linearPlain_atMost _ _).mono h
  · simp only [Bool.eq_false_iff.2 hlin, Bool.false_eq_true, if_false]
    exact binaryPlain_atMost _ _ _ _ _ _ (Nat.zero_le _) (by simpa [Node.count] using hl)

end

/-- A node without values costs nothing. -/
theorem lowerNode_nil {n : Node α} (h : n.vals = []) (k : κ) : AtMost (lowerNodeW c n k) 0 := by
  unfold lowerNodeW
  simp only [h, Node.count, List.length_nil]
  refine .ite (fun _ => .ite (fun _ => .pure) fun _ => .ite (fun _ => ?_) fun _ => ?_) fun _ => ?_
  · exact .ite (fun _ => .pure) fun _ => .free
  · exact .ite (fun _ => .pure) fun _ => .free
  · by_cases hl : c.linear = true
    · rw [if_pos hl]; exact .pure
    · rw [if_neg hl]; exact .pure

theorem upperNode_nil {n : Node α} (h : n.vals = []) (k : κ) : AtMost (upperNodeW c n k) 0 := by
  unfold upperNodeW
  simp only [h, Node.count, List.length_nil]
  exact .ite (fun _ => .pure) fun _ => .ite (fun _ => .pure) fun _ => .free

/-! ### From the root to a leaf -/

/-- No way down in `t` takes more than `B` comparisons. -/
structure Reach (c : Cfg α κ) (t : Tree α) (B : Nat) : Prop where
  plain : ∀ k, AtMost (locatePlainW c t.heap k (t.heap.length + 1) t.root) B
  three : ∀ k, AtMost (locateToW c t.heap k (t.heap.length + 1) t.root) B
  upper : ∀ k, AtMost (locateUpperW c t.heap k (t.heap.length + 1) t.root) B

section
variable {t : Tree α} {D : Nat} (b : Balanced c t D) (k : κ)
include b

theorem Balanced.down {n d : Nat} {nd : Node α} (hd : Depth t n d) (e : t.heap.get n = some nd) :
    nd.vals.length ≤ c.K ∧ d ≤ D ∧ (¬ nd.leaf = true → ∀ (i : Nat) x, nd.kids[i]? = some x → Depth t x (d + 1) ∧ d + 1 ≤ D) := by
  obtain ⟨_, nd', e', _, h2, h3⟩ := b.nodes n d hd
  rw [e] at e'; cases e'
  refine ⟨h2, by omega, fun hl i x hx => ⟨.kid hd e (List.mem_of_getElem? hx), ?_⟩⟩
  rcases h3 with h3 | h3
  · exact absurd h3.2.1 hl
  · omega

theorem step_cost {d : Nat} (hd : d + 1 ≤ D) : c.node + (D + 1 - (d + 1)) * c.node ≤ (D + 1 - d) * c.node := by
  rw [show D + 1 - d = (D + 1 - (d + 1)) + 1 by omega, Nat.add_mul, Nat.one_mul]
  omega

theorem last_cost {d : Nat} (hd : d ≤ D) : c.node ≤ (D + 1 - d) * c.node := by
  rw [show D + 1 - d = (D - d) + 1 by omega, Nat.add_mul, Nat.one_mul]
  omega

theorem locatePlain_atMost : ∀ (f : Nat) {id d : Nat}, Depth t id d →
    AtMost (locatePlainW c t.heap k f id) ((D + 1 - d) * c.node)
  | 0, _, _, _ => .free
  | f + 1, id, d, hd => by
    refine .bindFree fun nd e => ?_
    obtain ⟨h1, h2, h3⟩ := b.down hd e
    by_cases hl : nd.leaf = true
    · simp only [hl, if_true]
      exact ((lowerNode_atMost h1 k).bind (lowerNode_same c nd k) (B := 0) fun _ _ => .pure).mono (last_cost b h2)
    · simp only [Bool.eq_false_iff.2 hl, Bool.false_eq_true, if_false]
      by_cases hlt : d + 1 ≤ D
      · refine ((lowerNode_atMost h1 k).bind (lowerNode_same c nd k) fun r _ => ?_).mono (step_cost b hlt)
        exact .bindFree fun x hx => locatePlain_atMost f (h3 hl _ _ hx).1
      · refine ((lowerNode_atMost h1 k).bind (lowerNode_same c nd k) (B := 0) fun r _ => ?_).mono (last_cost b h2)
        exact .bindFree fun x hx => absurd (h3 hl _ _ hx).2 hlt

theorem locateTo_atMost : ∀ (f : Nat) {id d : Nat}, Depth t id d →
    AtMost (locateToW c t.heap k f id) ((D + 1 - d) * c.node)
  | 0, _, _, _ => .free
  | f + 1, id, d, hd => by
    refine .bindFree fun nd e => ?_
    obtain ⟨h1, h2, h3⟩ := b.down hd e
    by_cases hl : nd.leaf = true
    · simp only [hl, if_true]
      exact ((lowerNode_atMost h1 k).bind (lowerNode_same c nd k) (B := 0) fun _ _ => .ite (fun _ => .pure) fun _ => .pure).mono
        (last_cost b h2)
    · simp only [Bool.eq_false_iff.2 hl, Bool.false_eq_true, if_false]
      by_cases hlt : d + 1 ≤ D
      · refine ((lowerNode_atMost h1 k).bind (lowerNode_same c nd k) fun r _ => ?_).mono (step_cost b hlt)
        exact .ite (fun _ => .pure) fun _ => .bindFree fun x hx => locateTo_atMost f (h3 hl _ _ hx).1
      · refine ((lowerNode_atMost h1 k).bind (lowerNode_same c nd k) (B := 0) fun r _ => ?_).mono (last_cost b h2)
        exact .ite (fun _ => .pure) fun _ => .bindFree fun x hx => absurd (h3 hl _ _ hx).2 hlt

theorem locateUpper_atMost : ∀ (f : Nat) {id d : Nat}, Depth t id d →
    AtMost (locateUpperW c t.heap k f id) ((D + 1 - d) * c.node)
  | 0, _, _, _ => .free
  | f + 1, id, d, hd => by
    refine .bindFree fun nd e => ?_
    obtain ⟨h1, h2, h3⟩ := b.down hd e
    by_cases hl : nd.leaf = true
    · simp only [hl, if_true]
      exact ((upperNode_atMost h1 k).bind (upperNode_same c nd k) (B := 0) fun _ _ => .pure).mono (last_cost b h2)
    · simp only [Bool.eq_false_iff.2 hl, Bool.false_eq_true, if_false]
      by_cases hlt : d + 1 ≤ D
      · refine ((upperNode_atMost h1 k).bind (upperNode_same c nd k) fun r _ => ?_).mono (step_cost b hlt)
        exact .bindFree fun x hx => locateUpper_atMost f (h3 hl _ _ hx).1
      · refine ((upperNode_atMost h1 k).bind (upperNode_same c nd k) (B := 0) fun r _ => ?_).mono (last_cost b h2)
        exact .bindFree fun x hx => absurd (h3 hl _ _ hx).2 hlt

omit k in
theorem Balanced.reach : Reach c t (c.node * Nat.log2 (t.size + 1)) := by
  have hD : (D + 1 - 0) * c.node ≤ c.node * Nat.log2 (t.size + 1) := by
    rw [Nat.mul_comm]
    refine Nat.mul_le_mul_left _ ?_
    rw [Nat.sub_zero, Nat.le_log2 (by omega)]
    exact b.low
  exact ⟨fun k => (locatePlain_atMost b k _ .root).mono hD, fun k => (locateTo_atMost b k _ .root).mono hD,
    fun k => (locateUpper_atMost b k _ .root).mono hD⟩

end

/-- A root that is a leaf without values. -/
theorem reach_leaf {t : Tree α} {nd : Node α} (e : t.heap.get t.root = some nd) (hl : nd.leaf = true) (hv : nd.vals = []) :
    Reach c t 0 := by
  refine ⟨fun k => ?_, fun k => ?_, fun k => ?_⟩
  · refine .bindFree fun nd' e' => ?_
    rw [e] at e'; cases e'
    simp only [hl, if_true]
    exact (lowerNode_nil hv k).bind (lowerNode_same c nd k) (B := 0) fun _ _ => .pure
  · refine .bindFree fun nd' e' => ?_
    rw [e] at e'; cases e'
    simp only [hl, if_true]
    exact (lowerNode_nil hv k).bind (lowerNode_same c nd k) (B := 0) fun _ _ => .ite (fun _ => .pure) fun _ => .pure
  · refine .bindFree fun nd' e' => ?_
    rw [e] at e'; cases e'
    simp only [hl, if_true]
    exact (upperNode_nil hv k).bind (upperNode_same c nd k) (B := 0) fun _ _ => .pure

end Gtl.Btree
