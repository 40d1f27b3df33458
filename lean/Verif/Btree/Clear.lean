import Verif.Btree.Erase
/-
Freeing whole subtrees: clear(), and erasing values of an internal node together
with the subtrees between them.
-/
set_option linter.unusedSectionVars false
namespace Gtl.Btree
variable {α κ : Type}

/-- Node `n` of height `k` and all nodes below it. -/
def desc (h : Heap α) : Nat → Nat → List Nat
  | 0, n => [n]
  | k + 1, n => (kidsOf h n).flatMap (desc h k) ++ [n]

variable {c : Cfg α κ} {h : Heap α} {root H : Nat} {ht : Nat → Nat}

section
variable (w : WF c h root H ht)
include w

theorem desc_mem : ∀ (k : Nat) {n : Nat} {nd : Node α}, h.get n = some nd → n ≠ 0 → ht n = k → ∀ {x : Nat},
    x ∈ desc h k n → (∃ xd, h.get x = some xd) ∧ x ≠ 0 ∧ ht x ≤ k ∧ up h (k - ht x) x = n
  | 0, n, nd, e, n0, hk, x, hx => by
    simp only [desc, List.mem_singleton] at hx
    subst hx
    exact ⟨⟨nd, e⟩, n0, by omega, by rw [hk]; rfl⟩
  | k + 1, n, nd, e, n0, hk, x, hx => by
    simp only [desc, List.mem_append, List.mem_flatMap, List.mem_singleton, kidsOf_eq e] at hx
    rcases hx with ⟨z, hz, hx⟩ | rfl
    · obtain ⟨z0, _, hzt, zd, ez, zp, _⟩ := w.kid_mem e n0 hz
      obtain ⟨h1, h2, h3, h4⟩ := desc_mem k ez z0 (by omega) hx
      refine ⟨h1, h2, by omega, ?_⟩
      rw [show k + 1 - ht x = (k - ht x) + 1 by omega]
      simp only [up, h4, ez, zp]
    · exact ⟨⟨nd, e⟩, n0, by omega, by rw [hk, Nat.sub_self]; rfl⟩

theorem mem_desc : ∀ (d : Nat) {k n x : Nat} {xd : Node α}, h.get x = some xd → x ≠ 0 → ht x + d = k → k ≤ H →
    up h d x = n → x ∈ desc h k n ∧ n ≠ 0 ∧ (∃ nd, h.get n = some nd) ∧ ht n = k
  | 0, k, n, x, xd, e, x0, hk, _, hu => by
    simp only [up] at hu
    subst hu
    refine ⟨?_, x0, ⟨xd, e⟩, hk⟩
    cases k <;> simp [desc]
  | d + 1, k, n, x, xd, e, x0, hk, hH, hu => by
    obtain ⟨h1, y0, ⟨yd, ey⟩, hy⟩ := mem_desc d (k := k - 1) e x0 (by omega) (by omega) rfl
    have yr : up h d x ≠ root := by
      intro h
      have := w.rootHt
      rw [h] at hy
      omega
    obtain ⟨p0, pd, ep, hkid⟩ := w.par _ _ ey y0 yr
    have hp := w.par_ht ey y0 yr
    simp only [up, ey] at hu
    subst hu
    obtain ⟨k, rfl⟩ : ∃ j, k = j + 1 := ⟨k - 1, by omega⟩
    refine ⟨?_, p0, ⟨pd, ep⟩, by simp at hy; omega⟩
    simp only [desc, List.mem_append, List.mem_flatMap, kidsOf_eq ep]
    exact .inl ⟨_, List.mem_of_getElem? hkid, by simpa using h1⟩

theorem desc_disj {k n m x : Nat} {nd md : Node α} (e : h.get n = some nd) (n0 : n ≠ 0) (hn : ht n = k)
    (f : h.get m = some md) (m0 : m ≠ 0) (hm : ht m = k) (hx : x ∈ desc h k n) (hy : x ∈ desc h k m) : n = m := by
  obtain ⟨_, _, _, h1⟩ := desc_mem w k e n0 hn hx
  obtain ⟨_, _, _, h2⟩ := desc_mem w k f m0 hm hy
  rw [← h1, ← h2]

theorem flat_nodup {k : Nat} : ∀ (cs : List Nat), cs.Nodup →
    (∀ z ∈ cs, z ≠ 0 ∧ ht z = k ∧ (∃ zd, h.get z = some zd) ∧ (desc h k z).Nodup) → (cs.flatMap (desc h k)).Nodup
  | [], _, _ => by simp
  | z :: cs, hn, hz => by
    obtain ⟨h1, h2⟩ := List.nodup_cons.1 hn
    rw [List.flatMap_cons, List.nodup_append]
    obtain ⟨z0, hzt, ⟨zd, ez⟩, hd⟩ := hz z (by simp)
    refine ⟨hd, flat_nodup cs h2 (fun y hy => hz y (by simp [hy])), ?_⟩
    rintro a ha b hb rfl
    obtain ⟨y, hy, hay⟩ := List.mem_flatMap.1 hb
    obtain ⟨y0, hyt, ⟨yd, ey⟩, _⟩ := hz y (by simp [hy])
    have := desc_disj w ez z0 hzt ey y0 hyt ha hay
    subst this
    exact h1 hy

theorem desc_nodup : ∀ (k : Nat) {n : Nat} {nd : Node α}, h.get n = some nd → n ≠ 0 → ht n = k → (desc h k n).Nodup
  | 0, n, nd, e, n0, hk => by simp [desc]
  | k + 1, n, nd, e, n0, hk => by
    simp only [desc, kidsOf_eq e]
    rw [List.nodup_append]
    refine ⟨flat_nodup w _ (w.kids_nodup e n0) ?_, by simp, ?_⟩
    · intro z hz
      obtain ⟨z0, _, hzt, zd, ez, _⟩ := w.kid_mem e n0 hz
      exact ⟨z0, by omega, ⟨zd, ez⟩, desc_nodup k ez z0 (by omega)⟩
    · rintro a ha b hb rfl
      simp only [List.mem_singleton] at hb
      subst hb
      obtain ⟨z, hz, haz⟩ := List.mem_flatMap.1 ha
      obtain ⟨z0, _, hzt, zd, ez, _⟩ := w.kid_mem e n0 hz
      have := (desc_mem w k ez z0 (by omega) haz).2.2.1
      omega

end

/-- Clearing disjoint subtrees one after another. -/
theorem clearAll {step : Heap α → Nat → Option (Heap α)} (D : Nat → List Nat) (h : Heap α) : ∀ (cs : List Nat) (h' : Heap α),
    (∀ z ∈ cs, ∀ h' : Heap α, h'.length = h.length → (∀ x ∈ D z, h'.get x = h.get x) →
      ∃ h'', step h' z = some h'' ∧ h''.length = h'.length ∧ ∀ j, h''.get j = if j ∈ D z then none else h'.get j) →
    (cs.flatMap D).Nodup → h'.length = h.length → (∀ x ∈ cs.flatMap D, h'.get x = h.get x) →
    ∃ h'', cs.foldlM step h' = some h'' ∧ h''.length = h'.length ∧
      ∀ j, h''.get j = if j ∈ cs.flatMap D then none else h'.get j
  | [], h', _, _, _, _ => ⟨h', rfl, rfl, by simp⟩
  | z :: cs, h', F, hn, hl, ha => by
    rw [List.flatMap_cons] at hn ha
    obtain ⟨_, hn2, hd⟩ := List.nodup_append.1 hn
    obtain ⟨h1, e1, l1, g1⟩ := F z (by simp) h' hl (fun x hx => ha x (by simp [hx]))
    obtain ⟨h2, e2, l2, g2⟩ := clearAll D h cs h1 (fun y hy => F y (by simp [hy])) hn2 (by rw [l1, hl]) (by
      intro x hx
      rw [g1, if_neg (fun hz => hd x hz x hx rfl)]
      exact ha x (List.mem_append_right _ hx))
    refine ⟨h2, by rw [List.foldlM_cons, e1]; exact e2, by rw [l2, l1], ?_⟩
    intro j
    rw [g2, g1, List.flatMap_cons]
    by_cases h1 : j ∈ cs.flatMap D
    · rw [if_pos h1, if_pos (List.mem_append_right _ h1)]
    · rw [if_neg h1]
      by_cases h2 : j ∈ D z
      · rw [if_pos h2, if_pos (List.mem_append_left _ h2)]
      · rw [if_neg h2, if_neg (by rw [List.mem_append]; exact fun h => h.elim h2 h1)]

/-- `internal_clear` frees the node and all nodes below it, each once, and no other. -/
theorem internalClear_ok (w : WF c h root H ht) : ∀ (k : Nat) {n f : Nat} {nd : Node α} (h' : Heap α),
    h.get n = some nd → n ≠ 0 → ht n = k → k < f → h'.length = h.length → (∀ x ∈ desc h k n, h'.get x = h.get x) →
    ∃ h'', internalClear h' f n = some h'' ∧ h''.length = h'.length ∧
      ∀ j, h''.get j = if j ∈ desc h k n then none else h'.get j
  | k, n, 0, nd, h', e, n0, hk, hf, hl, ha => by omega
  | 0, n, f + 1, nd, h', e, n0, hk, hf, hl, ha => by
    have hleaf := (w.leaf_iff e n0).2 hk
    have e' : h'.get n = some nd := by rw [ha n (by simp [desc]), e]
    refine ⟨h'.free n, ?_, by simp, ?_⟩
    · unfold internalClear
      simp [e', hleaf, deleteNode]
    · intro j
      rw [Heap.get_free]
      simp [desc]
  | k + 1, n, f + 1, nd, h', e, n0, hk, hf, hl, ha => by
    have hleaf := w.leaf_false e n0 (by omega)
    have hself : n ∈ desc h (k + 1) n := by simp [desc]
    have e' : h'.get n = some nd := by rw [ha n hself, e]
    have hnd := desc_nodup w _ e n0 hk
    simp only [desc, kidsOf_eq e] at hnd ha ⊢
    obtain ⟨hn1, _, hn3⟩ := List.nodup_append.1 hnd
    obtain ⟨h1, e1, l1, g1⟩ := clearAll (step := fun h k => internalClear h f k) (desc h k) h nd.kids h' (by
      intro z hz g hg hgz
      obtain ⟨z0, _, hzt, zd, ez, _⟩ := w.kid_mem e n0 hz
      exact internalClear_ok w k g ez z0 (by omega) (by omega) hg hgz) hn1 hl
      (fun x hx => ha x (List.mem_append_left _ hx))
    have hnn : n ∉ nd.kids.flatMap (desc h k) := fun hx => hn3 n hx n (by simp) rfl
    refine ⟨h1.free n, ?_, by simpa using l1, ?_⟩
    · unfold internalClear
      simp only [e', Option.bind_eq_bind, Option.bind_some, hleaf, Bool.false_eq_true, if_false, e1]
      unfold deleteNode
      rw [g1, if_neg hnn, e']
      rfl
    · intro j
      rw [Heap.get_free, g1]
      by_cases hj : j = n
      · simp [hj]
      · rw [if_neg hj]
        simp [hj]

/-- clear() leaves an empty tree: no node is left. -/
theorem Tree.clear_ok {z : Prop} {t : Tree α} {L : List α} (r : RepZ z c t L) : ∃ t', t.clear = some t' ∧ Empty t' := by
  rcases r with ⟨e, rfl⟩ | ⟨H, ht, g, hs⟩
  · refine ⟨{ t with heap := t.heap, root := 0, rightmost := 0, size := 0 }, by simp [Tree.clear, e.size], ?_⟩
    exact ⟨e.zero, rfl, rfl, rfl, e.only⟩
  · have hne : t.size ≠ 0 := by
      rw [hs]
      exact fun h => g.ne_nil (List.length_eq_zero_iff.1 h)
    obtain ⟨rd, er⟩ := g.wf.rootLive
    obtain ⟨h1, e1, _, g1⟩ := internalClear_ok g.wf H (f := t.heap.length + 1) t.heap er g.wf.root0 g.wf.rootHt
      (by have := g.wf.height_lt; omega) rfl (fun _ _ => rfl)
    refine ⟨⟨h1, 0, 0, 0⟩, ?_, ?_, rfl, rfl, rfl, ?_⟩
    · simp [Tree.clear, hne, e1]
    · show h1.get 0 = _
      rw [g1, if_neg]
      · exact g.wf.zero
      · intro h0
        exact (desc_mem g.wf H er g.wf.root0 g.wf.rootHt h0).2.1 rfl
    · intro y yd ey
      have ey : h1.get y = some yd := ey
      by_contra y0
      rw [g1] at ey
      split at ey
      · cases ey
      · rename_i hny
        apply hny
        have hb := g.wf.bound _ _ ey y0
        have := mem_desc g.wf (H - ht y) (k := H) ey y0 (by omega) (Nat.le_refl _) rfl
        obtain ⟨h2, h3, ⟨_, h4⟩, h5⟩ := this
        rw [g.wf.root_of_ht h4 h3 h5] at h2
        exact h2

end Gtl.Btree
