import Verif.Btree.Prune
/-
Erasing ranges and keys.
-/
set_option linter.unusedSectionVars false
namespace Gtl.Btree
open Gtl.Spec.SortedSeq
variable {α κ : Type}
variable {c : Cfg α κ} {t t' : Tree α} {H : Nat} {ht : Nat → Nat} {L : List α}

/-- `erase_same_node` on an internal node. -/
theorem eraseSameInternal {k n i j : Nat} {X Y M : List α} (g : Good c t (Loose False ht) H ht L)
    (p1 : Pt t.heap t.root H (k + 1) n i X (M ++ Y)) (p2 : Pt t.heap t.root H (k + 1) n j (X ++ M) Y) (hij : i < j)
    (hj : j < (valsOf t.heap n).length) (s : Nat) :
    ∃ h', eraseSameNode t.heap ⟨n, i⟩ ⟨n, j⟩ = some h' ∧
      Good c { t with heap := h', size := s } (Loose False ht) H ht (X ++ Y) ∧ Pt h' t.root H (k + 1) n i X Y ∧
      i < (valsOf h' n).length := by
  obtain ⟨nd, e, n0, hk, hi⟩ := p1.live g.wf
  rw [valsOf_eq e] at hj
  have hleaf := g.wf.leaf_false e n0 (by omega)
  have hl := g.wf.kids_len e n0 (by omega)
  have hnd := g.wf.kids_nodup e n0
  obtain ⟨m, rfl⟩ : ∃ m, j = i + m := ⟨j - i, by omega⟩
  have hm : i + m - i = m := by omega
  set A := nd.kids.take (i + 1) with hA
  set C := (nd.kids.drop (i + 1)).take m with hC
  set B := nd.kids.drop (i + 1 + m) with hB
  have hkids : nd.kids = A ++ C ++ B := by
    rw [hA, hC, hB, List.append_assoc, ← List.drop_drop (i := m) (j := i + 1), List.take_append_drop, List.take_append_drop]
  have hvals : nd.vals = nd.vals.take i ++ (nd.vals.drop i).take m ++ nd.vals.drop (i + m) := by
    rw [List.append_assoc, ← List.drop_drop, List.take_append_drop, List.take_append_drop]
  have hkid : ∀ z ∈ nd.kids, z ≠ 0 ∧ ht z = k ∧ ∃ zd, t.heap.get z = some zd := by
    intro z hz
    obtain ⟨z0, _, hzt, zd, ez, _⟩ := g.wf.kid_mem e n0 hz
    exact ⟨z0, by omega, zd, ez⟩
  have hCm : ∀ z ∈ C, z ∈ nd.kids := fun z hz => by rw [hkids]; simp [hz]
  have hBm : ∀ z ∈ B, z ∈ nd.kids := fun z hz => by rw [hkids]; simp [hz]
  have hnd' := hnd
  rw [hkids, List.nodup_append] at hnd'
  obtain ⟨hnAC, hnB, hdisj⟩ := hnd'
  have hnC : C.Nodup := (List.nodup_append.1 hnAC).2.1
  -- the subtrees between are freed
  obtain ⟨h1, e1, l1, g1⟩ := clearAll (step := fun h k => internalClear h (h.length + 1) k) (desc t.heap k) t.heap C t.heap
    (by
      intro z hz h0 hl0 ha
      obtain ⟨z0, hzt, zd, ez⟩ := hkid z (hCm z hz)
      exact internalClear_ok g.wf k h0 ez z0 hzt (by
        have := g.wf.height_lt
        have := g.wf.bound _ _ ez z0
        omega) hl0 ha)
    (flat_nodup g.wf C hnC (fun z hz => by
      obtain ⟨z0, hzt, zd, ez⟩ := hkid z (hCm z hz)
      exact ⟨z0, hzt, ⟨zd, ez⟩, desc_nodup g.wf k ez z0 hzt⟩)) rfl (fun _ _ => rfl)
  have hng : n ∉ C.flatMap (desc t.heap k) := by
    intro hx
    obtain ⟨z, hz, hxz⟩ := List.mem_flatMap.1 hx
    obtain ⟨z0, hzt, zd, ez⟩ := hkid z (hCm z hz)
    have := (desc_mem g.wf k ez z0 hzt hxz).2.2.1
    omega
  have hBg : ∀ z ∈ B, z ∉ C.flatMap (desc t.heap k) := by
    intro z hz hx
    obtain ⟨y, hy, hzy⟩ := List.mem_flatMap.1 hx
    obtain ⟨z0, hzt, zd, ez⟩ := hkid z (hBm z hz)
    obtain ⟨y0, hyt, yd, ey⟩ := hkid y (hCm y hy)
    have := (desc_mem g.wf k ey y0 hyt hzy).2.2.2
    rw [hzt, Nat.sub_self] at this
    simp only [up] at this
    subst this
    exact hdisj z (List.mem_append_right _ hy) z hz rfl
  have hBn : ∀ z ∈ B, z ≠ n := by
    intro z hz hzn
    obtain ⟨_, hzt, _⟩ := hkid z (hBm z hz)
    subst hzn
    omega
  have e1n : h1.get n = some nd := by rw [g1, if_neg hng, e]
  set h2 := h1.set n { nd with kids := A ++ B } with hh2
  have g2 : ∀ y, h2.get y = if y = n then some { nd with kids := A ++ B } else h1.get y := Heap.get_set _ e1n
  obtain ⟨h3, e3, l3, o3, i3⟩ := setPositions_spec B h2 (i + 1) hnB (by
    intro z hz
    obtain ⟨_, _, zd, ez⟩ := hkid z (hBm z hz)
    exact ⟨zd, by rw [g2, if_neg (hBn z hz), g1, if_neg (hBg z hz), ez]⟩)
  have e3n : h3.get n = some { nd with kids := A ++ B } := by
    rw [o3 n (fun h => hBn n h rfl), g2, if_pos rfl]
  set h4 := h3.set n { nd with kids := A ++ B, vals := nd.vals.take i ++ nd.vals.drop (i + m) } with hh4
  have g4 : ∀ y, h4.get y = if y = n then some { nd with kids := A ++ B, vals := nd.vals.take i ++ nd.vals.drop (i + m) }
      else h3.get y := Heap.get_set _ e3n
  have run : eraseSameNode t.heap ⟨n, i⟩ ⟨n, i + m⟩ = some h4 := by
    unfold eraseSameNode
    dsimp only
    rw [check_of (by simp; omega)]
    simp only [Option.bind_eq_bind, Option.bind_some, e, hleaf, Bool.false_eq_true, if_false, hm, ← hA, ← hC, ← hB]
    rw [check_of (b := decide (i + m ≤ nd.count)) (decide_eq_true (by unfold Node.count; omega))]
    simp only [Option.bind_some, e1, ← hh2, e3]
    unfold removeValues
    simp only [e3n, Option.bind_eq_bind, Option.bind_some]
    rw [check_of (b := decide (i + m ≤ ({ nd with kids := A ++ B } : Node α).count))
      (decide_eq_true (show i + m ≤ nd.vals.length by omega))]
    rfl
  have u : Prune t.heap h4 k n nd A C B (nd.vals.take i) ((nd.vals.drop i).take m) (nd.vals.drop (i + m)) := by
    refine ⟨e, hkids, hvals, by simp [hA]; omega, by simp [hC]; omega, ?_, ?_, ?_, ?_, ?_⟩
    · intro h
      have := congrArg List.length h
      simp at this
      omega
    · intro x hx
      rw [g4, if_neg (by rintro rfl; exact hng hx), o3 x (fun h => hBg x h hx), g2,
        if_neg (by rintro rfl; exact hng hx), g1, if_pos hx]
    · rw [g4, if_pos rfl]
    · intro a z zd hz ez
      have hzB := List.mem_of_getElem? hz
      rw [g4, if_neg (hBn z hzB), i3 a z zd hz (by rw [g2, if_neg (hBn z hzB), g1, if_neg (hBg z hzB), ez])]
      congr 2
      simp [hA]; omega
    · intro x hx hxn hxB
      rw [g4, if_neg hxn, o3 x hxB, g2, if_neg hxn, g1, if_neg hx]
  have hti : (nd.vals.take i).length = i := by simp; omega
  have htm : ((nd.vals.drop i).take m).length = m := by simp; omega
  obtain ⟨gg, pp⟩ := u.good (t := t) (t' := { t with heap := h4, size := s }) g rfl rfl
    (X := X) (Y' := M ++ Y) (X' := X ++ M) (Y := Y) (by rw [hti]; exact p1)
    (by rw [hti, htm]; exact p2)
  rw [hti] at pp
  refine ⟨h4, run, gg, pp, ?_⟩
  rw [valsOf_eq u.here]
  simp; omega

/-- Places of one node are in the order of its slots. -/
theorem Pt.mono {k n i j : Nat} {X Y X' Y' : List α} (g : Good c t (Loose False ht) H ht L) (p : Pt t.heap t.root H k n i X Y)
    (p' : Pt t.heap t.root H k n j X' Y') (h : i ≤ j) : X.length ≤ X'.length := by
  obtain ⟨A, B, x, hi, rfl, rfl⟩ := p
  obtain ⟨A', B', x', hi', rfl, rfl⟩ := p'
  obtain ⟨rfl, rfl⟩ := x.det g.wf x'
  obtain ⟨nd, e, n0, hk⟩ := x.live g.wf
  rw [valsOf_eq e] at hi hi'
  have hpre : ∃ Z, pre t.heap k n j = pre t.heap k n i ++ Z := by
    cases k with
    | zero =>
      refine ⟨((valsOf t.heap n).drop i).take (j - i), ?_⟩
      simp only [pre]
      rw [← List.take_add]
      congr 1
      omega
    | succ k =>
      have hl := g.wf.kids_len e n0 (by omega)
      simp only [pre, valsOf_eq e, kidsOf_eq e]
      rw [show j + 1 = (i + 1) + (j - i) by omega, List.take_add, List.map_append,
        show nd.vals.take j = nd.vals.take i ++ (nd.vals.drop i).take (j - i) by
          rw [← List.take_add]; congr 1; omega,
        inter_zB _ _ _ _ (by simp; omega) (by simp; omega)]
      exact ⟨_, rfl⟩
  obtain ⟨Z, hZ⟩ := hpre
  rw [hZ]
  simp

/-- `erase_same_node`. -/
theorem eraseSameNode_ok {X Y M : List α} {b e : It} (g : Good c t (Loose False ht) H ht L) (q1 : Cur t H b X (M ++ Y))
    (q2 : Cur t H e (X ++ M) Y) (hM : M ≠ []) (hbe : b.node = e.node) (s : Nat) :
    ∃ k h', eraseSameNode t.heap b e = some h' ∧
      Good c { t with heap := h', size := s } (· = b.node) H ht (X ++ Y) ∧ Pt h' t.root H k b.node b.pos X Y ∧
      (0 < k → b.pos < (valsOf h' b.node).length) := by
  obtain ⟨n, i⟩ := b
  obtain ⟨n', j⟩ := e
  have hbe : n = n' := hbe
  subst hbe
  obtain ⟨k, p1, _⟩ := q1
  obtain ⟨k', p2, h2⟩ := q2
  dsimp only at p1 p2 h2
  obtain ⟨nd, e, n0, hk, hi⟩ := p1.live g.wf
  obtain ⟨nd', e', _, hk', hj⟩ := p2.live g.wf
  rw [e] at e'; cases e'
  have : k' = k := by omega
  subst this
  dsimp only at *
  have hij : i < j := by
    by_contra h
    have := Pt.mono g p2 p1 (by omega)
    have := List.length_pos_iff.2 hM
    simp at *
    omega
  cases k' with
  | zero =>
    have hleaf := (g.wf.leaf_iff e n0).2 (by omega)
    have hlen : M.length = j - i := by
      obtain ⟨A, B, x, _, hX, _⟩ := id p1
      obtain ⟨A', B', x', _, hX', _⟩ := id p2
      obtain ⟨rfl, rfl⟩ := x.det g.wf x'
      rw [hX] at hX'
      have := congrArg List.length hX'
      simp only [pre, valsOf_eq e, List.length_append, List.length_take] at this
      omega
    obtain ⟨h', e1, g1, p1'⟩ := removeLeaf_ok g (fun _ h => absurd h (by simp)) e p1 hlen (by omega) s
    refine ⟨0, h', ?_, g1, p1', by simp⟩
    unfold eraseSameNode
    dsimp only
    rw [check_of (by simp [hij])]
    simp [e, hleaf, e1]
  | succ k =>
    have hj' : j < (valsOf t.heap n).length := by
      rcases h2 with h | h
      · exact h
      · exfalso
        have hr : n = t.rightmost := congrArg It.node h
        obtain ⟨A', ld, x, el, _⟩ := g.rm_last
        obtain ⟨_, el', l0, hl⟩ := x.live g.wf
        rw [← hr] at hl
        omega
    obtain ⟨h', r, g', p', hin⟩ := eraseSameInternal g p1 p2 hij hj' s
    exact ⟨k + 1, h', r, ⟨g'.wf, g'.left, g'.right, fun m md em m0 _ => g'.full m md em m0 (by simp), g'.seq⟩, p', fun _ => hin⟩

section
variable (hK : 3 ≤ c.K)
include hK

/-- The loop that erases leaf by leaf. -/
theorem eraseLoop_ok : ∀ (f : Nat) {t : Tree α} {b : It} {X M Y : List α}, Rep c t (X ++ M ++ Y) →
    t.iterAt X.length = some b → M.length ≤ f →
    ∃ b' t', eraseLoop c (X.length + Y.length) f t b = some (b', t') ∧ Rep c t' (X ++ Y) ∧ t'.iterAt X.length = some b' := by
  intro f
  induction f with
  | zero =>
    intro t b X M Y r hb hf
    have : M = [] := List.length_eq_zero_iff.1 (by omega)
    subst this
    rw [List.append_nil] at r
    refine ⟨b, t, ?_, r, hb⟩
    unfold eraseLoop
    rw [r.size, List.length_append, if_neg (Nat.lt_irrefl _)]
  | succ f ih =>
    intro t b X M Y r hb hf
    unfold eraseLoop
    have hs := r.size
    cases M with
    | nil =>
      rw [List.append_nil] at r hs
      rw [hs, List.length_append, if_neg (Nat.lt_irrefl _)]
      exact ⟨b, t, rfl, r, hb⟩
    | cons v M =>
      simp only [List.length_append, List.length_cons] at hs hf
      rw [if_pos (by omega)]
      obtain ⟨H, ht, g, _⟩ := r.good (by simp)
      obtain ⟨b0, eb0, qb⟩ := g.iterAt_ok (X := X) (Y := v :: M ++ Y) (by simp)
      rw [hb] at eb0; cases eb0
      obtain ⟨k, p, hq⟩ := id qb
      obtain ⟨nd, e, n0, hnt, hi⟩ := p.live g.wf
      have hd := Cur.deref g (v := v) (Y := M ++ Y) qb
      have hlt : b.pos < nd.vals.length := by
        simp only [deref, e, Option.bind_eq_bind, Option.bind_some] at hd
        exact (List.getElem?_eq_some_iff.1 hd).1
      simp only [e, Option.bind_eq_bind, Option.bind_some]
      by_cases hleaf : nd.leaf = true
      · rw [if_pos hleaf]
        have hk0 : k = 0 := by rw [← hnt]; exact (g.wf.leaf_iff e n0).1 hleaf
        subst hk0
        set m := min (t.size - (X.length + Y.length)) (nd.count - b.pos) with hm
        have hm1 : 1 ≤ m := by rw [hm, hs]; unfold Node.count; omega
        have hm2 : b.pos + m ≤ nd.vals.length := by rw [hm]; unfold Node.count; omega
        have hm3 : m ≤ M.length + 1 := by rw [hm, hs]; omega
        rw [check_of (b := (decide (b.pos < nd.count) && decide (b.pos + m ≤ nd.count))) (by
          rw [Bool.and_eq_true]; exact ⟨decide_eq_true hlt, decide_eq_true hm2⟩)]
        simp only [Option.bind_some]
        have hsplit : v :: M ++ Y = (v :: M).take m ++ ((v :: M).drop m ++ Y) := by
          rw [← List.append_assoc, List.take_append_drop]
        rw [hsplit] at p
        obtain ⟨h', e1, g1, p1⟩ := removeLeaf_ok (M := (v :: M).take m) (m := m) g (fun _ h => absurd h (by simp)) e p
          (by simp; omega) hm2 (t.size - m)
        simp only [e1, Option.bind_some]
        obtain ⟨b', t', e2, r', hb'⟩ := rebalanceAfterDelete_ok hK g1 (by
          show t.size - m = _
          rw [hs]; simp; omega) p1 (by simp)
        simp only [e2, Option.bind_some]
        exact ih (M := (v :: M).drop m) (by simpa using r') hb' (by simp; omega)
      · rw [if_neg hleaf]
        obtain ⟨b', t', e2, r', hb'⟩ := eraseIt_ok hK r (X := X) (v := v) (Y := M ++ Y) (by simp) hb
        simp only [e2, Option.bind_some]
        exact ih (M := M) (by simpa using r') hb' (by omega)

/-- erase(first, last). -/
theorem eraseRange_ok {X M Y : List α} {b e : It} (r : Rep c t (X ++ M ++ Y)) (hb : t.iterAt X.length = some b)
    (he : t.iterAt (X ++ M).length = some e) :
    ∃ b' t', eraseRange c t b e = some ((M.length, b'), t') ∧ Rep c t' (X ++ Y) ∧ t'.iterAt X.length = some b' := by
  unfold eraseRange
  by_cases hM : M = []
  · subst hM
    have : b = e := by
      simp only [List.append_nil] at he
      rw [hb] at he; cases he; rfl
    subst this
    have hd : distance t.heap t.size b b = some 0 := by cases t.size <;> simp [distance]
    simp only [hd, Option.bind_eq_bind, Option.bind_some]
    exact ⟨b, t, rfl, by simpa using r, hb⟩
  · obtain ⟨H, ht, g, hs⟩ := r.good (by simp [hM])
    obtain ⟨b0, eb0, qb⟩ := g.iterAt_ok (X := X) (Y := M ++ Y) (by simp)
    rw [hb] at eb0; cases eb0
    obtain ⟨e0, ee0, qe⟩ := g.iterAt_ok (X := X ++ M) (Y := Y) rfl
    rw [he] at ee0; cases ee0
    have hd := distance_ok g M t.size qb qe (by rw [hs]; simp; omega)
    have hpos := List.length_pos_iff.2 hM
    simp only [hd, Option.bind_eq_bind, Option.bind_some]
    rw [if_neg (by omega)]
    by_cases hall : M.length = t.size
    · rw [if_pos hall]
      rw [hs] at hall
      simp only [List.length_append] at hall
      have hX : X = [] := List.length_eq_zero_iff.1 (by omega)
      have hY : Y = [] := List.length_eq_zero_iff.1 (by omega)
      subst hX
      subst hY
      obtain ⟨t', e1, em⟩ := Tree.clear_ok r
      simp only [e1, Option.bind_some, em.end]
      exact ⟨_, _, rfl, .inl ⟨em, rfl⟩, em.iterAt⟩
    · rw [if_neg hall]
      have hsz : t.size - M.length = (X ++ Y).length := by rw [hs]; simp; omega
      by_cases hn : b.node = e.node
      · rw [if_pos hn]
        obtain ⟨k, h', e1, g1, p1, hin⟩ := eraseSameNode_ok g qb qe hM hn (t.size - M.length)
        simp only [e1, Option.bind_some]
        obtain ⟨b', t', e2, r', hb'⟩ := rebalanceAfterDelete_ok hK g1 hsz p1 hin
        simp only [e2, Option.bind_some]
        exact ⟨b', t', rfl, r', hb'⟩
      · rw [if_neg hn]
        obtain ⟨b', t', e2, r', hb'⟩ := eraseLoop_ok hK M.length r hb (Nat.le_refl _)
        rw [hsz, List.length_append]
        simp only [e2, Option.bind_some]
        exact ⟨b', t', rfl, r', hb'⟩

end
end Gtl.Btree
