import Verif.Btree.Ops
/-
Restoring the fill of a node after values were removed from it.
-/
set_option linter.unusedSectionVars false
namespace Gtl.Btree
variable {α κ : Type}
variable {c : Cfg α κ} {t t' t'' : Tree α} {H H' H'' : Nat} {ht ht' ht'' : Nat → Nat} {L : List α} {E E' : Nat → Prop}

/-- Merging two neighbours. -/
theorem mergeNodes_ok {k p l r : Nat} {pd ln rn : Node α} {A B : List Nat} {VA VB : List α} {d : α}
    (g : Good c t E H ht L) (s : Sib t.heap p l r pd ln rn A B VA VB d) (hk : ht l = k)
    (hE : ∀ m, E m → m = l ∨ m = r) (h1 : 1 + ln.count + rn.count ≤ c.K) :
    ∃ t' ht' ln', mergeNodes c t l r = some t' ∧ Good c t' (· = p) H ht' L ∧ t'.size = t.size ∧ t'.root = t.root ∧
      Below t t' H H ht ht' k ∧ t'.heap.get l = some ln' ∧ ln'.parent = p ∧
      ln'.vals.length = ln.count + 1 + rn.count ∧
      (∀ i X Y, Pt t.heap t.root H k l i X Y → Pt t'.heap t'.root H k l i X Y) ∧
      (∀ i X Y, Pt t.heap t.root H k r i X Y → Pt t'.heap t'.root H k l (i + (1 + ln.count)) X Y) := by
  obtain ⟨l0, r0, lr, rr, hl, hr, lp, rp, lner, e1, e2, e3, e4⟩ := s.facts g.wf
  obtain ⟨h', rn', em, hlen, er', hleaf, rd, gl⟩ := s.merge_ok g.wf h1
  rw [hk] at rd
  set t' : Tree α := { t with heap := h'.free r, rightmost := if rn'.leaf && t.rightmost == r then l else t.rightmost } with ht'
  have run : mergeNodes c t l r = some t' := by
    unfold mergeNodes deleteNode
    simp [em, er', ht']
  have hpk : ht p = k + 1 := by omega
  have vl : (valsOf t'.heap l).length = ln.vals.length + 1 + rn.vals.length := by
    show (valsOf (h'.free r) l).length = _
    rw [valsOf_eq gl]; simp; omega
  have good : Good c t' (· = p) H (Redist.ht' [l] k ht) L := by
    refine g.redist (t' := t') rd s.p0 hpk rfl ?_ ?_ (fun h => absurd rfl h) ?_
    · show (if rn'.leaf && t.rightmost == r then l else t.rightmost) = _
      rw [hleaf]
      have hz : (rn.leaf && t.rightmost == r) = true ↔ (k = 0 ∧ [l, r].getLast? = some t.rightmost) := by
        have := g.wf.leaf_iff s.er r0
        simp only [Bool.and_eq_true, beq_iff_eq, this]
        constructor
        · rintro ⟨a, b⟩; exact ⟨by omega, by simp [b]⟩
        · rintro ⟨a, b⟩; exact ⟨by omega, by simpa using b.symm⟩
      by_cases hb : (rn.leaf && t.rightmost == r) = true
      · rw [if_pos hb, if_pos (hz.1 hb)]; simp
      · rw [if_neg hb, if_neg (fun hh => hb (hz.2 hh))]
    · intro m _ hm he
      rcases hE m he with rfl | rfl <;> simp at hm
    · intro x hx _
      simp only [List.mem_cons, List.not_mem_nil, or_false] at hx
      subst hx
      omega
  refine ⟨t', _, _, run, good, rfl, rfl, Redist.below (t' := t') g.wf rd s.p0 hpk rfl, gl, e1,
    by simp [Node.count]; omega, ?_, ?_⟩
  · intro i X Y q
    obtain ⟨_, e, _, _, hi⟩ := q.live g.wf
    rw [s.el] at e; cases e
    exact (rd.pt_move g.wf s.p0 hpk (j := 0) (j' := 0) (x := l) (y := l) (i := i) (i' := i) (by simp) (by simp)
      (by show i ≤ (valsOf t'.heap l).length; omega) (by rw [slot_two_left, slot_one]) q).1
  · intro i X Y q
    obtain ⟨_, e, _, _, hi⟩ := q.live g.wf
    rw [s.er] at e; cases e
    exact (rd.pt_move g.wf s.p0 hpk (j := 1) (j' := 0) (x := r) (y := l) (i := i) (i' := i + (1 + ln.count)) (by simp) (by simp)
      (by show _ ≤ (valsOf t'.heap l).length; unfold Node.count; omega)
      (by rw [slot_two_right, slot_one, valsOf_eq s.el]; unfold Node.count; omega) q).1

/-- What try_merge_or_rebalance leaves. -/
structure Refilled (c : Cfg α κ) (t t' : Tree α) (merged : Bool) (it it' : It) (H k : Nat) (ht ht' : Nat → Nat) (L X Y : List α) :
    Prop where
  size : t'.size = t.size
  root : t'.root = t.root
  below : Below t t' H H ht ht' k
  pt : Pt t'.heap t'.root H k it'.node it'.pos X Y
  inside : it.pos < (valsOf t.heap it.node).length → it'.pos < (valsOf t'.heap it'.node).length
  plain : merged = false → Good c t' (Loose False ht') H ht' L
  merged : merged = true → ∃ nd', t'.heap.get it'.node = some nd' ∧ nd'.parent ≠ 0 ∧ it'.node ≠ t'.root ∧
    Good c t' (· = nd'.parent) H ht' L

section
variable (hK : 3 ≤ c.K) {k n i : Nat} {nd : Node α} {X Y : List α} (g : Good c t (· = n) H ht L)
  (e : t.heap.get n = some nd) (hsmall : nd.count < c.minK) (hr : n ≠ t.root) (p : Pt t.heap t.root H k n i X Y)
include hK g e hsmall hr p

theorem siblings' : ∃ pd, t.heap.get nd.parent = some pd ∧ nd.parent ≠ 0 ∧ pd.kids[nd.position]? = some n ∧
    ht nd.parent = k + 1 ∧ ht n = k ∧ n ≠ 0 ∧ pd.kids.length = pd.vals.length + 1 ∧ 1 ≤ pd.vals.length ∧
    i ≤ nd.vals.length := by
  obtain ⟨nd', e', n0, hk, hi⟩ := p.live g.wf
  rw [e] at e'; cases e'
  obtain ⟨pd, ep, p0, _, hkid, hpt⟩ := g.parent_internal e n0 hr
  exact ⟨pd, ep, p0, hkid, by omega, hk, n0, g.wf.kids_len ep p0 (by omega),
    g.full _ _ ep p0 (by intro h; rw [h] at hpt; omega), hi⟩

theorem tryMergeLeft_ok : (tryMergeLeft c t ⟨n, i⟩ = some none ∧ (nd.position ≠ 0 → ∃ l ln, t.heap.get l = some ln ∧
      (∀ pd, t.heap.get nd.parent = some pd → pd.kids[nd.position - 1]? = some l) ∧ c.K < 1 + ln.count + nd.count)) ∨
    ∃ it' t' ht', tryMergeLeft c t ⟨n, i⟩ = some (some (it', t')) ∧ Refilled c t t' true ⟨n, i⟩ it' H k ht ht' L X Y := by
  obtain ⟨pd, ep, p0, hkid, hpt, hnt, n0, hkl, hpv, hi⟩ := siblings' hK g e hsmall hr p
  unfold tryMergeLeft
  simp only [e, Option.bind_eq_bind, Option.bind_some]
  by_cases h0 : nd.position = 0
  · left; rw [if_pos h0]; exact ⟨rfl, fun h => absurd h0 h⟩
  rw [if_neg h0]
  obtain ⟨j, hj⟩ : ∃ j, nd.position = j + 1 := ⟨nd.position - 1, by omega⟩
  have hjl := (List.getElem?_eq_some_iff.1 hkid).1
  have hl : pd.kids[j]? = some (pd.kids[j]'(by omega)) := List.getElem?_eq_getElem _
  obtain ⟨l0, lr, hlt, ln, el, lp, lpos⟩ := g.wf.kid _ _ _ _ ep p0 hl
  rw [hj] at hkid
  obtain ⟨d, hd, s⟩ := g.wf.sib p0 ep hl hkid el e
  have cl := g.wf.cap_eq el l0 (.inl lr)
  simp only [ep, Option.bind_some, hj, Nat.add_sub_cancel, hl, el, cl, beq_self_eq_true, check_true]
  by_cases hc : 1 + ln.count + nd.count ≤ c.K
  swap
  · left; rw [if_neg hc]
    refine ⟨rfl, fun _ => ⟨_, ln, el, ?_, by omega⟩⟩
    intro pd' ep'
    cases ep'
    exact hl
  rw [if_pos hc]
  right
  obtain ⟨t', ht', ln', e1, g1, s1, r1, b1, gl, hp', hvl, m1, m2⟩ := mergeNodes_ok (k := k) g s (by omega)
    (fun m hm => .inr hm) hc
  refine ⟨_, t', ht', by simp only [e1, Option.bind_some]; rfl, s1, r1, b1, m2 i X Y p,
    by rw [valsOf_eq e, valsOf_eq gl, hvl]; simp only [Node.count]; omega, by simp, fun _ => ⟨ln', gl, ?_, ?_, ?_⟩⟩
  · rw [hp']; exact p0
  · rw [r1]; exact lr
  · rw [hp']; exact g1

theorem tryRightSide_ok : (tryRightSide c t ⟨n, i⟩ = some none ∧ (nd.position = 0 → 1 ≤ nd.count)) ∨
    ∃ m t' ht', tryRightSide c t ⟨n, i⟩ = some (some (m, t')) ∧ Refilled c t t' m ⟨n, i⟩ ⟨n, i⟩ H k ht ht' L X Y := by
  obtain ⟨pd, ep, p0, hkid, hpt, hnt, n0, hkl, hpv, hi⟩ := siblings' hK g e hsmall hr p
  unfold tryRightSide
  simp only [e, Option.bind_eq_bind, Option.bind_some, ep]
  have hpc : pd.count = pd.vals.length := rfl
  have hnc : nd.count = nd.vals.length := rfl
  by_cases h0 : nd.position < pd.count
  swap
  · left; rw [if_neg h0]; exact ⟨rfl, fun h => by omega⟩
  rw [if_pos h0]
  have hl : pd.kids[nd.position + 1]? = some (pd.kids[nd.position + 1]'(by omega)) := List.getElem?_eq_getElem _
  obtain ⟨r0, rr, hrt, rn, er, rp, rpos⟩ := g.wf.kid _ _ _ _ ep p0 hl
  obtain ⟨d, hd, s⟩ := g.wf.sib p0 ep hkid hl e er
  have cr := g.wf.cap_eq er r0 (.inl rr)
  have vle := g.wf.vals_le er r0
  have hrc : rn.count = rn.vals.length := rfl
  simp only [Option.bind_some, hl, er, cr, beq_self_eq_true, check_true]
  by_cases hc : 1 + nd.count + rn.count ≤ c.K
  · rw [if_pos hc]
    right
    obtain ⟨t', ht', ln', e1, g1, s1, r1, b1, gl, hp', hvl, m1, m2⟩ := mergeNodes_ok (k := k) g s hnt (fun m hm => .inl hm) hc
    refine ⟨_, t', ht', by simp only [e1, Option.bind_some]; rfl, s1, r1, b1, m1 i X Y p,
      by rw [valsOf_eq e, valsOf_eq gl, hvl]; simp only [Node.count]; omega, by simp, fun _ => ⟨ln', gl, ?_, ?_, ?_⟩⟩
    · rw [hp']; exact p0
    · rw [r1]; exact hr
    · rw [hp']; exact g1
  rw [if_neg hc]
  have hmk : c.minK = c.K / 2 := rfl
  by_cases hcond : (decide (c.minK < rn.count) && (nd.count == 0 || decide (0 < i))) = true
  swap
  · left; rw [if_neg hcond]
    refine ⟨rfl, fun _ => ?_⟩
    simp only [Bool.and_eq_true, decide_eq_true_eq, Bool.or_eq_true, beq_iff_eq] at hcond
    by_contra h
    exact hcond ⟨by omega, .inl (by omega)⟩
  rw [if_pos hcond]
  simp only [Bool.and_eq_true, decide_eq_true_eq] at hcond
  right
  set m := min ((rn.count - nd.count) / 2) (rn.count - 1) with hm
  have m1 : 1 ≤ m := by omega
  obtain ⟨h', d', e1, hlen, hd', rd, gl, gr⟩ := s.rebalanceRightToLeft_ok g.wf (m := m) (by omega) m1 (by omega) (by omega)
  rw [hnt] at rd
  have vn' : valsOf h' n = nd.vals ++ d :: rn.vals.take (m - 1) := valsOf_eq gl
  have vr' : valsOf h' pd.kids[nd.position + 1] = rn.vals.drop m := valsOf_eq gr
  have ll : (valsOf h' n).length = nd.count + m := by rw [vn']; simp [List.length_take]; omega
  have lr : (valsOf h' pd.kids[nd.position + 1]).length = rn.count - m := by rw [vr']; simp [hrc]
  refine ⟨false, { t with heap := h' }, _, by simp only [e1, Option.bind_some], rfl, rfl,
    Redist.below (t' := { t with heap := h' }) g.wf rd p0 hpt rfl, ?_,
    by show i < (valsOf t.heap n).length → i < (valsOf h' n).length; rw [valsOf_eq e]; omega, fun _ => ?_, by simp⟩
  · exact (rd.pt_move g.wf p0 hpt (j := 0) (j' := 0) (x := n) (y := n) (i := i) (i' := i) (by simp) (by simp)
      (by omega) (by rw [slot_two_left, slot_two_left]) p).1
  · refine g.redist (t' := { t with heap := h' }) rd p0 hpt rfl ?_ ?_ ?_ ?_
    · by_cases hz : k = 0 ∧ [n, pd.kids[nd.position + 1]].getLast? = some t.rightmost
      · rw [if_pos hz]
        simpa using hz.2.symm
      · rw [if_neg hz]
    · intro x _ hx he
      subst he
      simp at hx
    · intro _
      show 1 ≤ List.length (_ ++ _ ++ _)
      simp only [List.length_append, List.length_cons]
      omega
    · intro x hx _
      simp only [List.mem_cons, List.not_mem_nil, or_false] at hx
      rcases hx with rfl | rfl
      · show 1 ≤ (valsOf h' _).length
        omega
      · show 1 ≤ (valsOf h' _).length
        omega

theorem tryRebalanceLeft_ok (hno : nd.position = 0 → 1 ≤ nd.count)
    (hleft : nd.position ≠ 0 → ∃ l ln, t.heap.get l = some ln ∧
      (∀ pd, t.heap.get nd.parent = some pd → pd.kids[nd.position - 1]? = some l) ∧ c.K < 1 + ln.count + nd.count) :
    ∃ it' t' ht', tryRebalanceLeft c t ⟨n, i⟩ = some (it', t') ∧ Refilled c t t' false ⟨n, i⟩ it' H k ht ht' L X Y := by
  obtain ⟨pd, ep, p0, hkid, hpt, hnt, n0, hkl, hpv, hi⟩ := siblings' hK g e hsmall hr p
  have hnc : nd.count = nd.vals.length := rfl
  have stay : 1 ≤ nd.count → Refilled c t t false ⟨n, i⟩ ⟨n, i⟩ H k ht ht L X Y := by
    intro h
    refine ⟨rfl, rfl, .refl _, p, fun h => h, fun _ => ⟨g.wf, g.left, g.right, ?_, g.seq⟩, by simp⟩
    intro m md em m0 _
    by_cases hm : m = n
    · subst hm; rw [e] at em; cases em; exact h
    · exact g.full m md em m0 hm
  unfold tryRebalanceLeft
  simp only [e, Option.bind_eq_bind, Option.bind_some]
  by_cases h0 : nd.position = 0
  · rw [if_pos h0]
    exact ⟨_, _, _, rfl, stay (hno h0)⟩
  rw [if_neg h0]
  obtain ⟨l, ln, el, hl, hbig⟩ := hleft h0
  have hl := hl pd ep
  obtain ⟨j, hj⟩ : ∃ j, nd.position = j + 1 := ⟨nd.position - 1, by omega⟩
  rw [hj, Nat.add_sub_cancel] at hl
  obtain ⟨l0, lr, hlt, ln', el', lp, lpos⟩ := g.wf.kid _ _ _ _ ep p0 hl
  rw [el] at el'; cases el'
  rw [hj] at hkid
  obtain ⟨d, hd, s⟩ := g.wf.sib p0 ep hl hkid el e
  have vle := g.wf.vals_le el l0
  have hlc : ln.count = ln.vals.length := rfl
  have hmk : c.minK = c.K / 2 := rfl
  simp only [ep, Option.bind_some, hj, Nat.add_sub_cancel, hl, el]
  by_cases hcond : (decide (c.minK < ln.count) && (nd.count == 0 || decide (i < nd.count))) = true
  swap
  · rw [if_neg hcond]
    refine ⟨_, _, _, rfl, stay ?_⟩
    simp only [Bool.and_eq_true, decide_eq_true_eq, Bool.or_eq_true, beq_iff_eq] at hcond
    by_contra h
    exact hcond ⟨by omega, .inl (by omega)⟩
  rw [if_pos hcond]
  simp only [Bool.and_eq_true, decide_eq_true_eq] at hcond
  set m := min ((ln.count - nd.count) / 2) (ln.count - 1) with hm
  have m1 : 1 ≤ m := by omega
  obtain ⟨h', d', e1, hlen, hd', rd, gl, gr⟩ := s.rebalanceLeftToRight_ok g.wf (m := m) (by omega) m1 (by omega) (by omega)
  have hlk : ht l = k := by omega
  rw [hlk] at rd
  have vl' : valsOf h' l = ln.vals.take (ln.count - m) := valsOf_eq gl
  have vn' : valsOf h' n = ln.vals.drop (ln.count - (m - 1)) ++ d :: nd.vals := valsOf_eq gr
  have ll : (valsOf h' l).length = ln.count - m := by rw [vl']; simp [hlc]
  have lr' : (valsOf h' n).length = nd.count + m := by rw [vn']; simp [hlc, hnc]; omega
  refine ⟨⟨n, i + m⟩, { t with heap := h' }, _, by simp only [e1, Option.bind_some], rfl, rfl,
    Redist.below (t' := { t with heap := h' }) g.wf rd p0 hpt rfl, ?_,
    by show i < (valsOf t.heap n).length → i + m < (valsOf h' n).length; rw [valsOf_eq e]; omega, fun _ => ?_, by simp⟩
  · exact (rd.pt_move g.wf p0 hpt (j := 1) (j' := 1) (x := n) (y := n) (i := i) (i' := i + m) (by simp) (by simp)
      (by omega) (by rw [slot_two_right, slot_two_right, ll, valsOf_eq el]; omega) p).1
  · refine g.redist (t' := { t with heap := h' }) rd p0 hpt rfl ?_ ?_ ?_ ?_
    · by_cases hz : k = 0 ∧ [l, n].getLast? = some t.rightmost
      · rw [if_pos hz]
        simpa using hz.2.symm
      · rw [if_neg hz]
    · intro x _ hx he
      subst he
      simp at hx
    · intro _
      show 1 ≤ List.length (_ ++ _ ++ _)
      simp only [List.length_append, List.length_cons]
      omega
    · intro x hx _
      simp only [List.mem_cons, List.not_mem_nil, or_false] at hx
      rcases hx with rfl | rfl
      · show 1 ≤ (valsOf h' _).length
        omega
      · show 1 ≤ (valsOf h' _).length
        omega

/-- try_merge_or_rebalance. -/
theorem tryMergeOrRebalance_ok : ∃ m it' t' ht', tryMergeOrRebalance c t ⟨n, i⟩ = some (m, it', t') ∧
    Refilled c t t' m ⟨n, i⟩ it' H k ht ht' L X Y := by
  unfold tryMergeOrRebalance
  rcases tryMergeLeft_ok hK g e hsmall hr p with ⟨h1, h2⟩ | ⟨it', t', ht', h1, h2⟩
  · simp only [h1, Option.bind_eq_bind, Option.bind_some]
    rcases tryRightSide_ok hK g e hsmall hr p with ⟨h3, h4⟩ | ⟨m, t', ht', h3, h4⟩
    · simp only [h3, Option.bind_some]
      obtain ⟨it', t', ht', h5, h6⟩ := tryRebalanceLeft_ok hK g e hsmall hr p h4 h2
      exact ⟨false, it', t', ht', by simp [h5], h6⟩
    · exact ⟨m, _, t', ht', by simp [h3], h4⟩
  · exact ⟨true, it', t', ht', by simp [h1], h2⟩

end

/-- The root of a tree whose root lost its last value. -/
theorem tryShrink_ok (g : Good c t (· = t.root) H ht L) (hs : t.size = L.length) :
    ∃ t', tryShrink t = some t' ∧ ((L = [] ∧ Empty t') ∨
      ∃ H' ht', Good c t' (Loose False ht') H' ht' L ∧ t'.size = L.length ∧
        ∀ k n i X Y, Pt t.heap t.root H k n i X Y → (0 < k → i < (valsOf t.heap n).length) →
          Pt t'.heap t'.root H' k n i X Y ∧ valsOf t'.heap n = valsOf t.heap n) := by
  obtain ⟨rn, er, hp⟩ := g.left
  have r0 := g.wf.root0
  have hcn : rn.count = rn.vals.length := rfl
  unfold tryShrink
  simp only [er, Option.bind_eq_bind, Option.bind_some]
  by_cases hc : 0 < rn.count
  · rw [if_pos hc]
    refine ⟨t, rfl, .inr ⟨H, ht, ⟨g.wf, g.left, g.right, ?_, g.seq⟩, hs, fun _ _ _ _ _ p _ => ⟨p, rfl⟩⟩⟩
    intro m md em m0 _
    by_cases hm : m = t.root
    · subst hm; rw [er] at em; cases em; exact hc
    · exact g.full m md em m0 hm
  rw [if_neg hc]
  have hv : rn.vals = [] := List.length_eq_zero_iff.1 (by omega)
  cases H with
  | zero =>
    have hleaf := (g.wf.leaf_iff er r0).2 g.wf.rootHt
    have hL : L = [] := by
      have := g.seq
      simp only [elems, valsOf_eq er, hv] at this
      exact this.symm
    subst hL
    have hs0 : t.size = 0 := hs
    rw [if_pos hleaf]
    simp only [hs0, beq_self_eq_true, check_true, Option.bind_some, deleteNode, er]
    refine ⟨_, rfl, .inl ⟨trivial, ?_, rfl, rfl, rfl, ?_⟩⟩
    · show (t.heap.free t.root).get 0 = _
      rw [Heap.get_free, if_neg (Ne.symm r0), g.wf.zero]
    · intro y yd ey
      have ey : (t.heap.free t.root).get y = some yd := ey
      rw [Heap.get_free] at ey
      by_cases hy : y = t.root
      · rw [if_pos hy] at ey; cases ey
      · rw [if_neg hy] at ey
        rcases g.wf.only_root y yd ey with h | h
        · exact h
        · exact absurd h hy
  | succ H =>
    have hleaf := g.wf.leaf_false er r0 (by rw [g.wf.rootHt]; omega)
    have hkl := g.wf.kids_len er r0 (by rw [g.wf.rootHt]; omega)
    obtain ⟨k, hk⟩ : ∃ k, rn.kids = [k] := by
      rw [hv] at hkl
      exact List.length_eq_one_iff.1 hkl
    obtain ⟨k0, kr, hkt, kd, ek, kp, kpos⟩ := g.wf.kid t.root rn 0 k er r0 (by rw [hk]; rfl)
    have hkH : ht k = H := by have := g.wf.rootHt; omega
    obtain ⟨rn', ppn, er', epp, hppl, _⟩ := g.root_leaf
    rw [er] at er'; cases er'
    rw [hleaf]
    simp only [Bool.false_eq_true, if_false, hk, List.getElem?_cons_zero, Option.bind_some, ek, kp, er, epp, hppl, check_true]
    set h1 : Heap α := t.heap.set k { kd with parent := rn.parent } with hh1
    have g1 : ∀ j, h1.get j = if j = k then some { kd with parent := rn.parent } else t.heap.get j := Heap.get_set _ ek
    have er1 : h1.get t.root = some rn := by rw [g1, if_neg (Ne.symm kr), er]
    simp only [deleteNode, er1, Option.bind_some]
    set h2 := h1.free t.root with hh2
    have g2 : ∀ j, h2.get j = if j = t.root then none else if j = k then some { kd with parent := rn.parent } else t.heap.get j := by
      intro j; rw [hh2, Heap.get_free, g1]
    have gk : h2.get k = some { kd with parent := rn.parent } := by rw [g2, if_neg kr, if_pos rfl]
    have w := g.wf
    -- the other nodes
    have same : ∀ y yd, t.heap.get y = some yd → y ≠ t.root → ∃ yd', h2.get y = some yd' ∧ yd'.vals = yd.vals ∧
        yd'.kids = yd.kids ∧ yd'.maxCount = yd.maxCount ∧ (y ≠ k → yd' = yd) := by
      intro y yd ey hy
      by_cases hyk : y = k
      · subst hyk
        rw [ek] at ey; cases ey
        exact ⟨_, gk, rfl, rfl, rfl, fun h => absurd rfl h⟩
      · exact ⟨yd, by rw [g2, if_neg hy, if_neg hyk, ey], rfl, rfl, rfl, fun _ => rfl⟩
    have back : ∀ y yd', h2.get y = some yd' → y ≠ t.root ∧ ∃ yd, t.heap.get y = some yd := by
      intro y yd' ey
      rw [g2] at ey
      by_cases hy : y = t.root
      · rw [if_pos hy] at ey; cases ey
      · rw [if_neg hy] at ey
        refine ⟨hy, ?_⟩
        by_cases hyk : y = k
        · exact ⟨kd, by rw [hyk, ek]⟩
        · rw [if_neg hyk] at ey; exact ⟨_, ey⟩
    have w' : WF c h2 k H ht := by
      constructor
      · rw [g2, if_neg (Ne.symm r0), if_neg (Ne.symm k0), w.zero]
      · exact k0
      · exact ⟨_, gk⟩
      · exact hkH
      · intro y yd' ey y0
        obtain ⟨hy, yd, e0⟩ := back y yd' ey
        have h1 := w.bound _ _ e0 y0
        by_contra hcon
        exact hy (w.root_of_ht e0 y0 (by omega))
      · intro y yd' ey y0
        obtain ⟨hy, yd, e0⟩ := back y yd' ey
        obtain ⟨yd'', e'', q1, q2, q3, _⟩ := same y yd e0 hy
        rw [ey] at e''; cases e''
        have s := w.shape _ _ e0 y0
        unfold Shape at s ⊢
        rw [q1, q2, q3]
        rcases s with s | s
        · exact .inl ⟨s.1, s.2.1, s.2.2.1, s.2.2.2.1, s.2.2.2.2.1, fun _ => s.2.2.2.2.2 hy⟩
        · exact .inr s
      · intro y yd' i x ey y0 hx
        obtain ⟨hy, yd, e0⟩ := back y yd' ey
        obtain ⟨yd'', e'', q1, q2, q3, _⟩ := same y yd e0 hy
        rw [ey] at e''; cases e''
        rw [q2] at hx
        obtain ⟨x0, xr, hxt, xd, ex, f1, f2⟩ := w.kid _ _ _ _ e0 y0 hx
        have hxk : x ≠ k := by
          rintro rfl
          rw [ek] at ex; cases ex
          exact hy (f1.symm.trans kp)
        exact ⟨x0, hxk, hxt, xd, by rw [g2, if_neg xr, if_neg hxk, ex], f1, f2⟩
      · intro y yd' ey y0 yk
        obtain ⟨hy, yd, e0⟩ := back y yd' ey
        obtain ⟨yd'', e'', q1, q2, q3, hne⟩ := same y yd e0 hy
        rw [ey] at e''; cases e''
        have := hne yk
        subst this
        obtain ⟨p0, pd, ep, hpk⟩ := w.par _ _ e0 y0 hy
        have hpr : yd'.parent ≠ t.root := by
          intro h
          rw [h, er] at ep; cases ep
          rw [hk] at hpk
          have := List.mem_of_getElem? hpk
          simp at this
          exact yk this
        obtain ⟨pd', ep', _, k2, _⟩ := same _ pd ep hpr
        exact ⟨p0, pd', ep', by rw [k2]; exact hpk⟩
    have agree : ∀ (j : Nat) {y : Nat} {yd : Node α}, t.heap.get y = some yd → y ≠ 0 → y ≠ t.root → ht y = j →
        elems h2 j y = elems t.heap j y ∧ lm h2 j y = lm t.heap j y ∧ rm h2 j y = rm t.heap j y := by
      intro j
      induction j with
      | zero =>
        intro y yd ey y0 yr hy
        obtain ⟨yd', e', q1, _⟩ := same y yd ey yr
        exact ⟨by simp only [elems, valsOf_eq ey, valsOf_eq e', q1], rfl, rfl⟩
      | succ j ih =>
        intro y yd ey y0 yr hy
        obtain ⟨yd', e', q1, q2, _⟩ := same y yd ey yr
        have kid : ∀ z ∈ yd.kids, elems h2 j z = elems t.heap j z ∧ lm h2 j z = lm t.heap j z ∧ rm h2 j z = rm t.heap j z := by
          intro z hz
          obtain ⟨z0, zr, hzt, zd, ez, _⟩ := w.kid_mem ey y0 hz
          exact ih ez z0 zr (by omega)
        refine ⟨?_, ?_, ?_⟩
        · simp only [elems, valsOf_eq ey, kidsOf_eq ey, valsOf_eq e', kidsOf_eq e', q1, q2]
          congr 1
          exact List.map_congr_left fun z hz => (kid z hz).1
        · simp only [lm, kidsOf_eq ey, kidsOf_eq e', q2]
          cases hd : yd.kids.head? with
          | none => rfl
          | some z => exact (kid z (List.mem_of_head? hd)).2.1
        · simp only [rm, kidsOf_eq ey, kidsOf_eq e', q2]
          cases hd : yd.kids.getLast? with
          | none => rfl
          | some z => exact (kid z (List.mem_of_getLast? hd)).2.2
    have aK := agree H ek k0 kr hkH
    have kc : kidsOf t.heap t.root = [k] := by rw [kidsOf_eq er, hk]
    have ctx : ∀ {j y X Y}, Ctx t.heap t.root (H + 1) j y X Y → y ≠ t.root → Ctx h2 k H j y X Y := by
      intro j y X Y x
      induction x with
      | root => intro h; exact absurd rfl h
      | @kid j p pd i x A B xp ep hi ih =>
        intro hx
        obtain ⟨_, _, p0, hpk⟩ := xp.live w
        by_cases hpr : p = t.root
        · subst hpr
          rw [er] at ep; cases ep
          have hj : j = H := by have := w.rootHt; omega
          subst hj
          obtain ⟨rfl, rfl⟩ := xp.det w .root
          rw [hk] at hi
          have hi0 : i = 0 ∧ x = k := by
            cases i with
            | zero => simp at hi; exact ⟨rfl, hi.symm⟩
            | succ i => simp at hi
          obtain ⟨rfl, rfl⟩ := hi0
          simp only [hk, hv, List.take_zero, List.map_nil, List.drop_one, List.tail_cons, List.drop_nil, List.append_nil,
            List.nil_append, zF, zB, Nat.zero_add]
          exact .root
        · have ih := ih hpr
          obtain ⟨pd', ep', q1, q2, q3, _⟩ := same p pd ep hpr
          have y := Ctx.kid ih ep' (by rw [q2]; exact hi)
          rw [q1, q2] at y
          have e1 : ∀ z ∈ pd.kids, elems h2 j z = elems t.heap j z := by
            intro z hz
            obtain ⟨z0, zr, hzt, zd, ez, _⟩ := w.kid_mem ep p0 hz
            exact (agree j ez z0 zr (by omega)).1
          rw [List.map_congr_left (l := pd.kids.take i) fun z hz => e1 z (List.mem_of_mem_take hz),
            List.map_congr_left (l := pd.kids.drop (i + 1)) fun z hz => e1 z (List.mem_of_mem_drop hz)] at y
          exact y
    refine ⟨_, rfl, .inr ⟨H, ht, ⟨w', ⟨_, gk, ?_⟩, ?_, ?_, ?_⟩, hs, ?_⟩⟩
    · show rn.parent = lm h2 H k
      rw [aK.2.1, hp, lm_succ (x := k) (by rw [kc]; rfl)]
    · show t.rightmost = rm h2 H k
      rw [aK.2.2, g.right, rm_succ (x := k) (by rw [kc]; rfl)]
    · intro y yd' ey y0 _
      obtain ⟨hy, yd, e0⟩ := back y yd' ey
      obtain ⟨yd'', e'', q1, _⟩ := same y yd e0 hy
      rw [ey] at e''; cases e''
      rw [q1]
      exact g.full y yd e0 y0 hy
    · show elems h2 H k = L
      rw [aK.1, ← g.seq]
      simp only [elems, kc, valsOf_eq er, hv, List.map_cons, List.map_nil, inter_one]
    · intro k' n i X Y q hin
      obtain ⟨A, B, x, hi, rfl, rfl⟩ := q
      obtain ⟨nd, en, n0, hn⟩ := x.live w
      have hnr : n ≠ t.root := by
        rintro rfl
        have := w.rootHt
        have := hin (by omega)
        rw [valsOf_eq er, hv] at this
        simp at this
      obtain ⟨nd', en', q1, q2, _⟩ := same n nd en hnr
      have hvv : valsOf h2 n = valsOf t.heap n := by rw [valsOf_eq en, valsOf_eq en', q1]
      refine ⟨⟨A, B, ctx x hnr, ?_, ?_, ?_⟩, hvv⟩
      · show i ≤ (valsOf h2 n).length
        rw [hvv]; exact hi
      · show _ = A ++ pre h2 k' n i
        cases k' with
        | zero => simp only [pre, hvv]
        | succ j =>
          simp only [pre, hvv, kidsOf_eq en, kidsOf_eq en', q2]
          congr 2
          apply List.map_congr_left
          intro z hz
          obtain ⟨z0, zr, hzt, zd, ez, _⟩ := w.kid_mem en n0 (List.mem_of_mem_take hz)
          exact (agree j ez z0 zr (by omega)).1.symm
      · show _ = post h2 k' n i ++ B
        cases k' with
        | zero => simp only [post, hvv]
        | succ j =>
          simp only [post, hvv, kidsOf_eq en, kidsOf_eq en', q2]
          congr 2
          apply List.map_congr_left
          intro z hz
          obtain ⟨z0, zr, hzt, zd, ez, _⟩ := w.kid_mem en n0 (List.mem_of_mem_drop hz)
          exact (agree j ez z0 zr (by omega)).1.symm

end Gtl.Btree
