import Verif.Btree.SetVals
import Verif.Btree.NodeSplit
/-
Making room for one more value in a full node.
-/
set_option linter.unusedSectionVars false
namespace Gtl.Btree
variable {α κ : Type}

/-- The nodes of height less than `b` keep their values, children and places. -/
structure Below (t t' : Tree α) (H H' : Nat) (ht ht' : Nat → Nat) (b : Nat) : Prop where
  keep : ∀ y yd, t.heap.get y = some yd → y ≠ 0 → ht y < b → ∃ yd', t'.heap.get y = some yd' ∧
    yd'.vals = yd.vals ∧ yd'.kids = yd.kids ∧ yd'.maxCount = yd.maxCount ∧ ht' y = ht y
  ctx : ∀ j y X Y, j < b → Ctx t.heap t.root H j y X Y → Ctx t'.heap t'.root H' j y X Y

variable {c : Cfg α κ} {t t' t'' : Tree α} {H H' H'' : Nat} {ht ht' ht'' : Nat → Nat} {L : List α} {E E' : Nat → Prop}

theorem Below.refl (b : Nat) : Below t t H H ht ht b :=
  ⟨fun _ yd e _ _ => ⟨yd, e, rfl, rfl, rfl, rfl⟩, fun _ _ _ _ _ x => x⟩

theorem Below.trans {b b' : Nat} (p : Below t t' H H' ht ht' b) (q : Below t' t'' H' H'' ht' ht'' b') (hb : b' ≤ b) :
    Below t t'' H H'' ht ht'' b' where
  keep := by
    intro y yd e y0 hy
    obtain ⟨yd', e', h1, h2, h3, h4⟩ := p.keep y yd e y0 (by omega)
    obtain ⟨yd'', e'', k1, k2, k3, k4⟩ := q.keep y yd' e' y0 (by omega)
    exact ⟨yd'', e'', by rw [k1, h1], by rw [k2, h2], by rw [k3, h3], by rw [k4, h4]⟩
  ctx := fun j y X Y hj x => q.ctx j y X Y hj (p.ctx j y X Y (by omega) x)

theorem Below.elems {b : Nat} (p : Below t t' H H' ht ht' b) (w : WF c t.heap t.root H ht) :
    ∀ (j : Nat) {y : Nat} {yd : Node α}, t.heap.get y = some yd → y ≠ 0 → ht y = j → j < b →
    elems t'.heap j y = elems t.heap j y := by
  intro j
  induction j with
  | zero =>
    intro y yd e y0 hy hb
    obtain ⟨yd', e', h1, _⟩ := p.keep y yd e y0 (by omega)
    simp only [Btree.elems, valsOf_eq e, valsOf_eq e', h1]
  | succ j ih =>
    intro y yd e y0 hy hb
    obtain ⟨yd', e', h1, h2, _⟩ := p.keep y yd e y0 (by omega)
    simp only [Btree.elems, valsOf_eq e, valsOf_eq e', kidsOf_eq e, kidsOf_eq e', h1, h2]
    congr 1
    apply List.map_congr_left
    intro z hz
    obtain ⟨z0, _, hzt, zd, ez, _⟩ := w.kid_mem e y0 hz
    exact ih ez z0 (by omega) (by omega)

theorem Below.pt {b j y i : Nat} {X Y : List α} (p : Below t t' H H' ht ht' b) (w : WF c t.heap t.root H ht) (hj : j < b)
    (q : Pt t.heap t.root H j y i X Y) : Pt t'.heap t'.root H' j y i X Y := by
  obtain ⟨A, B, x, hi, rfl, rfl⟩ := q
  obtain ⟨yd, e, y0, hy⟩ := x.live w
  obtain ⟨yd', e', h1, h2, _⟩ := p.keep y yd e y0 (by omega)
  refine ⟨A, B, p.ctx _ _ _ _ hj x, by rwa [valsOf_eq e', h1, ← valsOf_eq e], ?_, ?_⟩
  · cases j with
    | zero => simp only [pre, valsOf_eq e, valsOf_eq e', h1]
    | succ j =>
      simp only [pre, valsOf_eq e, valsOf_eq e', kidsOf_eq e, kidsOf_eq e', h1, h2]
      congr 2
      apply List.map_congr_left
      intro z hz
      obtain ⟨z0, _, hzt, zd, ez, _⟩ := w.kid_mem e y0 (List.mem_of_mem_take hz)
      exact (p.elems w j ez z0 (by omega) (by omega)).symm
  · cases j with
    | zero => simp only [post, valsOf_eq e, valsOf_eq e', h1]
    | succ j =>
      simp only [post, valsOf_eq e, valsOf_eq e', kidsOf_eq e, kidsOf_eq e', h1, h2]
      congr 2
      apply List.map_congr_left
      intro z hz
      obtain ⟨z0, _, hzt, zd, ez, _⟩ := w.kid_mem e y0 (List.mem_of_mem_drop hz)
      exact (p.elems w j ez z0 (by omega) (by omega)).symm

theorem Redist.below {k p : Nat} {pd pd' : Node α} {A ls ls' B : List Nat} {VA ms ms' VB : List α}
    (w : WF c t.heap t.root H ht) (r : Redist c t.heap t'.heap k p pd pd' A ls ls' B VA ms ms' VB) (p0 : p ≠ 0)
    (hk : ht p = k + 1) (hr : t'.root = t.root) : Below t t' H H ht (Redist.ht' ls' k ht) k where
  keep := by
    intro y yd e y0 hy
    have hl : y ∉ ls := fun hl => by have := (mem_ls w r p0 hk hl).2.2.1; omega
    obtain ⟨yd', e', h1, h2, h3⟩ := same w r p0 hk e (by rintro rfl; omega) hl
    exact ⟨yd', e', h1, h2, h3, ht'_live w r p0 hk e⟩
  ctx := by
    intro j y X Y hj x
    obtain ⟨yd, e, y0, hy⟩ := x.live w
    rw [hr]
    exact ctx_same' w r p0 hk x (fun hl => by have := (mem_ls w r p0 hk hl).2.2.1; omega)

/-- The place `it` of the tree `t` became the place `it'` of `t'`, where there is
room for one more value. -/
structure Moved (c : Cfg α κ) (z : Prop) (t t' : Tree α) (it it' : It) (H H' k : Nat) (ht ht' : Nat → Nat) (L X Y : List α) :
    Prop where
  good : Good c t' (fun m => Loose z ht' m ∨ m = it'.node) H' ht' L
  size : t'.size = t.size
  below : Below t t' H H' ht ht' k
  pt : Pt t'.heap t'.root H' k it'.node it'.pos X Y
  room : (valsOf t'.heap it'.node).length < c.K
  deep : k < H'
  kid : 0 < k → (kidsOf t'.heap it'.node)[it'.pos]? = (kidsOf t.heap it.node)[it.pos]?

theorem slot_two_left (h : Heap α) (l r i : Nat) : slot h [l, r] 0 i = i := by simp [slot]
theorem slot_two_right (h : Heap α) (l r i : Nat) : slot h [l, r] 1 i = (valsOf h l).length + 1 + i := by simp [slot]
theorem slot_one (h : Heap α) (l i : Nat) : slot h [l] 0 i = i := by simp [slot]

section
variable {z : Prop} (g : Good c t (Loose z ht) H ht L) (hK : 3 ≤ c.K) {k n i : Nat} {nd : Node α} {X Y : List α}
  (e : t.heap.get n = some nd) (hfull : nd.vals.length = c.K) (hr : n ≠ t.root) (p : Pt t.heap t.root H k n i X Y)
include g hK e hfull hr p

/-- The children of the parent of a node. -/
theorem siblings : ∃ pd, t.heap.get nd.parent = some pd ∧ nd.parent ≠ 0 ∧ pd.kids[nd.position]? = some n ∧
    ht nd.parent = k + 1 ∧ ht n = k ∧ n ≠ 0 ∧ pd.kids.length = pd.vals.length + 1 ∧ i ≤ c.K := by
  obtain ⟨nd', e', n0, hk, hi⟩ := p.live g.wf
  rw [e] at e'; cases e'
  obtain ⟨pd, ep, p0, _, hkid, hpt⟩ := g.parent_internal e n0 hr
  exact ⟨pd, ep, p0, hkid, by omega, hk, n0, g.wf.kids_len ep p0 (by omega), by omega⟩

theorem tryLeft_ok : tryLeft c t.heap ⟨n, i⟩ = some none ∨
    ∃ h' it' ht', tryLeft c t.heap ⟨n, i⟩ = some (some (h', it')) ∧
      Moved c z t { t with heap := h' } ⟨n, i⟩ it' H H k ht ht' L X Y ∧
      Good c { t with heap := h' } (Loose z ht') H ht' L := by
  obtain ⟨pd, ep, p0, hkid, hpt, hnt, n0, hkl, hiK⟩ := siblings g hK e hfull hr p
  unfold tryLeft
  dsimp only
  simp only [e, Option.bind_eq_bind, Option.bind_some]
  by_cases h0 : nd.position = 0
  · left; rw [if_pos h0]
  rw [if_neg h0]
  obtain ⟨j, hj⟩ : ∃ j, nd.position = j + 1 := ⟨nd.position - 1, by omega⟩
  have hjl := (List.getElem?_eq_some_iff.1 hkid).1
  have hl : pd.kids[j]? = some (pd.kids[j]'(by omega)) := List.getElem?_eq_getElem _
  obtain ⟨l0, lr, hlt, ln, el, lp, lpos⟩ := g.wf.kid _ _ _ _ ep p0 hl
  rw [hj] at hkid
  obtain ⟨d, hd, s⟩ := g.wf.sib p0 ep hl hkid el e
  have cl := g.wf.cap_eq el l0 (.inl lr)
  have fl : ¬ (z ∧ 0 < k) → 1 ≤ ln.vals.length := fun hz => g.full _ _ el l0 (fun h => hz ⟨h.1, by have := h.2; omega⟩)
  have vle := g.wf.vals_le el l0
  simp only [ep, Option.bind_some, hj, Nat.add_sub_cancel, hl, el, cl, beq_self_eq_true, check_true]
  by_cases hc : ln.count < c.K
  swap
  · left; rw [if_neg hc]
  rw [if_pos hc]
  set m := max 1 ((c.K - ln.count) / (if i < c.K then 2 else 1)) with hm
  have m1 : 1 ≤ m := by omega
  have mle : m ≤ c.K - ln.count := by
    have : (c.K - ln.count) / (if i < c.K then 2 else 1) ≤ c.K - ln.count := Nat.div_le_self _ _
    omega
  by_cases hcond : (decide (m ≤ i) || decide (ln.count + m < c.K)) = true
  swap
  · left; rw [if_neg hcond]
  rw [if_pos hcond]
  right
  have cn : nd.count = c.K := hfull
  have lc : ln.count = ln.vals.length := rfl
  obtain ⟨h', d', e1, hlen, hd', r, gl, gr⟩ := s.rebalanceRightToLeft_ok g.wf (m := m) (by omega) m1 (by omega) (by omega)
  have hk' : ht nd.parent = ht pd.kids[j] + 1 := hlt
  have hkk : ht pd.kids[j] = k := by omega
  rw [hkk] at r
  have vl' : valsOf h' pd.kids[j] = ln.vals ++ d :: nd.vals.take (m - 1) := valsOf_eq gl
  have vn' : valsOf h' n = nd.vals.drop m := valsOf_eq gr
  have ll : (valsOf h' pd.kids[j]).length = ln.count + m := by rw [vl']; simp [List.length_take, hfull]; omega
  have ln' : (valsOf h' n).length = c.K - m := by rw [vn']; simp [hfull]
  have gd : ∀ E', (∀ m, Loose z (Redist.ht' [pd.kids[j], n] k ht) m → E' m) →
      Good c { t with heap := h' } E' H (Redist.ht' [pd.kids[j], n] k ht) L := by
    intro E' hE'
    refine g.redist' (t' := { t with heap := h' }) r p0 hpt rfl ?_
      (fun m _ hm _ hl => hE' m ⟨hl.1, by rw [Redist.ht', if_neg hm]; exact hl.2⟩) ?_ ?_
    · by_cases hz : k = 0 ∧ [pd.kids[j], n].getLast? = some t.rightmost
      · rw [if_pos hz]
        simpa using hz.2.symm
      · rw [if_neg hz]
    · intro _
      show 1 ≤ List.length (_ ++ _ ++ _)
      simp only [List.length_append, List.length_cons]
      omega
    · intro x hx hxE
      have hz : ¬ (z ∧ 0 < k) := fun h => hxE (hE' x ⟨h.1, by rw [Redist.ht', if_pos hx]; exact h.2⟩)
      have := fl hz
      simp only [List.mem_cons, List.not_mem_nil, or_false] at hx
      rcases hx with rfl | rfl
      · show 1 ≤ (valsOf h' _).length
        omega
      · show 1 ≤ (valsOf h' _).length
        omega
  have bl : Below t { t with heap := h' } H H ht (Redist.ht' [pd.kids[j], n] k ht) k :=
    Redist.below (t' := { t with heap := h' }) g.wf r p0 hpt rfl
  have dp : k < H := by have := g.wf.bound _ _ ep p0; omega
  simp only [e1, gl, Option.bind_some]
  by_cases hmi : m ≤ i
  · rw [if_pos hmi]
    have q := r.pt_move g.wf p0 hpt (j := 1) (j' := 1) (x := n) (y := n) (i := i) (i' := i - m) (X := X) (Y := Y)
      (by simp) (by simp) (by omega)
      (by rw [slot_two_right, slot_two_right, ll, valsOf_eq el]; omega) p
    exact ⟨_, _, _, rfl, ⟨gd _ (fun _ h => .inl h), rfl, bl, q.1, by show (valsOf h' n).length < _; omega, dp, q.2⟩, gd _ (fun _ h => h)⟩
  · rw [if_neg hmi]
    have hlt2 : ln.count + m < c.K := by
      simp only [Bool.or_eq_true, decide_eq_true_eq] at hcond
      omega
    have hcnt : ({ ln with vals := ln.vals ++ d :: nd.vals.take (m - 1), kids := ln.kids ++ nd.kids.take m } :
        Node α).count = ln.count + m := by
      rw [← ll, vl']; rfl
    rw [hcnt, show i + (ln.count + m) + 1 - m = ln.count + 1 + i by omega]
    have q := r.pt_move g.wf p0 hpt (j := 1) (j' := 0) (x := n) (y := pd.kids[j]) (i := i) (i' := ln.count + 1 + i)
      (X := X) (Y := Y) (by simp) (by simp) (by omega)
      (by rw [slot_two_right, slot_two_left, valsOf_eq el]; omega) p
    exact ⟨_, _, _, rfl, ⟨gd _ (fun _ h => .inl h), rfl, bl, q.1, show (valsOf h' pd.kids[j]).length < c.K by omega, dp, q.2⟩, gd _ (fun _ h => h)⟩

theorem tryRight_ok : tryRight c t.heap ⟨n, i⟩ = some none ∨
    ∃ h' it' ht', tryRight c t.heap ⟨n, i⟩ = some (some (h', it')) ∧
      Moved c z t { t with heap := h' } ⟨n, i⟩ it' H H k ht ht' L X Y ∧
      Good c { t with heap := h' } (Loose z ht') H ht' L := by
  obtain ⟨pd, ep, p0, hkid, hpt, hnt, n0, hkl, hiK⟩ := siblings g hK e hfull hr p
  unfold tryRight
  dsimp only
  simp only [e, Option.bind_eq_bind, Option.bind_some, ep]
  by_cases h0 : nd.position < pd.count
  swap
  · left; rw [if_neg h0]
  rw [if_pos h0]
  have hpc : pd.count = pd.vals.length := rfl
  have hl : pd.kids[nd.position + 1]? = some (pd.kids[nd.position + 1]'(by omega)) := List.getElem?_eq_getElem _
  obtain ⟨r0, rr, hrt, rn, er, rp, rpos⟩ := g.wf.kid _ _ _ _ ep p0 hl
  obtain ⟨d, hd, s⟩ := g.wf.sib p0 ep hkid hl e er
  have cr := g.wf.cap_eq er r0 (.inl rr)
  have vle := g.wf.vals_le er r0
  have fr : ¬ (z ∧ 0 < k) → 1 ≤ rn.vals.length := fun hz => g.full _ _ er r0 (fun h => hz ⟨h.1, by have := h.2; omega⟩)
  simp only [Option.bind_some, hl, er, cr, beq_self_eq_true, check_true]
  by_cases hc : rn.count < c.K
  swap
  · left; rw [if_neg hc]
  rw [if_pos hc]
  set m := max 1 ((c.K - rn.count) / (if 0 < i then 2 else 1)) with hm
  have m1 : 1 ≤ m := by omega
  have mle : m ≤ c.K - rn.count := by
    have : (c.K - rn.count) / (if 0 < i then 2 else 1) ≤ c.K - rn.count := Nat.div_le_self _ _
    omega
  by_cases hcond : (decide (i + m ≤ nd.count) || decide (rn.count + m < c.K)) = true
  swap
  · left; rw [if_neg hcond]
  rw [if_pos hcond]
  right
  have cn : nd.count = c.K := hfull
  have lc : rn.count = rn.vals.length := rfl
  obtain ⟨h', d', e1, hlen, hd', r, gl, gr⟩ := s.rebalanceLeftToRight_ok g.wf (m := m) (by omega) m1 (by omega) (by omega)
  rw [hnt] at r
  have vn' : valsOf h' n = nd.vals.take (nd.count - m) := valsOf_eq gl
  have vr' : valsOf h' pd.kids[nd.position + 1] = nd.vals.drop (nd.count - (m - 1)) ++ d :: rn.vals := valsOf_eq gr
  have ll : (valsOf h' n).length = c.K - m := by rw [vn']; simp [hfull]; omega
  have lr : (valsOf h' pd.kids[nd.position + 1]).length = rn.count + m := by rw [vr']; simp [hfull]; omega
  have gd : ∀ E', (∀ m, Loose z (Redist.ht' [n, pd.kids[nd.position + 1]] k ht) m → E' m) →
      Good c { t with heap := h' } E' H (Redist.ht' [n, pd.kids[nd.position + 1]] k ht) L := by
    intro E' hE'
    refine g.redist' (t' := { t with heap := h' }) r p0 hpt rfl ?_
      (fun m _ hm _ hl => hE' m ⟨hl.1, by rw [Redist.ht', if_neg hm]; exact hl.2⟩) ?_ ?_
    · by_cases hz : k = 0 ∧ [n, pd.kids[nd.position + 1]].getLast? = some t.rightmost
      · rw [if_pos hz]
        simpa using hz.2.symm
      · rw [if_neg hz]
    · intro _
      show 1 ≤ List.length (_ ++ _ ++ _)
      simp only [List.length_append, List.length_cons]
      omega
    · intro x hx hxE
      have hz : ¬ (z ∧ 0 < k) := fun h => hxE (hE' x ⟨h.1, by rw [Redist.ht', if_pos hx]; exact h.2⟩)
      have := fr hz
      simp only [List.mem_cons, List.not_mem_nil, or_false] at hx
      rcases hx with rfl | rfl
      · show 1 ≤ (valsOf h' _).length
        omega
      · show 1 ≤ (valsOf h' _).length
        omega
  have bl : Below t { t with heap := h' } H H ht (Redist.ht' [n, pd.kids[nd.position + 1]] k ht) k :=
    Redist.below (t' := { t with heap := h' }) g.wf r p0 hpt rfl
  have dp : k < H := by have := g.wf.bound _ _ ep p0; omega
  simp only [e1, gl, Option.bind_some]
  have hcnt : ({ nd with vals := nd.vals.take (nd.count - m), kids := nd.kids.take (nd.count - m + 1) } :
      Node α).count = c.K - m := by rw [← ll, vn']; rfl
  rw [hcnt]
  by_cases hmi : c.K - m < i
  · rw [if_pos hmi]
    have hlt2 : rn.count + m < c.K := by
      simp only [Bool.or_eq_true, decide_eq_true_eq] at hcond
      omega
    have q := r.pt_move g.wf p0 hpt (j := 0) (j' := 1) (x := n) (y := pd.kids[nd.position + 1]) (i := i)
      (i' := i - (c.K - m) - 1) (X := X) (Y := Y) (by simp) (by simp) (by rw [lr]; omega)
      (by rw [slot_two_left, slot_two_right, ll]; omega) p
    exact ⟨_, _, _, rfl, ⟨gd _ (fun _ h => .inl h), rfl, bl, q.1, show (valsOf h' pd.kids[nd.position + 1]).length < c.K by omega, dp, q.2⟩, gd _ (fun _ h => h)⟩
  · rw [if_neg hmi]
    have q := r.pt_move g.wf p0 hpt (j := 0) (j' := 0) (x := n) (y := n) (i := i) (i' := i) (X := X) (Y := Y)
      (by simp) (by simp) (by omega)
      (by rw [slot_two_left, slot_two_left]) p
    exact ⟨_, _, _, rfl, ⟨gd _ (fun _ h => .inl h), rfl, bl, q.1, by show (valsOf h' n).length < _; omega, dp, q.2⟩, gd _ (fun _ h => h)⟩

end

/-- Splitting a node whose parent has room. -/
theorem splitNode_ok {z : Prop} {k n i j p q : Nat} {nd pd : Node α} {X Y : List α}
    (g : Good c t (fun m => Loose z ht m ∨ m = p) H ht L) (hK : 3 ≤ c.K)
    (e : t.heap.get n = some nd) (hfull : nd.vals.length = c.K) (p0 : p ≠ 0) (ep : t.heap.get p = some pd)
    (hkid : pd.kids[j]? = some n) (hroom : pd.vals.length < c.K) (pt : Pt t.heap t.root H k n i X Y) :
    ∃ t' it' ht', splitNode c t ⟨n, i⟩ q = some (t', it') ∧ Moved c z t t' ⟨n, i⟩ it' H H k ht ht' L X Y ∧
      t'.root = t.root := by
  obtain ⟨nd', e', n0, hnt, hi⟩ := pt.live g.wf
  rw [e] at e'; cases e'
  obtain ⟨_, nr, hpt, nd', e', np, npos⟩ := g.wf.kid _ _ _ _ ep p0 hkid
  rw [e] at e'; cases e'
  obtain ⟨h', v, e1, hlen, hv, r, gx, gd⟩ := split_ok (q := q) (ip := i) g.wf p0 ep hkid e hfull (by omega) hroom
  set sc := splitCount c nd.count i with hsc
  have hcnt : nd.count = nd.vals.length := rfl
  have scle : sc ≤ c.K - 1 := by
    rw [hsc, hcnt, hfull]; unfold splitCount
    split
    · omega
    · split <;> omega
  have hpk : ht p = k + 1 := by omega
  rw [hnt] at r
  have vx : (valsOf h' n).length = c.K - sc - 1 := by
    rw [valsOf_eq gx]; simp [hcnt, hfull]; omega
  have vd : (valsOf h' t.heap.length).length = sc := by
    rw [valsOf_eq gd]; simp [hcnt, hfull]; omega
  have hleaf := g.wf.leaf_iff e n0
  set t' : Tree α := { t with heap := h', rightmost :=
                    if nd.leaf && t.rightmost == n then t.heap.length else t.rightmost } with ht'
  have good : ∀ E', (∀ m, Loose z (Redist.ht' [n, t.heap.length] k ht) m → E' m) →
      (∀ x ∈ [n, t.heap.length], ¬ E' x → 1 ≤ (valsOf h' x).length) →
      Good c t' E' H (Redist.ht' [n, t.heap.length] k ht) L := by
    intro E' hL hE'
    refine g.redist' (t' := t') r p0 hpk rfl ?_ ?_ ?_ hE'
    · have hz : (nd.leaf && t.rightmost == n) = true ↔ (k = 0 ∧ [n].getLast? = some t.rightmost) := by
        simp only [Bool.and_eq_true, beq_iff_eq, List.getLast?_singleton, Option.some.injEq, hleaf, hnt]
        constructor
        · rintro ⟨a, b⟩; exact ⟨a, b.symm⟩
        · rintro ⟨a, b⟩; exact ⟨a, b.symm⟩
      show (if nd.leaf && t.rightmost == n then t.heap.length else t.rightmost) = _
      by_cases hb : (nd.leaf && t.rightmost == n) = true
      · rw [if_pos hb, if_pos (hz.1 hb)]; simp
      · rw [if_neg hb, if_neg (fun hh => hb (hz.2 hh))]
    · intro m hm _ hm' he
      rcases he with he | he
      · exact hL m ⟨he.1, by rw [Redist.ht', if_neg hm']; exact he.2⟩
      · exact absurd he hm
    · intro _
      show 1 ≤ List.length (_ ++ _ ++ _)
      simp only [List.length_append, List.length_cons]
      omega
  have bl : Below t t' H H ht (Redist.ht' [n, t.heap.length] k ht) k := Redist.below (t' := t') g.wf r p0 hpk rfl
  have dp : k < H := by have := g.wf.bound _ _ ep p0; omega
  have hrun : splitNode c t ⟨n, i⟩ q = if c.K - sc - 1 < i then some (t', ⟨t.heap.length, i - (c.K - sc - 1) - 1⟩)
      else some (t', ⟨n, i⟩) := by
    unfold splitNode
    simp only [e, Option.bind_eq_bind, Option.bind_some, e1, gx]
    have : ({ nd with vals := nd.vals.take (nd.count - sc - 1), kids := nd.kids.take (nd.count - sc) } :
        Node α).count = c.K - sc - 1 := by rw [← vx, valsOf_eq gx]; rfl
    rw [this]
  rw [hrun]
  have others : ∀ x ∈ [n, t.heap.length], i ≠ 0 → i ≠ c.K → 1 ≤ (valsOf h' x).length := by
    have : i ≠ 0 → i ≠ c.K → sc = c.K / 2 := by
      intro h1 h2
      rw [hsc]; unfold splitCount
      rw [if_neg h1, if_neg h2, hcnt, hfull]
    intro x hx h1 h2
    have := this h1 h2
    simp only [List.mem_cons, List.not_mem_nil, or_false] at hx
    rcases hx with rfl | rfl <;> omega
  have sc0 : i = 0 → sc = c.K - 1 := by
    intro h1; rw [hsc]; unfold splitCount; rw [if_pos h1, hcnt, hfull]
  have scK : i = c.K → sc = 0 := by
    intro h1; rw [hsc]; unfold splitCount; rw [if_neg (by omega), if_pos h1]
  by_cases hmi : c.K - sc - 1 < i
  · rw [if_pos hmi]
    have q := r.pt_move g.wf p0 hpk (j := 0) (j' := 1) (x := n) (y := t.heap.length) (i := i)
      (i' := i - (c.K - sc - 1) - 1) (X := X) (Y := Y) (by simp) (by simp) (by omega)
      (by rw [slot_one, slot_two_right, vx]; omega) pt
    refine ⟨_, _, _, rfl, ⟨good _ (fun _ h => .inl h) ?_, rfl, bl, q.1, by first | (show (valsOf h' n).length < _; omega) | (show (valsOf h' t.heap.length).length < _; omega), dp, q.2⟩, rfl⟩
    intro x hx hne
    by_cases h2 : i = c.K
    · have := scK h2
      simp only [List.mem_cons, List.not_mem_nil, or_false] at hx
      rcases hx with rfl | rfl
      · omega
      · exact absurd (.inr rfl) hne
    · exact others x hx (by omega) h2
  · rw [if_neg hmi]
    have q := r.pt_move g.wf p0 hpk (j := 0) (j' := 0) (x := n) (y := n) (i := i)
      (i' := i) (X := X) (Y := Y) (by simp) (by simp) (by omega)
      (by rw [slot_one, slot_two_left]) pt
    refine ⟨_, _, _, rfl, ⟨good _ (fun _ h => .inl h) ?_, rfl, bl, q.1, by first | (show (valsOf h' n).length < _; omega) | (show (valsOf h' t.heap.length).length < _; omega), dp, q.2⟩, rfl⟩
    intro x hx hne
    by_cases h1 : i = 0
    · have := sc0 h1
      simp only [List.mem_cons, List.not_mem_nil, or_false] at hx
      rcases hx with rfl | rfl
      · exact absurd (.inr rfl) hne
      · omega
    · exact others x hx h1 (by rintro rfl; have := scK rfl; omega)

end Gtl.Btree
