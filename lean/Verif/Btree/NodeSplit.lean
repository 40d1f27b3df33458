import Verif.Btree.NodeOps
/-
Splitting a node and merging two nodes redistribute values.
-/
set_option linter.unusedSectionVars false
namespace Gtl.Btree
variable {α κ : Type}
variable {c : Cfg α κ} {h : Heap α} {root H : Nat} {ht : Nat → Nat}

theorem emplaceInternal_ok {f : Heap α} {p i dest : Nat} {v : α} {pd dd : Node α} (ep : f.get p = some pd)
    (ed : f.get dest = some dd) (hleaf : pd.leaf = false) (hi : i ≤ pd.count) (hroom : pd.count < pd.cap c)
    (hdp : dest ≠ p) (hdk : dest ∉ pd.kids) (hn : pd.kids.Nodup) (hpk : p ∉ pd.kids)
    (hlive : ∀ x ∈ pd.kids, ∃ xd, f.get x = some xd) :
    ∃ f', emplaceInternal c f p i v dest = some f' ∧ f'.length = f.length ∧
      f'.get p = some { pd with vals := pd.vals.insertIdx i v, kids := pd.kids.insertIdx (i + 1) dest } ∧
      f'.get dest = some { dd with parent := p, position := i + 1 } ∧
      (∀ (j : Nat) b bd, (pd.kids.drop (i + 1))[j]? = some b → f.get b = some bd →
        f'.get b = some { bd with position := i + 2 + j }) ∧
      (∀ n, n ≠ p → n ≠ dest → n ∉ pd.kids.drop (i + 1) → f'.get n = f.get n) := by
  set f1 := f.set p { pd with vals := pd.vals.insertIdx i v, kids := pd.kids.insertIdx (i + 1) dest } with hf1
  have g1 : ∀ j, f1.get j = if j = p then
      some { pd with vals := pd.vals.insertIdx i v, kids := pd.kids.insertIdx (i + 1) dest } else f.get j :=
    Heap.get_set _ ep
  have hne : ∀ x ∈ pd.kids.drop (i + 1), x ≠ p ∧ x ≠ dest := by
    intro x hx
    have := List.mem_of_mem_drop hx
    exact ⟨by rintro rfl; exact hpk this, by rintro rfl; exact hdk this⟩
  obtain ⟨f2, r2, len2, o2, i2⟩ := setPositions_spec (pd.kids.drop (i + 1)) f1 (i + 2)
    (hn.sublist (List.drop_sublist _ _)) (by
      intro x hx
      obtain ⟨xd, ex⟩ := hlive x (List.mem_of_mem_drop hx)
      exact ⟨xd, by rw [g1, if_neg (hne x hx).1, ex]⟩)
  have e2p : f2.get p = f1.get p := o2 p (fun hx => (hne p hx).1 rfl)
  have e2d : f2.get dest = some dd := by
    rw [o2 dest (fun hx => (hne dest hx).2 rfl), g1, if_neg hdp, ed]
  obtain ⟨f3, r3, len3, o3, i3⟩ := initChildren_spec p [dest] f2 (i + 1) (by simp) (by simpa using ⟨dd, e2d⟩)
  have cond : (!pd.leaf && decide (i ≤ pd.count) && decide (pd.count < pd.cap c)) = true := by
    simp [hleaf, hi, hroom]
  refine ⟨f3, ?_, by rw [len3, len2, hf1]; simp, ?_, ?_, ?_, ?_⟩
  · unfold emplaceInternal
    simp only [ep, Option.bind_eq_bind, Option.bind_some, check_of cond]
    rw [← hf1, r2]
    exact r3
  · rw [o3 p (by simp [Ne.symm hdp]), e2p, g1, if_pos rfl]
  · rw [i3 0 dest dd rfl e2d]
  · intro j b bd hj eb
    have hb := List.mem_of_getElem? hj
    rw [o3 b (by simp [(hne b hb).2]), i2 j b bd hj (by rw [g1, if_neg (hne b hb).1, eb])]
  · intro n n1 n2 n3
    rw [o3 n (by simp [n2]), o2 n n3, g1, if_neg n1]

theorem insertIdx_at {γ : Type} (xs ys : List γ) (v : γ) {i : Nat} (hi : i = xs.length) :
    (xs ++ ys).insertIdx i v = xs ++ v :: ys := by
  subst hi
  induction xs with
  | nil => simp
  | cons x xs ih => simp [ih]

/-- The number of values that split moves to the new node. -/
def splitCount (c : Cfg α κ) (n ip : Nat) : Nat :=
  if ip = 0 then n - 1 else if ip = c.K then 0 else n / 2

/-- split, into a node that has just been allocated. -/
theorem split_ok (w : WF c h root H ht) {p i x ip q : Nat} {pd xd : Node α} (p0 : p ≠ 0)
    (ep : h.get p = some pd) (hx : pd.kids[i]? = some x) (ex : h.get x = some xd) (hfull : xd.count = c.K)
    (hK : 2 ≤ c.K) (hroom : pd.count < c.K) :
    ∃ (h' : Heap α) (v : α),
      split c (h.alloc ⟨q, 0, if xd.leaf then c.K else 0, [], []⟩) x ip h.length = some h' ∧
      h'.length = h.length + 1 ∧ xd.vals[xd.count - splitCount c xd.count ip - 1]? = some v ∧
      Redist c h h' (ht x) p pd
        { pd with vals := pd.vals.take i ++ [v] ++ pd.vals.drop i,
                  kids := pd.kids.take i ++ [x, h.length] ++ pd.kids.drop (i + 1) }
        (pd.kids.take i) [x] [x, h.length] (pd.kids.drop (i + 1)) (pd.vals.take i) [] [v] (pd.vals.drop i) ∧
      h'.get x = some { xd with vals := xd.vals.take (xd.count - splitCount c xd.count ip - 1),
                                kids := xd.kids.take (xd.count - splitCount c xd.count ip) } ∧
      h'.get h.length = some ⟨p, i + 1, if xd.leaf then c.K else 0,
        xd.vals.drop (xd.count - splitCount c xd.count ip), xd.kids.drop (xd.count - splitCount c xd.count ip)⟩ := by
  obtain ⟨x0, xr, hxk, xd', ex', a1, a2⟩ := w.kid _ _ _ _ ep p0 hx
  rw [ex] at ex'; cases ex'
  have hpk : 0 < ht p := by omega
  have lenp := w.kids_len ep p0 hpk
  have leafp := w.leaf_false ep p0 hpk
  have capp := w.cap_eq ep p0 (.inr hpk)
  have capx := w.cap_eq ex x0 (.inl xr)
  have ndp := w.kids_nodup ep p0
  have ndx := w.kids_nodup ex x0
  obtain ⟨hi, hgi⟩ := List.getElem?_eq_some_iff.1 hx
  set lc := xd.count - splitCount c xd.count ip with hlc
  have hdc : splitCount c xd.count ip < xd.count := by
    unfold splitCount; split
    · omega
    · split <;> omega
  have cnt : xd.count = xd.vals.length := rfl
  have hlc1 : 1 ≤ lc := by omega
  have hlcn : lc ≤ xd.vals.length := by omega
  have hv : lc - 1 < xd.vals.length := by omega
  obtain ⟨v, hvv⟩ : ∃ v, xd.vals[lc - 1]? = some v := ⟨_, List.getElem?_eq_getElem hv⟩
  set dest := h.length with hdest
  have hd0 : ∀ y yd, h.get y = some yd → y ≠ dest := by
    intro y yd ey
    have := Heap.get_lt ey
    omega
  set mc := if xd.leaf then c.K else 0 with hmc
  set f0 := h.alloc ⟨q, 0, mc, [], []⟩ with hf0
  have g0 : ∀ j, f0.get j = if j = dest then some ⟨q, 0, mc, [], []⟩ else h.get j := Heap.get_alloc _
  set f1 := f0.set dest ⟨q, 0, mc, xd.vals.drop lc, xd.kids.drop lc⟩ with hf1
  have g1 : ∀ j, f1.get j = if j = dest then some ⟨q, 0, mc, xd.vals.drop lc, xd.kids.drop lc⟩ else h.get j := by
    intro j
    rw [hf1, Heap.get_set _ (by rw [g0, if_pos rfl])]
    by_cases hj : j = dest
    · rw [if_pos hj, if_pos hj]
    · rw [if_neg hj, if_neg hj, g0, if_neg hj]
  have xnd := hd0 x xd ex
  have pnd := hd0 p pd ep
  have xnp : x ≠ p := by rintro rfl; omega
  set f2 := f1.set x { xd with vals := xd.vals.take (lc - 1), kids := xd.kids.take lc } with hf2
  have g2 : ∀ j, f2.get j = if j = x then some { xd with vals := xd.vals.take (lc - 1), kids := xd.kids.take lc }
      else if j = dest then some ⟨q, 0, mc, xd.vals.drop lc, xd.kids.drop lc⟩ else h.get j := by
    intro j
    rw [hf2, Heap.get_set _ (by rw [g1, if_neg xnd]; exact ex), g1]
  have f2p : f2.get p = some pd := by rw [g2, if_neg (Ne.symm xnp), if_neg pnd]; exact ep
  have f2d : f2.get dest = some ⟨q, 0, mc, xd.vals.drop lc, xd.kids.drop lc⟩ := by
    rw [g2, if_neg (Ne.symm xnd), if_pos rfl]
  have pkids : ∀ y ∈ pd.kids, y ≠ 0 ∧ ht y = ht x ∧ y ≠ p ∧ y ≠ dest ∧ ∃ yd, h.get y = some yd ∧
      pd.kids[yd.position]? = some y := by
    intro y hy
    obtain ⟨y0, _, hy1, yd, ey, _, epos⟩ := w.kid_mem ep p0 hy
    exact ⟨y0, by omega, by rintro rfl; omega, hd0 y yd ey, yd, ey, epos⟩
  have hcp : pd.count = pd.vals.length := rfl
  obtain ⟨f3, r3, len3, e3p, e3d, e3b, o3⟩ := emplaceInternal_ok (c := c) (v := v) (i := i) f2p f2d leafp (by omega)
    (by omega) (Ne.symm pnd) (fun hm => (pkids _ hm).2.2.2.1 rfl) ndp (fun hm => (pkids _ hm).2.2.1 rfl) (by
      intro y hy
      rw [g2]
      by_cases hyx : y = x
      · rw [if_pos hyx]; exact ⟨_, rfl⟩
      · obtain ⟨_, _, _, hy4, yd, ey, _⟩ := pkids y hy
        rw [if_neg hyx, if_neg hy4]; exact ⟨yd, ey⟩)
  have xdrop : x ∉ pd.kids.drop (i + 1) := by
    have hnd := ndp
    rw [← List.take_append_drop (i + 1) pd.kids] at hnd
    intro hm
    refine List.disjoint_of_nodup_append hnd ?_ hm
    rw [List.mem_take_iff_getElem]
    exact ⟨i, by omega, hgi⟩
  have e3x : f3.get x = some { xd with vals := xd.vals.take (lc - 1), kids := xd.kids.take lc } := by
    rw [o3 x xnp xnd xdrop, g2, if_pos rfl]
  have hkids : pd.kids.insertIdx (i + 1) dest = pd.kids.take i ++ [x, dest] ++ pd.kids.drop (i + 1) := by
    have : pd.kids = (pd.kids.take i ++ [x]) ++ pd.kids.drop (i + 1) := by
      rw [List.append_assoc]
      conv => lhs; rw [← List.take_append_drop i pd.kids, ← List.getElem_cons_drop hi, hgi]
      rfl
    conv => lhs; rw [this]
    rw [insertIdx_at _ _ _ (by simp; omega)]
    simp
  have hvals : pd.vals.insertIdx i v = pd.vals.take i ++ [v] ++ pd.vals.drop i := by
    conv => lhs; rw [← List.take_append_drop i pd.vals]
    rw [insertIdx_at _ _ _ (by simp; omega)]
    simp
  rw [hkids, hvals] at e3p
  have run : split c f0 x ip dest = if xd.leaf then some f3 else initChildren f3 dest 0 (xd.kids.drop lc) := by
    have ep1 : pd = pd := rfl
    unfold split
    have f0x : f0.get x = some xd := by rw [g0, if_neg xnd]; exact ex
    have f0d : f0.get dest = some ⟨q, 0, mc, [], []⟩ := by rw [g0, if_pos rfl]
    have cond1 : (Node.count (⟨q, 0, mc, [], []⟩ : Node α) == 0 && xd.cap c == c.K) = true := by
      simp [capx, Node.count]
    have cond2 : decide (1 ≤ lc) = true := by simp [hlc1]
    have hlc' : xd.count - (if ip = 0 then xd.count - 1 else if ip = c.K then 0 else xd.count / 2) = lc := rfl
    simp only [f0x, f0d, Option.bind_eq_bind, Option.bind_some, check_of cond1, hlc', check_of cond2, hvv]
    rw [← hf1, ← hf2, a1, a2, r3]
    rfl
  have mcshape : ∀ xv xk, (ht x = 0 → xk = []) → (0 < ht x → xk.length = xv.length + 1) → xv.length ≤ c.K →
      Shape c (ht x) False (⟨p, i + 1, mc, xv, xk⟩ : Node α) := by
    intro xv xk h1 h2 h3
    by_cases hz : ht x = 0
    · left
      have : xd.leaf = true := (w.leaf_iff ex x0).2 hz
      rw [hmc, this]
      exact ⟨hz, by simp; omega, h1 hz, by simpa using h3, by simp, fun _ => by simp⟩
    · right
      have : xd.leaf = false := w.leaf_false ex x0 (by omega)
      rw [hmc, this]
      exact ⟨by omega, rfl, h2 (by omega), h3⟩
  have xshape : Shape c (ht x) False { xd with vals := xd.vals.take (lc - 1), kids := xd.kids.take lc } := by
    rcases w.shape x xd ex x0 with s | s
    · left
      refine ⟨s.1, s.2.1, by simp [s.2.2.1], ?_, s.2.2.2.2.1, fun _ => s.2.2.2.2.2 xr⟩
      have := s.2.2.2.1
      simp; omega
    · right
      have := s.2.2.1
      have := s.2.2.2
      refine ⟨s.1, s.2.1, by simp only [List.length_take]; omega, by simp only [List.length_take]; omega⟩
  have hvsplit : xd.vals = xd.vals.take (lc - 1) ++ v :: xd.vals.drop lc := by
    obtain ⟨_, hdd⟩ := List.getElem?_eq_some_iff.1 hvv
    conv => lhs; rw [← List.take_append_drop (lc - 1) xd.vals, ← List.getElem_cons_drop hv, hdd]
    rw [show lc - 1 + 1 = lc by omega]
  have gx : ∀ g ∈ xd.kids, g ≠ p ∧ g ≠ x ∧ g ≠ dest ∧ g ∉ pd.kids ∧ ∃ gd, h.get g = some gd := by
    intro g hg
    obtain ⟨_, _, hg1, gd, eg, _⟩ := w.kid_mem ex x0 hg
    refine ⟨by rintro rfl; omega, by rintro rfl; omega, hd0 g gd eg, ?_, gd, eg⟩
    intro hm
    have := (pkids g hm).2.1
    omega
  -- the final nodes
  obtain ⟨f4, r4, len4, o4, i4⟩ : ∃ f4, split c f0 x ip dest = some f4 ∧ f4.length = f3.length ∧
      (∀ y, y ∉ xd.kids.drop lc → f4.get y = f3.get y) ∧
      (∀ (j : Nat) g gd, (xd.kids.drop lc)[j]? = some g → h.get g = some gd →
        f4.get g = some { gd with parent := dest, position := j }) := by
    by_cases hleaf : xd.leaf = true
    · refine ⟨f3, by rw [run, if_pos hleaf], rfl, fun _ _ => rfl, ?_⟩
      intro j g gd hj
      rw [w.kids_nil ex x0 ((w.leaf_iff ex x0).1 hleaf)] at hj
      simp at hj
    · have f3g : ∀ g ∈ xd.kids, f3.get g = h.get g := by
        intro g hg
        obtain ⟨b1, b2, b3, b4, _⟩ := gx g hg
        rw [o3 g b1 b3 (fun hm => b4 (List.mem_of_mem_drop hm)), g2, if_neg b2, if_neg b3]
      obtain ⟨f4, r4, len4, o4, i4⟩ := initChildren_spec dest (xd.kids.drop lc) f3 0
        (ndx.sublist (List.drop_sublist _ _)) (by
          intro y hy
          have hy := List.mem_of_mem_drop hy
          rw [f3g y hy]
          exact (gx y hy).2.2.2.2)
      refine ⟨f4, by rw [run, if_neg hleaf, r4], len4, o4, ?_⟩
      intro j g gd hj eg
      rw [i4 j g gd hj (by rw [f3g g (List.mem_of_mem_drop (List.mem_of_getElem? hj)), eg])]
      simp
  have e4x : f4.get x = some { xd with vals := xd.vals.take (lc - 1), kids := xd.kids.take lc } := by
    rw [o4 x (fun hm => (gx x (List.mem_of_mem_drop hm)).2.1 rfl), e3x]
  have e4d : f4.get dest = some ⟨p, i + 1, mc, xd.vals.drop lc, xd.kids.drop lc⟩ := by
    rw [o4 dest (fun hm => (gx dest (List.mem_of_mem_drop hm)).2.2.1 rfl), e3d]
  have e4p := e3p
  rw [← o4 p (fun hm => (gx p (List.mem_of_mem_drop hm)).1 rfl)] at e4p
  have len2 : f2.length = h.length + 1 := by simp [hf2, hf1, hf0]
  refine ⟨f4, v, r4, by rw [len4, len3, len2], hvv, ?_, e4x, e4d⟩
  have hpks : pd.kids = pd.kids.take i ++ [x] ++ pd.kids.drop (i + 1) := by
    rw [List.append_assoc]
    conv => lhs; rw [← List.take_append_drop i pd.kids, ← List.getElem_cons_drop hi, hgi]
    rfl
  have lenx : 0 < ht x → xd.kids.length = xd.vals.length + 1 := w.kids_len ex x0
  have vx := w.vals_le ex x0
  refine {
    hp := ep, hp' := e4p, pkids := hpks, pkids' := rfl, pvals := by simp, pvals' := rfl
    lenA := by simp; omega
    lenB := by simp; omega
    len := rfl, len' := rfl, room := ?_, ppar := rfl, ppos := rfl, pmax := rfl
    fresh := ?_, dead := ?_, new := ?_, tail := ?_, flatKids := ?_, flatVals := ?_, other := ?_, head := rfl }
  · simp only [List.length_append, List.length_take, List.length_drop, List.length_cons, List.length_nil]; omega
  · intro y hy
    simp only [List.mem_cons, List.not_mem_nil, or_false] at hy
    rcases hy with rfl | rfl
    · left; simp
    · right
      refine ⟨Heap.get_length h, ?_⟩
      have := Heap.get_lt ex
      omega
  · intro y hy hy'
    simp only [List.mem_cons, List.not_mem_nil, or_false] at hy hy'
    exact absurd (Or.inl hy) hy'
  · intro j y hj
    match j, hj with
    | 0, hj =>
      simp only [List.getElem?_cons_zero, Option.some.injEq] at hj
      subst hj
      refine ⟨_, e4x, a1, by simp [a2]; omega, xshape, ?_⟩
      intro j g gd hj eg
      simp only at hj
      have hm := List.mem_of_getElem? hj
      have hm' := List.mem_of_mem_take hm
      have hnd : g ∉ xd.kids.drop lc := by
        have := ndx
        rw [← List.take_append_drop lc xd.kids] at this
        exact fun hx => List.disjoint_of_nodup_append this hm hx
      have hj' : xd.kids[j]? = some g := by
        rw [List.getElem?_take] at hj
        split at hj
        · exact hj
        · cases hj
      obtain ⟨_, _, _, gd', eg', q1, q2⟩ := w.kid _ _ _ _ ex x0 hj'
      rw [eg] at eg'; cases eg'
      obtain ⟨b1, b2, b3, b4, _⟩ := gx g hm'
      rw [o4 g hnd, o3 g b1 b3 (fun hm => b4 (List.mem_of_mem_drop hm)), g2, if_neg b2, if_neg b3, eg, ← q1, ← q2]
    | 1, hj =>
      simp only [List.getElem?_cons_succ, List.getElem?_cons_zero, Option.some.injEq] at hj
      subst hj
      refine ⟨_, e4d, rfl, by simp; omega, ?_, i4⟩
      refine mcshape _ _ ?_ ?_ (by simp; omega)
      · intro hz; simp [w.kids_nil ex x0 hz]
      · intro hz; have := lenx hz; simp only [List.length_drop]; omega
    | j + 2, hj => simp at hj
  · intro j b bd hj eb
    have hm := List.mem_of_getElem? hj
    have hbk := List.mem_of_mem_drop hm
    obtain ⟨_, hb1, hb2, hb3, _⟩ := pkids b hbk
    have hbx : b ≠ x := by rintro rfl; exact xdrop hm
    rw [o4 b (fun hm => (gx b (List.mem_of_mem_drop hm)).2.2.2.1 hbk),
      e3b j b bd hj (by rw [g2, if_neg hbx, if_neg hb3, eb])]
    have : (pd.kids.take i).length = i := by simp; omega
    simp only [this, Option.some.injEq, Node.mk.injEq, true_and, and_true]
    simp
  · simp [kidsOf_eq ex, kidsOf_eq e4x, kidsOf_eq e4d]
  · simp only [List.map_cons, List.map_nil, inter_one, inter_cons, valsOf_eq ex, valsOf_eq e4x, valsOf_eq e4d]
    exact hvsplit
  · intro n n1 n2 n3 n4 n5
    simp only [List.mem_cons, List.not_mem_nil, or_false, not_or] at n2 n3
    rw [o4 n (fun hm => n5 x (by simp) (by rw [kidsOf_eq ex]; exact List.mem_of_mem_drop hm)),
      o3 n n1 n3.2 n4, g2, if_neg n2, if_neg n3.2]

namespace Sib
variable {p l r : Nat} {pd ln rn : Node α} {A B : List Nat} {VA VB : List α} {d : α}
variable (w : WF c h root H ht) (s : Sib h p l r pd ln rn A B VA VB d)
include w s

/-- merge, and deallocation of the emptied node. -/
theorem merge_ok (h1 : 1 + ln.count + rn.count ≤ c.K) :
    ∃ (h' : Heap α) (rn' : Node α), merge c h l r = some h' ∧ h'.length = h.length ∧ h'.get r = some rn' ∧
      rn'.leaf = rn.leaf ∧
      Redist c h (h'.free r) (ht l) p pd { pd with vals := VA ++ [] ++ VB, kids := A ++ [l] ++ B }
        A [l, r] [l] B VA [d] [] VB ∧
      (h'.free r).get l = some { ln with vals := ln.vals ++ d :: rn.vals, kids := ln.kids ++ rn.kids } := by
  obtain ⟨l0, r0, lr, rr, hl, hr, lp, rp, lner, e1, e2, e3, e4⟩ := s.facts w
  obtain ⟨nl, nr, dis⟩ := s.gkids_nodup w
  set ln' : Node α := { ln with vals := ln.vals ++ d :: rn.vals, kids := ln.kids ++ rn.kids } with hln'
  set rn' : Node α := { rn with vals := [], kids := [] } with hrn'
  set f1 := h.set l ln' with hf1
  have g1 : ∀ j, f1.get j = if j = l then some ln' else h.get j := Heap.get_set _ s.el
  set f2 := f1.set r rn' with hf2
  have g2 : ∀ j, f2.get j = if j = r then some rn' else if j = l then some ln' else h.get j := by
    intro j
    rw [hf2, Heap.get_set _ (by rw [g1, if_neg (Ne.symm lner)]; exact s.er), g1]
  have len2 : f2.length = h.length := by simp [hf2, hf1]
  have capl := w.cap_eq s.el l0 (.inl lr)
  have leafeq : ln.leaf = rn.leaf := by
    have a := w.leaf_iff s.el l0
    have b := w.leaf_iff s.er r0
    have : ht l = ht r := by omega
    rw [this, ← b] at a
    cases hx : ln.leaf <;> cases hy : rn.leaf <;> simp_all
  have cond : (ln.parent == rn.parent && ln.position + 1 == rn.position
    && 1 + ln.count + rn.count ≤ ln.cap c && ln.leaf == rn.leaf) = true := by
    rw [e1, e2, e3, e4, capl, leafeq]
    simp [h1]
  -- grandchildren
  obtain ⟨f3, r3, len3, o3, i3⟩ : ∃ f3, (if ln.leaf then some f2 else initChildren f2 l (ln.count + 1) rn.kids) = some f3 ∧
      f3.length = f2.length ∧ (∀ y, y ∉ rn.kids → f3.get y = f2.get y) ∧
      (∀ (j : Nat) g gd, rn.kids[j]? = some g → h.get g = some gd →
        f3.get g = some { gd with parent := l, position := ln.kids.length + j }) := by
    by_cases hleaf : ln.leaf = true
    · refine ⟨f2, by rw [if_pos hleaf], rfl, fun _ _ => rfl, ?_⟩
      intro j g gd hj
      rw [w.kids_nil s.er r0 ((w.leaf_iff s.er r0).1 (leafeq ▸ hleaf))] at hj
      simp at hj
    · have gg : ∀ x, x ∈ ln.kids ∨ x ∈ rn.kids → f2.get x = h.get x := by
        intro x hx
        obtain ⟨_, x1, x2, x3, _, _⟩ := s.grand w hx
        rw [g2, if_neg x3, if_neg x2]
      obtain ⟨f3, r3, len3, o3, i3⟩ := initChildren_spec l rn.kids f2 (ln.count + 1) nr (by
        intro x hx
        rw [gg x (.inr hx)]
        exact (s.grand w (.inr hx)).2.2.2.2.2)
      refine ⟨f3, by rw [if_neg hleaf, r3], len3, o3, ?_⟩
      intro j g gd hj eg
      rw [i3 j g gd hj (by rw [gg g (.inr (List.mem_of_getElem? hj)), eg])]
      have : ln.kids.length = ln.count + 1 := w.kids_len s.el l0 (by
        rcases Nat.eq_zero_or_pos (ht l) with hz | hz
        · exact absurd ((w.leaf_iff s.el l0).2 hz) hleaf
        · exact hz)
      rw [this]
  have e3l : f3.get l = some ln' := by
    rw [o3 l (fun hm => (s.grand w (.inr hm)).2.2.1 rfl), g2, if_neg lner, if_pos rfl]
  have e3r : f3.get r = some rn' := by
    rw [o3 r (fun hm => (s.grand w (.inr hm)).2.2.2.1 rfl), g2, if_pos rfl]
  have e3p : f3.get p = some pd := by
    rw [o3 p (fun hm => (s.grand w (.inr hm)).2.1 rfl), g2, if_neg (Ne.symm rp), if_neg (Ne.symm lp), s.ep]
  -- removal from the parent
  set pd1 : Node α := { pd with kids := A ++ [l] ++ B } with hpd1
  set f4 := f3.set p pd1 with hf4
  have g4 : ∀ j, f4.get j = if j = p then some pd1 else f3.get j := Heap.get_set _ e3p
  have hn := w.kids_nodup s.ep s.p0
  rw [s.kids] at hn
  have hdB := List.disjoint_of_nodup_append hn
  have hnB := (List.nodup_append.1 hn).2.1
  have bfacts : ∀ b ∈ B, b ≠ p ∧ b ≠ l ∧ b ≠ r ∧ b ∉ ln.kids ∧ b ∉ rn.kids ∧ ∃ bd, h.get b = some bd := by
    intro b hb
    obtain ⟨_, _, b1, bd, eb, _⟩ := w.kid_mem s.ep s.p0 (x := b) (by rw [s.kids]; simp [hb])
    exact ⟨by rintro rfl; omega, by rintro rfl; exact hdB (by simp) hb, by rintro rfl; exact hdB (by simp) hb,
      fun hm => (s.grand w (.inl hm)).2.2.2.2.1 hb, fun hm => (s.grand w (.inr hm)).2.2.2.2.1 hb, bd, eb⟩
  have f4b : ∀ b ∈ B, f4.get b = h.get b := by
    intro b hb
    obtain ⟨b1, b2, b3, _, b5, _⟩ := bfacts b hb
    rw [g4, if_neg b1, o3 b b5, g2, if_neg b3, if_neg b2]
  obtain ⟨f5, r5, len5, o5, i5⟩ := setPositions_spec B f4 (A.length + 1) hnB (by
    intro b hb
    rw [f4b b hb]; exact (bfacts b hb).2.2.2.2.2)
  have e5p : f5.get p = some pd1 := by
    rw [o5 p (fun hb => (bfacts p hb).1 rfl), g4, if_pos rfl]
  set pd2 : Node α := { pd with vals := VA ++ [] ++ VB, kids := A ++ [l] ++ B } with hpd2
  set f6 := f5.set p pd2 with hf6
  have g6 : ∀ j, f6.get j = if j = p then some pd2 else f5.get j := Heap.get_set _ e5p
  have leafp := w.leaf_false s.ep s.p0 (by omega)
  have rmv : removeValue f3 p A.length = some f6 := by
    unfold removeValue
    have k1 : pd.kids[A.length + 1]? = some r := by rw [s.kids]; simp
    have k2 : pd.kids.eraseIdx (A.length + 1) = A ++ [l] ++ B := by
      rw [s.kids, show A ++ [l, r] ++ B = (A ++ [l]) ++ r :: B by simp,
        List.eraseIdx_append_of_length_le (by simp)]
      simp
    have k3 : pd.kids.drop (A.length + 2) = B := by
      rw [s.kids]; exact List.drop_left' (by simp)
    have k4 : pd1.vals.take A.length ++ pd1.vals.drop (A.length + 1) = VA ++ [] ++ VB := by
      simp only [hpd1, s.vals, s.lenA]
      rw [List.append_assoc, List.take_left' rfl, ← List.append_assoc, List.drop_left' (by simp)]
      simp
    have c1 : decide (A.length < pd.count) = true := by
      simp [Node.count, s.vals, s.lenA]
    have c2 : (rn'.count == 0) = true := by simp [Node.count, hrn']
    have c3 : decide (A.length + 1 ≤ pd1.count) = true := by
      simp [Node.count, s.vals, s.lenA, hpd1]
    simp only [e3p, Option.bind_eq_bind, Option.bind_some, check_of c1, leafp, Bool.false_eq_true, if_false, k1, e3r,
      check_of c2, k2, k3]
    rw [← hf4, r5]
    simp only [Option.bind_some, removeValues, e5p, Option.bind_eq_bind, check_of c3, k4]
    rfl
  have run : merge c h l r = some f6 := by
    unfold merge
    have ep1 : h.get ln.parent = some pd := by rw [e1]; exact s.ep
    have pv1 : pd.vals[ln.position]? = some d := by rw [e3]; exact s.pval w
    simp only [s.el, s.er, Option.bind_eq_bind, Option.bind_some, check_of cond, ep1, pv1]
    rw [← hf1, ← hf2]
    rw [e1, e3]
    by_cases hleaf : ln.leaf = true
    · rw [if_pos hleaf] at r3 ⊢
      cases r3
      exact rmv
    · rw [if_neg hleaf] at r3 ⊢
      rw [r3]
      exact rmv
  have g6' : ∀ j, j ≠ p → j ∉ B → j ∉ rn.kids → f6.get j = f2.get j := by
    intro j j1 j2 j3
    rw [g6, if_neg j1, o5 j j2, g4, if_neg j1, o3 j j3]
  have lB : l ∉ B := fun hb => (bfacts l hb).2.1 rfl
  have rB : r ∉ B := fun hb => (bfacts r hb).2.2.1 rfl
  have lK : l ∉ rn.kids := fun hm => (s.grand w (.inr hm)).2.2.1 rfl
  have rK : r ∉ rn.kids := fun hm => (s.grand w (.inr hm)).2.2.2.1 rfl
  have e6r : f6.get r = some rn' := by rw [g6' r rp rB rK, g2, if_pos rfl]
  have e6l : f6.get l = some ln' := by rw [g6' l lp lB lK, g2, if_neg lner, if_pos rfl]
  have g7 : ∀ j, (f6.free r).get j = if j = r then none else f6.get j := Heap.get_free r
  have e7l : (f6.free r).get l = some ln' := by rw [g7, if_neg lner, e6l]
  have e7p : (f6.free r).get p = some pd2 := by rw [g7, if_neg (Ne.symm rp), g6, if_pos rfl]
  refine ⟨f6, rn', run, ?_, e6r, rfl, ?_, e7l⟩
  · have l4 : f4.length = f3.length := by simp [hf4]
    have l6 : f6.length = f5.length := by simp [hf6]
    omega
  unfold Node.count at h1
  refine {
    hp := s.ep, hp' := e7p, pkids := s.kids, pkids' := rfl, pvals := s.vals, pvals' := rfl
    lenA := s.lenA, lenB := s.lenB, len := rfl, len' := rfl, room := ?_, ppar := rfl, ppos := rfl, pmax := rfl
    fresh := ?_, dead := ?_, new := ?_, tail := ?_, flatKids := ?_, flatVals := ?_, other := ?_, head := rfl }
  · have := w.vals_le s.ep s.p0
    rw [s.vals] at this
    simp only [hpd2, List.length_append, List.length_cons, List.length_nil] at this ⊢
    omega
  · intro x hx
    simp only [List.mem_cons, List.not_mem_nil, or_false] at hx
    subst hx
    left; simp
  · intro x hx hx'
    simp only [List.mem_cons, List.not_mem_nil, or_false] at hx hx'
    rcases hx with rfl | rfl
    · exact absurd rfl hx'
    · rw [g7, if_pos rfl]
  · intro j x hj
    match j, hj with
    | 0, hj =>
      simp only [List.getElem?_cons_zero, Option.some.injEq] at hj
      subst hj
      refine ⟨_, e7l, e1, e3, ?_, ?_⟩
      · rcases w.shape l ln s.el l0 with sh | sh
        · left
          have hkr := w.kids_nil s.er r0 (by omega)
          have := sh.2.2.2.2.2 lr
          refine ⟨sh.1, sh.2.1, by simp [hln', sh.2.2.1, hkr], ?_, sh.2.2.2.2.1, fun _ => sh.2.2.2.2.2 lr⟩
          simp only [hln', List.length_append, List.length_cons]; omega
        · right
          have hkr := w.kids_len s.er r0 (by omega)
          have := sh.2.2.1
          refine ⟨sh.1, sh.2.1, ?_, ?_⟩
          · simp only [hln', List.length_append, List.length_cons]; omega
          · simp only [hln', List.length_append, List.length_cons]; omega
      · intro i g gd hi eg
        simp only [hln'] at hi
        by_cases hil : i < ln.kids.length
        · rw [List.getElem?_append_left hil] at hi
          have hm := List.mem_of_getElem? hi
          obtain ⟨_, _, _, gd', eg', q1, q2⟩ := w.kid _ _ _ _ s.el l0 hi
          rw [eg] at eg'; cases eg'
          obtain ⟨_, b1, b2, b3, b4, _⟩ := s.grand w (.inl hm)
          rw [g7, if_neg b3, g6' g b1 b4 (dis g hm), g2, if_neg b3, if_neg b2, eg, ← q1, ← q2]
        · rw [List.getElem?_append_right (by omega)] at hi
          have hm := List.mem_of_getElem? hi
          obtain ⟨_, b1, b2, b3, b4, _⟩ := s.grand w (.inr hm)
          rw [g7, if_neg b3, g6, if_neg b1, o5 g b4, g4, if_neg b1, i3 _ g gd hi eg]
          rw [show ln.kids.length + (i - ln.kids.length) = i by omega]
    | j + 1, hj => simp at hj
  · intro j b bd hj eb
    have hb := List.mem_of_getElem? hj
    obtain ⟨b1, b2, b3, _, b5, _⟩ := bfacts b hb
    rw [g7, if_neg b3, g6, if_neg b1, i5 j b bd hj (by rw [f4b b hb, eb])]
    rfl
  · simp [kidsOf_eq s.el, kidsOf_eq s.er, kidsOf_eq e7l, hln']
  · simp [valsOf_eq s.el, valsOf_eq s.er, valsOf_eq e7l, hln']
  · intro n n1 n2 _ n4 n5
    simp only [List.mem_cons, List.not_mem_nil, or_false, not_or] at n2
    rw [g7, if_neg n2.2, g6' n n1 n4 (fun hm => n5 r (by simp) (by rw [kidsOf_eq s.er]; exact hm)), g2,
      if_neg n2.2, if_neg n2.1]

end Sib
end Gtl.Btree
