import Verif.Btree.RedistCtx
import Verif.Btree.Bounds
/-
Where the places of the tree are after values have been redistributed, and that
the tree is still a tree.
-/
set_option linter.unusedSectionVars false
namespace Gtl.Btree
variable {α κ : Type}

/-- The values of a node with values `vs` and children `ks`, given what is below. -/
def glue (k : Nat) (E : Nat → List α) (vs : List α) (ks : List Nat) : List α :=
  if k = 0 then vs else inter (ks.map E) vs

theorem glue_append {k : Nat} {E : Nat → List α} {v1 v2 : List α} {d : α} {k1 k2 : List Nat}
    (hl : 0 < k → k1.length = v1.length + 1) :
    glue k E (v1 ++ d :: v2) (k1 ++ k2) = glue k E v1 k1 ++ d :: glue k E v2 k2 := by
  unfold glue
  by_cases hk : k = 0
  · simp [hk]
  · rw [if_neg hk, if_neg hk, if_neg hk, List.map_append, inter_append _ _ _ _ _ (by simpa using hl (by omega))]

theorem elems_glue (h : Heap α) (k n : Nat) : elems h k n = glue k (elems h (k - 1)) (valsOf h n) (kidsOf h n) := by
  cases k <;> simp [elems, glue]

theorem pre_glue (h : Heap α) (k n i : Nat) :
    pre h k n i = glue k (elems h (k - 1)) ((valsOf h n).take i) ((kidsOf h n).take (i + 1)) := by
  cases k <;> simp [pre, glue]

/-- The number of a slot among the slots of the nodes `ls` and the values between them. -/
def slot (h : Heap α) (ls : List Nat) (j i : Nat) : Nat :=
  ((ls.take j).map fun x => (valsOf h x).length + 1).sum + i

theorem slot_ok {h : Heap α} {k : Nat} {E : Nat → List α} : ∀ (ls : List Nat) (ms : List α) (j x i : Nat),
    ls[j]? = some x → ls.length = ms.length + 1 →
    (0 < k → ∀ y ∈ ls, (kidsOf h y).length = (valsOf h y).length + 1) → i ≤ (valsOf h x).length →
    zF ((ls.take j).map fun y => glue k E (valsOf h y) (kidsOf h y)) (ms.take j) ++
        glue k E ((valsOf h x).take i) ((kidsOf h x).take (i + 1)) =
      glue k E ((inter (ls.map (valsOf h)) ms).take (slot h ls j i))
        ((ls.flatMap (kidsOf h)).take (slot h ls j i + 1))
  | [], _, _, _, _, hj, _, _, _ => by simp at hj
  | a :: ls, ms, 0, x, i, hj, hl, hk, hi => by
    simp only [List.getElem?_cons_zero, Option.some.injEq] at hj
    subst hj
    have e1 : (inter ((a :: ls).map (valsOf h)) ms).take i = (valsOf h a).take i := by
      cases ms with
      | nil => simp
      | cons m ms => rw [List.map_cons, inter_cons, List.take_append_of_le_length hi]
    have e2 : slot h (a :: ls) 0 i = i := by simp [slot]
    rw [e2, e1]
    by_cases k0 : k = 0
    · simp [glue, k0]
    · have := hk (by omega) a (by simp)
      rw [List.flatMap_cons, List.take_append_of_le_length (by omega)]
      simp
  | a :: ls, [], j + 1, x, i, hj, hl, hk, hi => by
    simp only [List.length_cons, List.length_nil, Nat.zero_add, Nat.add_eq_right, List.length_eq_zero_iff] at hl
    subst hl
    simp at hj
  | a :: ls, m :: ms, j + 1, x, i, hj, hl, hk, hi => by
    simp only [List.getElem?_cons_succ] at hj
    simp only [List.length_cons, Nat.add_right_cancel_iff] at hl
    have ih := slot_ok (h := h) (k := k) (E := E) ls ms j x i hj (by omega)
      (fun k0 y hy => hk k0 y (by simp [hy])) hi
    have e1 : slot h (a :: ls) (j + 1) i = (valsOf h a).length + 1 + slot h ls j i := by
      simp [slot]; omega
    rw [e1, List.map_cons, inter_cons, List.flatMap_cons, List.take_succ_cons, List.take_succ_cons, List.map_cons,
      zF_cons, List.append_assoc, List.cons_append, ih]
    rw [List.take_append, List.take_of_length_le (l := valsOf h a) (by omega)]
    have e2 : (valsOf h a).length + 1 + slot h ls j i - (valsOf h a).length = slot h ls j i + 1 := by omega
    rw [e2, List.take_succ_cons]
    by_cases k0 : k = 0
    · simp [glue, k0]
    · have hka := hk (by omega) a (by simp)
      rw [List.take_append, List.take_of_length_le (l := kidsOf h a) (by omega)]
      have e3 : (valsOf h a).length + 1 + slot h ls j i + 1 - (kidsOf h a).length = slot h ls j i + 1 := by omega
      rw [e3, glue_append (fun _ => hka)]

theorem slot_kid {h : Heap α} : ∀ (ls : List Nat) (j x i : Nat), ls[j]? = some x →
    (∀ y ∈ ls, (kidsOf h y).length = (valsOf h y).length + 1) → i ≤ (valsOf h x).length →
    (ls.flatMap (kidsOf h))[slot h ls j i]? = (kidsOf h x)[i]?
  | [], _, _, _, hj, _, _ => by simp at hj
  | a :: ls, 0, x, i, hj, hk, hi => by
    simp only [List.getElem?_cons_zero, Option.some.injEq] at hj
    subst hj
    have := hk a (by simp)
    have e2 : slot h (a :: ls) 0 i = i := by simp [slot]
    rw [e2, List.flatMap_cons, List.getElem?_append_left (by omega)]
  | a :: ls, j + 1, x, i, hj, hk, hi => by
    simp only [List.getElem?_cons_succ] at hj
    have ih := slot_kid ls j x i hj (fun y hy => hk y (by simp [hy])) hi
    have e1 : slot h (a :: ls) (j + 1) i = (valsOf h a).length + 1 + slot h ls j i := by
      simp [slot]; omega
    have := hk a (by simp)
    rw [e1, List.flatMap_cons, List.getElem?_append_right (by omega), ← ih]
    congr 1
    omega

namespace Redist
variable {c : Cfg α κ} {h h' : Heap α} {root H : Nat} {ht : Nat → Nat} {k p : Nat} {pd pd' : Node α}
  {A ls ls' B : List Nat} {VA ms ms' VB : List α}
section
variable (w : WF c h root H ht) (r : Redist c h h' k p pd pd' A ls ls' B VA ms ms' VB) (p0 : p ≠ 0)
  (hk : ht p = k + 1)
include w r p0 hk

/-- The places of the children, before and after. -/
theorem base : ∃ P0, (∀ (j : Nat) x, ls[j]? = some x → ∃ BB, Ctx h root H k x
      (P0 ++ zF ((ls.take j).map (elems h k)) (ms.take j)) BB) ∧
    (∀ (j : Nat) x, ls'[j]? = some x → ∃ BB, Ctx h' root H k x
      (P0 ++ zF ((ls'.take j).map (elems h' k)) (ms'.take j)) BB) := by
  obtain ⟨AA, BB, hx⟩ := w.ctx' r.hp p0
  rw [hk] at hx
  have hx' := ctx_same' w r p0 hk hx (fun hl => (mem_ls w r p0 hk hl).2.2.2.1 rfl)
  have hA : (A.map (elems h' k)) = A.map (elems h k) := by
    apply List.map_congr_left
    intro a ha
    obtain ⟨a0, _, hak, _, al, _, xd, ex, _⟩ := mem_A w r p0 hk ha
    exact elems_same w r p0 hk k ex a0 hak al
  have hlen := r.len
  have hlen' := r.len'
  refine ⟨AA ++ zF (A.map (elems h k)) VA, ?_, ?_⟩
  · intro j x hj
    have hjl := (List.getElem?_eq_some_iff.1 hj).1
    have hkid : pd.kids[A.length + j]? = some x := by
      rw [r.pkids, List.append_assoc, List.getElem?_append_right (by omega), Nat.add_sub_cancel_left,
        List.getElem?_append_left hjl, hj]
    have y := Ctx.kid hx r.hp hkid
    have e1 : pd.kids.take (A.length + j) = A ++ ls.take j := by
      rw [r.pkids, List.append_assoc, List.take_length_add_append, List.take_append_of_le_length (by omega)]
    have e2 : pd.vals.take (A.length + j) = VA ++ ms.take j := by
      rw [r.pvals, List.append_assoc, r.lenA, List.take_length_add_append, List.take_append_of_le_length (by omega)]
    rw [e1, e2, List.map_append, zF_append _ _ _ _ (by simpa using r.lenA), ← List.append_assoc] at y
    exact ⟨_, y⟩
  · intro j x hj
    have hjl := (List.getElem?_eq_some_iff.1 hj).1
    have hkid : pd'.kids[A.length + j]? = some x := by
      rw [r.pkids', List.append_assoc, List.getElem?_append_right (by omega), Nat.add_sub_cancel_left,
        List.getElem?_append_left hjl, hj]
    have y := Ctx.kid hx' r.hp' hkid
    have e1 : pd'.kids.take (A.length + j) = A ++ ls'.take j := by
      rw [r.pkids', List.append_assoc, List.take_length_add_append, List.take_append_of_le_length (by omega)]
    have e2 : pd'.vals.take (A.length + j) = VA ++ ms'.take j := by
      rw [r.pvals', List.append_assoc, r.lenA, List.take_length_add_append,
        List.take_append_of_le_length (by omega)]
    rw [e1, e2, List.map_append, zF_append _ _ _ _ (by simpa using r.lenA), hA, ← List.append_assoc] at y
    exact ⟨_, y⟩

/-- A slot of `ls` and the slot of `ls'` with the same number are the same place. -/
theorem pt_move {j x i j' y i' : Nat} {X Y : List α} (hj : ls[j]? = some x) (hj' : ls'[j']? = some y)
    (hi' : i' ≤ (valsOf h' y).length) (hs : slot h ls j i = slot h' ls' j' i') (q : Pt h root H k x i X Y) :
    Pt h' root H k y i' X Y ∧ (0 < k → (kidsOf h' y)[i']? = (kidsOf h x)[i]?) := by
  obtain ⟨P0, c1, c2⟩ := base w r p0 hk
  obtain ⟨B1, x1⟩ := c1 j x hj
  obtain ⟨B2, x2⟩ := c2 j' y hj'
  obtain ⟨A0, B0, x0, hi, rfl, rfl⟩ := id q
  obtain ⟨rfl, rfl⟩ := x0.det w x1
  have w' := r.wf w p0 hk
  refine ⟨?_, ?_⟩
  · have q' : Pt h' root H k y i' _ _ := ⟨_, _, x2, hi', rfl, rfl⟩
    have hX : P0 ++ zF ((ls'.take j').map (elems h' k)) (ms'.take j') ++ pre h' k y i' =
        P0 ++ zF ((ls.take j).map (elems h k)) (ms.take j) ++ pre h k x i := by
      have f1 := slot_ok (h := h) (k := k) (E := elems h (k - 1)) ls ms j x i hj r.len
        (fun k0 y hy => kidsOf_len w r p0 hk hy k0) hi
      have f2 := slot_ok (h := h') (k := k) (E := elems h' (k - 1)) ls' ms' j' y i' hj' r.len'
        (fun k0 y hy => kidsOf_len' w r p0 hk hy k0) hi'
      have g1 : (fun y => glue k (elems h (k - 1)) (valsOf h y) (kidsOf h y)) = elems h k := by
        funext y; rw [elems_glue]
      have g2 : (fun y => glue k (elems h' (k - 1)) (valsOf h' y) (kidsOf h' y)) = elems h' k := by
        funext y; rw [elems_glue]
      rw [g1] at f1
      rw [g2] at f2
      rw [pre_glue, pre_glue, List.append_assoc, List.append_assoc, f1, f2, ← r.flatVals, ← r.flatKids, hs]
      congr 1
      by_cases k0 : k = 0
      · simp [glue, k0]
      · unfold glue
        rw [if_neg k0, if_neg k0]
        congr 1
        apply List.map_congr_left
        intro g hg
        obtain ⟨z, hz, hgz⟩ := List.mem_flatMap.1 (List.mem_of_mem_take hg)
        obtain ⟨g0, _, hgk, _, gl, gd, eg, _⟩ := mem_grand w r p0 hk hz hgz
        exact elems_same w r p0 hk (k - 1) eg g0 (by omega) gl
    have t1 := q'.total w'
    have t2 := q.total w
    rw [total_same w r p0 hk, ← t2, hX] at t1
    rw [← List.append_cancel_left t1, ← hX]
    exact q'
  · intro k0
    rw [← slot_kid ls' j' y i' hj' (fun y hy => kidsOf_len' w r p0 hk hy k0) hi',
      ← slot_kid ls j x i hj (fun y hy => kidsOf_len w r p0 hk hy k0) hi, r.flatKids, hs]

/-- Places outside of the redistributed nodes and their parent. -/
theorem pt_other {j n i : Nat} {X Y : List α} (q : Pt h root H j n i X Y) (hn : n ∉ ls) (hp : n ≠ p) :
    Pt h' root H j n i X Y := by
  obtain ⟨A0, B0, x, hi, rfl, rfl⟩ := q
  obtain ⟨nd, e, n0, hj⟩ := x.live w
  have y := ctx_same' w r p0 hk x hn
  obtain ⟨v1, v2⟩ := same_vals w r p0 hk e hp hn
  refine ⟨A0, B0, y, by rwa [v1], ?_, ?_⟩
  · by_cases k0 : j = 0
    · simp [pre_glue, k0, glue, v1]
    · rw [pre_glue, pre_glue]
      unfold glue
      rw [if_neg k0, if_neg k0, v1, v2]
      by_cases hex : ∃ z ∈ kidsOf h n, z ∈ ls
      · obtain ⟨z, hz, hzl⟩ := hex
        rw [kidsOf_eq e] at hz
        obtain ⟨_, _, _, _, xd, ex, epar⟩ := mem_ls w r p0 hk hzl
        obtain ⟨_, _, _, zd, ez, zp, _⟩ := w.kid_mem e n0 hz
        rw [ex] at ez; cases ez
        exact absurd (zp.symm.trans epar) hp
      · congr 2
        apply List.map_congr_left
        intro g hg
        have hg' := List.mem_of_mem_take hg
        rw [kidsOf_eq e] at hg'
        obtain ⟨g0, _, hgk, gd, eg, _⟩ := w.kid_mem e n0 hg'
        exact (elems_same w r p0 hk (j - 1) eg g0 (by omega) (fun hl => hex ⟨g, by rw [kidsOf_eq e]; exact hg', hl⟩)).symm
  · cases j with
    | zero => simp [post, v1]
    | succ j =>
      simp only [post, v1, v2]
      congr 2
      apply List.map_congr_left
      intro g hg
      have hg' := List.mem_of_mem_drop hg
      rw [kidsOf_eq e] at hg'
      obtain ⟨g0, _, hgk, gd, eg, gp, _⟩ := w.kid_mem e n0 hg'
      refine (elems_same w r p0 hk j eg g0 (by omega) ?_).symm
      intro hl
      obtain ⟨_, _, _, _, xd, ex, epar⟩ := mem_ls w r p0 hk hl
      rw [ex] at eg; cases eg
      exact hp (gp.symm.trans epar)

end
end Redist

variable {c : Cfg α κ} {t : Tree α} {H : Nat} {ht : Nat → Nat} {L : List α} {E : Nat → Prop}

/-- The tree is a tree afterwards. -/
theorem Good.redist' {t' : Tree α} {k p : Nat} {pd pd' : Node α} {A ls ls' B : List Nat} {VA ms ms' VB : List α}
    (g : Good c t E H ht L) (r : Redist c t.heap t'.heap k p pd pd' A ls ls' B VA ms ms' VB) (p0 : p ≠ 0)
    (hk : ht p = k + 1) (hr : t'.root = t.root)
    (hm : t'.rightmost = if k = 0 ∧ ls.getLast? = some t.rightmost then (ls'.getLast?).getD 0 else t.rightmost)
    {E' : Nat → Prop} (hE : ∀ n, n ≠ p → n ∉ ls → n ∉ ls' → E n → E' n) (hp : ¬ E' p → 1 ≤ pd'.vals.length)
    (hls : ∀ x ∈ ls', ¬ E' x → 1 ≤ (valsOf t'.heap x).length) :
    Good c t' E' H (Redist.ht' ls' k ht) L where
  wf := by rw [hr]; exact r.wf g.wf p0 hk
  left := by
    obtain ⟨rn, er, hrn⟩ := g.left
    rw [hr]
    rw [Redist.lm_same g.wf r p0 hk H er g.wf.root0 g.wf.rootHt (Redist.root_not g.wf r p0 hk)]
    by_cases hrp : t.root = p
    · subst hrp
      rw [r.hp] at er; cases er
      exact ⟨pd', r.hp', by rw [r.ppar, hrn]⟩
    · refine ⟨rn, ?_, hrn⟩
      rw [r.other t.root hrp (Redist.root_not g.wf r p0 hk) (fun hl => (Redist.ls'_ne g.wf r p0 hk hl).2.1 rfl)
        (fun hB => (Redist.mem_B g.wf r p0 hk hB).2.1 rfl)
        (fun x hx hg => (Redist.mem_grand g.wf r p0 hk hx hg).2.1 rfl), er]
  right := by
    obtain ⟨rn, er, _⟩ := g.left
    rw [hr, Redist.rm_same g.wf r p0 hk H er g.wf.root0 g.wf.rootHt (Redist.root_not g.wf r p0 hk), hm, g.right]
  full := by
    intro n nd e n0 hn
    rcases Redist.cases' g.wf r p0 hk e with rfl | hl | ⟨hnp, hnl, hnl', nd0, e0, h1, _⟩
    · rw [r.hp'] at e; cases e
      exact hp hn
    · have := hls n hl hn
      rwa [valsOf_eq e] at this
    · rw [h1]
      exact g.full n nd0 e0 n0 (fun he => hn (hE n hnp hnl hnl' he))
  seq := by rw [hr, Redist.total_same g.wf r p0 hk, g.seq]

theorem Good.redist {t' : Tree α} {k p : Nat} {pd pd' : Node α} {A ls ls' B : List Nat} {VA ms ms' VB : List α}
    (g : Good c t E H ht L) (r : Redist c t.heap t'.heap k p pd pd' A ls ls' B VA ms ms' VB) (p0 : p ≠ 0)
    (hk : ht p = k + 1) (hr : t'.root = t.root)
    (hm : t'.rightmost = if k = 0 ∧ ls.getLast? = some t.rightmost then (ls'.getLast?).getD 0 else t.rightmost)
    {E' : Nat → Prop} (hE : ∀ n, n ≠ p → n ∉ ls → E n → E' n) (hp : ¬ E' p → 1 ≤ pd'.vals.length)
    (hls : ∀ x ∈ ls', ¬ E' x → 1 ≤ (valsOf t'.heap x).length) :
    Good c t' E' H (Redist.ht' ls' k ht) L :=
  g.redist' r p0 hk hr hm (fun n a b _ => hE n a b) hp hls

end Gtl.Btree
