import Verif.Btree.RedistCtx
/-
The operations on neighbouring nodes redistribute values: moving values between
siblings.
-/
set_option linter.unusedSectionVars false
namespace Gtl.Btree
variable {α κ : Type}
variable {c : Cfg α κ} {h : Heap α} {root H : Nat} {ht : Nat → Nat}

/-- Two neighbouring children `l`, `r` of `p`. -/
structure Sib (h : Heap α) (p l r : Nat) (pd ln rn : Node α) (A B : List Nat) (VA VB : List α) (d : α) : Prop where
  p0 : p ≠ 0
  ep : h.get p = some pd
  el : h.get l = some ln
  er : h.get r = some rn
  kids : pd.kids = A ++ [l, r] ++ B
  vals : pd.vals = VA ++ [d] ++ VB
  lenA : A.length = VA.length
  lenB : B.length = VB.length

theorem WF.sib (w : WF c h root H ht) {p i l r : Nat} {pd ln rn : Node α} (p0 : p ≠ 0) (ep : h.get p = some pd)
    (hl : pd.kids[i]? = some l) (hr : pd.kids[i + 1]? = some r) (el : h.get l = some ln) (er : h.get r = some rn) :
    ∃ d, pd.vals[i]? = some d ∧
      Sib h p l r pd ln rn (pd.kids.take i) (pd.kids.drop (i + 2)) (pd.vals.take i) (pd.vals.drop (i + 1)) d := by
  obtain ⟨hi, hli⟩ := List.getElem?_eq_some_iff.1 hl
  obtain ⟨hi1, hri⟩ := List.getElem?_eq_some_iff.1 hr
  have hlen := w.kids_len ep p0 (by have := (w.kid _ _ _ _ ep p0 hl).2.2.1; omega)
  have hiv : i < pd.vals.length := by omega
  refine ⟨pd.vals[i], List.getElem?_eq_getElem hiv, p0, ep, el, er, ?_, ?_, ?_, ?_⟩
  · rw [List.append_assoc]
    conv => lhs; rw [← List.take_append_drop i pd.kids]
    rw [← List.getElem_cons_drop hi, ← List.getElem_cons_drop hi1, hli, hri]
    rfl
  · rw [List.append_assoc]
    conv => lhs; rw [← List.take_append_drop i pd.vals]
    rw [← List.getElem_cons_drop hiv]
    rfl
  · simp; omega
  · simp; omega

namespace Sib
variable {p l r : Nat} {pd ln rn : Node α} {A B : List Nat} {VA VB : List α} {d : α}
variable (w : WF c h root H ht) (s : Sib h p l r pd ln rn A B VA VB d)
include w s

theorem facts : l ≠ 0 ∧ r ≠ 0 ∧ l ≠ root ∧ r ≠ root ∧ ht p = ht l + 1 ∧ ht p = ht r + 1 ∧ l ≠ p ∧ r ≠ p ∧ l ≠ r ∧
    ln.parent = p ∧ rn.parent = p ∧ ln.position = A.length ∧ rn.position = A.length + 1 := by
  obtain ⟨a1, a2, a3, _, e, a4, a5⟩ := w.kid _ _ A.length l s.ep s.p0 (by rw [s.kids]; simp)
  obtain ⟨b1, b2, b3, _, e', b4, b5⟩ := w.kid _ _ (A.length + 1) r s.ep s.p0 (by rw [s.kids]; simp)
  rw [s.el] at e; cases e
  rw [s.er] at e'; cases e'
  refine ⟨a1, b1, a2, b2, a3, b3, by rintro rfl; omega, by rintro rfl; omega, ?_, a4, b4, a5, b5⟩
  rintro rfl
  have := s.el.symm.trans s.er
  cases this
  omega

theorem pval : pd.vals[A.length]? = some d := by
  rw [s.vals, s.lenA]; simp

/-- The grandchildren. -/
theorem grand {g : Nat} (hg : g ∈ ln.kids ∨ g ∈ rn.kids) :
    g ≠ 0 ∧ g ≠ p ∧ g ≠ l ∧ g ≠ r ∧ g ∉ B ∧ ∃ gd, h.get g = some gd := by
  obtain ⟨l0, r0, _, _, hl, hr, _⟩ := s.facts w
  have hh : ht l = ht g + 1 ∧ g ≠ 0 ∧ ∃ gd, h.get g = some gd := by
    rcases hg with hg | hg
    · obtain ⟨x0, _, x1, gd, eg, _⟩ := w.kid_mem s.el l0 hg
      exact ⟨by omega, x0, gd, eg⟩
    · obtain ⟨x0, _, x1, gd, eg, _⟩ := w.kid_mem s.er r0 hg
      exact ⟨by omega, x0, gd, eg⟩
  obtain ⟨hh, g0, gd, eg⟩ := hh
  refine ⟨g0, by rintro rfl; omega, by rintro rfl; omega, by rintro rfl; omega, ?_, gd, eg⟩
  intro hB
  have := (w.kid_mem s.ep s.p0 (x := g) (by rw [s.kids]; simp [hB])).2.2.1
  omega

/-- Values move between two siblings through their parent. -/
theorem redist {h' : Heap α} {lv rv : List α} {lk rk : List Nat} {d' : α}
    (hp' : h'.get p = some { pd with vals := VA ++ [d'] ++ VB })
    (hl' : h'.get l = some { ln with vals := lv, kids := lk })
    (hr' : h'.get r = some { rn with vals := rv, kids := rk })
    (hvl : ln.vals ++ d :: rn.vals = lv ++ d' :: rv) (hkk : ln.kids ++ rn.kids = lk ++ rk)
    (hlk : 0 < ht l → lk.length = lv.length + 1) (hrk : 0 < ht l → rk.length = rv.length + 1)
    (hlv : lv.length ≤ c.K) (hrv : rv.length ≤ c.K)
    (gl : ∀ (i : Nat) g gd, lk[i]? = some g → h.get g = some gd →
      h'.get g = some { gd with parent := l, position := i })
    (gr : ∀ (i : Nat) g gd, rk[i]? = some g → h.get g = some gd →
      h'.get g = some { gd with parent := r, position := i })
    (other : ∀ n, n ≠ p → n ≠ l → n ≠ r → n ∉ ln.kids → n ∉ rn.kids → h'.get n = h.get n) :
    Redist c h h' (ht l) p pd { pd with vals := VA ++ [d'] ++ VB } A [l, r] [l, r] B VA [d] [d'] VB := by
  obtain ⟨l0, r0, lr, rr, hl, hr, lp, rp, lner, e1, e2, e3, e4⟩ := s.facts w
  have shapes : ∀ x xd xv xk, h.get x = some xd → x ≠ 0 → x ≠ root → ht x = ht l → xv.length ≤ c.K →
      (ht l = 0 → xk = []) → (0 < ht l → xk.length = xv.length + 1) →
      Shape c (ht l) False { xd with vals := xv, kids := xk } := by
    intro x xd xv xk ex x0 xr hx h1 h2 h3
    rcases w.shape x xd ex x0 with sh | sh
    · left
      refine ⟨by omega, sh.2.1, h2 (by omega), ?_, sh.2.2.2.2.1, fun _ => sh.2.2.2.2.2 xr⟩
      have := sh.2.2.2.2.2 xr
      simp only; omega
    · right
      exact ⟨by omega, sh.2.1, h3 (by omega), h1⟩
  have hnil : ht l = 0 → lk = [] ∧ rk = [] := by
    intro h0
    rw [w.kids_nil s.el l0 h0, w.kids_nil s.er r0 (by omega)] at hkk
    simpa using hkk.symm
  refine {
    hp := s.ep, hp' := hp', pkids := s.kids, pkids' := s.kids, pvals := s.vals, pvals' := rfl
    lenA := s.lenA, lenB := s.lenB, len := rfl, len' := rfl, room := ?_, ppar := rfl, ppos := rfl, pmax := rfl
    fresh := fun x hx => .inl hx, dead := fun x hx hx' => absurd hx hx', new := ?_, tail := ?_, flatKids := ?_
    flatVals := ?_, other := ?_, head := rfl }
  · have := w.vals_le s.ep s.p0
    rw [s.vals] at this
    simpa using this
  · intro j x hj
    match j, hj with
    | 0, hj =>
      simp only [List.getElem?_cons_zero, Option.some.injEq] at hj
      subst hj
      exact ⟨_, hl', e1, e3, shapes l ln lv lk s.el l0 lr rfl hlv (fun hz => (hnil hz).1) hlk, gl⟩
    | 1, hj =>
      simp only [List.getElem?_cons_succ, List.getElem?_cons_zero, Option.some.injEq] at hj
      subst hj
      exact ⟨_, hr', e2, e4, shapes r rn rv rk s.er r0 rr (by omega) hrv (fun hz => (hnil hz).2) hrk, gr⟩
    | j + 2, hj => simp at hj
  · intro j b bd hj eb
    have hbB := List.mem_of_getElem? hj
    obtain ⟨a1, a2, a3, bd', eb', a4, a5⟩ := w.kid _ _ (A.length + 2 + j) b s.ep s.p0 (by
      rw [s.kids, List.getElem?_append_right (by simp)]
      simpa using hj)
    rw [eb] at eb'; cases eb'
    have hn := w.kids_nodup s.ep s.p0
    rw [s.kids] at hn
    have hd := List.disjoint_of_nodup_append hn
    rw [other b (by rintro rfl; omega) (by rintro rfl; exact hd (by simp) hbB)
      (by rintro rfl; exact hd (by simp) hbB)
      (fun hg => (s.grand w (.inl hg)).2.2.2.2.1 hbB) (fun hg => (s.grand w (.inr hg)).2.2.2.2.1 hbB), eb]
    simp only [Option.some.injEq]
    rw [show [l, r].length = 2 from rfl, ← a5]
  · simp [kidsOf_eq s.el, kidsOf_eq s.er, kidsOf_eq hl', kidsOf_eq hr', hkk]
  · simp [valsOf_eq s.el, valsOf_eq s.er, valsOf_eq hl', valsOf_eq hr', hvl]
  · intro n hnp hnl _ _ hg
    simp only [List.mem_cons, List.not_mem_nil, or_false, not_or] at hnl
    refine other n hnp hnl.1 hnl.2 ?_ ?_
    · intro hn; exact hg l (by simp) (by rw [kidsOf_eq s.el]; exact hn)
    · intro hn; exact hg r (by simp) (by rw [kidsOf_eq s.er]; exact hn)

theorem gkids_nodup : ln.kids.Nodup ∧ rn.kids.Nodup ∧ ∀ g ∈ ln.kids, g ∉ rn.kids := by
  obtain ⟨l0, r0, lr, rr, hl, hr, lp, rp, lner, _⟩ := s.facts w
  exact ⟨w.kids_nodup s.el l0, w.kids_nodup s.er r0, fun g hg hg' => lner (w.kids_disj s.el l0 s.er r0 hg hg')⟩

/-- rebalance_right_to_left. -/
theorem rebalanceRightToLeft_ok {m : Nat} (h1 : ln.count ≤ rn.count) (h2 : 1 ≤ m) (h3 : m ≤ rn.count)
    (h4 : ln.count + m ≤ c.K) :
    ∃ (h' : Heap α) (d' : α), rebalanceRightToLeft c h m l r = some h' ∧ h'.length = h.length ∧
      rn.vals[m - 1]? = some d' ∧
      Redist c h h' (ht l) p pd { pd with vals := VA ++ [d'] ++ VB } A [l, r] [l, r] B VA [d] [d'] VB ∧
      h'.get l = some { ln with vals := ln.vals ++ d :: rn.vals.take (m - 1), kids := ln.kids ++ rn.kids.take m } ∧
      h'.get r = some { rn with vals := rn.vals.drop m, kids := rn.kids.drop m } := by
  obtain ⟨l0, r0, lr, rr, hl, hr, lp, rp, lner, e1, e2, e3, e4⟩ := s.facts w
  obtain ⟨nl, nr, dis⟩ := s.gkids_nodup w
  have hm : m - 1 < rn.vals.length := by unfold Node.count at h3; omega
  obtain ⟨d', hd'⟩ : ∃ d', rn.vals[m - 1]? = some d' := ⟨_, List.getElem?_eq_getElem hm⟩
  have hset : pd.vals.set A.length d' = VA ++ [d'] ++ VB := by rw [s.vals, s.lenA]; simp
  set f1 := h.set p { pd with vals := VA ++ [d'] ++ VB } with hf1
  have g1 : ∀ j, f1.get j = if j = p then some { pd with vals := VA ++ [d'] ++ VB } else h.get j :=
    Heap.get_set _ s.ep
  set f2 := f1.set l { ln with vals := ln.vals ++ d :: rn.vals.take (m - 1), kids := ln.kids ++ rn.kids.take m }
    with hf2
  have g2 : ∀ j, f2.get j = if j = l then
      some { ln with vals := ln.vals ++ d :: rn.vals.take (m - 1), kids := ln.kids ++ rn.kids.take m }
      else f1.get j := Heap.get_set _ (by rw [g1, if_neg lp]; exact s.el)
  set f3 := f2.set r { rn with vals := rn.vals.drop m, kids := rn.kids.drop m } with hf3
  have g3 : ∀ j, f3.get j = if j = r then some { rn with vals := rn.vals.drop m, kids := rn.kids.drop m }
      else f2.get j := Heap.get_set _ (by rw [g2, if_neg (Ne.symm lner), g1, if_neg rp]; exact s.er)
  have g : ∀ j, f3.get j = if j = r then some { rn with vals := rn.vals.drop m, kids := rn.kids.drop m }
      else if j = l then
        some { ln with vals := ln.vals ++ d :: rn.vals.take (m - 1), kids := ln.kids ++ rn.kids.take m }
      else if j = p then some { pd with vals := VA ++ [d'] ++ VB } else h.get j := by
    intro j; rw [g3, g2, g1]
  have len3 : f3.length = h.length := by simp [hf3, hf2, hf1]
  have capl := w.cap_eq s.el l0 (.inl lr)
  have leafeq : (ln.leaf == rn.leaf) = true := by
    have a := w.leaf_iff s.el l0
    have b := w.leaf_iff s.er r0
    have : ht l = ht r := by omega
    rw [this, ← b] at a
    cases hx : ln.leaf <;> cases hy : rn.leaf <;> simp_all
  have cond : (ln.parent == rn.parent && ln.position + 1 == rn.position && ln.count ≤ rn.count
    && 1 ≤ m && m ≤ rn.count && ln.count + m ≤ ln.cap c && ln.leaf == rn.leaf) = true := by
    rw [e1, e2, e3, e4, capl, leafeq]
    simp [h1, h2, h3, h4]
  have run : rebalanceRightToLeft c h m l r = if ln.leaf then some f3 else
      (initChildren f3 l (ln.count + 1) (rn.kids.take m)).bind fun h => initChildren h r 0 (rn.kids.drop m) := by
    unfold rebalanceRightToLeft
    have ep1 : h.get ln.parent = some pd := by rw [e1]; exact s.ep
    have pv1 : pd.vals[ln.position]? = some d := by rw [e3]; exact s.pval w
    have hs1 : pd.vals.set ln.position d' = VA ++ [d'] ++ VB := by rw [e3]; exact hset
    simp only [s.el, s.er, Option.bind_eq_bind, Option.bind_some, check_of cond, ep1, pv1, hd', hs1]
    subst e1
    rfl
  have hvl : ln.vals ++ d :: rn.vals = (ln.vals ++ d :: rn.vals.take (m - 1)) ++ d' :: rn.vals.drop m := by
    obtain ⟨_, hdd⟩ := List.getElem?_eq_some_iff.1 hd'
    have : rn.vals = rn.vals.take (m - 1) ++ d' :: rn.vals.drop m := by
      conv => lhs; rw [← List.take_append_drop (m - 1) rn.vals, ← List.getElem_cons_drop hm, hdd]
      rw [show m - 1 + 1 = m by omega]
    conv => lhs; rw [this]
    simp
  have hkk : ln.kids ++ rn.kids = (ln.kids ++ rn.kids.take m) ++ rn.kids.drop m := by simp
  have hlen : 0 < ht l → ln.kids.length = ln.vals.length + 1 ∧ rn.kids.length = rn.vals.length + 1 :=
    fun hz => ⟨w.kids_len s.el l0 hz, w.kids_len s.er r0 (by omega)⟩
  have hvr := w.vals_le s.er r0
  unfold Node.count at h1 h3 h4
  by_cases hleaf : ln.leaf = true
  · have hz := (w.leaf_iff s.el l0).1 hleaf
    have kl := w.kids_nil s.el l0 hz
    have kr := w.kids_nil s.er r0 (by omega)
    refine ⟨f3, d', by rw [run, if_pos hleaf], len3, hd', ?_, by rw [g, if_neg lner, if_pos rfl],
      by rw [g, if_pos rfl]⟩
    refine s.redist w (lv := ln.vals ++ d :: rn.vals.take (m - 1)) (rv := rn.vals.drop m)
      (lk := ln.kids ++ rn.kids.take m) (rk := rn.kids.drop m)
      (by rw [g, if_neg (Ne.symm rp), if_neg (Ne.symm lp), if_pos rfl]) (by rw [g, if_neg lner, if_pos rfl])
      (by rw [g, if_pos rfl]) hvl hkk (by omega) (by omega) (by simp; omega) (by simp; omega) ?_ ?_ ?_
    · intro i g gd hi; simp [kl, kr] at hi
    · intro i g gd hi; simp [kr] at hi
    · intro n n1 n2 n3 _ _; rw [g, if_neg n3, if_neg n2, if_neg n1]
  · have hz : 0 < ht l := by
      rcases Nat.eq_zero_or_pos (ht l) with hz | hz
      · exact absurd ((w.leaf_iff s.el l0).2 hz) hleaf
      · exact hz
    obtain ⟨lenl, lenr⟩ := hlen hz
    have gg : ∀ x, x ∈ ln.kids ∨ x ∈ rn.kids → f3.get x = h.get x := by
      intro x hx
      obtain ⟨_, x1, x2, x3, _, _⟩ := s.grand w hx
      rw [g, if_neg x3, if_neg x2, if_neg x1]
    obtain ⟨f4, r4, len4, o4, i4⟩ := initChildren_spec l (rn.kids.take m) f3 (ln.count + 1)
      (nr.sublist (List.take_sublist _ _)) (by
        intro x hx
        have hx := List.mem_of_mem_take hx
        obtain ⟨_, _, _, _, _, gd, eg⟩ := s.grand w (.inr hx)
        exact ⟨gd, by rw [gg x (.inr hx)]; exact eg⟩)
    have dtd : ∀ x ∈ rn.kids.drop m, x ∉ rn.kids.take m := by
      have := nr
      rw [← List.take_append_drop m rn.kids] at this
      intro x hx hx'
      exact List.disjoint_of_nodup_append this hx' hx
    obtain ⟨f5, r5, len5, o5, i5⟩ := initChildren_spec r (rn.kids.drop m) f4 0
      (nr.sublist (List.drop_sublist _ _)) (by
        intro x hx
        have hx' := List.mem_of_mem_drop hx
        obtain ⟨_, _, _, _, _, gd, eg⟩ := s.grand w (.inr hx')
        exact ⟨gd, by rw [o4 x (dtd x hx), gg x (.inr hx')]; exact eg⟩)
    have o : ∀ x, x ∉ rn.kids → f5.get x = f3.get x := by
      intro x hx
      rw [o5 x (fun hh => hx (List.mem_of_mem_drop hh)), o4 x (fun hh => hx (List.mem_of_mem_take hh))]
    have ol : f5.get l = f3.get l := o l (fun hh => (s.grand w (.inr hh)).2.2.1 rfl)
    have or : f5.get r = f3.get r := o r (fun hh => (s.grand w (.inr hh)).2.2.2.1 rfl)
    have op : f5.get p = f3.get p := o p (fun hh => (s.grand w (.inr hh)).2.1 rfl)
    refine ⟨f5, d', by rw [run, if_neg hleaf, r4]; exact r5, by omega, hd', ?_,
      by rw [ol, g, if_neg lner, if_pos rfl], by rw [or, g, if_pos rfl]⟩
    refine s.redist w (lv := ln.vals ++ d :: rn.vals.take (m - 1)) (rv := rn.vals.drop m)
      (lk := ln.kids ++ rn.kids.take m) (rk := rn.kids.drop m)
      (by rw [op, g, if_neg (Ne.symm rp), if_neg (Ne.symm lp), if_pos rfl])
      (by rw [ol, g, if_neg lner, if_pos rfl])
      (by rw [or, g, if_pos rfl]) hvl hkk ?_ ?_ (by simp; omega) (by simp; omega) ?_ ?_ ?_
    · intro _; simp only [List.length_append, List.length_take, List.length_cons]; omega
    · intro _; simp only [List.length_drop]; omega
    · intro i x gd hi ex
      by_cases hil : i < ln.kids.length
      · rw [List.getElem?_append_left hil] at hi
        have hmem := List.mem_of_getElem? hi
        obtain ⟨_, _, _, gd', ex', a1, a2⟩ := w.kid _ _ _ _ s.el l0 hi
        rw [ex] at ex'; cases ex'
        rw [o x (dis x hmem), gg x (.inl hmem), ex, ← a1, ← a2]
      · rw [List.getElem?_append_right (by omega)] at hi
        have hmem := List.mem_of_getElem? hi
        rw [o5 x (fun hh => dtd x hh hmem),
          i4 _ _ gd hi (by rw [gg x (.inr (List.mem_of_mem_take hmem))]; exact ex)]
        unfold Node.count
        rw [show ln.vals.length + 1 + (i - ln.kids.length) = i by omega]
    · intro i x gd hi ex
      have hmem := List.mem_of_getElem? hi
      rw [i5 _ _ gd hi (by rw [o4 x (dtd x hmem), gg x (.inr (List.mem_of_mem_drop hmem))]; exact ex)]
      simp
    · intro n n1 n2 n3 n4 n5
      rw [o n n5, g, if_neg n3, if_neg n2, if_neg n1]

/-- rebalance_left_to_right. -/
theorem rebalanceLeftToRight_ok {m : Nat} (h1 : rn.count ≤ ln.count) (h2 : 1 ≤ m) (h3 : m ≤ ln.count)
    (h4 : rn.count + m ≤ c.K) :
    ∃ (h' : Heap α) (d' : α), rebalanceLeftToRight c h m l r = some h' ∧ h'.length = h.length ∧
      ln.vals[ln.count - m]? = some d' ∧
      Redist c h h' (ht l) p pd { pd with vals := VA ++ [d'] ++ VB } A [l, r] [l, r] B VA [d] [d'] VB ∧
      h'.get l = some { ln with vals := ln.vals.take (ln.count - m), kids := ln.kids.take (ln.count - m + 1) } ∧
      h'.get r = some { rn with vals := ln.vals.drop (ln.count - (m - 1)) ++ d :: rn.vals,
                                kids := ln.kids.drop (ln.count - m + 1) ++ rn.kids } := by
  obtain ⟨l0, r0, lr, rr, hl, hr, lp, rp, lner, e1, e2, e3, e4⟩ := s.facts w
  obtain ⟨nl, nr, dis⟩ := s.gkids_nodup w
  have hm : ln.count - m < ln.vals.length := by unfold Node.count at *; omega
  obtain ⟨d', hd'⟩ : ∃ d', ln.vals[ln.count - m]? = some d' := ⟨_, List.getElem?_eq_getElem hm⟩
  have hset : pd.vals.set A.length d' = VA ++ [d'] ++ VB := by rw [s.vals, s.lenA]; simp
  set f1 := h.set p { pd with vals := VA ++ [d'] ++ VB } with hf1
  have g1 : ∀ j, f1.get j = if j = p then some { pd with vals := VA ++ [d'] ++ VB } else h.get j :=
    Heap.get_set _ s.ep
  set ln' : Node α := { ln with vals := ln.vals.take (ln.count - m), kids := ln.kids.take (ln.count - m + 1) } with hln'
  set rn' : Node α := { rn with vals := ln.vals.drop (ln.count - (m - 1)) ++ d :: rn.vals,
                                kids := ln.kids.drop (ln.count - m + 1) ++ rn.kids } with hrn'
  set f2 := f1.set l ln' with hf2
  have g2 : ∀ j, f2.get j = if j = l then some ln'
      else f1.get j := Heap.get_set _ (by rw [g1, if_neg lp]; exact s.el)
  set f3 := f2.set r rn' with hf3
  have g3 : ∀ j, f3.get j = if j = r then some rn'
      else f2.get j := Heap.get_set _ (by rw [g2, if_neg (Ne.symm lner), g1, if_neg rp]; exact s.er)
  have g : ∀ j, f3.get j = if j = r then some rn'
      else if j = l then some ln'
      else if j = p then some { pd with vals := VA ++ [d'] ++ VB } else h.get j := by
    intro j; rw [g3, g2, g1]
  have len3 : f3.length = h.length := by simp [hf3, hf2, hf1]
  have capr := w.cap_eq s.er r0 (.inl rr)
  have leafeq : (ln.leaf == rn.leaf) = true := by
    have a := w.leaf_iff s.el l0
    have b := w.leaf_iff s.er r0
    have : ht l = ht r := by omega
    rw [this, ← b] at a
    cases hx : ln.leaf <;> cases hy : rn.leaf <;> simp_all
  have cond : (ln.parent == rn.parent && ln.position + 1 == rn.position && rn.count ≤ ln.count
    && 1 ≤ m && m ≤ ln.count && rn.count + m ≤ rn.cap c && ln.leaf == rn.leaf) = true := by
    rw [e1, e2, e3, e4, capr, leafeq]
    simp [h1, h2, h3, h4]
  have run : rebalanceLeftToRight c h m l r = if ln.leaf then some f3 else
      (initChildren f3 r m rn.kids).bind fun h => initChildren h r 0 (ln.kids.drop (ln.count - m + 1)) := by
    unfold rebalanceLeftToRight
    have ep1 : h.get ln.parent = some pd := by rw [e1]; exact s.ep
    have pv1 : pd.vals[ln.position]? = some d := by rw [e3]; exact s.pval w
    have hs1 : pd.vals.set ln.position d' = VA ++ [d'] ++ VB := by rw [e3]; exact hset
    simp only [s.el, s.er, Option.bind_eq_bind, Option.bind_some, check_of cond, ep1, pv1, hd', hs1]
    subst e1
    rfl
  have hvl : ln.vals ++ d :: rn.vals =
      ln.vals.take (ln.count - m) ++ d' :: (ln.vals.drop (ln.count - (m - 1)) ++ d :: rn.vals) := by
    obtain ⟨_, hdd⟩ := List.getElem?_eq_some_iff.1 hd'
    have : ln.vals = ln.vals.take (ln.count - m) ++ d' :: ln.vals.drop (ln.count - (m - 1)) := by
      conv => lhs; rw [← List.take_append_drop (ln.count - m) ln.vals, ← List.getElem_cons_drop hm, hdd]
      rw [show ln.count - m + 1 = ln.count - (m - 1) by omega]
    conv => lhs; rw [this]
    simp
  have hkk : ln.kids ++ rn.kids =
      ln.kids.take (ln.count - m + 1) ++ (ln.kids.drop (ln.count - m + 1) ++ rn.kids) := by
    rw [← List.append_assoc, List.take_append_drop]
  have hlen : 0 < ht l → ln.kids.length = ln.vals.length + 1 ∧ rn.kids.length = rn.vals.length + 1 :=
    fun hz => ⟨w.kids_len s.el l0 hz, w.kids_len s.er r0 (by omega)⟩
  have hvr := w.vals_le s.el l0
  have cnt : ln.count = ln.vals.length := rfl
  have cnt' : rn.count = rn.vals.length := rfl
  by_cases hleaf : ln.leaf = true
  · have hz := (w.leaf_iff s.el l0).1 hleaf
    have kl := w.kids_nil s.el l0 hz
    have kr := w.kids_nil s.er r0 (by omega)
    refine ⟨f3, d', by rw [run, if_pos hleaf], len3, hd', ?_, by rw [g, if_neg lner, if_pos rfl],
      by rw [g, if_pos rfl]⟩
    refine s.redist w (lv := ln.vals.take (ln.count - m)) (rv := ln.vals.drop (ln.count - (m - 1)) ++ d :: rn.vals)
      (lk := ln.kids.take (ln.count - m + 1)) (rk := ln.kids.drop (ln.count - m + 1) ++ rn.kids)
      (by rw [g, if_neg (Ne.symm rp), if_neg (Ne.symm lp), if_pos rfl]) (by rw [g, if_neg lner, if_pos rfl])
      (by rw [g, if_pos rfl]) hvl hkk (by omega) (by omega) (by simp; omega) (by simp; omega) ?_ ?_ ?_
    · intro i g gd hi; simp [kl] at hi
    · intro i g gd hi; simp [kl, kr] at hi
    · intro n n1 n2 n3 _ _; rw [g, if_neg n3, if_neg n2, if_neg n1]
  · have hz : 0 < ht l := by
      rcases Nat.eq_zero_or_pos (ht l) with hz | hz
      · exact absurd ((w.leaf_iff s.el l0).2 hz) hleaf
      · exact hz
    obtain ⟨lenl, lenr⟩ := hlen hz
    have gg : ∀ x, x ∈ ln.kids ∨ x ∈ rn.kids → f3.get x = h.get x := by
      intro x hx
      obtain ⟨_, x1, x2, x3, _, _⟩ := s.grand w hx
      rw [g, if_neg x3, if_neg x2, if_neg x1]
    obtain ⟨f4, r4, len4, o4, i4⟩ := initChildren_spec r rn.kids f3 m nr (by
        intro x hx
        obtain ⟨_, _, _, _, _, gd, eg⟩ := s.grand w (.inr hx)
        exact ⟨gd, by rw [gg x (.inr hx)]; exact eg⟩)
    obtain ⟨f5, r5, len5, o5, i5⟩ := initChildren_spec r (ln.kids.drop (ln.count - m + 1)) f4 0
      (nl.sublist (List.drop_sublist _ _)) (by
        intro x hx
        have hx' := List.mem_of_mem_drop hx
        obtain ⟨_, _, _, _, _, gd, eg⟩ := s.grand w (.inl hx')
        exact ⟨gd, by rw [o4 x (dis x hx'), gg x (.inl hx')]; exact eg⟩)
    have o : ∀ x, x ∉ ln.kids.drop (ln.count - m + 1) → x ∉ rn.kids → f5.get x = f3.get x := by
      intro x hx hx'
      rw [o5 x hx, o4 x hx']
    have ol : f5.get l = f3.get l := o l (fun hh => (s.grand w (.inl (List.mem_of_mem_drop hh))).2.2.1 rfl)
      (fun hh => (s.grand w (.inr hh)).2.2.1 rfl)
    have or : f5.get r = f3.get r := o r (fun hh => (s.grand w (.inl (List.mem_of_mem_drop hh))).2.2.2.1 rfl)
      (fun hh => (s.grand w (.inr hh)).2.2.2.1 rfl)
    have op : f5.get p = f3.get p := o p (fun hh => (s.grand w (.inl (List.mem_of_mem_drop hh))).2.1 rfl)
      (fun hh => (s.grand w (.inr hh)).2.1 rfl)
    refine ⟨f5, d', by rw [run, if_neg hleaf, r4]; exact r5, by omega, hd', ?_,
      by rw [ol, g, if_neg lner, if_pos rfl], by rw [or, g, if_pos rfl]⟩
    refine s.redist w (lv := ln.vals.take (ln.count - m)) (rv := ln.vals.drop (ln.count - (m - 1)) ++ d :: rn.vals)
      (lk := ln.kids.take (ln.count - m + 1)) (rk := ln.kids.drop (ln.count - m + 1) ++ rn.kids)
      (by rw [op, g, if_neg (Ne.symm rp), if_neg (Ne.symm lp), if_pos rfl])
      (by rw [ol, g, if_neg lner, if_pos rfl])
      (by rw [or, g, if_pos rfl]) hvl hkk ?_ ?_ (by simp; omega) (by simp; omega) ?_ ?_ ?_
    · intro _; simp only [List.length_take]; omega
    · intro _; simp only [List.length_append, List.length_drop, List.length_cons]; omega
    · intro i x gd hi ex
      have hmem := List.mem_of_getElem? hi
      have hmem' := List.mem_of_mem_take hmem
      have hnd : x ∉ ln.kids.drop (ln.count - m + 1) := by
        have := nl
        rw [← List.take_append_drop (ln.count - m + 1) ln.kids] at this
        exact fun hx => List.disjoint_of_nodup_append this hmem hx
      have hi' : ln.kids[i]? = some x := by
        rw [List.getElem?_take] at hi
        split at hi
        · exact hi
        · cases hi
      obtain ⟨_, _, _, gd', ex', a1, a2⟩ := w.kid _ _ _ _ s.el l0 hi'
      rw [ex] at ex'; cases ex'
      rw [o x hnd (dis x hmem'), gg x (.inl hmem'), ex, ← a1, ← a2]
    · intro i x gd hi ex
      by_cases hil : i < (ln.kids.drop (ln.count - m + 1)).length
      · rw [List.getElem?_append_left hil] at hi
        have hmem := List.mem_of_mem_drop (List.mem_of_getElem? hi)
        rw [i5 _ _ gd hi (by rw [o4 x (dis x hmem), gg x (.inl hmem)]; exact ex)]
        simp
      · rw [List.getElem?_append_right (by omega)] at hi
        have hmem := List.mem_of_getElem? hi
        rw [o5 x (fun hh => dis x (List.mem_of_mem_drop hh) hmem), i4 _ _ gd hi (by rw [gg x (.inr hmem)]; exact ex)]
        have : m + (i - (ln.kids.drop (ln.count - m + 1)).length) = i := by
          simp only [List.length_drop] at hil ⊢; omega
        rw [this]
    · intro n n1 n2 n3 n4 n5
      rw [o n (fun hh => n4 (List.mem_of_mem_drop hh)) n5, g, if_neg n3, if_neg n2, if_neg n1]

end Sib
end Gtl.Btree
