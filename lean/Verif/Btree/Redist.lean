import Verif.Btree.Inv
/-
The common form of rebalancing, splitting and merging: the neighbouring children
`ls` of node `p` are replaced by `ls'`, values and grandchildren are distributed
differently but stay in the same order.
-/
set_option linter.unusedSectionVars false
namespace Gtl.Btree
variable {α κ : Type}

/-- From `h` to `h'` the children `ls` of `p`, of height `k`, became `ls'`. -/
structure Redist (c : Cfg α κ) (h h' : Heap α) (k p : Nat) (pd pd' : Node α)
    (A ls ls' B : List Nat) (VA ms ms' VB : List α) : Prop where
  hp : h.get p = some pd
  hp' : h'.get p = some pd'
  pkids : pd.kids = A ++ ls ++ B
  pkids' : pd'.kids = A ++ ls' ++ B
  pvals : pd.vals = VA ++ ms ++ VB
  pvals' : pd'.vals = VA ++ ms' ++ VB
  lenA : A.length = VA.length
  lenB : B.length = VB.length
  len : ls.length = ms.length + 1
  len' : ls'.length = ms'.length + 1
  room : pd'.vals.length ≤ c.K
  ppar : pd'.parent = pd.parent
  ppos : pd'.position = pd.position
  pmax : pd'.maxCount = pd.maxCount
  fresh : ∀ x ∈ ls', x ∈ ls ∨ (h.get x = none ∧ x ≠ 0)
  dead : ∀ x ∈ ls, x ∉ ls' → h'.get x = none
  new : ∀ (j : Nat) x, ls'[j]? = some x → ∃ xd', h'.get x = some xd' ∧ xd'.parent = p ∧
    xd'.position = A.length + j ∧ Shape c k False xd' ∧
    ∀ (i : Nat) g gd, xd'.kids[i]? = some g → h.get g = some gd →
      h'.get g = some { gd with parent := x, position := i }
  tail : ∀ (j : Nat) b bd, B[j]? = some b → h.get b = some bd →
    h'.get b = some { bd with position := A.length + ls'.length + j }
  flatKids : ls.flatMap (kidsOf h) = ls'.flatMap (kidsOf h')
  flatVals : inter (ls.map (valsOf h)) ms = inter (ls'.map (valsOf h')) ms'
  other : ∀ n, n ≠ p → n ∉ ls → n ∉ ls' → n ∉ B → (∀ x ∈ ls, n ∉ kidsOf h x) → h'.get n = h.get n
  head : ls.head? = ls'.head?

section
variable {c : Cfg α κ} {h h' : Heap α} {root H : Nat} {ht : Nat → Nat} {k p : Nat} {pd pd' : Node α}
  {A ls ls' B : List Nat} {VA ms ms' VB : List α}

namespace Redist

/-- The heights afterwards. -/
def ht' (ls' : List Nat) (k : Nat) (ht : Nat → Nat) (n : Nat) : Nat := if n ∈ ls' then k else ht n

section basic
variable (w : WF c h root H ht) (r : Redist c h h' k p pd pd' A ls ls' B VA ms ms' VB) (p0 : p ≠ 0)
  (hk : ht p = k + 1)
include w r p0 hk

theorem mem_ls {x : Nat} (hx : x ∈ ls) :
    x ≠ 0 ∧ x ≠ root ∧ ht x = k ∧ x ≠ p ∧ ∃ xd, h.get x = some xd ∧ xd.parent = p := by
  obtain ⟨a, b, d, xd, ex, e1, _⟩ := w.kid_mem r.hp p0 (x := x) (by rw [r.pkids]; simp [hx])
  exact ⟨a, b, by omega, by rintro rfl; omega, xd, ex, e1⟩

theorem mem_A {x : Nat} (hx : x ∈ A) :
    x ≠ 0 ∧ x ≠ root ∧ ht x = k ∧ x ≠ p ∧ x ∉ ls ∧ x ∉ B ∧ ∃ xd, h.get x = some xd ∧ xd.parent = p := by
  obtain ⟨a, b, d, xd, ex, e1, _⟩ := w.kid_mem r.hp p0 (x := x) (by rw [r.pkids]; simp [hx])
  have hn := w.kids_nodup r.hp p0
  rw [r.pkids, List.append_assoc] at hn
  have hd := List.disjoint_of_nodup_append hn
  refine ⟨a, b, by omega, by rintro rfl; omega, fun hl => hd hx (by simp [hl]), fun hl => hd hx (by simp [hl]),
    xd, ex, e1⟩

theorem mem_B {x : Nat} (hx : x ∈ B) :
    x ≠ 0 ∧ x ≠ root ∧ ht x = k ∧ x ≠ p ∧ x ∉ ls ∧ x ∉ A ∧ ∃ xd, h.get x = some xd ∧ xd.parent = p := by
  obtain ⟨a, b, d, xd, ex, e1, _⟩ := w.kid_mem r.hp p0 (x := x) (by rw [r.pkids]; simp [hx])
  have hn := w.kids_nodup r.hp p0
  rw [r.pkids] at hn
  have hd := List.disjoint_of_nodup_append hn
  refine ⟨a, b, by omega, by rintro rfl; omega, fun hl => hd (by simp [hl]) hx, fun hl => hd (by simp [hl]) hx,
    xd, ex, e1⟩

theorem not_ls' {x : Nat} {xd : Node α} (hx : x ∉ ls) (e : h.get x = some xd) : x ∉ ls' := by
  intro hx'
  rcases r.fresh x hx' with hl | hl
  · exact hx hl
  · rw [hl.1] at e; cases e

/-- Grandchildren. -/
theorem mem_grand {x g : Nat} (hx : x ∈ ls) (hg : g ∈ kidsOf h x) :
    g ≠ 0 ∧ g ≠ root ∧ ht g + 1 = k ∧ g ≠ p ∧ g ∉ ls ∧ ∃ gd, h.get g = some gd ∧ gd.parent = x := by
  obtain ⟨x0, xr, hxk, xp, xd, ex, _⟩ := mem_ls w r p0 hk hx
  rw [kidsOf_eq ex] at hg
  obtain ⟨a, b, d, gd, eg, e1, _⟩ := w.kid_mem ex x0 hg
  refine ⟨a, b, by omega, by rintro rfl; omega, ?_, gd, eg, e1⟩
  intro hl
  have := (mem_ls w r p0 hk hl).2.2.1
  omega

/-- A grandchild afterwards. -/
theorem grand_new {x g : Nat} (hx : x ∈ ls) (hg : g ∈ kidsOf h x) :
    ∃ (j y i : Nat) (yd' gd : Node α), ls'[j]? = some y ∧ h'.get y = some yd' ∧ yd'.kids[i]? = some g ∧
      h.get g = some gd ∧ h'.get g = some { gd with parent := y, position := i } := by
  obtain ⟨_, _, _, _, _, gd, eg, _⟩ := mem_grand w r p0 hk hx hg
  have : g ∈ ls'.flatMap (kidsOf h') := by rw [← r.flatKids]; exact List.mem_flatMap.2 ⟨x, hx, hg⟩
  obtain ⟨y, hy, hg'⟩ := List.mem_flatMap.1 this
  obtain ⟨j, hj⟩ := List.getElem?_of_mem hy
  obtain ⟨yd', ey, _, _, _, hgs⟩ := r.new j y hj
  rw [kidsOf_eq ey] at hg'
  obtain ⟨i, hi⟩ := List.getElem?_of_mem hg'
  exact ⟨j, y, i, yd', gd, hj, ey, hi, eg, hgs i g gd hi eg⟩

/-- The grandchildren afterwards were grandchildren. -/
theorem grand_old {y g : Nat} (hy : y ∈ ls') (hg : g ∈ kidsOf h' y) : ∃ x ∈ ls, g ∈ kidsOf h x := by
  have : g ∈ ls.flatMap (kidsOf h) := by rw [r.flatKids]; exact List.mem_flatMap.2 ⟨y, hy, hg⟩
  exact List.mem_flatMap.1 this

/-- Nodes other than `p` and `ls` keep their contents. -/
theorem same {n : Nat} {nd : Node α} (e : h.get n = some nd) (hnp : n ≠ p) (hnl : n ∉ ls) :
    ∃ nd', h'.get n = some nd' ∧ nd'.vals = nd.vals ∧ nd'.kids = nd.kids ∧ nd'.maxCount = nd.maxCount := by
  have hnl' := not_ls' w r p0 hk hnl e
  by_cases hB : n ∈ B
  · obtain ⟨j, hj⟩ := List.getElem?_of_mem hB
    exact ⟨_, r.tail j n nd hj e, rfl, rfl, rfl⟩
  · by_cases hg : ∃ x ∈ ls, n ∈ kidsOf h x
    · obtain ⟨x, hx, hg⟩ := hg
      obtain ⟨_, _, _, _, gd, _, _, _, eg, eg'⟩ := grand_new w r p0 hk hx hg
      rw [eg] at e
      cases e
      exact ⟨_, eg', rfl, rfl, rfl⟩
    · refine ⟨nd, ?_, rfl, rfl, rfl⟩
      rw [r.other n hnp hnl hnl' hB (by intro x hx hg'; exact hg ⟨x, hx, hg'⟩), e]

theorem same_vals {n : Nat} {nd : Node α} (e : h.get n = some nd) (hnp : n ≠ p) (hnl : n ∉ ls) :
    valsOf h' n = valsOf h n ∧ kidsOf h' n = kidsOf h n := by
  obtain ⟨nd', e', h1, h2, _⟩ := same w r p0 hk e hnp hnl
  rw [valsOf_eq e', valsOf_eq e, kidsOf_eq e', kidsOf_eq e, h1, h2]
  exact ⟨rfl, rfl⟩

/-- The nodes afterwards. -/
theorem cases' {n : Nat} {nd' : Node α} (e : h'.get n = some nd') : n = p ∨ n ∈ ls' ∨
    (n ≠ p ∧ n ∉ ls ∧ n ∉ ls' ∧ ∃ nd, h.get n = some nd ∧ nd'.vals = nd.vals ∧ nd'.kids = nd.kids ∧
      nd'.maxCount = nd.maxCount) := by
  by_cases hp : n = p
  · exact .inl hp
  by_cases hl' : n ∈ ls'
  · exact .inr (.inl hl')
  by_cases hl : n ∈ ls
  · rw [r.dead n hl hl'] at e; cases e
  refine .inr (.inr ⟨hp, hl, hl', ?_⟩)
  cases en : h.get n with
  | none =>
    have := r.other n hp hl hl' (by
      intro hB
      obtain ⟨xd, ex, _⟩ := (mem_B w r p0 hk hB).2.2.2.2.2.2
      rw [ex] at en; cases en) (by
      intro x hx hg
      obtain ⟨gd, eg, _⟩ := (mem_grand w r p0 hk hx hg).2.2.2.2.2
      rw [eg] at en; cases en)
    rw [this, en] at e
    cases e
  | some nd =>
    obtain ⟨nd'', e', h1⟩ := same w r p0 hk en hp hl
    rw [e] at e'
    cases e'
    exact ⟨nd, rfl, h1⟩

/-- A node whose parent is neither `p` nor in `ls` does not change, nor does one of `A`. -/
theorem unchanged {n m : Nat} {nd md : Node α} {i : Nat} (e : h.get n = some nd) (hnp : n ≠ p) (hnl : n ∉ ls)
    (em : h.get m = some md) (m0 : m ≠ 0) (hkid : md.kids[i]? = some n) (hmp : m ≠ p ∨ n ∈ A) (hml : m ∉ ls) :
    h'.get n = some nd := by
  have hmem := List.mem_of_getElem? hkid
  rw [r.other n hnp hnl (not_ls' w r p0 hk hnl e), e]
  · intro hB
    rcases hmp with hmp | hA
    · exact hmp (w.kids_disj em m0 r.hp p0 hmem (by rw [r.pkids]; simp [hB]))
    · exact (mem_B w r p0 hk hB).2.2.2.2.2.1 hA
  · intro x hx hg
    obtain ⟨x0, _, _, _, xd, ex, _⟩ := mem_ls w r p0 hk hx
    rw [kidsOf_eq ex] at hg
    have := w.kids_disj em m0 ex x0 hmem hg
    subst this
    exact hml hx

theorem ht'_live {n : Nat} {nd : Node α} (e : h.get n = some nd) : ht' ls' k ht n = ht n := by
  unfold ht'
  by_cases hl : n ∈ ls'
  · rw [if_pos hl]
    rcases r.fresh n hl with hx | hx
    · exact (mem_ls w r p0 hk hx).2.2.1.symm
    · rw [hx.1] at e; cases e
  · rw [if_neg hl]

theorem ht'_ls' {n : Nat} (hn : n ∈ ls') : ht' ls' k ht n = k := by simp [ht', hn]

theorem ls'_ne {n : Nat} (hn : n ∈ ls') : n ≠ 0 ∧ n ≠ root ∧ n ≠ p := by
  rcases r.fresh n hn with hx | hx
  · have := mem_ls w r p0 hk hx
    exact ⟨this.1, this.2.1, this.2.2.2.1⟩
  · refine ⟨hx.2, ?_, ?_⟩
    · rintro rfl
      obtain ⟨nd, e⟩ := w.rootLive
      rw [hx.1] at e; cases e
    · rintro rfl
      have := r.hp
      rw [hx.1] at this; cases this

theorem wf : WF c h' root H (ht' ls' k ht) where
  zero := by
    rw [r.other 0 p0.symm (fun hl => (mem_ls w r p0 hk hl).1 rfl) (fun hl => (ls'_ne w r p0 hk hl).1 rfl)
      (fun hB => (mem_B w r p0 hk hB).1 rfl) (fun x hx hg => (mem_grand w r p0 hk hx hg).1 rfl), w.zero]
  root0 := w.root0
  rootLive := by
    by_cases hp : root = p
    · rw [hp]; exact ⟨_, r.hp'⟩
    · obtain ⟨nd, e⟩ := w.rootLive
      obtain ⟨nd', e', _⟩ := same w r p0 hk e hp (fun hl => (mem_ls w r p0 hk hl).2.1 rfl)
      exact ⟨nd', e'⟩
  rootHt := by
    obtain ⟨nd, e⟩ := w.rootLive
    rw [ht'_live w r p0 hk e, w.rootHt]
  bound := by
    intro n nd' e n0
    rcases cases' w r p0 hk e with rfl | hl | ⟨_, _, _, nd, en, _⟩
    · rw [ht'_live w r p0 hk r.hp]; exact w.bound _ _ r.hp n0
    · rw [ht'_ls' w r p0 hk hl]; have := w.bound _ _ r.hp p0; omega
    · rw [ht'_live w r p0 hk en]; exact w.bound _ _ en n0
  shape := by
    intro n nd' e n0
    rcases cases' w r p0 hk e with rfl | hl | ⟨_, _, _, nd, en, h1, h2, h3⟩
    · rw [ht'_live w r p0 hk r.hp, hk]
      rw [r.hp'] at e
      cases e
      rcases w.shape _ _ r.hp n0 with s | s
      · omega
      · refine .inr ⟨by omega, r.pmax.trans s.2.1, ?_, r.room⟩
        rw [r.pkids', r.pvals']
        have := r.lenA; have := r.lenB; have := r.len'
        simp only [List.length_append]; omega
    · rw [ht'_ls' w r p0 hk hl]
      obtain ⟨j, hj⟩ := List.getElem?_of_mem hl
      obtain ⟨xd', ex, _, _, hs, _⟩ := r.new j n hj
      rw [e] at ex
      cases ex
      rcases hs with s | s
      · exact .inl ⟨s.1, s.2.1, s.2.2.1, s.2.2.2.1, s.2.2.2.2.1, fun _ => s.2.2.2.2.2 (by simp)⟩
      · exact .inr s
    · rw [ht'_live w r p0 hk en]
      have := w.shape _ _ en n0
      unfold Shape at this ⊢
      rw [h1, h2, h3]
      exact this
  kid := by
    intro n nd' i x e n0 hx
    rcases cases' w r p0 hk e with rfl | hl | ⟨hnp, hnl, hnl', nd, en, h1, h2, h3⟩
    · rw [r.hp'] at e
      cases e
      rw [ht'_live w r p0 hk r.hp, hk]
      rw [r.pkids'] at hx
      by_cases hA : i < A.length
      · rw [List.append_assoc, List.getElem?_append_left hA] at hx
        have hm := List.mem_of_getElem? hx
        obtain ⟨x0, xr, hxk, xp, xl, xB, xd, ex, epar⟩ := mem_A w r p0 hk hm
        have hki : pd.kids[i]? = some x := by rw [r.pkids, List.append_assoc, List.getElem?_append_left hA, hx]
        obtain ⟨_, _, _, xd1, ex1, _, epos⟩ := w.kid _ _ _ _ r.hp n0 hki
        rw [ex] at ex1; cases ex1
        refine ⟨x0, xr, by rw [ht'_live w r p0 hk ex, hxk], xd, ?_, epar, epos⟩
        exact unchanged w r p0 hk ex xp xl r.hp n0 hki (.inr hm)
          (fun hl => (mem_ls w r p0 hk hl).2.2.2.1 rfl)
      · by_cases hl : i < A.length + ls'.length
        · rw [List.append_assoc, List.getElem?_append_right (by omega), List.getElem?_append_left (by omega)] at hx
          obtain ⟨xd', ex, epar, epos, _, _⟩ := r.new _ x hx
          have hm := List.mem_of_getElem? hx
          obtain ⟨x0, xr, _⟩ := ls'_ne w r p0 hk hm
          exact ⟨x0, xr, by rw [ht'_ls' w r p0 hk hm], xd', ex, epar, by rw [epos]; omega⟩
        · rw [List.getElem?_append_right (by simp; omega), List.length_append] at hx
          have hm := List.mem_of_getElem? hx
          obtain ⟨x0, xr, hxk, xp, xl, xB, xd, ex, epar⟩ := mem_B w r p0 hk hm
          refine ⟨x0, xr, by rw [ht'_live w r p0 hk ex, hxk], _, r.tail _ x xd hx ex, epar, ?_⟩
          simp only; omega
    · obtain ⟨j, hj⟩ := List.getElem?_of_mem hl
      obtain ⟨xd', ex, _, _, _, hg⟩ := r.new j n hj
      rw [e] at ex
      cases ex
      have hm := List.mem_of_getElem? hx
      obtain ⟨y, hy, hyg⟩ := grand_old w r p0 hk hl (by rw [kidsOf_eq e]; exact hm)
      obtain ⟨x0, xr, hxk, _, _, gd, eg, _⟩ := mem_grand w r p0 hk hy hyg
      exact ⟨x0, xr, by rw [ht'_ls' w r p0 hk hl, ht'_live w r p0 hk eg, hxk], _, hg i x gd hx eg, rfl, rfl⟩
    · rw [h2] at hx
      obtain ⟨x0, xr, hh, xd, ex, epar, epos⟩ := w.kid _ _ _ _ en n0 hx
      refine ⟨x0, xr, by rw [ht'_live w r p0 hk en, ht'_live w r p0 hk ex, hh], ?_⟩
      by_cases hxp : x = p
      · subst hxp
        rw [r.hp] at ex
        cases ex
        exact ⟨pd', r.hp', by rw [r.ppar, epar], by rw [r.ppos, epos]⟩
      · refine ⟨xd, unchanged w r p0 hk ex hxp ?_ en n0 hx (.inl hnp) hnl, epar, epos⟩
        intro hl
        obtain ⟨_, _, _, _, xd2, ex2, epar2⟩ := mem_ls w r p0 hk hl
        rw [ex] at ex2; cases ex2
        exact hnp (epar.symm.trans epar2)
  par := by
    intro n nd' e n0 nr
    rcases cases' w r p0 hk e with rfl | hl | ⟨hnp, hnl, hnl', nd, en, h1, h2, h3⟩
    · rw [r.hp'] at e
      cases e
      obtain ⟨q0, qd, eq, hq⟩ := w.par _ _ r.hp n0 nr
      have hqh := w.par_ht r.hp n0 nr
      have hqp : pd.parent ≠ n := by intro hh; rw [hh] at hqh; omega
      obtain ⟨qd', eq', _, h2, _⟩ := same w r p0 hk eq hqp (fun hl => by
        have := (mem_ls w r p0 hk hl).2.2.1; omega)
      rw [r.ppar, r.ppos]
      exact ⟨q0, qd', eq', by rw [h2]; exact hq⟩
    · obtain ⟨j, hj⟩ := List.getElem?_of_mem hl
      obtain ⟨xd', ex, epar, epos, _, _⟩ := r.new j n hj
      rw [e] at ex
      cases ex
      rw [epar, epos]
      refine ⟨p0, pd', r.hp', ?_⟩
      have hjl : j < ls'.length := (List.getElem?_eq_some_iff.1 hj).1
      rw [r.pkids', List.append_assoc, List.getElem?_append_right (by omega),
        List.getElem?_append_left (by omega)]
      rw [show A.length + j - A.length = j by omega, hj]
    · obtain ⟨q0, qd, eq, hq⟩ := w.par _ _ en n0 nr
      by_cases hqp : nd.parent = p
      · -- a child of `p` outside of `ls`
        rw [hqp, r.hp] at eq
        cases eq
        rw [r.pkids] at hq
        by_cases hA : nd.position < A.length
        · rw [List.append_assoc, List.getElem?_append_left hA] at hq
          have hm := List.mem_of_getElem? hq
          have hki : pd.kids[nd.position]? = some n := by
            rw [r.pkids, List.append_assoc, List.getElem?_append_left hA, hq]
          have := unchanged w r p0 hk en hnp hnl r.hp p0 hki (.inr hm)
            (fun hl => (mem_ls w r p0 hk hl).2.2.2.1 rfl)
          rw [e] at this
          cases this
          rw [hqp]
          exact ⟨p0, pd', r.hp', by rw [r.pkids', List.append_assoc, List.getElem?_append_left hA, hq]⟩
        · by_cases hl : nd.position < A.length + ls.length
          · rw [List.append_assoc, List.getElem?_append_right (by omega),
              List.getElem?_append_left (by omega)] at hq
            exact absurd (List.mem_of_getElem? hq) hnl
          · rw [List.getElem?_append_right (by simp; omega), List.length_append] at hq
            have := r.tail _ n nd hq en
            rw [e] at this
            cases this
            simp only
            rw [hqp]
            refine ⟨p0, pd', r.hp', ?_⟩
            rw [r.pkids', List.getElem?_append_right (by simp), List.length_append]
            rw [show A.length + ls'.length + (nd.position - (A.length + ls.length)) - (A.length + ls'.length) =
              nd.position - (A.length + ls.length) by omega]
            exact hq
      · by_cases hql : nd.parent ∈ ls
        · obtain ⟨j, y, i, yd', gd, hj, ey, hi, eg, eg'⟩ := grand_new w r p0 hk hql (g := n) (by
            rw [kidsOf_eq eq]; exact List.mem_of_getElem? hq)
          rw [e] at eg'
          cases eg'
          exact ⟨(ls'_ne w r p0 hk (List.mem_of_getElem? hj)).1, yd', ey, hi⟩
        · have := unchanged w r p0 hk en hnp hnl eq q0 hq (.inl hqp) hql
          rw [e] at this
          cases this
          obtain ⟨qd', eq', _, h2, _⟩ := same w r p0 hk eq hqp hql
          exact ⟨q0, qd', eq', by rw [h2]; exact hq⟩

end basic
end Redist
end
end Gtl.Btree
