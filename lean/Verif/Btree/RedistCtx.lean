import Verif.Btree.RedistSeq
/-
Rebalancing, splitting and merging keep the place of every node that is not one
of the nodes merged or split.
-/
set_option linter.unusedSectionVars false
namespace Gtl.Btree
variable {α κ : Type}

/-- What is before a grandchild, by its index among all grandchildren. -/
theorem front_flat {γ δ : Type} (f : γ → List δ) (g : γ → List α) (E : δ → List α) (l1 l2 : List γ) (x : γ)
    (m1 m2 : List α) (g1 g2 : List δ) (y : δ) (h1 : l1.length = m1.length) (h2 : l2.length = m2.length)
    (hf : ∀ x ∈ l1, (f x).length = (g x).length + 1) (hx : (f x).length = (g x).length + 1)
    (hs : f x = g1 ++ y :: g2) :
    zF (l1.map fun x => inter ((f x).map E) (g x)) m1 ++ zF (g1.map E) ((g x).take g1.length) =
      zF ((((l1 ++ x :: l2).flatMap f).take (l1.flatMap f ++ g1).length).map E)
        ((inter ((l1 ++ x :: l2).map g) (m1 ++ m2)).take (l1.flatMap f ++ g1).length) := by
  have hg : g1.length ≤ (g x).length := by rw [hs] at hx; simp at hx; omega
  rw [zF_expand (fun x => (f x).map E) g l1 m1 _ _ h1 (by simpa using hf) (by simp [hg])]
  have e1 : ((l1 ++ x :: l2).flatMap f).take (l1.flatMap f ++ g1).length = l1.flatMap f ++ g1 := by
    rw [List.flatMap_append, List.flatMap_cons, hs,
      show l1.flatMap f ++ ((g1 ++ y :: g2) ++ l2.flatMap f) = (l1.flatMap f ++ g1) ++ (y :: g2 ++ l2.flatMap f) by
        simp only [List.append_assoc, List.cons_append]]
    exact List.take_left' rfl
  have e2 : (inter ((l1 ++ x :: l2).map g) (m1 ++ m2)).take (l1.flatMap f ++ g1).length =
      zF (l1.map g) m1 ++ (g x).take g1.length := by
    rw [List.map_append, inter_zF _ _ _ _ (by simpa using h1), List.map_cons, inter_eq_zB _ _ _ (by simpa using h2),
      List.length_append, ← zF_length_expand f g l1 m1 h1 hf, List.take_length_add_append,
      List.take_append_of_le_length hg]
  rw [e1, e2, List.map_append, List.map_flatMap]

theorem split_unique {δ : Type} {y : δ} : ∀ {P P' S S' : List δ}, (P ++ y :: S).Nodup →
    P ++ y :: S = P' ++ y :: S' → P = P'
  | [], [], _, _, _, _ => rfl
  | [], a :: P', S, S', hn, he => by
    simp only [List.nil_append, List.cons_append, List.cons.injEq] at he
    obtain ⟨rfl, rfl⟩ := he
    simp at hn
  | a :: P, [], S, S', hn, he => by
    simp only [List.nil_append, List.cons_append, List.cons.injEq] at he
    obtain ⟨rfl, rfl⟩ := he
    simp at hn
  | a :: P, b :: P', S, S', hn, he => by
    simp only [List.cons_append, List.cons.injEq] at he
    obtain ⟨rfl, he⟩ := he
    rw [List.cons_append, List.nodup_cons] at hn
    rw [split_unique hn.2 he]

namespace Redist
variable {c : Cfg α κ} {h h' : Heap α} {root H : Nat} {ht : Nat → Nat} {k p : Nat} {pd pd' : Node α}
  {A ls ls' B : List Nat} {VA ms ms' VB : List α}
variable (w : WF c h root H ht) (r : Redist c h h' k p pd pd' A ls ls' B VA ms ms' VB) (p0 : p ≠ 0)
  (hk : ht p = k + 1)
include w r p0 hk

theorem ls_nodup : ls.Nodup := by
  have hn := w.kids_nodup r.hp p0
  rw [r.pkids, List.append_assoc] at hn
  exact (List.nodup_append.1 (List.nodup_append.1 hn).2.1).1

theorem grand_nodup : (ls.flatMap (kidsOf h)).Nodup := by
  rw [List.nodup_flatMap]
  constructor
  · intro x hx
    obtain ⟨x0, _, _, _, xd, ex, _⟩ := mem_ls w r p0 hk hx
    rw [kidsOf_eq ex]
    exact w.kids_nodup ex x0
  · refine (ls_nodup w r p0 hk).imp_of_mem ?_
    intro a b ha hb hab g hga hgb
    obtain ⟨a0, _, _, _, ad, ea, _⟩ := mem_ls w r p0 hk ha
    obtain ⟨b0, _, _, _, bd, eb, _⟩ := mem_ls w r p0 hk hb
    rw [kidsOf_eq ea] at hga
    rw [kidsOf_eq eb] at hgb
    exact hab (w.kids_disj ea a0 eb b0 hga hgb)

/-- The front of a child of `p` in the unchanged first part. -/
theorem ctx_A {AA BB X Y : List α} {i n : Nat} (x' : Ctx h' root H (k + 1) p AA BB) (hi : A[i]? = some n)
    (hx : Ctx h root H (k + 1) p AA BB) (hn : Ctx h root H k n X Y) : Ctx h' root H k n X Y := by
  have hiA : i < A.length := (List.getElem?_eq_some_iff.1 hi).1
  have hnA : n ∈ A := List.mem_of_getElem? hi
  have hkid : pd.kids[i]? = some n := by
    rw [r.pkids, List.append_assoc, List.getElem?_append_left hiA, hi]
  have hkid' : pd'.kids[i]? = some n := by
    rw [r.pkids', List.append_assoc, List.getElem?_append_left hiA, hi]
  have y := Ctx.kid hx r.hp hkid
  have y' := Ctx.kid x' r.hp' hkid'
  obtain ⟨e1, e2⟩ := hn.det w y
  have hA : pd'.kids.take i = pd.kids.take i := by
    rw [r.pkids, r.pkids', List.append_assoc, List.append_assoc, List.take_append_of_le_length (by omega),
      List.take_append_of_le_length (by omega)]
  have hVA : pd'.vals.take i = pd.vals.take i := by
    have := r.lenA
    rw [r.pvals, r.pvals', List.append_assoc, List.append_assoc, List.take_append_of_le_length (by omega),
      List.take_append_of_le_length (by omega)]
  have hE : (pd.kids.take i).map (elems h' k) = (pd.kids.take i).map (elems h k) := by
    apply List.map_congr_left
    intro z hz
    rw [r.pkids, List.append_assoc, List.take_append_of_le_length (by omega)] at hz
    obtain ⟨z0, _, hzk, _, zl, _, zd, ez, _⟩ := mem_A w r p0 hk (List.mem_of_mem_take hz)
    exact elems_same w r p0 hk k ez z0 hzk zl
  rw [hA, hVA, hE, ← e1] at y'
  have t := hn.total w
  have t' := y'.total (wf w r p0 hk)
  obtain ⟨z0, _, hzk, _, zl, _, zd, ez, _⟩ := mem_A w r p0 hk hnA
  rw [total_same w r p0 hk, elems_same w r p0 hk k ez z0 hzk zl, t] at t'
  have := List.append_cancel_left (List.append_cancel_left t')
  rw [← this] at y'
  exact y'

/-- The back of a child of `p` in the unchanged last part. -/
theorem ctx_B {AA BB X Y : List α} {i n : Nat} (x' : Ctx h' root H (k + 1) p AA BB) (hi : B[i]? = some n)
    (hx : Ctx h root H (k + 1) p AA BB) (hn : Ctx h root H k n X Y) : Ctx h' root H k n X Y := by
  have hiB : i < B.length := (List.getElem?_eq_some_iff.1 hi).1
  have hnB : n ∈ B := List.mem_of_getElem? hi
  have hlen := r.len
  have hlen' := r.len'
  have hlA := r.lenA
  have hkid : pd.kids[(A ++ ls).length + i]? = some n := by
    rw [r.pkids, List.getElem?_append_right (by omega), Nat.add_sub_cancel_left, hi]
  have hkid' : pd'.kids[(A ++ ls').length + i]? = some n := by
    rw [r.pkids', List.getElem?_append_right (by omega), Nat.add_sub_cancel_left, hi]
  have y := Ctx.kid hx r.hp hkid
  have y' := Ctx.kid x' r.hp' hkid'
  obtain ⟨e1, e2⟩ := hn.det w y
  have hB : pd.kids.drop ((A ++ ls).length + i + 1) = B.drop (i + 1) := by
    rw [r.pkids, Nat.add_assoc, List.drop_length_add_append]
  have hB' : pd'.kids.drop ((A ++ ls').length + i + 1) = B.drop (i + 1) := by
    rw [r.pkids', Nat.add_assoc, List.drop_length_add_append]
  have hVB : pd.vals.drop ((A ++ ls).length + i) = VB.drop (i + 1) := by
    have : (A ++ ls).length + i = (VA ++ ms).length + (i + 1) := by simp; omega
    rw [r.pvals, this, List.drop_length_add_append]
  have hVB' : pd'.vals.drop ((A ++ ls').length + i) = VB.drop (i + 1) := by
    have : (A ++ ls').length + i = (VA ++ ms').length + (i + 1) := by simp; omega
    rw [r.pvals', this, List.drop_length_add_append]
  have hE : (B.drop (i + 1)).map (elems h' k) = (B.drop (i + 1)).map (elems h k) := by
    apply List.map_congr_left
    intro z hz
    obtain ⟨z0, _, hzk, _, zl, _, zd, ez, _⟩ := mem_B w r p0 hk (List.mem_of_mem_drop hz)
    exact elems_same w r p0 hk k ez z0 hzk zl
  rw [hB, hVB] at e2
  rw [hB', hVB', hE, ← e2] at y'
  have t := hn.total w
  have t' := y'.total (wf w r p0 hk)
  obtain ⟨z0, _, hzk, _, zl, _, zd, ez, _⟩ := mem_B w r p0 hk hnB
  rw [total_same w r p0 hk, elems_same w r p0 hk k ez z0 hzk zl, t, ← List.append_assoc, ← List.append_assoc,
    List.append_cancel_right_eq, List.append_cancel_right_eq] at t'
  rw [← t'] at y'
  exact y'

/-- Grandchildren keep their place. -/
theorem ctx_grand {AA BB X Y : List α} {j g x : Nat} (hkj : k = j + 1) (x' : Ctx h' root H (k + 1) p AA BB)
    (hx : Ctx h root H (k + 1) p AA BB) (hxl : x ∈ ls) (hg : g ∈ kidsOf h x) (hn : Ctx h root H j g X Y) :
    Ctx h' root H j g X Y := by
  subst hkj
  have hlen := r.len
  have hlen' := r.len'
  -- before
  obtain ⟨l1, l2, hls⟩ := List.append_of_mem hxl
  obtain ⟨x0, xr, hxk, xp, xd, ex, _⟩ := mem_ls w r p0 hk hxl
  obtain ⟨g1, g2, hgs⟩ := List.append_of_mem hg
  obtain ⟨m1, m2, hms, hm1⟩ : ∃ m1 m2, ms = m1 ++ m2 ∧ l1.length = m1.length :=
    ⟨ms.take l1.length, ms.drop l1.length, (List.take_append_drop _ _).symm, by
      have : ls.length = l1.length + (l2.length + 1) := by rw [hls]; simp
      simp; omega⟩
  have hm2 : l2.length = m2.length := by
    have h1 : ls.length = l1.length + (l2.length + 1) := by rw [hls]; simp
    have h2 : ms.length = m1.length + m2.length := by rw [hms]; simp
    omega
  have y0 := Ctx.kid (i := (A ++ l1).length) (x := x) hx r.hp (by rw [r.pkids, hls]; simp)
  have y := Ctx.kid (i := g1.length) (x := g) y0 ex (by rw [← kidsOf_eq ex, hgs]; simp)
  obtain ⟨e1, e2⟩ := hn.det w y
  have eF : (pd.kids.take (A ++ l1).length).map (elems h (j + 1)) =
      A.map (elems h (j + 1)) ++ l1.map (elems h (j + 1)) := by
    rw [r.pkids, hls]
    rw [show A ++ (l1 ++ x :: l2) ++ B = (A ++ l1) ++ (x :: l2 ++ B) by simp, List.take_left' rfl, List.map_append]
  have eV : pd.vals.take (A ++ l1).length = VA ++ m1 := by
    rw [r.pvals, hms, show VA ++ (m1 ++ m2) ++ VB = (VA ++ m1) ++ (m2 ++ VB) by simp]
    exact List.take_left' (by simp [r.lenA, hm1])
  have key := front_flat (kidsOf h) (valsOf h) (elems h j) l1 l2 x m1 m2 g1 g2 g hm1 hm2
    (fun z hz => kidsOf_len w r p0 hk (by rw [hls]; simp [hz]) (by omega))
    (kidsOf_len w r p0 hk hxl (by omega)) hgs
  rw [← hls, ← hms] at key
  have eX : X = AA ++ (zF (A.map (elems h (j + 1))) VA ++
      zF (((ls.flatMap (kidsOf h)).take (l1.flatMap (kidsOf h) ++ g1).length).map (elems h j))
        ((inter (ls.map (valsOf h)) ms).take (l1.flatMap (kidsOf h) ++ g1).length)) := by
    rw [e1, eF, eV, zF_append _ _ _ _ (by simp [r.lenA]), ← key, ← kidsOf_eq ex, ← valsOf_eq ex, hgs,
      List.take_left' rfl]
    simp only [List.append_assoc]
    rfl
  -- after
  have hg' : g ∈ ls'.flatMap (kidsOf h') := by
    rw [← r.flatKids]; exact List.mem_flatMap.2 ⟨x, hxl, hg⟩
  obtain ⟨z, hzl, hgz⟩ := List.mem_flatMap.1 hg'
  obtain ⟨n1, n2, hls'⟩ := List.append_of_mem hzl
  obtain ⟨jz, hjz⟩ := List.getElem?_of_mem hzl
  obtain ⟨zd, ez, _⟩ := r.new jz z hjz
  obtain ⟨q1, q2, hqs⟩ := List.append_of_mem hgz
  obtain ⟨m1', m2', hms', hm1'⟩ : ∃ m1 m2, ms' = m1 ++ m2 ∧ n1.length = m1.length :=
    ⟨ms'.take n1.length, ms'.drop n1.length, (List.take_append_drop _ _).symm, by
      have : ls'.length = n1.length + (n2.length + 1) := by rw [hls']; simp
      simp; omega⟩
  have hm2' : n2.length = m2'.length := by
    have h1 : ls'.length = n1.length + (n2.length + 1) := by rw [hls']; simp
    have h2 : ms'.length = m1'.length + m2'.length := by rw [hms']; simp
    omega
  have y0' := Ctx.kid (i := (A ++ n1).length) (x := z) x' r.hp' (by rw [r.pkids', hls']; simp)
  have y' := Ctx.kid (i := q1.length) (x := g) y0' ez (by rw [← kidsOf_eq ez, hqs]; simp)
  have eF' : (pd'.kids.take (A ++ n1).length).map (elems h' (j + 1)) =
      A.map (elems h' (j + 1)) ++ n1.map (elems h' (j + 1)) := by
    rw [r.pkids', hls']
    rw [show A ++ (n1 ++ z :: n2) ++ B = (A ++ n1) ++ (z :: n2 ++ B) by simp, List.take_left' rfl, List.map_append]
  have eV' : pd'.vals.take (A ++ n1).length = VA ++ m1' := by
    rw [r.pvals', hms', show VA ++ (m1' ++ m2') ++ VB = (VA ++ m1') ++ (m2' ++ VB) by simp]
    exact List.take_left' (by simp [r.lenA, hm1'])
  have key' := front_flat (kidsOf h') (valsOf h') (elems h' j) n1 n2 z m1' m2' q1 q2 g hm1' hm2'
    (fun z hz => kidsOf_len' w r p0 hk (by rw [hls']; simp [hz]) (by omega))
    (kidsOf_len' w r p0 hk hzl (by omega)) hqs
  rw [← hls', ← hms'] at key'
  -- the same index
  have hidx : l1.flatMap (kidsOf h) ++ g1 = n1.flatMap (kidsOf h') ++ q1 := by
    have f1 : ls.flatMap (kidsOf h) = (l1.flatMap (kidsOf h) ++ g1) ++ g :: (g2 ++ l2.flatMap (kidsOf h)) := by
      rw [hls, List.flatMap_append, List.flatMap_cons, hgs]; simp
    have f2 : ls'.flatMap (kidsOf h') = (n1.flatMap (kidsOf h') ++ q1) ++ g :: (q2 ++ n2.flatMap (kidsOf h')) := by
      rw [hls', List.flatMap_append, List.flatMap_cons, hqs]; simp
    have hnd := grand_nodup w r p0 hk
    rw [f1] at hnd
    exact split_unique hnd (f1.symm.trans (r.flatKids.trans f2))
  have eA : A.map (elems h' (j + 1)) = A.map (elems h (j + 1)) := by
    apply List.map_congr_left
    intro z hz
    obtain ⟨z0, _, hzk, _, zl, _, zd, ez, _⟩ := mem_A w r p0 hk hz
    exact elems_same w r p0 hk _ ez z0 hzk zl
  have eE : ((ls.flatMap (kidsOf h)).take (l1.flatMap (kidsOf h) ++ g1).length).map (elems h' j) =
      ((ls.flatMap (kidsOf h)).take (l1.flatMap (kidsOf h) ++ g1).length).map (elems h j) := by
    apply List.map_congr_left
    intro z hz
    obtain ⟨y, hy, hz⟩ := List.mem_flatMap.1 (List.mem_of_mem_take hz)
    obtain ⟨z0, _, hzk, _, zl, zd, ez, _⟩ := mem_grand w r p0 hk hy hz
    exact elems_same w r p0 hk _ ez z0 (by omega) zl
  have eX' : X = AA ++ zF ((pd'.kids.take (A ++ n1).length).map (elems h' (j + 1))) (pd'.vals.take (A ++ n1).length)
      ++ zF ((zd.kids.take q1.length).map (elems h' j)) (zd.vals.take q1.length) := by
    rw [eX, eF', eV', zF_append _ _ _ _ (by simp [r.lenA]), eA, r.flatVals, ← eE, r.flatKids, hidx, ← key',
      ← kidsOf_eq ez, ← valsOf_eq ez, hqs, List.take_left' rfl]
    simp only [List.append_assoc]
    rfl
  rw [← eX'] at y'
  have t := hn.total w
  have t' := y'.total (wf w r p0 hk)
  obtain ⟨z0, _, hzk, _, zl, gd, eg, _⟩ := mem_grand w r p0 hk hxl hg
  rw [total_same w r p0 hk, elems_same w r p0 hk j eg z0 (by omega) zl, t] at t'
  have := List.append_cancel_left (List.append_cancel_left t')
  rw [← this] at y'
  exact y'

/-- Every node outside `ls` keeps its place. -/
theorem ctx_same : ∀ (d : Nat) {j n : Nat} {X Y : List α}, j + d = H → Ctx h root H j n X Y → n ∉ ls →
    Ctx h' root H j n X Y := by
  intro d
  induction d using Nat.strongRecOn with
  | _ d ih =>
    intro j n X Y hd hx hl
    cases hx with
    | root => exact .root
    | @kid _ q qd i _ AA BB hq eq hi =>
      obtain ⟨_, eq', q0, hqk⟩ := hq.live w
      have hn := Ctx.kid hq eq hi
      by_cases hqp : q = p
      · subst hqp
        have : j = k := by omega
        subst this
        have hq' := ih (d - 1) (by have := w.bound _ _ eq q0; omega) (by have := w.bound _ _ eq q0; omega) hq
          (fun hm => (mem_ls w r p0 hk hm).2.2.2.1 rfl)
        rw [r.hp] at eq; cases eq
        have hmem := List.mem_of_getElem? hi
        rw [r.pkids] at hmem
        simp only [List.mem_append] at hmem
        rcases hmem with (hA | hl') | hB
        · obtain ⟨ia, hia⟩ := List.getElem?_of_mem hA
          exact ctx_A w r p0 hk hq' hia hq hn
        · exact absurd hl' hl
        · obtain ⟨ia, hia⟩ := List.getElem?_of_mem hB
          exact ctx_B w r p0 hk hq' hia hq hn
      · by_cases hql : q ∈ ls
        · obtain ⟨_, _, hqk', _, qd', eq', epar⟩ := mem_ls w r p0 hk hql
          rw [eq] at eq'; cases eq'
          cases hq with
          | root => exact absurd rfl (mem_ls w r p0 hk hql).2.1
          | @kid _ p' pd2 i2 _ AA BB hp2 ep2 hi2 =>
            obtain ⟨_, _, p20, hpk⟩ := hp2.live w
            have : p' = p := by
              obtain ⟨_, _, _, xd, ex, e1, _⟩ := w.kid _ _ _ _ ep2 p20 hi2
              rw [eq] at ex; cases ex
              rw [← e1, epar]
            subst this
            have hkj : k = j + 1 := by omega
            subst hkj
            have hb := w.bound _ _ ep2 p20
            have hp' := ih (d - 2) (by omega) (by omega) hp2
              (fun hm => (mem_ls w r p0 hk hm).2.2.2.1 rfl)
            exact ctx_grand w r p0 hk rfl hp' hp2 hql (by rw [kidsOf_eq eq]; exact List.mem_of_getElem? hi) hn
        · have hb := w.bound _ _ eq q0
          have hq' := ih (d - 1) (by omega) (by omega) hq hql
          obtain ⟨qd', eq', ev, ek, _⟩ := same w r p0 hk eq hqp hql
          have hi' : qd'.kids[i]? = some n := by rw [ek]; exact hi
          have y := Ctx.kid hq' eq' hi'
          have hE : ∀ l : List Nat, (∀ z ∈ l, z ∈ qd.kids) → l.map (elems h' j) = l.map (elems h j) := by
            intro l hl
            apply List.map_congr_left
            intro z hz
            obtain ⟨z0, _, hzk, zd, ez, epar, _⟩ := w.kid_mem eq q0 (hl z hz)
            refine elems_same w r p0 hk j ez z0 (by omega) ?_
            intro hzl
            obtain ⟨_, _, _, _, xd2, ex2, epar2⟩ := mem_ls w r p0 hk hzl
            rw [ez] at ex2; cases ex2
            exact hqp (epar.symm.trans epar2)
          rw [ev, ek, hE _ (fun z hz => List.mem_of_mem_take hz), hE _ (fun z hz => List.mem_of_mem_drop hz)] at y
          exact y

theorem ctx_same' {j n : Nat} {X Y : List α} (hx : Ctx h root H j n X Y) (hl : n ∉ ls) :
    Ctx h' root H j n X Y := by
  obtain ⟨_, e, n0, hj⟩ := hx.live w
  have := w.bound _ _ e n0
  exact ctx_same w r p0 hk (H - j) (by omega) hx hl

end Redist
end Gtl.Btree
