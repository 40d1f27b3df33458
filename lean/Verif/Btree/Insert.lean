import Verif.Btree.Grow
/-
Insertion of a value at a place of the tree.
-/
set_option linter.unusedSectionVars false
namespace Gtl.Btree
variable {α κ : Type}
variable {c : Cfg α κ} {t t' t'' : Tree α} {H H' H'' : Nat} {ht ht' ht'' : Nat → Nat} {L : List α} {E E' : Nat → Prop} {z : Prop}

/-- Nodes with the same values and children have the same sequences below them. -/
theorem elems_agree {h h' : Heap α} {root : Nat} (w : WF c h root H ht)
    (same : ∀ y yd, h.get y = some yd → y ≠ 0 → valsOf h' y = yd.vals ∧ kidsOf h' y = yd.kids) :
    ∀ (j : Nat) {y : Nat} {yd : Node α}, h.get y = some yd → y ≠ 0 → ht y = j →
      elems h' j y = elems h j y ∧ lm h' j y = lm h j y ∧ rm h' j y = rm h j y := by
  intro j
  induction j with
  | zero =>
    intro y yd e y0 hy
    obtain ⟨h1, h2⟩ := same y yd e y0
    exact ⟨by simp only [elems, valsOf_eq e, h1], rfl, rfl⟩
  | succ j ih =>
    intro y yd e y0 hy
    obtain ⟨h1, h2⟩ := same y yd e y0
    have kid : ∀ z ∈ yd.kids, elems h' j z = elems h j z ∧ lm h' j z = lm h j z ∧ rm h' j z = rm h j z := by
      intro z hz
      obtain ⟨z0, _, hzt, zd, ez, _⟩ := w.kid_mem e y0 hz
      exact ih ez z0 (by omega)
    refine ⟨?_, ?_, ?_⟩
    · simp only [elems, valsOf_eq e, kidsOf_eq e, h1, h2]
      congr 1
      exact List.map_congr_left fun z hz => (kid z hz).1
    · simp only [lm, kidsOf_eq e, h2]
      cases hd : yd.kids.head? with
      | none => rfl
      | some z => exact (kid z (List.mem_of_head? hd)).2.1
    · simp only [rm, kidsOf_eq e, h2]
      cases hd : yd.kids.getLast? with
      | none => rfl
      | some z => exact (kid z (List.mem_of_getLast? hd)).2.2

/-- The new root. -/
theorem growRoot_ok {rn : Node α} (g : Good c t (Loose z ht) H ht L) (er : t.heap.get t.root = some rn)
    (hcap : rn.cap c = c.K) :
    ∃ t' ht' pd, growRoot t = some t' ∧ Good c t' (fun m => Loose z ht' m ∨ m = t'.root) (H + 1) ht' L ∧ t'.size = t.size ∧
      Below t t' H (H + 1) ht ht' (H + 1) ∧ t'.heap.get t'.root = some pd ∧ pd.kids = [t.root] ∧ pd.vals = [] := by
  have hrl := Heap.get_lt er
  set P := t.heap.length with hP
  have hPr : t.root ≠ P := by omega
  set h1 : Heap α := t.heap.alloc ⟨rn.parent, 0, 0, [], [t.root]⟩ with hh1
  have g1 : ∀ j, h1.get j = if j = P then some ⟨rn.parent, 0, 0, [], [t.root]⟩ else t.heap.get j :=
    Heap.get_alloc _
  set h2 : Heap α := h1.set t.root { rn with parent := P, position := 0 } with hh2
  have g2 : ∀ j, h2.get j = if j = t.root then some { rn with parent := P, position := 0 } else h1.get j :=
    Heap.get_set _ (by rw [g1, if_neg hPr, er])
  have run : growRoot t = some { t with heap := h2, root := P } := by
    unfold growRoot
    simp only [er, Option.bind_eq_bind, Option.bind_some, initChildren]
    have : h1.upd t.root (fun n => { n with parent := P, position := 0 }) = some h2 :=
      Heap.upd_some _ (by rw [g1, if_neg hPr, er])
    rw [this]
    rfl
  have w := g.wf
  have r0 := w.root0
  have P0 : P ≠ 0 := by omega
  have gP : h2.get P = some ⟨rn.parent, 0, 0, [], [t.root]⟩ := by rw [g2, if_neg (Ne.symm hPr), g1, if_pos rfl]
  have gR : h2.get t.root = some { rn with parent := P, position := 0 } := by rw [g2, if_pos rfl]
  have live : ∀ y yd, t.heap.get y = some yd → y ≠ P := by
    intro y yd e; have := Heap.get_lt e; omega
  have same : ∀ y yd, t.heap.get y = some yd → ∃ yd', h2.get y = some yd' ∧ yd'.vals = yd.vals ∧
      yd'.kids = yd.kids ∧ yd'.maxCount = yd.maxCount ∧ (y ≠ t.root → yd' = yd) := by
    intro y yd e
    by_cases hy : y = t.root
    · subst hy
      rw [er] at e; cases e
      exact ⟨_, gR, rfl, rfl, rfl, fun h => absurd rfl h⟩
    · exact ⟨yd, by rw [g2, if_neg hy, g1, if_neg (live y yd e), e], rfl, rfl, rfl, fun _ => rfl⟩
  have back : ∀ y yd', h2.get y = some yd' → y = P ∨ (y ≠ P ∧ ∃ yd, t.heap.get y = some yd) := by
    intro y yd' e
    by_cases hy : y = P
    · exact .inl hy
    · refine .inr ⟨hy, ?_⟩
      rw [g2, g1, if_neg hy] at e
      by_cases hr : y = t.root
      · exact ⟨rn, by rw [hr, er]⟩
      · rw [if_neg hr] at e; exact ⟨_, e⟩
  set htn : Nat → Nat := fun n => if n = P then H + 1 else ht n with hhtn
  have htl : ∀ y, y ≠ P → htn y = ht y := fun y hy => by simp [hhtn, hy]
  have htP : htn P = H + 1 := by simp [hhtn]
  have agree := elems_agree (h' := h2) w (by
    intro y yd e _
    obtain ⟨yd', e', h1, h2, _⟩ := same y yd e
    rw [valsOf_eq e', kidsOf_eq e', h1, h2]; exact ⟨rfl, rfl⟩)
  have w' : WF c h2 P (H + 1) htn := by
    constructor
    · rw [g2, if_neg (Ne.symm r0), g1, if_neg (Ne.symm P0), w.zero]
    · exact P0
    · exact ⟨_, gP⟩
    · exact htP
    · intro y yd' e y0
      rcases back y yd' e with rfl | ⟨hy, yd, ey⟩
      · rw [htP]
      · rw [htl y hy]; have := w.bound _ _ ey y0; omega
    · intro y yd' e y0
      rcases back y yd' e with rfl | ⟨hy, yd, ey⟩
      · rw [gP] at e; cases e
        rw [htP]
        exact .inr ⟨by omega, rfl, rfl, by simp⟩
      · obtain ⟨yd'', e'', q1, q2, q3, _⟩ := same y yd ey
        rw [e] at e''; cases e''
        rw [htl y hy]
        have s := w.shape _ _ ey y0
        unfold Shape at s ⊢
        rw [q1, q2, q3]
        rcases s with s | s
        · refine .inl ⟨s.1, s.2.1, s.2.2.1, s.2.2.2.1, s.2.2.2.2.1, fun _ => ?_⟩
          by_cases hr : y = t.root
          · subst hr
            rw [er] at ey; cases ey
            unfold Node.cap at hcap
            rwa [if_neg s.2.1] at hcap
          · exact s.2.2.2.2.2 hr
        · exact .inr s
    · intro y yd' i x e y0 hx
      rcases back y yd' e with rfl | ⟨hy, yd, ey⟩
      · rw [gP] at e; cases e
        have : i = 0 ∧ x = t.root := by
          cases i with
          | zero => simp at hx; exact ⟨rfl, hx.symm⟩
          | succ i => simp at hx
        obtain ⟨rfl, rfl⟩ := this
        refine ⟨r0, hPr, ?_, _, gR, rfl, rfl⟩
        rw [htP, htl _ hPr, w.rootHt]
      · obtain ⟨yd'', e'', q1, q2, q3, _⟩ := same y yd ey
        rw [e] at e''; cases e''
        rw [q2] at hx
        obtain ⟨x0, xr, hxt, xd, ex, f1, f2⟩ := w.kid _ _ _ _ ey y0 hx
        obtain ⟨xd', ex', _, _, _, hne⟩ := same x xd ex
        have := hne xr
        subst this
        have hxP := live x _ ex
        exact ⟨x0, hxP, by rw [htl y hy, htl x hxP, hxt], _, ex', f1, f2⟩
    · intro y yd' e y0 yP
      rcases back y yd' e with rfl | ⟨hy, yd, ey⟩
      · exact absurd rfl yP
      · by_cases hr : y = t.root
        · subst hr
          rw [gR] at e; cases e
          exact ⟨P0, _, gP, rfl⟩
        · obtain ⟨yd'', e'', q1, q2, q3, hne⟩ := same y yd ey
          rw [e] at e''; cases e''
          have := hne hr
          subst this
          obtain ⟨p0, pd, ep, hk⟩ := w.par _ _ ey y0 hr
          obtain ⟨pd', ep', _, k2, _⟩ := same _ pd ep
          exact ⟨p0, pd', ep', by rw [k2]; exact hk⟩
  have aR := agree H er r0 w.rootHt
  refine ⟨{ t with heap := h2, root := P }, htn, _, run, ?_, rfl, ?_, gP, rfl, rfl⟩
  · refine ⟨w', ⟨_, gP, ?_⟩, ?_, ?_, ?_⟩
    · obtain ⟨rn', er', hp⟩ := g.left
      rw [er] at er'; cases er'
      show rn.parent = lm h2 (H + 1) P
      rw [lm_succ (x := t.root) (by rw [kidsOf_eq gP]; rfl), aR.2.1, hp]
    · show t.rightmost = rm h2 (H + 1) P
      rw [rm_succ (x := t.root) (by rw [kidsOf_eq gP]; rfl), aR.2.2, g.right]
    · intro y yd' e y0 hy
      rcases back y yd' e with rfl | ⟨_, yd, ey⟩
      · exact absurd (.inr rfl) hy
      · obtain ⟨yd'', e'', q1, _⟩ := same y yd ey
        rw [e] at e''; cases e''
        rw [q1]
        exact g.full y yd ey y0 (fun h => hy (.inl ⟨h.1, by rw [htl y (live y yd ey)]; exact h.2⟩))
    · show elems h2 (H + 1) P = L
      simp only [elems, kidsOf_eq gP, valsOf_eq gP, List.map_cons, List.map_nil, inter_one]
      rw [aR.1, g.seq]
  · constructor
    · intro y yd e y0 hy
      obtain ⟨yd', e', q1, q2, q3, _⟩ := same y yd e
      exact ⟨yd', e', q1, q2, q3, htl y (live y yd e)⟩
    · intro j y X Y hj x
      show Ctx h2 P (H + 1) j y X Y
      have : ∀ {j y X Y}, Ctx t.heap t.root H j y X Y → Ctx h2 P (H + 1) j y X Y := by
        intro j y X Y x
        induction x with
        | root =>
          have := Ctx.kid (i := 0) (x := t.root) (Ctx.root (h := h2) (root := P) (H := H + 1)) gP rfl
          simpa using this
        | @kid k p pd i x A B xp ep hi ih =>
          obtain ⟨_, _, p0, hpk⟩ := xp.live w
          obtain ⟨pd', ep', q1, q2, q3, _⟩ := same p pd ep
          have y := Ctx.kid ih ep' (by rw [q2]; exact hi)
          rw [q1, q2] at y
          have e1 : ∀ z ∈ pd.kids, elems h2 k z = elems t.heap k z := by
            intro z hz
            obtain ⟨z0, _, hzt, zd, ez, _⟩ := w.kid_mem ep p0 hz
            exact (agree k ez z0 (by omega)).1
          rw [List.map_congr_left (l := pd.kids.take i) fun z hz => e1 z (List.mem_of_mem_take hz),
            List.map_congr_left (l := pd.kids.drop (i + 1)) fun z hz => e1 z (List.mem_of_mem_drop hz)] at y
          exact y
      exact this x

/-- rebalance_or_split makes room. -/
theorem rebalanceOrSplit_ok (hK : 3 ≤ c.K) : ∀ (f : Nat) {t : Tree α} {H k n i : Nat} {ht : Nat → Nat} {nd : Node α}
    {X Y : List α}, Good c t (Loose z ht) H ht L → t.heap.get n = some nd → nd.vals.length = c.K → nd.cap c = c.K →
    Pt t.heap t.root H k n i X Y → H - k < f →
    ∃ t' it' H' ht', rebalanceOrSplit c f t ⟨n, i⟩ = some (t', it') ∧ Moved c z t t' ⟨n, i⟩ it' H H' k ht ht' L X Y
  | 0, _, _, _, _, _, _, _, _, _, _, _, _, _, _, hf => absurd hf (Nat.not_lt_zero _)
  | f + 1, t, H, k, n, i, ht, nd, X, Y, g, e, hfull, hcap, p, hf => by
    obtain ⟨nd', e', n0, hnt, hi⟩ := p.live g.wf
    rw [e] at e'; cases e'
    unfold rebalanceOrSplit
    have hc : nd.count = c.K := hfull
    simp only [e, Option.bind_eq_bind, Option.bind_some, hc, hcap, beq_self_eq_true, Bool.and_self, check_true]
    by_cases hroot : n = t.root
    · rw [if_pos hroot]
      subst hroot
      obtain ⟨t1, ht1, pd, e1, g1, s1, b1, ep, hk1, hv1⟩ := growRoot_ok g e hcap
      have hkH : k = H := by rw [← hnt, g.wf.rootHt]
      subst hkH
      obtain ⟨nd1, en1, q1, q2, q3, q4⟩ := b1.keep _ _ e n0 (by omega)
      have p1 := b1.pt g.wf (by omega) p
      obtain ⟨t2, it2, ht2, e2, m2, _⟩ := splitNode_ok (q := t1.root) g1 hK en1 (by rw [q1, hfull]) g1.wf.root0 ep
        (by rw [hk1]; rfl : pd.kids[0]? = some t.root) (by rw [hv1]; simp; omega) p1
      refine ⟨t2, it2, _, ht2, by simp [e1, e2], m2.good, by rw [m2.size, s1], b1.trans m2.below (by omega), m2.pt, m2.room,
        m2.deep, ?_⟩
      intro k0
      rw [m2.kid k0]
      show (kidsOf t1.heap t.root)[i]? = _
      rw [kidsOf_eq en1, q2, kidsOf_eq e]
    · rw [if_neg hroot]
      rcases tryLeft_ok g hK e hfull hroot p with h1 | ⟨h', it', ht', h1, m1, _⟩
      swap
      · exact ⟨_, _, _, _, by simp [h1], m1⟩
      rcases tryRight_ok g hK e hfull hroot p with h2 | ⟨h', it', ht', h2, m2, _⟩
      swap
      · exact ⟨_, _, _, _, by simp [h1, h2], m2⟩
      obtain ⟨pd, ep, p0, hkid, hpt, _, _, hkl, hiK⟩ := siblings g hK e hfull hroot p
      have capp := g.wf.cap_eq ep p0 (.inr (by omega))
      simp only [h1, h2, Option.bind_some, ep, capp, beq_self_eq_true, check_true]
      have hpc : pd.count = pd.vals.length := rfl
      by_cases hpf : pd.count = c.K
      · rw [if_pos hpf]
        have hposl := (List.getElem?_eq_some_iff.1 hkid).1
        obtain ⟨X1, Y1, pp⟩ := g.wf.pt (i := nd.position) ep p0 (by omega)
        rw [hpt] at pp
        have hb := g.wf.bound _ _ ep p0
        obtain ⟨t1, it1, H1, ht1, e1, m1⟩ := rebalanceOrSplit_ok hK f g ep (by omega) capp pp (by omega)
        simp only [e1, Option.bind_some]
        obtain ⟨nd1, en1, q1, q2, q3, q4⟩ := m1.below.keep _ _ e n0 (by omega)
        have p1 := m1.below.pt g.wf (by omega) p
        obtain ⟨pd1, ep1, p10, hpk1, _⟩ := m1.pt.live m1.good.wf
        have hkid1 : pd1.kids[it1.pos]? = some n := by
          have := m1.kid (by omega)
          rw [kidsOf_eq ep1, kidsOf_eq ep, hkid] at this
          exact this
        have hroom := m1.room
        rw [valsOf_eq ep1] at hroom
        obtain ⟨t2, it2, ht2, e2, m2, _⟩ := splitNode_ok (q := nd.parent) m1.good hK en1 (by rw [q1, hfull]) p10 ep1
          hkid1 hroom p1
        refine ⟨t2, it2, _, ht2, e2, m2.good, by rw [m2.size, m1.size], m1.below.trans m2.below (by omega), m2.pt,
          m2.room, m2.deep, ?_⟩
        intro k0
        rw [m2.kid k0]
        show (kidsOf t1.heap n)[i]? = _
        rw [kidsOf_eq en1, q2, kidsOf_eq e]
      · rw [if_neg hpf]
        have hle := g.wf.vals_le ep p0
        have g' : Good c t (fun m => Loose z ht m ∨ m = nd.parent) H ht L := g.mono fun _ h => .inl h
        obtain ⟨t2, it2, ht2, e2, m2, _⟩ := splitNode_ok (q := nd.parent) g' hK e hfull p0 ep hkid (by omega) p
        exact ⟨t2, it2, _, ht2, by simp [e2], m2⟩

/-- A tree that is only a leaf. -/
theorem leafRoot_wf {h : Heap α} {r : Nat} {nd : Node α} (hz : h.get 0 = some emptyNode) (hr : r ≠ 0)
    (e : h.get r = some nd) (only : ∀ y yd, h.get y = some yd → y = 0 ∨ y = r) (hm : nd.maxCount ≠ 0)
    (hk : nd.kids = []) (hv : nd.vals.length ≤ nd.maxCount) (hc : nd.maxCount ≤ c.K) :
    WF c h r 0 (fun _ => 0) where
  zero := hz
  root0 := hr
  rootLive := ⟨nd, e⟩
  rootHt := rfl
  bound := fun _ _ _ _ => Nat.le_refl _
  shape := by
    intro y yd ey y0
    rcases only y yd ey with rfl | rfl
    · exact absurd rfl y0
    · rw [e] at ey; cases ey
      exact .inl ⟨rfl, hm, hk, hv, hc, fun h => absurd rfl h⟩
  kid := by
    intro y yd i x ey y0 hx
    rcases only y yd ey with rfl | rfl
    · exact absurd rfl y0
    · rw [e] at ey; cases ey
      rw [hk] at hx; simp at hx
  par := by
    intro y yd ey y0 yr
    rcases only y yd ey with rfl | rfl
    · exact absurd rfl y0
    · exact absurd rfl yr

theorem leafRoot_good {t : Tree α} {nd : Node α} (hz : t.heap.get 0 = some emptyNode) (hr : t.root ≠ 0)
    (e : t.heap.get t.root = some nd) (only : ∀ y yd, t.heap.get y = some yd → y = 0 ∨ y = t.root) (hm : nd.maxCount ≠ 0)
    (hk : nd.kids = []) (hv : nd.vals.length ≤ nd.maxCount) (hc : nd.maxCount ≤ c.K) (hp : nd.parent = t.root)
    (hrm : t.rightmost = t.root) : Good c t (· = t.root) 0 (fun _ => 0) nd.vals where
  wf := leafRoot_wf hz hr e only hm hk hv hc
  left := ⟨nd, e, hp⟩
  right := hrm
  full := by
    intro y yd ey y0 hy
    rcases only y yd ey with rfl | rfl
    · exact absurd rfl y0
    · exact absurd rfl hy
  seq := valsOf_eq e

theorem leafRoot_pt {t : Tree α} {nd : Node α} {i : Nat} (e : t.heap.get t.root = some nd) (hi : i ≤ nd.vals.length) :
    Pt t.heap t.root 0 0 t.root i (nd.vals.take i) (nd.vals.drop i) :=
  ⟨[], [], .root, by rw [valsOf_eq e]; exact hi, by simp [pre, valsOf_eq e], by simp [post, valsOf_eq e]⟩

/-- A tree of height zero has only one node. -/
theorem WF.only_root {h : Heap α} {root : Nat} (w : WF c h root 0 ht) : ∀ y yd, h.get y = some yd → y = 0 ∨ y = root := by
  intro y yd e
  by_cases y0 : y = 0
  · exact .inl y0
  · refine .inr (w.root_of_ht e y0 ?_)
    have := w.bound _ _ e y0
    omega

/-- The leaf root grows. -/
theorem growLeafRoot_ok {n i : Nat} {nd : Node α} {X Y : List α} (g : Good c t E 0 ht L)
    (e : t.heap.get t.root = some nd) (hfull : nd.vals.length = nd.cap c) (hsmall : nd.cap c < c.K)
    (p : Pt t.heap t.root 0 0 n i X Y) :
    ∃ t' it' nd', growLeafRoot c t ⟨n, i⟩ (nd.cap c) = some (t', it') ∧ Good c t' (· = it'.node) 0 (fun _ => 0) L ∧
      t'.size = t.size ∧ Pt t'.heap t'.root 0 0 it'.node it'.pos X Y ∧ t'.heap.get it'.node = some nd' ∧
      nd'.vals.length < nd'.cap c := by
  obtain ⟨n1, e1, n0, hnt, hi⟩ := p.live g.wf
  have hn : n = t.root := by
    rcases g.wf.only_root n n1 e1 with h | h
    · exact absurd h n0
    · exact h
  subst hn
  rw [e] at e1; cases e1
  obtain ⟨A, B, x, _, hX, hY⟩ := p
  have hAB : A = [] ∧ B = [] := (x.det g.wf .root)
  obtain ⟨rfl, rfl⟩ := hAB
  simp only [pre, valsOf_eq e, List.nil_append, post, List.append_nil] at hX hY
  have sh := g.wf.shape _ _ e n0
  have hl : nd.maxCount ≠ 0 ∧ nd.kids = [] ∧ nd.vals.length ≤ nd.maxCount ∧ nd.maxCount ≤ c.K := by
    rcases sh with s | s
    · exact ⟨s.2.1, s.2.2.1, s.2.2.2.1, s.2.2.2.2.1⟩
    · omega
  obtain ⟨hm, hk, hv, hc⟩ := hl
  have hcap : nd.cap c = nd.maxCount := by unfold Node.cap; rw [if_neg hm]
  rw [hcap] at hfull hsmall
  have hlt := Heap.get_lt e
  set P := t.heap.length with hP
  set mc := min c.K (2 * nd.maxCount) with hmc
  set h1 : Heap α := t.heap.alloc ⟨P, 0, mc, [], []⟩ with hh1
  have g1 : ∀ j, h1.get j = if j = P then some ⟨P, 0, mc, [], []⟩ else t.heap.get j := Heap.get_alloc _
  have e1 : h1.get t.root = some nd := by rw [g1, if_neg (by omega), e]
  have eP : h1.get P = some ⟨P, 0, mc, [], []⟩ := by rw [g1, if_pos rfl]
  set h2 : Heap α := h1.set P ⟨P, 0, mc, nd.vals, []⟩ with hh2
  have g2 : ∀ j, h2.get j = if j = P then some ⟨P, 0, mc, nd.vals, []⟩ else h1.get j := Heap.get_set _ eP
  set h3 : Heap α := h2.set t.root { nd with vals := [] } with hh3
  have g3 : ∀ j, h3.get j = if j = t.root then some { nd with vals := [] } else h2.get j :=
    Heap.get_set _ (by rw [g2, if_neg (by omega), e1])
  have run : growLeafRoot c t ⟨t.root, i⟩ (nd.cap c) =
      some ({ t with heap := h3.free t.root, root := P, rightmost := P }, ⟨P, i⟩) := by
    have hsw : swapLeaves c h1 P t.root = some h3 := by
      unfold swapLeaves
      simp only [eP, e1, Option.bind_eq_bind, Option.bind_some]
      rw [check_of]
      · rfl
      · have hm' : mc ≠ 0 := by omega
        simp [Node.leaf, Node.count, Node.cap, hm, hm']
        omega
    unfold growLeafRoot
    rw [hcap]
    simp only [beq_self_eq_true, check_true, Option.bind_eq_bind, Option.bind_some]
    have hsw' : swapLeaves c (t.heap.alloc ⟨t.heap.length, 0, min c.K (2 * nd.maxCount), [], []⟩) t.heap.length t.root =
      some h3 := hsw
    rw [hsw']
    rfl
  have gf : ∀ j, (h3.free t.root).get j = if j = t.root then none else if j = P then some ⟨P, 0, mc, nd.vals, []⟩ else t.heap.get j := by
    intro j
    rw [Heap.get_free]
    by_cases hj : j = t.root
    · rw [if_pos hj, if_pos hj]
    · rw [if_neg hj, if_neg hj, g3, if_neg hj, g2]
      by_cases hjP : j = P
      · rw [if_pos hjP, if_pos hjP]
      · rw [if_neg hjP, if_neg hjP, g1, if_neg hjP]
  have gP : (h3.free t.root).get P = some ⟨P, 0, mc, nd.vals, []⟩ := by rw [gf, if_neg (by omega), if_pos rfl]
  have hLv : nd.vals = L := by
    have := g.seq
    simp only [elems, valsOf_eq e] at this
    exact this
  refine ⟨_, _, _, run, ?_, rfl, ?_, gP, ?_⟩
  · have := leafRoot_good (c := c) (t := { t with heap := h3.free t.root, root := P, rightmost := P })
      (nd := ⟨P, 0, mc, nd.vals, []⟩)
      (by show (h3.free t.root).get 0 = _; rw [gf, if_neg (Ne.symm n0), if_neg (by omega), g.wf.zero])
      (by show P ≠ 0; omega) gP (by
        intro y yd ey
        have ey : (h3.free t.root).get y = some yd := ey
        rw [gf] at ey
        by_cases hy : y = t.root
        · rw [if_pos hy] at ey; cases ey
        · rw [if_neg hy] at ey
          by_cases hyP : y = P
          · exact .inr hyP
          · rw [if_neg hyP] at ey
            rcases g.wf.only_root y yd ey with h | h
            · exact .inl h
            · exact absurd h hy) (by show mc ≠ 0; omega) rfl (by show nd.vals.length ≤ mc; omega) (by show mc ≤ c.K; omega)
      rfl rfl
    rw [← hLv]
    exact this
  · have := leafRoot_pt (t := { t with heap := h3.free t.root, root := P, rightmost := P }) gP hi
    rw [hX, hY]
    exact this
  · show nd.vals.length < Node.cap c _
    unfold Node.cap
    simp only
    rw [if_neg (by omega)]
    omega

/-- emplace_value into a leaf with room. -/
theorem emplace_room {n i : Nat} {nd : Node α} {X Y : List α} {v : α} (g : Good c t (fun m => Loose z ht m ∨ m = n) H ht L)
    (e : t.heap.get n = some nd) (p : Pt t.heap t.root H 0 n i X Y) (hroom : nd.vals.length < nd.cap c) (s : Nat) :
    ∃ h', emplaceLeaf c t.heap n i (.val v) = some h' ∧
      Good c { t with heap := h', size := s } (Loose z ht) H ht (X ++ v :: Y) ∧
      Cur { t with heap := h', size := s } H ⟨n, i⟩ X (v :: Y) := by
  obtain ⟨nd', e', n0, hnt, hi⟩ := p.live g.wf
  rw [e] at e'; cases e'
  have hleaf := (g.wf.leaf_iff e n0).2 hnt
  refine ⟨t.heap.set n { nd with vals := nd.vals.insertIdx i v }, ?_, ?_⟩
  · unfold emplaceLeaf
    simp only [e, Option.bind_eq_bind, Option.bind_some, Arg.read]
    rw [check_of (by simp [hleaf, Node.count, hi, hroom])]
    rfl
  · have hins : nd.vals.insertIdx i v = nd.vals.take i ++ v :: nd.vals.drop i := by
      conv => lhs; rw [← List.take_append_drop i nd.vals]
      exact insertIdx_at _ _ _ (by simp [hi])
    have hlen : (nd.vals.insertIdx i v).length = nd.vals.length + 1 := by
      rw [List.length_insertIdx_of_le_length hi]
    obtain ⟨A, B, rfl, rfl, gg, pp⟩ := g.setLeaf (E' := Loose z ht) e p (nd.vals.insertIdx i v) (by omega)
      (t' := { t with heap := t.heap.set n { nd with vals := nd.vals.insertIdx i v }, size := s }) rfl rfl rfl
      (fun m hm h => h.resolve_right hm) (fun _ => by omega)
    have q := pp i (by omega)
    have t1 : (nd.vals.insertIdx i v).take i = nd.vals.take i := by rw [hins]; simp [hi]
    have t2 : (nd.vals.insertIdx i v).drop i = v :: nd.vals.drop i := by
      rw [hins, List.drop_append]; simp [hi]
    rw [t1, t2] at q
    refine ⟨?_, 0, q, .inl ?_⟩
    · have : A ++ nd.vals.take i ++ v :: (nd.vals.drop i ++ B) = A ++ (nd.vals.insertIdx i v ++ B) := by
        rw [hins]; simp
      rw [this]; exact gg
    · show i < (valsOf (t.heap.set n _) n).length
      rw [set_valsOf_self e]
      omega

/-- internal_emplace. -/
theorem internalEmplace_ok (hK : 3 ≤ c.K) {k n i : Nat} {X Y : List α} {v : α} (g : Good c t E H ht L)
    (hE : (∀ m, E m → Loose z ht m) ∨ (k = 0 ∧ (∀ m, E m → m = n) ∧ ∃ nd, t.heap.get n = some nd ∧ nd.vals.length < nd.cap c))
    (p : Pt t.heap t.root H k n i X Y) :
    ∃ it' t' H' ht', internalEmplace c t ⟨n, i⟩ (.val v) = some (it', t') ∧ Good c t' (Loose z ht') H' ht' (X ++ v :: Y) ∧
      t'.size = t.size + 1 ∧ Cur t' H' it' X (v :: Y) := by
  obtain ⟨nd, e, n0, hnt, hi⟩ := p.live g.wf
  -- at a leaf
  have main : ∀ (n i : Nat) (nd : Node α), t.heap.get n = some nd → nd.leaf = true → Pt t.heap t.root H 0 n i X Y →
      ((∀ m, E m → Loose z ht m) ∨ ((∀ m, E m → m = n) ∧ nd.vals.length < nd.cap c)) →
      ∃ it' t' H' ht', (do
        let (t, it) ← if nd.count = nd.cap c then
            if nd.cap c < c.K then growLeafRoot c t ⟨n, i⟩ (nd.cap c)
            else rebalanceOrSplit c (t.heap.length + 1) t ⟨n, i⟩
          else some (t, ⟨n, i⟩)
        let h ← emplaceLeaf c t.heap it.node it.pos (.val v)
        some (it, { t with heap := h, size := t.size + 1 })) = some (it', t') ∧
        Good c t' (Loose z ht') H' ht' (X ++ v :: Y) ∧ t'.size = t.size + 1 ∧ Cur t' H' it' X (v :: Y) := by
    intro n i nd e hleaf p hE
    obtain ⟨nd', e', n0, hnt, hi⟩ := p.live g.wf
    rw [e] at e'; cases e'
    by_cases hfull : nd.count = nd.cap c
    · have hno : ∀ m, E m → Loose z ht m := by
        rcases hE with h | h
        · exact h
        · have : nd.count = nd.vals.length := rfl
          omega
      have g0 : Good c t (Loose z ht) H ht L := g.mono hno
      rw [if_pos hfull]
      by_cases hsmall : nd.cap c < c.K
      · rw [if_pos hsmall]
        have hroot : n = t.root := by
          by_contra hr
          have := g.wf.cap_eq e n0 (.inl hr)
          omega
        subst hroot
        have hH : H = 0 := by rw [← g.wf.rootHt, hnt]
        subst hH
        obtain ⟨t1, it1, nd1, e1, g1, s1, p1, en1, room⟩ := growLeafRoot_ok g0 e hfull hsmall p
        obtain ⟨h', e2, g2, c2⟩ := emplace_room (z := z) (v := v) (g1.mono fun _ h => .inr h) en1 p1 room (t1.size + 1)
        exact ⟨it1, _, 0, _, by simp [e1, e2], g2, by simp [s1], c2⟩
      · rw [if_neg hsmall]
        have hcapK : nd.cap c = c.K := by
          have := g.wf.vals_le e n0
          have : nd.count = nd.vals.length := rfl
          omega
        have hfu := g.fuel
        obtain ⟨t1, it1, H1, ht1, e1, m1⟩ := rebalanceOrSplit_ok hK (t.heap.length + 1) g0 e
          (by rw [← hcapK]; exact hfull) hcapK p (by omega)
        obtain ⟨nd1, en1, n10, hnt1, _⟩ := m1.pt.live m1.good.wf
        have room := m1.room
        rw [valsOf_eq en1] at room
        have hnr : it1.node ≠ t1.root := by
          intro h
          have := m1.good.wf.rootHt
          rw [← h, hnt1] at this
          have := m1.deep
          omega
        have cap1 := m1.good.wf.cap_eq en1 n10 (.inl hnr)
        obtain ⟨h', e2, g2, c2⟩ := emplace_room (v := v) m1.good en1 m1.pt (by omega) (t1.size + 1)
        exact ⟨it1, _, H1, _, by simp [e1, e2], g2, by simp [m1.size], c2⟩
    · rw [if_neg hfull]
      have hle := g.wf.vals_le_cap e n0
      have : nd.count = nd.vals.length := rfl
      have g1 : Good c t (fun m => Loose z ht m ∨ m = n) H ht L := g.mono fun m hm => by
        rcases hE with h | h
        · exact .inl (h m hm)
        · exact .inr (h.1 m hm)
      obtain ⟨h', e2, g2, c2⟩ := emplace_room (v := v) g1 e p (by omega) (t.size + 1)
      exact ⟨⟨n, i⟩, _, H, _, by simp [e2], g2, rfl, c2⟩
  unfold internalEmplace
  simp only [e, Option.bind_eq_bind, Option.bind_some]
  cases k with
  | zero =>
    have hleaf := (g.wf.leaf_iff e n0).2 hnt
    simp only [hleaf, if_true, Option.bind_some, e]
    apply main n i nd e hleaf p
    rcases hE with h | ⟨_, h1, nd', e', h2⟩
    · exact .inl h
    · rw [e] at e'; cases e'
      exact .inr ⟨h1, h2⟩
  | succ k =>
    have hno : ∀ m, E m → Loose z ht m := by
      rcases hE with h | h
      · exact h
      · omega
    have hleaf := g.wf.leaf_false e n0 (by omega)
    obtain ⟨l, ld, q, el, l0, hl, nd', e', _, z, hz, hlz, hd⟩ := decrement_node g p
    rw [e] at e'; cases e'
    have hlc : 1 ≤ ld.vals.length := g.full l ld el l0 (fun h => by have := (hno l h).2; have := (g.wf.leaf_iff el l0).1 hl; omega)
    have hdec : decrement t.heap ⟨n, i⟩ = some ⟨l, ld.count - 1⟩ := by
      unfold decrement
      simp only [e, Option.bind_eq_bind, Option.bind_some, hleaf, Bool.false_eq_true, if_false, hz, hd, el]
      rw [check_of (by simp [Node.count, hlc])]
      rfl
    have hpos : ld.count - 1 + 1 = ld.vals.length := by unfold Node.count; omega
    simp only [hleaf, Bool.false_eq_true, if_false, hdec, Option.bind_some, hpos, el]
    exact main l ld.vals.length ld el hl q (.inl hno)

end Gtl.Btree
