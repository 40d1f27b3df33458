import Verif.Btree.RedistPt
/-
Writing the values of one node.
-/
set_option linter.unusedSectionVars false
namespace Gtl.Btree
variable {α κ : Type}

/-- The `d`-th node above `n`. -/
def up (h : Heap α) : Nat → Nat → Nat
  | 0, n => n
  | d + 1, n => match h.get (up h d n) with | some nd => nd.parent | none => 0

variable {c : Cfg α κ} {h : Heap α} {root H : Nat} {ht : Nat → Nat}

section
variable (w : WF c h root H ht) {n : Nat} {nd : Node α} (e : h.get n = some nd) (n0 : n ≠ 0) (vs : List α)
include w e n0

omit w n0 in
theorem set_get (m : Nat) : (h.set n { nd with vals := vs }).get m =
    if m = n then some { nd with vals := vs } else h.get m := Heap.get_set _ e m

omit w n0 in
theorem set_kidsOf : kidsOf (h.set n { nd with vals := vs }) = kidsOf h := by
  funext m
  unfold kidsOf
  rw [set_get e]
  by_cases hm : m = n
  · subst hm; simp [e]
  · simp [hm]

omit w n0 in
theorem set_valsOf {m : Nat} (hm : m ≠ n) : valsOf (h.set n { nd with vals := vs }) m = valsOf h m := by
  unfold valsOf
  rw [set_get e, if_neg hm]

omit w n0 in
theorem set_valsOf_self : valsOf (h.set n { nd with vals := vs }) n = vs := by
  unfold valsOf
  rw [set_get e, if_pos rfl]

omit w n0 in
theorem set_lm : lm (h.set n { nd with vals := vs }) = lm h := by
  funext j
  induction j with
  | zero => rfl
  | succ j ih =>
    funext m
    simp only [lm, set_kidsOf e, ih]

omit w n0 in
theorem set_rm : rm (h.set n { nd with vals := vs }) = rm h := by
  funext j
  induction j with
  | zero => rfl
  | succ j ih =>
    funext m
    simp only [rm, set_kidsOf e, ih]

theorem set_wf (hs : Shape c (ht n) (n = root) { nd with vals := vs }) :
    WF c (h.set n { nd with vals := vs }) root H ht where
  zero := by rw [set_get e, if_neg (Ne.symm n0), w.zero]
  root0 := w.root0
  rootLive := by
    rw [set_get e]
    by_cases hr : root = n
    · exact ⟨_, if_pos hr⟩
    · rw [if_neg hr]; exact w.rootLive
  rootHt := w.rootHt
  bound := by
    intro m md em m0
    rw [set_get e] at em
    by_cases hm : m = n
    · subst hm; exact w.bound _ _ e n0
    · rw [if_neg hm] at em; exact w.bound _ _ em m0
  shape := by
    intro m md em m0
    rw [set_get e] at em
    by_cases hm : m = n
    · subst hm; rw [if_pos rfl] at em; cases em; exact hs
    · rw [if_neg hm] at em; exact w.shape _ _ em m0
  kid := by
    intro m md i x em m0 hx
    have key : ∀ md0, h.get m = some md0 → md0.kids = md.kids →
        x ≠ 0 ∧ x ≠ root ∧ ht m = ht x + 1 ∧ ∃ xd, (h.set n { nd with vals := vs }).get x = some xd ∧
          xd.parent = m ∧ xd.position = i := by
      intro md0 e0 hk
      obtain ⟨x0, xr, hxt, xd, ex, e1, e2⟩ := w.kid _ _ _ _ e0 m0 (by rw [hk]; exact hx)
      refine ⟨x0, xr, hxt, ?_⟩
      rw [set_get e]
      by_cases hxn : x = n
      · subst hxn
        rw [e] at ex; cases ex
        exact ⟨_, if_pos rfl, e1, e2⟩
      · exact ⟨xd, by rw [if_neg hxn, ex], e1, e2⟩
    rw [set_get e] at em
    by_cases hm : m = n
    · subst hm; rw [if_pos rfl] at em; cases em; exact key nd e rfl
    · rw [if_neg hm] at em; exact key md em rfl
  par := by
    intro m md em m0 mr
    have key : ∀ md0, h.get m = some md0 → md0.parent = md.parent → md0.position = md.position →
        md.parent ≠ 0 ∧ ∃ pd, (h.set n { nd with vals := vs }).get md.parent = some pd ∧
          pd.kids[md.position]? = some m := by
      intro md0 e0 h1 h2
      obtain ⟨p0, pd, ep, hk⟩ := w.par _ _ e0 m0 mr
      rw [h1] at p0 ep
      rw [h2] at hk
      refine ⟨p0, ?_⟩
      rw [set_get e]
      by_cases hp : md.parent = n
      · rw [hp, e] at ep; cases ep
        exact ⟨_, if_pos hp, hk⟩
      · exact ⟨pd, by rw [if_neg hp, ep], hk⟩
    rw [set_get e] at em
    by_cases hm : m = n
    · subst hm; rw [if_pos rfl] at em; cases em; exact key nd e rfl rfl
    · rw [if_neg hm] at em; exact key md em rfl rfl

/-- Below nodes that are not above `n` nothing changes. -/
theorem set_elems : ∀ (j : Nat) {y : Nat} {yd : Node α}, h.get y = some yd → y ≠ 0 → ht y = j →
    (∀ d, j = ht n + d → y ≠ up h d n) → elems (h.set n { nd with vals := vs }) j y = elems h j y := by
  intro j
  induction j with
  | zero =>
    intro y yd ey y0 hy hu
    have hyn : y ≠ n := by
      rintro rfl
      exact hu 0 (by omega) rfl
    simp only [elems, set_valsOf e vs hyn]
  | succ j ih =>
    intro y yd ey y0 hy hu
    have hyn : y ≠ n := by
      rintro rfl
      exact hu 0 (by omega) rfl
    simp only [elems, set_valsOf e vs hyn, set_kidsOf e]
    congr 1
    apply List.map_congr_left
    intro z hz
    rw [kidsOf_eq ey] at hz
    obtain ⟨z0, _, hzt, zd, ez, zp, _⟩ := w.kid_mem ey y0 hz
    apply ih ez z0 (by omega)
    intro d hd hzu
    apply hu (d + 1) (by omega)
    simp only [up]
    rw [← hzu, ez]
    exact zp.symm

theorem set_ctx_up {k m : Nat} {A B : List α} (x : Ctx h root H k m A B) : ∀ d, k = ht n + d → m = up h d n →
    Ctx (h.set n { nd with vals := vs }) root H k m A B := by
  induction x with
  | root => intro _ _ _; exact .root
  | @kid k p pd i x A B xp ep hi ih =>
    intro d hd hm
    obtain ⟨_, _, p0, hpk⟩ := xp.live w
    obtain ⟨x0, _, _, xd, ex, e1, e2⟩ := w.kid _ _ _ _ ep p0 hi
    have hp : p = up h (d + 1) n := by
      simp only [up]
      rw [← hm, ex]
      exact e1.symm
    have y := ih (d + 1) (by omega) hp
    have hpn : p ≠ n := by rintro rfl; omega
    have z := Ctx.kid y (by rw [set_get e, if_neg hpn]; exact ep) hi
    have sib : ∀ (j : Nat) s, pd.kids[j]? = some s → j ≠ i →
        elems (h.set n { nd with vals := vs }) k s = elems h k s := by
      intro j s hj hji
      obtain ⟨s0, _, hs, sd, es, f1, f2⟩ := w.kid _ _ _ _ ep p0 hj
      apply set_elems w e n0 vs k es s0 (by omega)
      intro d' hd' hsu
      have : d' = d := by omega
      subst this
      rw [← hm] at hsu
      subst hsu
      rw [ex] at es; cases es
      omega
    have e3 : (pd.kids.take i).map (elems (h.set n { nd with vals := vs }) k) = (pd.kids.take i).map (elems h k) := by
      apply List.map_congr_left
      intro s hs
      rw [List.mem_take_iff_getElem] at hs
      obtain ⟨j, hj, rfl⟩ := hs
      exact sib j _ (List.getElem?_eq_getElem _) (by omega)
    have e4 : (pd.kids.drop (i + 1)).map (elems (h.set n { nd with vals := vs }) k) =
        (pd.kids.drop (i + 1)).map (elems h k) := by
      apply List.map_congr_left
      intro s hs
      rw [List.mem_drop_iff_getElem] at hs
      obtain ⟨j, hj, rfl⟩ := hs
      exact sib (i + 1 + j) _ (by rw [List.getElem?_eq_getElem]) (by omega)
    rw [e3, e4] at z
    exact z

/-- The place of the node is the same. -/
theorem set_ctx {k : Nat} {A B : List α} (x : Ctx h root H k n A B) :
    Ctx (h.set n { nd with vals := vs }) root H k n A B := by
  obtain ⟨_, _, _, hk⟩ := x.live w
  exact set_ctx_up w e n0 vs x 0 (by omega) rfl

/-- What is below the children of the node is the same. -/
theorem set_kid_elems {j z : Nat} (hz : z ∈ nd.kids) (hj : ht n = j + 1) :
    elems (h.set n { nd with vals := vs }) j z = elems h j z := by
  obtain ⟨z0, _, hzt, zd, ez, _⟩ := w.kid_mem e n0 hz
  exact set_elems w e n0 vs j ez z0 (by omega) (fun d hd => by omega)

theorem set_self_elems : elems (h.set n { nd with vals := vs }) (ht n) n =
    glue (ht n) (elems h (ht n - 1)) vs nd.kids := by
  rw [elems_glue, set_valsOf_self e, set_kidsOf e, kidsOf_eq e]
  unfold glue
  by_cases h0 : ht n = 0
  · simp [h0]
  · rw [if_neg h0, if_neg h0]
    congr 1
    apply List.map_congr_left
    intro z hz
    exact set_kid_elems w e n0 vs hz (by omega)

end

variable {t : Tree α} {L : List α} {E E' : Nat → Prop}

/-- The tree after the write. -/
theorem Good.set {n : Nat} {nd : Node α} (g : Good c t E H ht L) (e : t.heap.get n = some nd) (n0 : n ≠ 0)
    (vs : List α) (hs : Shape c (ht n) (n = t.root) { nd with vals := vs }) {t' : Tree α}
    (hh : t'.heap = t.heap.set n { nd with vals := vs }) (hr : t'.root = t.root) (hm : t'.rightmost = t.rightmost)
    (hE : ∀ m, m ≠ n → E m → E' m) (hn : ¬ E' n → 1 ≤ vs.length) {A B : List α}
    (x : Ctx t.heap t.root H (ht n) n A B) :
    Good c t' E' H ht (A ++ (glue (ht n) (elems t.heap (ht n - 1)) vs nd.kids ++ B)) := by
  have w' := set_wf g.wf e n0 vs hs
  constructor
  · rw [hh, hr]; exact w'
  · obtain ⟨rn, er, hp⟩ := g.left
    rw [hh, hr, set_lm e, set_get e]
    by_cases hrn : t.root = n
    · rw [hrn, e] at er; cases er
      exact ⟨_, if_pos hrn, hp⟩
    · exact ⟨rn, by rw [if_neg hrn, er], hp⟩
  · rw [hh, hr, set_rm e, hm]; exact g.right
  · rw [hh]
    intro m md em m0 hm
    rw [set_get e] at em
    by_cases hmn : m = n
    · subst hmn
      rw [if_pos rfl] at em; cases em
      exact hn hm
    · rw [if_neg hmn] at em
      exact g.full m md em m0 (fun he => hm (hE m hmn he))
  · rw [hh, hr, (set_ctx g.wf e n0 vs x).total w', set_self_elems g.wf e n0]

/-- Changing the values of a leaf. -/
theorem Good.setLeaf {n i : Nat} {nd : Node α} {X Y : List α} (g : Good c t E H ht L) (e : t.heap.get n = some nd)
    (p : Pt t.heap t.root H 0 n i X Y) (vs : List α) (hs : vs.length ≤ nd.cap c) {t' : Tree α}
    (hh : t'.heap = t.heap.set n { nd with vals := vs }) (hr : t'.root = t.root) (hm : t'.rightmost = t.rightmost)
    (hE : ∀ m, m ≠ n → E m → E' m) (hn : ¬ E' n → 1 ≤ vs.length) :
    ∃ A B, X = A ++ nd.vals.take i ∧ Y = nd.vals.drop i ++ B ∧ Good c t' E' H ht (A ++ (vs ++ B)) ∧
      ∀ i', i' ≤ vs.length → Pt t'.heap t'.root H 0 n i' (A ++ vs.take i') (vs.drop i' ++ B) := by
  obtain ⟨A, B, x, hi, rfl, rfl⟩ := p
  obtain ⟨_, e', n0, hk⟩ := x.live g.wf
  rw [e] at e'; cases e'
  have sh := g.wf.shape _ _ e n0
  have := g.set (E' := E') e n0 vs (by
    rcases sh with s | s
    · refine .inl ⟨s.1, s.2.1, s.2.2.1, ?_, s.2.2.2.2⟩
      unfold Node.cap at hs
      rw [if_neg s.2.1] at hs
      exact hs
    · omega) hh hr hm hE hn (by rw [hk]; exact x)
  refine ⟨A, B, by simp [pre, valsOf_eq e], by simp [post, valsOf_eq e], by simpa [glue, hk] using this, ?_⟩
  intro i' hi'
  rw [hh, hr]
  exact ⟨A, B, set_ctx g.wf e n0 vs x, by rw [set_valsOf_self e]; exact hi', by simp [pre, set_valsOf_self e],
    by simp [post, set_valsOf_self e]⟩

/-- Overwriting a value. -/
theorem Good.setVal {k n i : Nat} {nd : Node α} {v v' : α} {X Y : List α} (g : Good c t E H ht L)
    (e : t.heap.get n = some nd) (p : Pt t.heap t.root H k n i X (v :: Y)) (hi : i < nd.vals.length) {t' : Tree α}
    (hh : t'.heap = t.heap.set n { nd with vals := nd.vals.set i v' }) (hr : t'.root = t.root)
    (hm : t'.rightmost = t.rightmost) :
    Good c t' E H ht (X ++ v' :: Y) ∧ Pt t'.heap t'.root H k n i X (v' :: Y) := by
  obtain ⟨A, B, x, hi', hX, hY⟩ := id p
  obtain ⟨_, e', n0, hk⟩ := x.live g.wf
  rw [e] at e'; cases e'
  have sh := g.wf.shape _ _ e n0
  have sh' : Shape c (ht n) (n = t.root) { nd with vals := nd.vals.set i v' } := by
    rcases sh with s | s
    · exact .inl ⟨s.1, s.2.1, s.2.2.1, by simpa using s.2.2.2.1, s.2.2.2.2⟩
    · exact .inr ⟨s.1, s.2.1, by simpa using s.2.2.1, by simpa using s.2.2.2⟩
  have gg := g.set (E' := E) e n0 _ sh' hh hr hm (fun _ _ h => h)
    (fun h => by have := g.full n nd e n0 h; simpa using this) (by rw [hk]; exact x)
  subst hk
  have q : Pt t'.heap t'.root H (ht n) n i X (post t'.heap (ht n) n i ++ B) := by
    refine ⟨A, B, ?_, ?_, ?_, rfl⟩
    · rw [hh, hr]; exact set_ctx g.wf e n0 _ x
    · rw [hh, set_valsOf_self e]; simp; omega
    · rw [hX, pre_glue, pre_glue, hh, set_valsOf_self e, set_kidsOf e, valsOf_eq e, List.take_set_of_le (by omega)]
      unfold glue
      by_cases h0 : ht n = 0
      · simp [h0]
      · rw [if_neg h0, if_neg h0, kidsOf_eq e]
        congr 2
        apply List.map_congr_left
        intro z hz
        exact (set_kid_elems g.wf e n0 _ (List.mem_of_mem_take hz) (by omega)).symm
  have e3 : post t'.heap (ht n) n i ++ B = v' :: Y := by
    have hvi : nd.vals[i]? = some nd.vals[i] := List.getElem?_eq_getElem hi
    have d1 : nd.vals.drop i = nd.vals[i] :: nd.vals.drop (i + 1) := (List.getElem_cons_drop hi).symm
    have d2 : (nd.vals.set i v').drop i = v' :: nd.vals.drop (i + 1) := by
      rw [List.drop_set, if_neg (by omega), d1, Nat.sub_self, List.set_cons_zero]
    rw [hh]
    cases hk : ht n with
    | zero =>
      rw [hk] at hY
      simp only [post, valsOf_eq e] at hY
      simp only [post, set_valsOf_self e]
      rw [d1, List.cons_append, List.cons.injEq] at hY
      rw [d2, List.cons_append, hY.2]
    | succ j =>
      rw [hk] at hY
      have hl := g.wf.kids_len e n0 (by omega)
      have hi1 : i + 1 < nd.kids.length := by omega
      have hkd : nd.kids.drop (i + 1) = nd.kids[i + 1] :: nd.kids.drop (i + 1 + 1) := (List.getElem_cons_drop hi1).symm
      have hm : (nd.kids.drop (i + 1)).map (elems (t.heap.set n { nd with vals := nd.vals.set i v' }) j) =
          (nd.kids.drop (i + 1)).map (elems t.heap j) := by
        apply List.map_congr_left
        intro z hz
        exact set_kid_elems g.wf e n0 _ (List.mem_of_mem_drop hz) hk
      simp only [post, set_valsOf_self e, set_kidsOf e, kidsOf_eq e, hm]
      simp only [post, valsOf_eq e, kidsOf_eq e] at hY
      rw [d1, hkd, List.map_cons, zB_cons, List.cons_append, List.cons.injEq] at hY
      rw [d2, hkd, List.map_cons, zB_cons, List.cons_append, hY.2]
  rw [e3] at q
  refine ⟨?_, q⟩
  have := q.total gg.wf
  rw [gg.seq] at this
  rw [this]
  exact gg

end Gtl.Btree
