import Verif.Btree.Clear
/-
Erasing values of an internal node together with the subtrees between them.
-/
set_option linter.unusedSectionVars false
namespace Gtl.Btree
variable {α κ : Type}

/-- Node `p` of height `q + 1` loses the children `C` with all nodes below them and the values `VM`. -/
structure Prune (h h' : Heap α) (q p : Nat) (pd : Node α) (A C B : List Nat) (VA VM VB : List α) : Prop where
  live : h.get p = some pd
  kids : pd.kids = A ++ C ++ B
  vals : pd.vals = VA ++ VM ++ VB
  lenA : A.length = VA.length + 1
  lenC : C.length = VM.length
  lenB : VB ≠ []
  dead : ∀ j ∈ C.flatMap (desc h q), h'.get j = none
  here : h'.get p = some { pd with kids := A ++ B, vals := VA ++ VB }
  later : ∀ (i : Nat) z zd, B[i]? = some z → h.get z = some zd → h'.get z = some { zd with position := A.length + i }
  other : ∀ j, j ∉ C.flatMap (desc h q) → j ≠ p → j ∉ B → h'.get j = h.get j

variable {c : Cfg α κ} {h h' : Heap α} {root H : Nat} {ht : Nat → Nat} {q p : Nat} {pd : Node α} {A C B : List Nat}
  {VA VM VB : List α}

section
variable (w : WF c h root H ht) (u : Prune h h' q p pd A C B VA VM VB) (p0 : p ≠ 0) (hp : ht p = q + 1)
include w u p0 hp

theorem Prune.kid (i : Nat) {z : Nat} (hz : z ∈ pd.kids) : z ≠ 0 ∧ z ≠ root ∧ ht z = q ∧ ∃ zd, h.get z = some zd ∧ zd.parent = p := by
  obtain ⟨z0, zr, hzt, zd, ez, zp, _⟩ := w.kid_mem u.live p0 hz
  exact ⟨z0, zr, by omega, zd, ez, zp⟩

theorem Prune.memC {z : Nat} (hz : z ∈ C) : z ∈ pd.kids := by rw [u.kids]; simp [hz]
theorem Prune.memA {z : Nat} (hz : z ∈ A) : z ∈ pd.kids := by rw [u.kids]; simp [hz]
theorem Prune.memB {z : Nat} (hz : z ∈ B) : z ∈ pd.kids := by rw [u.kids]; simp [hz]

theorem Prune.gone {x : Nat} (hx : x ∈ C.flatMap (desc h q)) :
    (∃ xd, h.get x = some xd) ∧ x ≠ 0 ∧ x ≠ root ∧ ht x ≤ q ∧ up h (q - ht x) x ∈ C := by
  obtain ⟨z, hz, hxz⟩ := List.mem_flatMap.1 hx
  obtain ⟨z0, zr, hzt, zd, ez, _⟩ := u.kid w p0 hp 0 (u.memC w p0 hp hz)
  obtain ⟨h1, h2, h3, h4⟩ := desc_mem w q ez z0 hzt hxz
  have : ht p ≤ H := w.bound _ _ u.live p0
  refine ⟨h1, h2, ?_, h3, by rw [h4]; exact hz⟩
  rintro rfl
  have := w.rootHt
  omega

/-- The kids outside of `C` stay. -/
theorem Prune.stay {z : Nat} (hz : z ∈ A ∨ z ∈ B) : z ∉ C.flatMap (desc h q) := by
  intro hx
  obtain ⟨_, _, _, _, hu⟩ := u.gone w p0 hp hx
  have hzk : z ∈ pd.kids := hz.elim (u.memA w p0 hp) (u.memB w p0 hp)
  obtain ⟨_, _, hzt, _⟩ := u.kid w p0 hp 0 hzk
  rw [hzt, Nat.sub_self] at hu
  have hn := w.kids_nodup u.live p0
  rw [u.kids, List.append_assoc, List.nodup_append, List.nodup_append] at hn
  obtain ⟨_, ⟨_, _, h1⟩, h2⟩ := hn
  rcases hz with hz | hz
  · exact h2 z hz z (List.mem_append_left _ hu) rfl
  · exact h1 z hu z hz rfl

theorem Prune.selfStay : p ∉ C.flatMap (desc h q) := by
  intro hx
  have := (u.gone w p0 hp hx).2.2.2.1
  omega

/-- The kids of a node that stays stay. -/
theorem Prune.kidStay {n x : Nat} {nd : Node α} (e : h.get n = some nd) (n0 : n ≠ 0) (hx : x ∈ nd.kids) (hn : n ≠ p)
    (hs : n ∉ C.flatMap (desc h q)) : x ∉ C.flatMap (desc h q) ∧ x ∉ B := by
  obtain ⟨x0, xr, hxt, xd, ex, xp, _⟩ := w.kid_mem e n0 hx
  constructor
  · intro hg
    obtain ⟨_, _, _, h1, hu⟩ := u.gone w p0 hp hg
    by_cases hq : ht x = q
    · rw [hq, Nat.sub_self] at hu
      obtain ⟨_, _, _, zd, ez, zp⟩ := u.kid w p0 hp 0 (u.memC w p0 hp hu)
      simp only [up] at ez
      rw [ex] at ez; cases ez
      exact hn (xp.symm.trans zp)
    · apply hs
      rw [List.mem_flatMap] at hg ⊢
      refine ⟨_, hu, ?_⟩
      have hb : ht p ≤ H := w.bound _ _ u.live p0
      refine (mem_desc w (q - ht n) e n0 (by omega) (by omega) ?_).1
      rw [show q - ht x = (q - ht n) + 1 by omega]
      have step : ∀ d, up h (d + 1) x = up h d n := by
        intro d
        induction d with
        | zero => simp only [up, ex, xp]
        | succ d ih => rw [up, ih]; rfl
      rw [step]
  · intro hb
    obtain ⟨_, _, _, zd, ez, zp⟩ := u.kid w p0 hp 0 (u.memB w p0 hp hb)
    rw [ex] at ez; cases ez
    exact hn (xp.symm.trans zp)

/-- The kids of a node that goes go. -/
theorem Prune.kidGone {n x : Nat} {nd : Node α} (e : h.get n = some nd) (n0 : n ≠ 0) (hx : x ∈ nd.kids)
    (hs : n ∈ C.flatMap (desc h q)) : x ∈ C.flatMap (desc h q) := by
  obtain ⟨x0, xr, hxt, xd, ex, xp, _⟩ := w.kid_mem e n0 hx
  obtain ⟨_, _, _, h1, hu⟩ := u.gone w p0 hp hs
  rw [List.mem_flatMap]
  refine ⟨_, hu, ?_⟩
  have hb : ht p ≤ H := w.bound _ _ u.live p0
  refine (mem_desc w (q - ht x) ex x0 (by omega) (by omega) ?_).1
  rw [show q - ht x = (q - ht n) + 1 by omega]
  have step : ∀ d, up h (d + 1) x = up h d n := by
    intro d
    induction d with
    | zero => simp only [up, ex, xp]
    | succ d ih => rw [up, ih]; rfl
  rw [step]

/-- What stays of a node. -/
theorem Prune.keep {j : Nat} {jd : Node α} (e : h.get j = some jd) (hj : j ∉ C.flatMap (desc h q)) (hjp : j ≠ p) :
    ∃ jd', h'.get j = some jd' ∧ jd'.vals = jd.vals ∧ jd'.kids = jd.kids ∧ jd'.parent = jd.parent ∧
      jd'.maxCount = jd.maxCount ∧ (j ∉ B → jd'.position = jd.position) ∧
      (∀ (i : Nat), B[i]? = some j → jd'.position = A.length + i) := by
  by_cases hb : j ∈ B
  · obtain ⟨i, hi⟩ := List.getElem?_of_mem hb
    refine ⟨_, u.later i j jd hi e, rfl, rfl, rfl, rfl, fun h => absurd hb h, ?_⟩
    intro i' hi'
    have hn := w.kids_nodup u.live p0
    rw [u.kids, List.nodup_append] at hn
    have hn := hn.2.1
    have l1 := (List.getElem?_eq_some_iff.1 hi).1
    have := (List.getElem?_inj l1 hn).1 (hi.trans hi'.symm)
    rw [this]
  · exact ⟨jd, by rw [u.other j hj hjp hb, e], rfl, rfl, rfl, rfl, fun _ => rfl,
      fun i hi => absurd (List.mem_of_getElem? hi) hb⟩

/-- The nodes after are nodes before. -/
theorem Prune.back {j : Nat} {jd' : Node α} (e : h'.get j = some jd') :
    j ∉ C.flatMap (desc h q) ∧ ∃ jd, h.get j = some jd := by
  have hj : j ∉ C.flatMap (desc h q) := by
    intro hj
    rw [u.dead j hj] at e
    cases e
  refine ⟨hj, ?_⟩
  by_cases hjp : j = p
  · subst hjp; exact ⟨pd, u.live⟩
  by_cases hb : j ∈ B
  · obtain ⟨_, _, _, zd, ez, _⟩ := u.kid w p0 hp 0 (u.memB w p0 hp hb)
    exact ⟨zd, ez⟩
  · rw [u.other j hj hjp hb] at e
    exact ⟨jd', e⟩

theorem Prune.lenBV : B.length = VB.length := by
  have := w.kids_len u.live p0 (by omega)
  rw [u.kids, u.vals] at this
  have h1 := u.lenA
  have h2 := u.lenC
  simp only [List.length_append] at this
  omega

theorem Prune.wf : WF c h' root H ht where
  zero := by
    have h1 : (0 : Nat) ∉ C.flatMap (desc h q) := fun hx => (u.gone w p0 hp hx).2.1 rfl
    have h2 : (0 : Nat) ∉ B := fun hx => (u.kid w p0 hp 0 (u.memB w p0 hp hx)).1 rfl
    rw [u.other 0 h1 (Ne.symm p0) h2, w.zero]
  root0 := w.root0
  rootLive := by
    obtain ⟨rd, er⟩ := w.rootLive
    by_cases hr : root = p
    · subst hr; exact ⟨_, u.here⟩
    · obtain ⟨rd', er', _⟩ := u.keep w p0 hp er (fun hx => (u.gone w p0 hp hx).2.2.1 rfl) hr
      exact ⟨rd', er'⟩
  rootHt := w.rootHt
  bound := by
    intro n nd e n0
    obtain ⟨_, nd0, e0⟩ := u.back w p0 hp e
    exact w.bound _ _ e0 n0
  shape := by
    intro n nd e n0
    obtain ⟨hn, nd0, e0⟩ := u.back w p0 hp e
    have sh := w.shape _ _ e0 n0
    by_cases hnp : n = p
    · subst hnp
      rw [u.here] at e; cases e
      rw [u.live] at e0; cases e0
      have h1 := u.lenA
      have h3 := u.lenBV w p0 hp
      rcases sh with s | s
      · omega
      · refine .inr ⟨s.1, s.2.1, by simp; omega, ?_⟩
        have := s.2.2.2
        rw [u.vals] at this
        simp only [List.length_append] at this ⊢
        omega
    · obtain ⟨nd', e', k1, k2, _, k4, _⟩ := u.keep w p0 hp e0 hn hnp
      rw [e] at e'; cases e'
      unfold Shape at sh ⊢
      rw [k1, k2, k4]
      exact sh
  kid := by
    intro n nd i x e n0 hx
    obtain ⟨hn, nd0, e0⟩ := u.back w p0 hp e
    by_cases hnp : n = p
    · subst hnp
      rw [u.here] at e; cases e
      rw [u.live] at e0; cases e0
      dsimp only at hx
      by_cases hi : i < A.length
      · rw [List.getElem?_append_left hi] at hx
        have hxk : pd.kids[i]? = some x := by
          rw [u.kids, List.append_assoc, List.getElem?_append_left hi]; exact hx
        obtain ⟨x0, xr, hxt, xd, ex, e1, e2⟩ := w.kid _ _ _ _ u.live n0 hxk
        have hxs := u.stay w p0 hp (.inl (List.mem_of_getElem? hx))
        have hxn : x ≠ n := by rintro rfl; omega
        obtain ⟨xd', ex', k1, k2, k3, k4, k5, _⟩ := u.keep w p0 hp ex hxs hxn
        have hxB : x ∉ B := by
          intro hb
          have hnd := w.kids_nodup u.live p0
          rw [u.kids, List.nodup_append, List.nodup_append] at hnd
          exact hnd.2.2 x (List.mem_append_left _ (List.mem_of_getElem? hx)) x hb rfl
        exact ⟨x0, xr, hxt, xd', ex', by rw [k3, e1], by rw [k5 hxB, e2]⟩
      · rw [List.getElem?_append_right (by omega)] at hx
        have hxm : x ∈ B := List.mem_of_getElem? hx
        obtain ⟨x0, xr, hxt, xd, ex, e1, _⟩ := w.kid_mem u.live n0 (u.memB w p0 hp hxm)
        refine ⟨x0, xr, hxt, _, u.later _ _ _ hx ex, e1, ?_⟩
        show A.length + (i - A.length) = i
        omega
    · obtain ⟨nd', e', k1, k2, k3, k4, _⟩ := u.keep w p0 hp e0 hn hnp
      rw [e] at e'; cases e'
      rw [k2] at hx
      obtain ⟨x0, xr, hxt, xd, ex, e1, e2⟩ := w.kid _ _ _ _ e0 n0 hx
      obtain ⟨hxs, hxB⟩ := u.kidStay w p0 hp e0 n0 (List.mem_of_getElem? hx) hnp hn
      refine ⟨x0, xr, hxt, ?_⟩
      by_cases hxp : x = p
      · subst hxp
        rw [u.live] at ex; cases ex
        exact ⟨_, u.here, e1, e2⟩
      · obtain ⟨xd', ex', _, _, k3, _, k5, _⟩ := u.keep w p0 hp ex hxs hxp
        exact ⟨xd', ex', by rw [k3, e1], by rw [k5 hxB, e2]⟩
  par := by
    intro n nd e n0 nr
    obtain ⟨hn, nd0, e0⟩ := u.back w p0 hp e
    obtain ⟨r0, rd, er, hk⟩ := w.par _ _ e0 n0 nr
    have hrt := w.par_ht e0 n0 nr
    by_cases hnp : n = p
    · subst hnp
      rw [u.here] at e; cases e
      rw [u.live] at e0; cases e0
      dsimp only at *
      have hrs : pd.parent ∉ C.flatMap (desc h q) := by
        intro hx
        have := (u.gone w p0 hp hx).2.2.2.1
        omega
      have hrp : pd.parent ≠ n := by intro h; rw [h] at hrt; omega
      obtain ⟨rd', er', k1, k2, _⟩ := u.keep w p0 hp er hrs hrp
      exact ⟨r0, rd', er', by rw [k2]; exact hk⟩
    · obtain ⟨nd', e', k1, k2, k3, k4, k5, k6⟩ := u.keep w p0 hp e0 hn hnp
      rw [e] at e'; cases e'
      rw [k3]
      refine ⟨r0, ?_⟩
      by_cases hrp : nd0.parent = p
      · rw [hrp] at er ⊢
        rw [u.live] at er; cases er
        refine ⟨_, u.here, ?_⟩
        dsimp only
        have hmem := List.mem_of_getElem? hk
        rw [u.kids] at hmem
        rcases List.mem_append.1 hmem with hm | hm
        · rcases List.mem_append.1 hm with hm | hm
          · have hnB : n ∉ B := by
              intro hb
              have hnd := w.kids_nodup u.live p0
              rw [u.kids, List.nodup_append] at hnd
              exact hnd.2.2 n (List.mem_append_left _ hm) n hb rfl
            rw [k5 hnB]
            obtain ⟨i, hi⟩ := List.getElem?_of_mem hm
            have l1 := (List.getElem?_eq_some_iff.1 hi).1
            have hi' : pd.kids[i]? = some n := by
              rw [u.kids, List.append_assoc, List.getElem?_append_left l1]; exact hi
            obtain ⟨_, _, _, xd, ex, _, e2⟩ := w.kid _ _ _ _ u.live p0 hi'
            rw [e0] at ex; cases ex
            rw [e2, List.getElem?_append_left l1]; exact hi
          · exfalso
            apply hn
            rw [List.mem_flatMap]
            refine ⟨n, hm, ?_⟩
            cases q <;> simp [desc]
        · obtain ⟨i, hi⟩ := List.getElem?_of_mem hm
          rw [k6 i hi, List.getElem?_append_right (by omega)]
          simpa using hi
      · have hrs : nd0.parent ∉ C.flatMap (desc h q) := by
          intro hx
          exact hn (u.kidGone w p0 hp er r0 (List.mem_of_getElem? hk) hx)
        have hnB : n ∉ B := by
          intro hb
          obtain ⟨_, _, _, zd, ez, zp⟩ := u.kid w p0 hp 0 (u.memB w p0 hp hb)
          rw [e0] at ez; cases ez
          exact hrp zp
        obtain ⟨rd', er', _, k2', _⟩ := u.keep w p0 hp er hrs hrp
        exact ⟨rd', er', by rw [k2', k5 hnB]; exact hk⟩

/-- The nodes that stay and are not above `p` have the same values below them. -/
theorem Prune.elems : ∀ (j : Nat) {y : Nat} {yd : Node α}, h.get y = some yd → y ≠ 0 → ht y = j →
    y ∉ C.flatMap (desc h q) → (∀ d, j = ht p + d → y ≠ up h d p) → elems h' j y = elems h j y := by
  intro j
  induction j with
  | zero =>
    intro y yd ey y0 hy hs hu
    have hyp : y ≠ p := by rintro rfl; omega
    obtain ⟨yd', ey', k1, _⟩ := u.keep w p0 hp ey hs hyp
    simp only [Btree.elems, valsOf_eq ey, valsOf_eq ey', k1]
  | succ j ih =>
    intro y yd ey y0 hy hs hu
    have hyp : y ≠ p := by
      rintro rfl
      exact hu 0 (by omega) rfl
    obtain ⟨yd', ey', k1, k2, _⟩ := u.keep w p0 hp ey hs hyp
    simp only [Btree.elems, valsOf_eq ey, valsOf_eq ey', kidsOf_eq ey, kidsOf_eq ey', k1, k2]
    congr 1
    apply List.map_congr_left
    intro z hz
    obtain ⟨z0, _, hzt, zd, ez, zp, _⟩ := w.kid_mem ey y0 hz
    obtain ⟨hzs, _⟩ := u.kidStay w p0 hp ey y0 hz hyp hs
    apply ih ez z0 (by omega) hzs
    intro d hd hzu
    apply hu (d + 1) (by omega)
    simp only [up]
    rw [← hzu, ez]
    exact zp.symm

theorem Prune.kidElems {z : Nat} (hz : z ∈ A ∨ z ∈ B) : Btree.elems h' q z = Btree.elems h q z := by
  have hzk : z ∈ pd.kids := hz.elim (u.memA w p0 hp) (u.memB w p0 hp)
  obtain ⟨z0, _, hzt, zd, ez, _⟩ := u.kid w p0 hp 0 hzk
  exact u.elems w p0 hp q ez z0 hzt (u.stay w p0 hp hz) (fun d hd => by omega)

theorem Prune.lm : ∀ (j : Nat) {y : Nat} {yd : Node α}, h.get y = some yd → y ≠ 0 → ht y = j →
    y ∉ C.flatMap (desc h q) → Btree.lm h' j y = Btree.lm h j y := by
  intro j
  induction j with
  | zero => intros; rfl
  | succ j ih =>
    intro y yd ey y0 hy hs
    simp only [Btree.lm]
    by_cases hyp : y = p
    · subst hyp
      rw [u.live] at ey; cases ey
      have hA : A ≠ [] := by
        intro h; have := u.lenA; rw [h] at this; simp at this
      obtain ⟨a, A', rfl⟩ := List.exists_cons_of_ne_nil hA
      rw [kidsOf_eq u.live, kidsOf_eq u.here, u.kids]
      simp only [List.cons_append, List.head?_cons]
      obtain ⟨z0, _, hzt, zd, ez, _⟩ := u.kid w p0 hp 0 (u.memA w p0 hp (z := a) (by simp))
      exact ih ez z0 (by omega) (u.stay w p0 hp (.inl (by simp)))
    · obtain ⟨yd', ey', k1, k2, _⟩ := u.keep w p0 hp ey hs hyp
      rw [kidsOf_eq ey, kidsOf_eq ey', k2]
      cases hk : yd.kids with
      | nil => rfl
      | cons z ks =>
        simp only [List.head?_cons]
        have hz : z ∈ yd.kids := by rw [hk]; simp
        obtain ⟨z0, _, hzt, zd, ez, _⟩ := w.kid_mem ey y0 hz
        exact ih ez z0 (by omega) (u.kidStay w p0 hp ey y0 hz hyp hs).1

theorem Prune.rm : ∀ (j : Nat) {y : Nat} {yd : Node α}, h.get y = some yd → y ≠ 0 → ht y = j →
    y ∉ C.flatMap (desc h q) → Btree.rm h' j y = Btree.rm h j y := by
  intro j
  induction j with
  | zero => intros; rfl
  | succ j ih =>
    intro y yd ey y0 hy hs
    simp only [Btree.rm]
    by_cases hyp : y = p
    · subst hyp
      rw [u.live] at ey; cases ey
      have hB : B ≠ [] := by
        intro h
        have := u.lenBV w p0 hp
        rw [h] at this
        exact u.lenB (List.length_eq_zero_iff.1 this.symm)
      rw [kidsOf_eq u.live, kidsOf_eq u.here, u.kids]
      rw [List.getLast?_append_of_ne_nil _ hB, List.getLast?_append_of_ne_nil _ hB]
      cases hl : B.getLast? with
      | none => rfl
      | some z =>
        have hz := List.mem_of_getLast? hl
        obtain ⟨z0, _, hzt, zd, ez, _⟩ := u.kid w p0 hp 0 (u.memB w p0 hp hz)
        exact ih ez z0 (by omega) (u.stay w p0 hp (.inr hz))
    · obtain ⟨yd', ey', k1, k2, _⟩ := u.keep w p0 hp ey hs hyp
      rw [kidsOf_eq ey, kidsOf_eq ey', k2]
      cases hl : yd.kids.getLast? with
      | none => rfl
      | some z =>
        have hz := List.mem_of_getLast? hl
        obtain ⟨z0, _, hzt, zd, ez, _⟩ := w.kid_mem ey y0 hz
        exact ih ez z0 (by omega) (u.kidStay w p0 hp ey y0 hz hyp hs).1

theorem Prune.ctx_up {k m : Nat} {X Y : List α} (x : Ctx h root H k m X Y) : ∀ d, k = ht p + d → m = up h d p →
    Ctx h' root H k m X Y := by
  induction x with
  | root => intro _ _ _; exact .root
  | @kid k r rd i x X Y xp er hi ih =>
    intro d hd hm
    obtain ⟨_, er0, r0, hrk⟩ := xp.live w
    obtain ⟨x0, _, _, xd, ex, e1, e2⟩ := w.kid _ _ _ _ er r0 hi
    have hr : r = up h (d + 1) p := by
      simp only [up]
      rw [← hm, ex]
      exact e1.symm
    have y := ih (d + 1) (by omega) hr
    have hrp : r ≠ p := by rintro rfl; omega
    have hrs : r ∉ C.flatMap (desc h q) := by
      intro hx
      have := (u.gone w p0 hp hx).2.2.2.1
      omega
    obtain ⟨rd', er', k1, k2, _⟩ := u.keep w p0 hp er hrs hrp
    have z := Ctx.kid y er' (by rw [k2]; exact hi)
    rw [k1, k2] at z
    have sib : ∀ (j : Nat) s, rd.kids[j]? = some s → j ≠ i → Btree.elems h' k s = Btree.elems h k s := by
      intro j s hj hji
      obtain ⟨s0, _, hs, sd, es, f1, f2⟩ := w.kid _ _ _ _ er r0 hj
      apply u.elems w p0 hp k es s0 (by omega) (u.kidStay w p0 hp er r0 (List.mem_of_getElem? hj) hrp hrs).1
      intro d' hd' hsu
      have : d' = d := by omega
      subst this
      rw [← hm] at hsu
      subst hsu
      rw [ex] at es; cases es
      omega
    have e3 : (rd.kids.take i).map (Btree.elems h' k) = (rd.kids.take i).map (Btree.elems h k) := by
      apply List.map_congr_left
      intro s hs
      rw [List.mem_take_iff_getElem] at hs
      obtain ⟨j, hj, rfl⟩ := hs
      exact sib j _ (List.getElem?_eq_getElem _) (by omega)
    have e4 : (rd.kids.drop (i + 1)).map (Btree.elems h' k) = (rd.kids.drop (i + 1)).map (Btree.elems h k) := by
      apply List.map_congr_left
      intro s hs
      rw [List.mem_drop_iff_getElem] at hs
      obtain ⟨j, hj, rfl⟩ := hs
      exact sib (i + 1 + j) _ (by rw [List.getElem?_eq_getElem]) (by omega)
    rw [e3, e4] at z
    exact z

end

variable {t t' : Tree α} {L : List α}

/-- The tree after: everything between the two places is gone. -/
theorem Prune.good {X Y : List α} {X' Y' : List α} (g : Good c t (Loose False ht) H ht L)
    (u : Prune t.heap t'.heap q p pd A C B VA VM VB) (hr : t'.root = t.root) (hm : t'.rightmost = t.rightmost)
    (p1 : Pt t.heap t.root H (q + 1) p VA.length X Y') (p2 : Pt t.heap t.root H (q + 1) p (VA.length + VM.length) X' Y) :
    Good c t' (Loose False ht) H ht (X ++ Y) ∧ Pt t'.heap t'.root H (q + 1) p VA.length X Y := by
  obtain ⟨_, e0, p0, hp, _⟩ := p1.live g.wf
  have w' := u.wf g.wf p0 hp
  obtain ⟨X0, Y0, x, hi, hX, _⟩ := p1
  obtain ⟨X0', Y0', x', hi', _, hY⟩ := p2
  obtain ⟨rfl, rfl⟩ := x.det g.wf x'
  have x1 := u.ctx_up g.wf p0 hp x 0 (by omega) rfl
  have hl := u.lenBV g.wf p0 hp
  have hA := u.lenA
  have hC := u.lenC
  have mA : A.map (Btree.elems t'.heap q) = A.map (Btree.elems t.heap q) :=
    List.map_congr_left fun z hz => u.kidElems g.wf p0 hp (.inl hz)
  have mB : B.map (Btree.elems t'.heap q) = B.map (Btree.elems t.heap q) :=
    List.map_congr_left fun z hz => u.kidElems g.wf p0 hp (.inr hz)
  have q1 : Pt t'.heap t'.root H (q + 1) p VA.length X Y := by
    refine ⟨X0, Y0, by rw [hr]; exact x1, by rw [valsOf_eq u.here]; simp, ?_, ?_⟩
    · rw [hX]
      simp only [pre, valsOf_eq u.live, valsOf_eq u.here, kidsOf_eq u.live, kidsOf_eq u.here, u.kids, u.vals]
      rw [← hA, List.append_assoc, List.append_assoc, List.take_left' rfl, List.take_left' rfl, List.take_left' rfl,
        List.take_left' rfl, mA]
    · rw [hY]
      simp only [post, valsOf_eq u.live, valsOf_eq u.here, kidsOf_eq u.live, kidsOf_eq u.here, u.kids, u.vals]
      rw [← hA, List.drop_left' rfl, List.drop_left' rfl, List.drop_left' (by simp),
        List.drop_left' (by simp; omega), mB]
  refine ⟨⟨by rw [hr]; exact w', ?_, ?_, ?_, ?_⟩, q1⟩
  · obtain ⟨rn, er, hpar⟩ := g.left
    have hs : t.root ∉ C.flatMap (desc t.heap q) := fun hx => (u.gone g.wf p0 hp hx).2.2.1 rfl
    rw [hr, u.lm g.wf p0 hp H er g.wf.root0 g.wf.rootHt hs]
    by_cases hrp : t.root = p
    · rw [hrp, u.live] at er; cases er
      refine ⟨_, by rw [hrp]; exact u.here, by rw [← hpar]⟩
    · obtain ⟨rn', er', _, _, k3, _⟩ := u.keep g.wf p0 hp er hs hrp
      exact ⟨rn', er', by rw [k3, hpar]⟩
  · obtain ⟨rn, er, _⟩ := g.left
    have hs : t.root ∉ C.flatMap (desc t.heap q) := fun hx => (u.gone g.wf p0 hp hx).2.2.1 rfl
    rw [hr, hm, u.rm g.wf p0 hp H er g.wf.root0 g.wf.rootHt hs]
    exact g.right
  · intro n nd e n0 _
    obtain ⟨hn, nd0, e1⟩ := u.back g.wf p0 hp e
    by_cases hnp : n = p
    · subst hnp
      rw [u.here] at e; cases e
      have := List.length_pos_iff.2 u.lenB
      simp only [List.length_append]
      omega
    · obtain ⟨nd', e', k1, _⟩ := u.keep g.wf p0 hp e1 hn hnp
      rw [e] at e'; cases e'
      rw [k1]
      exact g.full n nd0 e1 n0 (by simp)
  · exact (q1.total (by rw [hr]; exact w')).symm

end Gtl.Btree
