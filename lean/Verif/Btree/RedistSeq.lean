import Verif.Btree.Redist
/-
Rebalancing, splitting and merging keep the sequence of values, the first leaf
and the places of nodes.
-/
set_option linter.unusedSectionVars false
namespace Gtl.Btree
variable {α κ : Type}
theorem rm_succ {h : Heap α} {j n x : Nat} (e : (kidsOf h n).getLast? = some x) :
    rm h (j + 1) n = rm h j x := by simp [rm, e]

theorem lm_succ {h : Heap α} {j n x : Nat} (e : (kidsOf h n).head? = some x) :
    lm h (j + 1) n = lm h j x := by simp [lm, e]

namespace Redist
variable {c : Cfg α κ} {h h' : Heap α} {root H : Nat} {ht : Nat → Nat} {k p : Nat} {pd pd' : Node α}
  {A ls ls' B : List Nat} {VA ms ms' VB : List α}
variable (w : WF c h root H ht) (r : Redist c h h' k p pd pd' A ls ls' B VA ms ms' VB) (p0 : p ≠ 0)
  (hk : ht p = k + 1)
include w r p0 hk

theorem kidsOf_len {x : Nat} (hx : x ∈ ls) (hk0 : 0 < k) : (kidsOf h x).length = (valsOf h x).length + 1 := by
  obtain ⟨x0, _, hxk, _, xd, ex, _⟩ := mem_ls w r p0 hk hx
  rw [kidsOf_eq ex, valsOf_eq ex]
  exact w.kids_len ex x0 (by omega)

theorem kidsOf_len' {x : Nat} (hx : x ∈ ls') (hk0 : 0 < k) :
    (kidsOf h' x).length = (valsOf h' x).length + 1 := by
  obtain ⟨j, hj⟩ := List.getElem?_of_mem hx
  obtain ⟨xd', ex, _, _, hs, _⟩ := r.new j x hj
  rw [kidsOf_eq ex, valsOf_eq ex]
  rcases hs with s | s
  · omega
  · exact s.2.2.1

/-- The values of the children `ls` and between them, given what is below. -/
theorem segment (ih : ∀ j, j + 1 = k → ∀ g x, x ∈ ls → g ∈ kidsOf h x → elems h' j g = elems h j g) :
    inter (ls'.map (elems h' k)) ms' = inter (ls.map (elems h k)) ms := by
  cases k with
  | zero =>
    have e1 : elems h 0 = valsOf h := rfl
    have e2 : elems h' 0 = valsOf h' := rfl
    rw [e1, e2, r.flatVals]
  | succ j =>
    have hl := inter_expand (fun x => (kidsOf h x).map (elems h j)) (valsOf h) ls ms r.len
      (fun x hx => by simpa using kidsOf_len w r p0 hk hx (by omega))
    have hl' := inter_expand (fun x => (kidsOf h' x).map (elems h' j)) (valsOf h') ls' ms' r.len'
      (fun x hx => by simpa using kidsOf_len' w r p0 hk hx (by omega))
    have e1 : ls.map (elems h (j + 1)) = ls.map fun x => inter ((kidsOf h x).map (elems h j)) (valsOf h x) := rfl
    have e2 : ls'.map (elems h' (j + 1)) =
        ls'.map fun x => inter ((kidsOf h' x).map (elems h' j)) (valsOf h' x) := rfl
    rw [e1, e2, hl, hl', ← r.flatVals]
    have f1 : ls.flatMap (fun x => (kidsOf h x).map (elems h j)) = (ls.flatMap (kidsOf h)).map (elems h j) := by
      rw [List.map_flatMap]
    have f2 : ls'.flatMap (fun x => (kidsOf h' x).map (elems h' j)) =
        (ls'.flatMap (kidsOf h')).map (elems h' j) := by rw [List.map_flatMap]
    rw [f1, f2, ← r.flatKids]
    congr 1
    apply List.map_congr_left
    intro g hg
    obtain ⟨x, hx, hg⟩ := List.mem_flatMap.1 hg
    exact ih j rfl g x hx hg

/-- The sequence below every node other than those of `ls` stays. -/
theorem elems_same : ∀ (j : Nat) {n : Nat} {nd : Node α}, h.get n = some nd → n ≠ 0 → ht n = j → n ∉ ls →
    elems h' j n = elems h j n := by
  intro j
  induction j using Nat.strongRecOn with
  | _ j ih =>
    intro n nd e n0 hn hl
    by_cases hnp : n = p
    · subst hnp
      rw [hk] at hn
      subst hn
      have e1 : elems h (k + 1) n = inter ((A ++ ls ++ B).map (elems h k)) (VA ++ ms ++ VB) := by
        simp only [elems, kidsOf_eq r.hp, valsOf_eq r.hp, r.pkids, r.pvals]
      have e2 : elems h' (k + 1) n = inter ((A ++ ls' ++ B).map (elems h' k)) (VA ++ ms' ++ VB) := by
        simp only [elems, kidsOf_eq r.hp', valsOf_eq r.hp', r.pkids', r.pvals']
      rw [e1, e2]
      simp only [List.map_append]
      rw [inter_segment _ _ _ _ _ _ (by simpa using r.lenA) (by simpa using r.len') (by simpa using r.lenB),
        inter_segment _ _ _ _ _ _ (by simpa using r.lenA) (by simpa using r.len) (by simpa using r.lenB)]
      have eA : A.map (elems h' k) = A.map (elems h k) := by
        apply List.map_congr_left
        intro x hx
        obtain ⟨x0, _, hxk, _, xl, _, xd, ex, _⟩ := mem_A w r p0 hk hx
        exact ih k (by omega) ex x0 hxk xl
      have eB : B.map (elems h' k) = B.map (elems h k) := by
        apply List.map_congr_left
        intro x hx
        obtain ⟨x0, _, hxk, _, xl, _, xd, ex, _⟩ := mem_B w r p0 hk hx
        exact ih k (by omega) ex x0 hxk xl
      have eS := segment w r p0 hk (by
        intro j hj g x hx hg
        obtain ⟨g0, _, hgk, _, gl, gd, eg, _⟩ := mem_grand w r p0 hk hx hg
        exact ih j (by omega) eg g0 (by omega) gl)
      rw [eA, eB, eS]
    · obtain ⟨hv, hkd⟩ := same_vals w r p0 hk e hnp hl
      cases j with
      | zero => simpa [elems] using hv
      | succ j =>
        simp only [elems, hv, hkd]
        congr 1
        apply List.map_congr_left
        intro x hx
        rw [kidsOf_eq e] at hx
        obtain ⟨x0, _, hxk, xd, ex, epar, _⟩ := w.kid_mem e n0 hx
        refine ih j (by omega) ex x0 (by omega) ?_
        intro hxl
        obtain ⟨_, _, _, _, xd2, ex2, epar2⟩ := mem_ls w r p0 hk hxl
        rw [ex] at ex2; cases ex2
        exact hnp (epar.symm.trans epar2)

theorem root_not : root ∉ ls := fun hl => (mem_ls w r p0 hk hl).2.1 rfl

theorem total_same : elems h' H root = elems h H root := by
  obtain ⟨nd, e⟩ := w.rootLive
  exact elems_same w r p0 hk H e w.root0 w.rootHt (root_not w r p0 hk)

/-- The first leaf of the children of `p`. -/
theorem lm_same : ∀ (j : Nat) {n : Nat} {nd : Node α}, h.get n = some nd → n ≠ 0 → ht n = j → n ∉ ls →
    lm h' j n = lm h j n := by
  intro j
  induction j using Nat.strongRecOn with
  | _ j ih =>
    intro n nd e n0 hn hl
    by_cases hnp : n = p
    · subst hnp
      rw [hk] at hn
      subst hn
      simp only [lm, kidsOf_eq r.hp, kidsOf_eq r.hp', r.pkids, r.pkids']
      cases A with
      | cons a A =>
        simp only [List.cons_append, List.head?_cons]
        obtain ⟨x0, _, hxk, _, xl, _, xd, ex, _⟩ := mem_A w r p0 hk (x := a) (by simp)
        exact ih k (by omega) ex x0 hxk xl
      | nil =>
        have hlen := r.len
        have hlen' := r.len'
        have hhead := r.head
        cases hls : ls with
        | nil => rw [hls] at hlen; simp at hlen
        | cons x ls₂ =>
          cases hls' : ls' with
          | nil => rw [hls'] at hlen'; simp at hlen'
          | cons y ls₂' =>
            rw [hls, hls'] at hhead
            simp only [List.head?_cons, Option.some.injEq] at hhead
            subst hhead
            simp only [List.nil_append, List.cons_append, List.head?_cons]
            cases k with
            | zero => rfl
            | succ k =>
              simp only [lm]
              have hx : x ∈ ls := by rw [hls]; simp
              have hx' : x ∈ ls' := by rw [hls']; simp
              have l1 := kidsOf_len w r p0 hk hx (by omega)
              have l2 := kidsOf_len' w r p0 hk hx' (by omega)
              have hf := r.flatKids
              rw [hls, hls', List.flatMap_cons, List.flatMap_cons] at hf
              cases hkx : kidsOf h x with
              | nil => rw [hkx] at l1; simp at l1
              | cons g gs =>
                cases hkx' : kidsOf h' x with
                | nil => rw [hkx'] at l2; simp at l2
                | cons g' gs' =>
                  rw [hkx, hkx'] at hf
                  simp only [List.cons_append, List.cons.injEq] at hf
                  obtain ⟨rfl, _⟩ := hf
                  simp only [List.head?_cons]
                  obtain ⟨g0, _, hgk, _, gl, gd, eg, _⟩ := mem_grand w r p0 hk hx (g := g) (by rw [hkx]; simp)
                  exact ih k (by omega) eg g0 (by omega) gl
    · obtain ⟨hv, hkd⟩ := same_vals w r p0 hk e hnp hl
      cases j with
      | zero => rfl
      | succ j =>
        simp only [lm, hkd]
        cases hh : (kidsOf h n).head? with
        | none => rfl
        | some x =>
          have hx : x ∈ kidsOf h n := List.mem_of_mem_head? hh
          rw [kidsOf_eq e] at hx
          obtain ⟨x0, _, hxk, xd, ex, epar, _⟩ := w.kid_mem e n0 hx
          refine ih j (by omega) ex x0 (by omega) ?_
          intro hxl
          obtain ⟨_, _, _, _, xd2, ex2, epar2⟩ := mem_ls w r p0 hk hxl
          rw [ex] at ex2; cases ex2
          exact hnp (epar.symm.trans epar2)

/-- The last leaf below a node, when that is the last node of `ls`. -/
theorem rm_mem : ∀ (j : Nat) {n : Nat} {nd : Node α}, h.get n = some nd → n ≠ 0 → ht n = j →
    ∃ ld, h.get (rm h j n) = some ld ∧ rm h j n ≠ 0 ∧ ht (rm h j n) = 0 := by
  intro j
  induction j with
  | zero => intro n nd e n0 hn; exact ⟨nd, e, n0, hn⟩
  | succ j ih =>
    intro n nd e n0 hn
    simp only [rm]
    have hl := w.kids_len e n0 (by omega)
    cases hh : (kidsOf h n).getLast? with
    | none =>
      rw [List.getLast?_eq_none_iff, kidsOf_eq e] at hh
      rw [hh] at hl; simp at hl
    | some x =>
      have hx : x ∈ kidsOf h n := List.mem_of_getLast? hh
      rw [kidsOf_eq e] at hx
      obtain ⟨x0, _, hxk, xd, ex, _, _⟩ := w.kid_mem e n0 hx
      exact ih ex x0 (by omega)

/-- What becomes of the last leaf below a node: when `ls` are leaves and the last
of them is it, then the last of `ls'` is it afterwards. -/
theorem rm_same : ∀ (j : Nat) {n : Nat} {nd : Node α}, h.get n = some nd → n ≠ 0 → ht n = j → n ∉ ls →
    rm h' j n = if k = 0 ∧ ls.getLast? = some (rm h j n) then (ls'.getLast?).getD 0 else rm h j n := by
  intro j
  induction j using Nat.strongRecOn with
  | _ j ih =>
    intro n nd e n0 hn hl
    by_cases hnp : n = p
    · subst hnp
      rw [hk] at hn
      subst hn
      have q1 : kidsOf h n = A ++ ls ++ B := by rw [kidsOf_eq r.hp, r.pkids]
      have q2 : kidsOf h' n = A ++ ls' ++ B := by rw [kidsOf_eq r.hp', r.pkids']
      rcases List.eq_nil_or_concat B with hB | ⟨B₂, b, hB⟩
      · have hlen := r.len
        have hlen' := r.len'
        rcases List.eq_nil_or_concat ls with hls | ⟨ls₂, x, hls⟩
        · rw [hls] at hlen; simp at hlen
        rcases List.eq_nil_or_concat ls' with hls' | ⟨ls₂', y, hls'⟩
        · rw [hls'] at hlen'; simp at hlen'
        rw [List.concat_eq_append] at hls hls'
        have e1 : (A ++ ls ++ B).getLast? = some x := by rw [hB, hls]; simp
        have e2 : (A ++ ls' ++ B).getLast? = some y := by rw [hB, hls']; simp
        have e3 : ls.getLast? = some x := by rw [hls]; simp
        have e4 : ls'.getLast? = some y := by rw [hls']; simp
        rw [rm_succ (q2 ▸ e2), rm_succ (q1 ▸ e1)]
        cases k with
        | zero => simp [rm, e3, e4]
        | succ k =>
          rw [if_neg (by simp)]
          simp only [rm]
          have hx : x ∈ ls := by rw [hls]; simp
          have hy : y ∈ ls' := by rw [hls']; simp
          have l1 := kidsOf_len w r p0 hk hx (by omega)
          have l2 := kidsOf_len' w r p0 hk hy (by omega)
          have hf := r.flatKids
          rcases List.eq_nil_or_concat (kidsOf h x) with hkx | ⟨gs, g, hkx⟩
          · rw [hkx] at l1; simp at l1
          rcases List.eq_nil_or_concat (kidsOf h' y) with hky | ⟨gs', g', hky⟩
          · rw [hky] at l2; simp at l2
          rw [List.concat_eq_append] at hkx hky
          rw [hls, hls', List.flatMap_append, List.flatMap_append] at hf
          simp only [List.flatMap_cons, List.flatMap_nil, List.append_nil] at hf
          rw [hkx, hky, ← List.append_assoc, ← List.append_assoc] at hf
          have := List.append_inj_right' hf rfl
          simp only [List.cons.injEq, and_true] at this
          subst this
          rw [hkx, hky]
          simp only [List.getLast?_concat]
          obtain ⟨g0, _, hgk, _, gl, gd, eg, _⟩ := mem_grand w r p0 hk hx (g := g) (by rw [hkx]; simp)
          have := ih k (by omega) eg g0 (by omega) gl
          rw [if_neg (by simp)] at this
          exact this
      · rw [List.concat_eq_append] at hB
        have e1 : (A ++ ls ++ B).getLast? = some b := by rw [hB, ← List.append_assoc]; simp
        have e2 : (A ++ ls' ++ B).getLast? = some b := by rw [hB, ← List.append_assoc]; simp
        rw [rm_succ (q2 ▸ e2), rm_succ (q1 ▸ e1)]
        obtain ⟨x0, _, hxk, _, xl, _, xd, ex, _⟩ := mem_B w r p0 hk (x := b) (by rw [hB]; simp)
        exact ih k (by omega) ex x0 hxk xl
    · obtain ⟨hv, hkd⟩ := same_vals w r p0 hk e hnp hl
      cases j with
      | zero =>
        rw [if_neg]
        · rfl
        rintro ⟨-, hlast⟩
        exact hl (List.mem_of_getLast? hlast)
      | succ j =>
        cases hh : (kidsOf h n).getLast? with
        | none =>
          have hl := w.kids_len e n0 (by omega)
          rw [List.getLast?_eq_none_iff, kidsOf_eq e] at hh
          rw [hh] at hl; simp at hl
        | some x =>
          have hx : x ∈ kidsOf h n := List.mem_of_getLast? hh
          rw [kidsOf_eq e] at hx
          obtain ⟨x0, _, hxk, xd, ex, epar, _⟩ := w.kid_mem e n0 hx
          rw [rm_succ (h := h') (hkd ▸ hh), rm_succ hh]
          refine ih j (by omega) ex x0 (by omega) ?_
          intro hxl
          obtain ⟨_, _, _, _, xd2, ex2, epar2⟩ := mem_ls w r p0 hk hxl
          rw [ex] at ex2; cases ex2
          exact hnp (epar.symm.trans epar2)

end Redist
end Gtl.Btree
