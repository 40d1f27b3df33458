import Verif.Btree.Shrink
/-
Erasure of one value.
-/
set_option linter.unusedSectionVars false
namespace Gtl.Btree
variable {α κ : Type}
variable {c : Cfg α κ} {t t' t'' : Tree α} {H H' H'' : Nat} {ht ht' ht'' : Nat → Nat} {L : List α} {E E' : Nat → Prop}

/-- What is left of a tree after the loop of rebalance_after_delete. -/
def Shrunk (c : Cfg α κ) (L X Y : List α) (t' : Tree α) (res : Option It) : Prop :=
  (L = [] ∧ Empty t' ∧ res = none) ∨
  ∃ H' ht' k r, Good c t' (Loose False ht') H' ht' L ∧ t'.size = L.length ∧ res = some r ∧
    Pt t'.heap t'.root H' k r.node r.pos X Y ∧ (0 < k → r.pos < (valsOf t'.heap r.node).length)

theorem rebalanceLoop_ok (hK : 3 ≤ c.K) : ∀ (f : Nat) {t : Tree α} {ht : Nat → Nat} {k kr : Nat} {iter res : It} {first : Bool}
    {X Y Xi Yi : List α}, Good c t (· = iter.node) H ht L → t.size = L.length →
    Pt t.heap t.root H k iter.node iter.pos Xi Yi → Pt t.heap t.root H kr res.node res.pos X Y →
    (0 < kr → res.pos < (valsOf t.heap res.node).length) →
    (first = true → iter = res) → (first = false → kr < k) → H - k < f →
    ∃ t' res', rebalanceLoop c f t iter res first = some (t', res') ∧ Shrunk c L X Y t' res'
  | 0, _, _, _, _, _, _, _, _, _, _, _, _, _, _, _, _, _, _, hf => absurd hf (Nat.not_lt_zero _)
  | f + 1, t, ht, k, kr, iter, res, first, X, Y, Xi, Yi, g, hs, pi, pr, hin, hfirst, hnf, hf => by
    unfold rebalanceLoop
    obtain ⟨nd, e, n0, hnt, hi⟩ := pi.live g.wf
    by_cases hroot : iter.node = t.root
    · rw [if_pos hroot]
      rw [hroot] at g
      obtain ⟨t', e1, h1⟩ := tryShrink_ok g hs
      simp only [e1, Option.bind_eq_bind, Option.bind_some]
      rcases h1 with ⟨hL, em⟩ | ⟨H', ht', g', hs', hp⟩
      · rw [if_pos em.size]
        exact ⟨_, _, rfl, .inl ⟨hL, em, rfl⟩⟩
      · rw [if_neg]
        · exact ⟨_, _, rfl, .inr ⟨H', ht', kr, res, g', hs', rfl, (hp _ _ _ _ _ pr hin).1, by
            rw [(hp _ _ _ _ _ pr hin).2]; exact hin⟩⟩
        · rw [hs']
          exact fun h => g'.ne_nil (List.length_eq_zero_iff.1 h)
    · rw [if_neg hroot]
      simp only [e, Option.bind_eq_bind, Option.bind_some]
      by_cases hbig : c.minK ≤ nd.count
      · rw [if_pos hbig]
        refine ⟨_, _, rfl, .inr ⟨H, ht, kr, res, ⟨g.wf, g.left, g.right, ?_, g.seq⟩, hs, rfl, pr, hin⟩⟩
        intro m md em m0 _
        by_cases hm : m = iter.node
        · subst hm; rw [e] at em; cases em
          have : c.minK = c.K / 2 := rfl
          have : nd.count = nd.vals.length := rfl
          omega
        · exact g.full m md em m0 hm
      · rw [if_neg hbig]
        obtain ⟨m, it', t', ht', e1, rf⟩ := tryMergeOrRebalance_ok hK (n := iter.node) (i := iter.pos) g e (by omega) hroot pi
        have e1 : tryMergeOrRebalance c t iter = some (m, it', t') := e1
        simp only [e1, Option.bind_some]
        -- where the result is now
        have pr' : Pt t'.heap t'.root H kr (if first = true then it' else res).node (if first = true then it' else res).pos X Y ∧
            (0 < kr → (if first = true then it' else res).pos < (valsOf t'.heap (if first = true then it' else res).node).length) := by
          cases first with
          | true =>
            have hir := hfirst rfl
            subst hir
            have hk0 : k = kr := by
              obtain ⟨_, _, _, h1, _⟩ := pi.live g.wf
              obtain ⟨_, _, _, h2, _⟩ := pr.live g.wf
              omega
            subst hk0
            obtain ⟨rfl, rfl⟩ := pi.det g.wf pr
            exact ⟨rf.pt, fun h => rf.inside (hin h)⟩
          | false =>
            refine ⟨rf.below.pt g.wf (hnf rfl) pr, fun h => ?_⟩
            obtain ⟨rd, er, r0, hrt, _⟩ := pr.live g.wf
            obtain ⟨rd', er', h1, _⟩ := rf.below.keep _ _ er r0 (by have := hnf rfl; omega)
            have := hin h
            simp only [Bool.false_eq_true, if_false]
            rw [valsOf_eq er', h1, ← valsOf_eq er]
            exact this
        cases m with
        | false =>
          simp only [Bool.false_eq_true, if_false]
          exact ⟨_, _, rfl, .inr ⟨H, ht', kr, _, rf.plain rfl, by rw [rf.size, hs], rfl, pr'⟩⟩
        | true =>
          simp only [if_true]
          obtain ⟨nd', en', np0, nr, g'⟩ := rf.merged rfl
          simp only [en', Option.bind_some]
          obtain ⟨nd'', en'', n'0, hnt', _⟩ := rf.pt.live g'.wf
          rw [en'] at en''; cases en''
          obtain ⟨pd, ep, _, _, hkid, hpt⟩ := g'.parent_internal en' n'0 nr
          have hl := (List.getElem?_eq_some_iff.1 hkid).1
          have hkl := g'.wf.kids_len ep np0 (by omega)
          obtain ⟨Xp, Yp, pp⟩ := g'.wf.pt (i := nd'.position) ep np0 (by omega)
          have hb := g'.wf.bound _ _ ep np0
          rw [hpt, hnt'] at pp
          exact rebalanceLoop_ok hK f (iter := ⟨nd'.parent, nd'.position⟩) g' (by rw [rf.size, hs]) pp pr'.1 pr'.2 (by simp)
            (fun _ => by
              cases first with
              | true =>
                have hir := hfirst rfl
                subst hir
                obtain ⟨_, _, _, h1, _⟩ := pi.live g.wf
                obtain ⟨_, _, _, h2, _⟩ := pr.live g.wf
                omega
              | false => have := hnf rfl; omega) (by omega)

/-- rebalance_after_delete. -/
theorem rebalanceAfterDelete_ok (hK : 3 ≤ c.K) {k : Nat} {it : It} {X Y : List α} (g : Good c t (· = it.node) H ht L)
    (hs : t.size = L.length) (p : Pt t.heap t.root H k it.node it.pos X Y)
    (hin : 0 < k → it.pos < (valsOf t.heap it.node).length) :
    ∃ it' t', rebalanceAfterDelete c t it = some (it', t') ∧ Rep c t' L ∧ t'.iterAt X.length = some it' := by
  have hf := g.fuel
  have hL : X ++ Y = L := by rw [p.total g.wf, g.seq]
  obtain ⟨t', res', e1, h⟩ := rebalanceLoop_ok hK (t.heap.length + 1) (first := true) (Xi := X) (Yi := Y) g hs p p hin
    (fun _ => rfl) (by simp) (by omega)
  unfold rebalanceAfterDelete
  simp only [e1, Option.bind_eq_bind, Option.bind_some]
  rcases h with ⟨rfl, em, rfl⟩ | ⟨H', ht', k', r, g', hs', rfl, p', hin'⟩
  · simp only [em.end, Option.bind_some]
    refine ⟨_, _, rfl, .inl ⟨em, rfl⟩, ?_⟩
    rw [(List.append_eq_nil_iff.1 hL).1]
    exact em.iterAt
  · obtain ⟨nd, e, n0, hnt, hi⟩ := p'.live g'.wf
    simp only [e, Option.bind_some]
    have hcn : nd.count = nd.vals.length := rfl
    by_cases hpos : r.pos = nd.count
    · rw [if_pos hpos]
      have hk0 : k' = 0 := by
        by_contra h
        have := hin' (by omega)
        rw [valsOf_eq e] at this
        omega
      subst hk0
      have hfull := g'.full _ _ e n0 (by simp)
      rw [if_neg (show nd.count ≠ 0 by omega)]
      obtain ⟨A, B, x, _, rfl, rfl⟩ := p'
      obtain ⟨vs, v, hvs⟩ : ∃ vs v, nd.vals = vs ++ [v] := by
        rcases List.eq_nil_or_concat nd.vals with h | ⟨vs, v, h⟩
        · rw [h] at hfull; simp at hfull
        · exact ⟨vs, v, by simpa using h⟩
      have q : Cur t' H' ⟨r.node, nd.count - 1⟩ (A ++ vs) (v :: B) := by
        refine ⟨0, ⟨A, B, x, ?_, ?_, ?_⟩, .inl ?_⟩
        · show nd.count - 1 ≤ (valsOf t'.heap r.node).length
          rw [valsOf_eq e]; omega
        · show _ = A ++ (valsOf t'.heap r.node).take (nd.count - 1)
          rw [valsOf_eq e, hcn, hvs]; simp
        · show _ = (valsOf t'.heap r.node).drop (nd.count - 1) ++ B
          rw [valsOf_eq e, hcn, hvs]; simp
        · show nd.count - 1 < (valsOf t'.heap r.node).length
          rw [valsOf_eq e]; omega
      obtain ⟨it', e2, q2⟩ := q.increment g'
      have := q2.iterAt g'
      simp only [e2, Option.bind_some]
      refine ⟨_, _, rfl, .inr ⟨H', ht', g', hs'⟩, ?_⟩
      rw [← this]
      simp only [pre, valsOf_eq e, hpos, hcn, List.take_length, hvs, List.append_assoc]
    · rw [if_neg hpos]
      refine ⟨_, _, rfl, .inr ⟨H', ht', g', hs'⟩, ?_⟩
      have q : Cur t' H' r X Y := ⟨k', p', .inl (by rw [valsOf_eq e]; omega)⟩
      exact q.iterAt g'

/-- Removing values of a leaf. -/
theorem removeLeaf_ok {n i m : Nat} {nd : Node α} {X M Y : List α} (g : Good c t E H ht L) (hE : ∀ m, E m → m = n)
    (e : t.heap.get n = some nd) (p : Pt t.heap t.root H 0 n i X (M ++ Y)) (hm : M.length = m)
    (hi : i + m ≤ nd.vals.length) (s : Nat) :
    ∃ h', removeValues t.heap n i m = some h' ∧ Good c { t with heap := h', size := s } (· = n) H ht (X ++ Y) ∧
      Pt h' t.root H 0 n i X Y := by
  refine ⟨t.heap.set n { nd with vals := nd.vals.take i ++ nd.vals.drop (i + m) }, ?_, ?_⟩
  · unfold removeValues
    simp only [e, Option.bind_eq_bind, Option.bind_some]
    rw [check_of (by simp [Node.count, hi])]
    rfl
  · obtain ⟨nd', e', n0, hnt, _⟩ := p.live g.wf
    rw [e] at e'; cases e'
    have hc := g.wf.vals_le_cap e n0
    obtain ⟨A, B, hX, hY, gg, pp⟩ := g.setLeaf (E' := (· = n)) e p (nd.vals.take i ++ nd.vals.drop (i + m))
      (by simp; omega)
      (t' := { t with heap := t.heap.set n { nd with vals := nd.vals.take i ++ nd.vals.drop (i + m) }, size := s }) rfl rfl rfl
      (fun m hm h => absurd (hE m h) hm) (fun h => absurd rfl h)
    have hY' : Y = nd.vals.drop (i + m) ++ B := by
      have := congrArg (List.drop m) hY
      rw [List.drop_append, List.drop_append, List.drop_drop] at this
      have h1 : List.drop m M = [] := by rw [← hm]; simp
      have h2 : m - M.length = 0 := by omega
      have h3 : m - (List.drop i nd.vals).length = 0 := by simp; omega
      rw [h1, h2, h3] at this
      simpa using this
    have q := pp i (by simp; omega)
    have t1 : (nd.vals.take i ++ nd.vals.drop (i + m)).take i = nd.vals.take i := by
      rw [List.take_append_of_le_length (by simp; omega), List.take_take, Nat.min_self]
    have t2 : (nd.vals.take i ++ nd.vals.drop (i + m)).drop i = nd.vals.drop (i + m) := by
      rw [List.drop_append, List.drop_eq_nil_of_le (by simp)]
      have : i - (nd.vals.take i).length = 0 := by simp; omega
      rw [this]; simp
    rw [t1, t2, ← hX, ← hY'] at q
    refine ⟨?_, q⟩
    have : X ++ Y = A ++ (nd.vals.take i ++ nd.vals.drop (i + m) ++ B) := by
      rw [hX, hY']; simp
    rw [this]
    exact gg

theorem removeValue_leaf {h : Heap α} {n i : Nat} {nd : Node α} (e : h.get n = some nd) (hl : nd.leaf = true)
    (hi : i < nd.vals.length) : removeValue h n i = removeValues h n i 1 := by
  unfold removeValue
  simp only [e, Option.bind_eq_bind, Option.bind_some, hl, if_true]
  rw [check_of (by simp [Node.count, hi])]
  rfl

/-- erase(iterator). -/
theorem eraseIt_ok (hK : 3 ≤ c.K) (r : Rep c t L) {X Y : List α} {v : α} {it : It} (hL : X ++ v :: Y = L)
    (hit : t.iterAt X.length = some it) :
    ∃ it' t', eraseIt c t it = some (it', t') ∧ Rep c t' (X ++ Y) ∧ t'.iterAt X.length = some it' := by
  obtain ⟨H, ht, g, hs⟩ := r.good (by rw [← hL]; simp)
  obtain ⟨it0, e0, q⟩ := g.iterAt_ok hL
  rw [hit] at e0; cases e0
  obtain ⟨k, p, hq⟩ := id q
  obtain ⟨nd, e, n0, hnt, hi⟩ := p.live g.wf
  have hd := q.deref g
  have hlt : it.pos < nd.vals.length := by
    simp only [deref, e, Option.bind_eq_bind, Option.bind_some] at hd
    exact (List.getElem?_eq_some_iff.1 hd).1
  have hsz : t.size - 1 = (X ++ Y).length := by
    rw [hs, ← hL]; simp
  unfold eraseIt
  simp only [e, Option.bind_eq_bind, Option.bind_some]
  cases k with
  | zero =>
    have hleaf := (g.wf.leaf_iff e n0).2 hnt
    rw [if_pos hleaf, removeValue_leaf e hleaf hlt]
    obtain ⟨h', e1, g1, p1⟩ := removeLeaf_ok (M := [v]) (m := 1) g (by simp) e p rfl (by omega) (t.size - 1)
    simp only [e1, Option.bind_some]
    exact rebalanceAfterDelete_ok hK g1 hsz p1 (by simp)
  | succ k =>
    have hleaf := g.wf.leaf_false e n0 (by omega)
    rw [hleaf]
    simp only [Bool.false_eq_true, if_false]
    obtain ⟨l, ld, q0, el, l0, hl, nd', e', _, z, hz, hlz, hdl⟩ := decrement_node g p
    rw [e] at e'; cases e'
    have hlc : 1 ≤ ld.vals.length := g.full l ld el l0 (by simp)
    have hdec : decrement t.heap it = some ⟨l, ld.count - 1⟩ := by
      unfold decrement
      simp only [e, Option.bind_eq_bind, Option.bind_some, hleaf, Bool.false_eq_true, if_false, hz, hdl, el]
      rw [check_of (by simp [Node.count, hlc])]
      rfl
    obtain ⟨vs, u, hvs⟩ : ∃ vs u, ld.vals = vs ++ [u] := by
      rcases List.eq_nil_or_concat ld.vals with h | ⟨vs, v, h⟩
      · rw [h] at hlc; simp at hlc
      · exact ⟨vs, v, by simpa using h⟩
    have hlcn : ld.count - 1 = vs.length := by unfold Node.count; rw [hvs]; simp
    have hln : l ≠ it.node := by
      rintro rfl
      rw [e] at el; cases el
      rw [hleaf] at hl; cases hl
    simp only [hdec, Option.bind_some, el, hl, check_true, hlcn]
    rw [show ld.vals[vs.length]? = some u by rw [hvs]; simp]
    simp only [Option.bind_some]
    rw [check_of (by simp [Node.count, hlt])]
    simp only [Option.bind_some]
    -- the value before takes the place of the erased one
    set t1 : Tree α := { t with heap := t.heap.set it.node { nd with vals := nd.vals.set it.pos u } } with ht1
    obtain ⟨g1, p1⟩ := g.setVal (v' := u) e p hlt (t' := t1) rfl rfl rfl
    obtain ⟨l', ld', q1, el', l0', hl', nd1, e1, _, z', hz', hlz', hdl'⟩ := decrement_node g1 p1
    have eg : t1.heap.get it.node = some { nd with vals := nd.vals.set it.pos u } := by
      show (t.heap.set _ _).get _ = _
      rw [set_get e, if_pos rfl]
    rw [eg] at e1; cases e1
    have hzz : z' = z := by
      have : nd.kids[it.pos]? = some z' := hz'
      rw [hz] at this; cases this; rfl
    have hll : l' = l := by
      rw [hlz', hlz, hzz]
      show rm (t.heap.set it.node _) k z = _
      rw [set_rm e]
    subst hll
    have el1 : t1.heap.get l' = some ld := by
      show (t.heap.set _ _).get _ = _
      rw [set_get e, if_neg hln, el]
    rw [el1] at el'; cases el'
    have hlt' : vs.length < ld.vals.length := by rw [hvs]; simp
    have X' : ∃ X1, X = X1 ++ [u] ∧ Pt t1.heap t1.root H 0 l' vs.length X1 (u :: u :: Y) := by
      obtain ⟨A, B, x, _, hX, hY⟩ := q1
      simp only [pre, post, valsOf_eq el1, List.take_length, List.drop_length, List.nil_append] at hX hY
      refine ⟨A ++ vs, by rw [hX, hvs]; simp, A, B, x, ?_, ?_, ?_⟩
      · rw [valsOf_eq el1]; omega
      · simp only [pre, valsOf_eq el1, hvs]; simp
      · simp only [post, valsOf_eq el1, hvs, ← hY]; simp
    clear q1
    obtain ⟨X1, rfl, q1⟩ := X'
    rw [show (t.heap.set it.node { nd with vals := nd.vals.set it.pos u }) = t1.heap from rfl, removeValue_leaf el1 hl hlt']
    obtain ⟨h', e2, g2, p2⟩ := removeLeaf_ok (M := [u]) (m := 1) (Y := u :: Y) g1 (by simp) el1 q1 rfl (by omega) (t.size - 1)
    have g2 : Good c { t with heap := h', size := t.size - 1 } (· = l') H ht (X1 ++ u :: Y) := g2
    simp only [e2, Option.bind_some]
    obtain ⟨r', t2, e3, rep, hi2⟩ := rebalanceAfterDelete_ok hK (it := ⟨l', vs.length⟩) g2 (by rw [hsz]; simp) p2 (by simp)
    simp only [e3, Option.bind_some]
    obtain ⟨H2, ht2, g3, hs3⟩ := rep.good (by simp)
    obtain ⟨r2, e4, q4⟩ := g3.iterAt_ok (X := X1) (Y := u :: Y) rfl
    rw [hi2] at e4; cases e4
    obtain ⟨it3, e5, q5⟩ := q4.increment g3
    simp only [e5, Option.bind_some]
    refine ⟨_, _, rfl, by simpa using rep, q5.iterAt g3⟩

end Gtl.Btree
