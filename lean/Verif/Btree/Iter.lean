import Verif.Btree.Points
/-
Iterators move through the sequence of values one place at a time.
-/
set_option linter.unusedSectionVars false
namespace Gtl.Btree
variable {α κ : Type}

/-- A tree with values `L`; nodes of `E` may be without values. -/
structure Good (c : Cfg α κ) (t : Tree α) (E : Nat → Prop) (H : Nat) (ht : Nat → Nat) (L : List α) : Prop where
  wf : WF c t.heap t.root H ht
  left : ∃ rn, t.heap.get t.root = some rn ∧ rn.parent = lm t.heap H t.root
  right : t.rightmost = rm t.heap H t.root
  full : Full t.heap E
  seq : elems t.heap H t.root = L

theorem Good.mono {c : Cfg α κ} {t : Tree α} {E E' : Nat → Prop} {H : Nat} {ht : Nat → Nat} {L : List α}
    (g : Good c t E H ht L) (h : ∀ m, E m → E' m) : Good c t E' H ht L :=
  ⟨g.wf, g.left, g.right, fun m md em m0 hm => g.full m md em m0 fun he => hm (h m he), g.seq⟩

/-- The inner nodes, if `z`. -/
def Loose (z : Prop) (ht : Nat → Nat) : Nat → Prop := fun m => z ∧ 0 < ht m

@[simp] theorem loose_false (ht : Nat → Nat) (m : Nat) : Loose False ht m = False := by simp [Loose]

theorem Loose.pos {z : Prop} {ht : Nat → Nat} {m : Nat} (h : Loose z ht m) : 0 < ht m := h.2

/-- `it` is an iterator of the tree and is between `X` and `Y`. -/
def Cur (t : Tree α) (H : Nat) (it : It) (X Y : List α) : Prop :=
  ∃ k, Pt t.heap t.root H k it.node it.pos X Y ∧
    (it.pos < (valsOf t.heap it.node).length ∨ it = ⟨t.rightmost, (valsOf t.heap t.rightmost).length⟩)

variable {c : Cfg α κ} {t : Tree α} {H : Nat} {ht : Nat → Nat} {L : List α} {E : Nat → Prop}

theorem lm_live (w : WF c t.heap t.root H ht) : ∀ (j : Nat) {n : Nat} {nd : Node α}, t.heap.get n = some nd → n ≠ 0 →
    ht n = j → ∃ ld, t.heap.get (lm t.heap j n) = some ld ∧ lm t.heap j n ≠ 0 ∧ ht (lm t.heap j n) = 0 := by
  intro j n nd e n0 hn
  obtain ⟨A, B, x⟩ := w.ctx' e n0
  rw [hn] at x
  obtain ⟨B', y, _⟩ := x.lm_ctx w
  exact y.live w

section
variable (g : Good c t E H ht L)
include g

theorem Good.root_leaf : ∃ rn pn, t.heap.get t.root = some rn ∧ t.heap.get rn.parent = some pn ∧ pn.leaf = true ∧
    rn.parent = lm t.heap H t.root := by
  obtain ⟨rn, er, hp⟩ := g.left
  obtain ⟨ld, e, n0, h0⟩ := lm_live g.wf H er g.wf.root0 g.wf.rootHt
  refine ⟨rn, ld, er, by rw [hp]; exact e, (g.wf.leaf_iff e n0).2 h0, hp⟩

/-- The parent of a node that is not the root is internal. -/
theorem Good.parent_internal {n : Nat} {nd : Node α} (e : t.heap.get n = some nd) (n0 : n ≠ 0) (hr : n ≠ t.root) :
    ∃ pd, t.heap.get nd.parent = some pd ∧ nd.parent ≠ 0 ∧ pd.leaf = false ∧ pd.kids[nd.position]? = some n ∧
      ht nd.parent = ht n + 1 := by
  obtain ⟨p0, pd, ep, hk⟩ := g.wf.par n nd e n0 hr
  have := g.wf.par_ht e n0 hr
  exact ⟨pd, ep, p0, g.wf.leaf_false ep p0 (by omega), hk, this⟩

theorem climb_ok : ∀ (f : Nat) {k n i : Nat} {X Y : List α}, Pt t.heap t.root H k n i X Y → H - k < f →
    ∃ r, climb t.heap f ⟨n, i⟩ = some r ∧ ∃ k', Pt t.heap t.root H k' r.node r.pos X Y ∧
      (r.pos < (valsOf t.heap r.node).length ∨
        (r.node = t.root ∧ r.pos = (valsOf t.heap t.root).length ∧ Y = []))
  | 0, _, _, _, _, _, _, hf => absurd hf (Nat.not_lt_zero _)
  | f + 1, k, n, i, X, Y, p, hf => by
    obtain ⟨nd, e, n0, hk, hi⟩ := p.live g.wf
    by_cases hc : i = nd.vals.length
    · by_cases hr : n = t.root
      · subst hr
        obtain ⟨rn, pn, er, epn, hleaf, _⟩ := g.root_leaf
        rw [e] at er; cases er
        refine ⟨⟨t.root, i⟩, ?_, k, p, .inr ⟨rfl, by rw [valsOf_eq e]; exact hc, ?_⟩⟩
        · unfold climb
          have hc' : i = nd.count := hc
          simp [e, hc', epn, hleaf]
        · obtain ⟨A, B, x, _, _, rfl⟩ := p
          have hkH : k = H := by rw [← hk, g.wf.rootHt]
          subst hkH
          obtain ⟨_, rfl⟩ := x.det g.wf .root
          have : post t.heap k t.root i = [] := by
            cases k <;> simp [post, valsOf_eq e, hc]
          simp [this]
      · obtain ⟨pd, epd, p0, hleaf, _, hpk⟩ := g.parent_internal e n0 hr
        subst hc
        have hb := g.wf.bound _ _ epd p0
        obtain ⟨r, er, hr'⟩ := climb_ok f (p.up g.wf e hr) (by omega)
        refine ⟨r, ?_, hr'⟩
        unfold climb
        have hc' : nd.vals.length = nd.count := rfl
        simp [e, hc', epd, hleaf, er]
    · refine ⟨⟨n, i⟩, ?_, k, p, .inl (by rw [valsOf_eq e]; show i < _; omega)⟩
      unfold climb
      have hc' : i ≠ nd.count := hc
      simp [e, hc']

theorem internalLast_ok : ∀ (f : Nat) {k n i : Nat} {X Y : List α}, Pt t.heap t.root H k n i X Y → H - k < f →
    ∃ o, internalLast t.heap f ⟨n, i⟩ = some o ∧ match o with
      | some r => (∃ k', Pt t.heap t.root H k' r.node r.pos X Y) ∧ r.pos < (valsOf t.heap r.node).length
      | none => Y = []
  | 0, _, _, _, _, _, _, hf => absurd hf (Nat.not_lt_zero _)
  | f + 1, k, n, i, X, Y, p, hf => by
    obtain ⟨nd, e, n0, hk, hi⟩ := p.live g.wf
    by_cases hc : i = nd.vals.length
    · by_cases hr : n = t.root
      · subst hr
        obtain ⟨rn, pn, er, epn, hleaf, _⟩ := g.root_leaf
        rw [e] at er; cases er
        refine ⟨none, ?_, ?_⟩
        · unfold internalLast
          have hc' : i = nd.count := hc
          simp [e, hc', epn, hleaf]
        · obtain ⟨A, B, x, _, _, rfl⟩ := p
          have hkH : k = H := by rw [← hk, g.wf.rootHt]
          subst hkH
          obtain ⟨_, rfl⟩ := x.det g.wf .root
          have : post t.heap k t.root i = [] := by
            cases k <;> simp [post, valsOf_eq e, hc]
          simp [this]
      · obtain ⟨pd, epd, p0, hleaf, _, hpk⟩ := g.parent_internal e n0 hr
        subst hc
        have hb := g.wf.bound _ _ epd p0
        obtain ⟨r, er, hr'⟩ := internalLast_ok f (p.up g.wf e hr) (by omega)
        refine ⟨r, ?_, hr'⟩
        unfold internalLast
        have hc' : nd.vals.length = nd.count := rfl
        simp [e, hc', epd, hleaf, er]
    · refine ⟨some ⟨n, i⟩, ?_, ⟨k, p⟩, by rw [valsOf_eq e]; simp only; omega⟩
      unfold internalLast
      have hc' : i ≠ nd.count := hc
      simp [e, hc']

theorem descendFirst_ok : ∀ (k f : Nat) {n : Nat} {nd : Node α}, t.heap.get n = some nd → n ≠ 0 → ht n = k → k < f →
    descendFirst t.heap f n = some (lm t.heap k n)
  | 0, f + 1, n, nd, e, n0, hk, _ => by
    unfold descendFirst
    simp [e, (g.wf.leaf_iff e n0).2 hk, lm]
  | k + 1, f + 1, n, nd, e, n0, hk, hf => by
    have hl := g.wf.kids_len e n0 (by omega)
    obtain ⟨z, hz⟩ : ∃ z, nd.kids[0]? = some z := ⟨nd.kids[0]'(by omega), List.getElem?_eq_getElem _⟩
    obtain ⟨z0, _, hzk, zd, ez, _⟩ := g.wf.kid _ _ _ _ e n0 hz
    unfold descendFirst
    simp only [e, Option.bind_eq_bind, Option.bind_some, g.wf.leaf_false e n0 (by omega), Bool.false_eq_true, if_false, hz]
    rw [descendFirst_ok k f ez z0 (by omega) (by omega), lm_succ (x := z)]
    rw [kidsOf_eq e, List.head?_eq_getElem?, hz]

theorem descendLast_ok : ∀ (k f : Nat) {n : Nat} {nd : Node α}, t.heap.get n = some nd → n ≠ 0 → ht n = k → k < f →
    descendLast t.heap f n = some (rm t.heap k n)
  | 0, f + 1, n, nd, e, n0, hk, _ => by
    unfold descendLast
    simp [e, (g.wf.leaf_iff e n0).2 hk, rm]
  | k + 1, f + 1, n, nd, e, n0, hk, hf => by
    have hl := g.wf.kids_len e n0 (by omega)
    obtain ⟨z, hz⟩ : ∃ z, nd.kids[nd.vals.length]? = some z :=
      ⟨nd.kids[nd.vals.length]'(by omega), List.getElem?_eq_getElem _⟩
    obtain ⟨z0, _, hzk, zd, ez, _⟩ := g.wf.kid _ _ _ _ e n0 hz
    unfold descendLast
    simp only [e, Option.bind_eq_bind, Option.bind_some, g.wf.leaf_false e n0 (by omega), Bool.false_eq_true, if_false,
      Node.count, hz]
    rw [descendLast_ok k f ez z0 (by omega) (by omega), rm_succ (x := z)]
    rw [kidsOf_eq e, List.getLast?_eq_getElem?, hl]
    exact hz

/-- The last leaf below a kid of an internal node, before a value of that node. -/
theorem decrement_node {k n i : Nat} {X Y : List α} (p : Pt t.heap t.root H (k + 1) n i X Y) :
    ∃ l ld, Pt t.heap t.root H 0 l ld.vals.length X Y ∧ t.heap.get l = some ld ∧ l ≠ 0 ∧ ld.leaf = true ∧
      ∃ nd, t.heap.get n = some nd ∧ nd.leaf = false ∧ ∃ z, nd.kids[i]? = some z ∧ l = rm t.heap k z ∧
      descendLast t.heap (t.heap.length + 1) z = some l := by
  obtain ⟨nd, e, n0, hk, hi⟩ := p.live g.wf
  obtain ⟨A, B, x, _, rfl, rfl⟩ := p
  have hl := g.wf.kids_len e n0 (by omega)
  obtain ⟨z, hz⟩ : ∃ z, nd.kids[i]? = some z := ⟨nd.kids[i]'(by omega), List.getElem?_eq_getElem _⟩
  obtain ⟨z0, _, hzk, zd, ez, _⟩ := g.wf.kid _ _ _ _ e n0 hz
  have y := Ctx.kid x e hz
  obtain ⟨A', y', hA'⟩ := y.rm_ctx g.wf
  obtain ⟨ld, el, l0, hlk⟩ := y'.live g.wf
  refine ⟨_, ld, ?_, el, l0, (g.wf.leaf_iff el l0).2 hlk, nd, e, g.wf.leaf_false e n0 (by omega), z, hz, rfl, ?_⟩
  · refine ⟨A', _, y', by rw [valsOf_eq el], ?_, ?_⟩
    · simp only [pre, valsOf_eq e, kidsOf_eq e]
      rw [valsOf_eq el] at hA' ⊢
      rw [List.take_length, ← hA']
      obtain ⟨hlt, hg⟩ := List.getElem?_eq_some_iff.1 hz
      rw [List.take_succ_eq_append_getElem hlt, hg, List.map_append, ← List.append_nil (nd.vals.take i),
        inter_zF _ _ _ _ (by simp; omega)]
      simp
    · simp [post, valsOf_eq e, kidsOf_eq e, valsOf_eq el]
  · have := g.wf.height_lt
    have hb := g.wf.bound _ _ e n0
    exact descendLast_ok g k _ ez z0 (by omega) (by omega)

theorem climbBack_ok : ∀ (f : Nat) {k n : Nat} {A B : List α} {X : List α} {v : α}, Ctx t.heap t.root H k n A B →
    A = X ++ [v] → H - k < f →
    ∃ r, climbBack t.heap f n = some r ∧ ∃ k' Y', Pt t.heap t.root H k' r.node r.pos X Y' ∧
      r.pos < (valsOf t.heap r.node).length
  | 0, _, _, _, _, _, _, _, _, hf => absurd hf (Nat.not_lt_zero _)
  | f + 1, k, n, A, B, X, v, x, hA, hf => by
    obtain ⟨nd, e, n0, hk⟩ := x.live g.wf
    cases x with
    | root => simp at hA
    | @kid _ q qd i _ A B xq eq hi2 =>
      obtain ⟨_, _, q0, hqk⟩ := xq.live g.wf
      obtain ⟨_, hr, _, xd, ex, e1, e2⟩ := g.wf.kid _ _ _ _ eq q0 hi2
      rw [e] at ex; cases ex
      have hl := g.wf.kids_len eq q0 (by omega)
      obtain ⟨hlt, hg⟩ := List.getElem?_eq_some_iff.1 hi2
      have hleaf := g.wf.leaf_false eq q0 (by omega)
      have hb := g.wf.bound _ _ eq q0
      by_cases hi0 : i = 0
      · subst hi0
        simp only [List.take_zero, List.map_nil, zF_nil_left, List.append_nil] at hA
        obtain ⟨r, er, hr'⟩ := climbBack_ok f xq hA (by omega)
        refine ⟨r, ?_, hr'⟩
        unfold climbBack
        simp [e, e1, e2, eq, hleaf, er]
      · obtain ⟨j, rfl⟩ : ∃ j, i = j + 1 := ⟨i - 1, by omega⟩
        refine ⟨⟨q, j⟩, ?_, k + 1, _, ⟨A, B, xq, ?_, ?_, rfl⟩, ?_⟩
        · unfold climbBack
          simp [e, e1, e2, eq, hleaf]
        · rw [valsOf_eq eq]; simp only; omega
        · have hj : j < qd.vals.length := by omega
          rw [List.take_succ_eq_append_getElem hj, List.take_succ_eq_append_getElem (i := j) (by omega),
            List.map_append] at hA
          simp only [List.map_cons, List.map_nil] at hA
          rw [zF_append _ _ _ _ (by simp; omega)] at hA
          simp only [zF_cons, zF_nil_left] at hA
          rw [← List.append_assoc, ← List.append_assoc] at hA
          have := List.append_inj_left' hA rfl
          rw [← this]
          simp only [pre, valsOf_eq eq, kidsOf_eq eq]
          rw [List.take_succ_eq_append_getElem (i := j) (by omega), List.map_append,
            ← List.append_nil (qd.vals.take j), inter_zF _ _ _ _ (by simp; omega)]
          simp
        · rw [valsOf_eq eq]; simp only; omega

end

theorem Good.rm_last (g : Good c t E H ht L) :
    ∃ A' ld, Ctx t.heap t.root H 0 t.rightmost A' [] ∧ t.heap.get t.rightmost = some ld ∧ L = A' ++ ld.vals := by
  obtain ⟨A', x, hA⟩ := (Ctx.root (h := t.heap) (root := t.root) (H := H)).rm_ctx g.wf
  rw [← g.right] at x hA
  obtain ⟨ld, e, _, _⟩ := x.live g.wf
  refine ⟨A', ld, x, e, ?_⟩
  rw [valsOf_eq e, List.nil_append, g.seq] at hA
  exact hA

theorem Good.end_pt (g : Good c t E H ht L) :
    Pt t.heap t.root H 0 t.rightmost (valsOf t.heap t.rightmost).length L [] := by
  obtain ⟨A', ld, x, e, hL⟩ := g.rm_last
  refine ⟨A', [], x, Nat.le_refl _, ?_, ?_⟩
  · simp [pre, valsOf_eq e, hL]
  · simp [post]

theorem Good.end_ok (g : Good c t E H ht L) : ∃ it, t.end = some it ∧ Cur t H it L [] ∧
    it = ⟨t.rightmost, (valsOf t.heap t.rightmost).length⟩ := by
  obtain ⟨A', ld, x, e, hL⟩ := g.rm_last
  refine ⟨⟨t.rightmost, (valsOf t.heap t.rightmost).length⟩, ?_, ⟨0, g.end_pt, .inr rfl⟩, rfl⟩
  simp [Tree.end, e, Node.count, valsOf_eq e]

section
variable (g : Good c t E H ht L)
include g

theorem Cur.total {it : It} {X Y : List α} (p : Cur t H it X Y) : X ++ Y = L := by
  obtain ⟨k, p, _⟩ := p
  rw [p.total g.wf, g.seq]

theorem Cur.mem_end {it : It} {X Y : List α} (p : Cur t H it X Y) :
    (∃ v Y', Y = v :: Y' ∧ deref t.heap it = some v) ∨ (Y = [] ∧ t.end = some it) := by
  obtain ⟨k, p, hp⟩ := p
  obtain ⟨nd, e, n0, hk, hi⟩ := p.live g.wf
  rcases hp with hp | hp
  · left
    rw [valsOf_eq e] at hp
    have hv : nd.vals[it.pos]? = some nd.vals[it.pos] := List.getElem?_eq_getElem hp
    obtain ⟨Y', rfl⟩ := p.value g.wf e hv
    exact ⟨_, Y', rfl, by simp [deref, e, hv]⟩
  · right
    obtain ⟨it', e', p', hit⟩ := g.end_ok
    subst hp
    refine ⟨?_, by rw [e', hit]⟩
    have q := g.end_pt
    have hk0 : k = 0 := by
      obtain ⟨_, e2, _, hk2, _⟩ := q.live g.wf
      exact hk.symm.trans hk2
    subst hk0
    exact (p.det g.wf q).2

theorem Cur.deref {it : It} {X Y : List α} {v : α} (p : Cur t H it X (v :: Y)) : deref t.heap it = some v := by
  rcases p.mem_end g with ⟨v', Y', h1, h2⟩ | ⟨h1, _⟩
  · cases h1; exact h2
  · cases h1

theorem Cur.is_end {it : It} {X : List α} (p : Cur t H it X []) : t.end = some it := by
  rcases p.mem_end g with ⟨v', Y', h1, h2⟩ | ⟨_, h2⟩
  · cases h1
  · exact h2

theorem Cur.unique {it it' : It} {X Y X' Y' : List α} (p : Cur t H it X Y) (p' : Cur t H it' X' Y')
    (hX : X.length = X'.length) : it = it' := by
  have t1 := p.total g
  have t2 := p'.total g
  have hY : Y.length = Y'.length := by
    have : (X ++ Y).length = (X' ++ Y').length := by rw [t1, t2]
    simp at this; omega
  rcases id (p.mem_end g) with ⟨v, Z, rfl, h1⟩ | ⟨rfl, h1⟩
  · rcases id (p'.mem_end g) with ⟨v', Z', rfl, h2⟩ | ⟨rfl, h2⟩
    · obtain ⟨k, p, hp⟩ := p
      obtain ⟨k', p', hp'⟩ := p'
      obtain ⟨nd, e, n0, hk, hi⟩ := p.live g.wf
      obtain ⟨nd', e', n0', hk', hi'⟩ := p'.live g.wf
      have a1 : it.pos < nd.vals.length := by
        simp only [Btree.deref, e, Option.bind_eq_bind, Option.bind_some] at h1
        exact (List.getElem?_eq_some_iff.1 h1).1
      have a2 : it'.pos < nd'.vals.length := by
        simp only [Btree.deref, e', Option.bind_eq_bind, Option.bind_some] at h2
        exact (List.getElem?_eq_some_iff.1 h2).1
      have := p.unique g.wf p' e e' a1 a2 hX
      cases it; cases it'
      simp only at this
      rw [this.1, this.2]
    · simp at hY
  · rcases p'.mem_end g with ⟨v', Z', rfl, h2⟩ | ⟨rfl, h2⟩
    · simp at hY
    · rw [h1] at h2; exact Option.some.inj h2

theorem Good.begin_ok (hE : ∀ n, E n → 0 < ht n := by first | exact fun _ h => h.2 | simp) : ∃ it, t.begin = some it ∧ Cur t H it [] L := by
  obtain ⟨rn, er, hp⟩ := g.left
  obtain ⟨B', x, hB⟩ := (Ctx.root (h := t.heap) (root := t.root) (H := H)).lm_ctx g.wf
  obtain ⟨ld, e, n0, h0⟩ := x.live g.wf
  have hfull := g.full _ _ e n0 (fun h => by have := hE _ h; omega)
  refine ⟨⟨rn.parent, 0⟩, by simp [Tree.begin, er], 0, ⟨[], B', ?_, Nat.zero_le _, ?_, ?_⟩, .inl ?_⟩
  · simp only; rw [hp]; exact x
  · simp [pre]
  · simp only [post, List.drop_zero]
    rw [hp, ← hB, List.append_nil, g.seq]
  · simp only; rw [hp, valsOf_eq e]; omega

theorem Cur.increment {it : It} {X Y : List α} {v : α} (p : Cur t H it X (v :: Y))
    (hE : ∀ n, E n → 0 < ht n := by first | exact fun _ h => h.2 | simp) :
    ∃ it', increment t.heap it = some it' ∧ Cur t H it' (X ++ [v]) Y := by
  have hd := p.deref g
  obtain ⟨k, p, hp⟩ := p
  obtain ⟨nd, e, n0, hk, hi⟩ := p.live g.wf
  simp only [Btree.deref, e, Option.bind_eq_bind, Option.bind_some] at hd
  obtain ⟨n, i⟩ := it
  simp only at *
  obtain ⟨hlt, hgv⟩ := List.getElem?_eq_some_iff.1 hd
  obtain ⟨A, B, x, _, hX, hY⟩ := id p
  cases k with
  | zero =>
    have hleaf := (g.wf.leaf_iff e n0).2 hk
    have q : Pt t.heap t.root H 0 n (i + 1) (X ++ [v]) Y := by
      refine ⟨A, B, x, by rw [valsOf_eq e]; omega, ?_, ?_⟩
      · rw [hX]
        simp only [pre, valsOf_eq e]
        rw [List.take_succ_eq_append_getElem hlt, hgv, List.append_assoc]
      · simp only [post, valsOf_eq e] at hY ⊢
        rw [← List.getElem_cons_drop hlt, List.cons_append] at hY
        exact (List.cons.inj hY).2
    by_cases hlast : i + 1 < nd.count
    · refine ⟨⟨n, i + 1⟩, ?_, 0, q, .inl ?_⟩
      · unfold Btree.increment; simp [e, hleaf, hlast]
      · rw [valsOf_eq e]; exact hlast
    · have hge : nd.count ≤ i + 1 := by omega
      obtain ⟨r, er, k', pr, hr⟩ := climb_ok g (t.heap.length + 1) q (by have := g.wf.height_lt; omega)
      obtain ⟨rd, erd, r0, hrk, hri⟩ := pr.live g.wf
      have run : Btree.increment t.heap ⟨n, i⟩ = if r.pos = rd.count then some ⟨n, i + 1⟩ else some r := by
        unfold Btree.increment
        simp [e, hleaf, hlast, hge, er, erd]
      rcases hr with hr | ⟨hr1, hr2, hr3⟩
      · rw [valsOf_eq erd] at hr
        refine ⟨r, by rw [run, if_neg (by unfold Node.count; omega)], k', pr, .inl (by rw [valsOf_eq erd]; exact hr)⟩
      · subst hr3
        rw [hr1] at erd
        rw [valsOf_eq erd] at hr2
        refine ⟨⟨n, i + 1⟩, by rw [run]; exact if_pos hr2, 0, q, .inr ?_⟩
        obtain ⟨A2, B2, x2, _, _, hY2⟩ := q
        have hB2 : B2 = [] := (List.append_eq_nil_iff.1 hY2.symm).2
        have := x2.rm_eq g.wf hB2
        rw [← g.right] at this
        rw [this]
        simp only [rm, valsOf_eq e]
        have : i + 1 = nd.vals.length := by unfold Node.count at hge; omega
        rw [this]
  | succ k =>
    have hleaf := g.wf.leaf_false e n0 (by omega)
    have hl := g.wf.kids_len e n0 (by omega)
    obtain ⟨z, hz⟩ : ∃ z, nd.kids[i + 1]? = some z := ⟨nd.kids[i + 1]'(by omega), List.getElem?_eq_getElem _⟩
    obtain ⟨z0, _, hzk, zd, ez, _⟩ := g.wf.kid _ _ _ _ e n0 hz
    have y := Ctx.kid x e hz
    obtain ⟨B', y', hB'⟩ := y.lm_ctx g.wf
    obtain ⟨ld, el, l0, hlk⟩ := y'.live g.wf
    have hfull := g.full _ _ el l0 (fun h => by have := hE _ h; omega)
    have hb := g.wf.bound _ _ e n0
    have hH := g.wf.height_lt
    refine ⟨⟨lm t.heap k z, 0⟩, ?_, 0, ⟨_, B', y', Nat.zero_le _, ?_, ?_⟩, .inl ?_⟩
    · unfold Btree.increment
      have : i < nd.count := hlt
      simp [e, hleaf, this, hz, descendFirst_ok g k (t.heap.length + 1) ez z0 (by omega) (by omega)]
    · rw [hX]
      simp only [pre, valsOf_eq e, kidsOf_eq e, List.take_zero, List.append_nil]
      rw [List.append_assoc]
      congr 1
      rw [List.take_succ_eq_append_getElem hlt, hgv, List.take_succ_eq_append_getElem (i := i) (by omega),
        List.map_append, zF_append _ _ _ _ (by simp; omega), ← List.append_nil (nd.vals.take i),
        inter_zF _ _ _ _ (by simp; omega)]
      simp
    · simp only [post, valsOf_eq e, kidsOf_eq e] at hY
      rw [← List.getElem_cons_drop hlt, ← List.getElem_cons_drop (i := i + 1) (as := nd.kids) (by omega), List.map_cons,
        zB_cons, List.cons_append] at hY
      obtain ⟨hzlt, hzg⟩ := List.getElem?_eq_some_iff.1 hz
      rw [(List.cons.inj hY).2]
      simp only [post, List.drop_zero]
      rw [← hB', hzg]
      simp
    · simp only; rw [valsOf_eq el]; omega

theorem Cur.decrement {it : It} {X Y : List α} {v : α} (p : Cur t H it (X ++ [v]) Y)
    (hE : ∀ n, E n → 0 < ht n := by first | exact fun _ h => h.2 | simp) :
    ∃ it', decrement t.heap it = some it' ∧ Cur t H it' X (v :: Y) := by
  have htot := p.total g
  obtain ⟨k, p, hp⟩ := p
  obtain ⟨nd, e, n0, hk, hi⟩ := p.live g.wf
  obtain ⟨n, i⟩ := it
  simp only at *
  have fin : ∀ {r : It} {Y' : List α} {k'}, Pt t.heap t.root H k' r.node r.pos X Y' →
      r.pos < (valsOf t.heap r.node).length → Cur t H r X (v :: Y) := by
    intro r Y' k' q hr
    have hq := q.total g.wf
    rw [g.seq, ← htot, List.append_assoc] at hq
    have := List.append_cancel_left hq
    rw [this] at q
    exact ⟨k', q, .inl hr⟩
  cases k with
  | zero =>
    have hleaf := (g.wf.leaf_iff e n0).2 hk
    obtain ⟨A, B, x, _, hX, hY⟩ := id p
    by_cases h1 : 1 ≤ i
    · refine ⟨⟨n, i - 1⟩, by unfold Btree.decrement; simp [e, hleaf, h1], ?_⟩
      obtain ⟨j, rfl⟩ : ∃ j, i = j + 1 := ⟨i - 1, by omega⟩
      refine fin (Y' := post t.heap 0 n j ++ B) (k' := 0) ⟨A, B, x, by rw [valsOf_eq e]; simp only; omega, ?_, rfl⟩
        (by rw [valsOf_eq e]; simp only; omega)
      simp only [pre, valsOf_eq e] at hX ⊢
      rw [List.take_succ_eq_append_getElem (by omega), ← List.append_assoc] at hX
      exact List.append_inj_left' hX rfl
    · have hi0 : i = 0 := by omega
      subst hi0
      simp only [pre, List.take_zero, List.append_nil] at hX
      obtain ⟨r, er, k', Y', q, hr⟩ := climbBack_ok g (t.heap.length + 1) x hX.symm (by
        have := g.wf.height_lt; omega)
      exact ⟨r, by unfold Btree.decrement; simp [e, hleaf, er], fin q hr⟩
  | succ k =>
    obtain ⟨l, ld, q, el, l0, lleaf, nd', e', hleaf, z, hz, _, hd⟩ := decrement_node g p
    rw [e] at e'; cases e'
    have hfull := g.full _ _ el l0 (fun h => by have := hE _ h; have := (g.wf.leaf_iff el l0).1 lleaf; omega)
    refine ⟨⟨l, ld.vals.length - 1⟩, ?_, ?_⟩
    · unfold Btree.decrement
      have : 1 ≤ ld.count := hfull
      simp only [e, Option.bind_eq_bind, Option.bind_some, hleaf, Bool.false_eq_true, if_false, hz, hd, el]
      rw [check_of (by simpa using this)]
      rfl
    · obtain ⟨A, B, x, _, hX, hY⟩ := q
      refine fin (Y' := post t.heap 0 l (ld.vals.length - 1) ++ B) (k' := 0)
        ⟨A, B, x, by rw [valsOf_eq el]; simp only; omega, ?_, rfl⟩ (by rw [valsOf_eq el]; simp only; omega)
      simp only [pre, valsOf_eq el] at hX ⊢
      rw [List.take_length] at hX
      have : ld.vals = ld.vals.take (ld.vals.length - 1) ++ [ld.vals[ld.vals.length - 1]'(by omega)] := by
        rw [← List.take_succ_eq_append_getElem, Nat.sub_add_cancel hfull, List.take_length]
      rw [this, ← List.append_assoc] at hX
      rw [List.append_inj_left' hX rfl]

end
end Gtl.Btree
