import Verif.Btree.Calls
import Verif.Spec.SortedSeqAlloc
/-
Histories of calls, on one container and on several.
-/
set_option linter.unusedSectionVars false
namespace Gtl.Btree
open Gtl.Spec.SortedSeq
variable {α κ : Type}
variable {c : Cfg α κ} {t t' : Tree α} {L : List α} {z : Prop}

/-- The container holds `L`, in order; if `z`, inner nodes may be without values. -/
def HoldsZ (z : Prop) (c : Cfg α κ) (t : Tree α) (L : List α) : Prop := RepZ z c t L ∧ Sorted c.multi c.key c.lt L

/-- The container holds `L`, in order. -/
abbrev Holds (c : Cfg α κ) (t : Tree α) (L : List α) : Prop := HoldsZ False c t L

theorem holds_empty (c : Cfg α κ) : Holds c Tree.empty [] := ⟨rep_empty c, by unfold Sorted; split <;> simp⟩

theorem extract_ok (hK : 3 ≤ c.K) (r : Rep c t L) {X Y : List α} {v : α} {it : It} (hL : X ++ v :: Y = L)
    (hit : t.iterAt X.length = some it) : ∃ t', t.extract c it = some (v, t') ∧ Rep c t' (X ++ Y) := by
  obtain ⟨it', t', e, r', _⟩ := eraseIt_ok hK r hL hit
  exact ⟨t', by simp [Tree.extract, r.deref hL hit, e], r'⟩

theorem lexCompare_eq (less : α → α → Bool) : ∀ (a b : List α), lexCompare less a b = lexLess less a b
  | [], [] => rfl
  | [], _ :: _ => rfl
  | _ :: _, [] => rfl
  | a :: as, b :: bs => by rw [lexCompare, lexLess, lexCompare_eq less as bs]

theorem less_ok {cs : Cfg α κ} {s : Tree α} {L' : List α} (r : Rep c t L) (rs : Rep cs s L') (less : α → α → Bool) :
    t.less less s = some (lexLess less L L') := by
  simp [Tree.less, r.toList, rs.toList, lexCompare_eq]

theorem RepZ.strict (r : RepZ z c t L) (h : ¬ z) : Rep c t L := by
  rcases r with r | ⟨H, ht, g, hs⟩
  · exact .inl r
  · exact .inr ⟨H, ht, g.mono fun m hm => absurd hm.1 h, hs⟩

theorem RepZ.mono {z' : Prop} (r : RepZ z c t L) (h : z → z') : RepZ z' c t L := by
  rcases r with r | ⟨H, ht, g, hs⟩
  · exact .inl r
  · exact .inr ⟨H, ht, g.mono fun m hm => ⟨h hm.1, hm.2⟩, hs⟩

theorem RepZ.loose (r : Rep c t L) : RepZ z c t L := r.mono False.elim

/-- Each call. -/
theorem exec_okZ (hK : 3 ≤ c.K) (o : StrictWeak c.lt) (h : HoldsZ z c t L) (op : Op α κ)
    (hok : Ok c.key L op) (hq : z → op.erases = false) :
    ∃ r t' L', exec c t op = some (r, t') ∧ Step c.multi c.key c.lt L op r L' ∧ HoldsZ z c t' L' := by
  obtain ⟨r, s⟩ := h
  cases op with
  | insert v =>
    cases hm : c.multi with
    | true =>
      obtain ⟨it, t', e, r', i, s'⟩ := insertMulti_add hK o r s hm v
      exact ⟨.pos (addMulti c.key c.lt L v).1, t', (addMulti c.key c.lt L v).2, by simp [exec, hm, e, i], by simp [Step], r', s'⟩
    | false =>
      obtain ⟨it, t', e, r', i, s', _⟩ := insertUnique_add hK o r s hm v
      exact ⟨.posNew (addUnique c.key c.lt L v).1 (addUnique c.key c.lt L v).2.1, t', (addUnique c.key c.lt L v).2.2, by simp [exec, hm, e, i], by simp [Step], r', s'⟩
  | insertHint i v =>
    obtain ⟨pos, hp⟩ := r.iter hok
    cases hm : c.multi with
    | true =>
      obtain ⟨it, t', j, e, h1, h2, h3, r', i', s'⟩ := insertHintMulti_add hK o r s hm hok hp v
      exact ⟨.pos j, t', _, by simp [exec, hm, hp, e, i'], by
        simp only [Step, if_true]
        exact ⟨j, h1, h2, h3, rfl, rfl⟩, r', s'⟩
    | false =>
      obtain ⟨it, t', e, r', i, s', _⟩ := insertHintUnique_add hK o r s hm hok hp v
      exact ⟨.pos (addUnique c.key c.lt L v).1, t', (addUnique c.key c.lt L v).2.2, by simp [exec, hm, hp, e, i], by simp [Step], r', s'⟩
  | insertAll vs =>
    cases hm : c.multi with
    | true =>
      obtain ⟨t', e, r', s'⟩ := insertAllMulti_ok hK o hm vs r s
      exact ⟨.done, t', _, by simp [exec, hm, e], by simp [Step], r', s'⟩
    | false =>
      obtain ⟨t', e, r', s'⟩ := insertAllUnique_ok hK o hm vs r s
      exact ⟨.done, t', _, by simp [exec, hm, e], by simp [Step], r', s'⟩
  | eraseAt i =>
    have r : Rep c t L := r.strict fun hz => by simpa [Op.erases] using hq hz
    obtain ⟨X, v, Y, rfl, rfl⟩ := split_at L hok
    obtain ⟨it, hi⟩ := r.iter (i := X.length) (by simp)
    obtain ⟨it', t', e, r', i'⟩ := eraseIt_ok hK r rfl hi
    exact ⟨.pos X.length, t', X ++ Y, by simp [exec, hi, e, r'.index (by simp) i'], by simp [Step, eraseIdx_split], r'.loose,
      s.sub (by simp)⟩
  | eraseRange i j =>
    have r : Rep c t L := r.strict fun hz => by simpa [Op.erases] using hq hz
    obtain ⟨hij, hj⟩ := hok
    obtain ⟨b, hb⟩ := r.iter (i := i) (by omega)
    obtain ⟨en, he⟩ := r.iter hj
    have hsplit : L.take i ++ (L.drop i).take (j - i) ++ L.drop j = L := by
      rw [List.append_assoc]
      conv_rhs => rw [← List.take_append_drop i L, ← List.take_append_drop (j - i) (L.drop i)]
      rw [List.drop_drop, show i + (j - i) = j by omega]
    have l1 : (L.take i).length = i := by simp; omega
    have l2 : (L.take i ++ (L.drop i).take (j - i)).length = j := by simp; omega
    obtain ⟨b', t', e, r', i'⟩ := eraseRange_ok hK (by rw [hsplit]; exact r) (by rw [l1]; exact hb) (by rw [l2]; exact he)
    rw [l1] at i'
    refine ⟨.pos i, t', L.take i ++ L.drop j, by simp [exec, hb, he, e, r'.index (by simp; omega) i'], ⟨rfl, rfl⟩, r'.loose, s.sub ?_⟩
    conv_rhs => rw [← hsplit]
    exact (List.sublist_append_left _ _).append (List.Sublist.refl _)
  | eraseKey k =>
    have r : Rep c t L := r.strict fun hz => by simpa [Op.erases] using hq hz
    cases hm : c.multi with
    | true =>
      obtain ⟨t', e, r'⟩ := eraseMulti_ok hK o r s k
      exact ⟨.num (L.countP (same c.key c.lt k)), t', _, by simp [exec, hm, e], ⟨rfl, rfl⟩, r'.loose, s.sub List.filter_sublist⟩
    | false =>
      obtain ⟨t', e, r'⟩ := eraseUnique_ok hK o r s hm k
      exact ⟨.num (L.countP (same c.key c.lt k)), t', _, by simp [exec, hm, e], ⟨rfl, rfl⟩, r'.loose, s.sub List.filter_sublist⟩
  | extractAt i =>
    have r : Rep c t L := r.strict fun hz => by simpa [Op.erases] using hq hz
    obtain ⟨X, v, Y, rfl, rfl⟩ := split_at L hok
    obtain ⟨it, hi⟩ := r.iter (i := X.length) (by simp)
    obtain ⟨t', e, r'⟩ := extract_ok hK r rfl hi
    exact ⟨.val v, t', X ++ Y, by simp [exec, hi, e], by simp [Step, eraseIdx_split], r'.loose, s.sub (by simp)⟩
  | extractKey k =>
    have r : Rep c t L := r.strict fun hz => by simpa [Op.erases] using hq hz
    obtain ⟨it, i, e, hi, hle, h⟩ := find_pos hK o r s k
    obtain ⟨en, ee, ie⟩ := r.end_ok
    have hend := r.at_end hle hi ee
    by_cases hl : i = L.length
    · have : it = en := hend.2 hl
      subst this
      rw [hl, List.getElem?_eq_none (Nat.le_refl _)] at h
      exact ⟨.done, t, L, by simp [exec, Tree.extractKey, e, ee], .inl ⟨rfl, rfl, h.2⟩, r.loose, s⟩
    · have hne : it ≠ en := fun h => hl (hend.1 h)
      obtain ⟨X, v, Y, rfl, rfl⟩ := split_at L (show i < L.length by omega)
      obtain ⟨t', e', r'⟩ := extract_ok hK r rfl hi
      simp at h
      exact ⟨.val v, t', X ++ Y, by simp [exec, Tree.extractKey, e, ee, hne, e'],
        .inr ⟨X.length, v, by simp, h, rfl, by rw [eraseIdx_split]⟩, r'.loose, s.sub (by simp)⟩
  | eraseIf p =>
    have r : Rep c t L := r.strict fun hz => by simpa [Op.erases] using hq hz
    obtain ⟨t', e, r'⟩ := eraseIf_ok hK r p
    exact ⟨.done, t', _, by simp [exec, e], ⟨rfl, rfl⟩, r'.loose, s.sub List.filter_sublist⟩
  | find k =>
    obtain ⟨it, i, e, hi, hle, h⟩ := find_pos hK o r s k
    exact ⟨.pos i, t, L, by simp [exec, e, r.index hle hi], ⟨rfl, i, rfl, h⟩, r, s⟩
  | contains k => exact ⟨.bool (L.any (same c.key c.lt k)), t, L, by simp [exec, contains_ok hK o r s k], ⟨rfl, rfl⟩, r, s⟩
  | count k =>
    obtain ⟨h1, h2⟩ := count_ok hK o r s k
    cases hm : c.multi with
    | true => exact ⟨.num (L.countP (same c.key c.lt k)), t, L, by simp [exec, hm, h2], ⟨rfl, rfl⟩, r, s⟩
    | false => exact ⟨.num (L.countP (same c.key c.lt k)), t, L, by simp [exec, hm, h1 hm], ⟨rfl, rfl⟩, r, s⟩
  | lowerBound k =>
    obtain ⟨it, X, Y, e, i, rfl, hX, hY⟩ := r.lowerBound o s k
    exact ⟨.pos X.length, t, _, by simp [exec, e, r.index (by simp) i], ⟨by rw [lower_split hX hY], rfl⟩, r, s⟩
  | upperBound k =>
    obtain ⟨it, X, Y, e, i, rfl, hX, hY⟩ := r.upperBound o s k
    exact ⟨.pos X.length, t, _, by simp [exec, e, r.index (by simp) i], ⟨by rw [upper_split hX hY], rfl⟩, r, s⟩
  | equalRange k =>
    obtain ⟨it, X, Y, e, i, hL, hX, hY⟩ := r.lowerBound o s k
    obtain ⟨it', X', Y', e', i', hL', hX', hY'⟩ := r.upperBound o s k
    refine ⟨.range X.length X'.length, t, L, ?_, ⟨?_, rfl⟩, r, s⟩
    · simp [exec, e, e', r.index (by rw [← hL]; simp) i, r.index (by rw [← hL']; simp) i']
    · rw [← lower_split hX hY, ← upper_split hX' hY', hL, hL']
  | get i =>
    obtain ⟨X, v, Y, rfl, rfl⟩ := split_at L hok
    obtain ⟨it, hi⟩ := r.iter (i := X.length) (by simp)
    exact ⟨.val v, t, _, by simp [exec, hi, r.deref rfl hi], ⟨rfl, v, by simp, rfl⟩, r, s⟩
  | put i w =>
    have hlt : i < L.length := by
      by_contra hc
      have hok : (L[i]?).map c.key = some (c.key w) := hok
      rw [List.getElem?_eq_none (by omega)] at hok
      cases hok
    obtain ⟨X, v, Y, rfl, rfl⟩ := split_at L hlt
    have hkey : c.key v = c.key w := by
      have hok : ((X ++ v :: Y)[X.length]?).map c.key = some (c.key w) := hok
      simpa using hok
    obtain ⟨it, hi⟩ := r.iter (i := X.length) (by simp)
    obtain ⟨t', e, r'⟩ := write_ok (w := w) r rfl hi
    exact ⟨.done, t', X ++ w :: Y, by simp [exec, hi, e], ⟨rfl, by rw [set_split]⟩, r', s.congr_key (by simp [hkey])⟩
  | size => exact ⟨.num t.size, t, L, rfl, ⟨by rw [r.size], rfl⟩, r, s⟩
  | values => exact ⟨.vals L, t, L, by simp [exec, r.toList], ⟨rfl, rfl⟩, r, s⟩
  | reversed => exact ⟨.vals L.reverse, t, L, by simp [exec, r.toListBack], ⟨rfl, rfl⟩, r, s⟩
  | clear =>
    obtain ⟨t', e, h⟩ := Tree.clear_ok r
    exact ⟨.done, t', [], by simp [exec, e], ⟨rfl, rfl⟩, .inl ⟨h, rfl⟩, (holds_empty c).2⟩

theorem exec_ok (hK : 3 ≤ c.K) (o : StrictWeak c.lt) (h : Holds c t L) (op : Op α κ) (hok : Ok c.key L op) :
    ∃ r t' L', exec c t op = some (r, t') ∧ Step c.multi c.key c.lt L op r L' ∧ Holds c t' L' :=
  exec_okZ hK o h op hok False.elim

/-- Each sequence of calls. -/
theorem execAll_ok (hK : 3 ≤ c.K) (o : StrictWeak c.lt) : ∀ (ops : List (Op α κ)) {t : Tree α} {L : List α}, Holds c t L →
    Safe c.multi c.key c.lt L ops →
    ∃ rs t' L', execAll c t ops = some (rs, t') ∧ Run c.multi c.key c.lt L ops rs L' ∧ Holds c t' L'
  | [], t, L, h, _ => ⟨[], t, L, rfl, .nil, h⟩
  | op :: ops, t, L, h, sf => by
    obtain ⟨r, t1, L1, e1, s1, h1⟩ := exec_ok hK o h op sf.1
    obtain ⟨rs, t2, L2, e2, s2, h2⟩ := execAll_ok hK o ops h1 (sf.2 r L1 s1)
    exact ⟨r :: rs, t2, L2, by simp [execAll, e1, e2], .cons s1 s2, h2⟩

/-! ### Several containers -/

/-- Each container holds its sequence. -/
def HoldsAll (c : Cfg α κ) (w : List (Tree α)) (W : List (List α)) : Prop :=
  w.length = W.length ∧ ∀ (i : Nat) t L, w[i]? = some t → W[i]? = some L → Holds c t L

theorem HoldsAll.get {w : List (Tree α)} {W : List (List α)} (h : HoldsAll c w W) {i : Nat} (hi : i < W.length) :
    ∃ t L, w[i]? = some t ∧ W[i]? = some L ∧ Holds c t L := by
  have h1 : i < w.length := by rw [h.1]; exact hi
  exact ⟨w[i], W[i], List.getElem?_eq_getElem h1, List.getElem?_eq_getElem hi,
    h.2 i _ _ (List.getElem?_eq_getElem h1) (List.getElem?_eq_getElem hi)⟩

theorem HoldsAll.set {w : List (Tree α)} {W : List (List α)} (h : HoldsAll c w W) (i : Nat) {t : Tree α} {L : List α}
    (ht : Holds c t L) : HoldsAll c (w.set i t) (W.set i L) := by
  refine ⟨by simp [h.1], ?_⟩
  intro j t' L' h1 h2
  rw [List.getElem?_set] at h1 h2
  by_cases hij : i = j
  · subst hij
    rw [if_pos rfl] at h1 h2
    by_cases hl : i < w.length
    · rw [if_pos hl] at h1
      rw [if_pos (h.1 ▸ hl)] at h2
      cases h1; cases h2; exact ht
    · rw [if_neg hl] at h1; cases h1
  · rw [if_neg hij] at h1 h2
    exact h.2 j _ _ h1 h2

theorem HoldsAll.push {w : List (Tree α)} {W : List (List α)} (h : HoldsAll c w W) {t : Tree α} {L : List α}
    (ht : Holds c t L) : HoldsAll c (w ++ [t]) (W ++ [L]) := by
  refine ⟨by simp [h.1], ?_⟩
  intro j t' L' h1 h2
  rw [List.getElem?_append] at h1 h2
  by_cases hl : j < w.length
  · rw [if_pos hl] at h1
    rw [if_pos (h.1 ▸ hl)] at h2
    exact h.2 j _ _ h1 h2
  · rw [if_neg hl] at h1
    rw [if_neg (h.1 ▸ hl)] at h2
    have : j - w.length = 0 := by
      by_contra hc
      rw [List.getElem?_eq_none (by simp; omega)] at h1
      cases h1
    rw [this] at h1
    rw [← h.1, this] at h2
    simp at h1 h2
    subst h1; subst h2; exact ht

theorem wexec_ok (hK : 3 ≤ c.K) (o : StrictWeak c.lt) (eq less : α → α → Bool) {w : List (Tree α)} {W : List (List α)}
    (h : HoldsAll c w W) (op : WOp α κ) (hok : WOk c.key W op) :
    ∃ r w' W', wexec c eq less w op = some (r, w') ∧ WStep c.multi c.key c.lt eq less W op r W' ∧ HoldsAll c w' W' := by
  cases op with
  | on i op =>
    obtain ⟨L, hL, hok⟩ := hok
    obtain ⟨t, L', et, eL, ht⟩ := h.get (List.getElem?_eq_some_iff.1 hL).1
    rw [hL] at eL; cases eL
    obtain ⟨r, t', L', e, st, ht'⟩ := exec_ok hK o ht op hok
    exact ⟨r, w.set i t', W.set i L', by simp [wexec, et, e], ⟨L, L', hL, st, rfl⟩, h.set i ht'⟩
  | make => exact ⟨.num w.length, _, _, rfl, ⟨by rw [h.1], rfl⟩, h.push (holds_empty c)⟩
  | copy i =>
    obtain ⟨t, L, et, eL, ht⟩ := h.get hok
    obtain ⟨t', e, r'⟩ := copy_ok hK o ht.1
    exact ⟨.num w.length, w ++ [t'], W ++ [L], by simp [wexec, et, e], ⟨L, eL, by rw [h.1], rfl⟩, h.push ⟨r', ht.2⟩⟩
  | assign i j =>
    obtain ⟨t, L, et, eL, ht⟩ := h.get hok.1
    obtain ⟨x, M, ex, eM, hx⟩ := h.get hok.2
    by_cases hij : i = j
    · subst hij
      refine ⟨.done, w, W, by simp [wexec], ⟨L, eL, rfl, ?_⟩, h⟩
      apply List.ext_getElem?
      intro n
      rw [List.getElem?_set]
      split <;> rename_i hn
      · subst hn; rw [if_pos hok.1, eL]
      · rfl
    · obtain ⟨t', e, r'⟩ := assign_ok hK o ht.1 hx.1
      exact ⟨.done, w.set i t', W.set i M, by simp [wexec, hij, et, ex, e], ⟨M, eM, rfl, rfl⟩, h.set i ⟨r', hx.2⟩⟩
  | move i j =>
    obtain ⟨t, L, et, eL, ht⟩ := h.get hok.1
    obtain ⟨x, M, ex, eM, hx⟩ := h.get hok.2
    by_cases hij : i = j
    · subst hij
      exact ⟨.done, w, W, by simp [wexec], ⟨L, eL, rfl, by rw [if_pos rfl]⟩, h⟩
    · obtain ⟨t', e, he⟩ := Tree.clear_ok ht.1
      refine ⟨.done, (w.set i x).set j t', (W.set i M).set j [], by simp [wexec, hij, et, ex, Tree.moveAssign, e], ⟨M, eM, rfl, by rw [if_neg hij]⟩,
        (h.set i hx).set j ⟨.inl ⟨he, rfl⟩, (holds_empty c).2⟩⟩
  | swap i j =>
    obtain ⟨t, L, et, eL, ht⟩ := h.get hok.1
    obtain ⟨x, M, ex, eM, hx⟩ := h.get hok.2
    exact ⟨.done, (w.set i x).set j t, (W.set i M).set j L, by simp [wexec, et, ex], ⟨L, M, eL, eM, rfl, rfl⟩, (h.set i hx).set j ht⟩
  | merge i j =>
    obtain ⟨t, L, et, eL, ht⟩ := h.get hok.1
    obtain ⟨x, M, ex, eM, hx⟩ := h.get hok.2.1
    have hij := hok.2.2
    cases hm : c.multi with
    | true =>
      obtain ⟨t', x', e, r', rx', s'⟩ := mergeMulti_ok hK o hm ht.1 ht.2 hx.1
      exact ⟨.done, (w.set i t').set j x', _, by simp [wexec, check, hij, et, ex, hm, e], ⟨L, M, eL, eM, rfl, by rw [if_pos rfl]⟩,
        (h.set i ⟨r', s'⟩).set j ⟨rx', (holds_empty c).2⟩⟩
    | false =>
      obtain ⟨t', x', e, r', rx', s'⟩ := mergeUnique_ok hK hK o hm ht.1 ht.2 hx.1
      exact ⟨.done, (w.set i t').set j x', _, by simp [wexec, check, hij, et, ex, hm, e],
        ⟨L, M, eL, eM, rfl, by rw [if_neg (by simp)]⟩,
        (h.set i ⟨r', s'⟩).set j ⟨rx', hx.2.sub (mergeInto_sub _ _ _ _)⟩⟩
  | eq i j =>
    obtain ⟨t, L, et, eL, ht⟩ := h.get hok.1
    obtain ⟨x, M, ex, eM, hx⟩ := h.get hok.2
    exact ⟨.bool (decide (L.length = M.length) && (L.zip M).all fun x => eq x.1 x.2), w, W,
      by simp [wexec, et, ex, beq_ok ht.1 hx.1], ⟨L, M, eL, eM, rfl, rfl⟩, h⟩
  | less i j =>
    obtain ⟨t, L, et, eL, ht⟩ := h.get hok.1
    obtain ⟨x, M, ex, eM, hx⟩ := h.get hok.2
    exact ⟨.bool (lexLess less L M), w, W, by simp [wexec, et, ex, less_ok ht.1 hx.1], ⟨L, M, eL, eM, rfl, rfl⟩, h⟩

theorem wexecAll_ok (hK : 3 ≤ c.K) (o : StrictWeak c.lt) (eq less : α → α → Bool) : ∀ (ops : List (WOp α κ))
    {w : List (Tree α)} {W : List (List α)}, HoldsAll c w W → WSafe c.multi c.key c.lt eq less W ops →
    ∃ rs w' W', wexecAll c eq less w ops = some (rs, w') ∧ WRun c.multi c.key c.lt eq less W ops rs W' ∧ HoldsAll c w' W'
  | [], w, W, h, _ => ⟨[], w, W, rfl, .nil, h⟩
  | op :: ops, w, W, h, sf => by
    obtain ⟨r, w1, W1, e1, s1, h1⟩ := wexec_ok hK o eq less h op sf.1
    obtain ⟨rs, w2, W2, e2, s2, h2⟩ := wexecAll_ok hK o eq less ops h1 (sf.2 r W1 s1)
    exact ⟨r :: rs, w2, W2, by simp [wexecAll, e1, e2], .cons s1 s2, h2⟩

end Gtl.Btree
