import Verif.Btree.Order
import Verif.Btree.History
/-
Histories of containers with comparison objects of their own.
-/
set_option linter.unusedSectionVars false
namespace Gtl.Btree
open Gtl.Spec.SortedSeq
variable {S α κ : Type}
variable {c : Cfg α κ} {F : Orders S κ}

/-- Every object that can be called is a strict weak order. -/
def Orders.Weak (F : Orders S κ) : Prop := ∀ s lt, F.call s = some lt → StrictWeak lt

theorem Orders.Weak.lt (h : F.Weak) (s : S) : StrictWeak (F.lt s) := by
  unfold Orders.lt
  cases e : F.call s with
  | none => exact ⟨fun _ => rfl, fun _ _ _ h => absurd h Bool.false_ne_true, fun _ _ _ h => absurd h Bool.false_ne_true⟩
  | some lt => exact h s lt e

/-- A container and what it stands for. -/
def CBox.Holds (c : Cfg α κ) (F : Orders S κ) (b : CBox S α) (x : S × List α) : Prop :=
  b.comp = x.1 ∧ Btree.Holds (c.with F x.1) b.tree x.2

theorem execT_plain {σ : Type} {st : Tree α → σ} {t : Tree α} {op : Op α κ} (h : ¬ op.Looks) : execT st c t op = plain (exec c t op) := by
  cases op <;> first | rfl | exact absurd trivial h

theorem CBox.exec_ok (hK : 3 ≤ c.K) (hF : F.Weak) {b : CBox S α} {x : S × List α} (h : b.Holds c F x) (op : Op α κ)
    (hok : Ok c.key x.2 op) (hl : op.Looks → F.can x.1 = true) :
    ∃ r b' l, b.exec c F op = some (r, b') ∧ Step c.multi c.key (F.lt x.1) x.2 op r l ∧ b'.Holds c F (x.1, l) := by
  obtain ⟨hc, ht⟩ := h
  obtain ⟨r, t', L', e, st, ht'⟩ := Btree.exec_ok (c := c.with F x.1) hK (hF.lt x.1) ht op hok
  refine ⟨r, { b with tree := t' }, L', ?_, st, hc, ht'⟩
  unfold CBox.exec
  rw [hc]
  by_cases hcan : F.can x.1 = true
  · simp [hcan, e]
  · rw [execT_plain (fun hx => hcan (hl hx))]
    simp [hcan, e, noCompare, plain]

theorem forall2_get {β γ : Type} {R : β → γ → Prop} : ∀ {l : List β} {m : List γ}, List.Forall₂ R l m → ∀ {i : Nat} {y : γ}, m[i]? = some y →
    ∃ x, l[i]? = some x ∧ R x y
  | _, _, .nil, i, y, h => by simp at h
  | _, _, .cons h hs, 0, y, e => by simp at e; subst e; exact ⟨_, rfl, h⟩
  | _, _, .cons h hs, i + 1, y, e => by
    obtain ⟨x, e', r⟩ := forall2_get hs (i := i) (y := y) (by simpa using e)
    exact ⟨x, by simpa using e', r⟩

theorem forall2_set {β γ : Type} {R : β → γ → Prop} {x : β} {y : γ} (r : R x y) : ∀ {l : List β} {m : List γ}, List.Forall₂ R l m →
    ∀ (i : Nat), List.Forall₂ R (l.set i x) (m.set i y)
  | _, _, .nil, _ => .nil
  | _, _, .cons _ hs, 0 => .cons r hs
  | _, _, .cons h hs, i + 1 => .cons h (forall2_set r hs i)

theorem forall2_push {β γ : Type} {R : β → γ → Prop} {x : β} {y : γ} (r : R x y) : ∀ {l : List β} {m : List γ}, List.Forall₂ R l m →
    List.Forall₂ R (l ++ [x]) (m ++ [y])
  | _, _, .nil => .cons r .nil
  | _, _, .cons h hs => .cons h (forall2_push r hs)

theorem cexec_ok (hK : 3 ≤ c.K) (hF : F.Weak) (eq less : α → α → Bool) {w : List (CBox S α)} {W : List (S × List α)}
    (h : List.Forall₂ (CBox.Holds c F) w W) {alike : S → S → Prop} (op : COp S α κ) (hok : COk c.key F.can alike W op) :
    ∃ r w' W', cexec c F eq less w op = some (r, w') ∧ CStep c.multi c.key F.lt eq less F.moved (fun d _ => d) W op r W' ∧
      List.Forall₂ (CBox.Holds c F) w' W' := by
  have get : ∀ {i : Nat}, i < W.length → ∃ b x, w[i]? = some b ∧ W[i]? = some x ∧ b.Holds c F x := by
    intro i hi
    obtain ⟨b, hb, hx⟩ := forall2_get h (List.getElem?_eq_getElem hi)
    exact ⟨b, W[i], hb, List.getElem?_eq_getElem hi, hx⟩
  have lt_of : ∀ {i : Nat} {x}, W[i]? = some x → i < W.length := fun e => (List.getElem?_eq_some_iff.1 e).1
  have len := h.length_eq
  cases op with
  | on i op =>
    obtain ⟨x, ex, hok, hl⟩ := hok
    obtain ⟨b, eb, hb⟩ := forall2_get h ex
    obtain ⟨r, b', l, e, st, hb'⟩ := CBox.exec_ok hK hF hb op hok hl
    exact ⟨.got r, w.set i b', W.set i (x.1, l), by simp [cexec, eb, e], ⟨x, r, l, ex, st, rfl, rfl⟩, forall2_set hb' h i⟩
  | make s =>
    exact ⟨_, _, _, rfl, ⟨by rw [len], rfl⟩, forall2_push ⟨rfl, holds_empty _⟩ h⟩
  | copy i =>
    obtain ⟨b, x, eb, ex, hb⟩ := get hok
    obtain ⟨t', e, r'⟩ := copy_ok (c := c.with F x.1) hK (hF.lt x.1) hb.2.1
    refine ⟨.got (.num w.length), w ++ [⟨x.1, t'⟩], W ++ [x], ?_, ⟨x, ex, by rw [len], rfl⟩, forall2_push ⟨rfl, r', hb.2.2⟩ h⟩
    simp [cexec, eb, CBox.copy, hb.1, e]
  | take i =>
    obtain ⟨b, x, eb, ex, hb⟩ := get hok
    refine ⟨.got (.num w.length), w.set i ⟨F.moved b.comp, Tree.empty⟩ ++ [b], W.set i (F.moved x.1, []) ++ [x], ?_,
      ⟨x, ex, by rw [len], rfl⟩, forall2_push hb (forall2_set ⟨by rw [hb.1], holds_empty _⟩ h i)⟩
    simp [cexec, eb, CBox.take]
  | assign i j =>
    obtain ⟨b, x, eb, ex, hb⟩ := get hok.1
    obtain ⟨d, y, ed, ey, hd⟩ := get hok.2
    by_cases hij : i = j
    · subst hij
      refine ⟨.got .done, w, W, by simp [cexec], ⟨x, ex, rfl, ?_⟩, h⟩
      apply List.ext_getElem?
      intro n
      rw [List.getElem?_set]
      split <;> rename_i hn
      · subst hn; rw [if_pos hok.1, ex]
      · rfl
    · obtain ⟨t1, e1, h1⟩ := Tree.clear_ok hb.2.1
      obtain ⟨t2, e2, h2⟩ := copyInto_ok (c := c.with F y.1) hK (hF.lt y.1) h1 hd.2.1
      exact ⟨.got .done, w.set i ⟨y.1, t2⟩, W.set i y, by simp [cexec, hij, eb, ed, CBox.assign, Tree.assign, e1, hd.1, e2],
        ⟨y, ey, rfl, rfl⟩, forall2_set ⟨rfl, h2, hd.2.2⟩ h i⟩
  | move i j =>
    obtain ⟨x, y, ex, ey, -⟩ := hok
    obtain ⟨b, eb, hb⟩ := forall2_get h ex
    obtain ⟨d, ed, hd⟩ := forall2_get h ey
    by_cases hij : i = j
    · subst hij
      exact ⟨.got .done, w, W, by simp [cexec], ⟨x, y, ex, ey, rfl, by rw [if_pos rfl]⟩, h⟩
    · obtain ⟨t1, e1, h1⟩ := Tree.clear_ok hb.2.1
      refine ⟨.got .done, (w.set i d).set j ⟨b.comp, t1⟩, (W.set i y).set j (x.1, []),
        by simp [cexec, hij, eb, ed, CBox.moveAssign, Tree.moveAssign, e1], ⟨x, y, ex, ey, rfl, by rw [if_neg hij]⟩, ?_⟩
      exact forall2_set ⟨hb.1, .inl ⟨h1, rfl⟩, (holds_empty _).2⟩ (forall2_set hd h i) j
  | swap i j =>
    obtain ⟨b, x, eb, ex, hb⟩ := get hok.1
    obtain ⟨d, y, ed, ey, hd⟩ := get hok.2
    exact ⟨.got .done, (w.set i d).set j b, (W.set i y).set j x, by simp [cexec, eb, ed], ⟨x, y, ex, ey, rfl, rfl⟩,
      forall2_set hb (forall2_set hd h i) j⟩
  | merge i j =>
    obtain ⟨⟨x, ex, hcan⟩, hj, hij⟩ := hok
    obtain ⟨b, eb, hb⟩ := forall2_get h ex
    obtain ⟨d, y, ed, ey, hd⟩ := get hj
    have hcan' : F.can b.comp = true := by rw [hb.1]; exact hcan
    cases hm : c.multi with
    | true =>
      obtain ⟨t', x', e, r', rx', s'⟩ := mergeMulti_ok (c := c.with F x.1) (cs := c.with F y.1) hK (hF.lt x.1) hm hb.2.1 hb.2.2 hd.2.1
      refine ⟨.got .done, (w.set i ⟨b.comp, t'⟩).set j ⟨d.comp, x'⟩, _, ?_, ⟨x, y, ex, ey, rfl, by rw [if_pos rfl]⟩,
        forall2_set (y := (y.1, [])) ⟨hd.1, rx', (holds_empty _).2⟩
          (forall2_set (y := (x.1, y.2.foldl (fun l v => (addMulti c.key (F.lt x.1) l v).2) x.2)) ⟨hb.1, r', s'⟩ h i) j⟩
      simp [cexec, check, hij, eb, ed, CBox.merge, hcan', hm, hb.1, hcan, e]
    | false =>
      obtain ⟨t', x', e, r', rx', s'⟩ := mergeUnique_ok (c := c.with F x.1) (cs := c.with F y.1) hK hK (hF.lt x.1) hm hb.2.1 hb.2.2 hd.2.1
      refine ⟨.got .done, (w.set i ⟨b.comp, t'⟩).set j ⟨d.comp, x'⟩, _, ?_, ⟨x, y, ex, ey, rfl, by rw [if_neg (by simp)]⟩,
        forall2_set (y := (y.1, (mergeInto c.key (F.lt x.1) x.2 y.2).2)) ⟨hd.1, rx', hd.2.2.sub (mergeInto_sub _ _ _ _)⟩
          (forall2_set (y := (x.1, (mergeInto c.key (F.lt x.1) x.2 y.2).1)) ⟨hb.1, r', s'⟩ h i) j⟩
      simp [cexec, check, hij, eb, ed, CBox.merge, hcan', hm, hb.1, hcan, hd.1, e]
  | eq i j =>
    obtain ⟨b, x, eb, ex, hb⟩ := get hok.1
    obtain ⟨d, y, ed, ey, hd⟩ := get hok.2
    exact ⟨_, w, W, by simp [cexec, eb, ed, beq_ok hb.2.1 hd.2.1], ⟨x, y, ex, ey, rfl, rfl⟩, h⟩
  | less i j =>
    obtain ⟨b, x, eb, ex, hb⟩ := get hok.1
    obtain ⟨d, y, ed, ey, hd⟩ := get hok.2
    exact ⟨_, w, W, by simp [cexec, eb, ed, less_ok hb.2.1 hd.2.1], ⟨x, y, ex, ey, rfl, rfl⟩, h⟩
  | comp i =>
    obtain ⟨b, x, eb, ex, hb⟩ := get hok
    exact ⟨.comp x.1, w, W, by simp [cexec, eb, hb.1], ⟨x, ex, rfl, rfl⟩, h⟩

theorem cexecAll_ok (hK : 3 ≤ c.K) (hF : F.Weak) (eq less : α → α → Bool) {alike : S → S → Prop} : ∀ (ops : List (COp S α κ))
    {w : List (CBox S α)} {W : List (S × List α)}, List.Forall₂ (CBox.Holds c F) w W →
    CSafe c.multi c.key F.lt eq less F.moved (fun d _ => d) F.can alike W ops →
    ∃ rs w' W', cexecAll c F eq less w ops = some (rs, w') ∧ CRun c.multi c.key F.lt eq less F.moved (fun d _ => d) W ops rs W' ∧
      List.Forall₂ (CBox.Holds c F) w' W'
  | [], w, W, h, _ => ⟨[], w, W, rfl, .nil, h⟩
  | op :: ops, w, W, h, sf => by
    obtain ⟨r, w1, W1, e1, s1, h1⟩ := cexec_ok hK hF eq less h op sf.1
    obtain ⟨rs, w2, W2, e2, s2, h2⟩ := cexecAll_ok hK hF eq less ops h1 (sf.2 r W1 s1)
    exact ⟨r :: rs, w2, W2, by simp [cexecAll, e1, e2], .cons s1 s2, h2⟩

/-- Two insertions into an empty container cannot do without a comparison. -/
theorem insert_twice (c : Cfg α κ) (hl : ∀ x y, c.lt x y = false) (u v : α) :
    ((noCompare (execT (fun _ => ()) c Tree.empty (.insert u))).bind fun x =>
      noCompare (execT (fun _ => ()) c x.2 (.insert v))) = none := by
  obtain ⟨K, multi, linear, cmpTo, key, lt⟩ := c
  cases (funext fun x => funext fun y => hl x y : lt = fun _ _ => false)
  cases multi <;> cases linear <;> cases cmpTo <;> with_unfolding_all rfl

theorem CBox.insert_twice {s : S} (h : F.call s = none) (u v : α) :
    ((CBox.exec c F ⟨s, Tree.empty⟩ (.insert u)).bind fun x => x.2.exec c F (.insert v)) = none := by
  have hc : F.can s = false := by simp [Orders.can, h]
  have := Btree.insert_twice (c.with F s) (by simp [Cfg.with, Orders.lt, h]) u v
  unfold CBox.exec
  cases e : noCompare (execT (fun _ => ()) (c.with F s) Tree.empty (.insert u)) with
  | none => simp [hc, e]
  | some x =>
    rw [e] at this
    simp only [Option.bind_some] at this
    simp [hc, e, this]

end Gtl.Btree
