import Verif.Btree.CmpThrow
import Verif.Btree.CostCalls
import Verif.Btree.History
/-
What an exception of the comparison leaves.
-/
set_option linter.unusedSectionVars false
namespace Gtl.Btree
open Gtl.Spec.SortedSeq
variable {α κ σ β γ : Type}

/-- `x` returns what `p` returns, or throws and leaves a state that satisfies `T`. -/
def Tri (x : Throwing σ β) (p : Option β) (T : σ → Prop) : Prop :=
  ∀ b, p = some b → ∀ k, (∃ k', x k = some (.done b k')) ∨ ∃ s, x k = some (.threw s) ∧ T s

theorem Tri.pure {b : β} {T : σ → Prop} : Tri (pure b) (some b) T := by
  intro b' h k
  cases h
  exact .inl ⟨k, rfl⟩

theorem Tri.plain {o : Option β} {T : σ → Prop} : Tri (plain o) o T := by
  intro b h k
  exact .inl ⟨k, by rw [h]; rfl⟩

theorem Tri.mono {x : Throwing σ β} {p : Option β} {T T' : σ → Prop} (h : Tri x p T) (ht : ∀ s, T s → T' s) : Tri x p T' := by
  intro b hb k
  rcases h b hb k with h1 | ⟨s, h1, h2⟩
  · exact .inl h1
  · exact .inr ⟨s, h1, ht s h2⟩

theorem Tri.congr {x : Throwing σ β} {p p' : Option β} {T : σ → Prop} (h : Tri x p T) (e : p = p') : Tri x p' T := e ▸ h

theorem Tri.bind {x : Throwing σ β} {p : Option β} {T : σ → Prop} {f : β → Throwing σ γ} {g : β → Option γ} (h : Tri x p T)
    (hf : ∀ b, p = some b → Tri (f b) (g b) T) : Tri (x >>= f) (p >>= g) T := by
  intro b' hb' k
  cases hp : p with
  | none => rw [hp] at hb'; cases hb'
  | some b =>
    rw [hp] at hb'
    rcases h b hp k with ⟨k', h1⟩ | ⟨s, h1, h2⟩
    · have e : (x >>= f) k = f b k' := by
        show (match x k with | none => none | some (Ending.threw s) => some (Ending.threw s) | some (Ending.done b k) => f b k) = _
        rw [h1]
      rw [e]
      exact hf b hp b' hb' k'
    · refine .inr ⟨s, ?_, h2⟩
      show (match x k with | none => none | some (Ending.threw s) => some (Ending.threw s) | some (Ending.done b k) => f b k) = _
      rw [h1]

theorem Tri.bindPlain {o : Option β} {T : σ → Prop} {f : β → Throwing σ γ} {g : β → Option γ}
    (hf : ∀ b, o = some b → Tri (f b) (g b) T) : Tri (Btree.plain o >>= f) (o >>= g) T := Tri.plain.bind hf

theorem Tri.ite {q : Prop} [Decidable q] {x x' : Throwing σ β} {p p' : Option β} {T : σ → Prop} (h : q → Tri x p T)
    (h' : ¬ q → Tri x' p' T) : Tri (if q then x else x') (if q then p else p') T := by
  by_cases hq : q
  · rw [if_pos hq, if_pos hq]; exact h hq
  · rw [if_neg hq, if_neg hq]; exact h' hq

theorem Tri.reading {s : σ} {m : Cnt β} {o : Option β} (h : Same m o) : Tri (reading s m) o (· = s) := by
  intro b hb k
  have h0 := h 0
  rw [hb] at h0
  unfold Btree.reading count
  cases e : m 0 with
  | none => rw [e] at h0; cases h0
  | some r =>
    obtain ⟨b', n⟩ := r
    rw [e] at h0
    cases h0
    dsimp only
    by_cases hn : n ≤ k
    · exact .inl ⟨k - n, by rw [if_pos hn]⟩
    · exact .inr ⟨s, by rw [if_neg hn], rfl⟩

/-- Without comparisons there are no exceptions. -/
theorem Tri.reading_zero {s : σ} {m : Cnt β} {o : Option β} (h : Same m o) (hz : AtMost m 0) {T : σ → Prop} :
    Tri (Btree.reading s m) o T := by
  intro b hb k
  have h0 := h 0
  rw [hb] at h0
  unfold Btree.reading count
  cases e : m 0 with
  | none => rw [e] at h0; cases h0
  | some r =>
    obtain ⟨b', n⟩ := r
    rw [e] at h0
    cases h0
    have := hz 0 _ n e
    exact .inl ⟨k - n, by dsimp only; rw [if_pos (by omega)]⟩

/-! ### Single insertions -/

variable (st : Tree α → σ) (c : Cfg α κ)

/-- A new root has nothing to compare with. -/
theorem first_locate (t : Tree α) (h : t.size = 0) (k : κ) {r : It × Bool} (e : internalLocate c (firstRoot t) k = some r) :
    r.1 = ⟨t.heap.length, 0⟩ := by
  have hr : (firstRoot t).root = t.heap.length := by unfold firstRoot; rw [if_pos h]
  have hg : (firstRoot t).heap.get (firstRoot t).root = some ⟨t.heap.length, 0, 1, [], []⟩ := by
    unfold firstRoot; rw [if_pos h]; simp only [Heap.get_alloc, if_true]
  have hl : lowerNode c (⟨t.heap.length, 0, 1, [], []⟩ : Node α) k = some ⟨0, false⟩ := by
    unfold lowerNode
    cases c.cmpTo <;> cases c.linear <;> cases c.multi <;>
      simp [linearTo, linearPlain, binaryToMulti, binaryToUnique, binaryPlain, Node.count]
  unfold internalLocate at e
  split at e
  · unfold locateTo at e
    simp only [hg, hl, Option.bind_eq_bind, Option.bind_some] at e
    simp [Node.leaf] at e
    rw [← e, hr]
  · unfold locatePlain at e
    simp only [hg, hl, Option.bind_eq_bind, Option.bind_some] at e
    simp [Node.leaf] at e
    rw [← e, hr]

theorem first_found (t : Tree α) (h : t.size = 0) (k : κ) {r : It × Bool} (e : internalLocate c (firstRoot t) k = some r) :
    AtMost (locateFoundW c (firstRoot t) k r.1 r.2) 0 := by
  refine .ite (fun _ => .pure) fun _ => .bindFree fun o ho => ?_
  have hg : (firstRoot t).heap.get t.heap.length = some ⟨t.heap.length, 0, 1, [], []⟩ := by
    unfold firstRoot; rw [if_pos h]; simp only [Heap.get_alloc, if_true]
  rw [first_locate c t h k e] at ho
  unfold internalLast at ho
  simp [hg, Node.count, Node.leaf] at ho
  subst ho
  exact .pure

theorem insertUniqueT_tri (t : Tree α) (k : κ) (a : Arg α) :
    Tri (insertUniqueT st c t k a) (insertUnique c t k a) (fun s => s = st t ∧ t.size ≠ 0) := by
  unfold insertUniqueT insertUnique
  by_cases h : t.size = 0
  · refine Tri.bind (Tri.reading_zero (internalLocate_same c _ k) (internalLocate_atMost (reach_first h) k)) fun r hr => ?_
    refine Tri.bind (Tri.reading_zero (locateFound_same c _ k _ _) (first_found c t h k hr)) fun o _ => ?_
    cases o with
    | some it => exact .pure
    | none => exact Tri.bindPlain fun _ _ => .pure
  · rw [first_same h]
    have hT : ∀ s, s = st t → s = st t ∧ t.size ≠ 0 := fun s hs => ⟨hs, h⟩
    refine Tri.bind ((Tri.reading (internalLocate_same c _ k)).mono hT) fun r hr => ?_
    refine Tri.bind ((Tri.reading (locateFound_same c _ k _ _)).mono hT) fun o _ => ?_
    cases o with
    | some it => exact .pure
    | none => exact Tri.bindPlain fun _ _ => .pure

theorem insertMultiT_tri (t : Tree α) (k : κ) (a : Arg α) :
    Tri (insertMultiT st c t k a) (insertMulti c t k a) (fun s => s = st t ∧ t.size ≠ 0) := by
  unfold insertMultiT insertMulti
  by_cases h : t.size = 0
  · exact Tri.bind (Tri.reading_zero (internalUpperBound_same c _ k) (internalUpperBound_atMost (reach_first h) k)) fun r hr =>
      Tri.bindPlain fun _ _ => .plain
  · rw [first_same h]
    have hT : ∀ s, s = st t → s = st t ∧ t.size ≠ 0 := fun s hs => ⟨hs, h⟩
    exact Tri.bind ((Tri.reading (internalUpperBound_same c _ k)).mono hT) fun r hr => Tri.bindPlain fun _ _ => .plain

theorem insertHintUniqueT_tri (t : Tree α) (pos : It) (k : κ) (a : Arg α) :
    Tri (insertHintUniqueT st c t pos k a) (insertHintUnique c t pos k a) (· = st t) := by
  have hu := (insertUniqueT_tri st c t k a).mono (T' := (· = st t)) fun s h => h.1
  refine .ite (fun _ => hu) fun _ => .bindPlain fun e _ => .bindPlain fun b _ => ?_
  refine Tri.bind (Tri.reading (stopOrAt_same _ _ _ _)) fun q _ => .ite (fun _ => ?_) fun _ => ?_
  · exact Tri.bind (Tri.reading (stopOrBefore_same _ _ _ _)) fun q _ => .ite (fun _ => .bindPlain fun _ _ => .pure) fun _ => hu
  · refine .bindPlain fun v _ => ?_
    have ht : Same tick (some ()) := fun n => rfl
    refine (Tri.bind (g := fun _ => _) (Tri.reading ht) fun _ _ => ?_).congr rfl
    refine .ite (fun _ => .bindPlain fun next _ => ?_) fun _ => .pure
    exact Tri.bind (Tri.reading (stopOrAt_same _ _ _ _)) fun q _ => .ite (fun _ => .bindPlain fun _ _ => .pure) fun _ => hu

theorem insertHintMultiT_tri (t : Tree α) (pos : It) (k : κ) (a : Arg α) :
    Tri (insertHintMultiT st c t pos k a) (insertHintMulti c t pos k a) (· = st t) := by
  have hu := (insertMultiT_tri st c t k a).mono (T' := (· = st t)) fun s h => h.1
  refine .ite (fun _ => hu) fun _ => .bindPlain fun e _ => .bindPlain fun b _ => ?_
  refine Tri.bind (Tri.reading (stopOrAt_same _ _ _ _)) fun q _ => .ite (fun _ => ?_) fun _ => ?_
  · exact Tri.bind (Tri.reading (stopOrBefore_same _ _ _ _)) fun q _ => .ite (fun _ => .plain) fun _ => hu
  · refine .bindPlain fun next _ => ?_
    exact Tri.bind (Tri.reading (stopOrAt_same _ _ _ _)) fun q _ => .ite (fun _ => .plain) fun _ => hu

/-! ### Ranges -/

theorem insertAllUniqueT_tri : ∀ (vs : List α) (t : Tree α), Tri (insertAllUniqueT st c t vs) (insertAllUnique c t vs)
    (fun s => ∃ n t', n < vs.length ∧ insertAllUnique c t (vs.take n) = some t' ∧ s = st t')
  | [], t => .pure
  | v :: vs, t => by
    refine Tri.bindPlain fun e he => ?_
    refine Tri.bind ((insertHintUniqueT_tri st c t e (c.key v) (.val v)).mono fun s hs => ?_) fun x hx => ?_
    · exact ⟨0, t, by simp, rfl, hs⟩
    · refine (insertAllUniqueT_tri vs x.2).mono ?_
      rintro s ⟨n, t', h1, h2, h3⟩
      refine ⟨n + 1, t', by simp only [List.length_cons]; omega, ?_, h3⟩
      simp only [List.take_succ_cons, insertAllUnique, he, Option.bind_eq_bind, Option.bind_some, hx]
      exact h2

theorem insertAllMultiT_tri : ∀ (vs : List α) (t : Tree α), Tri (insertAllMultiT st c t vs) (insertAllMulti c t vs)
    (fun s => ∃ n t', n < vs.length ∧ insertAllMulti c t (vs.take n) = some t' ∧ s = st t')
  | [], t => .pure
  | v :: vs, t => by
    refine Tri.bindPlain fun e he => ?_
    refine Tri.bind ((insertHintMultiT_tri st c t e (c.key v) (.val v)).mono fun s hs => ?_) fun x hx => ?_
    · exact ⟨0, t, by simp, rfl, hs⟩
    · refine (insertAllMultiT_tri vs x.2).mono ?_
      rintro s ⟨n, t', h1, h2, h3⟩
      refine ⟨n + 1, t', by simp only [List.length_cons]; omega, ?_, h3⟩
      simp only [List.take_succ_cons, insertAllMulti, he, Option.bind_eq_bind, Option.bind_some, hx]
      exact h2

/-! ### The calls on one container -/

theorem eraseUniqueT_tri (t : Tree α) (k : κ) : Tri (eraseUniqueT st c t k) (eraseUnique c t k) (· = st t) := by
  unfold eraseUniqueT eraseUnique
  refine Tri.bind (Tri.reading (internalFind_same c t k)) fun o _ => ?_
  cases o with
  | none => exact .pure
  | some it => exact .bindPlain fun _ _ => .pure

theorem eraseMultiT_tri (t : Tree α) (k : κ) : Tri (eraseMultiT st c t k) (eraseMulti c t k) (· = st t) := by
  unfold eraseMultiT eraseMulti
  refine Tri.bind (Tri.reading (internalLowerBound_same c t k)) fun o _ => ?_
  cases o with
  | none => exact .pure
  | some it =>
    exact Tri.bind (Tri.reading (internalUpperBound_same c t k)) fun _ _ => .bindPlain fun _ _ => .bindPlain fun _ _ => .pure

/-- What an exception in a call leaves. -/
def ThrowLeft (t : Tree α) : Op α κ → σ → Prop
  | .insertAll vs, s => ∃ n t', n < vs.length ∧
    (if c.multi then insertAllMulti c t (vs.take n) else insertAllUnique c t (vs.take n)) = some t' ∧ s = st t'
  | op, s => op.Looks ∧ s = st t

theorem execT_tri (t : Tree α) (op : Op α κ) : Tri (execT st c t op) (exec c t op) (ThrowLeft st c t op) := by
  cases op with
  | insert v =>
    refine .ite (fun _ => ?_) fun _ => ?_
    · exact Tri.bind ((insertMultiT_tri st c t _ _).mono fun s h => ⟨trivial, h.1⟩) fun _ _ => .bindPlain fun _ _ => .pure
    · exact Tri.bind ((insertUniqueT_tri st c t _ _).mono fun s h => ⟨trivial, h.1⟩) fun _ _ => .bindPlain fun _ _ => .pure
  | insertHint i v =>
    refine .bindPlain fun hint _ => .ite (fun _ => ?_) fun _ => ?_
    · exact Tri.bind ((insertHintMultiT_tri st c t _ _ _).mono fun s h => ⟨trivial, h⟩) fun _ _ => .bindPlain fun _ _ => .pure
    · exact Tri.bind ((insertHintUniqueT_tri st c t _ _ _).mono fun s h => ⟨trivial, h⟩) fun _ _ => .bindPlain fun _ _ => .pure
  | insertAll vs =>
    have h : Tri (if c.multi then insertAllMultiT st c t vs else insertAllUniqueT st c t vs)
        (if c.multi then insertAllMulti c t vs else insertAllUnique c t vs) (ThrowLeft st c t (.insertAll vs)) := by
      refine .ite (fun hm => (insertAllMultiT_tri st c vs t).mono ?_) fun hm => (insertAllUniqueT_tri st c vs t).mono ?_
      · rintro s ⟨n, t', h1, h2, h3⟩
        exact ⟨n, t', h1, by rw [if_pos hm]; exact h2, h3⟩
      · rintro s ⟨n, t', h1, h2, h3⟩
        exact ⟨n, t', h1, by rw [if_neg hm]; exact h2, h3⟩
    refine (h.bind (g := fun t => some (Res.done, t)) fun _ _ => .pure).congr ?_
    simp only [exec]
    split <;> rfl
  | eraseKey k =>
    have h : Tri (if c.multi then eraseMultiT st c t k else eraseUniqueT st c t k)
        (if c.multi then eraseMulti c t k else eraseUnique c t k) (ThrowLeft st c t (.eraseKey k)) :=
      .ite (fun _ => (eraseMultiT_tri st c t k).mono fun s h => ⟨trivial, h⟩)
        fun _ => (eraseUniqueT_tri st c t k).mono fun s h => ⟨trivial, h⟩
    refine (h.bind (g := fun x => some (Res.num x.1, x.2)) fun _ _ => .pure).congr ?_
    simp only [exec]
    split <;> rfl
  | extractKey k =>
    refine (Tri.bind ((Tri.reading (find_same c t k)).mono fun s h => ⟨trivial, h⟩) fun _ _ => .plain).congr ?_
    simp only [exec, Tree.extractKey]
    cases hf : t.find c k with
    | none => rfl
    | some it =>
      cases t.end with
      | none => rfl
      | some e =>
        simp only [Option.bind_eq_bind, Option.bind_some]
        by_cases h : it = e
        · simp [h]
        · simp only [if_neg h]
          cases t.extract c it <;> rfl
  | find k => exact (Tri.reading (exec_same c t (.find k))).mono fun s h => ⟨trivial, h⟩
  | contains k => exact (Tri.reading (exec_same c t (.contains k))).mono fun s h => ⟨trivial, h⟩
  | count k => exact (Tri.reading (exec_same c t (.count k))).mono fun s h => ⟨trivial, h⟩
  | lowerBound k => exact (Tri.reading (exec_same c t (.lowerBound k))).mono fun s h => ⟨trivial, h⟩
  | upperBound k => exact (Tri.reading (exec_same c t (.upperBound k))).mono fun s h => ⟨trivial, h⟩
  | equalRange k => exact (Tri.reading (exec_same c t (.equalRange k))).mono fun s h => ⟨trivial, h⟩
  | _ => exact .plain

/-- Copying does not compare, so it does not throw. -/
theorem copyIntoT_tri {t : Tree α} (h : t.size = 0) (x : Tree α) : Tri (copyIntoT st c t x) (copyInto c t x) (fun _ => False) := by
  unfold copyIntoT copyInto
  refine .bindPlain fun vs _ => ?_
  cases vs with
  | nil => exact .pure
  | cons v vs =>
    exact Tri.bind ((insertMultiT_tri st c t _ _).mono fun s hs => hs.2 h) fun _ _ => .plain

/-! ### Merging -/

/-- `x` returns something that satisfies `Q`, or throws and leaves a state that satisfies `T`. -/
def Ends (x : Throwing σ β) (Q : β → Prop) (T : σ → Prop) : Prop :=
  ∀ k, (∃ b k', x k = some (.done b k') ∧ Q b) ∨ ∃ s, x k = some (.threw s) ∧ T s

omit c in
theorem Tri.ends {x : Throwing σ β} {p : Option β} {T : σ → Prop} (h : Tri x p T) {b : β} (e : p = some b) : Ends x (· = b) T := by
  intro k
  rcases h b e k with ⟨k', h⟩ | h
  · exact .inl ⟨b, k', h, rfl⟩
  · exact .inr h

theorem Ends.plain {o : Option β} {b : β} {T : σ → Prop} (e : o = some b) : Ends (Btree.plain o) (· = b) T := Tri.plain.ends e

theorem Ends.pure {b : β} {Q : β → Prop} {T : σ → Prop} (h : Q b) : Ends (Pure.pure b) Q T := fun k => .inl ⟨b, k, rfl, h⟩

theorem Ends.mono {x : Throwing σ β} {Q Q' : β → Prop} {T T' : σ → Prop} (h : Ends x Q T) (hq : ∀ b, Q b → Q' b)
    (ht : ∀ s, T s → T' s) : Ends x Q' T' := by
  intro k
  rcases h k with ⟨b, k', h1, h2⟩ | ⟨s, h1, h2⟩
  · exact .inl ⟨b, k', h1, hq b h2⟩
  · exact .inr ⟨s, h1, ht s h2⟩

theorem Ends.bind {x : Throwing σ β} {Q : β → Prop} {T : σ → Prop} {f : β → Throwing σ γ} {R : γ → Prop} (h : Ends x Q T)
    (hf : ∀ b, Q b → Ends (f b) R T) : Ends (x >>= f) R T := by
  intro k
  rcases h k with ⟨b, k', h1, h2⟩ | ⟨s, h1, h2⟩
  · have e : (x >>= f) k = f b k' := by
      show (match x k with | none => none | some (Ending.threw s) => some (Ending.threw s) | some (Ending.done b k) => f b k) = _
      rw [h1]
    rw [e]
    exact hf b h2 k'
  · refine .inr ⟨s, ?_, h2⟩
    show (match x k with | none => none | some (Ending.threw s) => some (Ending.threw s) | some (Ending.done b k) => f b k) = _
    rw [h1]

theorem Ends.bindPlain {o : Option β} {b : β} {T : σ → Prop} {f : β → Throwing σ γ} {R : γ → Prop} (e : o = some b)
    (hf : Ends (f b) R T) : Ends (Btree.plain o >>= f) R T := (Ends.plain e).bind fun b' hb => hb ▸ hf

end Gtl.Btree

namespace Gtl.Btree
open Gtl.Spec.SortedSeq
variable {α κ σ : Type} {c : Cfg α κ}

theorem mergeLoopT_ends (hK : 3 ≤ c.K) (o : StrictWeak c.lt) (hm : c.multi = false) (st : Tree α → Tree α → σ) :
    ∀ (f : Nat) {t s : Tree α} {L X Y : List α} {it : It}, Holds c t L →
    Rep c s (X ++ Y) → s.iterAt X.length = some it → Y.length ≤ f →
    Ends (mergeLoopT st c f t s it)
      (fun x => Holds c x.1 (mergeInto c.key c.lt L Y).1 ∧ Rep c x.2 (X ++ (mergeInto c.key c.lt L Y).2))
      (fun y => ∃ n t' s', n < Y.length ∧ y = st t' s' ∧ Holds c t' (mergeInto c.key c.lt L (Y.take n)).1 ∧
        Rep c s' (X ++ ((mergeInto c.key c.lt L (Y.take n)).2 ++ Y.drop n))) := by
  intro f
  induction f with
  | zero =>
    intro t s L X Y it h rs hi hf
    obtain rfl : Y = [] := List.length_eq_zero_iff.1 (by omega)
    obtain ⟨e, ee, ie⟩ := rs.end_ok
    have : it = e := (rs.at_end (by simp) hi ee).2 (by simp)
    refine Ends.bindPlain ee ?_
    rw [if_pos this]
    exact .pure ⟨h, rs⟩
  | succ f ih =>
    intro t s L X Y it h rs hi hf
    obtain ⟨e, ee, ie⟩ := rs.end_ok
    refine Ends.bindPlain ee ?_
    cases Y with
    | nil =>
      have : it = e := (rs.at_end (by simp) hi ee).2 (by simp)
      rw [if_pos this]
      exact .pure ⟨h, rs⟩
    | cons v Y =>
      have hne : it ≠ e := fun h => by
        have := (rs.at_end (by simp) hi ee).1 h
        simp at this
      rw [if_neg hne]
      refine Ends.bindPlain (rs.deref rfl hi) ?_
      obtain ⟨it1, t1, e1, r1, _, s1, hsame⟩ := insertUnique_add hK o h.1 h.2 hm v
      refine Ends.bind (((insertUniqueT_tri (fun t => st t s) c t (c.key v) (.val v)).mono ?_).ends e1) ?_
      · rintro y ⟨rfl, _⟩
        exact ⟨0, t, s, by simp, rfl, h, rs⟩
      rintro _ rfl
      dsimp only
      by_cases hb : (addUnique c.key c.lt L v).2.1 = true
      · obtain ⟨it', s', e2, r2, i2⟩ := eraseIt_ok hK rs rfl hi
        rw [if_pos hb]
        refine Ends.bindPlain e2 ((ih ⟨r1, s1⟩ r2 i2 (by simpa using hf)).mono ?_ ?_)
        · rw [mergeInto, if_pos hb]
          exact fun _ h => h
        · rintro y ⟨n, t', s', h1, h2, h3, h4⟩
          refine ⟨n + 1, t', s', by simp only [List.length_cons]; omega, h2, ?_⟩
          rw [List.take_succ_cons, mergeInto, if_pos hb]
          exact ⟨h3, h4⟩
      · obtain ⟨it', e2, i2⟩ := rs.increment rfl hi
        rw [if_neg hb]
        rw [addUnique_old (by simpa using hb)] at r1 s1
        refine Ends.bindPlain e2 ((ih ⟨r1, s1⟩ (X := X ++ [v]) (Y := Y) (by simpa using rs) (by simpa using i2)
          (by simpa using hf)).mono ?_ ?_)
        · rw [mergeInto, if_neg hb]
          exact fun _ h => ⟨h.1, by simpa using h.2⟩
        · rintro y ⟨n, t', s', h1, h2, h3, h4⟩
          refine ⟨n + 1, t', s', by simp only [List.length_cons]; omega, h2, ?_⟩
          rw [List.take_succ_cons, mergeInto, if_neg hb]
          exact ⟨h3, by simpa using h4⟩

/-- Writing leaves the iterators where they are. -/
theorem write_at {z : Prop} {t : Tree α} {L : List α} (r : RepZ z c t L) {X Y : List α} {v w : α} {it : It} (hL : X ++ v :: Y = L)
    (h : t.iterAt X.length = some it) :
    ∃ t', t.write it w = some t' ∧ RepZ z c t' (X ++ w :: Y) ∧ t'.iterAt X.length = some it := by
  obtain ⟨H, ht, g, hs, q⟩ := r.cur hL h (by rw [← hL]; simp)
  obtain ⟨k, p, hq⟩ := id q
  obtain ⟨nd, e, n0, hk, hi⟩ := p.live g.wf
  have hlt : it.pos < nd.vals.length := by
    have := q.deref g
    simp only [Btree.deref, e, Option.bind_eq_bind, Option.bind_some] at this
    exact (List.getElem?_eq_some_iff.1 this).1
  obtain ⟨g', p'⟩ := g.setVal (v' := w) (t' := { t with heap := t.heap.set it.node { nd with vals := nd.vals.set it.pos w } })
    e p hlt rfl rfl rfl
  refine ⟨_, by simp [Tree.write, e, Node.count, hlt, check], .inr ⟨H, ht, g', ?_⟩, Cur.iterAt g' ⟨k, p', .inl ?_⟩⟩
  · rw [← hL] at hs
    simpa using hs
  · simp only [valsOf, set_get e, if_true]
    simpa using hlt

theorem mergeMultiLoopT_ends (hK : 3 ≤ c.K) (o : StrictWeak c.lt) (hm : c.multi = true) (st : Tree α → Tree α → σ) (moved : α → α) :
    ∀ (f : Nat) {t s : Tree α} {L X Y : List α} {it : It}, Holds c t L →
    Rep c s (X ++ Y) → s.iterAt X.length = some it → Y.length ≤ f →
    Ends (mergeMultiLoopT st c moved f t s it)
      (fun x => Holds c x.1 (Y.foldl (fun l v => (addMulti c.key c.lt l v).2) L) ∧ Rep c x.2 (X ++ Y.map moved))
      (fun y => ∃ n t' s', n < Y.length ∧ y = st t' s' ∧
        Holds c t' ((Y.take n).foldl (fun l v => (addMulti c.key c.lt l v).2) L) ∧
        Rep c s' (X ++ ((Y.take n).map moved ++ Y.drop n))) := by
  intro f
  induction f with
  | zero =>
    intro t s L X Y it h rs hi hf
    obtain rfl : Y = [] := List.length_eq_zero_iff.1 (by omega)
    obtain ⟨e, ee, ie⟩ := rs.end_ok
    have : it = e := (rs.at_end (by simp) hi ee).2 (by simp)
    refine Ends.bindPlain ee ?_
    rw [if_pos this]
    exact .pure ⟨h, rs⟩
  | succ f ih =>
    intro t s L X Y it h rs hi hf
    obtain ⟨e, ee, ie⟩ := rs.end_ok
    refine Ends.bindPlain ee ?_
    cases Y with
    | nil =>
      have : it = e := (rs.at_end (by simp) hi ee).2 (by simp)
      rw [if_pos this]
      exact .pure ⟨h, rs⟩
    | cons v Y =>
      have hne : it ≠ e := fun h => by
        have := (rs.at_end (by simp) hi ee).1 h
        simp at this
      rw [if_neg hne]
      refine Ends.bindPlain (rs.deref rfl hi) ?_
      obtain ⟨te, ete, ite⟩ := h.1.end_ok
      refine Ends.bindPlain ete ?_
      obtain ⟨it1, t1, e1, r1, s1⟩ := insertEndMulti_add hK o h.1 h.2 hm ete v
      refine Ends.bind (((insertHintMultiT_tri (fun t => st t s) c t te (c.key v) (.val v)).mono ?_).ends e1) ?_
      · rintro y rfl
        exact ⟨0, t, s, by simp, rfl, h, rs⟩
      rintro _ rfl
      dsimp only
      obtain ⟨s', e2, r2, hi'⟩ := write_at rs (w := moved v) rfl hi
      obtain ⟨it', e3, i3⟩ := r2.increment rfl hi'
      refine Ends.bindPlain e2 (Ends.bindPlain e3 ((ih ⟨r1, s1⟩ (X := X ++ [moved v]) (Y := Y) (by simpa using r2) (by simpa using i3)
          (by simpa using hf)).mono ?_ ?_))
      · exact fun _ h => ⟨h.1, by simpa using h.2⟩
      · rintro y ⟨n, t', s', h1, h2, h3, h4⟩
        exact ⟨n + 1, t', s', by simp only [List.length_cons]; omega, h2, h3, by simpa using h4⟩

/-! ### Histories -/

/-- A merge of containers with duplicates leaves the keys of the elements it moves. -/
def KeepsKeys (c : Cfg α κ) (moved : α → α) : WOp α κ → Prop
  | .merge _ _ => c.multi = true → ∀ v, c.key (moved v) = c.key v
  | _ => True

theorem Sorted.movedPrefix {multi : Bool} {key : α → κ} {lt : κ → κ → Bool} {moved : α → α} (hk : ∀ v, key (moved v) = key v)
    {L : List α} (h : Sorted multi key lt L) (n : Nat) : Sorted multi key lt ((L.take n).map moved ++ L.drop n) := by
  have key : ∀ R : α → α → Prop, (∀ a b, R a b → R (moved a) b ∧ R (moved a) (moved b)) → L.Pairwise R →
      ((L.take n).map moved ++ L.drop n).Pairwise R := by
    intro R hR hL
    rw [← List.take_append_drop n L, List.pairwise_append] at hL
    rw [List.pairwise_append, List.pairwise_map]
    refine ⟨hL.1.imp fun h => (hR _ _ h).2, hL.2.1, ?_⟩
    intro a ha b hb
    obtain ⟨a, ha', rfl⟩ := List.mem_map.1 ha
    exact (hR _ _ (hL.2.2 a ha' b hb)).1
  unfold Sorted at h ⊢
  split at h <;> rename_i hm
  · rw [if_pos hm]
    exact key _ (fun a b h => by simpa [hk] using h) h
  · rw [if_neg hm]
    exact key _ (fun a b h => by simpa [hk] using h) h

theorem HoldsAll.set_self {w : List (Tree α)} {W : List (List α)} (_ : HoldsAll c w W) {i : Nat} {t : Tree α} (e : w[i]? = some t) :
    w.set i t = w := by
  apply List.ext_getElem?
  intro n
  rw [List.getElem?_set]
  split <;> rename_i hn
  · subst hn; rw [if_pos (List.getElem?_eq_some_iff.1 e).1, e]
  · rfl

theorem wexecT_ends (hK : 3 ≤ c.K) (o : StrictWeak c.lt) (eq less : α → α → Bool) (moved : α → α) {w : List (Tree α)} {W : List (List α)}
    (h : HoldsAll c w W) (op : WOp α κ) (hok : WOk c.key W op) (hk : KeepsKeys c moved op) :
    Ends (wexecT c eq less moved w op)
      (fun x => ∃ W', WStep c.multi c.key c.lt eq less W op x.1 W' ∧ HoldsAll c x.2 W')
      (fun w' => ∃ W', WThrow c.multi c.key c.lt moved W op W' ∧ HoldsAll c w' W') := by
  have triv : ∀ T : List (Tree α) → Prop, Ends (plain (wexec c eq less w op))
      (fun x => ∃ W', WStep c.multi c.key c.lt eq less W op x.1 W' ∧ HoldsAll c x.2 W') T := by
    intro T
    obtain ⟨r, w', W', e, s, h'⟩ := wexec_ok hK o eq less h op hok
    exact (Ends.plain e).mono (by rintro _ rfl; exact ⟨W', s, h'⟩) fun _ h => h
  cases op with
  | on i op =>
    obtain ⟨L, hL, hok⟩ := hok
    obtain ⟨t, L', et, eL, ht⟩ := h.get (List.getElem?_eq_some_iff.1 hL).1
    rw [hL] at eL; cases eL
    obtain ⟨r, t', L', e, st, ht'⟩ := exec_ok hK o ht op hok
    refine Ends.bindPlain et (Ends.bind (((execT_tri (fun t => w.set i t) c t op).mono fun s hs => ?_).ends e) ?_)
    · cases op with
      | insertAll vs =>
        obtain ⟨n, t1, h1, h2, rfl⟩ := hs
        cases hm : c.multi with
        | true =>
          obtain ⟨t2, e2, r2, s2⟩ := insertAllMulti_ok hK o hm (vs.take n) ht.1 ht.2
          rw [if_pos hm, e2] at h2; cases h2
          exact ⟨_, ⟨L, n, hL, h1, rfl⟩, h.set i ⟨by simpa using r2, by simpa using s2⟩⟩
        | false =>
          obtain ⟨t2, e2, r2, s2⟩ := insertAllUnique_ok hK o hm (vs.take n) ht.1 ht.2
          rw [if_neg (by simp [hm]), e2] at h2; cases h2
          exact ⟨_, ⟨L, n, hL, h1, rfl⟩, h.set i ⟨by simpa using r2, by simpa using s2⟩⟩
      | _ =>
        obtain ⟨h1, rfl⟩ := hs
        exact ⟨W, ⟨h1, rfl⟩, by simpa only [h.set_self et] using h⟩
    · rintro _ rfl
      exact .pure ⟨W.set i L', ⟨L, L', hL, st, rfl⟩, h.set i ht'⟩
  | copy i =>
    obtain ⟨t, L, et, eL, ht⟩ := h.get hok
    obtain ⟨t', e, r'⟩ := copyInto_ok hK o (L := L) (rep_empty (z := False) c).empty ht.1
    refine Ends.bindPlain et (Ends.bind (((copyIntoT_tri (fun _ => w) c rfl t).mono fun _ h => h.elim).ends e) ?_)
    rintro _ rfl
    exact .pure ⟨W ++ [L], ⟨L, eL, by rw [h.1], rfl⟩, h.push ⟨r', ht.2⟩⟩
  | assign i j =>
    by_cases hij : i = j
    · have := triv (fun _ => False)
      simp only [wexec, if_pos hij] at this
      simp only [wexecT, if_pos hij]
      exact this.mono (fun _ h => h) fun _ h => h.elim
    · obtain ⟨t, L, et, eL, ht⟩ := h.get hok.1
      obtain ⟨x, M, ex, eM, hx⟩ := h.get hok.2
      obtain ⟨t1, e1, he⟩ := Tree.clear_ok ht.1
      obtain ⟨t', e, r'⟩ := copyInto_ok hK o he hx.1
      simp only [wexecT, if_neg hij]
      refine Ends.bindPlain et (Ends.bindPlain ex (Ends.bindPlain e1 (Ends.bind
        (((copyIntoT_tri (fun t => w.set i t) c he.size x).mono fun _ h => h.elim).ends e) ?_)))
      rintro _ rfl
      exact .pure ⟨W.set i M, ⟨M, eM, rfl, rfl⟩, h.set i ⟨r', hx.2⟩⟩
  | merge i j =>
    obtain ⟨t, L, et, eL, ht⟩ := h.get hok.1
    obtain ⟨x, M, ex, eM, hx⟩ := h.get hok.2.1
    have hij := hok.2.2
    obtain ⟨b, eb, ib⟩ := hx.1.begin_ok
    refine Ends.bindPlain (b := ()) (by simp [check, hij]) (Ends.bindPlain et (Ends.bindPlain ex ?_))
    unfold mergeT
    cases hm : c.multi with
    | true =>
      simp only [if_true]
      have hl := mergeMultiLoopT_ends hK o hm (fun t x => (w.set i t).set j x) moved x.size (X := []) (Y := M) ht hx.1 ib (by rw [hx.1.size])
      refine Ends.bind (Q := fun y => Holds c y.1 (M.foldl (fun l v => (addMulti c.key c.lt l v).2) L) ∧ Rep c y.2 [])
        (Ends.bindPlain eb (Ends.bind (hl.mono (fun _ h => h) ?_) ?_)) ?_
      · rintro _ ⟨n, t', s', h1, rfl, h3, h4⟩
        refine ⟨_, ⟨L, M, n, eL, eM, h1, rfl⟩, ?_⟩
        rw [if_pos rfl]
        exact (h.set i h3).set j ⟨by simpa using h4, Sorted.movedPrefix (hk hm) hx.2 n⟩
      · rintro y ⟨h1, h2⟩
        obtain ⟨s', e', h'⟩ := Tree.clear_ok h2
        exact Ends.bindPlain e' (.pure ⟨h1, .inl ⟨h', rfl⟩⟩)
      · rintro y ⟨h1, h2⟩
        refine .pure ⟨_, ⟨L, M, eL, eM, rfl, rfl⟩, ?_⟩
        rw [if_pos rfl]
        exact (h.set i h1).set j ⟨h2, (holds_empty c).2⟩
    | false =>
      simp only [Bool.false_eq_true, if_false]
      have hl := mergeLoopT_ends hK o hm (fun t x => (w.set i t).set j x) x.size (X := []) (Y := M) ht hx.1 ib (by rw [hx.1.size])
      refine Ends.bind (Ends.bindPlain eb (hl.mono (fun _ h => h) ?_)) ?_
      · rintro _ ⟨n, t', s', h1, rfl, h3, h4⟩
        refine ⟨_, ⟨L, M, n, eL, eM, h1, rfl⟩, ?_⟩
        rw [if_neg (by simp)]
        refine (h.set i h3).set j ⟨by simpa using h4, hx.2.sub ?_⟩
        have := (mergeInto_sub c.key c.lt L (M.take n)).append_right (M.drop n)
        rwa [List.take_append_drop] at this
      · rintro y ⟨h1, h2⟩
        refine .pure ⟨_, ⟨L, M, eL, eM, rfl, rfl⟩, ?_⟩
        rw [if_neg (by simp)]
        exact (h.set i h1).set j ⟨by simpa using h2, hx.2.sub (mergeInto_sub _ _ _ _)⟩
  | make => exact triv _
  | move i j => exact triv _
  | swap i j => exact triv _
  | eq i j => exact triv _
  | less i j => exact triv _

theorem wexecAllT_ok (hK : 3 ≤ c.K) (o : StrictWeak c.lt) (eq less : α → α → Bool) (moved : α → α) : ∀ (ops : List (WOp α κ × Nat))
    {w : List (Tree α)} {W : List (List α)}, HoldsAll c w W → WSafeT c.multi c.key c.lt eq less moved W (ops.map Prod.fst) →
    (∀ op ∈ ops, KeepsKeys c moved op.1) →
    ∃ rs w' W', wexecAllT c eq less moved w ops = some (rs, w') ∧
      WRunT c.multi c.key c.lt eq less moved W (ops.map Prod.fst) rs W' ∧ HoldsAll c w' W'
  | [], w, W, h, _, _ => ⟨[], w, W, rfl, .nil, h⟩
  | (op, k) :: ops, w, W, h, sf, hk => by
    rcases wexecT_ends hK o eq less moved h op sf.1 (hk _ (.head _)) k with ⟨⟨r, w1⟩, k', e1, W1, s1, h1⟩ | ⟨w1, e1, W1, s1, h1⟩
    · obtain ⟨rs, w2, W2, e2, s2, h2⟩ := wexecAllT_ok hK o eq less moved ops h1 (sf.2 _ W1 (.returned s1)) fun x hx => hk x (.tail _ hx)
      exact ⟨.got r :: rs, w2, W2, by simp [wexecAllT, e1, e2], .cons (.returned s1) s2, h2⟩
    · obtain ⟨rs, w2, W2, e2, s2, h2⟩ := wexecAllT_ok hK o eq less moved ops h1 (sf.2 _ W1 (.threw s1)) fun x hx => hk x (.tail _ hx)
      exact ⟨.threw :: rs, w2, W2, by simp [wexecAllT, e1, e2], .cons (.threw s1) s2, h2⟩

end Gtl.Btree
