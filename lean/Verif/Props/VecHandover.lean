import Verif.Vec.Handover
import Verif.Vec.Shrink
import Verif.Spec.Handover
import Verif.Props.Vector
/-
C109: taking the buffer of a vector away and giving buffers to vectors (`relinquish`, `attach`, the constructor from a
buffer), and `compactResize`.
-/
namespace Gtl.Props.VecHandover
open Gtl.Vec Gtl.Spec.Seq Gtl.Props.Vector
open Gtl.Spec.Handover (HOp held)
variable {α : Type} {t : Traits α}

/-- The rules of the functions (vector.hpp 1594-1614): a vector that gets a buffer has none, the buffer is one the user
holds, with the size and the capacity it had; what the user holds is not a vector. For the calls of the vector the rules
are those of C45. -/
def HFair (t : Traits α) (x : Hold α) : HOp α → Prop
  | .base op => Fair t (view x.w) op ∧ ∀ n ∈ op.names, x.loose n = false
  | .relinquish i h => x.loose i = false ∧ x.loose h = false ∧ (view x.w i).isSome ∧ view x.w h = none
  | .attach i h n cap => x.loose i = false ∧ x.loose h = true ∧ data x.w i = some none ∧
      (view x.w h).map List.length = some n ∧ capacity x.w h = some cap
  | .adopt i h n cap => x.loose i = false ∧ x.loose h = true ∧ view x.w i = none ∧
      (view x.w h).map List.length = some n ∧ capacity x.w h = some cap
  | .free h => x.loose h = true ∧ (view x.w h).isSome
  | .compact i n => x.loose i = false ∧ (view x.w i).isSome ∧ n * t.size < 2 ^ 63 ∧ Safe t

/-- What programs with these functions reach, also when calls throw. -/
inductive HReach (t : Traits α) : Hold α → Prop
  | init (luck : Nat → Bool) : HReach t ⟨World.init luck, fun _ => false⟩
  | ok {x x' : Hold α} {op : HOp α} {a : Ans α} : HReach t x → HFair t x op → hstep t x op = .ok a x' → HReach t x'
  | thrown {x x' : Hold α} {op : HOp α} {e : Exc} : HReach t x → HFair t x op → hstep t x op = .thrown e x' → HReach t x'

theorem view_vec {w : World α} {i : Nat} (h : (view w i).isSome) : ∃ v, w.vecs i = some v := by
  unfold view at h
  rw [Option.isSome_map] at h
  exact Option.isSome_iff_exists.mp h

theorem view_none {w : World α} {i : Nat} (h : view w i = none) : w.vecs i = none := by
  unfold view at h
  rwa [Option.map_eq_none_iff] at h

/-- `relinquish` is a move into the name of the buffer. -/
theorem relinquish_move {x : Hold α} {i h : Nat} {v : Vec} (hi : x.w.vecs i = some v) (hh : x.w.vecs h = none) :
    ∃ w', step t x.w (.createMove h i) = .ok .unit w' ∧ x.relinquish i h = .ok .unit ⟨w', x.mark h true⟩ := by
  refine ⟨{ x.w with vecs := fun k => if k = i then some ⟨none, 0, 0⟩ else if k = h then some v else x.w.vecs k }, ?_, ?_⟩
  · simp only [step, World.moveTo, hi, hh]
  · simp only [Hold.relinquish, hi, hh]

/-- Dropping a vector without a buffer. -/
theorem drop_null {w : World α} {h : Nat} (hh : w.vecs h = some ⟨none, 0, 0⟩) :
    step t w (.drop h) = .ok .unit { w with vecs := fun k => if k = h then none else w.vecs k } := by
  simp only [step, World.destruct, hh]
  rfl

/-- `attach` is a move assignment from the name of the buffer, which then goes. -/
theorem attach_move {x : Hold α} {i h : Nat} {v : Vec} (hne : i ≠ h) (hi : x.w.vecs i = some ⟨none, 0, 0⟩)
    (hh : x.w.vecs h = some v) :
    ∃ w1 w', step t x.w (.moveAssign i h) = .ok .unit w1 ∧ step t w1 (.drop h) = .ok .unit w' ∧ w1.vecs h = some ⟨none, 0, 0⟩ ∧
      x.attach i h v.e v.z = .ok .unit ⟨w', x.mark h false⟩ := by
  refine ⟨{ x.w with vecs := fun k => if k = i then some v else if k = h then some ⟨none, 0, 0⟩ else x.w.vecs k }, _, ?_,
    drop_null ?_, ?_, ?_⟩
  · simp only [step, World.exchange, hi, hh]
  · simp [Ne.symm hne]
  · simp [Ne.symm hne]
  · simp only [Hold.attach, hi, hh]
    congr 3
    funext k
    by_cases h1 : k = h
    · simp [h1]
    · by_cases h2 : k = i <;> simp [h1, h2]

/-- The constructor from a buffer is a move construction from the name of the buffer, which then goes. -/
theorem adopt_move {x : Hold α} {i h : Nat} {v : Vec} (hi : x.w.vecs i = none) (hh : x.w.vecs h = some v) :
    ∃ w1 w', step t x.w (.createMove i h) = .ok .unit w1 ∧ step t w1 (.drop h) = .ok .unit w' ∧ w1.vecs h = some ⟨none, 0, 0⟩ ∧
      x.adopt i h v.e v.z = .ok .unit ⟨w', x.mark h false⟩ := by
  have hne : i ≠ h := by rintro rfl; rw [hi] at hh; cases hh
  refine ⟨{ x.w with vecs := fun k => if k = h then some ⟨none, 0, 0⟩ else if k = i then some v else x.w.vecs k }, _, ?_,
    drop_null ?_, ?_, ?_⟩
  · simp only [step, World.moveTo, hi, hh]
  · simp
  · simp
  · simp only [Hold.adopt, hi, hh]
    congr 3
    funext k
    by_cases h1 : k = h
    · simp [h1]
    · by_cases h2 : k = i <;> simp [h1, h2, hne]

/-- What a call may do. -/
def HOutcome (t : Traits α) (x : Hold α) (op : HOp α) : Out (Hold α) (Ans α) → Prop
  | .ok a x' => Reach t x'.w ∧ Gtl.Spec.Handover.effect t.dflt (view x.w) op = some (view x'.w, a) ∧ x'.loose = held x.loose op
  | .thrown _ x' => Reach t x'.w ∧ x'.loose = x.loose ∧ match op with
      | .base o => AfterThrow (Safe t) (view x.w) o (view x'.w)
      | .compact _ _ => view x'.w = view x.w
      | _ => False
  | .ub => False

theorem mark_true (x : Hold α) (i h : Nat) : x.mark h true = held x.loose (.relinquish (α := α) i h) := by
  funext k
  by_cases hk : k = h <;> simp [Hold.mark, held, hk]

theorem mark_false (x : Hold α) (h : Nat) : x.mark h false = fun k => k != h && x.loose k := by
  funext k
  by_cases hk : k = h <;> simp [Hold.mark, hk]

/-- A vector without a buffer is empty. -/
theorem bare {w : World α} {i : Nat} (hs : Sane t) (hr : Reach t w) (h : data w i = some none) :
    w.vecs i = some ⟨none, 0, 0⟩ ∧ view w i = some [] := by
  unfold data at h
  obtain ⟨v, hv, hb⟩ := Option.map_eq_some_iff.mp h
  obtain ⟨l, hl, g⟩ := (hr.inv hs).good i v hv
  rcases g.body with ⟨h1, h2⟩ | ⟨p, h1, _⟩
  · exact ⟨by rw [hv]; exact congrArg some h1, by rw [hl, h2]⟩
  · have : v.b = some p := h1
    rw [hb] at this
    cases this

/-- The buffer `h` with its size and its capacity. -/
theorem whole {w : World α} {h n cap : Nat} (hs : Sane t) (hr : Reach t w) (h1 : (view w h).map List.length = some n)
    (h2 : capacity w h = some cap) : ∃ v l, w.vecs h = some v ∧ view w h = some l ∧ l.length = n ∧ v.e = n ∧ v.z = cap := by
  obtain ⟨l, hl, hn⟩ := Option.map_eq_some_iff.mp h1
  obtain ⟨v, hv, g⟩ := (hr.inv hs).vec hl
  refine ⟨v, l, hv, hl, hn, g.size.trans hn, ?_⟩
  simp only [capacity, hv, Option.map_some, Option.some.injEq] at h2
  exact h2

theorem fair_move {w : World α} {i h : Nat} (h1 : (view w h).isSome) (h2 : view w i = none) :
    Fair t (view w) (.createMove i h) := by
  obtain ⟨l, hl⟩ := Option.isSome_iff_exists.mp h1
  refine ⟨.inl ?_, ?_, trivial⟩
  · simp [Gtl.Spec.Seq.effect, hl, make, h2]
  · simp [count]

theorem fair_assign {w : World α} {i h : Nat} (h1 : (view w h).isSome) (h2 : (view w i).isSome) :
    Fair t (view w) (.moveAssign i h) := by
  obtain ⟨l, hl⟩ := Option.isSome_iff_exists.mp h1
  obtain ⟨m, hm⟩ := Option.isSome_iff_exists.mp h2
  refine ⟨.inl ?_, ?_, trivial⟩
  · simp [Gtl.Spec.Seq.effect, hl, hm]
  · simp [count]

theorem fair_drop {w : World α} {h : Nat} (h1 : (view w h).isSome) : Fair t (view w) (.drop h) := by
  refine ⟨.inl ?_, ?_, trivial⟩
  · simpa [Gtl.Spec.Seq.effect] using h1
  · simp [count]

/-- The outcome of a call in any state a program of the vector reaches. -/
theorem hstep_outcome {x : Hold α} {op : HOp α} (hs : Sane t) (hr : Reach t x.w) (hf : HFair t x op) :
    HOutcome t x op (hstep t x op) := by
  cases op with
  | base op =>
    obtain ⟨hf, hn⟩ := hf
    have hany : op.names.any x.loose = false := by
      rw [List.any_eq_false]
      intro n h
      simp [hn n h]
    simp only [hstep, hany, Bool.false_eq_true, if_false]
    have h := C45_effect_partial hs hr hf
    cases e : step t x.w op with
    | ok a w' => exact ⟨hr.ok hf e, h.2 a w' e, rfl⟩
    | thrown e' w' => exact ⟨hr.thrown hf e, rfl, (C57_exception_safety hs hr hf e).1⟩
    | ub => exact h.1 e
  | relinquish i h =>
    obtain ⟨h1, h2, h3, h4⟩ := hf
    obtain ⟨v, hv⟩ := view_vec h3
    have hh := view_none h4
    obtain ⟨w', e1, e2⟩ := relinquish_move (t := t) hv hh
    have hfm := fair_move (t := t) h3 h4
    simp only [hstep, h1, h2, Bool.or_self, Bool.false_eq_true, if_false, e2]
    refine ⟨hr.ok hfm e1, ?_, mark_true x i h⟩
    have := (C45_effect_partial hs hr hfm).2 _ _ e1
    obtain ⟨l, hl⟩ := Option.isSome_iff_exists.mp h3
    simp only [Gtl.Spec.Seq.effect, make, hl, h4, Option.bind_some, Option.isSome_none, Bool.false_eq_true, if_false,
      Option.map_some] at this
    simp only [Gtl.Spec.Handover.effect, hl, h4]
    exact this
  | attach i h n cap =>
    obtain ⟨h1, h2, h3, h4, h5⟩ := hf
    have hne : i ≠ h := by rintro rfl; rw [h1] at h2; cases h2
    obtain ⟨hi, hvi⟩ := bare hs hr h3
    obtain ⟨v, l, hh, hl, hn, he, hz⟩ := whole hs hr h4 h5
    obtain ⟨w1, w', e1, e2, _, e3⟩ := attach_move (t := t) hne hi hh
    rw [he, hz] at e3
    have hf1 := fair_assign (t := t) (w := x.w) (i := i) (h := h) (by simp [hl]) (by simp [hvi])
    have hr1 := hr.ok hf1 e1
    have g1 := (C45_effect_partial hs hr hf1).2 _ _ e1
    simp only [Gtl.Spec.Seq.effect, hl, hvi, Option.bind_some, Option.map_some, Option.some.injEq, Prod.mk.injEq, and_true] at g1
    have hf2 : Fair t (view w1) (.drop h) := fair_drop (by rw [← g1]; simp [put, Ne.symm hne])
    have g2 := (C45_effect_partial hs hr1 hf2).2 _ _ e2
    have hw1 : view w1 h = some [] := by rw [← g1]; simp [put, Ne.symm hne]
    simp only [Gtl.Spec.Seq.effect, hw1, Option.map_some, Option.some.injEq, Prod.mk.injEq, and_true] at g2
    simp only [hstep, h1, h2, Bool.not_true, Bool.or_self, Bool.false_eq_true, if_false, e3]
    refine ⟨hr1.ok hf2 e2, ?_, mark_false x h⟩
    simp only [Gtl.Spec.Handover.effect, hl, hvi, hn, if_true, ← g2, ← g1]
    congr 2
    funext k
    by_cases hk : k = h
    · simp [put, hk]
    · by_cases hk' : k = i <;> simp [put, hk, hk', hne]
  | adopt i h n cap =>
    obtain ⟨h1, h2, h3, h4, h5⟩ := hf
    have hne : i ≠ h := by rintro rfl; rw [h1] at h2; cases h2
    obtain ⟨v, l, hh, hl, hn, he, hz⟩ := whole hs hr h4 h5
    obtain ⟨w1, w', e1, e2, _, e3⟩ := adopt_move (t := t) (view_none h3) hh
    rw [he, hz] at e3
    have hf1 := fair_move (t := t) (w := x.w) (i := i) (h := h) (by simp [hl]) h3
    have hr1 := hr.ok hf1 e1
    have g1 := (C45_effect_partial hs hr hf1).2 _ _ e1
    simp only [Gtl.Spec.Seq.effect, make, hl, h3, Option.bind_some, Option.map_some, Option.isSome_none, Bool.false_eq_true,
      if_false, Option.some.injEq, Prod.mk.injEq, and_true] at g1
    have hf2 : Fair t (view w1) (.drop h) := fair_drop (by rw [← g1]; simp [put])
    have g2 := (C45_effect_partial hs hr1 hf2).2 _ _ e2
    have hw1 : view w1 h = some [] := by rw [← g1]; simp [put]
    simp only [Gtl.Spec.Seq.effect, hw1, Option.map_some, Option.some.injEq, Prod.mk.injEq, and_true] at g2
    simp only [hstep, h1, h2, Bool.not_true, Bool.or_self, Bool.false_eq_true, if_false, e3]
    refine ⟨hr1.ok hf2 e2, ?_, mark_false x h⟩
    simp only [Gtl.Spec.Handover.effect, hl, h3, hn, if_true, ← g2, ← g1]
    congr 2
    funext k
    by_cases hk : k = h
    · simp [put, hk]
    · by_cases hk' : k = i <;> simp [put, hk, hk', hne]
  | free h =>
    obtain ⟨h1, h2⟩ := hf
    have hf' := fair_drop (t := t) h2
    have hst : x.w.destruct t h = step t x.w (.drop h) := rfl
    simp only [hstep, h1, if_true, Hold.free, hst]
    have g := C45_effect_partial hs hr hf'
    cases e : step t x.w (.drop h) with
    | ok a w' => exact ⟨hr.ok hf' e, g.2 a w' e, mark_false _ h⟩
    | thrown e' w' => exact absurd (C57_exception_safety hs hr hf' e).1.throws (by simp [noexcept])
    | ub => exact g.1 e
  | compact i n =>
    obtain ⟨h1, h2, h3, h4⟩ := hf
    obtain ⟨l, hl⟩ := Option.isSome_iff_exists.mp h2
    have hf1 : Fair t (view x.w) (.resize i n) := ⟨.inl (by simp [Gtl.Spec.Seq.effect, hl]), h3, trivial⟩
    have g := C45_effect_partial hs hr hf1
    simp only [hstep, h1, Bool.false_eq_true, if_false, Hold.compact]
    cases e : step t x.w (.resize i n) with
    | ub => exact g.1 e
    | thrown e' w' => exact ⟨hr.thrown hf1 e, rfl, (C57_exception_safety hs hr hf1 e).1.strong h4 rfl⟩
    | ok a w1 =>
      have hr1 := hr.ok hf1 e
      have g1 := g.2 a w1 e
      have hsome : (view w1 i).isSome := by
        simp only [Gtl.Spec.Seq.effect, hl, Option.map_some, Option.some.injEq, Prod.mk.injEq] at g1
        rw [← g1.1]
        simp [put]
      obtain ⟨m, hm⟩ := Option.isSome_iff_exists.mp hsome
      have hf2 : Fair t (view w1) (.shrinkToFit i) := ⟨.inl (by simp [Gtl.Spec.Seq.effect, hm]), by simp [count], h4⟩
      have g2 := C45_effect_partial hs hr1 hf2
      dsimp only
      cases e2 : step t w1 (.shrinkToFit i) with
      | ub => exact g2.1 e2
      | thrown e' w' => exact absurd (C57_exception_safety hs hr1 hf2 e2).1.throws (by simp [noexcept])
      | ok b w2 =>
        refine ⟨hr1.ok hf2 e2, ?_, rfl⟩
        have g3 := g2.2 b w2 e2
        simp only [Gtl.Spec.Seq.effect, hm, hl, Option.map_some, Option.some.injEq, Prod.mk.injEq] at g3 g1
        simp only [Gtl.Spec.Handover.effect, Gtl.Spec.Seq.effect, hl, Option.map_some, Hold.lift]
        rw [g1.1, ← g3.1, g3.2]

/-- C109: programs that take buffers away from vectors and give them back only reach states that programs without these
functions reach too, so all that C45 and C57 to C59 say holds of all vectors and of all buffers the user holds. -/
theorem C109_programs {x : Hold α} (hs : Sane t) (h : HReach t x) : Reach t x.w := by
  induction h with
  | init luck => exact .init luck
  | ok _ hf he ih =>
    have := hstep_outcome hs ih hf
    rw [he] at this
    exact this.1
  | thrown _ hf he ih =>
    have := hstep_outcome hs ih hf
    rw [he] at this
    exact this.1

/-- C109: no call has undefined behaviour; one that ends normally changes the elements of the vectors and of the held
buffers, and who holds what, as the specification says. -/
theorem C109_effect {x : Hold α} {op : HOp α} (hs : Sane t) (h : HReach t x) (hf : HFair t x op) :
    hstep t x op ≠ .ub ∧ ∀ a x', hstep t x op = .ok a x' →
      Gtl.Spec.Handover.effect t.dflt (view x.w) op = some (view x'.w, a) ∧ x'.loose = held x.loose op := by
  have h := hstep_outcome hs (C109_programs hs h) hf
  refine ⟨fun e => by rw [e] at h; exact h, fun a x' e => ?_⟩
  rw [e] at h
  exact h.2

/-- C109: `relinquish`, `attach` and the constructor never throw, nor does freeing a buffer; `compactResize` throws only
before anything has changed. -/
theorem C109_throws {x x' : Hold α} {op : HOp α} {e : Exc} (hs : Sane t) (h : HReach t x) (hf : HFair t x op)
    (he : hstep t x op = .thrown e x') : x'.loose = x.loose ∧
      ((∃ o, op = .base o) ∨ (∃ i n, op = .compact i n) ∧ view x'.w = view x.w) := by
  have h := hstep_outcome hs (C109_programs hs h) hf
  rw [he] at h
  refine ⟨h.2.1, ?_⟩
  cases op with
  | base o => exact .inl ⟨o, rfl⟩
  | compact i n => exact .inr ⟨⟨i, n, rfl⟩, h.2.2⟩
  | relinquish | attach | adopt | free => exact h.2.2.elim

/-- C109: taking a buffer away and giving it to a vector constructs, copies and destroys nothing, and allocates nothing: all
memory is as before, the address and the capacity are passed on, the elements are where they were, and all other vectors
and buffers keep theirs. -/
theorem C109_in_place {x : Hold α} {op : HOp α} {i j : Nat} (hs : Sane t) (h : HReach t x) (hf : HFair t x op)
    (hop : op = .relinquish i j ∨ (∃ n cap, op = .attach j i n cap) ∨ ∃ n cap, op = .adopt j i n cap) :
    ∃ x', hstep t x op = .ok .unit x' ∧ x'.w.mem = x.w.mem ∧ x'.w.len = x.w.len ∧ x'.w.next = x.w.next ∧
      x'.w.luck = x.w.luck ∧ data x'.w j = data x.w i ∧ capacity x'.w j = capacity x.w i ∧ view x'.w j = view x.w i ∧
      (∀ k, k ≠ i → k ≠ j → data x'.w k = data x.w k ∧ capacity x'.w k = capacity x.w k ∧ view x'.w k = view x.w k) := by
  have hr := C109_programs hs h
  rcases hop with rfl | ⟨n, cap, rfl⟩ | ⟨n, cap, rfl⟩
  · obtain ⟨h1, h2, h3, h4⟩ := hf
    obtain ⟨v, hv⟩ := view_vec h3
    have hj := view_none h4
    have hne : j ≠ i := by rintro rfl; rw [hv] at hj; cases hj
    refine ⟨⟨{ x.w with vecs := fun k => if k = i then some ⟨none, 0, 0⟩ else if k = j then some v else x.w.vecs k }, x.mark j true⟩,
      by simp only [hstep, h1, h2, Bool.or_self, Bool.false_eq_true, if_false, Hold.relinquish, hv, hj], rfl, rfl, rfl, rfl, ?_, ?_, ?_, fun k h6 h7 => ⟨?_, ?_, ?_⟩⟩
    · simp [data, hne, hv]
    · simp [capacity, hne, hv]
    · simp [view, hne, hv, contents]
    · simp [data, h6, h7]
    · simp [capacity, h6, h7]
    · simp only [view, h6, h7, if_false]; rfl
  · obtain ⟨h1, h2, h3, h4, h5⟩ := hf
    have hne : j ≠ i := by rintro rfl; rw [h1] at h2; cases h2
    obtain ⟨hi, hvi⟩ := bare hs hr h3
    obtain ⟨⟨b, e, z⟩, l, hh, hl, hn, rfl, rfl⟩ := whole hs hr h4 h5
    refine ⟨⟨{ x.w with vecs := fun k => if k = i then none else if k = j then some ⟨b, e, z⟩ else x.w.vecs k }, x.mark i false⟩,
      by simp only [hstep, h1, h2, Bool.not_true, Bool.or_self, Bool.false_eq_true, if_false, Hold.attach, hi, hh],
      rfl, rfl, rfl, rfl, ?_, ?_, ?_, fun k h6 h7 => ⟨?_, ?_, ?_⟩⟩
    · simp [data, hne, hh]
    · simp [capacity, hne, hh]
    · simp [view, hne, hh, contents]
    · simp [data, h6, h7]
    · simp [capacity, h6, h7]
    · simp only [view, h6, h7, if_false]; rfl
  · obtain ⟨h1, h2, h3, h4, h5⟩ := hf
    have hne : j ≠ i := by rintro rfl; rw [h1] at h2; cases h2
    obtain ⟨⟨b, e, z⟩, l, hh, hl, hn, rfl, rfl⟩ := whole hs hr h4 h5
    have hj := view_none h3
    refine ⟨⟨{ x.w with vecs := fun k => if k = i then none else if k = j then some ⟨b, e, z⟩ else x.w.vecs k }, x.mark i false⟩,
      by simp only [hstep, h1, h2, Bool.not_true, Bool.or_self, Bool.false_eq_true, if_false, Hold.adopt, hj, hh],
      rfl, rfl, rfl, rfl, ?_, ?_, ?_, fun k h6 h7 => ⟨?_, ?_, ?_⟩⟩
    · simp [data, hne, hh]
    · simp [capacity, hne, hh]
    · simp [view, hne, hh, contents]
    · simp [data, h6, h7]
    · simp [capacity, h6, h7]
    · simp only [view, h6, h7, if_false]; rfl

/-- C109: a vector whose buffer has been taken away is as a new one: no buffer, no capacity, no elements. -/
theorem C109_emptied {x x' : Hold α} {i h : Nat} {a : Ans α} (he : hstep t x (.relinquish i h) = .ok a x') :
    data x'.w i = some none ∧ capacity x'.w i = some 0 ∧ view x'.w i = some [] := by
  simp only [hstep] at he
  split at he
  · cases he
  · unfold Hold.relinquish at he
    split at he
    · cases he
      exact ⟨by simp [data], by simp [capacity], by simp [view, contents]⟩
    · cases he

/-- C109: taking the buffer away and giving it back at once leaves everything as it was: the vectors, their buffers, the
memory and who holds what. -/
theorem C109_round_trip {x : Hold α} {i h n cap : Nat} (hs : Sane t) (hr : HReach t x) (hf : HFair t x (.relinquish i h))
    (hn : (view x.w i).map List.length = some n) (hc : capacity x.w i = some cap) :
    ∃ x', hstep t x (.relinquish i h) = .ok .unit x' ∧ HFair t x' (.attach i h n cap) ∧
      hstep t x' (.attach i h n cap) = .ok .unit x := by
  obtain ⟨x', e1, _, _, _, _, d1, c1, v1, _⟩ := C109_in_place hs hr hf (.inl rfl)
  obtain ⟨d2, _, _⟩ := C109_emptied e1
  have hl := ((C109_effect hs hr hf).2 _ _ e1).2
  obtain ⟨h1, h2, h3, h4⟩ := id hf
  obtain ⟨⟨b, e, z⟩, hv⟩ := view_vec h3
  have hh := view_none h4
  have hne : i ≠ h := by rintro rfl; rw [hv] at hh; cases hh
  refine ⟨x', e1, ⟨?_, ?_, d2, by rw [v1]; exact hn, by rw [c1]; exact hc⟩, ?_⟩
  · rw [hl]; simp [held, hne, h1]
  · rw [hl]; simp [held]
  · simp only [hstep, h1, h2, Bool.or_self, Bool.false_eq_true, if_false, Hold.relinquish, hv, hh, Out.ok.injEq, true_and] at e1
    obtain ⟨v, l, g1, g2, g3, g4, g5⟩ := whole hs (C109_programs hs hr) hn hc
    rw [hv] at g1
    injection g1 with g1
    subst g1 g4 g5
    subst e1
    simp only [hstep, Hold.mark, hne, h1, if_false, if_true, Bool.not_true, Bool.or_self, Bool.false_eq_true, Hold.attach,
      Ne.symm hne, Out.ok.injEq, true_and]
    obtain ⟨w, loose⟩ := x
    congr 1
    · congr 1
      funext k
      by_cases hk : k = h
      · simp only [hk, if_true]; exact hh.symm
      · by_cases hk' : k = i
        · simp only [hk', hne, if_false, if_true]; exact hv.symm
        · simp [hk, hk']
    · funext k
      by_cases hk : k = h
      · simp only [hk, Hold.mark, if_true]; exact h2.symm
      · simp [Hold.mark, hk]

/-- C109: memory belongs to one vector or to one buffer the user holds; when all of these are gone, it is all given back. -/
theorem C109_no_leak {x : Hold α} (hs : Sane t) (h : HReach t x) :
    (∀ p n, x.w.len p = some n → ∃ i, data x.w i = some (some p) ∧ capacity x.w i = some n ∧ ∀ j, data x.w j = some (some p) → j = i) ∧
    ((∀ i, view x.w i = none) → ∀ p, x.w.len p = none) :=
  ⟨fun _ _ hp => let ⟨i, h1, h2, h3, _⟩ := C58_memory_owned hs (C109_programs hs h) hp; ⟨i, h1, h2, h3⟩,
    fun hn p => C58_no_leak hs (C109_programs hs h) hn p⟩

theorem lift_ok {x x' : Hold α} {a : Ans α} {r : Out (World α) (Ans α)} (h : x.lift r = .ok a x') : r = .ok a x'.w := by
  cases r with
  | ok b w => cases h; rfl
  | thrown e w => cases h
  | ub => cases h

/-- C59: after `shrink_to_fit` the capacity is the number of elements; when memory runs out or an element cannot be moved the
vector keeps its buffer and its capacity. -/
theorem C59_shrink {w w' : World α} {i : Nat} {l : List α} {a : Ans α} (hs : Sane t) (hr : Reach t w) (hl : view w i = some l)
    (he : step t w (.shrinkToFit i) = .ok a w') :
    capacity w' i = some l.length ∨ (∃ k, w.luck k = true) ∧ data w' i = data w i ∧ capacity w' i = capacity w i := by
  obtain ⟨v, hv, g⟩ := (hr.inv hs).vec hl
  have hsz : v.e = l.length := g.size
  obtain ⟨_, s', e1, e2⟩ := on_result (f := fun _ => .unit) (E := fun _ _ => True) hv (shrinkToFit_vec g hs.pos) he
  rcases e2 with e2 | ⟨e2, e3⟩
  · exact .inl (by simp only [capacity, e1, Option.map_some, e2]; exact congrArg some hsz)
  · refine .inr ⟨?_, ?_, ?_⟩
    · by_contra hk
      exact e2 fun k => by
        cases hb : w.luck k with
        | false => exact hb
        | true => exact absurd ⟨k, hb⟩ hk
    · simp only [data, e1, hv, Option.map_some, e3]; rfl
    · simp only [capacity, e1, hv, Option.map_some, e3]; rfl

/-- C109: when nothing throws, `compactResize(&v, n)` leaves `n` elements and capacity `n`. -/
theorem C109_compact {x x' : Hold α} {i n : Nat} {a : Ans α} (hs : Sane t) (h : HReach t x) (hf : HFair t x (.compact i n))
    (hc : ∀ k, x.w.luck k = false) (he : hstep t x (.compact i n) = .ok a x') :
    (view x'.w i).map List.length = some n ∧ capacity x'.w i = some n := by
  have hr := C109_programs hs h
  obtain ⟨h1, h2, h3, h4⟩ := id hf
  obtain ⟨l, hl⟩ := Option.isSome_iff_exists.mp h2
  have hlen : ∀ (l : List α), (l.take n ++ List.replicate (n - l.length) t.dflt).length = n := fun l => by simp; omega
  refine ⟨?_, ?_⟩
  · have := ((C109_effect hs h hf).2 _ _ he).1
    simp only [Gtl.Spec.Handover.effect, Gtl.Spec.Seq.effect, hl, Option.map_some, Option.some.injEq, Prod.mk.injEq] at this
    rw [← this.1]
    simp only [put, if_true, Option.map_some, hlen]
  · have hf1 : Fair t (view x.w) (.resize i n) := ⟨.inl (by simp [Gtl.Spec.Seq.effect, hl]), h3, trivial⟩
    simp only [hstep, h1, Bool.false_eq_true, if_false, Hold.compact] at he
    split at he
    · rename_i w1 e1
      have hr1 := hr.ok hf1 e1
      have g1 := (C45_effect_partial hs hr hf1).2 _ _ e1
      simp only [Gtl.Spec.Seq.effect, hl, Option.map_some, Option.some.injEq, Prod.mk.injEq] at g1
      have hc1 := step_calm t hc (.resize i n)
      rw [e1] at hc1
      have hv1 : view w1 i = some (l.take n ++ List.replicate (n - l.length) t.dflt) := by rw [← g1.1]; simp [put]
      rcases C59_shrink hs hr1 hv1 (lift_ok he) with h | ⟨⟨k, hk⟩, _⟩
      · rw [hlen] at h; exact h
      · have : w1.luck k = false := hc1 k
        rw [hk] at this; cases this
    · cases he
    · cases he

/-! ### A program -/

instance {x : Hold α} : ∀ op : HOp α, Decidable (HFair t x op)
  | .base op => by unfold HFair; exact inferInstance
  | .relinquish i h => by unfold HFair; exact inferInstance
  | .attach i h n cap => by unfold HFair; exact inferInstance
  | .adopt i h n cap => by unfold HFair; exact inferInstance
  | .free h => by unfold HFair; exact inferInstance
  | .compact i n => by unfold HFair Safe; exact inferInstance

/-- Runs the calls as long as they keep the rules. -/
def hfollow (t : Traits α) (x : Hold α) : List (HOp α) → Option (Hold α)
  | [] => some x
  | op :: ops =>
    if HFair t x op then
      match hstep t x op with
      | .ok _ x' | .thrown _ x' => hfollow t x' ops
      | .ub => none
    else none

theorem hfollow_reach (t : Traits α) : ∀ (ops : List (HOp α)) (x x' : Hold α), HReach t x → hfollow t x ops = some x' → HReach t x'
  | [], x, x', hr, h => by injection h with h; rwa [← h]
  | op :: ops, x, x', hr, h => by
    unfold hfollow at h
    by_cases hf : HFair t x op
    · rw [if_pos hf] at h
      cases he : hstep t x op with
      | ok a y => rw [he] at h; exact hfollow_reach t ops y x' (.ok hr hf he) h
      | thrown e y => rw [he] at h; exact hfollow_reach t ops y x' (.thrown hr hf he) h
      | ub => rw [he] at h; cases h
    · rw [if_neg hf] at h; cases h

/-- A vector of three strings with room for eight; its buffer is taken away; the vector gets another element; the buffer is
given to a new vector, which is made smaller. -/
def exCalls : List (HOp Nat) :=
  [.base (.createRange 0 [.ext 1, .ext 2, .ext 3] false), .base (.reserve 0 8), .relinquish 0 5, .base (.pushBack 0 (.ext 9)),
   .adopt 1 5 3 8, .compact 1 2, .base (.create 2), .relinquish 0 6]

def start : Hold Nat := ⟨World.init fun _ => false, fun _ => false⟩

def exHold : Hold Nat := (hfollow strings start exCalls).get (by decide +kernel)

theorem exHold_reach : HReach strings exHold := hfollow_reach _ exCalls _ _ (.init _) (Option.some_get _).symm

theorem exHold_state : view exHold.w 0 = some [] ∧ view exHold.w 1 = some [1, 2] ∧ capacity exHold.w 1 = some 2 ∧
    view exHold.w 6 = some [9] ∧ exHold.loose 6 = true ∧ view exHold.w 5 = none ∧ view exHold.w 2 = some [] := by
  refine ⟨?_, ?_, ?_, ?_, ?_, ?_, ?_⟩ <;> decide +kernel

/-- The rules hold of further calls there. -/
example : HFair strings exHold (.attach 2 6 1 ((capacity exHold.w 6).getD 0)) ∧ HFair strings exHold (.free 6) ∧
    HFair strings exHold (.relinquish 1 7) ∧ HFair strings exHold (.compact 1 40) := by
  refine ⟨?_, ?_, ?_, ?_⟩ <;> decide +kernel

/-! ### What the rules are for -/

def twoCalls : List (HOp Nat) := [.base (.createRange 1 [.ext 2] false), .relinquish 1 6, .base (.drop 1),
  .base (.createRange 0 [.ext 1] false)]

theorem two_some : (hfollow strings start twoCalls).isSome = true := by decide +kernel

/-- Vector 0 with a buffer of its own, and a buffer 6. -/
def twoBuffers : Hold Nat := (hfollow strings start twoCalls).get two_some

theorem two_eq : hfollow strings start twoCalls = some twoBuffers := (Option.some_get two_some).symm

theorem twoBuffers_reach : HReach strings twoBuffers := hfollow_reach _ _ _ _ (.init _) two_eq

/-- The state after calls that end normally, whether they keep the rules or not. -/
def heedless (t : Traits α) (x : Hold α) : List (HOp α) → Option (Hold α)
  | [] => some x
  | op :: ops => match hstep t x op with
    | .ok _ x' => heedless t x' ops
    | _ => none

/-- All names a call mentions. -/
def hnames : HOp α → List Nat
  | .base op => op.names
  | .relinquish i h | .attach i h _ _ | .adopt i h _ _ => [i, h]
  | .free h => [h]
  | .compact i _ => [i]

theorem target_names (op : Op α) : target op ∈ op.names := by
  cases op <;> simp [target, Op.names]

/-- A call leaves all vectors alone that it does not mention. -/
theorem step_frame {w w' : World α} {op : Op α} {k : Nat} (hk : k ∉ op.names)
    (h : (∃ a, step t w op = .ok a w') ∨ ∃ e, step t w op = .thrown e w') : w'.vecs k = w.vecs k := by
  by_cases hm : ∀ i j, op ≠ .swap i j ∧ op ≠ .moveAssign i j ∧ op ≠ .createMove i j
  · have := step_others t (w := w) hm (j := k) (fun e => hk (e ▸ target_names op))
    rcases h with ⟨a, e⟩ | ⟨e', e⟩ <;> rw [e] at this <;> exact this
  · have hx : ∀ i j, w.exchange i j = step t w op → k ∉ [i, j] → w'.vecs k = w.vecs k := by
      intro i j hst hn
      rw [← hst] at h
      unfold World.exchange at h
      simp only [List.mem_cons, List.not_mem_nil, or_false, not_or] at hn
      split at h
      · rcases h with ⟨a, e⟩ | ⟨e', e⟩ <;> cases e
        simp [hn.1, hn.2]
      · rcases h with ⟨a, e⟩ | ⟨e', e⟩ <;> cases e
    cases op with
    | swap i j => exact hx i j rfl hk
    | moveAssign i j => exact hx i j rfl hk
    | createMove i j =>
      simp only [step, World.moveTo] at h
      simp only [Op.names, List.mem_cons, List.not_mem_nil, or_false, not_or] at hk
      split at h
      · rcases h with ⟨a, e⟩ | ⟨e', e⟩ <;> cases e
        simp [hk.1, hk.2]
      · rcases h with ⟨a, e⟩ | ⟨e', e⟩ <;> cases e
    | _ => exact absurd (fun i j => ⟨nofun, nofun, nofun⟩) hm

theorem lift_thrown {x x' : Hold α} {e : Exc} {r : Out (World α) (Ans α)} (h : x.lift r = .thrown e x') : r = .thrown e x'.w := by
  cases r with
  | ok b w => cases h
  | thrown e w => cases h; rfl
  | ub => cases h

/-- C109: a call leaves all vectors and buffers alone that it does not mention: elements, buffer and capacity, also when it
throws and whether it keeps the rules or not. -/
theorem C109_frame {x x' : Hold α} {op : HOp α} {k : Nat} (hk : k ∉ hnames op)
    (h : (∃ a, hstep t x op = .ok a x') ∨ ∃ e, hstep t x op = .thrown e x') : x'.w.vecs k = x.w.vecs k := by
  cases op with
  | base op =>
    simp only [hstep] at h
    split at h
    · rcases h with ⟨a, e⟩ | ⟨e', e⟩ <;> cases e
    · refine step_frame (t := t) (op := op) hk ?_
      rcases h with ⟨a, e⟩ | ⟨e', e⟩
      · exact .inl ⟨a, lift_ok e⟩
      · exact .inr ⟨e', lift_thrown e⟩
  | relinquish i j =>
    simp only [hnames, List.mem_cons, List.not_mem_nil, or_false, not_or] at hk
    simp only [hstep, Hold.relinquish] at h
    repeat' split at h
    all_goals rcases h with ⟨a, e⟩ | ⟨e', e⟩ <;> cases e
    simp [hk.1, hk.2]
  | attach i j n c =>
    simp only [hnames, List.mem_cons, List.not_mem_nil, or_false, not_or] at hk
    simp only [hstep, Hold.attach] at h
    repeat' split at h
    all_goals rcases h with ⟨a, e⟩ | ⟨e', e⟩ <;> cases e
    simp [hk.1, hk.2]
  | adopt i j n c =>
    simp only [hnames, List.mem_cons, List.not_mem_nil, or_false, not_or] at hk
    simp only [hstep, Hold.adopt] at h
    repeat' split at h
    all_goals rcases h with ⟨a, e⟩ | ⟨e', e⟩ <;> cases e
    simp [hk.1, hk.2]
  | free j =>
    refine step_frame (t := t) (op := .drop j) hk ?_
    simp only [hstep, Hold.free] at h
    split at h
    · split at h
      · rename_i e1
        rcases h with ⟨a, e⟩ | ⟨e', e⟩ <;> cases e
        exact .inl ⟨_, (lift_ok e1 : x.w.destruct t j = _)⟩
      · rename_i r
        rcases h with ⟨a, e⟩ | ⟨e', e⟩
        · exact .inl ⟨a, lift_ok e⟩
        · exact .inr ⟨e', lift_thrown e⟩
    · rcases h with ⟨a, e⟩ | ⟨e', e⟩ <;> cases e
  | compact i n =>
    simp only [hstep, Hold.compact] at h
    split at h
    · rcases h with ⟨a, e⟩ | ⟨e', e⟩ <;> cases e
    · split at h
      · rename_i w1 e1
        refine (step_frame (t := t) (op := .shrinkToFit i) hk ?_).trans (step_frame (t := t) (op := .resize i n) hk (.inl ⟨_, e1⟩))
        rcases h with ⟨a, e⟩ | ⟨e', e⟩
        · exact .inl ⟨a, lift_ok e⟩
        · exact .inr ⟨e', lift_thrown e⟩
      · rename_i e1
        rcases h with ⟨a, e⟩ | ⟨e', e⟩ <;> cases e
        exact step_frame (t := t) (op := .resize i n) hk (.inr ⟨_, e1⟩)
      · rcases h with ⟨a, e⟩ | ⟨e', e⟩ <;> cases e

theorem heedless_frame (t : Traits α) : ∀ (ops : List (HOp α)) (x x' : Hold α), heedless t x ops = some x' →
    ∀ k, k ∉ ops.flatMap hnames → x'.w.vecs k = x.w.vecs k
  | [], x, x', h, k, _ => by cases h; rfl
  | op :: ops, x, x', h, k, hk => by
    unfold heedless at h
    simp only [List.flatMap_cons, List.mem_append, not_or] at hk
    split at h
    · rename_i e
      exact (heedless_frame t ops _ x' h k hk.2).trans (C109_frame (t := t) hk.1 (.inl ⟨_, e⟩))
    · cases h

theorem hfollow_frame (t : Traits α) : ∀ (ops : List (HOp α)) (x x' : Hold α), hfollow t x ops = some x' →
    ∀ k, k ∉ ops.flatMap hnames → x'.w.vecs k = x.w.vecs k
  | [], x, x', h, k, _ => by cases h; rfl
  | op :: ops, x, x', h, k, hk => by
    unfold hfollow at h
    simp only [List.flatMap_cons, List.mem_append, not_or] at hk
    split at h
    · split at h
      · rename_i e
        exact (hfollow_frame t ops _ x' h k hk.2).trans (C109_frame (t := t) hk.1 (.inl ⟨_, e⟩))
      · rename_i e
        exact (hfollow_frame t ops _ x' h k hk.2).trans (C109_frame (t := t) hk.1 (.inr ⟨_, e⟩))
      · cases h
    · cases h

def lossCalls : List (HOp Nat) := [.attach 0 6 1 1, .base (.drop 0)]

theorem loss_some : (heedless strings twoBuffers lossCalls).isSome = true := by decide +kernel

def loss : Hold Nat := (heedless strings twoBuffers lossCalls).get loss_some

theorem loss_eq : heedless strings twoBuffers lossCalls = some loss := (Option.some_get loss_some).symm

theorem loss_names {i : Nat} (h : i ∉ lossCalls.flatMap hnames ++ twoCalls.flatMap hnames) : loss.w.vecs i = none := by
  rw [List.mem_append, not_or] at h
  rw [heedless_frame strings _ _ _ loss_eq i h.1, hfollow_frame strings _ _ _ two_eq i h.2]
  rfl

theorem loss_small : ∀ i ∈ lossCalls.flatMap hnames ++ twoCalls.flatMap hnames, (loss.w.vecs i).isNone = true := by
  decide +kernel

/-- `attach` to a vector that has a buffer (only an assertion, so nothing in a release build, guards against this): the old
buffer and its elements are lost. After the vector has been destroyed there are no vectors and no held buffers, and there is
memory with an element in it. -/
theorem C109_attach_refuted : ∃ y p, heedless strings twoBuffers [.attach 0 6 1 1, .base (.drop 0)] = some y ∧
    (∀ i, y.w.vecs i = none) ∧ y.w.len p = some 1 ∧ y.w.mem p 0 = some 1 := by
  refine ⟨loss, 1, loss_eq, fun i => ?_, by decide +kernel, by decide +kernel⟩
  by_cases hi : i ∈ lossCalls.flatMap hnames ++ twoCalls.flatMap hnames
  · exact Option.isNone_iff_eq_none.mp (loss_small i hi)
  · exact loss_names hi

/-- A vector that is given a wrong capacity writes outside its buffer. -/
theorem C109_capacity_refuted :
    heedless strings twoBuffers [.adopt 1 6 1 1, .base (.pushBack 1 (.ext 4))] ≠ none ∧
    ∃ y, heedless strings twoBuffers [.adopt 1 6 1 4] = some y ∧ isUb (hstep strings y (.base (.pushBack 1 (.ext 4)))) = true := by
  refine ⟨?_, (heedless strings twoBuffers [.adopt 1 6 1 4]).get (by decide +kernel), (Option.some_get _).symm, by decide +kernel⟩
  intro h
  have : (heedless strings twoBuffers [.adopt 1 6 1 1, .base (.pushBack 1 (.ext 4))]).isSome = true := by decide +kernel
  rw [h] at this
  cases this

end Gtl.Props.VecHandover
