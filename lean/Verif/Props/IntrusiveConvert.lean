import Verif.Intrusive.Convert
import Verif.Props.Intrusive
/-!
# Properties of conversions between intrusive pointers (C111)
-/

namespace Gtl.Props.IntrusiveConvert

open Gtl.Intrusive
open Gtl.Spec.Owners (Loc Op Graph Room Collected)
open Gtl.Spec.Convert (Cmd Ok Run Step effect)
open Gtl.Props.Intrusive (Shows shows_of C41_history)

/-- What the command does is what an operation on pointers of one type does. -/
theorem convert_eq (h : Heap) (c : Cmd) (hd : ∀ d s b, c = .assignMove d s b → d ≠ s) : h.convert c = h.step c.actual := by
  cases c with
  | op o => rfl
  | copy src =>
    simp only [Heap.convert, Heap.fromCopy, Cmd.actual, Heap.step]
    cases h.read src <;> try rfl
    rename_i p
    cases h' : h.addRef p <;> simp [h']
  | move src b =>
    cases b with
    | true =>
      simp only [Heap.convert, Heap.fromMove, Cmd.actual, Heap.step, if_true]
      cases h.read src <;> try rfl
      cases h' : h.write src none <;> simp [h']
    | false =>
      simp only [Heap.convert, Heap.fromMove, Heap.fromCopy, Cmd.actual, Heap.step, Bool.false_eq_true, if_false]
      cases h.read src <;> try rfl
      rename_i p
      cases h' : h.addRef p <;> simp [h']
  | assignMove d s b =>
    have hn := hd d s b rfl
    clear hd
    cases b with
    | true =>
      simp only [Heap.convert, Heap.fromMove, Cmd.actual, Heap.step, if_true, if_neg hn]
      cases h.read s <;> try rfl
      cases h' : h.write s none <;> simp [h']
    | false =>
      simp only [Heap.convert, Heap.fromMove, Heap.fromCopy, Cmd.actual, Heap.step, if_neg hn, Bool.false_eq_true, if_false]
      cases h.read s <;> try rfl
      rename_i p
      cases h' : h.addRef p <;> simp [h']

/-- Pointers of different types are different pointers. -/
def Apart (cs : List Cmd) : Prop := ∀ d s b, .assignMove d s b ∈ cs → d ≠ s

theorem conversions_eq : ∀ (cs : List Cmd) (h : Heap), Apart cs → conversions h cs = run h (cs.map Cmd.actual)
  | [], _, _ => rfl
  | c :: cs, h, hd => by
    simp only [conversions, List.map_cons, run]
    rw [convert_eq h c (fun d s b e => hd d s b (by simp [e]))]
    congr 1
    funext h'
    exact conversions_eq cs h' fun d s b e => hd d s b (by simp [e])

theorem effect_eq {g g1 : Graph} {c : Cmd} (hp : c.Plain) (h : effect g c = some g1) :
    Spec.Owners.effect g c.actual = some g1 := by
  cases c with
  | op o => exact h
  | copy src => exact h
  | move src b => cases hp; exact h
  | assignMove d s b =>
    cases hp
    simp only [effect, Cmd.actual, if_true, Spec.Owners.effect, Option.bind_eq_bind, Option.bind_eq_some_iff] at h ⊢
    obtain ⟨x, h1, y, h2, h3⟩ := h
    refine ⟨x, h1, y, h2, ?_⟩
    split at h3
    · cases h3
    · rw [if_neg ‹_›]; exact h3

theorem apart_of_ok : ∀ (cs : List Cmd) (g : Graph), (∀ c ∈ cs, c.Plain) → Ok g cs → Run g cs g' → Apart cs
  | [], _, _, _, _ => fun _ _ _ h => by cases h
  | c :: cs, g, hp, hok, hr => by
    intro d s b hm
    cases hr with
    | cons h1 h2 =>
      rcases List.mem_cons.1 hm with e | hm
      · subst e
        obtain ⟨g1, h3, -⟩ := h1
        simp only [effect, Option.bind_eq_bind, Option.bind_eq_some_iff] at h3
        obtain ⟨x, -, y, -, h3⟩ := h3
        intro e
        rw [if_pos e] at h3
        cases h3
      · exact apart_of_ok cs _ (fun c hc => hp c (by simp [hc])) (hok.2.2 _ h1) h2 d s b hm

theorem step_iff {g g' : Graph} {c : Cmd} (hp : c.Plain) (ho : (effect g c).isSome) :
    Spec.Owners.Step g c.actual g' ↔ Step g c g' := by
  obtain ⟨g1, h1⟩ := Option.isSome_iff_exists.1 ho
  have h2 := effect_eq hp h1
  constructor
  · rintro ⟨g2, h3, h4⟩
    rw [h2] at h3
    cases h3
    exact ⟨g1, h1, h4⟩
  · rintro ⟨g2, h3, h4⟩
    rw [h1] at h3
    cases h3
    exact ⟨g1, h2, h4⟩

theorem ok_actual : ∀ (cs : List Cmd) (g : Graph), (∀ c ∈ cs, c.Plain) → Ok g cs → Spec.Owners.Ok g (cs.map Cmd.actual)
  | [], _, _, _ => trivial
  | c :: cs, g, hp, hok => by
    have hc := hp c (by simp)
    obtain ⟨g1, h1⟩ := Option.isSome_iff_exists.1 hok.2.1
    refine ⟨hok.1, by rw [effect_eq hc h1]; rfl, fun g' hs => ?_⟩
    exact ok_actual cs g' (fun c h => hp c (by simp [h])) (hok.2.2 g' ((step_iff hc hok.2.1).1 hs))

theorem run_actual : ∀ (cs : List Cmd) (g g' : Graph), (∀ c ∈ cs, c.Plain) → Ok g cs → Spec.Owners.Run g (cs.map Cmd.actual) g' →
    Run g cs g'
  | [], _, _, _, _, h => by cases h; exact .nil
  | c :: cs, g, g', hp, hok, h => by
    cases h with
    | cons h1 h2 =>
      have hc := (step_iff (hp c (by simp)) hok.2.1).1 h1
      exact .cons hc (run_actual cs _ _ (fun c h => hp c (by simp [h])) (hok.2.2 _ hc) h2)

/-- After every history in which pointers are moved to other types only where objects could be converted too: nothing was
undefined, a moved pointer is empty and the new one has its value, the counts are the numbers of owners, and exactly the
objects without owner have been deleted. Missing: classes whose objects cannot be converted, as the base class is abstract
or cannot be copied. -/
theorem C111_history_partial (cs : List Cmd) (hok : Ok Graph.empty cs) (hp : ∀ c ∈ cs, c.Plain) :
    ∃ h g, conversions Heap.empty cs = .ok h ∧ Run Graph.empty cs g ∧ Shows h g ∧ ∀ a, g.alive a = true ↔ 0 < g.owners a := by
  obtain ⟨h, g, h1, h2, h3, h4⟩ := C41_history _ (ok_actual cs _ hp hok)
  have h5 := run_actual cs _ _ hp hok h2
  exact ⟨h, g, (conversions_eq cs _ (apart_of_ok cs _ hp hok h5)).trans h1, h5, h3, h4⟩

/-- Whatever the classes are: nothing is undefined, and counts and lifetimes are those of a program in which the moves to
types that objects cannot be converted to are copies. -/
theorem C111_any (cs : List Cmd) (hd : Apart cs) (hok : Spec.Owners.Ok Graph.empty (cs.map Cmd.actual)) :
    ∃ h g, conversions Heap.empty cs = .ok h ∧ Spec.Owners.Run Graph.empty (cs.map Cmd.actual) g ∧ Shows h g ∧
      ∀ a, g.alive a = true ↔ 0 < g.owners a := by
  rw [conversions_eq cs _ hd]
  exact C41_history _ hok

theorem read_lt {h : Heap} {l : Loc} {p} (hr : h.read l = .ok p) : l ≠ .var h.vars.length := by
  rintro rfl
  simp only [Heap.read, List.getElem?_eq_none (Nat.le_refl _)] at hr
  cases hr

theorem read_declare {h : Heap} {l : Loc} (p) (hl : l ≠ .var h.vars.length) : (h.declare p).read l = h.read l := by
  cases l with
  | var x =>
    simp only [Heap.read, Heap.declare]
    by_cases hx : x < h.vars.length
    · rw [List.getElem?_append_left hx]
    · have : x ≠ h.vars.length := fun e => hl (by rw [e])
      rw [List.getElem?_eq_none (l := h.vars) (by omega), List.getElem?_eq_none (by simp; omega)]
  | mem a i => rfl

theorem read_new (h : Heap) (p) : (h.declare p).read (.var h.vars.length) = .ok p := by
  simp [Heap.read, Heap.declare, Res.ofOption]

theorem read_write {h h' : Heap} {l : Loc} {q} (hw : h.write l q = .ok h') : h'.read l = .ok q := by
  cases l with
  | var x =>
    simp only [Heap.write] at hw
    split at hw
    · rename_i v hv
      cases hw
      have := (List.getElem?_eq_some_iff.1 hv).1
      simp [Heap.read, this, Res.ofOption]
    · cases hw
  | mem a i =>
    simp only [Heap.write] at hw
    split at hw
    · rename_i o ho
      split at hw
      · rename_i hi
        cases hw
        have := (List.getElem?_eq_some_iff.1 ho).1
        simp [Heap.read, this, hi, Res.ofOption]
      · cases hw
    · cases hw

theorem vars_write {h h' : Heap} {l : Loc} {q} (hw : h.write l q = .ok h') : h'.vars.length = h.vars.length := by
  cases l <;> simp only [Heap.write] at hw <;> split at hw
  · cases hw; simp
  · cases hw
  · split at hw <;> cases hw; rfl
  · cases hw

theorem count_write {h h' : Heap} {l : Loc} {q} (hw : h.write l q = .ok h') (a : Nat) : h'.useCount a = h.useCount a := by
  cases l with
  | var x => simp only [Heap.write] at hw; split at hw <;> cases hw; rfl
  | mem b i =>
    simp only [Heap.write] at hw
    split at hw
    · rename_i o ho
      split at hw
      · cases hw
        have := (List.getElem?_eq_some_iff.1 ho).1
        unfold Heap.useCount
        by_cases hab : b = a
        · subst hab; rw [ho]; simp [this]
        · simp only [List.getElem?_set_ne hab]
      · cases hw
    · cases hw

/-- One conversion of an rvalue, whatever happened before: the new pointer gets the value. If objects can be converted too,
the source is empty afterwards and no count has changed; if not, the source keeps its value and the object has one more
owner. -/
theorem C111_move {h h' : Heap} {src : Loc} {b : Bool} (hc : h.convert (.move src b) = .ok h') :
    ∃ p, h.read src = .ok p ∧ h'.read (.var h.vars.length) = .ok p ∧ h'.read src = .ok (if b then none else p) ∧
      ∀ a n, h.useCount a = .ok n → h'.useCount a = .ok (if b = false ∧ p = some a then (n + 1) % 2 ^ 32 else n) := by
  unfold Heap.convert at hc
  dsimp only at hc
  rw [Res.bind_eq_ok] at hc
  obtain ⟨⟨h1, p⟩, h2, h3⟩ := hc
  cases h3
  unfold Heap.fromMove at h2
  cases b with
  | true =>
    rw [if_pos rfl, Res.bind_eq_ok] at h2
    obtain ⟨q, h4, h5⟩ := h2
    rw [Res.bind_eq_ok] at h5
    obtain ⟨h6, h7, h8⟩ := h5
    cases h8
    refine ⟨p, h4, ?_, ?_, fun a n hn => ?_⟩
    · rw [← vars_write h7]; exact read_new _ _
    · rw [read_declare _ (by rw [vars_write h7]; exact read_lt h4)]; exact read_write h7
    · rw [if_neg (by simp)]; exact (count_write h7 a).trans hn
  | false =>
    rw [if_neg (by simp)] at h2
    unfold Heap.fromCopy at h2
    rw [Res.bind_eq_ok] at h2
    obtain ⟨q, h4, h5⟩ := h2
    rw [Res.bind_eq_ok] at h5
    obtain ⟨h6, h7, h8⟩ := h5
    cases h8
    have hv : h1.vars = h.vars := by
      unfold Heap.addRef at h7
      split at h7
      · cases h7; rfl
      · split at h7 <;> cases h7; rfl
    refine ⟨p, h4, ?_, ?_, fun a n hn => ?_⟩
    · rw [← hv]; exact read_new _ _
    · rw [read_declare _ (by rw [hv]; exact read_lt h4)]
      rw [if_neg (by simp), ← h4]
      unfold Heap.addRef at h7
      split at h7
      · cases h7; rfl
      · rename_i c
        split at h7
        · rename_i o ho
          cases h7
          cases src with
          | var x => rfl
          | mem d i =>
            have := (List.getElem?_eq_some_iff.1 ho).1
            simp only [Heap.read]
            by_cases hcd : c = d
            · subst hcd; rw [ho]; simp [this]
            · simp only [List.getElem?_set_ne hcd]
        · cases h7
    · unfold Heap.addRef at h7
      split at h7
      · cases h7; rw [if_neg (by simp)]; exact hn
      · rename_i c
        split at h7
        · rename_i o ho
          cases h7
          have := (List.getElem?_eq_some_iff.1 ho).1
          unfold Heap.useCount Heap.declare at *
          by_cases hca : c = a
          · subst hca
            rw [ho] at hn
            cases hn
            simp [this, wrap]
          · simp only [List.getElem?_set_ne hca, hn, Option.some.injEq, hca, and_false, if_false]
        · cases h7

/-! ## Where it fails, and an example -/

open Gtl.Props.Intrusive (collected_unique dying collect size collect_dies dying_none dies_det effect_det room_of)

theorem step_unique {g g1 g2 : Graph} {c : Cmd} (h1 : Step g c g1) (h2 : Step g c g2) : g1 = g2 := by
  obtain ⟨a, ha, c1⟩ := h1
  obtain ⟨b, hb, c2⟩ := h2
  rw [ha] at hb
  injection hb with hb
  subst hb
  exact collected_unique c1 c2

/-- A check for `Ok`; `D` bounds the number of detached references. -/
def check : Nat → Graph → List Cmd → Option Graph
  | _, g, [] => some g
  | D, g, c :: cs => if size g + D + 1 < 2 ^ 32 then (match effect g c with
    | none => none
    | some g1 => let g' := collect g1.objs.length g1; if (dying g').isNone then check (D + 1) g' cs else none) else none

theorem set_det (g : Graph) (l p) : (g.set l p).det = g.det := by cases l <;> rfl

theorem det_le {g g1 : Graph} {c : Cmd} (h : effect g c = some g1) (a : Nat) : g1.det a ≤ g.det a + 1 := by
  cases c with
  | op o => exact effect_det h a
  | copy src =>
    simp only [effect, Option.bind_eq_bind, Option.bind_eq_some_iff] at h
    obtain ⟨p, -, h⟩ := h
    cases h
    exact Nat.le_succ _
  | move src b =>
    simp only [effect, Option.bind_eq_bind, Option.bind_eq_some_iff] at h
    obtain ⟨p, -, h⟩ := h
    cases h
    show (g.set src none).det a ≤ _
    rw [set_det]; exact Nat.le_succ _
  | assignMove d s b =>
    simp only [effect, Option.bind_eq_bind, Option.bind_eq_some_iff] at h
    obtain ⟨p, -, q, -, h⟩ := h
    split at h
    · cases h
    · cases h
      rw [set_det, set_det]; exact Nat.le_succ _

theorem ok_of_check : ∀ (cs : List Cmd) (D : Nat) (g g' : Graph), (∀ a, g.det a ≤ D) → check D g cs = some g' →
    Ok g cs ∧ Run g cs g' ∧ ∀ g'', Run g cs g'' → g'' = g'
  | [], _, _, _, _, h => by cases h; exact ⟨trivial, .nil, fun _ h => by cases h; rfl⟩
  | c :: cs, D, g, g', hD, h => by
    unfold check at h
    split at h
    · rename_i h1
      cases he : effect g c with
      | none => rw [he] at h; cases h
      | some g1 =>
        rw [he] at h
        dsimp only at h
        split at h
        · rename_i h2
          have hc : Step g c (collect g1.objs.length g1) := ⟨g1, he, collect_dies _ _, dying_none h2⟩
          obtain ⟨i1, i2, i3⟩ := ok_of_check cs (D + 1) _ _ (fun a => by
            rw [dies_det (collect_dies _ _)]
            have := det_le he a
            have := hD a
            omega) h
          refine ⟨⟨room_of hD h1, by rw [he]; rfl, fun g'' hg => ?_⟩, .cons hc i2, fun g'' hr => ?_⟩
          · rw [step_unique hg hc]; exact i1
          · cases hr with
            | cons s r => rw [step_unique s hc] at r; exact i3 _ r
        · cases h
    · cases h

/-- A pointer to an object of a derived class, moved into a pointer to its abstract base class. -/
def exAbstract : List Cmd := [.op (.make 0), .move (.var 0) false]

/-- The full statement is false: it would have to hold without the hypothesis of `C111_history_partial`. The pointer that
was moved from still owns the object. -/
theorem C111_history_refuted : ∃ cs, Ok Graph.empty cs ∧
    ¬ ∃ h g, conversions Heap.empty cs = .ok h ∧ Run Graph.empty cs g ∧ Shows h g := by
  obtain ⟨g', hg⟩ := Option.isSome_iff_exists.1 (show (check 0 Graph.empty exAbstract).isSome = true by decide +kernel)
  obtain ⟨h1, h2, h3⟩ := ok_of_check exAbstract 0 _ _ (fun _ => Nat.le_refl _) hg
  refine ⟨exAbstract, h1, ?_⟩
  rintro ⟨h, g, e1, e2, e3⟩
  rw [h3 g e2] at e3
  have e4 := e3.get (.var 0)
  have e5 : (conversions Heap.empty exAbstract >>= fun h => h.read (.var 0)) = .ok (some 0) := by rfl
  rw [e1] at e5
  have e6 : (check 0 Graph.empty exAbstract).bind (fun g => g.get (.var 0)) = some none := by decide +kernel
  rw [hg] at e6
  have e7 : g'.get (.var 0) = some none := e6
  rw [e7] at e4
  rw [show h.read (.var 0) = .ok (some 0) from e5] at e4
  cases e4

/-- Two objects, a pointer to the base class of the first, copied, moved and assigned, an assignment to a member, and one
that deletes an object. -/
def exConvert : List Cmd :=
  [.op (.make 1), .op (.make 0), .copy (.var 0), .move (.var 0) true, .assignMove (.mem 0 0) (.var 1) true,
   .op .null, .assignMove (.var 4) (.var 2) true, .op (.reset (.var 3)), .assignMove (.var 4) (.mem 0 0) true]

theorem exConvert_ok : Ok Graph.empty exConvert ∧ ∀ c ∈ exConvert, c.Plain := by
  obtain ⟨g', hg⟩ := Option.isSome_iff_exists.1 (show (check 0 Graph.empty exConvert).isSome = true by decide +kernel)
  refine ⟨(ok_of_check exConvert 0 _ _ (fun _ => Nat.le_refl _) hg).1, fun c hc => ?_⟩
  simp only [exConvert, List.mem_cons, List.not_mem_nil, or_false] at hc
  rcases hc with rfl | rfl | rfl | rfl | rfl | rfl | rfl | rfl | rfl <;> trivial

/-- The counts after each command: the last assignment takes a pointer from the object that it deletes. -/
theorem exConvert_counts : (List.range 10).map (fun n => match conversions Heap.empty (exConvert.take n) with
      | .ok h => some (Intrusive.counts h)
      | _ => none) =
    [some [], some [some 1], some [some 1, some 1], some [some 2, some 1], some [some 2, some 1], some [some 2, some 1],
     some [some 2, some 1], some [some 2, some 1], some [some 1, some 1], some [none, some 1]] := by decide +kernel

/-- With classes whose objects cannot be converted: the program of `C111_history_refuted`, and a moved pointer that is
assigned to. -/
example : Apart (exAbstract ++ [Cmd.op (.make 0), Cmd.assignMove (.var 1) (.var 2) false]) ∧
    Spec.Owners.Ok Graph.empty ((exAbstract ++ [Cmd.op (.make 0), Cmd.assignMove (.var 1) (.var 2) false]).map Cmd.actual) :=
  ⟨fun d s b h => by simp [exAbstract] at h; rw [h.1, h.2.1]; decide,
    Intrusive.ok_of_check _ 0 _ (fun _ => Nat.le_refl _) (by decide +kernel)⟩

end Gtl.Props.IntrusiveConvert
