import Verif.Intrusive.CopiesSim
import Verif.Props.Intrusive
/-!
# Copying and assigning counted objects (C105)
-/

namespace Gtl.Props.Intrusive

open Gtl.Intrusive Gtl.Spec.Owners
open Gtl.Spec.Copies (Cmd)

/-- After every history of operations on pointers, copies, moves and assignments of objects: nothing was undefined, the
pointers have the values that the same commands give in the graph of owners (a copy has the same pointers, an assignment
changes pointers only), `use_count()` of every object is the number of its owners, whether it is an original or a copy, and
exactly the objects without owner have been deleted. -/
theorem C105_history (cs : List Cmd) (hok : Spec.Copies.Ok Graph.empty cs) :
    ∃ h g, commands Heap.empty cs = .ok h ∧ Spec.Copies.Run Graph.empty cs g ∧ Shows h g ∧
      ∀ a, g.alive a = true ↔ 0 < g.owners a := by
  obtain ⟨h, g, e, r, i⟩ := commands_ok cs _ _ empty_inv hok
  refine ⟨h, g, e, r, shows_of i, fun a => ⟨fun ha => ?_, fun ha => ?_⟩⟩
  · obtain ⟨o, ho⟩ := i.same.alive ha
    obtain ⟨h1, h2, -⟩ := i.rc ho
    simp only [List.count_nil, Nat.add_zero] at h1
    omega
  · obtain ⟨o, ho⟩ := i.alive (a := a) (by omega)
    unfold Graph.alive
    rw [i.same.obj, ho]; rfl

/-- The graph after a command is determined. -/
theorem C105_step_unique {g g1 g2 : Graph} {c : Cmd} (h1 : Spec.Copies.Step g c g1) (h2 : Spec.Copies.Step g c g2) : g1 = g2 := by
  obtain ⟨a, ha, c1⟩ := h1
  obtain ⟨b, hb, c2⟩ := h2
  rw [ha] at hb
  injection hb with hb
  subst hb
  exact collected_unique c1 c2

theorem commands_append : ∀ (cs ds : List Cmd) (h : Heap), commands h (cs ++ ds) = (do let h ← commands h cs; commands h ds)
  | [], _, _ => rfl
  | c :: cs, ds, h => by
    rw [List.cons_append, commands, commands]
    cases h.command c with
    | ok h' => exact commands_append cs ds h'
    | ub => rfl
    | hang => rfl

theorem ok_append : ∀ (cs ds : List Cmd) (g g' : Graph), Spec.Copies.Ok g (cs ++ ds) → Spec.Copies.Run g cs g' →
    Spec.Copies.Ok g' ds
  | [], _, _, _, h, r => by cases r; exact h
  | c :: cs, ds, g, g', h, r => by
    cases r with
    | cons s r => exact ok_append cs ds _ _ (h.2.2.2 _ s) r

theorem ok_prefix : ∀ (cs ds : List Cmd) (g : Graph), Spec.Copies.Ok g (cs ++ ds) → Spec.Copies.Ok g cs
  | [], _, _, _ => trivial
  | _ :: cs, ds, _, h => ⟨h.1, h.2.1, h.2.2.1, fun g' s => ok_prefix cs ds g' (h.2.2.2 g' s)⟩

/-- `x = new T(*b)` after any history: the copy is a new object with the pointers of `b`; its count is one, whatever the
count of `b` is, and the count of `b` has not changed (unless `b` points to itself). -/
theorem C105_copy (cs : List Cmd) (b : Nat) (hok : Spec.Copies.Ok Graph.empty (cs ++ [.copyNew b])) :
    ∃ h h', commands Heap.empty cs = .ok h ∧ commands Heap.empty (cs ++ [.copyNew b]) = .ok h' ∧
      h'.objs.length = h.objs.length + 1 ∧ h'.useCount h.objs.length = .ok 1 ∧
      (∀ i, h'.read (.mem h.objs.length i) = h.read (.mem b i)) ∧
      (∀ i, h'.read (.mem b i) = h.read (.mem b i)) ∧
      ((∀ i, h.read (.mem b i) ≠ .ok (some b)) → h'.useCount b = h.useCount b) := by
  obtain ⟨h, g, e, r, i⟩ := commands_ok cs _ _ empty_inv (ok_prefix cs _ _ hok)
  obtain ⟨hroom, hsome, hsurv, -⟩ := ok_append cs [.copyNew b] _ _ hok r
  obtain ⟨g1, he⟩ := Option.isSome_iff_exists.1 hsome
  obtain ⟨h', g', e', d, i'⟩ := command_ok i (.copyNew b) hroom hsurv he
  have hlen : h.objs.length = g.objs.length := by rw [← i.same.objs, List.length_map]
  simp only [Spec.Copies.effect] at he
  cases hp : Spec.Copies.pointers g b with
  | none => rw [hp] at he; cases he
  | some fs =>
    rw [hp] at he
    simp only [Option.bind_eq_bind, Option.bind_some, Option.some.injEq] at he
    have hb := pointers_some hp
    have hbl : b < g.objs.length := (List.getElem?_eq_some_iff.1 hb).1
    -- nobody owns the new object before it exists
    have hnew : g.owners g.objs.length = 0 := by
      by_contra hc
      obtain ⟨o, ho⟩ := i.alive (a := g.objs.length) (by omega)
      have := (List.getElem?_eq_some_iff.1 ho).1
      omega
    have hown : ∀ x, g1.owners x = g.owners x + fs.count (some x) + one (some g.objs.length) x := by
      intro x
      subst he
      have h1 := owners_declare g (some g.objs.length) x
      unfold Graph.owners Graph.declare at h1
      unfold Graph.owners
      dsimp only at h1 ⊢
      rw [List.map_append, List.sum_append]
      simp only [List.map_cons, List.map_nil, Option.elim_some, List.sum_cons, List.sum_nil]
      omega
    -- nothing dies
    have hg : g' = g1 := by
      refine stays (fun g'' hd => ?_) d.1
      obtain ⟨x, hx1, hx2, -⟩ := hd
      rw [hown] at hx2
      by_cases hxl : x = g.objs.length
      · subst hxl
        unfold one at hx2
        rw [if_pos rfl] at hx2
        omega
      · have : g.alive x = true := by
          subst he
          unfold Graph.alive at hx1 ⊢
          dsimp only at hx1
          by_cases hlt : x < g.objs.length
          · rw [List.getElem?_append_left hlt] at hx1; exact hx1
          · rw [List.getElem?_eq_none (by rw [List.length_append, List.length_singleton]; omega)] at hx1; cases hx1
        exact i.collected _ ⟨x, this, by omega, rfl⟩
    subst hg
    have hs := shows_of i
    have hs' := shows_of i'
    have hobjN : g'.objs[g.objs.length]? = some (some fs) := by
      subst he
      dsimp only
      rw [List.getElem?_append_right (Nat.le_refl _), Nat.sub_self]; rfl
    have hobjB : g'.objs[b]? = some (some fs) := by
      subst he
      dsimp only
      rw [List.getElem?_append_left hbl]; exact hb
    have hfs : fs.count (some g.objs.length) = 0 := by
      by_contra hc
      have := owners_of_mem hb (List.count_pos_iff.1 (Nat.pos_of_ne_zero hc))
      omega
    refine ⟨h, h', e, ?_, ?_, ?_, ?_, ?_, ?_⟩
    · rw [commands_append, e]
      simp only [Res.ok_bind, commands]
      rw [e']; rfl
    · rw [hs'.created, hs.created]
      subst he
      dsimp only
      rw [List.length_append]; rfl
    · rw [hs'.useCount, hlen, if_pos (alive_iff.2 ⟨_, hobjN⟩), hown, hnew, hfs]
      unfold one
      rw [if_pos rfl]
    · intro j
      rw [hs'.get, hs.get, hlen, get_mem hobjN, get_mem hb]
    · intro j
      rw [hs'.get, hs.get, get_mem hobjB, get_mem hb]
    · intro hself
      rw [hs'.useCount, hs.useCount, if_pos (alive_iff.2 ⟨_, hobjB⟩), if_pos (alive_iff.2 ⟨_, hb⟩), hown]
      have h0 : fs.count (some b) = 0 := by
        by_contra hc
        obtain ⟨j, hj⟩ := List.getElem?_of_mem (List.count_pos_iff.1 (Nat.pos_of_ne_zero hc))
        refine hself j ?_
        rw [hs.get, get_mem hb, hj]; rfl
      have h1 : one (some g.objs.length) b = 0 := by
        unfold one; rw [if_neg]; intro e; injection e with e; omega
      rw [h0, h1, Nat.add_zero]

/-! ## The source must survive -/

/-- Two objects with two pointers each; the second one belongs to the first. -/
def popOps : List Cmd := [.op (.make 2), .op (.make 2), .op (.assignMove (.mem 0 0) (.var 1))]

/-! ### Checking histories -/

/-- A check for `Ok`; `D` bounds the number of detached references. -/
def checkAll : Nat → Graph → List Cmd → Bool
  | _, _, [] => true
  | D, g, c :: cs => decide (size g + D + Spec.Copies.fresh g c < 2 ^ 32) && match Spec.Copies.effect g c with
    | none => false
    | some g1 => let g' := collect g1.objs.length g1; (dying g').isNone &&
        (match c with
          | .copyTo a b | .moveTo a b =>
            decide (((Spec.Copies.pointers g b).getD []).length ≤ 1) || (g'.alive a && g'.alive b)
          | _ => true) && checkAll (D + 1) g' cs

theorem owners_le_size {g : Graph} {D : Nat} (hD : ∀ a, g.det a ≤ D) (a : Nat) : g.owners a ≤ size g + D := by
  have h1 : g.vars.count (some (some a)) ≤ g.vars.length := List.count_le_length
  have h2 : ∀ l : List (Option (List (Option Nat))),
      (l.map (fun o => o.elim 0 (fun fs => fs.count (some a)))).sum ≤ (l.map (fun o => o.elim 0 List.length)).sum := by
    intro l
    induction l with
    | nil => exact Nat.le_refl _
    | cons o l ih =>
      simp only [List.map_cons, List.sum_cons]
      cases o with
      | none => simp only [Option.elim_none]; omega
      | some fs =>
        have : fs.count (some a) ≤ fs.length := List.count_le_length
        simp only [Option.elim_some]
        omega
  have := h2 g.objs
  have := hD a
  unfold size
  unfold Graph.owners
  omega

theorem copies_det {g g1 : Graph} {c : Cmd} (h : Spec.Copies.effect g c = some g1) (a : Nat) : g1.det a ≤ g.det a + 1 := by
  cases c with
  | op o => exact effect_det h a
  | copyNew b =>
    simp only [Spec.Copies.effect, Option.bind_eq_bind, Option.bind_eq_some_iff, Option.some.injEq] at h
    obtain ⟨fs, -, rfl⟩ := h
    exact Nat.le_succ _
  | moveNew b =>
    simp only [Spec.Copies.effect, Option.bind_eq_bind, Option.bind_eq_some_iff, Option.some.injEq] at h
    obtain ⟨fs, -, rfl⟩ := h
    exact Nat.le_succ _
  | copyTo x y =>
    simp only [Spec.Copies.effect, Option.bind_eq_bind, Option.bind_eq_some_iff] at h
    obtain ⟨_, -, fs, -, h⟩ := h
    split at h
    · injection h with h; subst h; exact Nat.le_succ _
    · cases h
  | moveTo x y =>
    simp only [Spec.Copies.effect, Option.bind_eq_bind, Option.bind_eq_some_iff] at h
    obtain ⟨_, -, fs, -, h⟩ := h
    split at h
    · injection h with h; subst h; split <;> exact Nat.le_succ _
    · cases h

theorem ok_of_checkAll : ∀ (cs : List Cmd) (D : Nat) (g : Graph), (∀ a, g.det a ≤ D) → checkAll D g cs = true → Spec.Copies.Ok g cs
  | [], _, _, _, _ => trivial
  | c :: cs, D, g, hD, h => by
    unfold checkAll at h
    rw [Bool.and_eq_true, decide_eq_true_eq] at h
    obtain ⟨h1, h2⟩ := h
    cases he : Spec.Copies.effect g c with
    | none => rw [he] at h2; cases h2
    | some g1 =>
      rw [he] at h2
      dsimp only at h2
      rw [Bool.and_eq_true, Bool.and_eq_true] at h2
      have hc : Spec.Copies.Step g c (collect g1.objs.length g1) := ⟨g1, he, collect_dies _ _, dying_none h2.1.1⟩
      refine ⟨fun a => ?_, by rw [he]; rfl, ?_, fun g' hg' => ?_⟩
      · have := owners_le_size hD a
        omega
      · have h3 := h2.1.2
        cases c with
        | op _ => trivial
        | copyNew _ => trivial
        | moveNew _ => trivial
        | copyTo a b =>
          dsimp only at h3
          rw [Bool.or_eq_true, Bool.and_eq_true, decide_eq_true_eq] at h3
          exact h3.imp id (fun h3 => ⟨_, hc, h3.1, h3.2⟩)
        | moveTo a b =>
          dsimp only at h3
          rw [Bool.or_eq_true, Bool.and_eq_true, decide_eq_true_eq] at h3
          exact h3.imp id (fun h3 => ⟨_, hc, h3.1, h3.2⟩)
      · rw [C105_step_unique hg' hc]
        refine ok_of_checkAll cs (D + 1) _ (fun a => ?_) h2.2
        rw [dies_det (collect_dies _ _)]
        have := copies_det he a
        have := hD a
        omega

/-- With two pointers, `*a = *a->first` is undefined if nobody else owns the source: the first pointer is assigned, the
source has no owner left and is deleted, then its second pointer is read. The same holds for `*a = std::move(*a->first)`. -/
theorem C105_pop_refuted :
    Spec.Copies.Ok Graph.empty popOps ∧
    commands Heap.empty (popOps ++ [.copyTo 0 1]) = .ub ∧ commands Heap.empty (popOps ++ [.moveTo 0 1]) = .ub :=
  ⟨ok_of_checkAll _ 0 _ (fun _ => Nat.le_refl _) (by decide +kernel), by rfl, by rfl⟩

/-! ## An example -/

/-- Nodes with two pointers: `0 -> (1, 0)`, copied and moved, assigned in both directions. -/
def exCopies : List Cmd :=
  [.op (.make 2), .op (.make 2), .op (.assignCopy (.mem 0 0) (.var 1)), .op (.assignCopy (.mem 0 1) (.var 0)),
   .copyNew 0, .copyTo 1 0, .moveTo 0 1, .moveNew 2, .copyTo 3 3, .moveTo 3 3, .op (.reset (.mem 0 1)), .op (.destroy 0)]

theorem exCopies_counts : (List.range 13).map (fun n => match commands Heap.empty (exCopies.take n) with
      | .ok h => some (counts h)
      | _ => none) =
    [some [], some [some 1], some [some 1, some 1], some [some 1, some 2], some [some 2, some 2],
     some [some 3, some 3, some 1], some [some 4, some 4, some 1], some [some 3, some 3, some 1],
     some [some 3, some 3, some 1, some 1], some [some 3, some 3, some 1, some 1], some [some 3, some 3, some 1, some 1],
     some [some 2, some 3, some 1, some 1], some [some 1, some 3, some 1, some 1]] := by
  decide +kernel

theorem exCopies_ok : Spec.Copies.Ok Graph.empty exCopies := ok_of_checkAll _ 0 _ (fun _ => Nat.le_refl _) (by decide +kernel)

/-- With one pointer, `*a = *a->next` removes the second node of a list. -/
def popOne : List Cmd := [.op (.make 1), .op (.make 1), .op (.assignMove (.mem 0 0) (.var 1)), .copyTo 0 1]

theorem popOne_counts : (match commands Heap.empty popOne with
    | .ok h => some (counts h)
    | _ => none) = some [some 1, none] := by decide +kernel

theorem popOne_ok : Spec.Copies.Ok Graph.empty popOne := ok_of_checkAll _ 0 _ (fun _ => Nat.le_refl _) (by decide +kernel)

/-- The hypothesis of `C105_copy`. -/
example : Spec.Copies.Ok Graph.empty (popOps ++ [.copyNew 0]) := ok_of_checkAll _ 0 _ (fun _ => Nat.le_refl _) (by decide +kernel)

end Gtl.Props.Intrusive
