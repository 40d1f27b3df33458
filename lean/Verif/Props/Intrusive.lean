import Verif.Intrusive.Sim
/-!
# Properties of `intrusive_ptr` (C41)
-/

namespace Gtl.Props.Intrusive

open Gtl.Intrusive Gtl.Spec.Owners

/-- What can be observed of the store: the value of every pointer, which objects are alive, and their `use_count()`; there
are no others. -/
structure Shows (h : Heap) (g : Graph) : Prop where
  /-- `get()` of every pointer -/
  get : ∀ l, h.read l = Res.ofOption (g.get l)
  /-- `use_count()` of every living object is the number of its owners; other objects are deleted -/
  useCount : ∀ a, h.useCount a = if g.alive a then .ok (g.owners a) else .ub
  created : h.objs.length = g.objs.length

theorem shows_of {h : Heap} {g : Graph} (hi : Inv h g []) : Shows h g where
  get := read_ok hi.same
  created := by rw [← hi.same.objs, List.length_map]
  useCount a := by
    unfold Heap.useCount Graph.alive
    rw [hi.same.obj]
    cases ho : h.objs[a]? with
    | none => rfl
    | some o =>
      cases o with
      | none => rfl
      | some o =>
        have := (hi.rc ho).1
        simp only [List.count_nil, Nat.add_zero] at this
        simp [this]

/-- After every history: nothing was undefined (so no object was used after its deletion, or deleted twice), the pointers
have the values that the same operations give in the graph of owners, the counts are the numbers of owners, and exactly
the objects without owner have been deleted. -/
theorem C41_history (ops : List Op) (hok : Ok Graph.empty ops) :
    ∃ h g, run Heap.empty ops = .ok h ∧ Run Graph.empty ops g ∧ Shows h g ∧
      ∀ a, g.alive a = true ↔ 0 < g.owners a := by
  obtain ⟨h, g, e, r, i⟩ := run_ok ops _ _ empty_inv hok
  refine ⟨h, g, e, r, shows_of i, fun a => ⟨fun ha => ?_, fun ha => ?_⟩⟩
  · obtain ⟨o, ho⟩ := i.same.alive ha
    obtain ⟨h1, h2, -⟩ := i.rc ho
    simp only [List.count_nil, Nat.add_zero] at h1
    omega
  · obtain ⟨o, ho⟩ := i.alive (a := a) (by omega)
    unfold Graph.alive
    rw [i.same.obj, ho]; rfl

/-- Which objects die does not depend on the order in which they die. -/
theorem collected_unique {a g1 g2 : Graph} (h1 : Collected a g1) (h2 : Collected a g2) : g1 = g2 := by
  obtain ⟨c1, n1⟩ := h1
  obtain ⟨c2, n2⟩ := h2
  have hcr : ∀ x y z : Graph, Dies x y → Dies x z → ∃ d, Relation.ReflGen Dies y d ∧ Relation.ReflTransGen Dies z d := by
    rintro x y z ⟨p, p1, p2, rfl⟩ ⟨q, q1, q2, rfl⟩
    by_cases hpq : p = q
    · subst hpq
      exact ⟨_, .refl, .refl⟩
    · have key : ∀ u v : Nat, u ≠ v → x.alive u = true → x.alive v = true → x.owners v = 0 →
          Dies { x with objs := x.objs.set u none } { x with objs := (x.objs.set u none).set v none } := by
        intro u v huv hu hv ho
        refine ⟨v, ?_, ?_, rfl⟩
        · unfold Graph.alive at hv ⊢
          dsimp only
          rw [List.getElem?_set_ne huv]
          exact hv
        · unfold Graph.alive at hu
          cases hxu : x.objs[u]? with
          | none => rw [hxu] at hu; cases hu
          | some o =>
            cases o with
            | none => rw [hxu] at hu; cases hu
            | some fs =>
              have := owners_die hxu v
              omega
      refine ⟨{ x with objs := (x.objs.set p none).set q none }, .single (key p q hpq p1 q1 q2), .single ?_⟩
      have := key q p (fun e => hpq e.symm) q1 p1 p2
      rw [List.set_comm _ _ (fun e => hpq e.symm)] at this
      exact this
  obtain ⟨d, d1, d2⟩ := Relation.church_rosser hcr c1 c2
  have stay : ∀ {x y : Graph}, (∀ g'', ¬ Dies x g'') → Relation.ReflTransGen Dies x y → x = y := by
    intro x y hn hxy
    rcases Relation.ReflTransGen.cases_head hxy with e | ⟨z, hz, -⟩
    · exact e
    · exact absurd hz (hn z)
  rw [stay n1 d1, stay n2 d2]

/-- The graph after an operation is determined. -/
theorem C41_step_unique {g g1 g2 : Graph} {op : Op} (h1 : Step g op g1) (h2 : Step g op g2) : g1 = g2 := by
  obtain ⟨a, ha, c1⟩ := h1
  obtain ⟨b, hb, c2⟩ := h2
  rw [ha] at hb
  injection hb with hb
  subst hb
  exact collected_unique c1 c2

/-! ## An example: a list of three objects, walked and dropped -/

/-- `a -> b -> c`, `p` to `a`; `p = p->next` deletes `a` only; then `p = std::move(p->next)` deletes `b`; a reference to `c`
is detached and given back. -/
def exOps : List Op :=
  [.make 1, .make 1, .make 1, .assignCopy (.mem 0 0) (.var 1), .assignMove (.mem 1 0) (.var 2), .assignCopy (.var 0) (.var 0),
   .reset (.var 1), .assignCopy (.var 0) (.mem 0 0), .assignMove (.var 0) (.mem 1 0), .detach (.var 0), .raw (some 2) false,
   .copy (.var 3), .swap (.var 1) (.var 3), .destroy 4, .resetRaw (.var 1) none true]

/-- The objects that are alive after each prefix of the history, with their counts. -/
def counts (h : Heap) : List (Option Nat) := h.objs.map (Option.map Obj.rc)

theorem exOps_counts : (List.range 16).map (fun n => match run Heap.empty (exOps.take n) with
      | .ok h => some (counts h)
      | _ => none) =
    [some [], some [some 1], some [some 1, some 1], some [some 1, some 1, some 1], some [some 1, some 2, some 1],
     some [some 1, some 2, some 1], some [some 1, some 2, some 1], some [some 1, some 1, some 1],
     some [none, some 1, some 1], some [none, none, some 1], some [none, none, some 1], some [none, none, some 1],
     some [none, none, some 2], some [none, none, some 2], some [none, none, some 1], some [none, none, none]] := by
  decide +kernel

/-! ### The history meets the hypotheses -/

def dying (g : Graph) : Option Nat := (List.range g.objs.length).find? (fun a => g.alive a && g.owners a == 0)

def collect : Nat → Graph → Graph
  | 0, g => g
  | n + 1, g => match dying g with
    | none => g
    | some a => collect n { g with objs := g.objs.set a none }

def size (g : Graph) : Nat := g.vars.length + (g.objs.map (fun o => o.elim 0 List.length)).sum

/-- A check for `Ok`; `D` bounds the number of detached references. -/
def check : Nat → Graph → List Op → Bool
  | _, _, [] => true
  | D, g, op :: ops => decide (size g + D + 1 < 2 ^ 32) && match effect g op with
    | none => false
    | some g1 => let g' := collect g1.objs.length g1; (dying g').isNone && check (D + 1) g' ops

theorem collect_dies : ∀ n g, Relation.ReflTransGen Dies g (collect n g)
  | 0, g => .refl
  | n + 1, g => by
    unfold collect
    cases h : dying g with
    | none => exact .refl
    | some a =>
      have := List.find?_some h
      simp only [Bool.and_eq_true, beq_iff_eq] at this
      exact .head ⟨a, this.1, this.2, rfl⟩ (collect_dies n _)

theorem dying_none {g : Graph} (h : (dying g).isNone = true) : ∀ g', ¬ Dies g g' := by
  rintro g' ⟨a, h1, h2, -⟩
  rw [Option.isNone_iff_eq_none] at h
  have ha : a < g.objs.length := by
    unfold Graph.alive at h1
    cases ho : g.objs[a]? with
    | none => rw [ho] at h1; cases h1
    | some o => exact (List.getElem?_eq_some_iff.1 ho).1
  have := List.find?_eq_none.1 h a (List.mem_range.2 ha)
  simp [h1, h2] at this

theorem dies_det {g g' : Graph} (h : Relation.ReflTransGen Dies g g') : g'.det = g.det := by
  induction h with
  | refl => rfl
  | tail _ hd ih =>
    obtain ⟨a, -, -, rfl⟩ := hd
    exact ih

theorem effect_det {g g1 : Graph} {op : Op} (h : effect g op = some g1) (a : Nat) : g1.det a ≤ g.det a + 1 := by
  have hs : ∀ (g : Graph) l p, (g.set l p).det = g.det := by intro g l p; cases l <;> rfl
  have hgv : ∀ (g : Graph) p, (g.giveRef p).det a ≤ g.det a := by
    intro g p; cases p with
    | none => exact Nat.le_refl _
    | some b => unfold Graph.giveRef; dsimp only; split <;> omega
  have htk : ∀ (g : Graph) p, (g.takeRef p).det a ≤ g.det a + 1 := by
    intro g p; cases p with
    | none => exact Nat.le_succ _
    | some b => unfold Graph.takeRef; dsimp only; split <;> omega
  have hdc : ∀ (g : Graph) p, (g.declare p).det = g.det := fun _ _ => rfl
  cases op <;> simp only [effect, Option.bind_eq_bind, Option.bind_eq_some_iff, Option.some.injEq] at h
  case make => subst h; exact Nat.le_succ _
  case null => subst h; exact Nat.le_succ _
  case raw p add =>
    split at h
    · injection h with h; subst h
      split
      · exact Nat.le_succ _
      · exact Nat.le_succ_of_le (hgv (g.declare p) p)
    · cases h
  case copy => obtain ⟨p, -, rfl⟩ := h; exact Nat.le_succ _
  case move => obtain ⟨p, -, rfl⟩ := h; rw [hdc, hs]; exact Nat.le_succ _
  case castMove => obtain ⟨p, -, rfl⟩ := h; rw [hdc, hs]; exact Nat.le_succ _
  case dynCast => obtain ⟨p, -, rfl⟩ := h; exact Nat.le_succ _
  case dynCastMove => obtain ⟨p, -, rfl⟩ := h; split <;> (rw [hdc]; try rw [hs]) <;> exact Nat.le_succ _
  case destroy => obtain ⟨p, -, rfl⟩ := h; exact Nat.le_succ _
  case assignCopy => obtain ⟨_, -, p, -, rfl⟩ := h; rw [hs]; exact Nat.le_succ _
  case assignMove => obtain ⟨_, -, p, -, rfl⟩ := h; split <;> (try rw [hs, hs]) <;> exact Nat.le_succ _
  case assignRaw =>
    obtain ⟨_, -, h⟩ := h
    split at h
    · injection h with h; subst h; rw [hs]; exact Nat.le_succ _
    · cases h
  case reset => obtain ⟨_, -, rfl⟩ := h; rw [hs]; exact Nat.le_succ _
  case resetRaw dst p add =>
    obtain ⟨_, -, h⟩ := h
    split at h
    · injection h with h; subst h
      split
      · rw [hs]; exact Nat.le_succ _
      · have := hgv (g.set dst p) p
        rw [hs] at this
        omega
    · cases h
  case detach src =>
    obtain ⟨p, -, rfl⟩ := h
    have := htk (g.set src none) p
    rw [hs] at this
    exact this
  case swap => obtain ⟨_, -, p, -, rfl⟩ := h; rw [hs, hs]; exact Nat.le_succ _

theorem room_of {g : Graph} {D : Nat} (hD : ∀ a, g.det a ≤ D) (h : size g + D + 1 < 2 ^ 32) : Room g := by
  intro a
  have h1 : g.vars.count (some (some a)) ≤ g.vars.length := List.count_le_length
  have h2 : ∀ l : List (Option (List (Option Nat))),
      (l.map (fun o => o.elim 0 (fun fs => fs.count (some a)))).sum ≤ (l.map (fun o => o.elim 0 List.length)).sum := by
    intro l
    induction l with
    | nil => exact Nat.le_refl _
    | cons o l ih =>
      simp only [List.map_cons, List.sum_cons]
      cases o with
      | none => simp only [Option.elim_none]; omega
      | some fs =>
        have : fs.count (some a) ≤ fs.length := List.count_le_length
        simp only [Option.elim_some]
        omega
  have := h2 g.objs
  have := hD a
  unfold size at h
  unfold Graph.owners
  omega

theorem ok_of_check : ∀ (ops : List Op) (D : Nat) (g : Graph), (∀ a, g.det a ≤ D) → check D g ops = true → Ok g ops
  | [], _, _, _, _ => trivial
  | op :: ops, D, g, hD, h => by
    unfold check at h
    rw [Bool.and_eq_true, decide_eq_true_eq] at h
    obtain ⟨h1, h2⟩ := h
    cases he : effect g op with
    | none => rw [he] at h2; cases h2
    | some g1 =>
      rw [he] at h2
      dsimp only at h2
      rw [Bool.and_eq_true] at h2
      refine ⟨room_of hD h1, by rw [he]; rfl, fun g' hg' => ?_⟩
      have hc : Step g op (collect g1.objs.length g1) := ⟨g1, he, collect_dies _ _, dying_none h2.1⟩
      rw [C41_step_unique hg' hc]
      refine ok_of_check ops (D + 1) _ (fun a => ?_) h2.2
      rw [dies_det (collect_dies _ _)]
      have := effect_det he a
      have := hD a
      omega

theorem exOps_ok : Ok Graph.empty exOps := ok_of_check exOps 0 _ (fun _ => Nat.le_refl _) (by decide +kernel)

end Gtl.Props.Intrusive
