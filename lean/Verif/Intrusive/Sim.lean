import Verif.Intrusive.Model
import Mathlib.Data.List.Basic
/-!
# `intrusive_ptr` follows the graph of owners

The counters agree with the owners at every moment, if the pointers held by temporaries are counted as well (`pend`).
-/

namespace Gtl.Intrusive

open Gtl.Spec.Owners

/-! ## Counting -/

theorem sum_map_set {α : Type} (f : α → Nat) : ∀ (l : List α) (i : Nat) (x y : α), l[i]? = some y →
    ((l.set i x).map f).sum + f y = (l.map f).sum + f x
  | [], _, _, _, h => by cases h
  | z :: l, 0, x, y, h => by
    simp only [List.getElem?_cons_zero, Option.some.injEq] at h
    subst h
    simp only [List.set_cons_zero, List.map_cons, List.sum_cons]
    omega
  | z :: l, i + 1, x, y, h => by
    rw [List.getElem?_cons_succ] at h
    have := sum_map_set f l i x y h
    simp only [List.set_cons_succ, List.map_cons, List.sum_cons]
    omega

theorem count_eq_sum {α : Type} [BEq α] [LawfulBEq α] [DecidableEq α] (a : α) (l : List α) : l.count a = (l.map (fun x => if x = a then 1 else 0)).sum := by
  induction l with
  | nil => rfl
  | cons x l ih =>
    rw [List.count_cons, List.map_cons, List.sum_cons, ← ih]
    by_cases h : x = a
    · rw [if_pos h, if_pos (by simpa using h)]; omega
    · rw [if_neg h, if_neg (by simpa using h)]; omega

theorem count_set' {α : Type} [BEq α] [LawfulBEq α] [DecidableEq α] (a : α) (l : List α) (i : Nat) (x y : α) (h : l[i]? = some y) :
    (l.set i x).count a + (if y = a then 1 else 0) = l.count a + (if x = a then 1 else 0) := by
  rw [count_eq_sum, count_eq_sum]
  exact sum_map_set _ l i x y h

/-- How often object `a` is among the values of one pointer. -/
def one (p : Option Nat) (a : Nat) : Nat := if p = some a then 1 else 0

theorem count_toList (p : Option Nat) (a : Nat) : p.toList.count a = one p a := by
  unfold one
  cases p with
  | none => rfl
  | some b =>
    show [b].count a = _
    rw [List.count_singleton]
    by_cases h : b = a
    · rw [if_pos (by simpa using h), if_pos (by rw [h])]
    · rw [if_neg (by simpa using h), if_neg (by simpa using h)]

theorem count_cons' (b : Nat) (l : List Nat) (a : Nat) : (b :: l).count a = one (some b) a + l.count a := by
  rw [List.count_cons]
  unfold one
  by_cases h : b = a
  · rw [if_pos (by simpa using h), if_pos (by rw [h])]; omega
  · rw [if_neg (by simpa using h), if_neg (by simpa using h)]; omega

theorem set_owners {g : Graph} {l : Loc} {q : Option Nat} (h : g.get l = some q) (p : Option Nat) (a : Nat) :
    (g.set l p).owners a + one q a = g.owners a + one p a := by
  unfold one
  cases l with
  | var x =>
    have hx : g.vars[x]? = some (some q) := by
      unfold Graph.get at h; dsimp only at h
      cases hv : g.vars[x]? with
      | none => rw [hv] at h; cases h
      | some v => rw [hv] at h; simp only [Option.join_some] at h; rw [h]
    have := count_set' (some (some a)) g.vars x (some p) (some q) hx
    simp only [Option.some.injEq] at this
    unfold Graph.set Graph.owners
    dsimp only
    omega
  | mem b i =>
    unfold Graph.get at h; dsimp only at h
    cases ho : g.objs[b]? with
    | none => rw [ho] at h; cases h
    | some o =>
      cases o with
      | none => rw [ho] at h; cases h
      | some fs =>
        rw [ho] at h
        simp only [Option.join_some, Option.bind_some] at h
        have e : g.objs.modify b (Option.map (fun fs => fs.set i p)) = g.objs.set b (some (fs.set i p)) := by
          rw [List.modify_eq_set_getElem?, ho]; rfl
        have h1 := sum_map_set (fun o : Option (List (Option Nat)) => o.elim 0 (fun fs => fs.count (some a))) g.objs b (some (fs.set i p)) (some fs) ho
        have h2 := count_set' (some a) fs i p q h
        simp only [Option.elim_some] at h1
        unfold Graph.set Graph.owners
        dsimp only
        rw [e]
        omega

theorem set_self {g : Graph} {l : Loc} {q : Option Nat} (h : g.get l = some q) : g.set l q = g := by
  cases l with
  | var x =>
    unfold Graph.get at h; dsimp only at h
    unfold Graph.set; dsimp only
    have : g.vars.set x (some q) = g.vars := by
      apply List.ext_getElem?
      intro i
      by_cases hi : x = i
      · subst hi
        cases hv : g.vars[x]? with
        | none => rw [hv] at h; cases h
        | some v =>
          rw [hv] at h; simp only [Option.join_some] at h
          subst h
          rw [List.getElem?_set_self (List.getElem?_eq_some_iff.1 hv).1]
      · rw [List.getElem?_set_ne hi]
    rw [this]
  | mem b i =>
    unfold Graph.get at h; dsimp only at h
    unfold Graph.set; dsimp only
    have : g.objs.modify b (Option.map (fun fs => fs.set i q)) = g.objs := by
      apply List.ext_getElem?
      intro j
      rw [List.getElem?_modify]
      by_cases hj : b = j
      · subst hj
        cases ho : g.objs[b]? with
        | none => rfl
        | some o =>
          cases o with
          | none => simp
          | some fs =>
            rw [ho] at h
            simp only [Option.join_some, Option.bind_some] at h
            simp only [if_true, Option.map_some, Option.map_eq_map, Option.some.injEq]
            apply List.ext_getElem?
            intro k
            by_cases hk : i = k
            · subst hk; rw [List.getElem?_set_self (List.getElem?_eq_some_iff.1 h).1, h]
            · rw [List.getElem?_set_ne hk]
      · simp [hj]
    rw [this]

theorem set_alive (g : Graph) (l : Loc) (p : Option Nat) (a : Nat) : (g.set l p).alive a = g.alive a := by
  cases l with
  | var x => rfl
  | mem b i =>
    unfold Graph.alive Graph.set
    dsimp only
    rw [List.getElem?_modify]
    by_cases hj : b = a
    · subst hj
      cases ho : g.objs[b]? with
      | none => rfl
      | some o => cases o <;> simp
    · simp [hj]

theorem get_set_ne {g : Graph} {l l' : Loc} (h : l ≠ l') (p : Option Nat) : (g.set l p).get l' = g.get l' := by
  cases l with
  | var x =>
    cases l' with
    | var y =>
      unfold Graph.get Graph.set
      dsimp only
      rw [List.getElem?_set_ne (fun e => h (by rw [e]))]
    | mem b j => rfl
  | mem a i =>
    cases l' with
    | var y => rfl
    | mem b j =>
      unfold Graph.get Graph.set
      dsimp only
      rw [List.getElem?_modify]
      by_cases hj : a = b
      · subst hj
        cases ho : g.objs[a]? with
        | none => rfl
        | some o =>
          cases o with
          | none => simp
          | some fs =>
            simp only [if_true, Option.map_some, Option.map_eq_map, Option.join_some, Option.bind_some]
            rw [List.getElem?_set_ne (fun e => h (by rw [e]))]
      · simp [hj]

theorem get_set_self {g : Graph} {l : Loc} {q : Option Nat} (h : g.get l = some q) (p : Option Nat) : (g.set l p).get l = some p := by
  cases l with
  | var x =>
    unfold Graph.get at h; dsimp only at h
    unfold Graph.get Graph.set
    dsimp only
    cases hv : g.vars[x]? with
    | none => rw [hv] at h; cases h
    | some v => rw [List.getElem?_set_self (List.getElem?_eq_some_iff.1 hv).1]; rfl
  | mem a i =>
    unfold Graph.get at h; dsimp only at h
    unfold Graph.get Graph.set
    dsimp only
    rw [List.getElem?_modify]
    simp only [if_true]
    cases ho : g.objs[a]? with
    | none => rw [ho] at h; cases h
    | some o =>
      cases o with
      | none => rw [ho] at h; cases h
      | some fs =>
        rw [ho] at h
        simp only [Option.join_some, Option.bind_some] at h
        simp only [Option.map_some, Option.map_eq_map, Option.join_some, Option.bind_some]
        rw [List.getElem?_set_self (List.getElem?_eq_some_iff.1 h).1]

theorem owners_declare (g : Graph) (p : Option Nat) (a : Nat) : (g.declare p).owners a = g.owners a + one p a := by
  unfold Graph.declare Graph.owners one
  dsimp only
  rw [List.count_append, List.count_singleton]
  by_cases h : p = some a
  · rw [if_pos (by simp [h]), if_pos h]; omega
  · rw [if_neg (by simpa using h), if_neg h]; omega

theorem owners_takeRef (g : Graph) (p : Option Nat) (a : Nat) : (g.takeRef p).owners a = g.owners a + one p a := by
  unfold one
  cases p with
  | none => rfl
  | some b =>
    unfold Graph.takeRef Graph.owners
    dsimp only
    by_cases h : a = b
    · subst h; rw [if_pos rfl, if_pos rfl]; omega
    · rw [if_neg h, if_neg (fun e => h (Option.some.inj e).symm)]; omega

theorem owners_giveRef (g : Graph) (p : Option Nat) (a : Nat) (h : ∀ b, p = some b → 0 < g.det b) :
    (g.giveRef p).owners a + one p a = g.owners a := by
  unfold one
  cases p with
  | none => rfl
  | some b =>
    have := h b rfl
    unfold Graph.giveRef Graph.owners
    dsimp only
    by_cases h : a = b
    · subst h; rw [if_pos rfl, if_pos rfl]; omega
    · rw [if_neg h, if_neg (fun e => h (Option.some.inj e).symm)]; omega

theorem owners_die {g : Graph} {a : Nat} {fs : List (Option Nat)} (h : g.objs[a]? = some (some fs)) (b : Nat) :
    ({ g with objs := g.objs.set a none } : Graph).owners b + (fs.filterMap id).count b = g.owners b := by
  have h1 := sum_map_set (fun o : Option (List (Option Nat)) => o.elim 0 (fun fs => fs.count (some b))) g.objs a none (some fs) h
  have h2 : ∀ l : List (Option Nat), (l.filterMap id).count b = l.count (some b) := by
    intro l
    induction l with
    | nil => rfl
    | cons p l ih =>
      cases p with
      | none => rw [List.filterMap_cons_none rfl, List.count_cons, ih]; simp
      | some c =>
        show (c :: l.filterMap id).count b = _
        rw [List.count_cons, List.count_cons, ih]
        simp
  rw [h2]
  simp only [Option.elim_some, Option.elim_none] at h1
  unfold Graph.owners
  dsimp only
  omega

/-! ## The relation -/

def rcs (h : Heap) : List (Option Nat) := h.objs.map (Option.map Obj.rc)

structure Same (h : Heap) (g : Graph) : Prop where
  vars : h.vars = g.vars
  objs : h.objs.map (Option.map Obj.mem) = g.objs

/-- The counters have the values `w`; only living objects have any. -/
def Tot (r : List (Option Nat)) (w : Nat → Nat) : Prop :=
  ∀ (a : Nat), match r[a]? with
    | some (some c) => c = w a ∧ 0 < c ∧ c < 2 ^ 32
    | _ => w a = 0

/-- `pend`: the pointers held by temporaries. -/
structure Inv (h : Heap) (g : Graph) (pend : List Nat) : Prop where
  same : Same h g
  tot : Tot (rcs h) (fun a => g.owners a + pend.count a)

theorem Tot.congr {r : List (Option Nat)} {w w' : Nat → Nat} (h : Tot r w) (e : ∀ a, w' a = w a) : Tot r w' := by
  have : w' = w := funext e
  rw [this]; exact h

theorem Inv.perm {h : Heap} {g : Graph} {pend pend' : List Nat} (hi : Inv h g pend) (hp : pend'.Perm pend) : Inv h g pend' :=
  ⟨hi.same, hi.tot.congr (fun a => by rw [hp.count_eq])⟩

theorem Same.obj {h : Heap} {g : Graph} (hs : Same h g) (a : Nat) : g.objs[a]? = (h.objs[a]?).map (Option.map Obj.mem) := by
  rw [← hs.objs, List.getElem?_map]

theorem Same.alive {h : Heap} {g : Graph} (hs : Same h g) {a : Nat} (ha : g.alive a = true) : ∃ o, h.objs[a]? = some (some o) := by
  unfold Graph.alive at ha
  rw [hs.obj] at ha
  cases ho : h.objs[a]? with
  | none => rw [ho] at ha; cases ha
  | some o =>
    cases o with
    | none => rw [ho] at ha; cases ha
    | some o => exact ⟨o, rfl⟩

theorem Inv.rc {h : Heap} {g : Graph} {pend : List Nat} (hi : Inv h g pend) {a : Nat} {o : Obj} (ho : h.objs[a]? = some (some o)) :
    o.rc = g.owners a + pend.count a ∧ 0 < o.rc ∧ o.rc < 2 ^ 32 := by
  have := hi.tot a
  unfold rcs at this
  rw [List.getElem?_map, ho] at this
  exact this

theorem Inv.alive {h : Heap} {g : Graph} {pend : List Nat} (hi : Inv h g pend) {a : Nat} (hp : 0 < g.owners a + pend.count a) :
    ∃ o, h.objs[a]? = some (some o) := by
  have := hi.tot a
  unfold rcs at this
  rw [List.getElem?_map] at this
  cases ho : h.objs[a]? with
  | none => rw [ho] at this; simp only [Option.map_none] at this; omega
  | some o =>
    cases o with
    | none => rw [ho] at this; simp only [Option.map_some, Option.map_none] at this; omega
    | some o => exact ⟨o, rfl⟩

theorem read_ok {h : Heap} {g : Graph} (hs : Same h g) (l : Loc) : h.read l = Res.ofOption (g.get l) := by
  cases l with
  | var x => unfold Heap.read Graph.get; dsimp only; rw [hs.vars]
  | mem a i =>
    unfold Heap.read Graph.get
    dsimp only
    rw [hs.obj]
    cases ho : h.objs[a]? with
    | none => rfl
    | some o => cases o <;> rfl

theorem write_ok {h : Heap} {g : Graph} (hs : Same h g) {l : Loc} {q : Option Nat} (hq : g.get l = some q) (p : Option Nat) :
    ∃ h', h.write l p = .ok h' ∧ Same h' (g.set l p) ∧ rcs h' = rcs h := by
  cases l with
  | var x =>
    unfold Graph.get at hq; dsimp only at hq
    rw [← hs.vars] at hq
    cases hv : h.vars[x]? with
    | none => rw [hv] at hq; cases hq
    | some v =>
      cases v with
      | none => rw [hv] at hq; cases hq
      | some v =>
        refine ⟨{ h with vars := h.vars.set x (some p) }, by unfold Heap.write; dsimp only; rw [hv], ⟨?_, hs.objs⟩, rfl⟩
        unfold Graph.set
        dsimp only
        rw [hs.vars]
  | mem a i =>
    unfold Graph.get at hq; dsimp only at hq
    rw [hs.obj] at hq
    cases ho : h.objs[a]? with
    | none => rw [ho] at hq; cases hq
    | some o =>
      cases o with
      | none => rw [ho] at hq; cases hq
      | some o =>
        rw [ho] at hq
        simp only [Option.map_some, Option.join_some, Option.bind_some] at hq
        have hi := (List.getElem?_eq_some_iff.1 hq).1
        refine ⟨{ h with objs := h.objs.set a (some { o with mem := o.mem.set i p }) }, by unfold Heap.write; dsimp only; rw [ho]; dsimp only; rw [if_pos hi], ⟨hs.vars, ?_⟩, ?_⟩
        · unfold Graph.set
          dsimp only
          rw [List.modify_eq_set_getElem?, hs.obj, ho, List.map_set, hs.objs]
          rfl
        · unfold rcs
          dsimp only
          rw [List.map_set]
          apply List.ext_getElem?
          intro j
          by_cases hj : a = j
          · subst hj
            have ha := (List.getElem?_eq_some_iff.1 ho).1
            rw [List.getElem?_set_self (by rw [List.length_map]; exact ha), List.getElem?_map, ho]; rfl
          · rw [List.getElem?_set_ne hj]

/-- Exchange the value of a pointer with one held by a temporary. -/
theorem exchange {h : Heap} {g : Graph} {pend : List Nat} {l : Loc} {p q : Option Nat} (hi : Inv h g (p.toList ++ pend))
    (hq : g.get l = some q) : ∃ h', h.write l p = .ok h' ∧ Inv h' (g.set l p) (q.toList ++ pend) := by
  obtain ⟨h', h1, h2, h3⟩ := write_ok hi.same hq p
  refine ⟨h', h1, h2, ?_⟩
  rw [h3]
  refine hi.tot.congr (fun a => ?_)
  have := set_owners hq p a
  rw [List.count_append, List.count_append, count_toList, count_toList]
  omega

theorem declare_ok {h : Heap} {g : Graph} {pend : List Nat} {p : Option Nat} (hi : Inv h g (p.toList ++ pend)) :
    Inv (h.declare p) (g.declare p) pend := by
  refine ⟨⟨?_, hi.same.objs⟩, ?_⟩
  · unfold Heap.declare Graph.declare
    dsimp only
    rw [hi.same.vars]
  · refine hi.tot.congr (fun a => ?_)
    rw [owners_declare, List.count_append, count_toList]
    omega

theorem addRef_ok {h : Heap} {g : Graph} {pend : List Nat} (hi : Inv h g pend) {p : Option Nat} (hp : ∀ a, p = some a → g.alive a = true)
    (hroom : ∀ a, g.owners a + pend.count a + 1 < 2 ^ 32) : ∃ h', h.addRef p = .ok h' ∧ Inv h' g (p.toList ++ pend) := by
  cases p with
  | none => exact ⟨h, rfl, hi⟩
  | some a =>
    obtain ⟨o, ho⟩ := hi.same.alive (hp a rfl)
    obtain ⟨h1, h2, h3⟩ := hi.rc ho
    have hr := hroom a
    have hw : wrap (o.rc + 1) = o.rc + 1 := Nat.mod_eq_of_lt (by omega)
    have hal := (List.getElem?_eq_some_iff.1 ho).1
    refine ⟨{ h with objs := h.objs.set a (some { o with rc := wrap (o.rc + 1) }) }, by unfold Heap.addRef; dsimp only; rw [ho], ⟨⟨hi.same.vars, ?_⟩, ?_⟩⟩
    · dsimp only
      rw [List.map_set, ← hi.same.objs]
      apply List.ext_getElem?
      intro j
      by_cases hj : a = j
      · subst hj
        rw [List.getElem?_set_self (by rw [List.length_map]; exact hal), List.getElem?_map, ho]; rfl
      · rw [List.getElem?_set_ne hj]
    · intro b
      have hb := hi.tot b
      unfold rcs at hb ⊢
      dsimp only
      rw [List.map_set]
      have hc : (some a).toList ++ pend = a :: pend := rfl
      by_cases hj : a = b
      · subst hj
        rw [List.getElem?_set_self (by rw [List.length_map]; exact hal)]
        simp only [Option.map_some]
        rw [hw, hc, count_cons', one, if_pos rfl]
        omega
      · rw [List.getElem?_set_ne hj]
        have : ((some a).toList ++ pend).count b = pend.count b := by
          rw [hc, count_cons', one, if_neg (fun e => hj (Option.some.inj e))]; omega
        rw [this]
        exact hb

/-! ## Releasing -/

def live (h : Heap) : Nat := h.objs.countP Option.isSome

theorem live_set_some {h : Heap} {a : Nat} {o o' : Obj} (ho : h.objs[a]? = some (some o)) :
    live { h with objs := h.objs.set a (some o') } = live h := by
  obtain ⟨hal, he⟩ := List.getElem?_eq_some_iff.1 ho
  unfold live
  dsimp only
  rw [List.countP_set hal, he]
  have : 0 < h.objs.countP Option.isSome := List.countP_pos_iff.2 ⟨_, List.getElem_mem hal, by rw [he]; rfl⟩
  simp only [Option.isSome_some, if_true]
  omega

theorem live_set_none {h : Heap} {a : Nat} {o : Obj} (ho : h.objs[a]? = some (some o)) :
    live { h with objs := h.objs.set a none } + 1 = live h := by
  obtain ⟨hal, he⟩ := List.getElem?_eq_some_iff.1 ho
  unfold live
  dsimp only
  rw [List.countP_set hal, he]
  have : 0 < h.objs.countP Option.isSome := List.countP_pos_iff.2 ⟨_, List.getElem_mem hal, by rw [he]; rfl⟩
  simp only [Option.isSome_some, if_true, Option.isSome_none]
  simp
  omega

/-- Members of `fold` in the definition of `release`. -/
def dropWith (r : Heap → Nat → Res Heap) (h : Heap) (p : Option Nat) : Res Heap :=
  match p with
  | none => .ok h
  | some b => r h b

theorem fold_ok {r : Heap → Nat → Res Heap} {n : Nat}
    (hr : ∀ h g pend a, Inv h g (a :: pend) → live h ≤ n →
      ∃ h' g', r h a = .ok h' ∧ Relation.ReflTransGen Dies g g' ∧ Inv h' g' pend ∧ live h' ≤ live h ∧ h'.objs.length = h.objs.length) :
    ∀ (ps : List (Option Nat)) (h : Heap) (g : Graph) (pend : List Nat), Inv h g (ps.filterMap id ++ pend) → live h ≤ n →
      ∃ h' g', ps.foldlM (dropWith r) h = .ok h' ∧ Relation.ReflTransGen Dies g g' ∧ Inv h' g' pend ∧ live h' ≤ live h ∧ h'.objs.length = h.objs.length
  | [], h, g, pend, hi, hn => ⟨h, g, rfl, .refl, hi, Nat.le_refl _, rfl⟩
  | none :: ps, h, g, pend, hi, hn => by
    rw [List.filterMap_cons_none rfl] at hi
    exact fold_ok hr ps h g pend hi hn
  | some b :: ps, h, g, pend, hi, hn => by
    have hi : Inv h g (b :: (ps.filterMap id ++ pend)) := hi
    obtain ⟨h1, g1, e1, c1, i1, l1, n1⟩ := hr h g _ b hi hn
    obtain ⟨h2, g2, e2, c2, i2, l2, n2⟩ := fold_ok hr ps h1 g1 pend i1 (by omega)
    refine ⟨h2, g2, ?_, c1.trans c2, i2, by omega, by omega⟩
    rw [List.foldlM_cons]
    show (r h b >>= _) = _
    rw [e1]
    exact e2

theorem release_ok : ∀ (f : Nat) (h : Heap) (g : Graph) (pend : List Nat) (a : Nat), Inv h g (a :: pend) → live h ≤ f →
    ∃ h' g', release f h a = .ok h' ∧ Relation.ReflTransGen Dies g g' ∧ Inv h' g' pend ∧ live h' ≤ live h ∧ h'.objs.length = h.objs.length
  | f, h, g, pend, a, hi, hf => by
    obtain ⟨o, ho⟩ := hi.alive (a := a) (by rw [count_cons', one, if_pos rfl]; omega)
    obtain ⟨h1, h2, h3⟩ := hi.rc ho
    rw [count_cons', one, if_pos rfl] at h1
    obtain ⟨hal, he⟩ := List.getElem?_eq_some_iff.1 ho
    have hlive := live_set_none ho
    cases f with
    | zero => omega
    | succ f =>
      have hw : wrap (o.rc + (2 ^ 32 - 1)) = o.rc - 1 := by
        unfold wrap
        rw [show o.rc + (2 ^ 32 - 1) = (o.rc - 1) + 2 ^ 32 by omega, Nat.add_mod_right]
        exact Nat.mod_eq_of_lt (by omega)
      unfold release
      rw [ho]
      dsimp only
      rw [hw]
      by_cases hz : o.rc - 1 = 0
      · rw [if_pos hz]
        have hg : g.objs[a]? = some (some o.mem) := by rw [hi.same.obj, ho]; rfl
        have hd : Dies g { g with objs := g.objs.set a none } :=
          ⟨a, by unfold Graph.alive; rw [hg]; rfl, by omega, rfl⟩
        have hinv : Inv { h with objs := h.objs.set a none } { g with objs := g.objs.set a none } (o.mem.reverse.filterMap id ++ pend) := by
          refine ⟨⟨hi.same.vars, ?_⟩, ?_⟩
          · dsimp only
            rw [List.map_set, hi.same.objs]; rfl
          · intro b
            have hb := hi.tot b
            unfold rcs at hb ⊢
            dsimp only at hb ⊢
            rw [List.map_set]
            have hc := owners_die hg b
            rw [List.count_append, List.filterMap_reverse, List.count_reverse]
            rw [count_cons'] at hb
            by_cases hj : a = b
            · subst hj
              rw [List.getElem?_set_self (by rw [List.length_map]; exact hal)]
              simp only [Option.map_none]
              omega
            · rw [List.getElem?_set_ne hj]
              rw [one, if_neg (fun e => hj (Option.some.inj e))] at hb
              revert hb
              have : ∀ x y : Nat, x = y → (match (List.map (Option.map Obj.rc) h.objs)[b]? with
                  | some (some c) => c = x ∧ 0 < c ∧ c < 2 ^ 32
                  | _ => x = 0) → (match (List.map (Option.map Obj.rc) h.objs)[b]? with
                  | some (some c) => c = y ∧ 0 < c ∧ c < 2 ^ 32
                  | _ => y = 0) := by
                intro x y e h; rw [← e]; exact h
              exact this _ _ (by omega)
        obtain ⟨h', g', e, c, i, l, n⟩ := fold_ok (r := release f) (n := f) (fun h g pend a hi hn => release_ok f h g pend a hi hn)
          o.mem.reverse _ _ pend hinv (by omega)
        refine ⟨h', g', e, .head hd c, i, by omega, ?_⟩
        rw [n]; simp
      · rw [if_neg hz]
        refine ⟨_, g, rfl, .refl, ⟨⟨hi.same.vars, ?_⟩, ?_⟩, Nat.le_of_eq (live_set_some ho), by simp⟩
        · dsimp only
          rw [List.map_set, ← hi.same.objs]
          apply List.ext_getElem?
          intro j
          by_cases hj : a = j
          · subst hj
            rw [List.getElem?_set_self (by rw [List.length_map]; exact hal), List.getElem?_map, ho]; rfl
          · rw [List.getElem?_set_ne hj]
        · intro b
          have hb := hi.tot b
          unfold rcs at hb ⊢
          dsimp only at hb ⊢
          rw [List.map_set]
          rw [count_cons'] at hb
          by_cases hj : a = b
          · subst hj
            rw [List.getElem?_set_self (by rw [List.length_map]; exact hal)]
            simp only [Option.map_some]
            omega
          · rw [List.getElem?_set_ne hj]
            rw [one, if_neg (fun e => hj (Option.some.inj e)), Nat.zero_add] at hb
            exact hb

theorem drop_ok {h : Heap} {g : Graph} {pend : List Nat} {p : Option Nat} (hi : Inv h g (p.toList ++ pend)) :
    ∃ h' g', h.drop p = .ok h' ∧ Relation.ReflTransGen Dies g g' ∧ Inv h' g' pend := by
  cases p with
  | none => exact ⟨h, g, rfl, .refl, hi⟩
  | some a =>
    have : live h ≤ h.objs.length := List.countP_le_length
    obtain ⟨h', g', e, c, i, _⟩ := release_ok (h.objs.length + 1) h g pend a hi (by omega)
    exact ⟨h', g', e, c, i⟩

theorem replace_ok {h : Heap} {g : Graph} {dst : Loc} {p q : Option Nat} (hi : Inv h g (p.toList ++ []))
    (hq : g.get dst = some q) : ∃ h' g', h.replace dst p = .ok h' ∧ Relation.ReflTransGen Dies (g.set dst p) g' ∧ Inv h' g' [] := by
  obtain ⟨h1, e1, i1⟩ := exchange hi hq
  obtain ⟨h2, g2, e2, c2, i2⟩ := drop_ok i1
  refine ⟨h2, g2, ?_, c2, i2⟩
  unfold Heap.replace
  rw [read_ok hi.same, hq]
  simp only [Res.ofOption_some, Res.ok_bind]
  rw [e1]
  exact e2

theorem Inv.collected {h : Heap} {g : Graph} (hi : Inv h g []) : ∀ g', ¬ Dies g g' := by
  rintro g' ⟨a, h1, h2, -⟩
  obtain ⟨o, ho⟩ := hi.same.alive h1
  obtain ⟨h3, h4, -⟩ := hi.rc ho
  rw [h2] at h3
  simp at h3
  omega

/-! ## Steps -/

theorem alive_of_get {h : Heap} {g : Graph} {pend : List Nat} (hi : Inv h g pend) {l : Loc} {a : Nat} (hl : g.get l = some (some a)) :
    g.alive a = true := by
  have := set_owners hl none a
  unfold one at this
  rw [if_pos rfl, if_neg (by simp)] at this
  obtain ⟨o, ho⟩ := hi.alive (a := a) (by omega)
  unfold Graph.alive
  rw [hi.same.obj, ho]; rfl

theorem adopt_ok {h : Heap} {g : Graph} (hi : Inv h g []) {p : Option Nat} {add : Bool} (hp : g.mayUse p add = true) (hroom : Room g) :
    ∃ h', h.adopt p add = .ok h' ∧ (add = true → Inv h' g (p.toList ++ [])) ∧ (add = false → Inv h' (g.giveRef p) (p.toList ++ [])) := by
  cases add with
  | true =>
    obtain ⟨h', e, i⟩ := addRef_ok hi (p := p) (fun a ha => by
      subst ha
      unfold Graph.mayUse at hp
      simp only [Bool.and_eq_true] at hp
      exact hp.1) (fun a => hroom a)
    exact ⟨h', e, fun _ => i, fun e => by cases e⟩
  | false =>
    refine ⟨h, rfl, fun e => (by cases e), fun _ => ⟨⟨?_, ?_⟩, ?_⟩⟩
    · cases p <;> exact hi.same.vars
    · cases p <;> exact hi.same.objs
    · refine hi.tot.congr (fun a => ?_)
      have := owners_giveRef g p a (fun b hb => by
        subst hb
        unfold Graph.mayUse at hp
        simp only [Bool.and_eq_true, Bool.false_or, decide_eq_true_eq] at hp
        exact hp.2)
      rw [List.count_append, count_toList]
      simp only [List.count_nil]
      omega

theorem giveRef_set (g : Graph) (p : Option Nat) (l : Loc) (q : Option Nat) : (g.set l q).giveRef p = (g.giveRef p).set l q := by
  cases p <;> cases l <;> rfl

theorem giveRef_get (g : Graph) (p : Option Nat) (l : Loc) : (g.giveRef p).get l = g.get l := by
  cases p <;> cases l <;> rfl

theorem giveRef_declare (g : Graph) (p q : Option Nat) : (g.declare q).giveRef p = (g.giveRef p).declare q := by
  cases p <;> rfl

theorem step_ok {h : Heap} {g g1 : Graph} (hi : Inv h g []) (hroom : Room g) (op : Op) (he : effect g op = some g1) :
    ∃ h' g', h.step op = .ok h' ∧ Collected g1 g' ∧ Inv h' g' [] := by
  have fin : ∀ {h'}, Inv h' g1 [] → h.step op = .ok h' → ∃ h' g', h.step op = .ok h' ∧ Collected g1 g' ∧ Inv h' g' [] :=
    fun i e => ⟨_, g1, e, ⟨.refl, i.collected⟩, i⟩
  have hroom' : ∀ a, g.owners a + ([] : List Nat).count a + 1 < 2 ^ 32 := fun a => hroom a
  cases op with
  | make n =>
    simp only [effect, Option.some.injEq] at he
    subst he
    have hlen : h.objs.length = g.objs.length := by rw [← hi.same.objs, List.length_map]
    refine fin (h' := { objs := h.objs ++ [some { rc := 1, mem := List.replicate n none }], vars := h.vars ++ [some (some h.objs.length)] }) ⟨⟨?_, ?_⟩, ?_⟩ ?_
    · dsimp only; rw [hi.same.vars, hlen]
    · dsimp only; rw [List.map_append, hi.same.objs]; rfl
    · intro b
      have hb := hi.tot b
      unfold rcs at hb ⊢
      dsimp only at hb ⊢
      have ho : ({ objs := g.objs ++ [some (List.replicate n none)], vars := g.vars ++ [some (some g.objs.length)], det := g.det } : Graph).owners b
          = g.owners b + one (some g.objs.length) b := by
        have h0 : (List.replicate n (none : Option Nat)).count (some b) = 0 := by
          rw [List.count_eq_zero]
          intro hm
          have := (List.mem_replicate.1 hm).2
          cases this
        have h1 := owners_declare g (some g.objs.length) b
        unfold Graph.owners Graph.declare at h1
        unfold Graph.owners
        dsimp only at h1 ⊢
        rw [List.map_append, List.sum_append]
        simp only [List.map_cons, List.map_nil, Option.elim_some, h0, List.sum_cons, List.sum_nil]
        omega
      rw [ho, List.map_append]
      rcases Nat.lt_trichotomy b h.objs.length with hlt | heq | hgt
      · rw [List.getElem?_append_left (by rw [List.length_map]; exact hlt)]
        have : one (some g.objs.length) b = 0 := by
          unfold one; rw [if_neg]; intro e; injection e with e; omega
        rw [this]
        exact hb
      · subst heq
        rw [List.getElem?_eq_none (by rw [List.length_map]; exact Nat.le_refl _)] at hb
        rw [List.getElem?_append_right (by rw [List.length_map]; exact Nat.le_refl _), List.length_map, Nat.sub_self]
        have : one (some g.objs.length) h.objs.length = 1 := by
          unfold one; rw [if_pos (by rw [hlen])]
        rw [this]
        have hb' : g.owners h.objs.length + 0 = 0 := hb
        refine ⟨show 1 = _ + 1 + 0 from ?_, Nat.one_pos, show 1 < 2 ^ 32 by decide⟩
        omega
      · rw [List.getElem?_eq_none (by rw [List.length_map]; omega)] at hb
        rw [List.getElem?_eq_none (by rw [List.length_append, List.length_map]; simp; omega)]
        have : one (some g.objs.length) b = 0 := by
          unfold one; rw [if_neg]; intro e; injection e with e; omega
        rw [this]
        exact hb
    · simp only [Heap.step, Heap.addRef]
      rw [List.getElem?_append_right (Nat.le_refl _), Nat.sub_self]
      simp only [List.getElem?_cons_zero, Res.ok_bind]
      unfold Heap.declare
      dsimp only
      rw [List.set_append_right _ _ (Nat.le_refl _), Nat.sub_self]
      rfl
  | null =>
    simp only [effect, Option.some.injEq] at he
    subst he
    exact fin (declare_ok (p := none) hi) rfl
  | raw p add =>
    simp only [effect] at he
    split at he
    · rename_i hp
      simp only [Option.some.injEq] at he
      subst he
      obtain ⟨h', e, i1, i2⟩ := adopt_ok hi hp hroom
      cases add with
      | true => exact fin (declare_ok (i1 rfl)) (by simp only [Heap.step]; rw [e]; rfl)
      | false =>
        have := declare_ok (i2 rfl)
        rw [← giveRef_declare] at this
        exact fin this (by simp only [Heap.step]; rw [e]; rfl)
    · cases he
  | copy src =>
    simp only [effect] at he
    cases hl : g.get src with
    | none => rw [hl] at he; cases he
    | some p =>
      rw [hl] at he
      simp only [Option.bind_eq_bind, Option.bind_some, Option.some.injEq] at he
      subst he
      obtain ⟨h', e, i⟩ := addRef_ok hi (p := p) (fun a ha => alive_of_get hi (by rw [hl, ha])) hroom'
      exact fin (declare_ok i) (by simp only [Heap.step]; rw [read_ok hi.same, hl]; simp only [Res.ofOption_some, Res.ok_bind]; rw [e]; rfl)
  | move src =>
    simp only [effect] at he
    cases hl : g.get src with
    | none => rw [hl] at he; cases he
    | some p =>
      rw [hl] at he
      simp only [Option.bind_eq_bind, Option.bind_some, Option.some.injEq] at he
      subst he
      obtain ⟨h', e, i⟩ := exchange (p := none) hi hl
      exact fin (declare_ok i) (by simp only [Heap.step]; rw [read_ok hi.same, hl]; simp only [Res.ofOption_some, Res.ok_bind]; rw [e]; rfl)
  | castMove src =>
    simp only [effect] at he
    cases hl : g.get src with
    | none => rw [hl] at he; cases he
    | some p =>
      rw [hl] at he
      simp only [Option.bind_eq_bind, Option.bind_some, Option.some.injEq] at he
      subst he
      obtain ⟨h', e, i⟩ := exchange (p := none) hi hl
      exact fin (declare_ok i) (by simp only [Heap.step]; rw [read_ok hi.same, hl]; simp only [Res.ofOption_some, Res.ok_bind]; rw [e]; rfl)
  | dynCast src ok =>
    simp only [effect] at he
    cases hl : g.get src with
    | none => rw [hl] at he; cases he
    | some p =>
      rw [hl] at he
      simp only [Option.bind_eq_bind, Option.bind_some, Option.some.injEq] at he
      subst he
      obtain ⟨h', e, i⟩ := addRef_ok hi (p := if ok then p else none) (fun a ha => alive_of_get hi (by
        cases ok with
        | true => rw [hl]; rw [if_pos rfl] at ha; rw [ha]
        | false => cases ha)) hroom'
      exact fin (declare_ok i) (by simp only [Heap.step]; rw [read_ok hi.same, hl]; simp only [Res.ofOption_some, Res.ok_bind]; rw [e]; rfl)
  | dynCastMove src ok =>
    simp only [effect] at he
    cases hl : g.get src with
    | none => rw [hl] at he; cases he
    | some p =>
      rw [hl] at he
      simp only [Option.bind_eq_bind, Option.bind_some, Option.some.injEq] at he
      subst he
      cases ok with
      | false =>
        exact fin (declare_ok (p := none) hi) (by simp only [Heap.step]; rw [read_ok hi.same, hl]; rfl)
      | true =>
        cases p with
        | none =>
          refine fin (h' := h.declare none) ?_ (by simp only [Heap.step]; rw [read_ok hi.same, hl]; rfl)
          rw [if_pos rfl, set_self hl]
          exact declare_ok (p := none) hi
        | some a =>
          obtain ⟨h', e, i⟩ := exchange (p := none) hi hl
          exact fin (declare_ok i) (by
            simp only [Heap.step]; rw [read_ok hi.same, hl]
            simp only [Res.ofOption_some, Res.ok_bind, if_true, Heap.adopt, Bool.false_eq_true, if_false, Option.isSome_some]; rw [e]; rfl)
  | destroy x =>
    simp only [effect] at he
    cases hl : g.get (.var x) with
    | none => rw [hl] at he; cases he
    | some p =>
      rw [hl] at he
      simp only [Option.bind_eq_bind, Option.bind_some, Option.some.injEq] at he
      subst he
      have hx : g.vars[x]? = some (some p) := by
        unfold Graph.get at hl; dsimp only at hl
        cases hv : g.vars[x]? with
        | none => rw [hv] at hl; cases hl
        | some v => rw [hv] at hl; simp only [Option.join_some] at hl; rw [hl]
      have i : Inv { h with vars := h.vars.set x none } { g with vars := g.vars.set x none } (p.toList ++ []) := by
        refine ⟨⟨?_, hi.same.objs⟩, hi.tot.congr (fun a => ?_)⟩
        · dsimp only; rw [hi.same.vars]
        · have := count_set' (some (some a)) g.vars x none (some p) hx
          rw [List.count_append, count_toList]
          unfold Graph.owners one
          have e0 : (if (none : Option (Option Nat)) = some (some a) then 1 else 0) = 0 := by simp
          have e1 : (if some p = some (some a) then 1 else 0) = if p = some a then 1 else 0 := by simp
          rw [e0, e1] at this
          dsimp only
          rw [List.count_nil]
          omega
      obtain ⟨h', g', e, c, i'⟩ := drop_ok i
      refine ⟨h', g', ?_, ⟨c, i'.collected⟩, i'⟩
      simp only [Heap.step]; rw [read_ok hi.same, hl]
      exact e
  | assignCopy dst src =>
    simp only [effect] at he
    cases hd : g.get dst with
    | none => rw [hd] at he; cases he
    | some q =>
      cases hl : g.get src with
      | none => rw [hd, hl] at he; cases he
      | some p =>
        rw [hd, hl] at he
        simp only [Option.bind_eq_bind, Option.bind_some, Option.some.injEq] at he
        subst he
        by_cases hds : dst = src
        · subst hds
          rw [hd] at hl
          injection hl with hl
          subst hl
          refine fin (h' := h) (by rw [set_self hd]; exact hi) ?_
          simp only [Heap.step, if_true]; rw [read_ok hi.same, hd]; rfl
        · obtain ⟨h1, e1, i1⟩ := addRef_ok hi (p := p) (fun a ha => alive_of_get hi (by rw [hl, ha])) hroom'
          obtain ⟨h2, g2, e2, c2, i2⟩ := replace_ok i1 hd
          refine ⟨h2, g2, ?_, ⟨c2, i2.collected⟩, i2⟩
          simp only [Heap.step]; rw [if_neg hds, read_ok hi.same, hl]; simp only [Res.ofOption_some, Res.ok_bind]; rw [e1]
          exact e2
  | assignMove dst src =>
    simp only [effect] at he
    cases hd : g.get dst with
    | none => rw [hd] at he; cases he
    | some q =>
      cases hl : g.get src with
      | none => rw [hd, hl] at he; cases he
      | some p =>
        rw [hd, hl] at he
        simp only [Option.bind_eq_bind, Option.bind_some, Option.some.injEq] at he
        subst he
        by_cases hds : dst = src
        · subst hds
          refine fin (h' := h) (by rw [if_pos rfl]; exact hi) ?_
          simp only [Heap.step, if_true]; rw [read_ok hi.same, hd]; rfl
        · rw [if_neg hds]
          obtain ⟨h1, e1, i1⟩ := exchange (p := none) hi hl
          obtain ⟨h2, g2, e2, c2, i2⟩ := replace_ok i1 (q := q) (by rw [get_set_ne (fun e => hds e.symm)]; exact hd)
          refine ⟨h2, g2, ?_, ⟨c2, i2.collected⟩, i2⟩
          simp only [Heap.step]; rw [if_neg hds, read_ok hi.same, hl]; simp only [Res.ofOption_some, Res.ok_bind]; rw [e1]
          exact e2
  | assignRaw dst p =>
    simp only [effect] at he
    cases hd : g.get dst with
    | none => rw [hd] at he; cases he
    | some q =>
      rw [hd] at he
      simp only [Option.bind_eq_bind, Option.bind_some] at he
      split at he
      · rename_i hp
        injection he with he
        subst he
        by_cases hpq : p = q
        · subst hpq
          refine fin (h' := h) (by rw [set_self hd]; exact hi) ?_
          simp only [Heap.step]; rw [read_ok hi.same, hd]; simp
        · obtain ⟨h1, e1, i1, -⟩ := adopt_ok hi hp hroom
          obtain ⟨h2, g2, e2, c2, i2⟩ := replace_ok (i1 rfl) hd
          refine ⟨h2, g2, ?_, ⟨c2, i2.collected⟩, i2⟩
          simp only [Heap.step]; rw [read_ok hi.same, hd]; simp only [Res.ofOption_some, Res.ok_bind]
          rw [if_pos hpq]
          have : h.addRef p = .ok h1 := e1
          rw [this]
          exact e2
      · cases he
  | reset dst =>
    simp only [effect] at he
    cases hd : g.get dst with
    | none => rw [hd] at he; cases he
    | some q =>
      rw [hd] at he
      simp only [Option.bind_eq_bind, Option.bind_some, Option.some.injEq] at he
      subst he
      obtain ⟨h2, g2, e2, c2, i2⟩ := replace_ok (p := none) hi hd
      exact ⟨h2, g2, e2, ⟨c2, i2.collected⟩, i2⟩
  | resetRaw dst p add =>
    simp only [effect] at he
    cases hd : g.get dst with
    | none => rw [hd] at he; cases he
    | some q =>
      rw [hd] at he
      simp only [Option.bind_eq_bind, Option.bind_some] at he
      split at he
      · rename_i hp
        injection he with he
        subst he
        obtain ⟨h1, e1, i1, i2⟩ := adopt_ok hi hp hroom
        cases add with
        | true =>
          obtain ⟨h2, g2, e2, c2, i2⟩ := replace_ok (i1 rfl) hd
          refine ⟨h2, g2, ?_, ⟨c2, i2.collected⟩, i2⟩
          simp only [Heap.step]; rw [e1]
          exact e2
        | false =>
          obtain ⟨h2, g2, e2, c2, i2⟩ := replace_ok (i2 rfl) (q := q) (by rw [giveRef_get]; exact hd)
          rw [← giveRef_set] at c2
          refine ⟨h2, g2, ?_, ⟨c2, i2.collected⟩, i2⟩
          simp only [Heap.step]; rw [e1]
          exact e2
      · cases he
  | detach src =>
    simp only [effect] at he
    cases hl : g.get src with
    | none => rw [hl] at he; cases he
    | some p =>
      rw [hl] at he
      simp only [Option.bind_eq_bind, Option.bind_some, Option.some.injEq] at he
      subst he
      obtain ⟨h', e, i⟩ := exchange (p := none) hi hl
      refine fin (h' := h') ⟨⟨?_, ?_⟩, ?_⟩ (by simp only [Heap.step]; rw [read_ok hi.same, hl]; exact e)
      · rw [i.same.vars]; cases p <;> rfl
      · rw [i.same.objs]; cases p <;> rfl
      · refine i.tot.congr (fun a => ?_)
        rw [owners_takeRef, List.count_append, count_toList]
        simp
  | swap a b =>
    simp only [effect] at he
    cases ha : g.get a with
    | none => rw [ha] at he; cases he
    | some p =>
      cases hb : g.get b with
      | none => rw [ha, hb] at he; cases he
      | some q =>
        rw [ha, hb] at he
        simp only [Option.bind_eq_bind, Option.bind_some, Option.some.injEq] at he
        subst he
        obtain ⟨h1, e1, s1, r1⟩ := write_ok hi.same ha q
        have hb' : (g.set a q).get b = some q := by
          by_cases hab : a = b
          · subst hab
            exact get_set_self ha q
          · rw [get_set_ne hab]; exact hb
        obtain ⟨h2, e2, s2, r2⟩ := write_ok s1 hb' p
        refine fin (h' := h2) ⟨s2, ?_⟩ (by
          simp only [Heap.step]; rw [read_ok hi.same, ha, read_ok hi.same, hb]; simp only [Res.ofOption_some, Res.ok_bind]; rw [e1]
          exact e2)
        rw [r2, r1]
        refine hi.tot.congr (fun c => ?_)
        have h1 := set_owners ha q c
        have h2 := set_owners hb' p c
        omega

theorem run_ok : ∀ (ops : List Op) (h : Heap) (g : Graph), Inv h g [] → Ok g ops →
    ∃ h' g', run h ops = .ok h' ∧ Run g ops g' ∧ Inv h' g' []
  | [], h, g, hi, _ => ⟨h, g, rfl, .nil, hi⟩
  | op :: ops, h, g, hi, hok => by
    obtain ⟨h1, h2, h3⟩ := hok
    obtain ⟨g1, he⟩ := Option.isSome_iff_exists.1 h2
    obtain ⟨h', g', e, c, i⟩ := step_ok hi h1 op he
    obtain ⟨h'', g'', e', r, i'⟩ := run_ok ops h' g' i (h3 g' ⟨g1, he, c⟩)
    refine ⟨h'', g'', ?_, .cons ⟨g1, he, c⟩ r, i'⟩
    unfold run
    rw [e]
    exact e'

theorem empty_inv : Inv Heap.empty Graph.empty [] :=
  ⟨⟨rfl, rfl⟩, fun a => by unfold rcs Heap.empty; simp [Graph.owners, Graph.empty]⟩

end Gtl.Intrusive
