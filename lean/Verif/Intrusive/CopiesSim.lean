import Verif.Intrusive.Copies
import Verif.Intrusive.Sim
/-!
# Copies of counted objects: the simulation
-/

namespace Gtl.Intrusive

open Gtl.Spec.Owners
open Gtl.Spec.Copies (Cmd pointers nulls fresh)

/-! ## Owners -/

theorem owners_of_var {g : Graph} {s : Nat} (h : some (some s) ∈ g.vars) : 0 < g.owners s := by
  have := List.count_pos_iff.2 h
  unfold Graph.owners; omega

theorem owners_of_det {g : Graph} {s : Nat} (h : 0 < g.det s) : 0 < g.owners s := by unfold Graph.owners; omega

theorem le_sum_of_mem : ∀ {l : List Nat} {x : Nat}, x ∈ l → x ≤ l.sum
  | [], _, h => by cases h
  | y :: l, x, h => by
    rw [List.sum_cons]
    rcases List.mem_cons.1 h with e | h
    · omega
    · have := le_sum_of_mem h
      omega

theorem sum_zero : ∀ {l : List Nat}, (∀ x ∈ l, x = 0) → l.sum = 0
  | [], _ => rfl
  | y :: l, h => by
    rw [List.sum_cons, h y (List.mem_cons_self ..), sum_zero (fun x hx => h x (List.mem_cons_of_mem _ hx))]

theorem owners_of_mem {g : Graph} {o s : Nat} {fs : List (Option Nat)} (h : g.objs[o]? = some (some fs)) (hm : some s ∈ fs) :
    0 < g.owners s := by
  have h1 := List.count_pos_iff.2 hm
  have h2 : fs.count (some s) ∈ g.objs.map (fun o => o.elim 0 (fun fs => fs.count (some s))) :=
    List.mem_map.2 ⟨some fs, List.mem_of_getElem? h, rfl⟩
  have := le_sum_of_mem h2
  unfold Graph.owners; omega

theorem owners_cases {g : Graph} {s : Nat} (h : 0 < g.owners s) :
    some (some s) ∈ g.vars ∨ 0 < g.det s ∨ ∃ (o : Nat) (fs : List (Option Nat)), g.objs[o]? = some (some fs) ∧ some s ∈ fs := by
  unfold Graph.owners at h
  by_cases h1 : 0 < g.vars.count (some (some s))
  · exact .inl (List.count_pos_iff.1 h1)
  by_cases h2 : 0 < g.det s
  · exact .inr (.inl h2)
  refine .inr (.inr ?_)
  have h3 : 0 < (g.objs.map (fun o => o.elim 0 (fun fs => fs.count (some s)))).sum := by omega
  have h4 : ∃ x ∈ g.objs.map (fun o => o.elim 0 (fun fs => fs.count (some s))), 0 < x := by
    by_contra hc
    push Not at hc
    have : (g.objs.map (fun o => o.elim 0 (fun fs => fs.count (some s)))).sum = 0 :=
      sum_zero (fun x hx => by have := hc x hx; omega)
    omega
  obtain ⟨x, hx, hp⟩ := h4
  obtain ⟨o, ho, rfl⟩ := List.mem_map.1 hx
  obtain ⟨i, hi⟩ := List.getElem?_of_mem ho
  cases o with
  | none => exact absurd hp (Nat.lt_irrefl 0)
  | some fs => exact ⟨i, fs, hi, List.count_pos_iff.1 hp⟩

/-! ## Deaths -/

theorem alive_iff {g : Graph} {o : Nat} : g.alive o = true ↔ ∃ fs, g.objs[o]? = some (some fs) := by
  unfold Graph.alive
  rcases h : g.objs[o]? with _ | _ | fs
  · simp
  · simp
  · simp

theorem Dies.vars {x y : Graph} (h : Dies x y) : y.vars = x.vars ∧ y.det = x.det := by
  obtain ⟨a, -, -, rfl⟩ := h; exact ⟨rfl, rfl⟩

theorem Dies.obj {x y : Graph} (h : Dies x y) {o : Nat} {fs : List (Option Nat)} (hy : y.objs[o]? = some (some fs)) :
    x.objs[o]? = some (some fs) := by
  obtain ⟨a, -, -, rfl⟩ := h
  dsimp only at hy
  by_cases e : a = o
  · subst e
    rw [List.getElem?_set] at hy
    split at hy <;> [skip; exact absurd rfl ‹_›]
    split at hy <;> cases hy
  · rw [List.getElem?_set_ne e] at hy; exact hy

theorem dies_obj {x y : Graph} (h : Relation.ReflTransGen Dies x y) {o : Nat} {fs : List (Option Nat)}
    (hy : y.objs[o]? = some (some fs)) : x.objs[o]? = some (some fs) := by
  induction h with
  | refl => exact hy
  | tail _ h ih => exact ih (Dies.obj h hy)

theorem dies_vars {x y : Graph} (h : Relation.ReflTransGen Dies x y) : y.vars = x.vars ∧ y.det = x.det := by
  induction h with
  | refl => exact ⟨rfl, rfl⟩
  | tail _ h ih => exact ⟨(Dies.vars h).1.trans ih.1, (Dies.vars h).2.trans ih.2⟩

/-- An object that is alive at the end has kept its members. -/
theorem dies_kept {x y : Graph} (h : Relation.ReflTransGen Dies x y) {o : Nat} {fs : List (Option Nat)}
    (hx : x.objs[o]? = some (some fs)) (ha : y.alive o = true) : y.objs[o]? = some (some fs) := by
  obtain ⟨fs', hy⟩ := alive_iff.1 ha
  have := dies_obj h hy
  rw [hx] at this
  injection this with this
  injection this with this
  rw [this]; exact hy

/-- Objects that survive in `F` are alive in all graphs on the way from `G`, if what owns them in `F` is already there. -/
theorem keeps {G F : Graph} (hF : ∀ g'', ¬ Dies F g'') (hv : F.vars = G.vars) (hd : F.det = G.det)
    (ha : ∀ o, F.alive o = true → G.alive o = true)
    (hm : ∀ (o : Nat) (fs : List (Option Nat)) (s : Nat), F.objs[o]? = some (some fs) → some s ∈ fs →
      ∃ (o' : Nat) (fs' : List (Option Nat)), F.alive o' = true ∧ G.objs[o']? = some (some fs') ∧ some s ∈ fs')
    {y : Graph} (h : Relation.ReflTransGen Dies G y) : ∀ o, F.alive o = true → y.alive o = true := by
  induction h with
  | refl => exact ha
  | @tail x y hx h ih =>
    intro o ho
    obtain ⟨s, h1, h2, rfl⟩ := h
    by_cases e : s = o
    · subst e
      exfalso
      have hpos : 0 < F.owners s := by
        rcases Nat.eq_zero_or_pos (F.owners s) with h0 | h0
        · exact absurd ⟨s, ho, h0, rfl⟩ (hF _)
        · exact h0
      obtain ⟨e1, e2⟩ := dies_vars hx
      have : 0 < x.owners s := by
        rcases owners_cases hpos with c | c | ⟨o, fs, c, c'⟩
        · exact owners_of_var (by rw [e1, ← hv]; exact c)
        · exact owners_of_det (by rw [e2, ← hd]; exact c)
        · obtain ⟨o', fs', d1, d2, d3⟩ := hm o fs s c c'
          exact owners_of_mem (dies_kept hx d2 (ih o' d1)) d3
      omega
    · have := ih o ho
      unfold Graph.alive at this ⊢
      dsimp only
      rw [List.getElem?_set_ne e]
      exact this

/-- Changing a member of a survivor, to point to a survivor, commutes with the deaths. -/
theorem dies_set {c i : Nat} {v q : Option Nat} {x y : Graph} (h : Relation.ReflTransGen Dies x y) (hc : y.alive c = true)
    (hv : ∀ s, v = some s → y.alive s = true) (hq : x.get (.mem c i) = some q) :
    Relation.ReflTransGen Dies (x.set (.mem c i) v) (y.set (.mem c i) v) ∧ y.get (.mem c i) = some q := by
  induction h with
  | refl => exact ⟨.refl, hq⟩
  | @tail z y hx h ih =>
    obtain ⟨s, h1, h2, rfl⟩ := h
    have back : ∀ o, ({ z with objs := z.objs.set s none } : Graph).alive o = true → s ≠ o ∧ z.alive o = true := by
      intro o ho
      have hne : s ≠ o := by
        rintro rfl
        obtain ⟨fs, hfs⟩ := alive_iff.1 ho
        dsimp only at hfs
        rw [List.getElem?_set] at hfs
        split at hfs <;> [skip; exact absurd rfl ‹_›]
        split at hfs <;> cases hfs
      refine ⟨hne, ?_⟩
      unfold Graph.alive at ho ⊢
      dsimp only at ho
      rw [List.getElem?_set_ne hne] at ho
      exact ho
    obtain ⟨hsc, hzc⟩ := back c hc
    obtain ⟨i1, i2⟩ := ih hzc (fun t ht => (back t (hv t ht)).2)
    refine ⟨.tail i1 ⟨s, ?_, ?_, ?_⟩, ?_⟩
    · rw [set_alive]; exact h1
    · have := set_owners i2 v s
      have e1 : one v s = 0 := by
        unfold one; rw [if_neg]; intro e; exact (back s (hv s e)).1 rfl
      omega
    · unfold Graph.set
      dsimp only
      congr 1
      apply List.ext_getElem?
      intro j
      rw [List.getElem?_modify, List.getElem?_set, List.getElem?_set, List.getElem?_modify, List.length_modify]
      by_cases ej : s = j
      · subst ej
        rw [if_pos rfl, if_pos rfl]
        by_cases el : s < z.objs.length
        · rw [if_pos el]; simp only [Option.map_eq_map, Option.map_some]; rw [if_neg (fun e => hsc e.symm)]
        · rw [if_neg el]; rfl
      · rw [if_neg ej, if_neg ej]
    · unfold Graph.get at i2 ⊢
      dsimp only at i2 ⊢
      rw [List.getElem?_set_ne hsc]
      exact i2

theorem dies_owners {x y : Graph} (h : Relation.ReflTransGen Dies x y) (s : Nat) : y.owners s ≤ x.owners s := by
  induction h with
  | refl => exact Nat.le_refl _
  | @tail z y _ h ih =>
    obtain ⟨a, h1, h2, rfl⟩ := h
    obtain ⟨fs, hfs⟩ := alive_iff.1 h1
    have := owners_die hfs s
    omega

/-! ## Assignments -/

theorem loop_ok {G : Nat → Graph} {opf : Nat → Op} {n : Nat} {h : Heap} (h0 : Inv h (G 0) [])
    (hroom : ∀ k < n, Room (G k))
    (hstep : ∀ k < n, ∀ y, Relation.ReflTransGen Dies (G k) y → (∀ g'', ¬ Dies y g'') → (∀ x, 0 < y.owners x → y.alive x = true) →
      ∃ y1, effect y (opf k) = some y1 ∧ Relation.ReflTransGen Dies (G (k + 1)) y1) :
    ∀ k ≤ n, ∃ h' g', (List.range k).foldlM (fun h i => h.step (opf i)) h = .ok h' ∧ Relation.ReflTransGen Dies (G k) g' ∧ Inv h' g' []
  | 0, _ => ⟨h, G 0, rfl, .refl, h0⟩
  | k + 1, hk => by
    obtain ⟨h', g', e, c, i⟩ := loop_ok h0 hroom hstep k (by omega)
    obtain ⟨y1, he, c1⟩ := hstep k (by omega) g' c i.collected (fun x hx => by
      obtain ⟨o, ho⟩ := i.alive (a := x) (by omega)
      unfold Graph.alive
      rw [i.same.obj, ho]; rfl)
    have hr : Room g' := fun a => by
      have h1 := dies_owners c a
      have h2 := hroom k (by omega) a
      omega
    obtain ⟨h'', g'', e2, c2, i2⟩ := step_ok i hr (opf k) he
    refine ⟨h'', g'', ?_, c1.trans c2.1, i2⟩
    rw [List.range_succ, List.foldlM_append, e]
    show (do let s ← (Res.ok h' : Res Heap); [k].foldlM _ s) = _
    simp only [Res.ok_bind, List.foldlM_cons, List.foldlM_nil]
    rw [e2]; rfl

/-- The first `k` elements of one list and the others of another. -/
def mix (new old : List (Option Nat)) (k : Nat) : List (Option Nat) := new.take k ++ old.drop k

theorem mix_zero (new old : List (Option Nat)) : mix new old 0 = old := by simp [mix]

theorem mix_all {new old : List (Option Nat)} (hl : old.length = new.length) : mix new old new.length = new := by
  unfold mix; rw [List.take_length, ← hl, List.drop_length, List.append_nil]

theorem mix_length {new old : List (Option Nat)} (hl : old.length = new.length) {k : Nat} (hk : k ≤ new.length) :
    (mix new old k).length = new.length := by
  unfold mix; rw [List.length_append, List.length_take, List.length_drop]; omega

theorem mix_get {new old : List (Option Nat)} {k : Nat} (hk : k ≤ new.length) (i : Nat) :
    (mix new old k)[i]? = if i < k then new[i]? else old[i]? := by
  unfold mix
  split
  · rename_i h
    rw [List.getElem?_append_left (by rw [List.length_take]; omega), List.getElem?_take_of_lt h]
  · rename_i h
    rw [List.getElem?_append_right (by rw [List.length_take]; omega), List.length_take, List.getElem?_drop]
    congr 1; omega

theorem mix_succ {new old : List (Option Nat)} (hl : old.length = new.length) {k : Nat} {p : Option Nat} (hp : new[k]? = some p) :
    (mix new old k).set k p = mix new old (k + 1) := by
  have hk := (List.getElem?_eq_some_iff.1 hp).1
  apply List.ext_getElem?
  intro i
  rw [mix_get (by omega), List.getElem?_set, mix_length hl (by omega), mix_get (by omega)]
  by_cases e : k = i
  · subst e
    rw [if_pos rfl, if_pos hk, if_pos (by omega), hp]
  · rw [if_neg e]
    by_cases h : i < k
    · rw [if_pos h, if_pos (by omega)]
    · rw [if_neg h, if_neg (by omega)]

theorem set_mem_eq {g : Graph} {c i : Nat} {fs : List (Option Nat)} (h : g.objs[c]? = some (some fs)) (p : Option Nat) :
    g.set (.mem c i) p = { g with objs := g.objs.set c (some (fs.set i p)) } := by
  unfold Graph.set
  dsimp only
  congr 1
  apply List.ext_getElem?
  intro j
  rw [List.getElem?_modify, List.getElem?_set]
  by_cases e : c = j
  · subst e
    rw [if_pos rfl, if_pos (List.getElem?_eq_some_iff.1 h).1, h]; simp
  · rw [if_neg e]; simp [e]

theorem get_mem {g : Graph} {c i : Nat} {fs : List (Option Nat)} (h : g.objs[c]? = some (some fs)) : g.get (.mem c i) = fs[i]? := by
  unfold Graph.get; dsimp only; rw [h]; rfl

theorem get_set_obj {l : List (Option (List (Option Nat)))} {c : Nat} {v w : Option (List (Option Nat))} (h : l[c]? = some w) :
    (l.set c v)[c]? = some v := by
  rw [List.getElem?_set, if_pos rfl, if_pos (List.getElem?_eq_some_iff.1 h).1]

/-- `*a = *b` after `k` members. -/
def midCopy (g : Graph) (a : Nat) (old new : List (Option Nat)) (k : Nat) : Graph :=
  { g with objs := g.objs.set a (some (mix new old k)) }

theorem midCopy_a {g : Graph} {a : Nat} {old new : List (Option Nat)} (ha : g.objs[a]? = some (some old)) (k : Nat) :
    (midCopy g a old new k).objs[a]? = some (some (mix new old k)) := get_set_obj ha

theorem midCopy_b {g : Graph} {a b : Nat} {old new : List (Option Nat)} (ha : g.objs[a]? = some (some old))
    (hb : g.objs[b]? = some (some new)) (k : Nat) : (midCopy g a old new k).objs[b]? = some (some new) := by
  by_cases e : a = b
  · subst e
    rw [ha] at hb
    injection hb with hb
    injection hb with hb
    subst hb
    rw [midCopy_a ha]
    unfold mix
    rw [List.take_append_drop]
  · unfold midCopy
    dsimp only
    rw [List.getElem?_set_ne e]; exact hb

theorem midCopy_succ {g : Graph} {a : Nat} {old new : List (Option Nat)} (ha : g.objs[a]? = some (some old))
    (hl : old.length = new.length) {k : Nat} {p : Option Nat} (hp : new[k]? = some p) :
    midCopy g a old new (k + 1) = (midCopy g a old new k).set (.mem a k) p := by
  rw [set_mem_eq (midCopy_a ha k), mix_succ hl hp]
  unfold midCopy
  dsimp only
  rw [List.set_set]

theorem midCopy_zero {g : Graph} {a : Nat} {old new : List (Option Nat)} (ha : g.objs[a]? = some (some old)) :
    midCopy g a old new 0 = g := by
  unfold midCopy
  rw [mix_zero]
  have : g.objs.set a (some old) = g.objs := by
    apply List.ext_getElem?
    intro i
    rw [List.getElem?_set]
    by_cases e : a = i
    · subst e; rw [if_pos rfl, if_pos (List.getElem?_eq_some_iff.1 ha).1, ha]
    · rw [if_neg e]
  rw [this]

theorem midCopy_owners {g : Graph} {a : Nat} {old new : List (Option Nat)} (ha : g.objs[a]? = some (some old))
    (hl : old.length = new.length) : ∀ (k : Nat), k ≤ new.length → ∀ x, (midCopy g a old new k).owners x ≤ g.owners x + k
  | 0, _, x => by rw [midCopy_zero ha]; omega
  | k + 1, hk, x => by
    have ih := midCopy_owners ha hl k (by omega) x
    obtain ⟨p, hp⟩ : ∃ p, new[k]? = some p := ⟨_, List.getElem?_eq_getElem (by omega)⟩
    have hq : (midCopy g a old new k).get (.mem a k) = some ((mix new old k)[k]'(by rw [mix_length hl (by omega)]; omega)) := by
      rw [get_mem (midCopy_a ha k), List.getElem?_eq_getElem]
    have := set_owners hq p x
    rw [← midCopy_succ ha hl hp] at this
    have : one p x ≤ 1 := by unfold one; split <;> omega
    omega

theorem copyTo_ok {h : Heap} {g : Graph} {a b : Nat} {old new : List (Option Nat)} (hi : Inv h g []) (ha : g.objs[a]? = some (some old))
    (hb : g.objs[b]? = some (some new)) (hl : old.length = new.length) (hroom : ∀ x, g.owners x + new.length + 1 < 2 ^ 32)
    (hkeep : ∀ k < new.length, ∀ y, Relation.ReflTransGen Dies (midCopy g a old new k) y → (∀ g'', ¬ Dies y g'') →
      y.alive a = true ∧ y.alive b = true) :
    ∃ h' g', (List.range new.length).foldlM (fun h i => h.step (.assignCopy (.mem a i) (.mem b i))) h = .ok h' ∧
      Collected { g with objs := g.objs.set a (some new) } g' ∧ Inv h' g' [] := by
  obtain ⟨h', g', e, c, i⟩ := loop_ok (G := midCopy g a old new) (opf := fun i => .assignCopy (.mem a i) (.mem b i)) (n := new.length)
    (h := h) (by rw [midCopy_zero ha]; exact hi)
    (fun k hk x => by have := midCopy_owners ha hl k (by omega) x; have := hroom x; omega)
    (fun k hk y hy hn hal => by
      obtain ⟨ya, yb⟩ := hkeep k hk y hy hn
      obtain ⟨p, hp⟩ : ∃ p, new[k]? = some p := ⟨_, List.getElem?_eq_getElem hk⟩
      have hyb := dies_kept hy (midCopy_b ha hb k) yb
      have hq : (midCopy g a old new k).get (.mem a k) = some ((mix new old k)[k]'(by rw [mix_length hl (by omega)]; omega)) := by
        rw [get_mem (midCopy_a ha k), List.getElem?_eq_getElem]
      obtain ⟨d1, d2⟩ := dies_set (v := p) hy ya (fun s hs => hal s (owners_of_mem hyb (by
        rw [← hs]; exact List.mem_of_getElem? hp))) hq
      refine ⟨y.set (.mem a k) p, ?_, by rw [midCopy_succ ha hl hp]; exact d1⟩
      simp only [effect]
      rw [d2, get_mem hyb, hp]; rfl) new.length (Nat.le_refl _)
  refine ⟨h', g', e, ⟨?_, i.collected⟩, i⟩
  have : midCopy g a old new new.length = { g with objs := g.objs.set a (some new) } := by unfold midCopy; rw [mix_all hl]
  rw [← this]; exact c

theorem copyTo_keep {g F : Graph} {a b : Nat} {old new : List (Option Nat)} (ha : g.objs[a]? = some (some old))
    (hb : g.objs[b]? = some (some new))
    (hF : Collected { g with objs := g.objs.set a (some new) } F) (hFa : F.alive a = true) (hFb : F.alive b = true)
    {k : Nat} {y : Graph} (hy : Relation.ReflTransGen Dies (midCopy g a old new k) y) :
    y.alive a = true ∧ y.alive b = true := by
  obtain ⟨hv, hd⟩ := dies_vars hF.1
  have key := keeps (G := midCopy g a old new k) (F := F) hF.2 hv hd (fun o ho => by
      obtain ⟨fs, hfs⟩ := alive_iff.1 ho
      have h1 := dies_obj hF.1 hfs
      dsimp only at h1
      by_cases e : a = o
      · subst e; exact alive_iff.2 ⟨_, midCopy_a ha k⟩
      · rw [List.getElem?_set_ne e] at h1
        refine alive_iff.2 ⟨fs, ?_⟩
        unfold midCopy; dsimp only
        rw [List.getElem?_set_ne e]; exact h1)
    (fun o fs s hfs hs => by
      have h1 := dies_obj hF.1 hfs
      dsimp only at h1
      by_cases e : a = o
      · subst e
        rw [get_set_obj ha] at h1
        injection h1 with h1
        injection h1 with h1
        subst h1
        exact ⟨b, _, hFb, midCopy_b ha hb k, hs⟩
      · rw [List.getElem?_set_ne e] at h1
        refine ⟨o, fs, alive_iff.2 ⟨fs, hfs⟩, ?_, hs⟩
        unfold midCopy; dsimp only
        rw [List.getElem?_set_ne e]; exact h1) hy
  exact ⟨key a hFa, key b hFb⟩

/-- `*a = std::move(*b)` after `k` members. -/
def midMove (g : Graph) (a b : Nat) (old new : List (Option Nat)) (k : Nat) : Graph :=
  { g with objs := (g.objs.set b (some (mix (nulls new) new k))).set a (some (mix new old k)) }

theorem nulls_length (fs : List (Option Nat)) : (nulls fs).length = fs.length := List.length_map ..

theorem nulls_get {fs : List (Option Nat)} {k : Nat} {p : Option Nat} (h : fs[k]? = some p) : (nulls fs)[k]? = some none := by
  unfold nulls; rw [List.getElem?_map, h]; rfl

theorem not_mem_nulls (fs : List (Option Nat)) (s : Nat) : some s ∉ nulls fs := by
  unfold nulls
  intro h
  obtain ⟨x, -, hx⟩ := List.mem_map.1 h
  cases hx

theorem midMove_a {g : Graph} {a b : Nat} {old new : List (Option Nat)} (hab : a ≠ b) (ha : g.objs[a]? = some (some old)) (k : Nat) :
    (midMove g a b old new k).objs[a]? = some (some (mix new old k)) := by
  unfold midMove; dsimp only
  exact get_set_obj (by rw [List.getElem?_set_ne (fun e => hab e.symm)]; exact ha)

theorem midMove_b {g : Graph} {a b : Nat} {old new : List (Option Nat)} (hab : a ≠ b) (hb : g.objs[b]? = some (some new)) (k : Nat) :
    (midMove g a b old new k).objs[b]? = some (some (mix (nulls new) new k)) := by
  unfold midMove; dsimp only
  rw [List.getElem?_set_ne hab]
  exact get_set_obj hb

theorem midMove_other {g : Graph} {a b o : Nat} {old new : List (Option Nat)} (ha : a ≠ o) (hb : b ≠ o) (k : Nat) :
    (midMove g a b old new k).objs[o]? = g.objs[o]? := by
  unfold midMove; dsimp only
  rw [List.getElem?_set_ne ha, List.getElem?_set_ne hb]

theorem set_obj_self {l : List (Option (List (Option Nat)))} {c : Nat} {w : Option (List (Option Nat))} (h : l[c]? = some w) :
    l.set c w = l := by
  apply List.ext_getElem?
  intro i
  rw [List.getElem?_set]
  by_cases e : c = i
  · subst e; rw [if_pos rfl, if_pos (List.getElem?_eq_some_iff.1 h).1, h]
  · rw [if_neg e]

theorem midMove_zero {g : Graph} {a b : Nat} {old new : List (Option Nat)} (ha : g.objs[a]? = some (some old))
    (hb : g.objs[b]? = some (some new)) : midMove g a b old new 0 = g := by
  unfold midMove
  rw [mix_zero, mix_zero, set_obj_self hb, set_obj_self ha]

theorem midMove_succ {g : Graph} {a b : Nat} {old new : List (Option Nat)} (hab : a ≠ b) (ha : g.objs[a]? = some (some old))
    (hb : g.objs[b]? = some (some new)) (hl : old.length = new.length) {k : Nat} {p : Option Nat} (hp : new[k]? = some p) :
    midMove g a b old new (k + 1) = ((midMove g a b old new k).set (.mem b k) none).set (.mem a k) p := by
  rw [set_mem_eq (midMove_b hab hb k), mix_succ (nulls_length new).symm (nulls_get hp)]
  rw [set_mem_eq (fs := mix new old k) (by
    dsimp only; rw [List.getElem?_set_ne (fun e => hab e.symm)]; exact midMove_a hab ha k), mix_succ hl hp]
  unfold midMove
  dsimp only
  congr 1
  rw [List.set_comm _ _ hab, List.set_set, List.set_set]

theorem midMove_gets {g : Graph} {a b : Nat} {old new : List (Option Nat)} (hab : a ≠ b) (ha : g.objs[a]? = some (some old))
    (hb : g.objs[b]? = some (some new)) (hl : old.length = new.length) {k : Nat} {p : Option Nat} (hp : new[k]? = some p) :
    (midMove g a b old new k).get (.mem b k) = some p ∧ ∃ q, ((midMove g a b old new k).set (.mem b k) none).get (.mem a k) = some q := by
  have hk := (List.getElem?_eq_some_iff.1 hp).1
  constructor
  · rw [get_mem (midMove_b hab hb k), mix_get (by rw [nulls_length]; omega), if_neg (by omega)]; exact hp
  · refine ⟨old[k], ?_⟩
    rw [get_set_ne (by intro e; injection e with e; exact hab e.symm), get_mem (midMove_a hab ha k), mix_get (by omega),
      if_neg (by omega), List.getElem?_eq_getElem (by omega)]

theorem midMove_owners {g : Graph} {a b : Nat} {old new : List (Option Nat)} (hab : a ≠ b) (ha : g.objs[a]? = some (some old))
    (hb : g.objs[b]? = some (some new)) (hl : old.length = new.length) :
    ∀ (k : Nat), k ≤ new.length → ∀ x, (midMove g a b old new k).owners x ≤ g.owners x
  | 0, _, x => by rw [midMove_zero ha hb]; exact Nat.le_refl _
  | k + 1, hk, x => by
    have ih := midMove_owners hab ha hb hl k (by omega) x
    obtain ⟨p, hp⟩ : ∃ p, new[k]? = some p := ⟨_, List.getElem?_eq_getElem (by omega)⟩
    obtain ⟨h1, q, h2⟩ := midMove_gets hab ha hb hl hp
    have e1 := set_owners h1 none x
    have e2 := set_owners h2 p x
    rw [← midMove_succ hab ha hb hl hp] at e2
    have : one none x = 0 := rfl
    omega

theorem moveTo_ok {h : Heap} {g : Graph} {a b : Nat} {old new : List (Option Nat)} (hi : Inv h g []) (hab : a ≠ b)
    (ha : g.objs[a]? = some (some old))
    (hb : g.objs[b]? = some (some new)) (hl : old.length = new.length) (hroom : ∀ x, g.owners x + new.length + 1 < 2 ^ 32)
    (hkeep : ∀ k < new.length, ∀ y, Relation.ReflTransGen Dies (midMove g a b old new k) y → (∀ g'', ¬ Dies y g'') →
      y.alive a = true ∧ y.alive b = true) :
    ∃ h' g', (List.range new.length).foldlM (fun h i => h.step (.assignMove (.mem a i) (.mem b i))) h = .ok h' ∧
      Collected { g with objs := (g.objs.set b (some (nulls new))).set a (some new) } g' ∧ Inv h' g' [] := by
  obtain ⟨h', g', e, c, i⟩ := loop_ok (G := midMove g a b old new) (opf := fun i => .assignMove (.mem a i) (.mem b i)) (n := new.length)
    (h := h) (by rw [midMove_zero ha hb]; exact hi)
    (fun k hk x => by have := midMove_owners hab ha hb hl k (by omega) x; have := hroom x; omega)
    (fun k hk y hy hn hal => by
      obtain ⟨ya, yb⟩ := hkeep k hk y hy hn
      obtain ⟨p, hp⟩ : ∃ p, new[k]? = some p := ⟨_, List.getElem?_eq_getElem hk⟩
      obtain ⟨h1, q, h2⟩ := midMove_gets hab ha hb hl hp
      have hyb := dies_kept hy (midMove_b hab hb k) yb
      have hyp : y.get (.mem b k) = some p := by
        rw [get_mem hyb, ← get_mem (midMove_b hab hb k)]; exact h1
      obtain ⟨d1, d2⟩ := dies_set (v := none) hy yb (fun s hs => by cases hs) h1
      obtain ⟨d3, d4⟩ := dies_set (v := p) d1 (by rw [set_alive]; exact ya) (fun s hs => by
        rw [set_alive]
        refine hal s (owners_of_mem hyb ?_)
        rw [get_mem hyb, hs] at hyp
        exact List.mem_of_getElem? hyp) h2
      have hne : Loc.mem a k ≠ Loc.mem b k := by intro e; injection e with e; exact hab e
      refine ⟨(y.set (.mem b k) none).set (.mem a k) p, ?_, by rw [midMove_succ hab ha hb hl hp]; exact d3⟩
      rw [get_set_ne (fun e => hne e.symm)] at d4
      simp only [effect]
      rw [d4, hyp]
      simp only [Option.bind_eq_bind, Option.bind_some]
      rw [if_neg hne]) new.length (Nat.le_refl _)
  refine ⟨h', g', e, ⟨?_, i.collected⟩, i⟩
  have : midMove g a b old new new.length = { g with objs := (g.objs.set b (some (nulls new))).set a (some new) } := by
    unfold midMove
    rw [mix_all hl]
    have := mix_all (new := nulls new) (old := new) (nulls_length new).symm
    rw [nulls_length] at this
    rw [this]
  rw [← this]; exact c

theorem moveTo_keep {g F : Graph} {a b : Nat} {old new : List (Option Nat)} (hab : a ≠ b) (ha : g.objs[a]? = some (some old))
    (hb : g.objs[b]? = some (some new))
    (hF : Collected { g with objs := (g.objs.set b (some (nulls new))).set a (some new) } F) (hFa : F.alive a = true) (hFb : F.alive b = true)
    {k : Nat} (hk : k < new.length) {y : Graph} (hy : Relation.ReflTransGen Dies (midMove g a b old new k) y) :
    y.alive a = true ∧ y.alive b = true := by
  obtain ⟨hv, hd⟩ := dies_vars hF.1
  have hba : b ≠ a := fun e => hab e.symm
  have key := keeps (G := midMove g a b old new k) (F := F) hF.2 hv hd (fun o ho => by
      obtain ⟨fs, hfs⟩ := alive_iff.1 ho
      have h1 := dies_obj hF.1 hfs
      dsimp only at h1
      by_cases e : a = o
      · subst e; exact alive_iff.2 ⟨_, midMove_a hab ha k⟩
      by_cases e' : b = o
      · subst e'; exact alive_iff.2 ⟨_, midMove_b hab hb k⟩
      · rw [List.getElem?_set_ne e, List.getElem?_set_ne e'] at h1
        exact alive_iff.2 ⟨fs, by rw [midMove_other e e']; exact h1⟩)
    (fun o fs s hfs hs => by
      have h1 := dies_obj hF.1 hfs
      dsimp only at h1
      by_cases e : a = o
      · subst e
        rw [get_set_obj (by rw [List.getElem?_set_ne hba]; exact ha)] at h1
        injection h1 with h1
        injection h1 with h1
        subst h1
        obtain ⟨i, hi⟩ := List.getElem?_of_mem hs
        by_cases hik : i < k
        · refine ⟨a, _, hFa, midMove_a hab ha k, List.mem_of_getElem? (i := i) ?_⟩
          rw [mix_get (by omega), if_pos hik]; exact hi
        · refine ⟨b, _, hFb, midMove_b hab hb k, List.mem_of_getElem? (i := i) ?_⟩
          rw [mix_get (by rw [nulls_length]; omega), if_neg hik]; exact hi
      by_cases e' : b = o
      · subst e'
        rw [List.getElem?_set_ne e, get_set_obj hb] at h1
        injection h1 with h1
        injection h1 with h1
        subst h1
        exact absurd hs (not_mem_nulls _ _)
      · rw [List.getElem?_set_ne e, List.getElem?_set_ne e'] at h1
        refine ⟨o, fs, alive_iff.2 ⟨fs, hfs⟩, ?_, hs⟩
        rw [midMove_other e e']; exact h1) hy
  exact ⟨key a hFa, key b hFb⟩

/-- `*a = std::move(*a)`. -/
theorem moveSelf_ok {h : Heap} {g : Graph} {a : Nat} {old : List (Option Nat)} (hi : Inv h g []) (ha : g.objs[a]? = some (some old)) :
    ∀ k ≤ old.length, (List.range k).foldlM (fun h i => h.step (.assignMove (.mem a i) (.mem a i))) h = .ok h
  | 0, _ => rfl
  | k + 1, hk => by
    rw [List.range_succ, List.foldlM_append, moveSelf_ok hi ha k (by omega)]
    simp only [Res.ok_bind, List.foldlM_cons, List.foldlM_nil, Heap.step, if_true]
    rw [read_ok hi.same, get_mem ha, List.getElem?_eq_getElem (by omega)]
    rfl

/-! ## New objects -/

theorem enter_ok {h : Heap} {g : Graph} {fs : List (Option Nat)} (hi : Inv h g (fs.filterMap id)) :
    ∃ h', h.enter fs = .ok h' ∧
      Inv h' { g with objs := g.objs ++ [some fs], vars := g.vars ++ [some (some g.objs.length)] } [] := by
  have hlen : h.objs.length = g.objs.length := by rw [← hi.same.objs, List.length_map]
  refine ⟨{ objs := h.objs ++ [some { rc := 1, mem := fs }], vars := h.vars ++ [some (some h.objs.length)] }, ?_, ⟨?_, ?_⟩, ?_⟩
  · simp only [Heap.enter, Heap.addRef]
    rw [List.getElem?_append_right (Nat.le_refl _), Nat.sub_self]
    simp only [List.getElem?_cons_zero, Res.ok_bind]
    unfold Heap.declare
    dsimp only
    rw [List.set_append_right _ _ (Nat.le_refl _), Nat.sub_self]
    rfl
  · dsimp only; rw [hi.same.vars, hlen]
  · dsimp only; rw [List.map_append, hi.same.objs]; rfl
  · intro b
    have hb := hi.tot b
    unfold rcs at hb ⊢
    dsimp only at hb ⊢
    have hcount : (fs.filterMap id).count b = fs.count (some b) := by
      clear hi hb
      induction fs with
      | nil => rfl
      | cons x l ih =>
        cases x with
        | none => simpa using ih
        | some y =>
          have : (some y :: l).filterMap id = y :: l.filterMap id := rfl
          rw [this, List.count_cons, List.count_cons, ih]
          simp
    have ho : ({ objs := g.objs ++ [some fs], vars := g.vars ++ [some (some g.objs.length)], det := g.det } : Graph).owners b
        = g.owners b + (fs.filterMap id).count b + one (some g.objs.length) b := by
      have h1 := owners_declare g (some g.objs.length) b
      unfold Graph.owners Graph.declare at h1
      unfold Graph.owners
      dsimp only at h1 ⊢
      rw [List.map_append, List.sum_append, hcount]
      simp only [List.map_cons, List.map_nil, Option.elim_some, List.sum_cons, List.sum_nil]
      omega
    rw [ho, List.map_append]
    simp only [List.count_nil, Nat.add_zero]
    rcases Nat.lt_trichotomy b h.objs.length with hlt | heq | hgt
    · rw [List.getElem?_append_left (by rw [List.length_map]; exact hlt)]
      have : one (some g.objs.length) b = 0 := by
        unfold one; rw [if_neg]; intro e; injection e with e; omega
      rw [this]
      exact hb
    · subst heq
      rw [List.getElem?_eq_none (by rw [List.length_map]; exact Nat.le_refl _)] at hb
      rw [List.getElem?_append_right (by rw [List.length_map]; exact Nat.le_refl _), List.length_map, Nat.sub_self]
      have : one (some g.objs.length) h.objs.length = 1 := by
        unfold one; rw [if_pos (by rw [hlen])]
      rw [this]
      have hb' : g.owners h.objs.length + (fs.filterMap id).count h.objs.length = 0 := hb
      refine ⟨show 1 = _ + 1 from ?_, Nat.one_pos, show 1 < 2 ^ 32 by decide⟩
      omega
    · rw [List.getElem?_eq_none (by rw [List.length_map]; omega)] at hb
      rw [List.getElem?_eq_none (by rw [List.length_append, List.length_map]; simp; omega)]
      have : one (some g.objs.length) b = 0 := by
        unfold one; rw [if_neg]; intro e; injection e with e; omega
      rw [this]
      exact hb

theorem take_succ_get {fs : List (Option Nat)} {k : Nat} {p : Option Nat} (hp : fs[k]? = some p) : fs.take (k + 1) = fs.take k ++ [p] := by
  rw [List.take_add_one, hp]; rfl

theorem pend_succ (l : List (Option Nat)) (p : Option Nat) : ((l ++ [p]).filterMap id).Perm (p.toList ++ l.filterMap id) := by
  rw [List.filterMap_append]
  have : [p].filterMap id = p.toList := by cases p <;> rfl
  rw [this]
  exact List.perm_append_comm

theorem copyMembers_ok {h : Heap} {g : Graph} {b : Nat} {fs : List (Option Nat)} (hi : Inv h g []) (hb : g.objs[b]? = some (some fs))
    (hroom : ∀ x, g.owners x + fs.length + 1 < 2 ^ 32) :
    ∀ k ≤ fs.length, ∃ h', (List.range k).foldlM (Heap.copyMember b) (h, []) = .ok (h', fs.take k) ∧ Inv h' g ((fs.take k).filterMap id)
  | 0, _ => ⟨h, rfl, hi⟩
  | k + 1, hk => by
    obtain ⟨h', e, i⟩ := copyMembers_ok hi hb hroom k (by omega)
    obtain ⟨p, hp⟩ : ∃ p, fs[k]? = some p := ⟨_, List.getElem?_eq_getElem (by omega)⟩
    obtain ⟨h'', e2, i2⟩ := addRef_ok i (p := p) (fun a ha => by
        obtain ⟨o, ho⟩ := hi.alive (a := a) (by
          have := owners_of_mem hb (s := a) (by rw [← ha]; exact List.mem_of_getElem? hp)
          omega)
        unfold Graph.alive
        rw [hi.same.obj, ho]; rfl) (fun a => by
      have h1 := hroom a
      have h2 : ((fs.take k).filterMap id).count a ≤ k := by
        refine Nat.le_trans List.count_le_length (Nat.le_trans (List.length_filterMap_le ..) ?_)
        rw [List.length_take]; omega
      omega)
    refine ⟨h'', ?_, ?_⟩
    · rw [List.range_succ, List.foldlM_append, e]
      simp only [Res.ok_bind, List.foldlM_cons, List.foldlM_nil, Heap.copyMember]
      rw [read_ok i.same, get_mem hb, hp]
      simp only [Res.ofOption_some, Res.ok_bind]
      rw [e2, take_succ_get hp]
      rfl
    · rw [take_succ_get hp]
      exact i2.perm (pend_succ _ _)

/-- `new T(std::move(*b))` after `k` members. -/
def midNew (g : Graph) (b : Nat) (fs : List (Option Nat)) (k : Nat) : Graph :=
  { g with objs := g.objs.set b (some (mix (nulls fs) fs k)) }

theorem moveMembers_ok {h : Heap} {g : Graph} {b : Nat} {fs : List (Option Nat)} (hi : Inv h g []) (hb : g.objs[b]? = some (some fs)) :
    ∀ k ≤ fs.length, ∃ h', (List.range k).foldlM (Heap.moveMember b) (h, []) = .ok (h', fs.take k) ∧
      Inv h' (midNew g b fs k) ((fs.take k).filterMap id)
  | 0, _ => ⟨h, rfl, by unfold midNew; rw [mix_zero, set_obj_self hb]; exact hi⟩
  | k + 1, hk => by
    obtain ⟨h', e, i⟩ := moveMembers_ok hi hb k (by omega)
    obtain ⟨p, hp⟩ : ∃ p, fs[k]? = some p := ⟨_, List.getElem?_eq_getElem (by omega)⟩
    have hmb : (midNew g b fs k).objs[b]? = some (some (mix (nulls fs) fs k)) := get_set_obj hb
    have hg : (midNew g b fs k).get (.mem b k) = some p := by
      rw [get_mem hmb, mix_get (by rw [nulls_length]; omega), if_neg (by omega)]; exact hp
    obtain ⟨h'', e2, i2⟩ := exchange (p := none) i hg
    have hs : (midNew g b fs k).set (.mem b k) none = midNew g b fs (k + 1) := by
      rw [set_mem_eq hmb, mix_succ (nulls_length fs).symm (nulls_get hp)]
      unfold midNew
      dsimp only
      rw [List.set_set]
    rw [hs] at i2
    refine ⟨h'', ?_, ?_⟩
    · rw [List.range_succ, List.foldlM_append, e]
      simp only [Res.ok_bind, List.foldlM_cons, List.foldlM_nil, Heap.moveMember]
      rw [read_ok i.same, hg]
      simp only [Res.ofOption_some, Res.ok_bind]
      rw [e2, take_succ_get hp]
      rfl
    · rw [take_succ_get hp]
      exact i2.perm (pend_succ _ _)

/-! ## Commands -/

theorem width_ok {h : Heap} {g : Graph} (hs : Same h g) {a : Nat} {fs : List (Option Nat)} (ha : g.objs[a]? = some (some fs)) :
    h.width a = .ok fs.length := by
  have := hs.obj a
  rw [ha] at this
  unfold Heap.width
  rcases ho : h.objs[a]? with _ | _ | o
  · rw [ho] at this; cases this
  · rw [ho] at this; cases this
  · rw [ho] at this
    simp only [Option.map_some, Option.some.injEq] at this
    rw [this]

theorem pointers_some {g : Graph} {a : Nat} {fs : List (Option Nat)} (h : pointers g a = some fs) : g.objs[a]? = some (some fs) := by
  unfold pointers at h
  rcases ho : g.objs[a]? with _ | _ | o
  · rw [ho] at h; cases h
  · rw [ho] at h; cases h
  · rw [ho] at h; simp only [Option.join_some] at h; rw [h]

theorem stays {x y : Graph} (hn : ∀ g'', ¬ Dies x g'') (hxy : Relation.ReflTransGen Dies x y) : y = x := by
  rcases Relation.ReflTransGen.cases_head hxy with e | ⟨z, hz, -⟩
  · exact e.symm
  · exact absurd hz (hn z)

theorem command_ok {h : Heap} {g g1 : Graph} (hi : Inv h g []) (c : Cmd) (hroom : Spec.Copies.Room g c)
    (hsurv : Spec.Copies.Survive g c) (he : Spec.Copies.effect g c = some g1) :
    ∃ h' g', h.command c = .ok h' ∧ Collected g1 g' ∧ Inv h' g' [] := by
  cases c with
  | op o => exact step_ok hi hroom o he
  | copyNew b =>
    simp only [Spec.Copies.effect] at he
    cases hp : pointers g b with
    | none => rw [hp] at he; cases he
    | some fs =>
      rw [hp] at he
      simp only [Option.bind_eq_bind, Option.bind_some, Option.some.injEq] at he
      subst he
      have hb := pointers_some hp
      have hr : ∀ x, g.owners x + fs.length + 1 < 2 ^ 32 := fun x => by
        have := hroom x
        simp only [fresh, hp, Option.getD_some] at this
        omega
      obtain ⟨h1, e1, i1⟩ := copyMembers_ok hi hb hr fs.length (Nat.le_refl _)
      rw [List.take_length] at e1 i1
      obtain ⟨h2, e2, i2⟩ := enter_ok i1
      refine ⟨h2, _, ?_, ⟨.refl, i2.collected⟩, i2⟩
      simp only [Heap.command]
      rw [width_ok hi.same hb]
      simp only [Res.ok_bind]
      rw [e1]
      exact e2
  | moveNew b =>
    simp only [Spec.Copies.effect] at he
    cases hp : pointers g b with
    | none => rw [hp] at he; cases he
    | some fs =>
      rw [hp] at he
      simp only [Option.bind_eq_bind, Option.bind_some, Option.some.injEq] at he
      subst he
      have hb := pointers_some hp
      obtain ⟨h1, e1, i1⟩ := moveMembers_ok hi hb fs.length (Nat.le_refl _)
      rw [List.take_length] at e1 i1
      obtain ⟨h2, e2, i2⟩ := enter_ok i1
      have hm : mix (nulls fs) fs fs.length = nulls fs := by
        have := mix_all (new := nulls fs) (old := fs) (nulls_length fs).symm
        rw [nulls_length] at this
        exact this
      unfold midNew at i2
      dsimp only at i2
      rw [hm, List.length_set] at i2
      refine ⟨h2, _, ?_, ⟨.refl, i2.collected⟩, i2⟩
      simp only [Heap.command]
      rw [width_ok hi.same hb]
      simp only [Res.ok_bind]
      rw [e1]
      exact e2
  | copyTo a b =>
    have hst := he
    simp only [Spec.Copies.effect] at he
    cases hpa : pointers g a with
    | none => rw [hpa] at he; cases he
    | some old =>
      cases hpb : pointers g b with
      | none => rw [hpa, hpb] at he; cases he
      | some new =>
        rw [hpa, hpb] at he
        simp only [Option.bind_eq_bind, Option.bind_some] at he
        split at he
        · rename_i hl
          injection he with he
          subst he
          have ha := pointers_some hpa
          have hb := pointers_some hpb
          obtain ⟨h1, g', e1, c1, i1⟩ := copyTo_ok hi ha hb hl (fun x => by
              have := hroom x
              simp only [fresh, hpb, Option.getD_some] at this
              omega) (fun k hk y hy hn => by
            simp only [Spec.Copies.Survive, hpb, Option.getD_some] at hsurv
            rcases hsurv with hs | ⟨F, ⟨gF, hgF, hF⟩, hFa, hFb⟩
            · have : k = 0 := by omega
              subst this
              rw [midCopy_zero ha] at hy
              rw [stays hi.collected hy]
              exact ⟨alive_iff.2 ⟨_, ha⟩, alive_iff.2 ⟨_, hb⟩⟩
            · rw [hst] at hgF
              injection hgF with hgF
              subst hgF
              exact copyTo_keep ha hb hF hFa hFb hy)
          refine ⟨h1, g', ?_, c1, i1⟩
          simp only [Heap.command]
          rw [width_ok hi.same ha, hl]
          exact e1
        · cases he
  | moveTo a b =>
    have hst := he
    simp only [Spec.Copies.effect] at he
    cases hpa : pointers g a with
    | none => rw [hpa] at he; cases he
    | some old =>
      cases hpb : pointers g b with
      | none => rw [hpa, hpb] at he; cases he
      | some new =>
        rw [hpa, hpb] at he
        simp only [Option.bind_eq_bind, Option.bind_some] at he
        split at he
        · rename_i hl
          injection he with he
          subst he
          have ha := pointers_some hpa
          have hb := pointers_some hpb
          by_cases hab : a = b
          · subst hab
            refine ⟨h, g, ?_, by rw [if_pos rfl]; exact ⟨.refl, hi.collected⟩, hi⟩
            simp only [Heap.command]
            rw [width_ok hi.same ha]
            exact moveSelf_ok hi ha _ (Nat.le_refl _)
          · rw [if_neg hab] at hst ⊢
            obtain ⟨h1, g', e1, c1, i1⟩ := moveTo_ok hi hab ha hb hl (fun x => by
                have := hroom x
                simp only [fresh, hpb, Option.getD_some] at this
                omega) (fun k hk y hy hn => by
              simp only [Spec.Copies.Survive, hpb, Option.getD_some] at hsurv
              rcases hsurv with hs | ⟨F, ⟨gF, hgF, hF⟩, hFa, hFb⟩
              · have : k = 0 := by omega
                subst this
                rw [midMove_zero ha hb] at hy
                rw [stays hi.collected hy]
                exact ⟨alive_iff.2 ⟨_, ha⟩, alive_iff.2 ⟨_, hb⟩⟩
              · rw [hst] at hgF
                injection hgF with hgF
                subst hgF
                exact moveTo_keep hab ha hb hF hFa hFb hk hy)
            refine ⟨h1, g', ?_, c1, i1⟩
            simp only [Heap.command]
            rw [width_ok hi.same ha, hl]
            exact e1
        · cases he

theorem commands_ok : ∀ (cs : List Cmd) (h : Heap) (g : Graph), Inv h g [] → Spec.Copies.Ok g cs →
    ∃ h' g', commands h cs = .ok h' ∧ Spec.Copies.Run g cs g' ∧ Inv h' g' []
  | [], h, g, hi, _ => ⟨h, g, rfl, .nil, hi⟩
  | c :: cs, h, g, hi, hok => by
    obtain ⟨h1, h2, h3, h4⟩ := hok
    obtain ⟨g1, he⟩ := Option.isSome_iff_exists.1 h2
    obtain ⟨h', g', e, d, i⟩ := command_ok hi c h1 h3 he
    obtain ⟨h'', g'', e', r, i'⟩ := commands_ok cs h' g' i (h4 g' ⟨g1, he, d⟩)
    refine ⟨h'', g'', ?_, .cons ⟨g1, he, d⟩ r, i'⟩
    unfold commands
    rw [e]
    exact e'

end Gtl.Intrusive
