import Verif.Utils.ScopedThrow
/-!
# Property theorems C119: the scoped helpers when operations of the type throw
-/

namespace Gtl.Props.ScopedThrow

open Gtl.ScopedThrow

variable {α : Type}

/-- A type like `std::string`: copying may throw, moving does not. -/
def stringTraits : Traits := ⟨false, true, false⟩
/-- A type like `std::shared_ptr`: copying and moving do not throw, but assigning something else may. -/
def pointerTraits : Traits := ⟨true, true, true⟩
/-- Strings: a move empties the source, an assignment that throws does nothing. -/
def stringLeaves : Leaves String := ⟨fun _ => "", id, id⟩
/-- The assignment of the new value throws. -/
def assignFails : Faults := { Faults.none with assign := true }
/-- Types whose operations do nothing when they throw. -/
def AllOrNothing (L : Leaves α) : Prop := (∀ a, L.src a = a) ∧ ∀ a, L.dst a = a

/-! ## scoped_set_value -/

/-- If nothing throws but the body, the body runs with the new value, the exception of the body leaves the scope, and the variable
is what it was, whatever the body did to it; if the object was dismissed or did nothing, it is what the body made of it. -/
theorem C119_restores (T : Traits) (L : Leaves α) (f : Faults) (blank var val : α) (doIt : Bool) (b : Body α)
    (h0 : f.dflt = false) (h1 : doIt = true → f.save = false ∧ f.assign = false ∧ f.restore = false) :
    scope T L f blank var val doIt b =
      (true, if b.throws then .threw else .normal, if doIt then (if b.dismisses then b.run val else var) else b.run var) := by
  unfold scope ctor dtor
  cases doIt with
  | false => simp [h0]
  | true =>
    obtain ⟨h1, h2, h3⟩ := h1 rfl
    cases hd : b.dismisses <;> simp [h0, h1, h2, h3]

example : scope stringTraits stringLeaves Faults.none "" "old" "new" true ⟨fun s => s ++ "!", true, false⟩ = (true, .threw, "old") := by
  decide

/-- If making the object fails, the body does not run and the variable is left as follows: untouched if the default constructor
threw; what the failed move left of it if the old value could not be saved; and what a failed assignment leaves of a
moved-from object if the new value could not be assigned. -/
theorem C119_construct (T : Traits) (L : Leaves α) (f : Faults) (blank var val : α) (doIt : Bool) (b : Body α) {ran : Bool} {e : End}
    {v : α} (h : scope T L f blank var val doIt b = (ran, e, v)) :
    (ran = false ↔ f.dflt = true ∨ (doIt = true ∧ (f.save = true ∨ f.assign = true))) ∧
    (f.dflt = true → v = var) ∧
    (f.dflt = false → doIt = true → f.save = true → v = L.src var) ∧
    (f.dflt = false → doIt = true → f.save = false → f.assign = true → v = L.dst (L.moved var)) ∧
    (ran = false → (e = .terminated ↔ T.copyCtor = true ∧ T.moveAssign = true) ∧ e ≠ .normal) := by
  unfold scope ctor at h
  obtain ⟨d, s, a, r, i, c⟩ := f
  obtain ⟨c1, c2, c3⟩ := T
  cases d <;> cases doIt <;> cases s <;> cases a <;> cases c1 <;> cases c2 <;>
    simp only [raise, Bool.and_true, Bool.and_false, Bool.false_eq_true, if_true, if_false, Bool.not_true, Bool.not_false,
      Prod.mk.injEq] at h <;> (try split at h) <;> (try simp only [Prod.mk.injEq] at h) <;>
      obtain ⟨rfl, rfl, rfl⟩ := h <;> simp

/-- The variable is lost: making the object throws, the caller catches the exception, and the variable is empty although each
operation of the type does nothing when it throws. -/
theorem C119_set_value_refuted : ∃ (T : Traits) (L : Leaves String) (f : Faults) (b : Body String),
    AllOrNothing L ∧ Truthful T .lvalue f ∧ scope T L f "" "precious" "new" true b = (false, .threw, "") :=
  ⟨stringTraits, stringLeaves, assignFails, ⟨id, false, false⟩, ⟨fun _ => rfl, fun _ => rfl⟩,
    ⟨fun _ => rfl, fun _ => rfl, (by intro _ h; cases h), (by intro h; cases h)⟩, by decide⟩

/-- It is kept if a failed operation of the type does nothing, and either the assignment of the new value cannot fail or moving is
copying. -/
theorem C119_set_value_partial (T : Traits) (L : Leaves α) (f : Faults) (blank var val : α) (doIt : Bool) (b : Body α)
    (hL : AllOrNothing L) (hk : f.assign = false ∨ L.moved var = var) {e : End} {v : α}
    (h : scope T L f blank var val doIt b = (false, e, v)) : v = var ∧ (e = .threw ∨ e = .terminated) := by
  obtain ⟨h1, h2, h3, h4, h5⟩ := C119_construct T L f blank var val doIt b h
  constructor
  · cases hd : f.dflt with
    | true => exact h2 hd
    | false =>
      rcases h1.1 rfl with h | ⟨hdo, h⟩
      · rw [hd] at h; cases h
      · cases hs : f.save with
        | true => rw [h3 hd hdo hs, hL.1]
        | false =>
          rcases h with h | h
          · rw [hs] at h; cases h
          · rw [h4 hd hdo hs h, hL.2]
            rcases hk with hk | hk
            · rw [h] at hk; cases hk
            · exact hk
  · have := (h5 rfl).2
    cases e
    · exact absurd rfl this
    · exact .inl rfl
    · exact .inr rfl

/-- Copies instead of moves: the assignment fails, the variable stays. -/
example : scope (α := String) ⟨false, false, false⟩ ⟨id, id, id⟩ assignFails "" "precious" "new" true ⟨id, false, false⟩ =
    (false, .threw, "precious") := by decide

/-- The program ends, although the exception could be caught and the type keeps all its promises: the constructor is declared
`noexcept` by looking at copying and moving, but assigns something else. -/
theorem C119_terminate_refuted : ∃ (T : Traits) (L : Leaves String) (f : Faults) (b : Body String),
    Truthful T .other f ∧ (scope T L f "" "precious" "new" true b).2.1 = .terminated :=
  ⟨pointerTraits, stringLeaves, assignFails, ⟨id, false, false⟩,
    ⟨fun _ => rfl, fun _ => rfl, (by intro _ h; cases h), (by intro _ h; cases h)⟩, by decide⟩

/-- When it does not: the new value has the type of the variable, moving does not throw when the type says so, a type that is copied
without exceptions is also assigned without, and the default constructor and the move back do not throw. -/
theorem C119_terminate_partial (T : Traits) (L : Leaves α) (g : Given) (f : Faults) (blank var val : α) (doIt : Bool) (b : Body α)
    (hT : Truthful T g f) (hg : g ≠ .other) (hc : T.copyCtor = true → T.copyAssign = true) (hd : f.dflt = false)
    (hr : f.restore = false) : (scope T L f blank var val doIt b).2.1 ≠ .terminated := by
  generalize h : scope T L f blank var val doIt b = o
  obtain ⟨ran, e, v⟩ := o
  obtain ⟨h1, _, _, _, h5⟩ := C119_construct T L f blank var val doIt b h
  simp only
  intro he
  subst he
  cases hran : ran with
  | false =>
    obtain ⟨k1, k2⟩ := (h5 hran).1.1 rfl
    rcases h1.1 hran with k | ⟨_, k | k⟩
    · rw [hd] at k; cases k
    · rw [hT.save k2] at k; cases k
    · cases g with
      | lvalue => rw [hT.copy (hc k1) rfl] at k; cases k
      | rvalue => rw [hT.move k2 rfl] at k; cases k
      | other => exact hg rfl
  | true =>
    subst hran
    unfold scope at h
    split at h
    · have hx : ∀ v old d, ∃ x, dtor L f v old d = some x := by
        intro v old d
        unfold dtor
        rw [hr]
        cases d
        · exact ⟨_, rfl⟩
        · exact ⟨_, rfl⟩
      next v0 old0 _ =>
      obtain ⟨x, hx⟩ := hx (b.run v0) old0 (doIt && !b.dismisses)
      rw [hx] at h
      simp only [Prod.mk.injEq] at h
      have h6 := h.2.1
      split at h6 <;> cases h6
    · simp at h

example : Truthful stringTraits .lvalue assignFails ∧
    (scope stringTraits stringLeaves assignFails "" "precious" "new" true ⟨id, false, false⟩).2.1 = .threw :=
  ⟨⟨fun _ => rfl, fun _ => rfl, (by intro _ h; cases h), (by intro h; cases h)⟩, by decide⟩

/-- A move back that throws always ends the program, unless the object was dismissed or did nothing. -/
theorem C119_restore_throws (T : Traits) (L : Leaves α) (f : Faults) (blank var val : α) (b : Body α)
    (h0 : f.dflt = false) (h1 : f.save = false) (h2 : f.assign = false) (hr : f.restore = true) :
    (scope T L f blank var val true b).2.1 = .terminated ↔ b.dismisses = false := by
  unfold scope ctor dtor
  cases hd : b.dismisses <;> cases ht : b.throws <;> simp [h0, h1, h2, hr]

example : (scope stringTraits stringLeaves { Faults.none with restore := true } "" "old" "new" true ⟨id, false, false⟩).2.1 =
    .terminated := by decide

/-! ## replace and change -/

/-- `replace` returns the old value and sets the new one, or throws; if it throws because the new value could not be assigned, the
variable is what a failed assignment leaves of a moved-from object, and the old value is nowhere. -/
theorem C119_replace (T : Traits) (L : Leaves α) (f : Faults) (var val : α) :
    (f.init = false → f.assign = false → replace T L f var val = (.normal, val, some var)) ∧
    (f.init = true → replace T L f var val = (raise (T.moveAssign && T.copyAssign), L.src var, none)) ∧
    (f.init = false → f.assign = true → replace T L f var val = (raise (T.moveAssign && T.copyAssign), L.dst (L.moved var), none)) := by
  unfold replace
  refine ⟨fun h1 h2 => by simp [h1, h2], fun h1 => by simp [h1], fun h1 h2 => by simp [h1, h2]⟩

/-- `replace` loses the value. -/
theorem C119_replace_refuted : ∃ (T : Traits) (L : Leaves String) (f : Faults),
    AllOrNothing L ∧ Truthful T .lvalue f ∧ replace T L f "precious" "new" = (.threw, "", none) :=
  ⟨stringTraits, stringLeaves, assignFails, ⟨fun _ => rfl, fun _ => rfl⟩,
    ⟨fun _ => rfl, fun _ => rfl, (by intro _ h; cases h), (by intro h; cases h)⟩, by decide⟩

/-- `change` never loses the value: when it throws, the variable is as before if a failed assignment does nothing; when it does not
throw, the variable has the new value and the answer says whether it had another one. -/
theorem C119_change [DecidableEq α] (T : Traits) (L : Leaves α) (f : Faults) (var val : α) (hL : AllOrNothing L) :
    (∃ e, change T L f var val = (e, var, none) ∧ e ≠ .normal ∧ (f.compare = true ∨ (var ≠ val ∧ f.assign = true))) ∨
    (change T L f var val = (.normal, val, some (decide (var ≠ val))) ∧ f.compare = false ∧ (var = val ∨ f.assign = false)) := by
  have hne : ∀ b, raise b ≠ .normal := by intro b; cases b <;> simp [raise]
  unfold change
  cases hc : f.compare with
  | true => exact .inl ⟨_, rfl, hne _, .inl rfl⟩
  | false =>
    by_cases hv : var = val
    · subst hv; exact .inr ⟨by simp, rfl, .inl rfl⟩
    · cases ha : f.assign with
      | true => exact .inl ⟨raise (T.moveAssign && T.copyAssign), by simp [hv, hL.2], hne _, .inr ⟨hv, rfl⟩⟩
      | false => exact .inr ⟨by simp [hv], rfl, .inr rfl⟩

example : change stringTraits stringLeaves assignFails "precious" "new" = (.threw, "precious", none) ∧ AllOrNothing stringLeaves :=
  ⟨by decide, fun _ => rfl, fun _ => rfl⟩

/-- A comparison that throws ends the program if the type promises that its assignments do not. -/
theorem C119_change_terminates : ∃ (T : Traits) (L : Leaves String) (f : Faults), Truthful T .lvalue f ∧
    (change T L f "precious" "new").1 = .terminated :=
  ⟨pointerTraits, stringLeaves, { Faults.none with compare := true }, ⟨fun _ => rfl, fun _ => rfl, fun _ _ => rfl, fun _ _ => rfl⟩,
    by decide⟩

end Gtl.Props.ScopedThrow
