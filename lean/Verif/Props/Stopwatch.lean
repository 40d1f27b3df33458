import Verif.Utils.Stopwatch
/-!
# Property theorems C123: what stopwatches measure
-/

namespace Gtl.Props.Stopwatch

open Gtl.Stopwatch
open Gtl.Spec.Stopwatch

/-! ## Glue -/

/-- The stopwatches show what the log says. -/
def Agrees (w : World) : Prop :=
  ∀ i, (∀ t, lastStart i w.log = some t → (w.watch i).start = t) ∧ (∀ t, lastMark i w.log = some t → (w.watch i).snap = t)

theorem begin_agrees {clock : Nat → Int} {w : World} (h : Agrees w) (i : Nat) : Agrees (w.begin_ clock i) := by
  intro j
  obtain ⟨h1, h2⟩ := h j
  unfold World.begin_ Watch.begin_
  simp only [lastStart, lastMark]
  by_cases e : i = j
  · subst e
    simp
  · have e' : ¬ j = i := fun x => e x.symm
    simp only [if_neg e, if_neg e']
    exact ⟨h1, h2⟩

theorem mark_agrees {clock : Nat → Int} {w : World} (h : Agrees w) (i : Nat) : Agrees (w.mark clock i) := by
  intro j
  obtain ⟨h1, h2⟩ := h j
  unfold World.mark Watch.mark
  simp only [lastStart, lastMark]
  by_cases e : i = j
  · subst e
    simpa using h1
  · have e' : ¬ j = i := fun x => e x.symm
    simp only [if_neg e, if_neg e']
    exact ⟨h1, h2⟩

theorem create_agrees {clock : Nat → Int} {w : World} (h : Agrees w) (i : Nat) (b : Bool) :
    Agrees (w.create clock i b) := by
  intro j
  obtain ⟨h1, h2⟩ := h j
  unfold World.create Watch.make Watch.begin_
  by_cases e : i = j
  · subst e
    cases b <;> simp [lastStart, lastMark]
  · have e' : ¬ j = i := fun x => e x.symm
    cases b <;> simp only [lastStart, lastMark, if_neg e, if_neg e', if_true, if_false, Bool.false_eq_true] <;> exact ⟨h1, h2⟩

/-- Something that every call keeps is kept by programs. -/
theorem run_keeps {clock : Nat → Int} {I : World → Prop} (hb : ∀ w i, I w → I (w.begin_ clock i))
    (hm : ∀ w i, I w → I (w.mark clock i)) (hc : ∀ w i b, I w → I (w.create clock i b))
    (hr : ∀ w, I w → I { w with reads := w.reads + 1 }) : ∀ (p : Prog) (w : World), I w → I (run clock p w).1
  | .skip, w, h => h
  | .seq p q, w, h => by
    have h1 := run_keeps hb hm hc hr p w h
    unfold run
    cases hp : run clock p w with
    | mk w1 e =>
      rw [hp] at h1
      cases e with
      | true => exact h1
      | false => exact run_keeps hb hm hc hr q w1 h1
  | .create i b, w, h => hc w i b h
  | .start i, w, h => hb w i h
  | .snap i, w, h => hm w i h
  | .scope i p, w, h => hm _ i (run_keeps hb hm hc hr p _ (hb w i h))
  | .test i c p q, w, h => by
    unfold run
    dsimp only
    split
    · exact run_keeps hb hm hc hr p _ (hr w h)
    · exact run_keeps hb hm hc hr q _ (hr w h)
  | .throw, w, h => h
  | .attempt p q, w, h => by
    have h1 := run_keeps hb hm hc hr p w h
    unfold run
    cases hp : run clock p w with
    | mk w1 e =>
      rw [hp] at h1
      cases e with
      | true => exact run_keeps hb hm hc hr q w1 h1
      | false => exact h1

theorem run_agrees {clock : Nat → Int} (p : Prog) {w : World} (h : w.log = []) : Agrees (run clock p w).1 := by
  refine run_keeps (I := Agrees) (fun w i h => begin_agrees h i) (fun w i h => mark_agrees h i)
    (fun w i b h => create_agrees h i b) (fun w h => h) p w ?_
  intro i
  rw [h]
  exact ⟨fun t e => (by cases e), fun t e => (by cases e)⟩

/-- No event is later than the clock, and the last start is not later than the last mark. -/
def Ordered (clock : Nat → Int) (w : World) : Prop :=
  ∀ i, (∀ t, lastStart i w.log = some t → ∃ s, lastMark i w.log = some s ∧ t ≤ s) ∧
    (∀ t, lastMark i w.log = some t → ∀ n, w.reads ≤ n → t ≤ clock n)

theorem run_ordered {clock : Nat → Int} (hs : Steady clock) (p : Prog) {w : World} (h : w.log = []) :
    Ordered clock (run clock p w).1 := by
  refine run_keeps (I := Ordered clock) ?_ ?_ ?_ ?_ p w ?_
  · intro w i h j
    obtain ⟨h1, h2⟩ := h j
    unfold World.begin_
    simp only [lastStart, lastMark]
    by_cases e : i = j
    · subst e
      simp only [if_true]
      refine ⟨fun t ht => ⟨_, rfl, ?_⟩, fun t ht n hn => ?_⟩
      · cases ht; exact Int.le_refl _
      · cases ht; exact hs _ _ (by omega)
    · simp only [if_neg e]
      exact ⟨h1, fun t ht n hn => h2 t ht n (by omega)⟩
  · intro w i h j
    obtain ⟨h1, h2⟩ := h j
    unfold World.mark
    simp only [lastStart, lastMark]
    by_cases e : i = j
    · subst e
      simp only [if_true]
      refine ⟨fun t ht => ⟨_, rfl, ?_⟩, fun t ht n hn => ?_⟩
      · obtain ⟨s, g1, g2⟩ := h1 t ht
        exact Int.le_trans g2 (h2 s g1 _ (Nat.le_refl _))
      · cases ht; exact hs _ _ (by omega)
    · simp only [if_neg e]
      exact ⟨h1, fun t ht n hn => h2 t ht n (by omega)⟩
  · intro w i b h j
    obtain ⟨h1, h2⟩ := h j
    unfold World.create
    cases b with
    | true =>
      simp only [lastStart, lastMark, if_true]
      by_cases e : i = j
      · subst e
        simp only [if_true]
        refine ⟨fun t ht => ⟨_, rfl, ?_⟩, fun t ht n hn => ?_⟩
        · cases ht; exact Int.le_refl _
        · cases ht; exact hs _ _ (by omega)
      · simp only [if_neg e]
        exact ⟨h1, fun t ht n hn => h2 t ht n (by omega)⟩
    | false =>
      simp only [lastStart, lastMark, if_false, Bool.false_eq_true]
      by_cases e : i = j
      · subst e
        simp only [if_true]
        exact ⟨fun t ht => (by cases ht), fun t ht => (by cases ht)⟩
      · simp only [if_neg e]
        exact ⟨h1, h2⟩
  · intro w h j
    exact ⟨(h j).1, fun t ht n hn => (h j).2 t ht n (by simp only at hn; omega)⟩
  · intro i
    rw [h]
    exact ⟨fun t e => (by cases e), fun t e => (by cases e)⟩

/-- A program that does not start a stopwatch leaves its start as it is. -/
theorem run_start {clock : Nat → Int} {i : Nat} : ∀ (p : Prog) (w : World), ¬ p.Starts i →
    ((run clock p w).1.watch i).start = (w.watch i).start ∧ w.reads ≤ (run clock p w).1.reads
  | .skip, w, _ => ⟨rfl, Nat.le_refl _⟩
  | .seq p q, w, h => by
    have h1 := run_start (clock := clock) p w (fun x => h (.inl x))
    unfold run
    cases hp : run clock p w with
    | mk w1 e =>
      rw [hp] at h1
      cases e with
      | true => exact h1
      | false =>
        have h2 := run_start (clock := clock) q w1 (fun x => h (.inr x))
        exact ⟨h2.1.trans h1.1, Nat.le_trans h1.2 h2.2⟩
  | .create j b, w, h => by
    have e : ¬ i = j := fun x => h x.symm
    unfold run World.create
    cases b <;> simp [e]
  | .start j, w, h => by
    have e : ¬ i = j := fun x => h x.symm
    unfold run World.begin_
    simp [e]
  | .snap j, w, h => by
    unfold run World.mark Watch.mark
    by_cases e : i = j
    · subst e; simp
    · simp [e]
  | .scope j p, w, h => by
    have e : ¬ i = j := fun x => h (.inl x.symm)
    have h1 := run_start (clock := clock) p (w.begin_ clock j) (fun x => h (.inr x))
    unfold run World.mark
    dsimp only
    rw [if_neg e]
    refine ⟨h1.1.trans ?_, ?_⟩
    · unfold World.begin_; simp [e]
    · have : (w.begin_ clock j).reads = w.reads + 1 := rfl
      omega
  | .test j c p q, w, h => by
    unfold run
    dsimp only
    split
    · have h1 := run_start (clock := clock) p { w with reads := w.reads + 1 } (fun x => h (.inl x))
      exact ⟨h1.1, Nat.le_trans (Nat.le_succ _) h1.2⟩
    · have h1 := run_start (clock := clock) q { w with reads := w.reads + 1 } (fun x => h (.inr x))
      exact ⟨h1.1, Nat.le_trans (Nat.le_succ _) h1.2⟩
  | .throw, w, _ => ⟨rfl, Nat.le_refl _⟩
  | .attempt p q, w, h => by
    have h1 := run_start (clock := clock) p w (fun x => h (.inl x))
    unfold run
    cases hp : run clock p w with
    | mk w1 e =>
      rw [hp] at h1
      cases e with
      | true =>
        have h2 := run_start (clock := clock) q w1 (fun x => h (.inr x))
        exact ⟨h2.1.trans h1.1, Nat.le_trans h1.2 h2.2⟩
      | false => exact h1

/-! ## C123 -/

/-- **What is read**: after any program, `since_start()` is the time since the stopwatch was last started, `since_snap()`
the time since it was last started or snapped, and `start_to_snap()` the time between the two. -/
theorem C123_reads (clock : Nat → Int) (p : Prog) {w0 w : World} {e : Bool} (h0 : w0.log = [])
    (h : run clock p w0 = (w, e)) (i : Nat) :
    (∀ t now, lastStart i w.log = some t → (w.watch i).sinceStart now = now - t) ∧
    (∀ t now, lastMark i w.log = some t → (w.watch i).sinceSnap now = now - t) ∧
    (∀ s t, lastStart i w.log = some s → lastMark i w.log = some t → (w.watch i).startToSnap = t - s) := by
  have ha := run_agrees (clock := clock) p h0 i
  rw [h] at ha
  obtain ⟨h1, h2⟩ := ha
  refine ⟨fun t now ht => ?_, fun t now ht => ?_, fun s t hs ht => ?_⟩
  · unfold Watch.sinceStart getDiff; rw [h1 t ht]
  · unfold Watch.sinceSnap getDiff; rw [h2 t ht]
  · unfold Watch.startToSnap getDiff; rw [h1 s hs, h2 t ht]

/-- **Never negative**: with a clock that does not go back, no stopwatch that was started ever shows a negative time, now
or later, and the time from start to snap and the time since add up to the time since the start. -/
theorem C123_steady_partial {clock : Nat → Int} (hs : Steady clock) (p : Prog) {w0 w : World} {e : Bool} (h0 : w0.log = [])
    (h : run clock p w0 = (w, e)) {i : Nat} {t : Int} (ht : lastStart i w.log = some t) :
    0 ≤ (w.watch i).startToSnap ∧ ∀ n, w.reads ≤ n →
      0 ≤ (w.watch i).sinceSnap (clock n) ∧
      (w.watch i).startToSnap + (w.watch i).sinceSnap (clock n) = (w.watch i).sinceStart (clock n) := by
  have ha := run_agrees (clock := clock) p h0 i
  have ho := run_ordered hs p h0 i
  rw [h] at ha ho
  obtain ⟨s, g1, g2⟩ := ho.1 t ht
  have e1 := ha.1 t ht
  have e2 := ha.2 s g1
  unfold Watch.startToSnap Watch.sinceSnap Watch.sinceStart getDiff
  rw [e1, e2]
  refine ⟨by omega, fun n hn => ?_⟩
  have := ho.2 s g1 n hn
  exact ⟨by omega, by omega⟩

/-- **Blocks**: after a block with a `start_snap`, `start_to_snap()` is the time from its beginning to its end, however
it was left and whatever happened in it, as long as it did not start the same stopwatch. Exceptions go through. -/
theorem C123_scope_partial (clock : Nat → Int) {i : Nat} {p : Prog} (hp : ¬ p.Starts i) (w : World) :
    ∃ w' e n, run clock (.scope i p) w = (w', e) ∧ e = (run clock p (w.begin_ clock i)).2 ∧
      w.reads ≤ n ∧ w'.reads = n + 1 ∧ (w'.watch i).startToSnap = clock n - clock w.reads := by
  have h1 := run_start (clock := clock) p (w.begin_ clock i) hp
  refine ⟨_, _, (run clock p (w.begin_ clock i)).1.reads, rfl, rfl, ?_, rfl, ?_⟩
  · have : (w.begin_ clock i).reads = w.reads + 1 := rfl
    omega
  · have e : ((w.begin_ clock i).watch i).start = clock w.reads := by
      unfold World.begin_ Watch.begin_; simp
    unfold World.mark Watch.startToSnap getDiff Watch.mark
    simp only [if_true]
    rw [h1.1, e]

/-- A stopwatch that is never started shows the time since the epoch of the clock. -/
theorem C123_not_started (clock : Nat → Int) {i : Nat} {p : Prog} (hp : ¬ p.Starts i) (w : World) (now : Int) :
    ((run clock (.seq (.create i false) p) w).1.watch i).sinceStart now = now := by
  have h1 := run_start (clock := clock) p (w.create clock i false) hp
  have e : ((w.create clock i false).watch i).start = 0 := by
    unfold World.create Watch.make; simp
  have e2 : run clock (.seq (.create i false) p) w = run clock p (w.create clock i false) := rfl
  rw [e2]
  unfold Watch.sinceStart getDiff
  rw [h1.1, e]
  omega

/-- `basic_stopwatch`: the time since it was constructed or last started, and it prints the time at the end exactly if it
has a message. -/
theorem C123_basic (msg : String) (t0 : Int) (starts : List Int) (now : Int) :
    let b := starts.foldl Basic.begin_ (Basic.make msg t0)
    b.time now = now - (starts.getLast?.getD t0) ∧
    b.finish now = if msg = "" then none else some (msg, now - (starts.getLast?.getD t0)) := by
  have key : ∀ (starts : List Int) (b : Basic), (starts.foldl Basic.begin_ b).msg = b.msg ∧
      (starts.foldl Basic.begin_ b).start = starts.getLast?.getD b.start := by
    intro starts
    induction starts with
    | nil => intro b; exact ⟨rfl, rfl⟩
    | cons t ts ih =>
      intro b
      obtain ⟨h1, h2⟩ := ih (b.begin_ t)
      refine ⟨h1, ?_⟩
      show (ts.foldl Basic.begin_ (b.begin_ t)).start = _
      rw [h2, List.getLast?_cons]
      rfl
  obtain ⟨h1, h2⟩ := key starts (Basic.make msg t0)
  refine ⟨?_, ?_⟩
  · unfold Basic.time; rw [h2]; rfl
  · unfold Basic.finish Basic.time
    rw [h1, h2]
    show (if msg.isEmpty = true then none else some (msg, _)) = _
    by_cases e : msg = ""
    · subst e; rfl
    · rw [if_neg e, if_neg (by rw [String.isEmpty_iff]; exact e)]
      rfl

/-! ## Concrete cases -/

/-- One stopwatch, not yet started. -/
def fresh : World := { watch := fun _ => { start := 0, snap := 0 }, reads := 0, log := [] }

/-- A clock that advances by ten ticks between readings. -/
def tens (n : Nat) : Int := 10 * (n : Int)

theorem tens_steady : Steady tens := by
  intro n m h
  unfold tens
  omega

/-- A clock that is set back after it was read once. -/
def setBack (n : Nat) : Int := if n = 0 then 100 else 40

/-- A block that is left by an exception, caught outside. -/
def leaves : Prog := .attempt (.scope 0 (.seq (.snap 0) (.seq (.test 0 (fun d => 5 < d) .throw .skip) (.start 1)))) .skip

/-- The hypotheses of the theorems are met, and the block took thirty ticks. -/
example : ¬ (Prog.seq (.snap 0) (.seq (.test 0 (fun d => 5 < d) .throw .skip) (.start 1))).Starts 0 ∧
    lastStart 0 (run tens leaves fresh).1.log = some 0 ∧ ((run tens leaves fresh).1.watch 0).startToSnap = 30 := by
  refine ⟨?_, rfl, by decide⟩
  simp [Prog.Starts]

/-- **Refutation.** A block with a `start_snap` in which the same stopwatch is used by another `start_snap` (for example
in a function that is called): `start_to_snap()` is not the time the block took but counts from the inner block. -/
theorem C123_nested_refuted : ¬ (∀ (clock : Nat → Int) (i : Nat) (p : Prog) (w w' : World) (e : Bool),
    Steady clock → run clock (.scope i p) w = (w', e) →
    (w'.watch i).startToSnap = clock (w'.reads - 1) - clock w.reads) := by
  intro H
  have := H tens 0 (.scope 0 .skip) fresh _ _ tens_steady rfl
  revert this
  decide

/-- **Refutation.** `high_resolution_clock` need not be steady. If it is set back, a stopwatch shows a negative time. -/
theorem C123_set_back_refuted : ¬ (∀ (clock : Nat → Int) (p : Prog) (w : World) (e : Bool) (i : Nat) (t : Int),
    run clock p fresh = (w, e) → lastStart i w.log = some t → 0 ≤ (w.watch i).startToSnap) := by
  intro H
  have := H setBack (.seq (.start 0) (.snap 0)) _ _ 0 100 rfl rfl
  revert this
  decide

end Gtl.Props.Stopwatch
