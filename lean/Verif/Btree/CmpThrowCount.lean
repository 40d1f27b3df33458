import Verif.Btree.CmpThrowProof
/-
A call throws exactly when it makes more comparisons than it is given.
-/
set_option linter.unusedSectionVars false
namespace Gtl.Btree
open Gtl.Spec.SortedSeq
variable {α κ σ β γ : Type}

/-- What `m` does and counts does not depend on the count before. -/
def Steady (m : Cnt β) : Prop := ∀ n, m n = (m 0).map fun x => (x.1, x.2 + n)

theorem Steady.pure {b : β} : Steady (pure b) := fun n => by
  show some (b, n) = some (b, 0 + n)
  rw [Nat.zero_add]

theorem Steady.free {o : Option β} : Steady (free o) := fun n => by
  unfold Btree.free
  cases o with
  | none => rfl
  | some b => exact Steady.pure n

theorem Steady.bind {m : Cnt β} {f : β → Cnt γ} (h : Steady m) (hf : ∀ b, Steady (f b)) : Steady (m >>= f) := fun n => by
  show StateT.bind m f n = (StateT.bind m f 0).map _
  unfold StateT.bind
  rw [h n]
  cases e : m 0 with
  | none => rfl
  | some r =>
    show f r.1 (r.2 + n) = (f r.1 r.2).map _
    rw [hf r.1 (r.2 + n), hf r.1 r.2]
    cases f r.1 0 with
    | none => rfl
    | some x => simp [Nat.add_assoc]

theorem Steady.tick' : Steady tick := fun n => by
  show some ((), n + 1) = some ((), 0 + 1 + n)
  rw [Nat.zero_add, Nat.add_comm]

theorem Steady.tick {f : Unit → Cnt γ} (h : Steady (f ())) : Steady (tick >>= f) := .bind .tick' fun _ => h

theorem Steady.ite {p : Prop} [Decidable p] {m m' : Cnt β} (h : p → Steady m) (h' : ¬ p → Steady m') :
    Steady (if p then m else m') := by
  by_cases hp : p
  · rw [if_pos hp]; exact h hp
  · rw [if_neg hp]; exact h' hp

theorem linearPlain_steady (p : α → Bool) : ∀ vs, Steady (linearPlainW p vs)
  | [] => .pure
  | v :: vs => .tick (.ite (fun _ => .bind (linearPlain_steady p vs) fun _ => .pure) fun _ => .pure)

theorem linearTo_steady (p : α → Ordering) : ∀ vs, Steady (linearToW p vs)
  | [] => .pure
  | v :: vs => by
    refine .tick ?_
    cases p v with
    | lt => exact .bind (linearTo_steady p vs) fun _ => .pure
    | eq => exact .pure
    | gt => exact .pure

theorem binaryPlain_steady (p : α → Bool) (vs : List α) : ∀ f s e, Steady (binaryPlainW p vs f s e)
  | 0, s, e => .ite (fun _ => .pure) (fun _ => .free)
  | f + 1, s, e => .ite (fun _ => .pure) fun _ => .bind .free fun v => .tick
      (.ite (fun _ => binaryPlain_steady p vs f _ _) fun _ => binaryPlain_steady p vs f _ _)

theorem binaryToMulti_steady (p : α → Ordering) (vs : List α) : ∀ f s e m, Steady (binaryToMultiW p vs f s e m)
  | 0, s, e, m => .ite (fun _ => .pure) (fun _ => .free)
  | f + 1, s, e, m => .ite (fun _ => .pure) fun _ => .bind .free fun v => .tick (by
      cases p v with
      | lt => exact binaryToMulti_steady p vs f _ _ _
      | eq => exact binaryToMulti_steady p vs f _ _ _
      | gt => exact binaryToMulti_steady p vs f _ _ _)

theorem binaryToUnique_steady (p : α → Ordering) (vs : List α) : ∀ f s e, Steady (binaryToUniqueW p vs f s e)
  | 0, s, e => .ite (fun _ => .pure) (fun _ => .free)
  | f + 1, s, e => .ite (fun _ => .pure) fun _ => .bind .free fun v => .tick (by
      cases p v with
      | lt => exact binaryToUnique_steady p vs f _ _
      | eq => exact .pure
      | gt => exact binaryToUnique_steady p vs f _ _)

variable (c : Cfg α κ)

theorem lowerNode_steady (n : Node α) (k : κ) : Steady (lowerNodeW c n k) :=
  .ite (fun _ => .ite (fun _ => linearTo_steady _ _) fun _ => .ite (fun _ => binaryToMulti_steady _ _ _ _ _ _)
    fun _ => binaryToUnique_steady _ _ _ _ _) fun _ => .ite (fun _ => .bind (linearPlain_steady _ _) fun _ => .pure)
    fun _ => .bind (binaryPlain_steady _ _ _ _ _) fun _ => .pure

theorem upperNode_steady (n : Node α) (k : κ) : Steady (upperNodeW c n k) :=
  .ite (fun _ => linearPlain_steady _ _) fun _ => binaryPlain_steady _ _ _ _ _

theorem locatePlain_steady (h : Heap α) (k : κ) : ∀ f id, Steady (locatePlainW c h k f id)
  | 0, _ => .free
  | f + 1, id => .bind .free fun n => .bind (lowerNode_steady c n k) fun r =>
      .ite (fun _ => .pure) fun _ => .bind .free fun kid => locatePlain_steady h k f kid

theorem locateTo_steady (h : Heap α) (k : κ) : ∀ f id, Steady (locateToW c h k f id)
  | 0, _ => .free
  | f + 1, id => .bind .free fun n => .bind (lowerNode_steady c n k) fun r =>
      .ite (fun _ => .pure) fun _ => .ite (fun _ => .pure) fun _ => .bind .free fun kid => locateTo_steady h k f kid

theorem locateUpper_steady (h : Heap α) (k : κ) : ∀ f id, Steady (locateUpperW c h k f id)
  | 0, _ => .free
  | f + 1, id => .bind .free fun n => .bind (upperNode_steady c n k) fun r =>
      .ite (fun _ => .pure) fun _ => .bind .free fun kid => locateUpper_steady h k f kid

variable (t : Tree α) (k : κ)

theorem internalLocate_steady : Steady (internalLocateW c t k) :=
  .ite (fun _ => locateTo_steady c _ k _ _) fun _ => .bind (locatePlain_steady c _ k _ _) fun _ => .pure

theorem internalLowerBound_steady : Steady (internalLowerBoundW c t k) :=
  .bind (locatePlain_steady c _ k _ _) fun _ => .free

theorem internalUpperBound_steady : Steady (internalUpperBoundW c t k) :=
  .bind (locateUpper_steady c _ k _ _) fun _ => .free

theorem locateFound_steady (it : It) (eq : Bool) : Steady (locateFoundW c t k it eq) := by
  refine .ite (fun _ => .pure) fun _ => .bind .free fun r => ?_
  cases r with
  | none => exact .pure
  | some last => exact .bind .free fun v => .tick .pure

theorem internalFind_steady : Steady (internalFindW c t k) :=
  .bind (internalLocate_steady c t k) fun r => locateFound_steady c t k _ _

theorem find_steady : Steady (t.findW c k) := .bind (internalFind_steady c t k) fun _ => .free

theorem lowerBound_steady : Steady (t.lowerBoundW c k) := .bind (internalLowerBound_steady c t k) fun _ => .free

theorem upperBound_steady : Steady (t.upperBoundW c k) := .bind (internalUpperBound_steady c t k) fun _ => .free

theorem stopOrAt_steady (h : Heap α) (it stop : It) (p : α → Bool) : Steady (stopOrAtW h it stop p) :=
  .ite (fun _ => .pure) fun _ => .bind .free fun _ => .tick .pure

theorem stopOrBefore_steady (h : Heap α) (it stop : It) (p : α → Bool) : Steady (stopOrBeforeW h it stop p) :=
  .ite (fun _ => .pure) fun _ => .bind .free fun _ => .bind .free fun _ => .tick .pure

/-! ### Exceptions -/

/-- `x` returns what `m` returns if it makes no more comparisons than it is given, and throws if it makes more. -/
def Exact (x : Throwing σ β) (m : Cnt β) : Prop := ∀ k n b n', m n = some (b, n') →
  n ≤ n' ∧ (n' ≤ n + k → x k = some (.done b (k - (n' - n)))) ∧ (n + k < n' → ∃ s, x k = some (.threw s))

theorem Exact.pure {b : β} : Exact (σ := σ) (pure b) (pure b) := by
  intro k n b' n' h
  have h : some (b, n) = some (b', n') := h
  cases h
  refine ⟨Nat.le_refl _, fun _ => ?_, fun h => absurd h (by omega)⟩
  show some (Ending.done b k) = _
  simp

theorem Exact.plain {o : Option β} : Exact (σ := σ) (plain o) (free o) := by
  cases o with
  | none => intro k n b n' h; cases h
  | some b => exact Exact.pure

theorem Exact.reading {s : σ} {m : Cnt β} (hm : Steady m) : Exact (reading s m) m := by
  intro k n b n' h
  rw [hm n] at h
  cases e : m 0 with
  | none => rw [e] at h; cases h
  | some x =>
    obtain ⟨b1, n1⟩ := x
    rw [e] at h
    cases h
    dsimp only
    refine ⟨by omega, fun hk => ?_, fun hk => ?_⟩
    · unfold Btree.reading count
      rw [e]
      dsimp only
      rw [if_pos (by omega), Nat.add_sub_cancel]
    · unfold Btree.reading count
      rw [e]
      dsimp only
      exact ⟨s, by rw [if_neg (by omega)]⟩

theorem Exact.bind {x : Throwing σ β} {m : Cnt β} {f : β → Throwing σ γ} {g : β → Cnt γ} (h : Exact x m)
    (hf : ∀ b, Exact (f b) (g b)) : Exact (x >>= f) (m >>= g) := by
  intro k n b n' e
  have e : StateT.bind m g n = some (b, n') := e
  unfold StateT.bind at e
  cases em : m n with
  | none => rw [em] at e; cases e
  | some r =>
    obtain ⟨b1, n1⟩ := r
    rw [em] at e
    have e : g b1 n1 = some (b, n') := e
    obtain ⟨h1, h2, h3⟩ := h k n b1 n1 em
    obtain ⟨h4, h5, h6⟩ := hf b1 (k - (n1 - n)) n1 b n' e
    have hb : ∀ y, x k = y → (x >>= f) k =
        (match y with | none => none | some (Ending.threw s) => some (Ending.threw s) | some (Ending.done b k) => f b k) := by
      rintro y rfl; rfl
    refine ⟨by omega, fun hk => ?_, fun hk => ?_⟩
    · rw [hb _ (h2 (by omega))]
      dsimp only
      rw [h5 (by omega)]
      congr 2
      omega
    · by_cases hk1 : n1 ≤ n + k
      · rw [hb _ (h2 hk1)]
        exact h6 (by omega)
      · obtain ⟨s, hs⟩ := h3 (by omega)
        rw [hb _ hs]
        exact ⟨s, rfl⟩

theorem Exact.ite {p : Prop} [Decidable p] {x x' : Throwing σ β} {m m' : Cnt β} (h : p → Exact x m) (h' : ¬ p → Exact x' m') :
    Exact (if p then x else x') (if p then m else m') := by
  by_cases hp : p
  · rw [if_pos hp, if_pos hp]; exact h hp
  · rw [if_neg hp, if_neg hp]; exact h' hp

variable (st : Tree α → σ)

theorem insertUnique_exact (a : Arg α) : Exact (insertUniqueT st c t k a) (insertUniqueW c t k a) := by
  refine .bind (.reading (internalLocate_steady c _ k)) fun r => .bind (.reading (locateFound_steady c _ k _ _)) fun o => ?_
  cases o with
  | some it => exact .pure
  | none => exact .bind .plain fun x => .pure

theorem insertHintUnique_exact (pos : It) (a : Arg α) : Exact (insertHintUniqueT st c t pos k a) (insertHintUniqueW c t pos k a) := by
  refine .ite (fun _ => insertUnique_exact c t k st a) fun _ => .bind .plain fun e => .bind .plain fun b =>
    .bind (.reading (stopOrAt_steady _ _ _ _)) fun x => .ite (fun _ => ?_) fun _ => ?_
  · exact .bind (.reading (stopOrBefore_steady _ _ _ _)) fun y => .ite (fun _ => .bind .plain fun _ => .pure) fun _ => insertUnique_exact c t k st a
  · refine .bind .plain fun v => .bind (.reading .tick') fun _ => (.ite (fun _ => ?_) fun _ => .pure)
    exact .bind .plain fun next => .bind (.reading (stopOrAt_steady _ _ _ _)) fun y =>
      .ite (fun _ => .bind .plain fun _ => .pure) fun _ => insertUnique_exact c t k st a

theorem insertAllUnique_exact : ∀ (vs : List α) (t : Tree α), Exact (insertAllUniqueT st c t vs) (insertAllUniqueW c t vs)
  | [], t => .pure
  | v :: vs, t => .bind .plain fun e => .bind (insertHintUnique_exact c t _ st e _) fun x => insertAllUnique_exact vs x.2

theorem insertMulti_exact (a : Arg α) : Exact (insertMultiT st c t k a) (insertMultiW c t k a) :=
  .bind (.reading (internalUpperBound_steady c _ k)) fun _ => .bind .plain fun _ => .plain

theorem insertHintMulti_exact (pos : It) (a : Arg α) : Exact (insertHintMultiT st c t pos k a) (insertHintMultiW c t pos k a) := by
  refine .ite (fun _ => insertMulti_exact c t k st a) fun _ => .bind .plain fun e => .bind .plain fun b =>
    .bind (.reading (stopOrAt_steady _ _ _ _)) fun x => .ite (fun _ => ?_) fun _ => ?_
  · exact .bind (.reading (stopOrBefore_steady _ _ _ _)) fun y => .ite (fun _ => .plain) fun _ => insertMulti_exact c t k st a
  · exact .bind .plain fun next => .bind (.reading (stopOrAt_steady _ _ _ _)) fun y => .ite (fun _ => .plain) fun _ => insertMulti_exact c t k st a

theorem insertAllMulti_exact : ∀ (vs : List α) (t : Tree α), Exact (insertAllMultiT st c t vs) (insertAllMultiW c t vs)
  | [], t => .pure
  | v :: vs, t => .bind .plain fun e => .bind (insertHintMulti_exact c t _ st e _) fun x => insertAllMulti_exact vs x.2

theorem eraseUnique_exact : Exact (eraseUniqueT st c t k) (eraseUniqueW c t k) := by
  refine .bind (.reading (internalFind_steady c t k)) fun o => ?_
  cases o with
  | none => exact .pure
  | some it => exact .bind .plain fun _ => .pure

theorem eraseMulti_exact : Exact (eraseMultiT st c t k) (eraseMultiW c t k) := by
  refine .bind (.reading (internalLowerBound_steady c t k)) fun o => ?_
  cases o with
  | none => exact .pure
  | some it => exact .bind (.reading (internalUpperBound_steady c t k)) fun _ => .bind .plain fun _ => .bind .plain fun _ => .pure

/-- Each call. -/
theorem exec_exact (op : Op α κ) : Exact (execT st c t op) (execW c t op) := by
  cases op with
  | insert v =>
    exact .ite (fun _ => .bind (insertMulti_exact c t _ st _) fun _ => .bind .plain fun _ => .pure)
      fun _ => .bind (insertUnique_exact c t _ st _) fun _ => .bind .plain fun _ => .pure
  | insertHint i v =>
    exact .bind .plain fun hint => .ite (fun _ => .bind (insertHintMulti_exact c t _ st _ _) fun _ => .bind .plain fun _ => .pure)
      fun _ => .bind (insertHintUnique_exact c t _ st _ _) fun _ => .bind .plain fun _ => .pure
  | insertAll vs =>
    exact .bind (.ite (fun _ => insertAllMulti_exact c st vs t) fun _ => insertAllUnique_exact c st vs t) fun _ => .pure
  | eraseKey k => exact .bind (.ite (fun _ => eraseMulti_exact c t k st) fun _ => eraseUnique_exact c t k st) fun _ => .pure
  | extractKey k => exact .bind (.reading (find_steady c t k)) fun _ => .plain
  | find k => exact .reading (.bind (find_steady c t k) fun _ => .bind .free fun _ => .pure)
  | contains k => exact .reading (.bind (find_steady c t k) fun _ => .bind .free fun _ => .pure)
  | count k => exact .reading (.ite (fun _ => .bind (lowerBound_steady c t k) fun _ => .bind (upperBound_steady c t k) fun _ => .bind .free fun _ => .pure)
      fun _ => .bind (internalFind_steady c t k) fun _ => .pure)
  | lowerBound k => exact .reading (.bind (lowerBound_steady c t k) fun _ => .bind .free fun _ => .pure)
  | upperBound k => exact .reading (.bind (upperBound_steady c t k) fun _ => .bind .free fun _ => .pure)
  | equalRange k =>
    exact .reading (.bind (lowerBound_steady c t k) fun _ => .bind (upperBound_steady c t k) fun _ => .bind .free fun _ => .bind .free fun _ => .pure)
  | _ => exact .plain

end Gtl.Btree
