import Verif.Btree.Cost
/-
Without the counter, the functions that count are those that do not.
-/
namespace Gtl.Btree
open Gtl.Spec.SortedSeq
variable {α κ β γ : Type}

/-- `m` does what `o` does. -/
def Same (m : Cnt β) (o : Option β) : Prop := ∀ n, (m n).map Prod.fst = o

theorem Same.pure {b : β} : Same (pure b) (some b) := fun _ => rfl

theorem Same.free {o : Option β} : Same (free o) o := fun n => by
  unfold Btree.free
  cases o <;> rfl

theorem Same.bind {m : Cnt β} {o : Option β} {f : β → Cnt γ} {g : β → Option γ} (h : Same m o) (hf : ∀ b, Same (f b) (g b)) :
    Same (m >>= f) (o >>= g) := fun n => by
  have h := h n
  show (StateT.bind m f n).map Prod.fst = _
  unfold StateT.bind
  cases e : m n with
  | none => rw [e] at h; rw [← h]; rfl
  | some r =>
    rw [e] at h
    rw [← h]
    exact hf r.1 r.2

theorem Same.tick {f : Unit → Cnt γ} {o : Option γ} (h : Same (f ()) o) : Same (tick >>= f) o := fun n => h (n + 1)

theorem Same.ite {p : Prop} [Decidable p] {m m' : Cnt β} {o o' : Option β} (h : p → Same m o) (h' : ¬ p → Same m' o') :
    Same (if p then m else m') (if p then o else o') := by
  by_cases hp : p
  · rw [if_pos hp, if_pos hp]; exact h hp
  · rw [if_neg hp, if_neg hp]; exact h' hp

theorem Same.congr {m : Cnt β} {o o' : Option β} (h : Same m o) (e : o = o') : Same m o' := e ▸ h

theorem linearPlain_same (p : α → Bool) : ∀ vs, Same (linearPlainW p vs) (some (linearPlain p vs))
  | [] => .pure
  | v :: vs => by
    refine .tick ?_
    unfold linearPlain
    by_cases h : p v = true
    · rw [if_pos h, if_pos h]
      exact (linearPlain_same p vs).bind (g := fun r => some (r + 1)) fun _ => .pure
    · rw [if_neg h, if_neg h]; exact .pure

theorem linearTo_same (p : α → Ordering) : ∀ vs, Same (linearToW p vs) (some (linearTo p vs))
  | [] => .pure
  | v :: vs => by
    refine .tick ?_
    unfold linearTo
    cases p v with
    | lt => exact (linearTo_same p vs).bind (g := fun r => some (SR.mk (r.value + 1) r.eq)) fun _ => .pure
    | eq => exact .pure
    | gt => exact .pure

theorem binaryPlain_same (p : α → Bool) (vs : List α) : ∀ f s e, Same (binaryPlainW p vs f s e) (binaryPlain p vs f s e)
  | 0, s, e => .ite (fun _ => .pure) (fun _ => .free)
  | f + 1, s, e => .ite (fun _ => .pure) fun _ => .bind .free fun v => .tick
      (.ite (fun _ => binaryPlain_same p vs f _ _) fun _ => binaryPlain_same p vs f _ _)

theorem binaryToMulti_same (p : α → Ordering) (vs : List α) : ∀ f s e m, Same (binaryToMultiW p vs f s e m) (binaryToMulti p vs f s e m)
  | 0, s, e, m => .ite (fun _ => .pure) (fun _ => .free)
  | f + 1, s, e, m => .ite (fun _ => .pure) fun _ => .bind .free fun v => .tick (by
      cases p v with
      | lt => exact binaryToMulti_same p vs f _ _ _
      | eq => exact binaryToMulti_same p vs f _ _ _
      | gt => exact binaryToMulti_same p vs f _ _ _)

theorem binaryToUnique_same (p : α → Ordering) (vs : List α) : ∀ f s e, Same (binaryToUniqueW p vs f s e) (binaryToUnique p vs f s e)
  | 0, s, e => .ite (fun _ => .pure) (fun _ => .free)
  | f + 1, s, e => .ite (fun _ => .pure) fun _ => .bind .free fun v => .tick (by
      cases p v with
      | lt => exact binaryToUnique_same p vs f _ _
      | eq => exact .pure
      | gt => exact binaryToUnique_same p vs f _ _)

variable (c : Cfg α κ)

theorem lowerNode_same (n : Node α) (k : κ) : Same (lowerNodeW c n k) (lowerNode c n k) := by
  refine .ite (fun _ => .ite (fun _ => linearTo_same _ _) fun _ => .ite (fun _ => binaryToMulti_same _ _ _ _ _ _)
    fun _ => binaryToUnique_same _ _ _ _ _) fun _ => ?_
  by_cases h : c.linear = true
  · rw [if_pos h, if_pos h]
    exact (linearPlain_same _ _).bind (g := fun i => some (SR.mk i false)) fun _ => .pure
  · rw [if_neg h, if_neg h]
    refine ((binaryPlain_same _ _ _ _ _).bind (g := fun i => some (SR.mk i false)) fun _ => .pure).congr ?_
    cases binaryPlain (fun v => c.lt (c.key v) k) n.vals n.count 0 n.count <;> rfl

theorem upperNode_same (n : Node α) (k : κ) : Same (upperNodeW c n k) (upperNode c n k) :=
  .ite (fun _ => linearPlain_same _ _) fun _ => binaryPlain_same _ _ _ _ _

theorem locatePlain_same (h : Heap α) (k : κ) : ∀ f id, Same (locatePlainW c h k f id) (locatePlain c h k f id)
  | 0, _ => .free
  | f + 1, id => .bind .free fun n => .bind (lowerNode_same c n k) fun r =>
      .ite (fun _ => .pure) fun _ => .bind .free fun kid => locatePlain_same h k f kid

theorem locateTo_same (h : Heap α) (k : κ) : ∀ f id, Same (locateToW c h k f id) (locateTo c h k f id)
  | 0, _ => .free
  | f + 1, id => .bind .free fun n => .bind (lowerNode_same c n k) fun r =>
      .ite (fun _ => .pure) fun _ => .ite (fun _ => .pure) fun _ => .bind .free fun kid => locateTo_same h k f kid

theorem locateUpper_same (h : Heap α) (k : κ) : ∀ f id, Same (locateUpperW c h k f id) (locateUpper c h k f id)
  | 0, _ => .free
  | f + 1, id => .bind .free fun n => .bind (upperNode_same c n k) fun r =>
      .ite (fun _ => .pure) fun _ => .bind .free fun kid => locateUpper_same h k f kid

variable (t : Tree α) (k : κ)

theorem internalLocate_same : Same (internalLocateW c t k) (internalLocate c t k) := by
  refine .ite (fun _ => locateTo_same c _ k _ _) fun _ => ?_
  refine ((locatePlain_same c _ k _ _).bind (g := fun it => some (it, false)) fun _ => .pure).congr ?_
  cases locatePlain c t.heap k (t.heap.length + 1) t.root <;> rfl

theorem internalLowerBound_same : Same (internalLowerBoundW c t k) (internalLowerBound c t k) :=
  .bind (locatePlain_same c _ k _ _) fun _ => .free

theorem internalUpperBound_same : Same (internalUpperBoundW c t k) (internalUpperBound c t k) :=
  .bind (locateUpper_same c _ k _ _) fun _ => .free

theorem locateFound_same (it : It) (eq : Bool) : Same (locateFoundW c t k it eq) (locateFound c t k it eq) := by
  refine .ite (fun _ => .pure) fun _ => .bind .free fun r => ?_
  cases r with
  | none => exact .pure
  | some last => exact .bind .free fun v => .tick .pure

theorem internalFind_eq : internalFind c t k = (internalLocate c t k >>= fun r => locateFound c t k r.1 r.2) := by
  unfold internalFind
  cases internalLocate c t k with
  | none => rfl
  | some r =>
    obtain ⟨it, eq⟩ := r
    simp only [Option.bind_eq_bind, Option.bind_some]
    unfold locateFound
    by_cases h : c.cmpTo = true
    · rw [if_pos h, if_pos h]
      cases eq <;> rfl
    · rw [if_neg h, if_neg h]
      cases internalLast t.heap (t.heap.length + 1) it with
      | none => rfl
      | some r =>
        cases r with
        | none => rfl
        | some last =>
          simp only [Option.bind_eq_bind, Option.bind_some]
          cases deref t.heap last with
          | none => rfl
          | some v =>
            simp only [Option.bind_some]
            split <;> rfl

theorem internalFind_same : Same (internalFindW c t k) (internalFind c t k) := by
  rw [internalFind_eq]
  exact .bind (internalLocate_same c t k) fun r => locateFound_same c t k _ _

theorem find_same : Same (t.findW c k) (t.find c k) := .bind (internalFind_same c t k) fun _ => .free

theorem lowerBound_same : Same (t.lowerBoundW c k) (t.lowerBound c k) := .bind (internalLowerBound_same c t k) fun _ => .free

theorem upperBound_same : Same (t.upperBoundW c k) (t.upperBound c k) := .bind (internalUpperBound_same c t k) fun _ => .free

theorem insertUnique_same (a : Arg α) : Same (insertUniqueW c t k a) (insertUnique c t k a) := by
  refine .bind (internalLocate_same c _ k) fun r => .bind (locateFound_same c _ k _ _) fun o => ?_
  cases o with
  | some it => exact .pure
  | none => exact .bind .free fun x => .pure

theorem stopOrAt_same (h : Heap α) (it stop : It) (p : α → Bool) : Same (stopOrAtW h it stop p) (stopOrAt h it stop p) :=
  .ite (fun _ => .pure) fun _ => .bind .free fun _ => .tick .pure

theorem stopOrBefore_same (h : Heap α) (it stop : It) (p : α → Bool) : Same (stopOrBeforeW h it stop p) (stopOrBefore h it stop p) :=
  .ite (fun _ => .pure) fun _ => .bind .free fun _ => .bind .free fun _ => .tick .pure

theorem insertHintUnique_same (pos : It) (a : Arg α) : Same (insertHintUniqueW c t pos k a) (insertHintUnique c t pos k a) := by
  refine .ite (fun _ => insertUnique_same c t k a) fun _ => .bind .free fun e => .bind .free fun b =>
    .bind (stopOrAt_same _ _ _ _) fun x => .ite (fun _ => ?_) fun _ => ?_
  · exact .bind (stopOrBefore_same _ _ _ _) fun y => .ite (fun _ => .bind .free fun _ => .pure) fun _ => insertUnique_same c t k a
  · refine .bind .free fun v => .tick (.ite (fun _ => ?_) fun _ => .pure)
    exact .bind .free fun next => .bind (stopOrAt_same _ _ _ _) fun y =>
      .ite (fun _ => .bind .free fun _ => .pure) fun _ => insertUnique_same c t k a

theorem insertAllUnique_same : ∀ (vs : List α) (t : Tree α), Same (insertAllUniqueW c t vs) (insertAllUnique c t vs)
  | [], t => .pure
  | v :: vs, t => .bind .free fun e => .bind (insertHintUnique_same c t _ e _) fun x => insertAllUnique_same vs x.2

theorem insertMulti_same (a : Arg α) : Same (insertMultiW c t k a) (insertMulti c t k a) :=
  .bind (internalUpperBound_same c _ k) fun _ => .bind .free fun _ => .free

theorem insertHintMulti_same (pos : It) (a : Arg α) : Same (insertHintMultiW c t pos k a) (insertHintMulti c t pos k a) := by
  refine .ite (fun _ => insertMulti_same c t k a) fun _ => .bind .free fun e => .bind .free fun b =>
    .bind (stopOrAt_same _ _ _ _) fun x => .ite (fun _ => ?_) fun _ => ?_
  · exact .bind (stopOrBefore_same _ _ _ _) fun y => .ite (fun _ => .free) fun _ => insertMulti_same c t k a
  · exact .bind .free fun next => .bind (stopOrAt_same _ _ _ _) fun y => .ite (fun _ => .free) fun _ => insertMulti_same c t k a

theorem insertAllMulti_same : ∀ (vs : List α) (t : Tree α), Same (insertAllMultiW c t vs) (insertAllMulti c t vs)
  | [], t => .pure
  | v :: vs, t => .bind .free fun e => .bind (insertHintMulti_same c t _ e _) fun x => insertAllMulti_same vs x.2

theorem eraseUnique_same : Same (eraseUniqueW c t k) (eraseUnique c t k) := by
  refine .bind (internalFind_same c t k) fun o => ?_
  cases o with
  | none => exact .pure
  | some it => exact .bind .free fun _ => .pure

theorem eraseMulti_same : Same (eraseMultiW c t k) (eraseMulti c t k) := by
  refine .bind (internalLowerBound_same c t k) fun o => ?_
  cases o with
  | none => exact .pure
  | some it => exact .bind (internalUpperBound_same c t k) fun _ => .bind .free fun _ => .bind .free fun _ => .pure

/-- The calls that count do what the others do. -/
theorem exec_same (op : Op α κ) : Same (execW c t op) (exec c t op) := by
  cases op with
  | insert v =>
    exact .ite (fun _ => .bind (insertMulti_same c t _ _) fun _ => .bind .free fun _ => .pure)
      fun _ => .bind (insertUnique_same c t _ _) fun _ => .bind .free fun _ => .pure
  | insertHint i v =>
    exact .bind .free fun hint => .ite (fun _ => .bind (insertHintMulti_same c t _ _ _) fun _ => .bind .free fun _ => .pure)
      fun _ => .bind (insertHintUnique_same c t _ _ _) fun _ => .bind .free fun _ => .pure
  | insertAll vs =>
    have h : Same (if c.multi then insertAllMultiW c t vs else insertAllUniqueW c t vs)
        (if c.multi then insertAllMulti c t vs else insertAllUnique c t vs) :=
      .ite (fun _ => insertAllMulti_same c vs t) fun _ => insertAllUnique_same c vs t
    refine (h.bind (g := fun t => some (Res.done, t)) fun _ => .pure).congr ?_
    simp only [exec]
    split <;> rfl
  | eraseKey k =>
    have h : Same (if c.multi then eraseMultiW c t k else eraseUniqueW c t k)
        (if c.multi then eraseMulti c t k else eraseUnique c t k) :=
      .ite (fun _ => eraseMulti_same c t k) fun _ => eraseUnique_same c t k
    refine (h.bind (g := fun x => some (Res.num x.1, x.2)) fun _ => .pure).congr ?_
    simp only [exec]
    split <;> rfl
  | extractKey k =>
    refine (Same.bind (find_same c t k) fun _ => .free).congr ?_
    simp only [exec, Tree.extractKey]
    cases hf : t.find c k with
    | none => rfl
    | some it =>
      cases t.end with
      | none => rfl
      | some e =>
        simp only [Option.bind_eq_bind, Option.bind_some]
        by_cases h : it = e
        · simp [h]
        · simp only [if_neg h]
          cases t.extract c it <;> rfl
  | find k => exact .bind (find_same c t k) fun _ => .bind .free fun _ => .pure
  | contains k =>
    refine (Same.bind (find_same c t k) fun it => Same.bind .free (g := fun e => some (Res.bool (it != e), t)) fun e => .pure).congr ?_
    simp only [exec, Tree.contains]
    cases t.find c k with
    | none => rfl
    | some it => cases t.end <;> rfl
  | count k =>
    simp only [execW, exec]
    by_cases h : c.multi = true
    · rw [if_pos h, if_pos h]
      refine (Same.bind (lowerBound_same c t k) fun lo => Same.bind (upperBound_same c t k) fun hi => Same.bind .free (g := fun n => some (Res.num n, t)) fun n => .pure).congr ?_
      unfold Tree.countMulti
      cases t.lowerBound c k with
      | none => rfl
      | some lo => cases t.upperBound c k <;> rfl
    · rw [if_neg h, if_neg h]
      refine (Same.bind (internalFind_same c t k) (g := fun r => some (Res.num (if r.isSome then 1 else 0), t)) fun r => .pure).congr ?_
      unfold Tree.countUnique
      cases internalFind c t k with
      | none => rfl
      | some r => cases r <;> rfl
  | lowerBound k => exact .bind (lowerBound_same c t k) fun _ => .bind .free fun _ => .pure
  | upperBound k => exact .bind (upperBound_same c t k) fun _ => .bind .free fun _ => .pure
  | equalRange k => exact .bind (lowerBound_same c t k) fun _ => .bind (upperBound_same c t k) fun _ => .bind .free fun _ => .bind .free fun _ => .pure
  | _ => exact .free

end Gtl.Btree
