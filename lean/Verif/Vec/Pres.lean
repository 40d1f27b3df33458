import Verif.Vec.World
/-
Facts that are kept by every operation whatever the memory looks like.
-/
namespace Gtl.Vec
open M Gtl.Spec.Seq

variable {α β γ : Type}

/-- `m` keeps `I`, and throws only exceptions in `K`. -/
def Pres (I : (Nat → Bool) → Vec → Prop) (K : Exc → Prop) (m : M α β) : Prop :=
  ∀ s, I s.luck s.vec →
    match m s with
    | .ok _ s' => I s'.luck s'.vec
    | .thrown x s' => K x ∧ I s'.luck s'.vec
    | .ub => True

/-- The fact survives everything that may throw. -/
structure Stab (I : (Nat → Bool) → Vec → Prop) (K : Exc → Prop) : Prop where
  good : ∀ f v, I f v → f 0 = false → I (fun i => f (i + 1)) v
  bad : ∀ f v, I f v → f 0 = true → K .failed ∧ I (fun i => f (i + 1)) v
  huge : K .huge
  range : K .range

/-- The fact does not depend on the number of elements. -/
def Inner (I : (Nat → Bool) → Vec → Prop) : Prop := ∀ f v v' g u, I f v → I g u → v'.b = v.b → v'.z = v.z → I g v'

/-- The fact does not depend on the vector. -/
def Free (I : (Nat → Bool) → Vec → Prop) : Prop := ∀ f v v', I f v → I f v'

variable {I : (Nat → Bool) → Vec → Prop} {K : Exc → Prop}

theorem pres_pure {b : β} : Pres (α := α) I K (pure b) := fun _ h => h

theorem pres_ub : Pres (α := α) (β := β) I K M.ub := fun _ _ => trivial

theorem pres_bind {m : M α β} {f : β → M α γ} (hm : Pres I K m) (hf : ∀ b, Pres I K (f b)) : Pres I K (m >>= f) := by
  intro s hs
  have h1 := hm s hs
  show match M.bind m f s with | .ok _ s' => _ | .thrown x s' => _ | .ub => _
  unfold M.bind
  cases e : m s with
  | ok b s' => rw [e] at h1; exact hf b s' h1
  | thrown x s' => rw [e] at h1; exact h1
  | ub => trivial

theorem pres_self {f : Vec → M α β} (hf : ∀ v luck, I luck v → Pres I K (f v)) : Pres I K (self >>= f) :=
  fun s hs => hf s.vec s.luck hs s hs

theorem pres_guarded {m : M α β} {r : M α Unit} (hm : Pres I K m) (hr : Pres I K r) : Pres I K (guarded m r) := by
  intro s hs
  have h1 := hm s hs
  unfold guarded
  cases e : m s with
  | ok b s' => rw [e] at h1; exact h1
  | thrown x s' =>
    rw [e] at h1
    have h2 := hr s' h1.2
    dsimp only
    cases e' : r s' with
    | ok b s' => rw [e'] at h2; exact ⟨h1.1, h2⟩
    | thrown x s' => trivial
    | ub => trivial
  | ub => trivial

theorem pres_caught {m r : M α β} (hm : Pres I K m) (hr : Pres I K r) : Pres I K (caught m r) := by
  intro s hs
  have h1 := hm s hs
  unfold caught
  cases e : m s with
  | ok b s' => rw [e] at h1; exact h1
  | thrown x s' => rw [e] at h1; exact hr s' h1.2
  | ub => trivial

theorem pres_finally {m : M α β} {r : M α Unit} (hm : Pres I K m) (hr : Pres I K r) : Pres I K (finally_ m r) :=
  pres_bind (pres_guarded hm hr) fun _ => pres_bind hr fun _ => pres_pure

theorem pres_ite {c : Prop} [Decidable c] {m r : M α β} (hm : c → Pres I K m) (hr : ¬ c → Pres I K r) : Pres I K (if c then m else r) := by
  by_cases h : c
  · rw [if_pos h]; exact hm h
  · rw [if_neg h]; exact hr h

theorem pres_may (h : Stab I K) (b : Bool) : Pres (α := α) I K (may b) := by
  intro s hs
  unfold may
  cases b with
  | false => exact hs
  | true =>
    rw [if_pos rfl]
    by_cases hl : s.luck 0 = true
    · rw [if_pos hl]; exact h.bad _ _ hs hl
    · rw [if_neg hl]; exact h.good _ _ hs (by simpa using hl)

theorem pres_cell {p : Option Nat} {i : Nat} : Pres (α := α) I K (cell p i) := by
  intro s hs
  unfold cell
  split
  · rename_i e
    split at e
    · cases e
    · split at e
      · cases e
      · split at e
        · injection e with _ e; subst e; exact hs
        · cases e
  · rename_i e
    split at e
    · cases e
    · split at e
      · cases e
      · split at e
        · cases e
        · cases e
  · trivial

theorem pres_setCell {p : Option Nat} {i : Nat} {c : Option α} : Pres I K (setCell p i c) := by
  intro s hs
  unfold setCell
  split
  · rename_i e
    split at e
    · cases e
    · split at e
      · cases e
      · split at e
        · injection e with _ e; subst e; exact hs
        · cases e
  · rename_i e
    split at e
    · cases e
    · split at e
      · cases e
      · split at e
        · cases e
        · cases e
  · trivial

theorem pres_memmove {p q : Option Nat} {d j n : Nat} : Pres (α := α) I K (memmove p d q j n) := by
  intro s hs
  unfold memmove
  by_cases hn : n = 0
  · rw [if_pos hn]; exact hs
  · rw [if_neg hn]
    cases p with
    | none => trivial
    | some p =>
      cases q with
      | none => trivial
      | some q =>
        dsimp only
        cases s.len p with
        | none => trivial
        | some a =>
          cases s.len q with
          | none => trivial
          | some b =>
            dsimp only
            by_cases h : d + n ≤ a ∧ j + n ≤ b
            · rw [if_pos h]; exact hs
            · rw [if_neg h]; trivial

theorem pres_newBlock {n : Nat} : Pres (α := α) I K (newBlock n) := fun _ h => h

theorem pres_dealloc {t : Traits α} {p : Option Nat} {n : Nat} : Pres I K (dealloc t p n) := by
  intro s hs
  unfold dealloc
  cases p with
  | none => trivial
  | some p =>
    dsimp only
    by_cases h : s.len p = some n ∧ (t.bits || allRaw s.mem p n) = true
    · rw [if_pos h]; exact hs
    · rw [if_neg h]; trivial

theorem pres_throw {x : Exc} (h : K x) : Pres (α := α) (β := β) I K (M.throw x) := fun _ hs => ⟨h, hs⟩

theorem pres_get {p : Option Nat} {i : Nat} : Pres (α := α) I K (get p i) := by
  unfold get
  refine pres_bind pres_cell fun c => ?_
  cases c with
  | none => exact pres_ub
  | some a => exact pres_pure

/-- The combinators. -/
macro "pres" : tactic => `(tactic| repeat' first
  | assumption
  | exact pres_pure | exact pres_ub | exact pres_cell | exact pres_setCell | exact pres_get | exact pres_memmove
  | exact pres_newBlock | exact pres_dealloc
  | exact pres_may (by assumption) _
  | exact pres_throw (Stab.huge (by assumption))
  | exact pres_throw (Stab.range (by assumption))
  | apply pres_self
  | apply pres_guarded
  | apply pres_caught
  | apply pres_finally
  | apply pres_bind
  | apply pres_ite
  | intro _)

section
variable (h : Stab I K) {t : Traits α}
include h

theorem pres_fetch {x : Src α} : Pres I K (fetch x) := by
  cases x <;> unfold fetch <;> pres

theorem pres_place {p : Option Nat} {i : Nat} {a : α} : Pres I K (place t p i a) := by
  unfold place; pres

theorem pres_build {p : Option Nat} {i : Nat} {x : Src α} : Pres I K (build t p i x) := by
  have := fun x => pres_fetch (α := α) (x := x) h
  have := fun a => pres_place (t := t) (p := p) (i := i) (a := a) h
  unfold build
  refine pres_bind (pres_fetch h) fun a => pres_bind (pres_may h _) fun _ => pres_place h

theorem pres_buildMove {p q : Option Nat} {i j : Nat} : Pres I K (buildMove t p i q j) := by
  unfold buildMove
  refine pres_bind pres_get fun a => pres_bind (pres_guarded (pres_may h _) pres_setCell) fun _ => pres_bind pres_setCell fun _ => pres_place h

theorem pres_destroy {p : Option Nat} {i : Nat} : Pres I K (destroy t p i) := by
  unfold destroy; pres

theorem pres_destroyN {p : Option Nat} : ∀ {n lo : Nat}, Pres I K (destroyN t p lo n)
  | 0, _ => pres_pure
  | _ + 1, _ => pres_bind (pres_destroy h) fun _ => pres_destroyN

theorem pres_destroyRange {p : Option Nat} {lo hi : Nat} : Pres I K (destroyRange t p lo hi) :=
  pres_ite (fun _ => pres_destroyN h) fun _ => pres_ub

theorem pres_assignAt {p : Option Nat} {i : Nat} {x : Src α} : Pres I K (assignAt t p i x) := by
  unfold assignAt
  refine pres_bind (pres_fetch h) fun a => ?_
  pres

theorem pres_moveAssign {p q : Option Nat} {i j : Nat} : Pres I K (moveAssign t p i q j) := by
  unfold moveAssign; pres

theorem pres_alloc {n : Nat} : Pres I K (alloc t n) := by
  unfold alloc; pres

theorem pres_buildLoop {p : Option Nat} {d : Nat} : ∀ {xs : List (Src α)} {i : Nat}, Pres I K (buildLoop t p d i xs)
  | [], _ => pres_pure
  | _ :: _, _ => pres_bind (pres_guarded (pres_build h) (pres_destroyRange h)) fun _ => pres_buildLoop

theorem pres_moveLoop {p q : Option Nat} {d j : Nat} : ∀ {n i : Nat}, Pres I K (moveLoop t p d q j i n)
  | 0, _ => pres_pure
  | _ + 1, _ => pres_bind (pres_guarded (pres_buildMove h) (pres_destroyRange h)) fun _ => pres_moveLoop

theorem pres_memcpy {p q : Option Nat} {d j n : Nat} : Pres (α := α) I K (memcpy p d q j n) :=
  pres_ite (fun _ => pres_ub) fun _ => pres_memmove

theorem pres_uninitCopy {p q : Option Nat} {d j n : Nat} : Pres I K (uninitCopy t p d q j n) :=
  pres_ite (fun _ => pres_memcpy h) fun _ => pres_buildLoop h

theorem pres_uninitMove {p q : Option Nat} {d j n : Nat} : Pres I K (uninitMove t p d q j n) :=
  pres_ite (fun _ => pres_memcpy h) fun _ => pres_moveLoop h

theorem pres_relocateMove {p q : Option Nat} {d j n : Nat} : Pres I K (relocateMove t p d q j n) :=
  pres_ite (fun _ => pres_memcpy h) fun _ => pres_ite (fun _ => pres_uninitMove h) fun _ => pres_uninitCopy h

theorem pres_relocateDone {q : Option Nat} {j n : Nat} : Pres I K (relocateDone t q j n) :=
  pres_ite (fun _ => pres_pure) fun _ => pres_destroyRange h

theorem pres_relocateUndo {p q : Option Nat} {d j n : Nat} : Pres I K (relocateUndo t p d q j n) :=
  pres_ite (fun _ => pres_pure) fun _ => pres_ite (fun _ => pres_relocateMove h) fun _ => pres_destroyRange h

theorem pres_relocate {b : Option Nat} : Pres I K (relocate t b) :=
  pres_self fun _ _ _ => pres_bind (pres_relocateMove h) fun _ => pres_relocateDone h

theorem pres_copyOf {x : Src α} : Pres I K (copyOf t x) :=
  pres_bind (pres_fetch h) fun _ => pres_bind (pres_may h _) fun _ => pres_pure

theorem pres_asVT {x : Src α} : Pres I K (asVT t x) :=
  pres_ite (fun _ => pres_bind (pres_fetch h) fun _ => pres_pure) fun _ => pres_pure

theorem pres_assignLoop {p : Option Nat} : ∀ {xs : List (Src α)} {i : Nat}, Pres I K (assignLoop t p i xs)
  | [], _ => pres_pure
  | _ :: _, _ => pres_bind (pres_assignAt h) fun _ => pres_assignLoop

theorem pres_assignSome {p : Option Nat} {e : Nat} : ∀ {xs : List (Src α)} {i : Nat}, Pres I K (assignSome t p e i xs)
  | [], _ => pres_pure
  | _ :: _, _ => pres_ite (fun _ => pres_bind (pres_assignAt h) fun _ => pres_assignSome) fun _ => pres_pure

theorem pres_moveDown {p : Option Nat} : ∀ {n d s : Nat}, Pres I K (moveDown t p d s n)
  | 0, _, _ => pres_pure
  | _ + 1, _, _ => pres_bind (pres_moveAssign h) fun _ => pres_moveDown

theorem pres_moveUp {p : Option Nat} : ∀ {n d s : Nat}, Pres I K (moveUp t p d s n)
  | 0, _, _ => pres_pure
  | _ + 1, _, _ => pres_bind (pres_moveAssign h) fun _ => pres_moveUp

theorem pres_wrapFrame {b : Option Nat} {idx n : Nat} : Pres I K (wrapFrame t b idx n) :=
  pres_self fun _ _ _ => pres_ite (fun _ => pres_bind (pres_relocateMove h) fun _ =>
    pres_bind (pres_guarded (pres_relocateMove h) (pres_relocateUndo h)) fun _ =>
    pres_bind (pres_relocateDone h) fun _ => pres_relocateDone h) fun _ => pres_ub

theorem pres_removeLoop {bad : α → Bool} {p : Option Nat} : ∀ {n r i : Nat}, Pres I K (removeLoop t bad p r i n)
  | 0, _, _ => pres_pure
  | _ + 1, _, _ => pres_bind pres_get fun _ => pres_ite (fun _ => pres_removeLoop) fun _ => pres_ite (fun _ => pres_removeLoop)
      fun _ => pres_bind (pres_moveAssign h) fun _ => pres_removeLoop

theorem pres_equalLoop {eq : α → α → Bool} {p q : Option Nat} : ∀ {n i : Nat}, Pres I K (equalLoop eq p q i n)
  | 0, _ => pres_pure
  | _ + 1, _ => pres_bind pres_get fun _ => pres_bind pres_get fun _ => pres_ite (fun _ => pres_equalLoop) fun _ => pres_pure

theorem pres_lessLoop {lt : α → α → Bool} {p q : Option Nat} : ∀ {n m i : Nat}, Pres I K (lessLoop lt p q i n m)
  | 0, 0, _ => pres_pure
  | _ + 1, 0, _ => pres_pure
  | 0, _ + 1, _ => pres_pure
  | n + 1, m + 1, i => by
    unfold lessLoop
    exact pres_bind pres_get fun _ => pres_bind pres_get fun _ => pres_ite (fun _ => pres_pure) fun _ =>
      pres_ite (fun _ => pres_pure) fun _ => pres_lessLoop

theorem pres_index {i : Nat} : Pres (α := α) I K (index i) := by
  unfold index; pres

theorem pres_at {i : Nat} : Pres (α := α) I K (at_ i) := by
  have := pres_index (α := α) (i := i) h
  unfold at_; pres

theorem pres_front : Pres (α := α) I K front := by
  unfold front; pres

theorem pres_back : Pres (α := α) I K back := by
  unfold back; pres

theorem pres_equal {eq : α → α → Bool} {o : Vec} : Pres I K (equal eq o) :=
  pres_self fun _ _ _ => pres_ite (fun _ => pres_equalLoop h) fun _ => pres_pure

theorem pres_less {lt : α → α → Bool} {o : Vec} : Pres I K (less lt o) :=
  pres_self fun _ _ _ => pres_lessLoop h

/-! ### Operations within the capacity -/

theorem pres_setE (hi : Inner I) {v v' : Vec} {f : Nat → Bool} (hI : I f v) (hb : v'.b = v.b) (hz : v'.z = v.z) :
    Pres (α := α) I K (setVec v') := fun _ hs => hi _ _ _ _ _ hI hs hb hz

theorem pres_destroyRangeE (hi : Inner I) {pos : Nat} : Pres I K (destroyRangeE t pos) :=
  pres_self fun _ _ hv => pres_bind (pres_destroyRange h) fun _ => pres_setE h hi hv rfl rfl

theorem pres_appendE (hi : Inner I) {xs : List (Src α)} : Pres I K (appendE t xs) :=
  pres_self fun _ _ hv => pres_bind (pres_buildLoop h) fun _ => pres_setE h hi hv rfl rfl

theorem pres_appendCopyE (hi : Inner I) {q : Option Nat} {j n : Nat} : Pres I K (appendCopyE t q j n) :=
  pres_self fun _ _ hv => pres_bind (pres_uninitCopy h) fun _ => pres_setE h hi hv rfl rfl

theorem pres_popBack (hi : Inner I) : Pres I K (popBack t) :=
  pres_self fun _ _ hv => pres_ite (fun _ => pres_ub) fun _ => pres_bind (pres_setE h hi hv rfl rfl) fun _ => pres_destroy h

theorem pres_clear (hi : Inner I) : Pres I K (clear t) := pres_destroyRangeE h hi

theorem pres_erase (hi : Inner I) {a b : Nat} : Pres I K (erase t a b) := by
  unfold erase
  refine pres_self fun v _ hv => pres_ite (fun _ => ?_) fun _ => pres_ub
  have hd : ∀ pos, Pres I K (destroyRangeE t pos) := fun _ => pres_destroyRangeE h hi
  have hr : ∀ p lo hi, Pres I K (destroyRange t p lo hi) := fun _ _ _ => pres_destroyRange h
  have hc : ∀ p q d j n, Pres (α := α) I K (memcpy p d q j n) := fun _ _ _ _ _ => pres_memcpy h
  have hm : ∀ p d s n, Pres I K (moveDown t p d s n) := fun _ _ _ _ => pres_moveDown h
  have hs : Pres (α := α) I K (setVec { v with e := v.e - (b - a) }) := pres_setE h hi hv rfl rfl
  repeat' first
    | exact pres_pure | exact hd _ | exact hr _ _ _ | exact hc _ _ _ _ _ | exact hm _ _ _ _ | exact hs | exact pres_memmove
    | apply pres_bind | apply pres_ite | intro _

theorem pres_eraseIf (hi : Inner I) {bad : α → Bool} : Pres I K (eraseIf t bad) :=
  pres_self fun _ _ _ => pres_bind (pres_removeLoop h) fun _ => pres_bind (pres_erase h hi) fun _ => pres_pure

theorem pres_makeWindow (hi : Inner I) {pos n : Nat} : Pres I K (makeWindow t pos n) := by
  unfold makeWindow
  refine pres_self fun v _ hv => ?_
  have hset : ∀ e, Pres (α := α) I K (setVec { v with e := e }) := fun _ => pres_setE h hi hv rfl rfl
  refine pres_ite (fun _ => pres_bind (pres_relocateMove h) fun _ => pres_bind (pres_relocateDone h) fun _ => hset _) fun _ => ?_
  refine pres_ite (fun _ => pres_bind pres_memmove fun _ => hset _) fun _ => ?_
  refine pres_bind (pres_uninitMove h) fun _ => pres_bind (pres_guarded (pres_moveUp h) ?_) fun _ => ?_
  · exact pres_bind (pres_destroyRange h) fun _ => hset _
  · exact pres_bind (hset _) fun _ => pres_destroyRange h

theorem pres_undoWindow (hi : Inner I) {pos n : Nat} : Pres I K (undoWindow t pos n) :=
  pres_self fun _ _ hv => pres_bind (pres_destroyRange h) fun _ => pres_setE h hi hv rfl rfl

/-! ### All operations, for facts that do not depend on the vector -/

theorem pres_set (hf : Free I) {v : Vec} : Pres (α := α) I K (setVec v) := fun _ hs => hf _ _ _ hs

omit h in
theorem Free.inner (hf : Free I) : Inner I := fun _ _ _ _ _ _ h _ _ => hf _ _ _ h

theorem pres_destroyAll : Pres I K (destroyAll t) :=
  pres_self fun _ _ _ => pres_ite (fun _ => pres_bind (pres_destroyRange h) fun _ => pres_dealloc) fun _ => pres_pure

theorem pres_init (hf : Free I) {n : Nat} : Pres I K (init t n) :=
  pres_ite (fun _ => pres_set h hf) fun _ => pres_bind (pres_alloc h) fun _ => pres_set h hf

theorem pres_resetTo (hf : Free I) {n : Nat} : Pres I K (resetTo t n) :=
  pres_bind (pres_destroyAll h) fun _ => pres_guarded (pres_init h hf) (pres_init h hf)

theorem pres_reset (hf : Free I) : Pres I K (reset t) :=
  pres_bind (pres_destroyAll h) fun _ => pres_set h hf

theorem pres_reserve (hf : Free I) {n : Nat} : Pres I K (reserve t n) :=
  pres_self fun _ _ _ => pres_ite (fun _ => pres_pure) fun _ => pres_bind (pres_alloc h) fun _ =>
    pres_bind (pres_guarded (pres_relocate h) pres_dealloc) fun _ =>
    pres_ite (fun _ => pres_bind pres_dealloc fun _ => pres_set h hf) fun _ => pres_set h hf

theorem pres_shrinkToFit (hf : Free I) : Pres I K (shrinkToFit t) := by
  unfold shrinkToFit
  refine pres_self fun v _ _ => pres_ite (fun _ => pres_reset h hf) fun _ => ?_
  refine pres_ite (fun _ => pres_pure) fun _ => ?_
  refine pres_bind (pres_caught (pres_bind (pres_alloc h) fun _ => pres_pure) pres_pure) fun b => ?_
  cases b with
  | none => exact pres_pure
  | some b =>
    refine pres_bind (pres_caught (pres_bind (pres_relocate h) fun _ => pres_pure) (pres_bind pres_dealloc fun _ => pres_pure)) fun _ => ?_
    refine pres_ite (fun _ => ?_) fun _ => pres_pure
    exact pres_ite (fun _ => pres_bind pres_dealloc fun _ => pres_set h hf) fun _ => pres_set h hf

theorem pres_emplaceBackAux (hf : Free I) {x : Src α} : Pres I K (emplaceBackAux t x) := by
  unfold emplaceBackAux
  refine pres_self fun v _ _ => pres_bind (pres_alloc h) fun _ => pres_bind (pres_guarded ?_ pres_dealloc) fun _ => ?_
  · refine pres_ite (fun _ => pres_bind (pres_relocateMove h) fun _ => pres_build h) fun _ => ?_
    exact pres_bind (pres_build h) fun _ => pres_guarded (pres_relocate h) (pres_destroy h)
  · exact pres_ite (fun _ => pres_bind pres_dealloc fun _ => pres_set h hf) fun _ => pres_set h hf

theorem pres_pushBack (hf : Free I) {x : Src α} : Pres I K (pushBack t x) :=
  pres_self fun _ _ _ => pres_ite (fun _ => pres_bind (pres_build h) fun _ => pres_set h hf) fun _ => pres_emplaceBackAux h hf

theorem pres_resize (hf : Free I) {n : Nat} : Pres I K (resize t n) :=
  pres_self fun _ _ _ => pres_ite (fun _ => pres_destroyRangeE h hf.inner) fun _ =>
    pres_bind (pres_reserve h hf) fun _ => pres_appendE h hf.inner

theorem pres_resizeWith (hf : Free I) {n : Nat} {x : Src α} : Pres I K (resizeWith t n x) :=
  pres_bind (pres_asVT h) fun _ => pres_self fun _ _ _ => pres_ite (fun _ => pres_destroyRangeE h hf.inner) fun _ =>
    pres_ite (fun _ => pres_bind (pres_copyOf h) fun _ => pres_bind (pres_reserve h hf) fun _ => pres_appendE h hf.inner)
      fun _ => pres_bind (pres_reserve h hf) fun _ => pres_appendE h hf.inner

theorem pres_assignFill (hf : Free I) {n : Nat} {x : Src α} : Pres I K (assignFill t n x) :=
  pres_bind (pres_asVT h) fun _ => pres_self fun _ _ _ => pres_ite
    (fun _ => pres_ite (fun _ => pres_bind (pres_copyOf h) fun _ => pres_bind (pres_resetTo h hf) fun _ => pres_appendE h hf.inner)
      fun _ => pres_bind (pres_resetTo h hf) fun _ => pres_appendE h hf.inner)
    fun _ => pres_ite (fun _ => pres_bind (pres_assignLoop h) fun _ => pres_destroyRangeE h hf.inner)
      fun _ => pres_bind (pres_assignLoop h) fun _ => pres_appendE h hf.inner

theorem pres_assignForward (hf : Free I) {xs : List (Src α)} : Pres I K (assignForward t xs) :=
  pres_self fun _ _ _ => pres_ite (fun _ => pres_bind (pres_resetTo h hf) fun _ => pres_appendE h hf.inner)
    fun _ => pres_ite (fun _ => pres_bind (pres_assignLoop h) fun _ => pres_destroyRangeE h hf.inner)
      fun _ => pres_bind (pres_assignLoop h) fun _ => pres_appendE h hf.inner

theorem pres_pushAll (hf : Free I) : ∀ {xs : List (Src α)}, Pres I K (pushAll t xs)
  | [] => pres_pure
  | _ :: _ => pres_bind (pres_pushBack h hf) fun _ => pres_pushAll hf

theorem pres_assignInput (hf : Free I) {xs : List (Src α)} : Pres I K (assignInput t xs) := by
  unfold assignInput
  refine pres_self fun v _ _ => pres_bind (pres_assignSome h) fun r => ?_
  obtain ⟨p, rest⟩ := r
  exact pres_ite (fun _ => pres_destroyRangeE h hf.inner) fun _ => pres_pushAll h hf

theorem pres_doRealInsert (hf : Free I) {pos n : Nat} {b : Bool} {m : M α Nat} {c d : Option Nat → Nat → M α Unit}
    (hm : Pres I K m) (hc : ∀ p i, Pres I K (c p i)) (hd : ∀ p i, Pres I K (d p i)) : Pres I K (doRealInsert t pos n b m c d) := by
  unfold doRealInsert
  refine pres_self fun v _ _ => pres_ite (fun _ => pres_pure) fun _ => ?_
  refine pres_ite (fun _ => hm) fun _ => pres_ite (fun _ => pres_ub) fun _ => pres_ite (fun _ => ?_) fun _ => ?_
  · refine pres_bind (pres_alloc h) fun _ => pres_bind (pres_guarded (hc _ _) pres_dealloc) fun _ =>
      pres_bind (pres_guarded (pres_wrapFrame h) (pres_bind (hd _ _) fun _ => pres_dealloc)) fun _ => ?_
    exact pres_ite (fun _ => pres_bind pres_dealloc fun _ => pres_bind (pres_set h hf) fun _ => pres_pure)
      fun _ => pres_bind (pres_set h hf) fun _ => pres_pure
  · have hg : ∀ atEnd : Bool, Pres I K (guarded (c v.b pos) (if !atEnd then undoWindow t pos n
         else do
          let w ← self
          setVec { w with e := w.e - n })) := fun _ => pres_guarded (hc _ _) (pres_ite (fun _ => pres_undoWindow h hf.inner)
            fun _ => pres_self fun _ _ _ => pres_set h hf)
    exact pres_ite (fun _ => pres_bind (pres_makeWindow h hf.inner) fun _ => pres_bind (hg _) fun _ => pres_pure)
      fun _ => pres_bind (pres_set h hf) fun _ => pres_bind (hg _) fun _ => pres_pure

theorem pres_emplace (hf : Free I) {pos : Nat} {x : Src α} : Pres I K (emplace t pos x) :=
  pres_doRealInsert h hf pres_pure (fun _ _ => pres_build h) (fun _ _ => pres_destroy h)

theorem pres_insertOne (hf : Free I) {pos : Nat} {x : Src α} : Pres I K (insertOne t pos x) :=
  pres_self fun _ _ _ => pres_doRealInsert h hf
    (pres_bind (pres_copyOf h) fun _ => pres_doRealInsert h hf pres_ub (fun _ _ => pres_build h) (fun _ _ => pres_destroy h))
    (fun _ _ => pres_build h) (fun _ _ => pres_destroy h)

theorem pres_insertFill (hf : Free I) {pos n : Nat} {x : Src α} : Pres I K (insertFill t pos n x) :=
  pres_bind (pres_asVT h) fun _ => pres_self fun _ _ _ => pres_doRealInsert h hf
    (pres_bind (pres_copyOf h) fun _ => pres_doRealInsert h hf pres_ub (fun _ _ => pres_buildLoop h) (fun _ _ => pres_destroyRange h))
    (fun _ _ => pres_buildLoop h) (fun _ _ => pres_destroyRange h)

theorem pres_insertForward (hf : Free I) {pos : Nat} {xs : List (Src α)} : Pres I K (insertForward t pos xs) :=
  pres_doRealInsert h hf pres_pure (fun _ _ => pres_buildLoop h) (fun _ _ => pres_destroyRange h)

theorem pres_insertMoved (hf : Free I) {pos n : Nat} {q : Option Nat} : Pres I K (insertMoved t pos q n) :=
  pres_doRealInsert h hf pres_pure (fun _ _ => pres_uninitMove h) (fun _ _ => pres_destroyRange h)

theorem pres_insertInput (hf : Free I) {pos : Nat} {xs : List (Src α)} : Pres I K (insertInput t pos xs) :=
  pres_self fun _ _ _ => pres_ite (fun _ => pres_ub) fun _ => pres_ite
    (fun _ => pres_bind (pres_destroyRangeE h hf.inner) fun _ => pres_bind (pres_pushAll h hf) fun _ => pres_pure)
    fun _ => pres_bind (pres_alloc h) fun _ => pres_bind (pres_guarded (pres_uninitMove h) pres_dealloc) fun _ =>
      pres_bind (pres_finally
        (pres_bind (pres_destroyRangeE h hf.inner) fun _ => pres_bind (pres_pushAll h hf) fun _ => pres_self fun _ _ _ =>
          pres_bind (pres_insertMoved h hf) fun _ => pres_pure)
        (pres_bind (pres_destroyRange h) fun _ => pres_dealloc)) fun _ => pres_pure

theorem pres_newSized (hf : Free I) {n : Nat} : Pres I K (newSized t n) :=
  pres_bind (pres_init h hf) fun _ => pres_guarded (pres_appendE h hf.inner) (pres_reset h hf)

theorem pres_newFill (hf : Free I) {n : Nat} {x : Src α} : Pres I K (newFill t n x) :=
  pres_bind (pres_asVT h) fun _ => pres_bind (pres_init h hf) fun _ => pres_guarded (pres_appendE h hf.inner) (pres_reset h hf)

theorem pres_newForward (hf : Free I) {xs : List (Src α)} : Pres I K (newForward t xs) :=
  pres_bind (pres_init h hf) fun _ => pres_guarded (pres_appendE h hf.inner) (pres_reset h hf)

theorem pres_newInput (hf : Free I) {xs : List (Src α)} : Pres I K (newInput t xs) :=
  pres_bind (pres_set h hf) fun _ => pres_guarded (pres_pushAll h hf) (pres_reset h hf)

theorem pres_newCopy (hf : Free I) {o : Vec} : Pres I K (newCopy t o) :=
  pres_bind (pres_init h hf) fun _ => pres_guarded (pres_appendCopyE h hf.inner) (pres_reset h hf)

theorem pres_copyAssign (hf : Free I) {o : Vec} : Pres I K (copyAssign t o) :=
  pres_self fun _ _ _ => pres_ite (fun _ => pres_bind (pres_resetTo h hf) fun _ => pres_appendCopyE h hf.inner)
    fun _ => pres_ite (fun _ => pres_bind (pres_assignLoop h) fun _ => pres_destroyRangeE h hf.inner)
      fun _ => pres_bind (pres_assignLoop h) fun _ => pres_appendCopyE h hf.inner

theorem pres_quiet {m : M α β} (hm : Pres I K m) : Pres I K (quiet m) := pres_bind hm fun _ => pres_pure

theorem pres_placed {m : M α Nat} (hm : Pres I K m) : Pres I K (place_ m) := pres_bind hm fun _ => pres_pure

theorem pres_value {m : M α α} (hm : Pres I K m) : Pres I K (value m) := pres_bind hm fun _ => pres_pure

end

/-! ### Nothing throws when nothing wants to -/

/-- No constructor, assignment or allocation will throw. -/
def calm (f : Nat → Bool) (_ : Vec) : Prop := ∀ i, f i = false

theorem calm_stab : Stab calm (· ≠ .failed) where
  good _ _ h _ i := h (i + 1)
  bad f v h h0 := by rw [h 0] at h0; cases h0
  huge := by simp
  range := by simp

theorem calm_free : Free calm := fun _ _ _ h => h

/-- Nothing has thrown, and nothing will. -/
def StaysCalm : Out (World α) (Ans α) → Prop
  | .ok _ w' => ∀ i, w'.luck i = false
  | .thrown x w' => x ≠ .failed ∧ ∀ i, w'.luck i = false
  | .ub => True

theorem calm_on {w : World α} {i : Nat} {m : M α (Ans α)} (hw : ∀ i, w.luck i = false) (hm : Pres calm (· ≠ .failed) m) :
    StaysCalm (w.on i m) := by
  unfold World.on
  cases w.vecs i with
  | none => trivial
  | some v =>
    dsimp only
    have := hm (w.state v) hw
    cases e : m (w.state v) <;> rw [e] at this <;> exact this

theorem calm_make {w : World α} {i : Nat} {m : M α (Ans α)} (hw : ∀ i, w.luck i = false) (hm : Pres calm (· ≠ .failed) m) :
    StaysCalm (w.make i m) := by
  unfold World.make
  cases w.vecs i with
  | some v => trivial
  | none =>
    dsimp only
    have := hm (w.state ⟨none, 0, 0⟩) hw
    cases e : m (w.state ⟨none, 0, 0⟩) <;> rw [e] at this <;> exact this

theorem calm_arg {w : World α} {x : Arg α} {f : Src α → Out (World α) (Ans α)} (h : ∀ y, StaysCalm (f y)) : StaysCalm (w.arg x f) := by
  unfold World.arg
  cases w.src x with
  | none => trivial
  | some y => exact h y

theorem calm_args {w : World α} {x : List (Arg α)} {f : List (Src α) → Out (World α) (Ans α)} (h : ∀ y, StaysCalm (f y)) : StaysCalm (w.args x f) := by
  unfold World.args
  cases w.srcs x with
  | none => trivial
  | some y => exact h y

theorem calm_other {w : World α} {j : Nat} {f : Vec → Out (World α) (Ans α)} (h : ∀ y, StaysCalm (f y)) : StaysCalm (w.other j f) := by
  unfold World.other
  cases w.vecs j with
  | none => trivial
  | some y => exact h y

theorem step_calm (t : Traits α) {w : World α} (hw : ∀ i, w.luck i = false) (op : Op α) : StaysCalm (step t w op) := by
  have c := calm_stab
  have f := calm_free
  cases op with
  | create i => exact calm_make hw pres_pure
  | createSized i n => exact calm_make hw (pres_quiet c (pres_newSized c f))
  | createFill i n x => exact calm_arg fun _ => calm_make hw (pres_quiet c (pres_newFill c f))
  | createRange i xs input =>
    refine calm_args fun _ => calm_make hw (pres_quiet c (pres_ite (fun _ => pres_newInput c f) fun _ => pres_newForward c f))
  | createCopy i j => exact calm_other fun _ => calm_make hw (pres_quiet c (pres_newCopy c f))
  | createMove i j =>
    simp only [step, World.moveTo]
    split
    · exact hw
    · trivial
  | drop i =>
    simp only [step, World.destruct]
    cases w.vecs i with
    | none => trivial
    | some v =>
      dsimp only
      have := pres_destroyAll (t := t) c (w.state v) hw
      cases e : destroyAll t (w.state v) <;> rw [e] at this <;> exact this
  | copyAssign i j => exact calm_other fun _ => calm_on hw (pres_ite (fun _ => pres_pure) fun _ => pres_quiet c (pres_copyAssign c f))
  | moveAssign i j | swap i j =>
    all_goals
      simp only [step, World.exchange]
      split
      · exact hw
      · trivial
  | pushBack i x => exact calm_arg fun _ => calm_on hw (pres_quiet c (pres_pushBack c f))
  | popBack i => exact calm_on hw (pres_quiet c (pres_popBack c f.inner))
  | clear i => exact calm_on hw (pres_quiet c (pres_clear c f.inner))
  | reserve i n => exact calm_on hw (pres_quiet c (pres_reserve c f))
  | shrinkToFit i => exact calm_on hw (pres_quiet c (pres_shrinkToFit c f))
  | resize i n => exact calm_on hw (pres_quiet c (pres_resize c f))
  | resizeWith i n x => exact calm_arg fun _ => calm_on hw (pres_quiet c (pres_resizeWith c f))
  | assignFill i n x => exact calm_arg fun _ => calm_on hw (pres_quiet c (pres_assignFill c f))
  | assignRange i xs input =>
    exact calm_args fun _ => calm_on hw (pres_quiet c (pres_ite (fun _ => pres_assignInput c f) fun _ => pres_assignForward c f))
  | insert i pos x => exact calm_arg fun _ => calm_on hw (pres_placed c (pres_insertOne c f))
  | emplace i pos x => exact calm_arg fun _ => calm_on hw (pres_placed c (pres_emplace c f))
  | insertFill i pos n x => exact calm_arg fun _ => calm_on hw (pres_placed c (pres_insertFill c f))
  | insertRange i pos xs input =>
    exact calm_args fun _ => calm_on hw (pres_placed c (pres_ite (fun _ => pres_insertInput c f) fun _ => pres_insertForward c f))
  | erase i a b => exact calm_on hw (pres_placed c (pres_erase c f.inner))
  | eraseIf i p => exact calm_on hw (pres_quiet c (pres_eraseIf c f.inner))
  | write i k x => exact calm_arg fun _ => calm_on hw (pres_self fun _ _ _ => pres_bind (pres_assignAt c) fun _ => pres_pure)
  | size i =>
    simp only [step]
    exact calm_on hw (pres_self fun _ _ _ => pres_pure)
  | index i k => exact calm_on hw (pres_value c (pres_index c))
  | at_ i k => exact calm_on hw (pres_value c (pres_at c))
  | front i => exact calm_on hw (pres_value c (pres_front c))
  | back i => exact calm_on hw (pres_value c (pres_back c))
  | equal i j eq => exact calm_other fun _ => calm_on hw (pres_bind (pres_equal c) fun _ => pres_pure)
  | less i j lt => exact calm_other fun _ => calm_on hw (pres_bind (pres_less c) fun _ => pres_pure)

end Gtl.Vec
