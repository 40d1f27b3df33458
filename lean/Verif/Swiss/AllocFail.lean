import Verif.Swiss.History
import Verif.Spec.AssocAlloc
/-!
# Hash containers whose allocator may fail

The functions below are those of `Verif.Swiss.Table` and `Verif.Swiss.World` that may allocate, with an extra argument
`b`: the number of further allocations that succeed.  The next one throws `std::bad_alloc`.  Allocation happens in one
place only, the call of `Allocate` in `initialize_slots` (phmap.hpp:2634-2644), before any member is changed.
Simplification: the memory of the elements themselves (strings, nodes of `node_hash_map`) is not counted; a throwing
element constructor is `Verif.Swiss.Throw`.
-/

namespace Gtl.Swiss

open Gtl.Spec (Op WOp Resp put Out)

/-- A call that finished with `x`, after which `left` allocations may still succeed; or a call that ended with
`std::bad_alloc` and left the state `s`. -/
inductive Tried (σ β : Type) where
  | done (x : β) (left : Nat)
  | failed (s : σ)
  deriving DecidableEq

variable {α κ σ β γ : Type}

/-- Code that does not allocate. -/
def Res.plain (b : Nat) (x : Res β) : Res (Tried σ β) := do
  let y ← x
  .ok (.done y b)

/-- Code that does not allocate, run after code that may; an exception skips it. -/
def Res.rest (x : Res (Tried σ β)) (f : β → Res γ) : Res (Tried σ γ) := do
  match ← x with
  | .failed s => .ok (.failed s)
  | .done y left => do
    let z ← f y
    .ok (.done z left)

namespace Tbl
variable (C : Cfg α κ)

/-- `resize` (phmap.hpp:2670-2692): `Allocate` comes first. -/
def resizeA (b : Nat) (t : Tbl α) (newCap : Nat) : Res (Tried (Tbl α) (Tbl α)) :=
  match b with
  | 0 => .ok (.failed t)
  | b + 1 => Res.plain b (t.resize C newCap)

/-- `rehash_and_grow_if_necessary` (phmap.hpp:2759-2769). -/
def rehashAndGrowA (b : Nat) (t : Tbl α) : Res (Tried (Tbl α) (Tbl α)) :=
  if t.capacity = 0 then t.resizeA C b 1
  else if t.size ≤ capacityToGrowth C.G.W t.capacity / 2 then Res.plain b (t.dropDeletes C)
  else t.resizeA C b (t.capacity * 2 + 1)

/-- The end of `prepare_insert` (phmap.hpp:2876-2880): count the element in. -/
def countIn (t : Tbl α) (target : Nat) : Res (Tbl α × Nat) := do
  let c ← t.ctrlAt target
  .ok ({ t with size := t.size + 1
                growthLeft := usub t.growthLeft (if isEmpty c then 1 else 0) }, target)

/-- `prepare_insert` (phmap.hpp:2867-2881). -/
def prepareInsertA (b : Nat) (t : Tbl α) (hashval : Nat) : Res (Tried (Tbl α) (Tbl α × Nat)) := do
  let target ← t.findFirstNonFull C hashval
  let c ← t.ctrlAt target
  if t.growthLeft = 0 ∧ ¬ isDeleted c then
    Res.rest (t.rehashAndGrowA C b) (fun t => do
      let target ← t.findFirstNonFull C hashval
      t.countIn target)
  else Res.plain b (t.countIn target)

/-- `emplace_decomposable` (phmap.hpp:2543-2552), `lazy_emplace_with_hash`, `InsertSlot`, `try_emplace_impl`. -/
def emplaceHashA (b : Nat) (t : Tbl α) (k : κ) (hashval : Nat) (mk : Unit → α) :
    Res (Tried (Tbl α) (Tbl α × Nat × Bool)) := do
  match ← t.findHash C k hashval with
  | some off => .ok (.done (t, off, false) b)
  | none => Res.rest (t.prepareInsertA C b hashval) (fun (t, off) => do
      let t ← t.constructSlot off (mk ())
      let t ← t.setCtrl C.G.W off (H2 hashval)
      .ok (t, off, true))

/-- `emplace(args...)` / `insert(value)` (phmap.hpp:1941-1985, 2068-2071). -/
def emplaceA (b : Nat) (t : Tbl α) (a : α) : Res (Tried (Tbl α) (Tbl α × Nat × Bool)) :=
  t.emplaceHashA C b (C.key a) (C.hash (C.key a)) (fun _ => a)

/-- `insert_or_assign_impl` (phmap.hpp:3140-3151). -/
def insertOrAssignA (b : Nat) (t : Tbl α) (a : α) (f : α → α) : Res (Tried (Tbl α) (Tbl α × Nat × Bool)) := do
  let hashval := C.hash (C.key a)
  match ← t.findHash C (C.key a) hashval with
  | none => Res.rest (t.prepareInsertA C b hashval) (fun (t, off) => do
      let t ← t.constructSlot off a
      let t ← t.setCtrl C.G.W off (H2 hashval)
      .ok (t, off, true))
  | some off => Res.plain b (do
      let t ← t.assignAt off f
      .ok (t, off, false))

/-- `emplace_single_with_hash` (phmap.hpp:2210-2219). -/
def emplaceSingleA (b : Nat) (t : Tbl α) (k : κ) (hashval : Nat) (mk : Unit → α) : Res (Tried (Tbl α) (Tbl α)) := do
  match ← t.findHash C k hashval with
  | some off => Res.plain b (t.eraseAt C off)
  | none => Res.rest (t.prepareInsertA C b hashval) (fun (t, off) => do
      let t ← t.constructSlot off (mk ())
      t.setCtrl C.G.W off (H2 hashval))

/-- `insert(node_type&&)` (phmap.hpp:2027-2039): the handle is reset after the insertion, so an exception leaves the
element in it. -/
def insertNodeA (b : Nat) (t : Tbl α) (node : Option α) :
    Res (Tried (Tbl α) (Tbl α × Option Nat × Bool × Option α)) :=
  match node with
  | none => .ok (.done (t, none, false, none) b)
  | some a => Res.rest (t.emplaceHashA C b (C.key a) (C.hash (C.key a)) (fun _ => a)) (fun (t, off, ins) =>
      .ok (t, some off, ins, if ins then none else some a))

/-- `rehash(n)` (phmap.hpp:2338-2353). -/
def rehashA (b : Nat) (t : Tbl α) (n : Nat) : Res (Tried (Tbl α) (Tbl α)) :=
  if n = 0 ∧ t.capacity = 0 then .ok (.done t b)
  else if n = 0 ∧ t.size = 0 then Res.plain b t.destroySlots
  else
    let m := normalizeCapacity (max n t.size)
    if n = 0 ∨ m > t.capacity then t.resizeA C b m else .ok (.done t b)

/-- `reserve(n)` (phmap.hpp:2355). -/
def reserveA (b : Nat) (t : Tbl α) (n : Nat) : Res (Tried (Tbl α) (Tbl α)) :=
  t.rehashA C b (growthToLowerboundCapacity C.G.W n)

/-- The loop of `insert(first, last)` (phmap.hpp:2010-2011). -/
def insertAllA : Nat → Tbl α → List α → Res (Tried (Tbl α) (Tbl α))
  | b, t, [] => .ok (.done t b)
  | b, t, v :: vs => do
    match ← t.emplaceA C b v with
    | .failed t => .ok (.failed t)
    | .done (t, _, _) left => insertAllA left t vs

/-- `insert(first, last)` for random access ranges (phmap.hpp:2007-2012). -/
def insertRangeA (b : Nat) (t : Tbl α) (vs : List α) : Res (Tried (Tbl α) (Tbl α)) := do
  match ← t.reserveA C b (t.size + vs.length) with
  | .failed t => .ok (.failed t)
  | .done t left => insertAllA C left t vs

/-- Explicit constructor with a bucket count (phmap.hpp:1708-1720).  When it throws there is no container. -/
def withBucketsA (b : Nat) (n : Nat) : Tried Unit (Tbl α) :=
  if n = 0 then .done empty b
  else match b with
    | 0 => .failed ()
    | b + 1 => .done (withBuckets C n) b

/-- The part of the copy constructor after `reserve` (phmap.hpp:1820-1829). -/
def fillFrom (that t : Tbl α) : Res (Tbl α) := do
  let vs ← that.iterate C
  let t ← vs.foldlM (fun t v => do
    let hashval := C.hash (C.key v)
    let target ← t.findFirstNonFull C hashval
    let t ← t.setCtrl C.G.W target (H2 hashval)
    t.constructSlot target v) t
  .ok { t with size := that.size, growthLeft := usub t.growthLeft that.size }

/-- Copy constructor (phmap.hpp:1817-1830).  It delegates to another constructor, so an exception runs the destructor of
the table made so far, which the caller of this function does. -/
def copyA (b : Nat) (that : Tbl α) : Res (Tried (Tbl α) (Tbl α)) :=
  Res.rest ((empty : Tbl α).rehashA C b that.capacity) (fun t => fillFrom C that t)

/-- Copy assignment (phmap.hpp:1871-1876): `tmp(that); swap(tmp);` and the destructor of `tmp`. -/
def copyAssignA (b : Nat) (t that : Tbl α) : Res (Tried (Tbl α) (Tbl α)) := do
  match ← that.copyA C b with
  | .failed tmp => do
    let _ ← tmp.destroySlots
    .ok (.failed t)
  | .done tmp left => do
    let (t, tmp) := swap t tmp
    let _ ← tmp.destroySlots
    .ok (.done t left)

/-- Loop of `merge` (phmap.hpp:2283-2291): `(dst, src)`. -/
def mergeLoopA : Nat → Nat → Tbl α × Tbl α → Nat → Res (Tried (Tbl α × Tbl α) (Tbl α × Tbl α))
  | 0, _, _, _ => .hang
  | n + 1, b, (dst, src), p =>
    if p = src.capacity then .ok (.done (dst, src) b)
    else do
      let a ← src.readSlot p
      match ← dst.emplaceHashA C b (C.key a) (C.hash (C.key a)) (fun _ => a) with
      | .failed dst => .ok (.failed (dst, src))
      | .done (dst, _, ins) left => do
        let src ← if ins then do
            let src ← src.destroySlot p
            src.eraseMetaOnly C p
          else Res.ok src
        let nxt ← src.next C p
        mergeLoopA n left (dst, src) nxt

/-- `merge(src)` (phmap.hpp:2283-2291). -/
def mergeA (b : Nat) (dst src : Tbl α) : Res (Tried (Tbl α × Tbl α) (Tbl α × Tbl α)) := do
  let p ← src.begin_ C
  mergeLoopA C src.fuel b (dst, src) p

/-- One operation on one container. -/
def stepA (b : Nat) (t : Tbl α) (op : Op α κ) : Res (Tried (Tbl α) (Tbl α × Resp α)) :=
  match op with
  | .insert a => Res.rest (t.emplaceA C b a) (fun (t, off, ins) => do
      let x ← t.readSlot off
      .ok (t, .ins x ins))
  | .insertOrAssign a f => Res.rest (t.insertOrAssignA C b a f) (fun (t, off, ins) => do
      let x ← t.readSlot off
      .ok (t, .ins x ins))
  | .subscript a f => Res.rest (t.emplaceA C b a) (fun (t, off, _) => do
      let x ← t.readSlot off
      let t ← t.assignAt off f
      .ok (t, .elem (some x)))
  | .insertNode n => Res.rest (t.insertNodeA C b n) (fun (t, off, ins, left) =>
      match off with
      | none => .ok (t, .node none ins left)
      | some off => do
        let a ← t.readSlot off
        .ok (t, .node (some a) ins left))
  | .toggle a => Res.rest (t.emplaceSingleA C b (C.key a) (C.hash (C.key a)) (fun _ => a)) (fun t => .ok (t, .unit))
  | .insertRange vs => Res.rest (t.insertRangeA C b vs) (fun t => .ok (t, .unit))
  | .reserve n => Res.rest (t.reserveA C b n) (fun t => .ok (t, .unit))
  | .rehash n => Res.rest (t.rehashA C b n) (fun t => .ok (t, .unit))
  | op => Res.plain b (t.step C op)

/-- One operation on a family of containers. -/
def wstepA [BEq α] (b : Nat) (w : Nat → Tbl α) (op : WOp α κ) :
    Res (Tried (Nat → Tbl α) ((Nat → Tbl α) × Resp α)) :=
  match op with
  | .on i op => do
    match ← (w i).stepA C b op with
    | .failed t => .ok (.failed (put w i t))
    | .done (t, r) left => .ok (.done (put w i t, r) left)
  | .create i n =>
    match withBucketsA C b n with
    | .failed _ => .ok (.failed w)
    | .done tmp left => do
      let (t, _) ← moveAssign (w i) tmp
      .ok (.done (put w i t, .unit) left)
  | .copy i j => do
    match ← copyAssignA C b (w i) (w j) with
    | .failed t => .ok (.failed (put w i t))
    | .done t left => .ok (.done (put w i t, .unit) left)
  | .merge i j => do
    match ← mergeA C b (w i) (w j) with
    | .failed (t, u) => .ok (.failed (put (put w i t) j u))
    | .done (t, u) left => .ok (.done (put (put w i t) j u, .unit) left)
  | op => Res.plain b (wstep C w op)

/-- A whole history; each call comes with the number of allocations that succeed during it.  The caller catches every
exception and goes on. -/
def wrunA [BEq α] (w : Nat → Tbl α) : List (WOp α κ × Nat) → Res ((Nat → Tbl α) × List (Out α))
  | [] => .ok (w, [])
  | (op, b) :: calls => do
    match ← wstepA C b w op with
    | .failed w => do
      let (w, os) ← wrunA w calls
      .ok (w, .badAlloc :: os)
    | .done (w, r) _ => do
      let (w, os) ← wrunA w calls
      .ok (w, .ok r :: os)

/-- `emplace(args...)` whose key cannot be read off the arguments (phmap.hpp:2083-2091, 2571-2588): the element is
constructed in raw storage on the stack first; `InsertSlot<true>` transfers it into the table or destroys it.  The
last component is the elements on the stack that nobody destroys: `raw` is not an object, so unwinding the stack does
not run a destructor for it. -/
def emplaceTempA (b : Nat) (t : Tbl α) (a : α) : Res (Tried (Tbl α) (Tbl α × Nat × Bool) × List α) := do
  match ← t.emplaceA C b a with
  | .failed t => .ok (.failed t, [a])
  | .done x left => .ok (.done x left, [])

end Tbl

open Tbl

/-! ### Code that allocates at most once -/

/-- The budgeted call `xA` on `t` does what the plain call `x` does, using at most one allocation; or there is none left,
and it throws and leaves `t` itself; then `Q`. -/
def Follows (b : Nat) (t : σ) (Q : Prop) (xA : Res (Tried σ β)) (x : Res β) : Prop :=
  (∃ left, left ≤ b ∧ b ≤ left + 1 ∧ xA = Res.plain left x) ∨ (b = 0 ∧ xA = .ok (.failed t) ∧ Q)

theorem Follows.plain (b : Nat) (t : σ) (Q : Prop) (x : Res β) : Follows b t Q (Res.plain b x) x :=
  .inl ⟨b, by omega, by omega, rfl⟩

theorem Follows.mono {b : Nat} {t : σ} {P Q : Prop} {xA : Res (Tried σ β)} {x : Res β} (h : Follows b t P xA x)
    (f : P → Q) : Follows b t Q xA x := by
  rcases h with h | ⟨h1, h2, h3⟩
  · exact .inl h
  · exact .inr ⟨h1, h2, f h3⟩

theorem Follows.rest {b : Nat} {t : σ} {Q : Prop} {xA : Res (Tried σ β)} {x : Res β} (h : Follows b t Q xA x)
    (f : β → Res γ) : Follows b t Q (Res.rest xA f) (x >>= f) := by
  rcases h with ⟨left, h1, h2, h3⟩ | ⟨h1, h2, h3⟩
  · refine .inl ⟨left, h1, h2, ?_⟩
    rw [h3]
    cases x <;> rfl
  · refine .inr ⟨h1, ?_, h3⟩
    rw [h2]; rfl

theorem Follows.after {b : Nat} {t : σ} {Q : Prop} (y : Res γ) {fA : γ → Res (Tried σ β)} {f : γ → Res β}
    (h : ∀ z, y = .ok z → Follows b t Q (fA z) (f z)) : Follows b t Q (y >>= fA) (y >>= f) := by
  cases y with
  | ok z => exact h z rfl
  | ub => exact .inl ⟨b, by omega, by omega, rfl⟩
  | hang => exact .inl ⟨b, by omega, by omega, rfl⟩

variable {C : Cfg α κ}

theorem resizeA_follows (b : Nat) (t : Tbl α) (n : Nat) : Follows b t True (t.resizeA C b n) (t.resize C n) := by
  cases b with
  | zero => exact .inr ⟨rfl, rfl, trivial⟩
  | succ b => exact .inl ⟨b, by omega, by omega, rfl⟩

theorem rehashAndGrowA_follows (b : Nat) (t : Tbl α) :
    Follows b t True (t.rehashAndGrowA C b) (t.rehashAndGrow C) := by
  unfold rehashAndGrowA rehashAndGrow
  by_cases h1 : t.capacity = 0
  · rw [if_pos h1, if_pos h1]; exact resizeA_follows b t 1
  · rw [if_neg h1, if_neg h1]
    by_cases h2 : t.size ≤ capacityToGrowth C.G.W t.capacity / 2
    · rw [if_pos h2, if_pos h2]; exact .plain b t _ _
    · rw [if_neg h2, if_neg h2]; exact resizeA_follows b t _

theorem prepareInsertA_follows (b : Nat) (t : Tbl α) (hv : Nat) :
    Follows b t True (t.prepareInsertA C b hv) (t.prepareInsert C hv) := by
  unfold prepareInsertA prepareInsert
  refine .after _ fun target _ => ?_
  refine .after _ fun c _ => ?_
  by_cases h1 : t.growthLeft = 0 ∧ ¬ isDeleted c
  · rw [if_pos h1, if_pos h1]
    have := (rehashAndGrowA_follows (C := C) b t).rest (fun t => do
      let target ← t.findFirstNonFull C hv
      t.countIn target)
    simpa [bind_assoc, countIn] using this
  · rw [if_neg h1, if_neg h1]
    exact .plain b t _ _

theorem emplaceHashA_follows (b : Nat) (t : Tbl α) (k : κ) (hv : Nat) (mk : Unit → α) :
    Follows b t (t.findHash C k hv = .ok none) (t.emplaceHashA C b k hv mk) (t.emplaceHash C k hv mk) := by
  unfold emplaceHashA emplaceHash
  refine .after _ fun o ho => ?_
  cases o with
  | some off => exact .plain b t _ (.ok _)
  | none => exact ((prepareInsertA_follows b t hv).rest _).mono fun _ => ho

theorem emplaceA_follows (b : Nat) (t : Tbl α) (a : α) :
    Follows b t (t.find C (C.key a) = .ok none) (t.emplaceA C b a) (t.emplace C a) :=
  emplaceHashA_follows b t _ _ _

theorem insertOrAssignA_follows (b : Nat) (t : Tbl α) (a : α) (f : α → α) :
    Follows b t (t.find C (C.key a) = .ok none) (t.insertOrAssignA C b a f) (t.insertOrAssign C a f) := by
  unfold insertOrAssignA insertOrAssign
  refine .after _ fun o ho => ?_
  cases o with
  | some off => exact .plain b t _ _
  | none => exact ((prepareInsertA_follows b t _).rest _).mono fun _ => ho

theorem emplaceSingleA_follows (b : Nat) (t : Tbl α) (k : κ) (hv : Nat) (mk : Unit → α) :
    Follows b t (t.findHash C k hv = .ok none) (t.emplaceSingleA C b k hv mk) (t.emplaceSingle C k hv mk) := by
  unfold emplaceSingleA emplaceSingle
  refine .after _ fun o ho => ?_
  cases o with
  | some off => exact .plain b t _ _
  | none => exact ((prepareInsertA_follows b t _).rest _).mono fun _ => ho

theorem insertNodeA_follows (b : Nat) (t : Tbl α) (n : Option α) :
    Follows b t (∃ a, n = some a ∧ t.find C (C.key a) = .ok none) (t.insertNodeA C b n) (t.insertNode C n) := by
  cases n with
  | none => exact .plain b t _ (.ok _)
  | some a => exact ((emplaceHashA_follows b t _ _ _).rest _).mono fun h => ⟨a, rfl, h⟩

theorem rehashA_follows (b : Nat) (t : Tbl α) (n : Nat) : Follows b t True (t.rehashA C b n) (t.rehash C n) := by
  unfold rehashA rehash
  by_cases h1 : n = 0 ∧ t.capacity = 0
  · rw [if_pos h1, if_pos h1]; exact .plain b t _ (.ok _)
  · rw [if_neg h1, if_neg h1]
    by_cases h2 : n = 0 ∧ t.size = 0
    · rw [if_pos h2, if_pos h2]; exact .plain b t _ _
    · rw [if_neg h2, if_neg h2]
      dsimp only
      by_cases h3 : n = 0 ∨ normalizeCapacity (max n t.size) > t.capacity
      · rw [if_pos h3, if_pos h3]; exact resizeA_follows b t _
      · rw [if_neg h3, if_neg h3]; exact .plain b t _ (.ok _)

theorem copyA_follows (b : Nat) (that : Tbl α) : Follows b Tbl.empty True (that.copyA C b) (that.copy C) :=
  (rehashA_follows b Tbl.empty that.capacity).rest _

/-- Is this call a range insertion? -/
def _root_.Gtl.Spec.Op.isRange : Op α κ → Bool
  | .insertRange _ => true
  | _ => false

/-- Every call on one container but a range insertion allocates at most once, and when that fails leaves its very table. -/
theorem stepA_follows (b : Nat) (t : Tbl α) (op : Op α κ) (hr : op.isRange = false) :
    Follows b t (match op with
      | .insert a | .insertOrAssign a _ | .subscript a _ | .toggle a => t.find C (C.key a) = .ok none
      | .insertNode n => ∃ a, n = some a ∧ t.find C (C.key a) = .ok none
      | .reserve _ | .rehash _ => True
      | _ => False) (t.stepA C b op) (t.step C op) := by
  cases op with
  | insert a => exact (emplaceA_follows b t a).rest _
  | insertOrAssign a f => exact (insertOrAssignA_follows b t a f).rest _
  | subscript a f =>
    have := (emplaceA_follows (C := C) b t a).rest (fun (t, off, _) => do
      let x ← t.readSlot off
      let t ← t.assignAt off f
      Res.ok (t, Resp.elem (some x)))
    unfold stepA
    simp only [Tbl.step, Tbl.subscript, bind_assoc, Res.ok_bind]
    exact this
  | insertNode n =>
    refine (insertNodeA_follows b t n).rest _
  | toggle a => exact (emplaceSingleA_follows b t _ _ _).rest _
  | reserve n => exact (rehashA_follows b t _).rest _
  | rehash n => exact (rehashA_follows b t _).rest _
  | insertRange vs => cases hr
  | «at» k => exact .plain b t _ _
  | find k => exact .plain b t _ _
  | contains k => exact .plain b t _ _
  | count k => exact .plain b t _ _
  | erase k => exact .plain b t _ _
  | eraseIf p => exact .plain b t _ _
  | extract k => exact .plain b t _ _
  | size => exact .plain b t _ _
  | clear => exact .plain b t _ _

/-! ### Range insertions -/

theorem insertAllA_ok (hC : CfgOk C) : ∀ (vs : List α) (b : Nat) (t : Tbl α) (l : List α), Sim C t l →
    (∃ t' left, insertAllA C b t vs = .ok (.done t' left) ∧ Sim C t' (vs.foldl (Spec.insert C.key C.eqv) l)) ∨
    (b < vs.length ∧ ∃ t' before a after, insertAllA C b t vs = .ok (.failed t') ∧ vs = before ++ a :: after ∧
      Sim C t' (before.foldl (Spec.insert C.key C.eqv) l) ∧
      Spec.lookup C.key C.eqv (before.foldl (Spec.insert C.key C.eqv) l) (C.key a) = none)
  | [], b, t, l, h => .inl ⟨t, b, rfl, h⟩
  | v :: vs, b, t, l, h => by
    unfold insertAllA
    rcases emplaceA_follows (C := C) b t v with ⟨left, hl1, hl2, he⟩ | ⟨hb, he, hf⟩
    · rw [he]
      have key : ∃ t' o ins, t.emplace C v = .ok (t', o, ins) ∧ Sim C t' (Spec.insert C.key C.eqv l v) := by
        rcases emplace_sim hC h v with ⟨i, b, h1, _, _, _, h5⟩ | ⟨t', i, h1, _, h3, h4⟩
        · exact ⟨t, i, false, h1, by unfold Spec.insert; rw [h5]; exact h⟩
        · exact ⟨t', i, true, h1, by unfold Spec.insert; rw [h4]; exact h3⟩
      obtain ⟨t', o, ins, h1, h2⟩ := key
      rw [h1]
      simp only [Res.plain, Res.ok_bind]
      rcases insertAllA_ok hC vs left t' _ h2 with ⟨t2, left2, r1, r2⟩ | ⟨r0, t2, before, a, after, r1, r2, r3, r4⟩
      · exact .inl ⟨t2, left2, r1, r2⟩
      · refine .inr ⟨by simp only [List.length_cons]; omega, t2, v :: before, a, after, r1, by rw [r2]; rfl, r3, r4⟩
    · rw [he]
      simp only [Res.ok_bind]
      refine .inr ⟨by simp only [List.length_cons]; omega, t, [], v, vs, rfl, rfl, h, ?_⟩
      rcases find_sim hC h (C.key v) with ⟨i, a, h1, _⟩ | ⟨_, _, h3⟩
      · rw [hf] at h1; cases h1
      · exact h3

theorem find_none_sim (hC : CfgOk C) {t : Tbl α} {l : List α} (h : Sim C t l) {k : κ} (hf : t.find C k = .ok none) :
    Spec.lookup C.key C.eqv l k = none := by
  rcases find_sim hC h k with ⟨i, a, h1, _⟩ | ⟨_, _, h3⟩
  · rw [hf] at h1; cases h1
  · exact h3

/-- How many allocations a call on one container needs at most. -/
def _root_.Gtl.Spec.Op.need : Op α κ → Nat
  | .insertRange vs => vs.length + 1
  | _ => 1

/-- One call on one container. -/
theorem stepA_ok (hC : CfgOk C) {t : Tbl α} {l : List α} (h : Sim C t l) (b : Nat) (op : Op α κ) (hv : op.Valid C.key) :
    (∃ t' left, t.stepA C b op = .ok (.done (t', (Spec.step C.key C.eqv l op).2) left) ∧
      Sim C t' (Spec.step C.key C.eqv l op).1) ∨
    (b < op.need ∧ ∃ t' l', t.stepA C b op = .ok (.failed t') ∧ Spec.Fails C.key C.eqv l op l' ∧ Sim C t' l' ∧
      (op.isRange = false → t' = t)) := by
  cases hr : op.isRange with
  | false =>
    rcases stepA_follows (C := C) b t op hr with ⟨left, _, _, he⟩ | ⟨hb, he, hf⟩
    · obtain ⟨t', h1, h2⟩ := step_sim hC h op hv
      refine .inl ⟨t', left, ?_, h2⟩
      rw [he, h1]; rfl
    · refine .inr ⟨?_, t, l, he, ?_, h, fun _ => rfl⟩
      · rw [hb]; cases op <;> first | exact Nat.one_pos | cases hr
      · cases op <;> first
          | exact ⟨find_none_sim hC h hf, rfl⟩
          | (obtain ⟨a, h1, h2⟩ := hf; exact ⟨a, h1, find_none_sim hC h h2, rfl⟩)
          | exact rfl
          | exact hf.elim
          | cases hr
  | true =>
    cases op <;> try cases hr
    rename_i vs
    simp only [Tbl.stepA, Tbl.insertRangeA]
    obtain ⟨t1, h1, h2⟩ := reserve_sim hC h (n := t.size + vs.length) (by omega)
    rcases rehashA_follows (C := C) b t (growthToLowerboundCapacity C.G.W (t.size + vs.length)) with
      ⟨left, hl1, hl2, he⟩ | ⟨hb, he, _⟩
    · unfold reserveA
      rw [he, show t.rehash C (growthToLowerboundCapacity C.G.W (t.size + vs.length)) = .ok t1 from h1]
      simp only [Res.plain, Res.ok_bind]
      rcases insertAllA_ok hC vs left t1 l h2 with ⟨t2, left2, r1, r2⟩ | ⟨r0, t2, before, a, after, r1, r2, r3, r4⟩
      · refine .inl ⟨t2, left2, ?_, r2⟩
        rw [r1]; rfl
      · refine .inr ⟨by simp only [Spec.Op.need]; omega, t2, _, by rw [r1]; rfl, .inr ⟨before, a, after, r2, rfl, r4⟩, r3,
          fun h => by cases h⟩
    · unfold reserveA
      rw [he]
      exact .inr ⟨by simp only [Spec.Op.need]; omega, t, l, rfl, .inl rfl, h, fun _ => rfl⟩

/-! ### merge -/

/-- The loop of `merge` does what it does with an allocator that never fails; or it stops with `moved` transferred. -/
theorem mergeLoopA_ok (hC : CfgOk C) : ∀ (fuel b : Nat) (dst src : Tbl α) (cd cs : List Ctrl) (p : Nat),
    Inv C dst cd → Inv C src cs →
    p ≤ src.capacity → src.capacity - p < fuel → (p < src.capacity → ∃ a, src.slots[p]? = some (some a)) →
    (∃ left, b ≤ left + fuel ∧ mergeLoopA C fuel b (dst, src) p = Res.plain left (mergeLoop C fuel (dst, src) p)) ∨
    (b < fuel ∧ ∃ dst' src' cd' cs' moved, mergeLoopA C fuel b (dst, src) p = .ok (.failed (dst', src')) ∧
      Inv C dst' cd' ∧ Inv C src' cs' ∧ List.Perm (elems src) (moved ++ elems src') ∧
      List.Perm (elems dst') (elems dst ++ moved) ∧ (∀ a ∈ moved, ∀ x ∈ elems dst, C.eqv (C.key x) (C.key a) = false) ∧
      ∃ a ∈ elems src', ∀ x ∈ elems dst, C.eqv (C.key x) (C.key a) = false) := by
  intro fuel
  induction fuel with
  | zero => intro b dst src cd cs p _ _ _ h; omega
  | succ fuel ih =>
    intro b dst src cd cs p hd hs hp hf hfull
    unfold mergeLoopA mergeLoop
    by_cases hpc : p = src.capacity
    · rw [if_pos hpc, if_pos hpc]
      exact .inl ⟨b, by omega, rfl⟩
    rw [if_neg hpc, if_neg hpc]
    have hlt : p < src.capacity := by omega
    obtain ⟨a, ha⟩ := hfull hlt
    rw [readSlot_ok ha]
    simp only [Res.ok_bind]
    rcases emplaceHashA_follows (C := C) b dst (C.key a) (C.hash (C.key a)) (fun _ => a) with
      ⟨left, hl1, hl2, he⟩ | ⟨hb, he, hfn⟩
    · rw [he]
      rcases emplaceHash_spec hC hd (C.key a) (fun _ => a) (hC.refl _) with
        ⟨i, x, m1, m2, m3⟩ | ⟨m0, dst', cd', i, m1, m2, m3, m4, _⟩
      · rw [m1]
        simp only [Res.plain, Res.ok_bind, Bool.false_eq_true, if_false]
        obtain ⟨q, n1, n2, n3, n4, n5⟩ := next_spec hC.group hs.core hlt
        rw [n1]
        simp only [Res.ok_bind]
        rcases ih left dst src cd cs q hd hs n3 (by omega) n5 with ⟨left2, rl, r⟩ | ⟨r0, r⟩
        · exact .inl ⟨left2, by omega, r⟩
        · exact .inr ⟨by omega, r⟩
      · rw [m1]
        simp only [Res.plain, Res.ok_bind, if_true]
        rw [destroySlot_ok ha]
        simp only [Res.ok_bind]
        obtain ⟨src1, cs1, e1, e2, e3, e4, e5, e6⟩ := eraseMeta_spec hC hs ha
        rw [e1]
        simp only [Res.ok_bind]
        obtain ⟨q, n1, n2, n3, n4, n5⟩ := next_spec hC.group e2.core (show p < src1.capacity by omega)
        rw [n1]
        simp only [Res.ok_bind]
        rcases ih left dst' src1 cd' cs1 q m2 e2 n3 (by omega) n5 with
          ⟨left2, rl, r⟩ | ⟨r0, dst2, src2, cd2, cs2, moved, r1, r2, r3, r4, r5, r6, y, r7, r8⟩
        · exact .inl ⟨left2, by omega, r⟩
        · refine .inr ⟨by omega, dst2, src2, cd2, cs2, a :: moved, r1, r2, r3, ?_, ?_, ?_, y, r7, ?_⟩
          · exact e3.trans (r4.cons a)
          · refine (r5.trans (m3.append_right _)).trans ?_
            exact List.perm_middle.symm
          · intro z hz
            rcases List.mem_cons.1 hz with rfl | hz
            · exact m0
            · exact fun x hx => r6 z hz x (m3.symm.subset (List.mem_cons_of_mem _ hx))
          · exact fun x hx => r8 x (m3.symm.subset (List.mem_cons_of_mem _ hx))
    · rw [he]
      simp only [Res.ok_bind]
      refine .inr ⟨by omega, dst, src, cd, cs, [], rfl, hd, hs, by simp, by simp, by simp, a, mem_elems.2 ⟨p, ha⟩, ?_⟩
      rcases find_inv hC hd (C.key a) with ⟨i, x, h1, _⟩ | ⟨_, h2⟩
      · have h1' : dst.findHash C (C.key a) (C.hash (C.key a)) = .ok (some i) := h1
        rw [hfn] at h1'; cases h1'
      · exact h2

/-! ### Families of containers -/

/-- One call on a family of containers. -/
theorem wstepA_ok [BEq α] [LawfulBEq α] (hC : CfgOk C) {w : Nat → Tbl α} {m : Nat → List α} (h : WSim C w m) (op : WOp α κ)
    (hv : op.Valid C.key) : ∃ N : Nat, ∀ b,
    (∃ w' left, wstepA C b w op = .ok (.done (w', (Spec.wstep C.key C.eqv m op).2) left) ∧
      WSim C w' (Spec.wstep C.key C.eqv m op).1) ∨
    (b < N ∧ ∃ w' m', wstepA C b w op = .ok (.failed w') ∧ Spec.WFails C.key C.eqv m op m' ∧ WSim C w' m') := by
  cases op with
  | on i op =>
    refine ⟨op.need, fun b => ?_⟩
    rcases stepA_ok hC (h i) b op hv with ⟨t', left, h1, h2⟩ | ⟨h0, t', l', h1, h2, h3, _⟩
    · refine .inl ⟨put w i t', left, ?_, h.put i h2⟩
      simp only [wstepA, h1, Res.ok_bind]; rfl
    · refine .inr ⟨h0, put w i t', put m i l', ?_, ⟨l', h2, rfl⟩, h.put i h3⟩
      simp only [wstepA, h1, Res.ok_bind]
  | create i n =>
    refine ⟨1, fun b => ?_⟩
    obtain ⟨w', h1, h2⟩ := wstep_sim hC h (.create i n) hv
    unfold wstepA withBucketsA
    by_cases hn : n = 0
    · refine .inl ⟨w', b, ?_, h2⟩
      simp only [if_pos hn]
      simp only [Tbl.wstep, withBuckets, if_pos hn] at h1
      obtain ⟨⟨t, u⟩, g1, g2⟩ := Res.bind_eq_ok.1 h1
      rw [g1]
      simp only [Res.ok_bind] at g2 ⊢
      injection g2 with g2
      rw [g2]
    · simp only [if_neg hn]
      cases b with
      | zero => exact .inr ⟨Nat.one_pos, w, m, rfl, ⟨hn, rfl⟩, h⟩
      | succ b =>
        refine .inl ⟨w', b, ?_, h2⟩
        simp only [Tbl.wstep] at h1
        obtain ⟨⟨t, u⟩, g1, g2⟩ := Res.bind_eq_ok.1 h1
        dsimp only
        rw [g1]
        simp only [Res.ok_bind] at g2 ⊢
        injection g2 with g2
        rw [g2]
  | copy i j =>
    refine ⟨1, fun b => ?_⟩
    obtain ⟨w', h1, h2⟩ := wstep_sim hC h (.copy i j) hv
    simp only [wstepA, copyAssignA]
    rcases copyA_follows (C := C) b (w j) with ⟨left, hl1, hl2, he⟩ | ⟨hb, he, _⟩
    · refine .inl ⟨w', left, ?_, h2⟩
      simp only [Tbl.wstep, Tbl.copyAssign] at h1
      obtain ⟨t, g1, g2⟩ := Res.bind_eq_ok.1 h1
      obtain ⟨tmp, g3, g4⟩ := Res.bind_eq_ok.1 g1
      rw [he, g3]
      simp only [Res.plain, Res.ok_bind, Tbl.swap] at g4 ⊢
      obtain ⟨u, g5, g6⟩ := Res.bind_eq_ok.1 g4
      injection g6 with g6
      rw [g5, g6]
      injection g2 with g2
      simp only [Res.ok_bind, g2]
    · refine .inr ⟨by omega, put w i (w i), m, ?_, rfl, ?_⟩
      · rw [he]
        have e : (Tbl.empty : Tbl α).destroySlots = .ok Tbl.empty := rfl
        simp only [Res.ok_bind, e]
      · have : put w i (w i) = w := by
          funext k; unfold Spec.put
          by_cases hk : k = i
          · rw [if_pos hk, hk]
          · rw [if_neg hk]
        rw [this]; exact h
  | merge i j =>
    obtain ⟨w', h1, h2⟩ := wstep_sim hC h (.merge i j) hv
    obtain ⟨⟨c, hi⟩, hp⟩ := id (h i)
    obtain ⟨⟨d, hj⟩, hq⟩ := id (h j)
    obtain ⟨q, b1, b2, b3, b4⟩ := begin_spec hC.group hj.core
    refine ⟨(w j).fuel, fun b => ?_⟩
    simp only [wstepA, mergeA]
    simp only [Tbl.wstep, Tbl.merge] at h1
    rw [b1] at h1 ⊢
    simp only [Res.ok_bind] at h1 ⊢
    rcases mergeLoopA_ok hC (w j).fuel b (w i) (w j) c d q hi hj b2 (by unfold fuel; omega) b4 with
      ⟨left, -, r⟩ | ⟨r0, dst2, src2, cd2, cs2, moved, r1, r2, r3, r4, r5, r6, y, r7, r8⟩
    · refine .inl ⟨w', left, ?_, h2⟩
      rw [r]
      obtain ⟨⟨t, u⟩, g1, g2⟩ := Res.bind_eq_ok.1 h1
      rw [g1]
      simp only [Res.plain, Res.ok_bind] at g2 ⊢
      injection g2 with g2
      rw [g2]
    · refine .inr ⟨r0, put (put w i dst2) j src2, put (put m i (m i ++ moved)) j (elems src2), ?_, ?_, ?_⟩
      · rw [r1]; rfl
      · refine ⟨moved, elems src2, hq.symm.trans r4, ?_, ⟨y, r7, ?_⟩, rfl⟩
        · exact fun a ha => lookup_none.2 fun x hx => r6 a ha x (hp.mem_iff.2 hx)
        · exact lookup_none.2 fun x hx => r8 x (hp.mem_iff.2 hx)
      · exact (h.put i ⟨⟨cd2, r2⟩, r5.trans (hp.append_right _)⟩).put j ⟨⟨cs2, r3⟩, List.Perm.refl _⟩
  | move i j =>
    obtain ⟨w', h1, h2⟩ := wstep_sim hC h (.move i j) hv
    exact ⟨0, fun b => .inl ⟨w', b, by simp only [wstepA, Res.plain, h1, Res.ok_bind], h2⟩⟩
  | swap i j =>
    obtain ⟨w', h1, h2⟩ := wstep_sim hC h (.swap i j) hv
    exact ⟨0, fun b => .inl ⟨w', b, by simp only [wstepA, Res.plain, h1, Res.ok_bind], h2⟩⟩
  | equal i j =>
    obtain ⟨w', h1, h2⟩ := wstep_sim hC h (.equal i j) hv
    exact ⟨0, fun b => .inl ⟨w', b, by simp only [wstepA, Res.plain, h1, Res.ok_bind], h2⟩⟩

/-- A whole history. -/
theorem wrunA_ok [BEq α] [LawfulBEq α] (hC : CfgOk C) : ∀ (calls : List (WOp α κ × Nat)) {w : Nat → Tbl α}
    {m : Nat → List α}, WSim C w m → (∀ c ∈ calls, c.1.Valid C.key) →
    ∃ w' os m', wrunA C w calls = .ok (w', os) ∧ Spec.WRunA C.key C.eqv m (calls.map Prod.fst) os m' ∧ WSim C w' m'
  | [], w, m, h, _ => ⟨w, [], m, rfl, rfl, h⟩
  | (op, b) :: calls, w, m, h, hv => by
    obtain ⟨N, hN⟩ := wstepA_ok hC h op (hv _ List.mem_cons_self)
    rcases hN b with ⟨w1, left, h1, h2⟩ | ⟨_, w1, m1, h1, h2, h3⟩
    · obtain ⟨w2, os, m2, r1, r2, r3⟩ := wrunA_ok hC calls h2 (fun c hc => hv c (List.mem_cons_of_mem _ hc))
      refine ⟨w2, .ok (Spec.wstep C.key C.eqv m op).2 :: os, m2, ?_, ⟨_, ⟨rfl, rfl⟩, r2⟩, r3⟩
      unfold wrunA
      simp only [h1, r1, Res.ok_bind]
    · obtain ⟨w2, os, m2, r1, r2, r3⟩ := wrunA_ok hC calls h3 (fun c hc => hv c (List.mem_cons_of_mem _ hc))
      refine ⟨w2, .badAlloc :: os, m2, ?_, ⟨m1, h2, r2⟩, r3⟩
      unfold wrunA
      simp only [h1, r1, Res.ok_bind]

end Gtl.Swiss
