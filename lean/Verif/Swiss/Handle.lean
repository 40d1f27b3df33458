import Verif.Swiss.History
import Verif.Spec.Handles
/-!
# Node handles (gtl_base.hpp:698-775, phmap.hpp:2027-2058, 2298-2308)
-/

namespace Gtl.Swiss

open Gtl.Spec (Resp WOp HOp HState put)

variable {α κ : Type}

/-- A node handle (gtl_base.hpp:698-775): `alloc` says whether `alloc_` holds an allocator, `mem` is `slot_space_`, raw
(`none`) or holding an element. For node containers the element is the node pointed to. -/
structure Handle (α : Type) where
  alloc : Bool
  mem : Option α
  deriving DecidableEq, Repr

namespace Handle

/-- `node_handle_base()` (gtl_base.hpp:706). -/
def empty : Handle α := { alloc := false, mem := none }

/-- `node_handle_base(a, s)` (gtl_base.hpp:731-749), as called by `extract`: the element is transferred. -/
def make (a : α) : Handle α := { alloc := true, mem := some a }

/-- `destroy` and `reset` (gtl_base.hpp:754-765), also the destructor (710). Lists what is destroyed; destroying raw
storage is undefined. -/
def destroy (x : Handle α) : Res (Handle α × List α) :=
  if x.alloc then
    match x.mem with
    | none => .ub
    | some a => .ok ({ alloc := false, mem := none }, [a])
  else .ok (x, [])

/-- `operator=(node_handle_base&&)` (gtl_base.hpp:712-720) of two different handles: the target, the source, and what is
destroyed. Transferring into storage in use, or out of raw storage, is undefined. -/
def moveAssign (x y : Handle α) : Res (Handle α × Handle α × List α) := do
  let (x, dead) ← x.destroy
  if y.alloc then
    match x.mem, y.mem with
    | none, some a => .ok ({ alloc := true, mem := some a }, { alloc := false, mem := none }, dead)
    | _, _ => .ub
  else .ok (x, y, dead)

/-- The same when both are one handle: `destroy()` empties the source too. (If it did not, the element would be transferred
onto itself.) -/
def moveSelf (x : Handle α) : Res (Handle α × List α) := do
  let (x, dead) ← x.destroy
  if x.alloc then .ub else .ok (x, dead)

/-- `node_handle_base(node_handle_base&&)` (gtl_base.hpp:708). -/
def moveConstruct (y : Handle α) : Res (Handle α × Handle α) := do
  let (x, y, _) ← moveAssign empty y
  .ok (x, y)

/-- `value()`, `key()`, `mapped()` (gtl_base.hpp:790-792, 806-812) where the handle is not empty. -/
def read (x : Handle α) : Res (Option α) :=
  if x.alloc then
    match x.mem with
    | none => .ub
    | some a => .ok (some a)
  else .ok none

/-- Assigning through `value()` or `mapped()`. -/
def write (x : Handle α) (f : α → α) : Res (Handle α) :=
  if x.alloc then
    match x.mem with
    | none => .ub
    | some a => .ok { x with mem := some (f a) }
  else .ok x

end Handle

/-- `insert(node_type&&)` (phmap.hpp:2027-2039): the table, the position (`none` is `end()`), the flag, the argument
afterwards and the `node` of the result. `InsertSlot<false>` (phmap.hpp:2572-2588) transfers the element only if it inserts. -/
def insertHandle (C : Cfg α κ) (t : Tbl α) (x : Handle α) : Res (Tbl α × Option Nat × Bool × Handle α × Handle α) :=
  if x.alloc then
    match x.mem with
    | none => .ub
    | some a => do
      let (t, off, ins) ← t.emplace C a
      if ins then .ok (t, some off, true, { alloc := false, mem := none }, Handle.empty)
      else do
        let (node, x) ← Handle.moveConstruct x
        .ok (t, some off, false, x, node)
  else .ok (t, none, false, x, Handle.empty)

/-- The element at a position returned. -/
def posElem (t : Tbl α) : Option Nat → Res (Option α)
  | none => .ok none
  | some off => do
    let a ← t.readSlot off
    .ok (some a)

/-- The containers and handles of a program. -/
structure HWorld (α : Type) where
  c : Nat → Tbl α
  h : Nat → Handle α

/-- One call: the world, the elements destroyed through handles, the answer. Temporaries are destroyed at the end. -/
def hstep [BEq α] (C : Cfg α κ) (w : HWorld α) : HOp α κ → Res (HWorld α × List α × Resp α)
  | .call op => do
    let (c, r) ← Tbl.wstep C w.c op
    .ok ({ w with c := c }, [], r)
  | .extract h i k => do
    -- phmap.hpp:2304-2308
    let (t, o) ← (w.c i).extract C k
    let tmp := match o with
      | none => Handle.empty
      | some a => Handle.make a
    let (x, tmp, dead) ← Handle.moveAssign (w.h h) tmp
    let (_, dead') ← tmp.destroy
    let v ← x.read
    .ok ({ c := put w.c i t, h := put w.h h x }, dead ++ dead', .elem v)
  | .insert g i h => do
    let (t, off, ins, x, node) ← insertHandle C (w.c i) (w.h h)
    let pos ← posElem t off
    let hs := put w.h h x
    let (y, node, dead) ← Handle.moveAssign (hs g) node
    let (_, dead') ← node.destroy
    let v ← y.read
    .ok ({ c := put w.c i t, h := put hs g y }, dead ++ dead', .node pos ins v)
  | .insertDrop i h => do
    let (t, off, ins, x, node) ← insertHandle C (w.c i) (w.h h)
    let pos ← posElem t off
    let (_, dead) ← node.destroy
    .ok ({ c := put w.c i t, h := put w.h h x }, dead, .node pos ins none)
  | .insertHint i h => do
    -- phmap.hpp:2054-2058
    let (t, off, _, x, node) ← insertHandle C (w.c i) (w.h h)
    let (x, node, dead) ← Handle.moveAssign x node
    let (_, dead') ← node.destroy
    let pos ← posElem t off
    .ok ({ c := put w.c i t, h := put w.h h x }, dead ++ dead', .elem pos)
  | .move g h =>
    if g = h then do
      let (x, dead) ← (w.h h).moveSelf
      .ok ({ w with h := put w.h h x }, dead, .unit)
    else do
      let (y, x, dead) ← Handle.moveAssign (w.h g) (w.h h)
      .ok ({ w with h := put (put w.h h x) g y }, dead, .unit)
  | .swap g h => do
    -- `std::swap`: a temporary and three moves
    let (tmp, x) ← Handle.moveConstruct (w.h g)
    if g = h then do
      let (x, d1) ← x.moveSelf
      let (x, tmp, d2) ← Handle.moveAssign x tmp
      let (_, d3) ← tmp.destroy
      .ok ({ w with h := put w.h h x }, d1 ++ d2 ++ d3, .unit)
    else do
      let (x, y, d1) ← Handle.moveAssign x (w.h h)
      let (y, tmp, d2) ← Handle.moveAssign y tmp
      let (_, d3) ← tmp.destroy
      .ok ({ w with h := put (put w.h g x) h y }, d1 ++ d2 ++ d3, .unit)
  | .reset h => do
    let (x, tmp, dead) ← Handle.moveAssign (w.h h) Handle.empty
    let (_, dead') ← tmp.destroy
    .ok ({ w with h := put w.h h x }, dead ++ dead', .unit)
  | .modify h f => do
    let x ← (w.h h).write f
    .ok ({ w with h := put w.h h x }, [], .unit)
  | .value h => do
    let v ← (w.h h).read
    .ok (w, [], .elem v)

/-- A history. -/
def hrun [BEq α] (C : Cfg α κ) (w : HWorld α) : List (HOp α κ) → Res (HWorld α × List α × List (Resp α))
  | [] => .ok (w, [], [])
  | op :: ops => do
    let (w, d, r) ← hstep C w op
    let (w, ds, rs) ← hrun C w ops
    .ok (w, d ++ ds, r :: rs)

/-! ## Proofs -/

/-- A handle that holds exactly this. -/
def ofOpt : Option α → Handle α
  | none => { alloc := false, mem := none }
  | some a => { alloc := true, mem := some a }

theorem destroy_ok (o : Option α) : (ofOpt o).destroy = .ok (ofOpt none, o.toList) := by cases o <;> rfl

theorem moveAssign_ok (o p : Option α) : Handle.moveAssign (ofOpt o) (ofOpt p) = .ok (ofOpt p, ofOpt none, o.toList) := by
  cases o <;> cases p <;> rfl

theorem moveSelf_ok (o : Option α) : (ofOpt o).moveSelf = .ok (ofOpt none, o.toList) := by cases o <;> rfl

theorem moveConstruct_ok (o : Option α) : Handle.moveConstruct (ofOpt o) = .ok (ofOpt o, ofOpt none) := by cases o <;> rfl

theorem read_ok (o : Option α) : (ofOpt o).read = .ok o := by cases o <;> rfl

theorem write_ok (o : Option α) (f : α → α) : (ofOpt o).write f = .ok (ofOpt (o.map f)) := by cases o <;> rfl

theorem empty_eq : (Handle.empty : Handle α) = ofOpt none := rfl

theorem make_eq (a : α) : Handle.make a = ofOpt (some a) := rfl

/-- `insert` of a handle. -/
theorem insertHandle_ok {C : Cfg α κ} (hC : CfgOk C) {t : Tbl α} {l : List α} (h : Sim C t l) (o : Option α) :
    ∃ t' off, insertHandle C t (ofOpt o) = .ok (t', off, (Spec.insertHeld C.key C.eqv l o).2.2.1, ofOpt none,
        ofOpt (Spec.insertHeld C.key C.eqv l o).2.2.2) ∧
      posElem t' off = .ok (Spec.insertHeld C.key C.eqv l o).2.1 ∧
      Sim C t' (Spec.insertHeld C.key C.eqv l o).1 := by
  cases o with
  | none => exact ⟨t, none, rfl, rfl, h⟩
  | some a =>
    rcases emplace_sim hC h a with ⟨i, b, h1, h2, h3, h4, h5⟩ | ⟨t', i, h1, h2, h3, h4⟩
    · refine ⟨t, some i, ?_, ?_, ?_⟩
      · simp only [insertHandle, ofOpt, Spec.insertHeld, h1, h5, Res.ok_bind, if_true]
        rfl
      · simp only [posElem, Spec.insertHeld, h5, readSlot_ok' h2, Res.ok_bind]
      · simp only [Spec.insertHeld, h5]; exact h
    · refine ⟨t', some i, ?_, ?_, ?_⟩
      · simp only [insertHandle, ofOpt, Spec.insertHeld, h1, h4, Res.ok_bind, if_true]
        rfl
      · simp only [posElem, Spec.insertHeld, h4, readSlot_ok' h2, Res.ok_bind]
      · simp only [Spec.insertHeld, h4]; exact h3

/-- The world is in the abstract state. -/
def HSim (C : Cfg α κ) (w : HWorld α) (s : HState α) : Prop := WSim C w.c s.c ∧ ∀ j, w.h j = ofOpt (s.h j)

theorem ofOpt_put (h : Nat → Handle α) (s : Nat → Option α) (hh : ∀ j, h j = ofOpt (s j)) (i : Nat) (o : Option α) :
    ∀ j, put h i (ofOpt o) j = ofOpt (put s i o j) := by
  intro j
  unfold put
  by_cases e : j = i
  · rw [if_pos e, if_pos e]
  · rw [if_neg e, if_neg e, hh]

theorem extract_sim {C : Cfg α κ} (hC : CfgOk C) {t : Tbl α} {l : List α} (h : Sim C t l) (k : κ) :
    ∃ t', t.extract C k = .ok (t', Spec.lookup C.key C.eqv l k) ∧ Sim C t' (Spec.erase C.key C.eqv l k) := by
  have hd := h.distinct hC
  obtain ⟨⟨c, hi⟩, hp⟩ := h
  rcases extract_spec hC hi k with ⟨h1, h2⟩ | ⟨t', c', a, h1, h2, h3, h4⟩
  · have h2' : ∀ a ∈ l, C.eqv (C.key a) k = false := fun a ha => h2 a (hp.mem_iff.2 ha)
    refine ⟨t, ?_, ?_⟩
    · rw [lookup_none.2 h2']; exact h1
    · rw [erase_none h2']; exact ⟨⟨c, hi⟩, hp⟩
  · have hm : a ∈ l := hp.mem_iff.1 (h4.mem_iff.2 List.mem_cons_self)
    refine ⟨t', ?_, ⟨⟨c', h2⟩, (erase_some hC hd (hp.symm.trans h4) h3).symm⟩⟩
    rw [lookup_of_mem hC hd hm h3]; exact h1

theorem hstep_sim [BEq α] [LawfulBEq α] {C : Cfg α κ} (hC : CfgOk C) {w : HWorld α} {s : HState α} (h : HSim C w s)
    (op : HOp α κ) (hv : op.Valid C.key) :
    ∃ w', hstep C w op = .ok (w', (Spec.hstep C.key C.eqv s op).2.1, (Spec.hstep C.key C.eqv s op).2.2) ∧
      HSim C w' (Spec.hstep C.key C.eqv s op).1 := by
  obtain ⟨hc, hh⟩ := id h
  cases op with
  | call op =>
    obtain ⟨c', e1, e2⟩ := wstep_sim hC hc op hv
    exact ⟨⟨c', w.h⟩, by simp only [hstep, Spec.hstep, e1, Res.ok_bind], e2, hh⟩
  | extract x i k =>
    obtain ⟨t', e1, e2⟩ := extract_sim hC (hc i) k
    refine ⟨⟨put w.c i t', put w.h x (ofOpt (Spec.lookup C.key C.eqv (s.c i) k))⟩, ?_, hc.put i e2, ofOpt_put _ _ hh _ _⟩
    have e3 : (match Spec.lookup C.key C.eqv (s.c i) k with
      | none => Handle.empty
      | some a => Handle.make a) = ofOpt (Spec.lookup C.key C.eqv (s.c i) k) := by
      cases Spec.lookup C.key C.eqv (s.c i) k <;> rfl
    simp only [hstep, Spec.hstep, e1, Res.ok_bind, e3, hh x, moveAssign_ok, destroy_ok, read_ok, Option.toList, List.append_nil]
  | insert g i x =>
    obtain ⟨t', off, e1, e2, e3⟩ := insertHandle_ok hC (hc i) (s.h x)
    have hp := ofOpt_put _ _ hh x none
    refine ⟨⟨put w.c i t', put (put w.h x (ofOpt none)) g (ofOpt (Spec.insertHeld C.key C.eqv (s.c i) (s.h x)).2.2.2)⟩, ?_,
      hc.put i e3, ofOpt_put _ _ hp _ _⟩
    have e4 : (put s.h x none g).toList = if g = x then [] else (s.h g).toList := by
      unfold put
      by_cases e : g = x
      · rw [if_pos e, if_pos e]; rfl
      · rw [if_neg e, if_neg e]
    simp only [hstep, Spec.hstep, hh x, e1, e2, Res.ok_bind, hp g, moveAssign_ok, destroy_ok, read_ok, e4]
    simp only [Option.toList, List.append_nil]
  | insertDrop i x =>
    obtain ⟨t', off, e1, e2, e3⟩ := insertHandle_ok hC (hc i) (s.h x)
    refine ⟨⟨put w.c i t', put w.h x (ofOpt none)⟩, ?_, hc.put i e3, ofOpt_put _ _ hh _ _⟩
    simp only [hstep, Spec.hstep, hh x, e1, e2, Res.ok_bind, destroy_ok]
  | insertHint i x =>
    obtain ⟨t', off, e1, e2, e3⟩ := insertHandle_ok hC (hc i) (s.h x)
    refine ⟨⟨put w.c i t', put w.h x (ofOpt (Spec.insertHeld C.key C.eqv (s.c i) (s.h x)).2.2.2)⟩, ?_,
      hc.put i e3, ofOpt_put _ _ hh _ _⟩
    simp only [hstep, Spec.hstep, hh x, e1, e2, Res.ok_bind, moveAssign_ok, destroy_ok, Option.toList, List.append_nil]
  | move g x =>
    by_cases e : g = x
    · refine ⟨⟨w.c, put w.h x (ofOpt none)⟩, ?_, ?_⟩
      · simp only [hstep, Spec.hstep, if_pos e, hh x, moveSelf_ok, Res.ok_bind]
      · simp only [Spec.hstep, if_pos e]; exact ⟨hc, ofOpt_put _ _ hh _ _⟩
    · refine ⟨⟨w.c, put (put w.h x (ofOpt none)) g (ofOpt (s.h x))⟩, ?_, ?_⟩
      · simp only [hstep, Spec.hstep, if_neg e, hh x, hh g, moveAssign_ok, Res.ok_bind]
      · simp only [Spec.hstep, if_neg e]; exact ⟨hc, ofOpt_put _ _ (ofOpt_put _ _ hh _ _) _ _⟩
  | swap g x =>
    by_cases e : g = x
    · refine ⟨⟨w.c, put w.h x (ofOpt (s.h x))⟩, ?_, hc, ?_⟩
      · subst e
        simp only [hstep, Spec.hstep, hh g, moveConstruct_ok, moveSelf_ok, moveAssign_ok, destroy_ok, Res.ok_bind, if_true,
          Option.toList, List.append_nil]
      · subst e
        have : put (put s.h g (s.h g)) g (s.h g) = put s.h g (s.h g) := by
          funext j; unfold put; by_cases e : j = g <;> simp [e]
        simp only [Spec.hstep, this]
        exact ofOpt_put _ _ hh _ _
    · refine ⟨⟨w.c, put (put w.h g (ofOpt (s.h x))) x (ofOpt (s.h g))⟩, ?_, hc, ofOpt_put _ _ (ofOpt_put _ _ hh _ _) _ _⟩
      simp only [hstep, Spec.hstep, hh g, hh x, moveConstruct_ok, moveAssign_ok, destroy_ok, Res.ok_bind, if_neg e,
          Option.toList, List.append_nil]
  | reset x =>
    refine ⟨⟨w.c, put w.h x (ofOpt none)⟩, ?_, hc, ofOpt_put _ _ hh _ _⟩
    simp only [hstep, Spec.hstep, hh x, empty_eq, moveAssign_ok, destroy_ok, Res.ok_bind]
    simp only [Option.toList, List.append_nil]
  | modify x f =>
    refine ⟨⟨w.c, put w.h x (ofOpt ((s.h x).map f))⟩, ?_, hc, ofOpt_put _ _ hh _ _⟩
    simp only [hstep, Spec.hstep, hh x, write_ok, Res.ok_bind]
  | value x => exact ⟨w, by simp only [hstep, Spec.hstep, hh x, read_ok, Res.ok_bind], h⟩

theorem hrun_sim [BEq α] [LawfulBEq α] {C : Cfg α κ} (hC : CfgOk C) : ∀ (ops : List (HOp α κ)) {w : HWorld α} {s : HState α},
    HSim C w s → (∀ op ∈ ops, op.Valid C.key) →
    ∃ w', hrun C w ops = .ok (w', (Spec.hrun C.key C.eqv s ops).2.1, (Spec.hrun C.key C.eqv s ops).2.2) ∧
      HSim C w' (Spec.hrun C.key C.eqv s ops).1
  | [], w, s, h, _ => ⟨w, rfl, h⟩
  | op :: ops, w, s, h, hv => by
    obtain ⟨w1, e1, h1⟩ := hstep_sim hC h op (hv op List.mem_cons_self)
    obtain ⟨w2, e2, h2⟩ := hrun_sim hC ops h1 (fun o ho => hv o (List.mem_cons_of_mem _ ho))
    refine ⟨w2, ?_, h2⟩
    simp only [hrun, Spec.hrun, e1, e2, Res.ok_bind]

/-! ## Counting -/

theorem count_put {β : Type} [BEq α] [LawfulBEq α] (n : Nat) (g : β → List α) (f : Nat → β) (x : β) {i : Nat} (hi : i < n) (a : α) :
    ((List.range n).flatMap (fun j => g (put f i x j))).count a + (g (f i)).count a =
      ((List.range n).flatMap (fun j => g (f j))).count a + (g x).count a := by
  induction n with
  | zero => omega
  | succ n ih =>
    rw [List.range_succ, List.flatMap_append, List.flatMap_append, List.count_append, List.count_append]
    simp only [List.flatMap_cons, List.flatMap_nil, List.append_nil]
    by_cases e : i = n
    · subst e
      have : (List.range i).flatMap (fun j => g (put f i x j)) = (List.range i).flatMap (fun j => g (f j)) := by
        rw [List.flatMap_def, List.flatMap_def]
        refine congrArg List.flatten (List.map_congr_left fun j hj => ?_)
        have := List.mem_range.1 hj
        unfold put
        rw [if_neg (by omega)]
      rw [this]
      simp only [put, if_true]
      omega
    · have := ih (by omega)
      have e2 : put f i x n = f n := by unfold put; rw [if_neg (fun h => e h.symm)]
      rw [e2]
      omega

theorem count_insertHeld [BEq α] (C : Cfg α κ) (l : List α) (o : Option α) (a : α) :
    ((Spec.insertHeld C.key C.eqv l o).1).count a + ((Spec.insertHeld C.key C.eqv l o).2.2.2).toList.count a =
      l.count a + o.toList.count a := by
  cases o with
  | none => rfl
  | some b =>
    unfold Spec.insertHeld
    dsimp only
    split
    · rfl
    · simp only [List.count_cons, Option.toList, List.count_nil]; omega

theorem count_extract [BEq α] [LawfulBEq α] {C : Cfg α κ} (hC : CfgOk C) {t : Tbl α} {l : List α} (h : Sim C t l) (k : κ) (a : α) :
    (Spec.erase C.key C.eqv l k).count a + (Spec.lookup C.key C.eqv l k).toList.count a = l.count a := by
  have hd := h.distinct hC
  cases hl : Spec.lookup C.key C.eqv l k with
  | none => rw [erase_none (lookup_none.1 hl)]; rfl
  | some b =>
    obtain ⟨h1, h2⟩ := lookup_some hl
    obtain ⟨m, hm⟩ : ∃ m, List.Perm l (b :: m) := ⟨l.erase b, List.perm_cons_erase h1⟩
    have := erase_some hC hd hm h2
    rw [this.count_eq, hm.count_eq, List.count_cons]
    simp only [Option.toList, List.count_cons, List.count_nil]
    omega

/-- No call on handles loses or duplicates an element. -/
theorem hstep_count [BEq α] [LawfulBEq α] {C : Cfg α κ} (hC : CfgOk C) {w : HWorld α} {s : HState α} (h : HSim C w s)
    (op : HOp α κ) (hm : op.Moves) {n : Nat} (hb : op.Below n) (a : α) :
    (Spec.owned n s.c s.h).count a = (Spec.owned n (Spec.hstep C.key C.eqv s op).1.c (Spec.hstep C.key C.eqv s op).1.h).count a +
      (Spec.hstep C.key C.eqv s op).2.1.count a := by
  have pc : ∀ (f : Nat → List α) (x : List α) (i : Nat), i < n → ((List.range n).flatMap (put f i x)).count a + (f i).count a =
      ((List.range n).flatMap f).count a + x.count a := fun f x i hi => count_put (β := List α) n id f x hi a
  have ph := fun (f : Nat → Option α) (x : Option α) (i : Nat) (hi : i < n) => count_put (β := Option α) n Option.toList f x hi a
  unfold Spec.owned
  simp only [List.count_append]
  cases op with
  | call op => cases hm
  | modify => cases hm
  | extract x i k =>
    have h1 := count_extract hC (h.1 i) k a
    have h2 := pc s.c (Spec.erase C.key C.eqv (s.c i) k) i hb.2
    have h3 := ph s.h (Spec.lookup C.key C.eqv (s.c i) k) x hb.1
    simp only [Spec.hstep]
    omega
  | insert g i x =>
    have h1 := count_insertHeld C (s.c i) (s.h x) a
    have h2 := pc s.c (Spec.insertHeld C.key C.eqv (s.c i) (s.h x)).1 i hb.2.1
    have h3 := ph s.h none x hb.2.2
    have h4 := ph (put s.h x none) (Spec.insertHeld C.key C.eqv (s.c i) (s.h x)).2.2.2 g hb.1
    rcases hI : Spec.insertHeld C.key C.eqv (s.c i) (s.h x) with ⟨l', pos, ins, left⟩
    rw [hI] at h1 h2 h4; dsimp only at h1 h2 h4
    simp only [Spec.hstep, hI]
    have h5 : (put s.h x none g).toList.count a = (if g = x then [] else (s.h g).toList).count a := by
      unfold put
      by_cases e : g = x
      · rw [if_pos e, if_pos e]; rfl
      · rw [if_neg e, if_neg e]
    simp only [Option.toList_none, List.count_nil] at h3
    omega
  | insertDrop i x =>
    have h1 := count_insertHeld C (s.c i) (s.h x) a
    have h2 := pc s.c (Spec.insertHeld C.key C.eqv (s.c i) (s.h x)).1 i hb.1
    have h3 := ph s.h none x hb.2
    rcases hI : Spec.insertHeld C.key C.eqv (s.c i) (s.h x) with ⟨l', pos, ins, left⟩
    rw [hI] at h1 h2; dsimp only at h1 h2
    simp only [Spec.hstep, hI]
    simp only [Option.toList_none, List.count_nil] at h3
    omega
  | insertHint i x =>
    have h1 := count_insertHeld C (s.c i) (s.h x) a
    have h2 := pc s.c (Spec.insertHeld C.key C.eqv (s.c i) (s.h x)).1 i hb.1
    have h3 := ph s.h (Spec.insertHeld C.key C.eqv (s.c i) (s.h x)).2.2.2 x hb.2
    rcases hI : Spec.insertHeld C.key C.eqv (s.c i) (s.h x) with ⟨l', pos, ins, left⟩
    rw [hI] at h1 h2 h3; dsimp only at h1 h2 h3
    simp only [Spec.hstep, hI, List.count_nil]
    omega
  | move g x =>
    have h3 := ph s.h none x hb.2
    simp only [Option.toList_none, List.count_nil] at h3
    simp only [Spec.hstep]
    by_cases e : g = x
    · simp only [if_pos e]; omega
    · simp only [if_neg e]
      have h4 := ph (put s.h x none) (s.h x) g hb.1
      have h5 : put s.h x none g = s.h g := by unfold put; rw [if_neg e]
      rw [h5] at h4
      omega
  | swap g x =>
    have h3 := ph s.h (s.h x) g hb.1
    have h4 := ph (put s.h g (s.h x)) (s.h g) x hb.2
    simp only [Spec.hstep, List.count_nil]
    by_cases e : g = x
    · subst e
      have h5 : put s.h g (s.h g) g = s.h g := by unfold put; rw [if_pos rfl]
      rw [h5] at h4
      omega
    · have h5 : put s.h g (s.h x) x = s.h x := by unfold put; rw [if_neg (fun h => e h.symm)]
      rw [h5] at h4
      omega
  | reset x =>
    have h3 := ph s.h none x hb
    simp only [Option.toList_none, List.count_nil] at h3
    simp only [Spec.hstep]
    omega
  | value x => simp only [Spec.hstep, List.count_nil]; omega

theorem hrun_count [BEq α] [LawfulBEq α] {C : Cfg α κ} (hC : CfgOk C) {n : Nat} (a : α) : ∀ (ops : List (HOp α κ))
    {w : HWorld α} {s : HState α}, HSim C w s → (∀ op ∈ ops, op.Valid C.key) → (∀ op ∈ ops, op.Moves ∧ op.Below n) →
    (Spec.owned n s.c s.h).count a = (Spec.owned n (Spec.hrun C.key C.eqv s ops).1.c (Spec.hrun C.key C.eqv s ops).1.h).count a +
      (Spec.hrun C.key C.eqv s ops).2.1.count a
  | [], _, _, _, _, _ => rfl
  | op :: ops, w, s, h, hv, hm => by
    obtain ⟨w1, _, h1⟩ := hstep_sim hC h op (hv op List.mem_cons_self)
    have e1 := hstep_count hC h op (hm op List.mem_cons_self).1 (hm op List.mem_cons_self).2 a
    have e2 := hrun_count hC a ops h1 (fun o ho => hv o (List.mem_cons_of_mem _ ho)) (fun o ho => hm o (List.mem_cons_of_mem _ ho))
    rcases hs : Spec.hstep C.key C.eqv s op with ⟨s1, d, r⟩
    rcases hr : Spec.hrun C.key C.eqv s1 ops with ⟨s2, ds, rs⟩
    rw [hs] at e1 e2; dsimp only at e1 e2
    rw [hr] at e2; dsimp only at e2
    simp only [Spec.hrun, hs, hr, List.count_append]
    omega

end Gtl.Swiss
