import Verif.Btree.OrderProof
/-
C95: B-tree containers whose comparison objects have a state, so that containers of one type may be in different orders. The
specification is `Verif/Spec/Orders.lean`, the model `Verif/Btree/Order.lean`. Copies, moves and swaps take the comparison
along, merging inserts in the order of the destination, and `==` and `<` compare the sequences.

What the code does to a container that is moved from is not what its user expects: a move assignment gives it the comparison
of the other container, and a move construction leaves it the remains of its own.
-/
namespace Gtl.Props.BtreeOrders
open Gtl.Btree Gtl.Spec.SortedSeq
variable {S α κ : Type} {c : Cfg α κ} {F : Orders S κ}

/-- C95: for all comparison objects that are strict weak orders, and all histories over any number of containers that keep the
rules, no call has undefined behaviour and all of them answer as specified, where `F.moved s` is left of an object by a move
construction, and the object of the destination by a move assignment. Every container has its elements in its own order. -/
theorem C95_history (hK : 3 ≤ c.K) (hF : ∀ s lt, F.call s = some lt → StrictWeak lt) (eq less : α → α → Bool)
    (ops : List (COp S α κ))
    (hs : CSafe c.multi c.key F.lt eq less F.moved (fun d _ => d) F.can (fun _ _ => True) [] ops) :
    ∃ rs w W, cexecAll c F eq less [] ops = some (rs, w) ∧
      CRun c.multi c.key F.lt eq less F.moved (fun d _ => d) [] ops rs W ∧
      List.Forall₂ (fun b x => b.comp = x.1 ∧ b.tree.toList = some x.2 ∧ b.tree.size = x.2.length ∧
        Sorted c.multi c.key (F.lt x.1) x.2) w W := by
  obtain ⟨rs, w, W, e, h, hh⟩ := cexecAll_ok hK hF eq less ops (w := []) (W := []) .nil hs
  exact ⟨rs, w, W, e, h, hh.imp fun _ _ hb => ⟨hb.1, hb.2.1.toList, hb.2.1.size, hb.2.2⟩⟩

/-- Moves between containers with the same comparison leave what is expected. -/
theorem run_alike {multi : Bool} {key : α → κ} {ord : S → κ → κ → Bool} {eq less : α → α → Bool} {taken : S → S} {can : S → Bool} :
    ∀ {ops : List (COp S α κ)} {rs : List (CRes S α)} {W W' : List (S × List α)},
    CSafe multi key ord eq less taken (fun _ s => s) can (· = ·) W ops →
    CRun multi key ord eq less taken (fun d _ => d) W ops rs W' → CRun multi key ord eq less taken (fun _ s => s) W ops rs W' := by
  intro ops rs W W' hs h
  induction h with
  | nil => exact .nil
  | @cons w w1 w2 op r ops rs st _ ih =>
    have st' : CStep multi key ord eq less taken (fun _ s => s) w op r w1 := by
      cases op with
      | move i j =>
        obtain ⟨x, y, ex, ey, er, ew⟩ := st
        obtain ⟨x', y', ex', ey', ea⟩ := hs.1
        rw [ex] at ex'; cases ex'
        rw [ey] at ey'; cases ey'
        refine ⟨x, y, ex, ey, er, ?_⟩
        rw [ew, ea]
      | _ => exact st
    exact .cons st' (ih (hs.2 r w1 st'))

theorem safe_alike {multi : Bool} {key : α → κ} {ord : S → κ → κ → Bool} {eq less : α → α → Bool} {taken : S → S} {can : S → Bool} :
    ∀ {ops : List (COp S α κ)} {W : List (S × List α)},
    CSafe multi key ord eq less taken (fun _ s => s) can (· = ·) W ops →
    CSafe multi key ord eq less taken (fun d _ => d) can (fun _ _ => True) W ops
  | [], _, _ => trivial
  | op :: ops, W, hs => by
    refine ⟨?_, fun r w' st => safe_alike (hs.2 r w' ?_)⟩
    · cases op with
      | move i j =>
        obtain ⟨x, y, ex, ey, -⟩ := hs.1
        exact ⟨x, y, ex, ey, trivial⟩
      | _ => exact hs.1
    · cases op with
      | move i j =>
        obtain ⟨x, y, ex, ey, er, ew⟩ := st
        obtain ⟨x', y', ex', ey', ea⟩ := hs.1
        rw [ex] at ex'; cases ex'
        rw [ey] at ey'; cases ey'
        refine ⟨x, y, ex, ey, er, ?_⟩
        rw [ew, ea]
      | _ => exact st

/-- C95, that containers that are moved from keep their comparison, when a comparison object that is moved from is as before
and move assignments are between containers with the same one. Missing: the rest, refuted below. -/
theorem C95_kept_partial (hK : 3 ≤ c.K) (hF : ∀ s lt, F.call s = some lt → StrictWeak lt) (hm : ∀ s, F.moved s = s)
    (eq less : α → α → Bool) (ops : List (COp S α κ))
    (hs : CSafe c.multi c.key F.lt eq less id (fun _ s => s) F.can (· = ·) [] ops) :
    ∃ rs w W, cexecAll c F eq less [] ops = some (rs, w) ∧
      CRun c.multi c.key F.lt eq less id (fun _ s => s) [] ops rs W ∧
      List.Forall₂ (fun b x => b.comp = x.1 ∧ b.tree.toList = some x.2 ∧ b.tree.size = x.2.length ∧
        Sorted c.multi c.key (F.lt x.1) x.2) w W := by
  have e : F.moved = id := funext hm
  rw [← e] at hs ⊢
  obtain ⟨rs, w, W, h1, h2, h3⟩ := C95_history hK hF eq less ops (safe_alike hs)
  exact ⟨rs, w, W, h1, run_alike hs h2, h3⟩

/-- `==` between containers in different orders compares the sequences: it is true exactly if the elements are equal one by
one. -/
theorem C95_equal (hK : 3 ≤ c.K) (hF : ∀ s lt, F.call s = some lt → StrictWeak lt) [DecidableEq α] (less : α → α → Bool)
    (ops : List (COp S α κ))
    (hs : CSafe c.multi c.key F.lt (fun a b => decide (a = b)) less F.moved (fun d _ => d) F.can (fun _ _ => True) [] ops)
    {rs : List (CRes S α)} {w : List (CBox S α)} (hr : cexecAll c F (fun a b => decide (a = b)) less [] ops = some (rs, w))
    {i j : Nat} {b d : CBox S α} (hi : w[i]? = some b) (hj : w[j]? = some d) :
    cexec c F (fun a b => decide (a = b)) less w (.eq i j) = some (.got (.bool (decide (b.tree.toList = d.tree.toList))), w) := by
  obtain ⟨rs', w', W, e, -, hh⟩ := cexecAll_ok hK hF _ less ops (w := []) (W := []) .nil hs
  rw [hr] at e; cases e
  have hlen := hh.length_eq
  obtain ⟨x, ex⟩ : ∃ x, W[i]? = some x := ⟨W[i]'(by rw [← hlen]; exact (List.getElem?_eq_some_iff.1 hi).1), by simp⟩
  obtain ⟨y, ey⟩ : ∃ y, W[j]? = some y := ⟨W[j]'(by rw [← hlen]; exact (List.getElem?_eq_some_iff.1 hj).1), by simp⟩
  obtain ⟨b', eb', hb⟩ := forall2_get hh ex
  obtain ⟨d', ed', hd⟩ := forall2_get hh ey
  rw [hi] at eb'; cases eb'
  rw [hj] at ed'; cases ed'
  have key : ∀ (l m : List α), (decide (l.length = m.length) && (l.zip m).all fun z => decide (z.1 = z.2)) = decide (l = m) := by
    intro l
    induction l with
    | nil => intro m; cases m <;> simp
    | cons a l ih =>
      intro m
      cases m with
      | nil => simp
      | cons b m =>
        have := ih m
        by_cases hab : a = b
        · subst hab; simpa using this
        · simp [hab]
  rw [hb.2.1.toList, hd.2.1.toList]
  simp [cexec, hi, hj, beq_ok hb.2.1 hd.2.1, key]

/-! ### Cases that meet the hypotheses -/

/-- Comparison objects that sort up (`some true`) or down (`some false`), or hold a null pointer (`none`), which is what they
hold after a move. -/
def exPtr : Orders (Option Bool) Nat where
  call s := s.map fun up a b => if up then decide (a < b) else decide (b < a)
  moved _ := none

/-- The same without the pointer: a move copies. -/
def exFlag : Orders Bool Nat where
  call up := some fun a b => if up then decide (a < b) else decide (b < a)
  moved := id

/-- Sets of numbers. -/
def exCfg (multi : Bool) : Cfg Nat Nat :=
  { K := 3, multi := multi, linear := true, cmpTo := false, key := id, lt := fun _ _ => false }

theorem weak_updown (up : Bool) : StrictWeak fun a b : Nat => if up then decide (a < b) else decide (b < a) := by
  cases up
  · exact ⟨fun _ => by simp, fun _ _ _ h h' => by simp at *; omega, fun _ _ _ h => by simp at *; omega⟩
  · exact ⟨fun _ => by simp, fun _ _ _ h h' => by simp at *; omega, fun _ _ _ h => by simp at *; omega⟩

theorem exPtr_weak (s : Option Bool) (lt : Nat → Nat → Bool) (h : exPtr.call s = some lt) : StrictWeak lt := by
  cases s with
  | none => cases h
  | some up => cases h; exact weak_updown up

theorem exFlag_weak (s : Bool) (lt : Nat → Nat → Bool) (h : exFlag.call s = some lt) : StrictWeak lt := by
  cases h; exact weak_updown s

/-- The last answer that is a list. -/
def listed (rs : List (CRes S α)) : Option (List α) :=
  match rs.getLast? with
  | some (.got (.vals l)) => some l
  | _ => none

/-- Two sets in different orders, merged; the result is in the order of the destination. -/
def exMerge : List (COp Bool Nat Nat) :=
  [.make true, .make false, .on 0 (.insertAll [1, 5]), .on 1 (.insertAll [2, 5, 7]), .merge 1 0, .on 1 .values]

/-- The hypotheses of `C95_history` and `C95_kept_partial` are met, and the history does what it is for. -/
example : CSafe false id exFlag.lt (fun a b => decide (a = b)) (fun a b => decide (a < b)) id (fun _ s => s) exFlag.can (· = ·) [] exMerge ∧
    (cexecAll (exCfg false) exFlag (fun a b => decide (a = b)) (fun a b => decide (a < b)) [] exMerge).map (fun x => listed x.1) =
      some (some [7, 5, 2, 1]) := by
  refine ⟨?_, by decide +kernel⟩
  refine ⟨trivial, ?_⟩
  rintro r w' ⟨rfl, rfl⟩
  refine ⟨trivial, ?_⟩
  rintro r w' ⟨rfl, rfl⟩
  refine ⟨⟨_, rfl, trivial, fun _ => rfl⟩, ?_⟩
  rintro r w' ⟨x, r', l, hx, ⟨rfl, rfl⟩, rfl, rfl⟩
  cases hx
  refine ⟨⟨_, rfl, trivial, fun _ => rfl⟩, ?_⟩
  rintro r w' ⟨x, r', l, hx, ⟨rfl, rfl⟩, rfl, rfl⟩
  cases hx
  refine ⟨⟨⟨_, rfl, rfl⟩, by decide, by decide⟩, ?_⟩
  rintro r w' ⟨x, y, hx, hy, rfl, rfl⟩
  cases hx; cases hy
  refine ⟨⟨_, rfl, trivial, fun _ => rfl⟩, fun r w' _ => trivial⟩

/-! ### What is left of a comparison -/

/-- What users expect: containers keep their comparison when they are moved from. -/
def Expected (c : Cfg α κ) (F : Orders S κ) (eq less : α → α → Bool) : Prop :=
  ∀ ops : List (COp S α κ), CSafe c.multi c.key F.lt eq less id (fun _ s => s) F.can (fun _ _ => True) [] ops →
    ∃ rs w W, cexecAll c F eq less [] ops = some (rs, w) ∧ CRun c.multi c.key F.lt eq less id (fun _ s => s) [] ops rs W

/-- Two sets, the second of which sorts down; it is moved to the first and used again. -/
def exSwapped : List (COp Bool Nat Nat) :=
  [.make true, .make false, .move 0 1, .on 1 (.insertAll [1, 2]), .on 1 .values]

/-- C95 is false for move assignment: the container that was moved from has got the comparison of the other one, and a set that
sorted down sorts up. -/
theorem C95_move_refuted : ∃ (c : Cfg Nat Nat) (F : Orders Bool Nat), 3 ≤ c.K ∧
    (∀ s lt, F.call s = some lt → StrictWeak lt) ∧ (∀ s, F.moved s = s) ∧ ∀ eq less, ¬ Expected c F eq less := by
  refine ⟨exCfg false, exFlag, by decide, exFlag_weak, fun _ => rfl, fun eq less hx => ?_⟩
  obtain ⟨rs, w, W, e, h⟩ := hx exSwapped (by
    refine ⟨trivial, ?_⟩
    rintro r w' ⟨rfl, rfl⟩
    refine ⟨trivial, ?_⟩
    rintro r w' ⟨rfl, rfl⟩
    refine ⟨⟨_, _, rfl, rfl, trivial⟩, ?_⟩
    rintro r w' ⟨x, y, hx, hy, rfl, rfl⟩
    cases hx; cases hy
    refine ⟨⟨_, rfl, trivial, fun _ => rfl⟩, ?_⟩
    rintro r w' ⟨x, r', l, hx, ⟨rfl, rfl⟩, rfl, rfl⟩
    cases hx
    exact ⟨⟨_, rfl, trivial, fun _ => rfl⟩, fun r w' _ => trivial⟩)
  have h1 : listed rs = some [2, 1] := by
    cases h with | cons s h =>
    obtain ⟨rfl, rfl⟩ := s
    cases h with | cons s h =>
    obtain ⟨rfl, rfl⟩ := s
    cases h with | cons s h =>
    obtain ⟨x, y, hx, hy, rfl, rfl⟩ := s
    cases hx; cases hy
    cases h with | cons s h =>
    obtain ⟨x, r', l, hx, ⟨rfl, rfl⟩, rfl, rfl⟩ := s
    cases hx
    cases h with | cons s h =>
    obtain ⟨x, r', l, hx, ⟨rfl, rfl⟩, rfl, rfl⟩ := s
    cases hx
    cases h
    rfl
  have h2 : (cexecAll (exCfg false) exFlag eq less [] exSwapped).map (fun x => listed x.1) = some (some [1, 2]) := rfl
  rw [e] at h2
  simp [h1] at h2

/-- A set is moved into a new one, and used again. -/
def exTaken : List (COp (Option Bool) Nat Nat) :=
  [.make (some true), .take 0, .on 0 (.insertAll [1, 2])]

/-- C95 is false for move construction: if the comparison holds a pointer, the second insertion into the container that was
moved from is undefined behaviour. -/
theorem C95_take_refuted : ∃ (c : Cfg Nat Nat) (F : Orders (Option Bool) Nat), 3 ≤ c.K ∧
    (∀ s lt, F.call s = some lt → StrictWeak lt) ∧ ∀ eq less, ¬ Expected c F eq less := by
  refine ⟨exCfg false, exPtr, by decide, exPtr_weak, fun eq less hx => ?_⟩
  obtain ⟨rs, w, W, e, h⟩ := hx exTaken (by
    refine ⟨trivial, ?_⟩
    rintro r w' ⟨rfl, rfl⟩
    refine ⟨show 0 < 1 by decide, ?_⟩
    rintro r w' ⟨x, hx, rfl, rfl⟩
    cases hx
    exact ⟨⟨_, rfl, trivial, fun _ => rfl⟩, fun r w' _ => trivial⟩)
  have h2 : cexecAll (exCfg false) exPtr eq less [] exTaken = none := rfl
  rw [e] at h2
  cases h2

/-- The same in every state that a program can reach (this needs nothing but that container `i` exists), for every kind of
container: after a construction from `std::move(container i)`, if the comparison object cannot be called once it was moved
from, inserting two elements into container `i` is undefined. -/
theorem C95_taken_undefined (eq less : α → α → Bool) {w : List (CBox S α)} {i : Nat} {b : CBox S α} (hi : w[i]? = some b)
    (hb : F.call (F.moved b.comp) = none) (u v : α) :
    cexecAll c F eq less w [.take i, .on i (.insert u), .on i (.insert v)] = none := by
  obtain ⟨hl, rfl⟩ := List.getElem?_eq_some_iff.1 hi
  have h2 := CBox.insert_twice (c := c) hb u v
  cases e : CBox.exec c F ⟨F.moved w[i].comp, Tree.empty⟩ (.insert u) with
  | none => simp [cexecAll, cexec, CBox.take, hl, List.getElem?_append_left, List.getElem?_set, e]
  | some x =>
    rw [e] at h2
    simp only [Option.bind_some] at h2
    simp [cexecAll, cexec, CBox.take, hl, List.getElem?_append_left, List.getElem?_set, e, h2]

/-- Its hypotheses are met. -/
example : ∃ (w : List (CBox (Option Bool) Nat)) (b : CBox (Option Bool) Nat), w[0]? = some b ∧ exPtr.call (exPtr.moved b.comp) = none :=
  ⟨[⟨some true, Tree.empty⟩], _, rfl, rfl⟩

end Gtl.Props.BtreeOrders
