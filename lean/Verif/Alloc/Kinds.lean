import Verif.Alloc.Proof
/-
The four kinds of containers: which rules each of them keeps to.
-/
namespace Gtl.Alloc
open Gtl.Spec.AllocOwner
variable {A α : Type} [DecidableEq A] {e : Env A α}

/-- `Good` for plain containers. -/
abbrev G (h : Heap A) (xs : List (Cont A α)) (F : List (Nat × A)) : Prop := Good (fun _ => True) Cont.held h xs F

theorem G.of {h : Heap A} {xs : List (Cont A α)} {F} (w : h.WF) (p : h.live.Perm (xs.flatMap Cont.held ++ F)) :
    G h xs F := ⟨fun _ _ => trivial, w, p⟩

theorem G.take {h : Heap A} {xs : List (Cont A α)} {F} (g : G h xs F) (a : A) (k : Nat) (vs : List α) :
    G (h.take a k).2 (⟨a, (h.take a k).1, vs⟩ :: xs) F := by
  obtain ⟨w, p⟩ := Heap.take_ok a k h g.wf
  refine .of w (p.trans ?_)
  simp only [List.flatMap_cons, List.append_assoc]
  exact g.live.append_left _

theorem G.give {h : Heap A} {x : Cont A α} {xs : List (Cont A α)} {F} (g : G h (x :: xs) F) :
    ∃ h', destroy x h = some h' ∧ G h' xs F := by
  obtain ⟨h', e, w, p⟩ := Heap.give_ok x.alloc x.blocks h (xs.flatMap Cont.held ++ F) g.wf (by
    simpa [Cont.held] using g.live)
  exact ⟨h', e, .of w p⟩

/-- Containers may be listed in another order, and those without blocks left out. -/
theorem G.re {h : Heap A} {xs ys : List (Cont A α)} {F} (g : G h xs F)
    (hp : (xs.flatMap Cont.held).Perm (ys.flatMap Cont.held)) : G h ys F :=
  .of g.wf (g.live.trans (hp.append_right _))

theorem G.ord {h : Heap A} {xs ys : List (Cont A α)} {F} (g : G h xs F) (hp : xs.Perm ys) : G h ys F :=
  g.re (List.Perm.flatMap_right _ hp)

theorem swap2 {h : Heap A} {x y : Cont A α} {xs F} (g : G h (x :: y :: xs) F) : G h (y :: x :: xs) F :=
  g.ord (List.Perm.swap _ _ _)

theorem use_ok (p : Pick α) (x : Cont A α) (h : Heap A) (F) (g : G h [x] F) :
    ∃ x' h', use p x h = some (x', h') ∧ G h' [x'] F ∧ x'.alloc = x.alloc ∧ x'.vals = p.vals := by
  have hp : (x.blocks.map fun b => (b, x.alloc)).Perm
      ((x.blocks.filter (fun b => !p.keep b)).map (fun b => (b, x.alloc)) ++
        (x.blocks.filter p.keep).map (fun b => (b, x.alloc))) := by
    rw [← List.map_append]
    refine List.Perm.map _ ?_
    have := (List.filter_append_perm (fun b => !p.keep b) x.blocks).symm
    simpa using this
  obtain ⟨h', e, w, q⟩ := Heap.give_ok x.alloc (x.blocks.filter (fun b => !p.keep b)) h
    ((x.blocks.filter p.keep).map (fun b => (b, x.alloc)) ++ F) g.wf (by
      refine g.live.trans ?_
      simp only [List.flatMap_cons, List.flatMap_nil, List.append_nil, Cont.held]
      rw [← List.append_assoc]
      exact hp.append_right _)
  obtain ⟨w', q'⟩ := Heap.take_ok x.alloc p.fresh h' w
  refine ⟨⟨x.alloc, x.blocks.filter p.keep ++ (h'.take x.alloc p.fresh).1, p.vals⟩, (h'.take x.alloc p.fresh).2,
    by unfold use; rw [e]; rfl, .of w' ?_, rfl, rfl⟩
  refine q'.trans ?_
  simp only [List.flatMap_cons, List.flatMap_nil, List.append_nil, Cont.held, List.map_append]
  refine (q.append_left _).trans ?_
  rw [← List.append_assoc]
  exact List.perm_append_comm.append_right _

theorem moveWith_ok (p : Pick α) (a : A) (x : Cont A α) (h : Heap A) (xs F) (g : G h (x :: xs) F) :
    G (moveWith e p a x h).2.2 ((moveWith e p a x h).1 :: (moveWith e p a x h).2.1 :: xs) F ∧
    (moveWith e p a x h).1.alloc = a ∧ (moveWith e p a x h).1.vals = x.vals ∧
    (moveWith e p a x h).2.1.alloc = x.alloc := by
  unfold moveWith
  by_cases ha : a = x.alloc
  · rw [if_pos ha]
    subst ha
    refine ⟨g.re ?_, rfl, rfl, rfl⟩
    simp [Cont.held]
  · rw [if_neg ha]
    refine ⟨?_, rfl, rfl, rfl⟩
    have g' : G h (⟨x.alloc, x.blocks, x.vals.map e.husk⟩ :: xs) F := g.re (by simp [Cont.held])
    exact g'.take a p.fresh x.vals

theorem swap_ok (x y : Cont A α) (h : Heap A) (xs F) (g : G h (x :: y :: xs) F)
    (hs : e.tr.swap = true ∨ x.alloc = y.alloc) :
    G h ((swap e x y).1 :: (swap e x y).2 :: xs) F ∧ (swap e x y).1 = y ∧ (swap e x y).2 = x := by
  have e1 : swap e x y = (y, x) := by
    unfold swap
    by_cases hw : e.tr.swap = true
    · rw [if_pos hw]
    · rw [if_neg hw]
      have := hs.resolve_left hw
      cases x; cases y
      simp at this
      subst this
      rfl
  rw [e1]
  exact ⟨swap2 g, rfl, rfl⟩

theorem hashCopyAssign_ok (hc : e.tr.copyAssign = true → e.tr.swap = true) (p : Pick α) (x y : Cont A α) (h : Heap A) (F)
    (g : G h [x, y] F) :
    ∃ x' h', hashCopyAssign e p x y h = some (x', h') ∧ G h' [x', y] F ∧
      x'.alloc = (if e.tr.copyAssign then y.alloc else x.alloc) ∧ x'.vals = y.vals := by
  unfold hashCopyAssign
  dsimp only
  have g1 := g.take (if e.tr.copyAssign then y.alloc else x.alloc) p.fresh y.vals
  have g2 := swap2 g1
  obtain ⟨g3, e1, e2⟩ := swap_ok (e := e) _ _ _ _ _ g2 (by
    by_cases hc' : e.tr.copyAssign = true
    · exact .inl (hc hc')
    · right; simp [hc'])
  unfold copyWith
  dsimp only
  rw [e1, e2] at g3 ⊢
  obtain ⟨h', e3, g4⟩ := (swap2 g3).give
  exact ⟨_, h', by rw [e3]; rfl, g4, rfl, rfl⟩

theorem hashMoveAssign_ok (p : Pick α) (x y : Cont A α) (h : Heap A) (xs F)
    (hm : e.tr.moveAssign = true → e.tr.swap = true ∨ x.alloc = y.alloc) (g : G h (x :: y :: xs) F) :
    ∃ x' y' h', hashMoveAssign e p x y h = some (x', y', h') ∧ G h' (x' :: y' :: xs) F ∧
      x'.alloc = (if e.tr.moveAssign then y.alloc else x.alloc) ∧ x'.vals = y.vals ∧ y'.alloc = y.alloc := by
  unfold hashMoveAssign
  by_cases hc : e.tr.moveAssign = true
  · rw [if_pos hc]
    unfold move
    dsimp only
    obtain ⟨g3, e1, e2⟩ := swap_ok (e := e) x y h (⟨y.alloc, [], []⟩ :: xs) F (g.re (by simp [Cont.held])) (hm hc)
    rw [e1, e2] at g3 ⊢
    obtain ⟨h', e3, g4⟩ := (swap2 g3).give
    exact ⟨y, _, h', by rw [e3]; rfl, g4, by simp [hc], rfl, rfl⟩
  · rw [if_neg hc]
    dsimp only
    have g1 : G h (y :: x :: xs) F := swap2 g
    obtain ⟨g2, a1, a2, a3⟩ := moveWith_ok (e := e) p x.alloc y h _ _ g1
    obtain ⟨g3, e1, e2⟩ := swap_ok (e := e) x (moveWith e p x.alloc y h).1 (moveWith e p x.alloc y h).2.2
      ((moveWith e p x.alloc y h).2.1 :: xs) F (g2.ord (((List.Perm.swap _ _ _).cons _).trans (List.Perm.swap _ _ _))) (.inr a1.symm)
    rw [e1, e2] at g3 ⊢
    obtain ⟨h', e3, g4⟩ := (swap2 g3).give
    exact ⟨_, _, h', by rw [e3]; rfl, g4, by simp [hc, a1], a2, a3⟩

/-- The hash containers keep to the standard's rules if the allocator is exchanged by `swap` whenever it is
taken by an assignment. -/
theorem hash_lawful (hm : e.tr.moveAssign = true → e.tr.swap = true) (hc : e.tr.copyAssign = true → e.tr.swap = true) :
    Lawful (hashLib e) (fun _ => True) (Rules.standard e.tr e.select) where
  make p a h F g := ⟨_, _, rfl, G.take g a (p 0).fresh [], rfl⟩
  use p s h F g := by
    obtain ⟨x', h', e1, g', a, -⟩ := use_ok (p 0) s h F g
    exact ⟨x', h', e1, g', a⟩
  copy p s h F g := ⟨_, _, rfl, swap2 (G.take g (e.select s.alloc) (p 0).fresh s.vals), rfl⟩
  copyWith _ p a s h F g := ⟨_, _, rfl, swap2 (G.take g a (p 0).fresh s.vals), rfl⟩
  move p s h F g := ⟨s, ⟨s.alloc, [], []⟩, h, rfl, G.re g (by simp [Cont.held]), rfl, rfl⟩
  moveWith _ p a s h F g := by
    obtain ⟨g', a1, a2, a3⟩ := moveWith_ok (e := e) (p 0) a s h [] F g
    refine ⟨_, _, _, rfl, swap2 g', ?_, a3⟩
    exact Prod.ext a1 a2
  copyAssign p x y h F g := by
    obtain ⟨x', h', e1, g', a1, a2⟩ := hashCopyAssign_ok hc (p 0) x y h F g
    exact ⟨x', h', e1, g', Prod.ext a1 a2⟩
  moveAssign p x y h F g := by
    obtain ⟨x', y', h', e1, g', a1, a2, a3⟩ := hashMoveAssign_ok (e := e) (p 0) x y h [] F (fun h => .inl (hm h)) g
    exact ⟨x', y', h', e1, g', Prod.ext a1 a2, .inr a3⟩
  swap x y h F g hs := by
    obtain ⟨g', e1, e2⟩ := swap_ok (e := e) x y h [] F g hs
    exact ⟨g', by show (hashLib e).get (swap e x y).1 = _; rw [e1], by show (hashLib e).get (swap e x y).2 = _; rw [e2]⟩
  destroy s h F g := G.give g

/-- What the B-tree containers do with allocators, whatever the traits are. -/
def btreeRules (tr : Traits) : Rules A where
  copied a := a
  moved a := a
  movedWith a := a
  copyAssign := tr.copyAssign
  moveAssign := tr.copyAssign
  swap := tr.swap
  withAlloc := false

theorem btree_lawful : Lawful (btreeLib e) (fun _ => True) (btreeRules e.tr) where
  make p a h F g := ⟨_, _, rfl, G.take g a (p 0).fresh [], rfl⟩
  use p s h F g := by
    obtain ⟨x', h', e1, g', a, -⟩ := use_ok (p 0) s h F g
    exact ⟨x', h', e1, g', a⟩
  copy p s h F g := ⟨_, _, rfl, swap2 (G.take g s.alloc (p 0).fresh s.vals), rfl⟩
  copyWith hw := by simp [btreeRules] at hw
  move p s h F g := ⟨s, ⟨s.alloc, [], []⟩, h, rfl, G.re g (by simp [Cont.held]), rfl, rfl⟩
  moveWith hw := by simp [btreeRules] at hw
  copyAssign p x y h F g := by
    obtain ⟨h', e1, g'⟩ := G.give g
    refine ⟨_, _, ?_, G.take g' (if e.tr.copyAssign then y.alloc else x.alloc) (p 0).fresh y.vals, rfl⟩
    show btreeCopyAssign e (p 0) x y h = _
    unfold btreeCopyAssign
    rw [e1]
    rfl
  moveAssign p x y h F g := by
    obtain ⟨h', e1, g'⟩ := G.give g
    show ∃ x' y' h', btreeMoveAssign e (p 0) x y h = some (x', y', h') ∧ _
    unfold btreeMoveAssign
    rw [e1]
    dsimp only [Option.map_some]
    by_cases hc : e.tr.copyAssign = true
    · rw [if_pos hc]
      refine ⟨_, _, _, rfl, g'.re (by simp [Cont.held]), ?_, .inl rfl⟩
      simp [btreeLib, btreeRules, hc]
    · rw [if_neg hc]
      by_cases ha : x.alloc = y.alloc
      · rw [if_pos ha]
        refine ⟨_, _, _, rfl, g'.re (by simp [Cont.held, ha]), ?_, .inr rfl⟩
        simp [btreeLib, btreeRules, hc]
      · rw [if_neg ha]
        refine ⟨_, _, _, rfl, ?_, ?_, .inr rfl⟩
        · have g2 : G h' [⟨y.alloc, y.blocks, y.vals.map e.husk⟩] F := g'.re (by simp [Cont.held])
          exact g2.take x.alloc (p 0).fresh y.vals
        · simp [btreeLib, btreeRules, hc, copyWith]
  swap x y h F g hs := by
    obtain ⟨g', e1, e2⟩ := swap_ok (e := e) x y h [] F g hs
    exact ⟨g', by show (btreeLib e).get (swap e x y).1 = _; rw [e1], by show (btreeLib e).get (swap e x y).2 = _; rw [e2]⟩
  destroy s h F g := G.give g

theorem vecAssign_ok (p : Pick α) (vs : List α) (x : Cont A α) (h : Heap A) (xs F) (g : G h (x :: xs) F) :
    ∃ x' h', vecAssign p vs x h = some (x', h') ∧ G h' (x' :: xs) F ∧ x'.alloc = x.alloc ∧ x'.vals = vs := by
  unfold vecAssign
  by_cases hf : p.fits = true
  · rw [if_pos hf]
    exact ⟨_, _, rfl, g.re (by simp [Cont.held]), rfl, rfl⟩
  · rw [if_neg hf]
    obtain ⟨h', e1, g'⟩ := g.give
    exact ⟨_, _, by rw [e1]; rfl, g'.take x.alloc p.fresh vs, rfl, rfl⟩

/-- `gtl::vector` keeps to the standard's rules, whatever the traits are. -/
theorem vec_lawful : Lawful (vecLib e) (fun _ => True) (Rules.standard e.tr e.select) where
  make p a h F g := ⟨_, _, rfl, G.take g a (p 0).fresh [], rfl⟩
  use p s h F g := by
    obtain ⟨x', h', e1, g', a, -⟩ := use_ok (p 0) s h F g
    exact ⟨x', h', e1, g', a⟩
  copy p s h F g := ⟨_, _, rfl, swap2 (G.take g (e.select s.alloc) (p 0).fresh s.vals), rfl⟩
  copyWith _ p a s h F g := ⟨_, _, rfl, swap2 (G.take g a (p 0).fresh s.vals), rfl⟩
  move p s h F g := ⟨s, ⟨s.alloc, [], []⟩, h, rfl, G.re g (by simp [Cont.held]), rfl, rfl⟩
  moveWith _ p a s h F g := by
    obtain ⟨g', a1, a2, a3⟩ := moveWith_ok (e := e) (p 0) a s h [] F g
    exact ⟨_, _, _, rfl, swap2 g', Prod.ext a1 a2, a3⟩
  copyAssign p x y h F g := by
    show ∃ x' h', vecCopyAssign e (p 0) x y h = some (x', h') ∧ _
    unfold vecCopyAssign
    by_cases hc : e.tr.copyAssign = true
    · rw [if_pos hc]
      by_cases ha : x.alloc = y.alloc
      · rw [if_neg (by simpa using ha)]
        obtain ⟨x', h', e1, g', a1, a2⟩ := vecAssign_ok (p 0) y.vals ⟨y.alloc, x.blocks, x.vals⟩ h [y] F
          (G.re g (by simp [Cont.held, ha]))
        exact ⟨x', h', e1, g', by simp [vecLib, Rules.standard, hc, a1, a2]⟩
      · rw [if_pos ha]
        obtain ⟨h1, e1, g1⟩ := G.give g
        rw [e1]
        obtain ⟨x', h', e2, g', a1, a2⟩ := vecAssign_ok (p 0) y.vals ⟨y.alloc, [], []⟩ h1 [y] F
          (g1.re (by simp [Cont.held]))
        exact ⟨x', h', e2, g', by simp [vecLib, Rules.standard, hc, a1, a2]⟩
    · rw [if_neg hc]
      obtain ⟨x', h', e1, g', a1, a2⟩ := vecAssign_ok (p 0) y.vals x h [y] F g
      exact ⟨x', h', e1, g', by simp [vecLib, Rules.standard, hc, a1, a2]⟩
  moveAssign p x y h F g := by
    show ∃ x' y' h', vecMoveAssign e (p 0) x y h = some (x', y', h') ∧ _
    unfold vecMoveAssign
    by_cases hc : e.tr.moveAssign = true
    · rw [if_pos hc]
      exact ⟨_, _, _, rfl, swap2 g, by simp [vecLib, Rules.standard, hc], .inl rfl⟩
    · rw [if_neg hc]
      by_cases ha : x.alloc = y.alloc
      · rw [if_pos ha]
        exact ⟨_, _, _, rfl, (swap2 g).re (by simp [Cont.held, ha]), by simp [vecLib, Rules.standard, hc], .inr rfl⟩
      · rw [if_neg ha]
        obtain ⟨h1, e1, g1⟩ := G.give g
        rw [e1]
        have g2 : G h1 [⟨y.alloc, y.blocks, y.vals.map e.husk⟩] F := g1.re (by simp [Cont.held])
        exact ⟨_, _, _, rfl, g2.take x.alloc (p 0).fresh y.vals, by simp [vecLib, Rules.standard, hc], .inr rfl⟩
  swap x y h F g hs := by
    obtain ⟨g', e1, e2⟩ := swap_ok (e := e) x y h [] F g hs
    exact ⟨g', by show (vecLib e).get (swap e x y).1 = _; rw [e1], by show (vecLib e).get (swap e x y).2 = _; rw [e2]⟩
  destroy s h F g := G.give g

end Gtl.Alloc
