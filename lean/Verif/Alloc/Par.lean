import Verif.Alloc.Kinds
/-
Parallel hash containers: which rules they keep to.
-/
namespace Gtl.Alloc
open Gtl.Spec.AllocOwner
variable {A α : Type} [DecidableEq A] {e : Env A α}

theorem G.frame {h : Heap A} {xs ys : List (Cont A α)} {F} : G h (xs ++ ys) F ↔ G h xs (ys.flatMap Cont.held ++ F) := by
  constructor <;> intro g <;> exact .of g.wf (by simpa using g.live)

theorem each_ok {f : Pick α → Cont A α → Heap A → Option (Cont A α × Heap A)} {pre : Cont A α → List (Cont A α)}
    {P : Cont A α → Prop} {Q : Cont A α → Cont A α → Prop}
    (hf : ∀ p x h F, P x → G h (pre x) F → ∃ x' h', f p x h = some (x', h') ∧ G h' [x'] F ∧ Q x x') (p : Nat → Pick α) :
    ∀ (xs : List (Cont A α)) (k : Nat) (h : Heap A) (F), (∀ x ∈ xs, P x) → G h (xs.flatMap pre) F →
    ∃ xs' h', each f p k xs h = some (xs', h') ∧ G h' xs' F ∧ List.Forall₂ Q xs xs' := by
  intro xs
  induction xs with
  | nil => intro k h F _ g; exact ⟨[], h, rfl, g, .nil⟩
  | cons x xs ih =>
    intro k h F hP g
    rw [List.flatMap_cons] at g
    obtain ⟨x', h1, e1, g1, q⟩ := hf (p k) x h _ (hP x (by simp)) (G.frame.1 g)
    have g2 : G h1 (xs.flatMap pre) (([x'] : List (Cont A α)).flatMap Cont.held ++ F) :=
      G.frame.1 ((G.frame.2 g1).ord List.perm_append_comm)
    obtain ⟨xs', h2, e2, g3, qs⟩ := ih (k + 1) h1 _ (fun y hy => hP y (by simp [hy])) g2
    exact ⟨x' :: xs', h2, by simp [each, e1, e2], (G.frame.2 g3).ord List.perm_append_comm, .cons q qs⟩

theorem each2_ok {f : Pick α → Cont A α → Cont A α → Heap A → Option (Cont A α × Cont A α × Heap A)}
    {pre : Cont A α → Cont A α → List (Cont A α)} {P : Cont A α → Cont A α → Prop} {a' b' : A}
    (hf : ∀ p x y h F, P x y → G h (pre x y) F → ∃ x' y' h', f p x y h = some (x', y', h') ∧ G h' [x', y'] F ∧
      x'.alloc = a' ∧ x'.vals = y.vals ∧ y'.alloc = b') (p : Nat → Pick α) :
    ∀ (xs ys : List (Cont A α)) (k : Nat) (h : Heap A) (F), xs.length = ys.length → (∀ x ∈ xs, ∀ y ∈ ys, P x y) →
    G h ((xs.zip ys).flatMap fun q => pre q.1 q.2) F →
    ∃ xs' ys' h', each2 f p k xs ys h = some (xs', ys', h') ∧ G h' (xs' ++ ys') F ∧
      xs'.length = ys.length ∧ ys'.length = ys.length ∧ (∀ x ∈ xs', x.alloc = a') ∧
      xs'.map Cont.vals = ys.map Cont.vals ∧ ∀ y ∈ ys', y.alloc = b' := by
  intro xs
  induction xs with
  | nil =>
    intro ys k h F hl _ g
    cases ys with
    | nil => exact ⟨[], [], h, rfl, g, rfl, rfl, by simp, rfl, by simp⟩
    | cons y ys => simp at hl
  | cons x xs ih =>
    intro ys k h F hl hP g
    cases ys with
    | nil => simp at hl
    | cons y ys =>
      rw [List.zip_cons_cons, List.flatMap_cons] at g
      obtain ⟨x', y', h1, e1, g1, q1, q2, q3⟩ := hf (p k) x y h _ (hP x (by simp) y (by simp)) (G.frame.1 g)
      have g2 : G h1 ((xs.zip ys).flatMap fun q => pre q.1 q.2) (([x', y'] : List (Cont A α)).flatMap Cont.held ++ F) :=
        G.frame.1 ((G.frame.2 g1).ord List.perm_append_comm)
      obtain ⟨xs', ys', h2, e2, g3, l1, l2, r1, r2, r3⟩ := ih ys (k + 1) h1 _ (by simpa using hl)
        (fun u hu v hv => hP u (by simp [hu]) v (by simp [hv])) g2
      refine ⟨x' :: xs', y' :: ys', h2, by simp [each2, e1, e2], (G.frame.2 g3).ord ?_, by simp [l1], by simp [l2], ?_,
        by simp [q2, r2], ?_⟩
      · refine List.perm_append_comm.trans ?_
        simp only [List.cons_append, List.nil_append]
        exact (List.perm_middle.symm).cons _
      · intro u hu
        rcases List.mem_cons.1 hu with rfl | hu
        · exact q1
        · exact r1 u hu
      · intro u hu
        rcases List.mem_cons.1 hu with rfl | hu
        · exact q3
        · exact r3 u hu

/-- What the parallel containers do with allocators. A container made by moving has the allocator that it should
have if move assignment takes the allocator, and a default one if not. -/
def parRules (e : Env A α) : Rules A where
  copied := e.select
  moved a := if e.tr.moveAssign then a else e.dflt
  movedWith a := if e.tr.moveAssign then a else e.dflt
  copyAssign := e.tr.copyAssign
  moveAssign := e.tr.moveAssign
  swap := e.tr.swap
  withAlloc := true

/-- All submaps have the same allocator. -/
def Same (e : Env A α) (n : Nat) (x : List (Cont A α)) : Prop := x.length = n ∧ ∀ c ∈ x, c.alloc = parAlloc e x

theorem parAlloc_eq {x : List (Cont A α)} {a : A} (hx : x ≠ []) (h : ∀ c ∈ x, c.alloc = a) : parAlloc e x = a := by
  cases x with
  | nil => exact absurd rfl hx
  | cons c x => simpa [parAlloc] using h c (by simp)

theorem Same.of {n : Nat} {x : List (Cont A α)} {a : A} (hn : 0 < n) (hl : x.length = n) (h : ∀ c ∈ x, c.alloc = a) :
    Same e n x ∧ parAlloc e x = a := by
  have : parAlloc e x = a := parAlloc_eq (by rintro rfl; simp at hl; omega) h
  exact ⟨⟨hl, by rw [this]; exact h⟩, this⟩

/-- `Good` of parallel containers and of their submaps. -/
theorem goodP {n : Nat} {h : Heap A} {ss : List (List (Cont A α))} {F} :
    Good (Same e n) (parLib e n).held h ss F ↔ (∀ s ∈ ss, Same e n s) ∧ G h ss.flatten F := by
  have : ss.flatMap (parLib e n).held = ss.flatten.flatMap Cont.held := by
    induction ss with
    | nil => rfl
    | cons s ss ih => simp only [List.flatMap_cons, List.flatten_cons, List.flatMap_append, ih]; rfl
  constructor
  · intro g; exact ⟨g.inv, .of g.wf (by rw [← this]; exact g.live)⟩
  · intro g; exact ⟨g.1, g.2.wf, by rw [this]; exact g.2.live⟩

theorem parCopyOne_ok (a : A) (p : Pick α) (y : Cont A α) (h : Heap A) (F) (g : G (α := α) h [] F) :
    ∃ x' h', parCopyOne e a p y h = some (x', h') ∧ G h' [x'] F ∧ x'.alloc = a ∧ x'.vals = y.vals := by
  have g1 := g.take a p.fresh y.vals
  have g2 : G (h.take a p.fresh).2 [⟨a, [], []⟩, ⟨a, (h.take a p.fresh).1, y.vals⟩] F := g1.re (by simp [Cont.held])
  obtain ⟨x', y', h', e1, g3, a1, a2, a3⟩ := hashMoveAssign_ok (e := e) p ⟨a, [], []⟩ ⟨a, (h.take a p.fresh).1, y.vals⟩ _ _ _ (fun _ => .inr rfl) g2
  obtain ⟨h'', e2, g4⟩ := (swap2 g3).give
  refine ⟨x', h'', ?_, g4, by simpa using a1, a2⟩
  unfold parCopyOne copyWith
  dsimp only
  rw [e1]
  simp [e2]

theorem parMoveOne_ok (hm : e.tr.moveAssign = true → e.tr.swap = true) (a : A) (p : Pick α) (x y : Cont A α) (h : Heap A) (F)
    (g : G h [y] F) :
    ∃ x' y' h', parMoveOne e a p x y h = some (x', y', h') ∧ G h' [x', y'] F ∧
      x'.alloc = (if e.tr.moveAssign then a else e.dflt) ∧ x'.vals = y.vals ∧ y'.alloc = y.alloc := by
  obtain ⟨g1, b1, b2, b3⟩ := moveWith_ok (e := e) p a y h [] F g
  have g2 : G (moveWith e p a y h).2.2 (⟨e.dflt, [], []⟩ :: (moveWith e p a y h).1 :: [(moveWith e p a y h).2.1]) F :=
    g1.re (by simp [Cont.held])
  obtain ⟨x', y', h', e1, g3, a1, a2, a3⟩ := hashMoveAssign_ok (e := e) p _ _ _ _ _ (fun h => .inl (hm h)) g2
  obtain ⟨h'', e2, g4⟩ := (swap2 g3).give
  refine ⟨x', (moveWith e p a y h).2.1, h'', ?_, g4, ?_, by rw [a2, b2], b3⟩
  · unfold parMoveOne
    dsimp only
    rw [e1]
    simp [e2]
  · rw [a1, b1]

theorem foldDestroy_ok : ∀ (xs : List (Cont A α)) (h : Heap A) (F), G h xs F →
    ∃ h', xs.foldlM (fun h c => destroy c h) h = some h' ∧ G (α := α) h' [] F := by
  intro xs
  induction xs with
  | nil => intro h F g; exact ⟨h, rfl, g⟩
  | cons x xs ih =>
    intro h F g
    obtain ⟨h1, e1, g1⟩ := g.give
    obtain ⟨h2, e2, g2⟩ := ih h1 F g1
    exact ⟨h2, by simp [List.foldlM_cons, e1, e2], g2⟩

theorem zip_self_flatMap (xs : List (Cont A α)) : (xs.zip xs).flatMap (fun q => [q.2]) = xs := by
  induction xs with
  | nil => rfl
  | cons x xs ih => simp [List.zip_cons_cons, ih]

theorem zip_flatMap : ∀ (xs ys : List (Cont A α)), xs.length = ys.length →
    ((xs.zip ys).flatMap (fun q => [q.1, q.2])).Perm (xs ++ ys) := by
  intro xs
  induction xs with
  | nil => intro ys h; cases ys with | nil => simp | cons y ys => simp at h
  | cons x xs ih =>
    intro ys h
    cases ys with
    | nil => simp at h
    | cons y ys =>
      simp only [List.zip_cons_cons, List.flatMap_cons, List.cons_append, List.nil_append]
      refine List.Perm.cons _ ?_
      exact ((ih ys (by simpa using h)).cons y).trans List.perm_middle.symm

theorem swap_zip :
    ∀ {xs ys : List (Cont A α)}, xs.length = ys.length → (e.tr.swap = true ∨ ∀ x ∈ xs, ∀ y ∈ ys, x.alloc = y.alloc) →
    (xs.zip ys).map (fun q => (swap e q.1 q.2).1) = ys ∧ (xs.zip ys).map (fun q => (swap e q.1 q.2).2) = xs := by
  intro xs
  induction xs with
  | nil => intro ys h _; cases ys with | nil => simp | cons y ys => simp at h
  | cons x xs ih =>
    intro ys h hs
    cases ys with
    | nil => simp at h
    | cons y ys =>
      obtain ⟨i1, i2⟩ := ih (ys := ys) (by simpa using h) (hs.imp_right fun h u hu v hv => h u (by simp [hu]) v (by simp [hv]))
      have e1 : swap e x y = (y, x) := by
        unfold swap
        by_cases hw : e.tr.swap = true
        · rw [if_pos hw]
        · rw [if_neg hw]
          have := (hs.resolve_left hw) x (by simp) y (by simp)
          cases x; cases y
          simp at this
          subst this
          rfl
      simp [List.zip_cons_cons, e1, i1, i2]

theorem forall₂_allocs {Q : Cont A α → Cont A α → Prop} {a : A} (hQ : ∀ x y, Q x y → y.alloc = a) :
    ∀ {xs ys}, List.Forall₂ Q xs ys → ∀ y ∈ ys, y.alloc = a := by
  intro xs ys h
  induction h with
  | nil => simp
  | cons q _ ih =>
    intro y hy
    rcases List.mem_cons.1 hy with rfl | hy
    · exact hQ _ _ q
    · exact ih y hy

theorem forall₂_vals {Q : Cont A α → Cont A α → Prop} (hQ : ∀ x y, Q x y → y.vals = x.vals) :
    ∀ {xs ys}, List.Forall₂ Q xs ys → ys.flatMap Cont.vals = xs.flatMap Cont.vals := by
  intro xs ys h
  induction h with
  | nil => rfl
  | cons q _ ih => simp only [List.flatMap_cons, ih, hQ _ _ q]

theorem flatMap_of_map {xs ys : List (Cont A α)} (h : xs.map Cont.vals = ys.map Cont.vals) :
    xs.flatMap Cont.vals = ys.flatMap Cont.vals := by
  rw [List.flatMap_def, List.flatMap_def, h]

theorem flatMap_single (xs : List (Cont A α)) : xs.flatMap (fun x => [x]) = xs := by
  induction xs with
  | nil => rfl
  | cons x xs ih => simp [List.flatMap_cons, ih]

theorem flatMap_none (xs : List (Cont A α)) : xs.flatMap (fun _ => ([] : List (Cont A α))) = [] := by
  induction xs with
  | nil => rfl
  | cons x xs ih => simp [List.flatMap_cons]

theorem parCopy_ok {n : Nat} (hn : 0 < n) (p : Nat → Pick α) (a : A) (s : List (Cont A α)) (h : Heap A) (F)
    (g : Good (Same e n) (parLib e n).held h [s] F) :
    ∃ s' h', each (parCopyOne e a) p 0 s h = some (s', h') ∧ Good (Same e n) (parLib e n).held h' [s, s'] F ∧
      (parLib e n).get s' = (a, ((parLib e n).get s).2) := by
  obtain ⟨hs, g⟩ := goodP.1 g
  have hs := hs s (by simp)
  have g0 : G h (s.flatMap fun _ => ([] : List (Cont A α))) (s.flatMap Cont.held ++ F) := by
    rw [flatMap_none]
    have g' : G h ([] ++ s) F := by simpa using g
    exact G.frame.1 g'
  obtain ⟨s', h', e1, g1, q⟩ := each_ok (pre := fun _ => []) (P := fun _ => True)
    (Q := fun y x => x.alloc = a ∧ x.vals = y.vals)
    (fun p x h F _ g => parCopyOne_ok a p x h F g) p s 0 h _ (by simp) g0
  obtain ⟨h1, h2⟩ := Same.of (e := e) hn (by rw [← q.length_eq, hs.1]) (forall₂_allocs (fun _ _ h => h.1) q)
  refine ⟨s', h', e1, goodP.2 ⟨by simp [hs, h1], ?_⟩, ?_⟩
  · simpa using (G.frame.2 g1).ord List.perm_append_comm
  · exact Prod.ext h2 (forall₂_vals (fun _ _ h => h.2) q)

theorem parMove_ok {n : Nat} (hn : 0 < n) (hm : e.tr.moveAssign = true → e.tr.swap = true) (p : Nat → Pick α) (a : A)
    (s : List (Cont A α)) (h : Heap A) (F) (g : Good (Same e n) (parLib e n).held h [s] F) :
    ∃ t s' h', each2 (parMoveOne e a) p 0 s s h = some (t, s', h') ∧
      Good (Same e n) (parLib e n).held h' [s', t] F ∧
      (parLib e n).get t = (if e.tr.moveAssign then a else e.dflt, ((parLib e n).get s).2) ∧
      ((parLib e n).get s').1 = ((parLib e n).get s).1 := by
  obtain ⟨hs, g⟩ := goodP.1 g
  have hs := hs s (by simp)
  obtain ⟨t, s', h', e1, g1, l1, l2, r1, r2, r3⟩ := each2_ok (pre := fun _ y => [y])
    (P := fun _ y => y.alloc = parAlloc e s) (a' := if e.tr.moveAssign then a else e.dflt) (b' := parAlloc e s)
    (fun p x y h F hP g => by
      obtain ⟨x', y', h', e1, g1, a1, a2, a3⟩ := parMoveOne_ok hm a p x y h F g
      exact ⟨x', y', h', e1, g1, a1, a2, by rw [a3, hP]⟩) p s s 0 h F rfl (fun _ _ y hy => hs.2 y hy) (by
        rw [zip_self_flatMap]; simpa using g)
  obtain ⟨h1, h2⟩ := Same.of (e := e) hn (by rw [l1, hs.1]) r1
  obtain ⟨h3, h4⟩ := Same.of (e := e) hn (by rw [l2, hs.1]) r3
  refine ⟨t, s', h', e1, goodP.2 ⟨by simp [h3, h1], ?_⟩, ?_, h4⟩
  · simpa using g1.ord List.perm_append_comm
  · exact Prod.ext h2 (flatMap_of_map r2)

/-- The parallel containers, for every number of submaps. -/
theorem par_lawful {n : Nat} (hn : 0 < n) (hm : e.tr.moveAssign = true → e.tr.swap = true)
    (hc : e.tr.copyAssign = true → e.tr.swap = true) : Lawful (parLib e n) (Same e n) (parRules e) where
  make p a h F g := by
    obtain ⟨-, g⟩ := goodP.1 g
    obtain ⟨s, h', e1, g1, q⟩ := each_ok (f := fun p _ h => some (Alloc.make p a h)) (pre := fun _ => [])
      (P := fun _ => True) (Q := fun _ x => x.alloc = a ∧ x.vals = [])
      (fun p x h F _ g => ⟨_, _, rfl, g.take a p.fresh [], rfl, rfl⟩) p (List.replicate n ⟨a, [], []⟩) 0 h F (by simp)
      (by rw [flatMap_none]; simpa using g)
    obtain ⟨h1, h2⟩ := Same.of (e := e) hn (by rw [← q.length_eq]; simp) (forall₂_allocs (fun _ _ h => h.1) q)
    refine ⟨s, h', e1, goodP.2 ⟨by simp [h1], by simpa using g1⟩, Prod.ext h2 ?_⟩
    show s.flatMap Cont.vals = []
    clear e1 g1 h1 h2
    generalize List.replicate n _ = l at q
    induction q with
    | nil => rfl
    | cons q _ ih => simp only [List.flatMap_cons, ih, q.2]; rfl
  use p s h F g := by
    obtain ⟨hs, g⟩ := goodP.1 g
    have hs := hs s (by simp)
    obtain ⟨s', h', e1, g1, q⟩ := each_ok (f := Alloc.use) (pre := fun x => [x]) (P := fun x => x.alloc = parAlloc e s)
      (Q := fun _ x => x.alloc = parAlloc e s)
      (fun p x h F hP g => by
        obtain ⟨x', h', e1, g1, a1, -⟩ := use_ok p x h F g
        exact ⟨x', h', e1, g1, a1.trans hP⟩) p s 0 h F hs.2 (by rw [flatMap_single]; simpa using g)
    obtain ⟨h1, h2⟩ := Same.of (e := e) hn (by rw [← q.length_eq, hs.1]) (forall₂_allocs (fun _ _ h => h) q)
    exact ⟨s', h', e1, goodP.2 ⟨by simp [h1], by simpa using g1⟩, h2⟩
  copy p s h F g := parCopy_ok hn p (e.select (parAlloc e s)) s h F g
  copyWith _ p a s h F g := parCopy_ok hn p a s h F g
  move p s h F g := parMove_ok hn hm p (parAlloc e s) s h F g
  moveWith _ p a s h F g := parMove_ok hn hm p a s h F g
  copyAssign p x y h F g := by
    obtain ⟨hs, g⟩ := goodP.1 g
    have hx := hs x (by simp)
    have hy := hs y (by simp)
    obtain ⟨x', y', h', e1, g1, l1, l2, r1, r2, r3⟩ := each2_ok
      (f := fun p x y h => (hashCopyAssign e p x y h).map fun r => (r.1, y, r.2)) (pre := fun x y => [x, y])
      (P := fun u v => u.alloc = parAlloc e x ∧ v.alloc = parAlloc e y)
      (a' := if e.tr.copyAssign then parAlloc e y else parAlloc e x) (b' := parAlloc e y)
      (fun p u v h F hP g => by
        obtain ⟨u', h', e1, g1, a1, a2⟩ := hashCopyAssign_ok hc p u v h F g
        exact ⟨u', v, h', by rw [e1]; rfl, g1, by rw [a1, hP.1, hP.2], a2, hP.2⟩) p x y 0 h F (by rw [hx.1, hy.1])
      (fun u hu v hv => ⟨hx.2 u hu, hy.2 v hv⟩) (g.ord (by
        simpa using (zip_flatMap x y (by rw [hx.1, hy.1])).symm))
    have ey : y' = y := by
      have : ∀ (xs ys : List (Cont A α)) k h r, xs.length = ys.length →
          each2 (fun p x y h => (hashCopyAssign e p x y h).map fun r => (r.1, y, r.2)) p k xs ys h = some r → r.2.1 = ys := by
        intro xs
        induction xs with
        | nil => intro ys k h r hl hr; cases ys with | nil => cases hr; rfl | cons y ys => simp at hl
        | cons x xs ih =>
          intro ys k h r hl hr
          cases ys with
          | nil => simp at hl
          | cons y ys =>
            simp only [each2] at hr
            obtain ⟨q, hq, hr⟩ := Option.bind_eq_some_iff.1 hr
            obtain ⟨q', hq', rfl⟩ := Option.map_eq_some_iff.1 hq
            obtain ⟨t, ht, rfl⟩ := Option.map_eq_some_iff.1 hr
            simp only
            rw [ih ys _ _ t (by simpa using hl) ht]
      exact this x y 0 h _ (by rw [hx.1, hy.1]) e1
    subst ey
    obtain ⟨h1, h2⟩ := Same.of (e := e) hn (by rw [l1, hy.1]) r1
    refine ⟨x', h', ?_, goodP.2 ⟨by simp [h1, hy], by simpa using g1⟩, Prod.ext h2 (flatMap_of_map r2)⟩
    show Option.map _ _ = _
    rw [e1]
    rfl
  moveAssign p x y h F g := by
    obtain ⟨hs, g⟩ := goodP.1 g
    have hx := hs x (by simp)
    have hy := hs y (by simp)
    obtain ⟨x', y', h', e1, g1, l1, l2, r1, r2, r3⟩ := each2_ok (f := hashMoveAssign e) (pre := fun x y => [x, y])
      (P := fun u v => u.alloc = parAlloc e x ∧ v.alloc = parAlloc e y)
      (a' := if e.tr.moveAssign then parAlloc e y else parAlloc e x) (b' := parAlloc e y)
      (fun p u v h F hP g => by
        obtain ⟨u', v', h', e1, g1, a1, a2, a3⟩ := hashMoveAssign_ok (e := e) p u v h [] F (fun h => .inl (hm h)) g
        exact ⟨u', v', h', e1, g1, by rw [a1, hP.1, hP.2], a2, by rw [a3, hP.2]⟩) p x y 0 h F (by rw [hx.1, hy.1])
      (fun u hu v hv => ⟨hx.2 u hu, hy.2 v hv⟩) (g.ord (by
        simpa using (zip_flatMap x y (by rw [hx.1, hy.1])).symm))
    obtain ⟨h1, h2⟩ := Same.of (e := e) hn (by rw [l1, hy.1]) r1
    obtain ⟨h3, h4⟩ := Same.of (e := e) hn (by rw [l2, hy.1]) r3
    exact ⟨x', y', h', e1, goodP.2 ⟨by simp [h1, h3], by simpa using g1⟩, Prod.ext h2 (flatMap_of_map r2), .inr h4⟩
  swap x y h F g hsw := by
    obtain ⟨hs, g⟩ := goodP.1 g
    have hx := hs x (by simp)
    have hy := hs y (by simp)
    obtain ⟨e1, e2⟩ := swap_zip (e := e) (xs := x) (ys := y) (by rw [hx.1, hy.1]) (hsw.imp_right fun h u hu v hv => by
      rw [hx.2 u hu, hy.2 v hv]; exact h)
    have e3 : (parLib e n).swap x y = (y, x) := Prod.ext e1 e2
    rw [e3]
    refine ⟨goodP.2 ⟨by simp [hx, hy], ?_⟩, rfl, rfl⟩
    simp only [List.flatten_cons, List.flatten_nil, List.append_nil] at g ⊢
    exact g.ord List.perm_append_comm
  destroy s h F g := by
    obtain ⟨-, g⟩ := goodP.1 g
    obtain ⟨h', e1, g1⟩ := foldDestroy_ok s h F (by simpa using g)
    exact ⟨h', e1, goodP.2 ⟨by simp, by simpa using g1⟩⟩

end Gtl.Alloc
