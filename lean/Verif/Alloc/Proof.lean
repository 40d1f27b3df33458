import Verif.Alloc.Model
import Mathlib.Data.List.Nodup
import Mathlib.Data.List.Perm.Basic
/-
Each operation of each kind of container keeps to the rules and leaves exactly the blocks outstanding that the
containers hold.
-/
namespace Gtl.Alloc
open Gtl.Spec.AllocOwner
variable {A α S : Type}

/-- Addresses of outstanding blocks are distinct and were handed out. -/
def Heap.WF (h : Heap A) : Prop := (h.live.map Prod.fst).Nodup ∧ ∀ b ∈ h.live, b.1 < h.next

theorem Heap.take_ok (a : A) (k : Nat) : ∀ (h : Heap A), h.WF →
    (h.take a k).2.WF ∧ (h.take a k).2.live.Perm ((h.take a k).1.map (fun b => (b, a)) ++ h.live) := by
  induction k with
  | zero => intro h hw; exact ⟨hw, by simp [Heap.take]⟩
  | succ k ih =>
    intro h hw
    have hw' : Heap.WF ⟨h.next + 1, (h.next, a) :: h.live⟩ := by
      refine ⟨?_, ?_⟩
      · simp only [List.map_cons, List.nodup_cons]
        refine ⟨fun hm => ?_, hw.1⟩
        obtain ⟨b, hb, e⟩ := List.mem_map.1 hm
        have := hw.2 b hb
        omega
      · intro b hb
        rcases List.mem_cons.1 hb with rfl | hb
        · exact Nat.lt_succ_self _
        · exact Nat.lt_succ_of_lt (hw.2 b hb)
    obtain ⟨h1, h2⟩ := ih _ hw'
    refine ⟨h1, ?_⟩
    simp only [Heap.take, List.map_cons]
    refine h2.trans ?_
    simpa using List.perm_middle

variable [DecidableEq A]

theorem Heap.give_ok (a : A) (bs : List Nat) : ∀ (h : Heap A) (F : List (Nat × A)), h.WF →
    h.live.Perm (bs.map (fun b => (b, a)) ++ F) →
    ∃ h', h.give a bs = some h' ∧ h'.WF ∧ h'.live.Perm F := by
  induction bs with
  | nil => intro h F hw hp; exact ⟨h, rfl, hw, by simpa using hp⟩
  | cons b bs ih =>
    intro h F hw hp
    have hm : (b, a) ∈ h.live := hp.symm.subset (by simp)
    obtain ⟨h', e, hw', hp'⟩ := ih ⟨h.next, h.live.erase (b, a)⟩ F
      ⟨(hw.1.sublist ((List.erase_sublist).map _)), fun c hc => hw.2 c (List.erase_subset hc)⟩
      (by
        have := hp.erase (b, a)
        simpa using this)
    exact ⟨h', by simp only [Heap.give]; rw [if_pos hm]; exact e, hw', hp'⟩

/-- The containers `ss` and the blocks `F` of others are all that is outstanding. -/
structure Good (inv : S → Prop) (held : S → List (Nat × A)) (h : Heap A) (ss : List S) (F : List (Nat × A)) : Prop where
  inv : ∀ s ∈ ss, inv s
  wf : h.WF
  live : h.live.Perm (ss.flatMap held ++ F)

/-- What each operation must do. -/
structure Lawful (lib : Lib A α S) (inv : S → Prop) (r : Rules A) : Prop where
  make : ∀ p a h F, Good inv lib.held h [] F → ∃ s h', lib.make p a h = some (s, h') ∧
    Good inv lib.held h' [s] F ∧ lib.get s = (a, [])
  use : ∀ p s h F, Good inv lib.held h [s] F → ∃ s' h', lib.use p s h = some (s', h') ∧
    Good inv lib.held h' [s'] F ∧ (lib.get s').1 = (lib.get s).1
  copy : ∀ p s h F, Good inv lib.held h [s] F → ∃ s' h', lib.copy p s h = some (s', h') ∧
    Good inv lib.held h' [s, s'] F ∧ lib.get s' = (r.copied (lib.get s).1, (lib.get s).2)
  copyWith : r.withAlloc = true → ∀ p a s h F, Good inv lib.held h [s] F → ∃ s' h', lib.copyWith p a s h = some (s', h') ∧
    Good inv lib.held h' [s, s'] F ∧ lib.get s' = (a, (lib.get s).2)
  move : ∀ p s h F, Good inv lib.held h [s] F → ∃ t s' h', lib.move p s h = some (t, s', h') ∧
    Good inv lib.held h' [s', t] F ∧ lib.get t = (r.moved (lib.get s).1, (lib.get s).2) ∧ (lib.get s').1 = (lib.get s).1
  moveWith : r.withAlloc = true → ∀ p a s h F, Good inv lib.held h [s] F → ∃ t s' h', lib.moveWith p a s h = some (t, s', h') ∧
    Good inv lib.held h' [s', t] F ∧ lib.get t = (r.movedWith a, (lib.get s).2) ∧ (lib.get s').1 = (lib.get s).1
  copyAssign : ∀ p x y h F, Good inv lib.held h [x, y] F → ∃ x' h', lib.copyAssign p x y h = some (x', h') ∧
    Good inv lib.held h' [x', y] F ∧
    lib.get x' = (if r.copyAssign then (lib.get y).1 else (lib.get x).1, (lib.get y).2)
  moveAssign : ∀ p x y h F, Good inv lib.held h [x, y] F → ∃ x' y' h', lib.moveAssign p x y h = some (x', y', h') ∧
    Good inv lib.held h' [x', y'] F ∧
    lib.get x' = (if r.moveAssign then (lib.get y).1 else (lib.get x).1, (lib.get y).2) ∧
    ((lib.get y').1 = (lib.get x).1 ∨ (lib.get y').1 = (lib.get y).1)
  swap : ∀ x y h F, Good inv lib.held h [x, y] F → (r.swap = true ∨ (lib.get x).1 = (lib.get y).1) →
    Good inv lib.held h [(lib.swap x y).1, (lib.swap x y).2] F ∧
    lib.get (lib.swap x y).1 = lib.get y ∧ lib.get (lib.swap x y).2 = lib.get x
  destroy : ∀ s h F, Good inv lib.held h [s] F → ∃ h', lib.destroy s h = some h' ∧ Good inv lib.held h' [] F

/-! ### Histories -/

theorem two_perm : ∀ (cs : List S) (i j : Nat) (x y : S), i ≠ j → cs[i]? = some x → cs[j]? = some y →
    ∃ rest, cs.Perm (x :: y :: rest) ∧ ∀ x' y', ((cs.set i x').set j y').Perm (x' :: y' :: rest) := by
  intro cs
  induction cs with
  | nil => intro i j x y _ h; simp at h
  | cons c cs ih =>
    intro i j x y hij hx hy
    cases i with
    | zero =>
      cases j with
      | zero => exact absurd rfl hij
      | succ j =>
        simp at hx hy
        subst hx
        obtain ⟨hj, ey⟩ := List.getElem?_eq_some_iff.1 hy
        refine ⟨cs.eraseIdx j, ?_, ?_⟩
        · rw [← ey]
          exact (List.getElem_cons_eraseIdx_perm hj).symm.cons _
        · intro x' y'
          exact (List.set_perm_cons_eraseIdx hj y').cons _
    | succ i =>
      cases j with
      | zero =>
        simp at hx hy
        subst hy
        obtain ⟨hi, ex⟩ := List.getElem?_eq_some_iff.1 hx
        refine ⟨cs.eraseIdx i, ?_, ?_⟩
        · rw [← ex]
          exact ((List.getElem_cons_eraseIdx_perm hi).symm.cons _).trans (List.Perm.swap _ _ _)
        · intro x' y'
          exact ((List.set_perm_cons_eraseIdx hi x').cons _).trans (List.Perm.swap _ _ _)
      | succ j =>
        obtain ⟨rest, h1, h2⟩ := ih i j x y (by omega) (by simpa using hx) (by simpa using hy)
        refine ⟨c :: rest, ?_, ?_⟩
        · exact (h1.cons c).trans ((List.Perm.swap _ _ _).trans ((List.Perm.swap _ _ _).cons _))
        · intro x' y'
          exact ((h2 x' y').cons c).trans ((List.Perm.swap _ _ _).trans ((List.Perm.swap _ _ _).cons _))

variable {lib : Lib A α S} {inv : S → Prop} {r : Rules A}

theorem Good.perm {held : S → List (Nat × A)} {h : Heap A} {ss tt : List S} {F G : List (Nat × A)}
    (g : Good inv held h ss F) (hs : ∀ s ∈ tt, inv s) (hp : (ss.flatMap held ++ F).Perm (tt.flatMap held ++ G)) :
    Good inv held h tt G := ⟨hs, g.wf, g.live.trans hp⟩

/-- From all containers to one, with the rest as a frame. -/
theorem Good.one {held : S → List (Nat × A)} {h : Heap A} {cs : List S} {i : Nat} {s : S}
    (g : Good inv held h cs []) (hi : cs[i]? = some s) :
    Good inv held h [s] ((cs.eraseIdx i).flatMap held) ∧
    ∀ h' s' F', Good inv held h' (s' :: F') ((cs.eraseIdx i).flatMap held) →
      Good inv held h' (cs.set i s' ++ F') [] := by
  obtain ⟨hl, rfl⟩ := List.getElem?_eq_some_iff.1 hi
  refine ⟨g.perm (fun s hs => ?_) ?_, fun h' s' F' g' => g'.perm (fun t ht => ?_) ?_⟩
  · rw [List.mem_singleton.1 hs]; exact g.inv _ (List.getElem_mem hl)
  · simpa using (List.Perm.flatMap_right held (List.getElem_cons_eraseIdx_perm hl)).symm
  · rcases List.mem_append.1 ht with ht | ht
    · rcases List.mem_cons.1 ((List.set_perm_cons_eraseIdx hl s').subset ht) with rfl | ht
      · exact g'.inv _ List.mem_cons_self
      · exact g.inv _ (List.mem_of_mem_eraseIdx ht)
    · exact g'.inv _ (List.mem_cons_of_mem _ ht)
  · have := List.Perm.flatMap_right held (List.set_perm_cons_eraseIdx hl s')
    simp only [List.flatMap_cons, List.flatMap_append, List.append_nil] at this ⊢
    refine List.Perm.trans ?_ (this.symm.append_right _)
    simp only [List.append_assoc]
    exact List.Perm.append_left _ List.perm_append_comm

theorem Good.two {held : S → List (Nat × A)} {h : Heap A} {cs : List S} {i j : Nat} {x y : S}
    (g : Good inv held h cs []) (hij : i ≠ j) (hi : cs[i]? = some x) (hj : cs[j]? = some y) :
    ∃ F, Good inv held h [x, y] F ∧ ∀ h' x' y', Good inv held h' [x', y'] F →
      Good inv held h' ((cs.set i x').set j y') [] := by
  obtain ⟨rest, h1, h2⟩ := two_perm cs i j x y hij hi hj
  refine ⟨rest.flatMap held, g.perm (fun s hs => ?_) ?_, fun h' x' y' g' => g'.perm (fun t ht => ?_) ?_⟩
  · rcases List.mem_cons.1 hs with rfl | hs
    · exact g.inv _ (List.mem_of_getElem? hi)
    · rw [List.mem_singleton.1 hs]; exact g.inv _ (List.mem_of_getElem? hj)
  · simpa using List.Perm.flatMap_right held h1
  · have := (h2 x' y').subset ht
    rcases List.mem_cons.1 this with rfl | this
    · exact g'.inv _ (by simp)
    · rcases List.mem_cons.1 this with rfl | this
      · exact g'.inv _ (by simp)
      · exact g.inv _ (h1.symm.subset (by simp [this]))
  · simpa using (List.Perm.flatMap_right held (h2 x' y')).symm

theorem set_self {l : List S} {i : Nat} {x : S} (h : l[i]? = some x) : l.set i x = l := by
  apply List.ext_getElem?
  intro k
  by_cases hk : i = k
  · subst hk
    obtain ⟨hi, -⟩ := List.getElem?_eq_some_iff.1 h
    rw [List.getElem?_set_self hi, h]
  · rw [List.getElem?_set_ne hk]

theorem map_get {cs : List S} {i : Nat} {s : S} (lib : Lib A α S) (h : cs[i]? = some s) :
    (cs.map lib.get)[i]? = some ((lib.get s).1, (lib.get s).2) := by simp [h]

theorem exec_ok (L : Lawful lib inv r) {cs : List S} {h : Heap A} (g : Good inv lib.held h cs []) (p : Nat → Pick α)
    {op : Op A} (ok : Ok r (cs.map lib.get) op) :
    ∃ cs' h', exec lib cs h p op = some (cs', h') ∧ Good inv lib.held h' cs' [] ∧
      Step r (cs.map lib.get) op (cs'.map lib.get) := by
  have get1 : ∀ {i : Nat}, i < cs.length → ∃ s, cs[i]? = some s := fun hi => ⟨_, List.getElem?_eq_getElem hi⟩
  cases op with
  | make a =>
    obtain ⟨s, h', e, g', eg⟩ := L.make p a h (cs.flatMap lib.held) (g.perm (by simp) (by simp))
    refine ⟨cs ++ [s], h', by simp [exec, e], g'.perm ?_ ?_, ?_⟩
    · intro t ht
      rcases List.mem_append.1 ht with ht | ht
      · exact g.inv _ ht
      · exact g'.inv _ ht
    · simpa using List.perm_append_comm
    · rw [List.map_append, List.map_singleton, eg]; exact .make
  | use i =>
    obtain ⟨s, hs⟩ := get1 (by simpa [Ok] using ok)
    obtain ⟨g1, g2⟩ := g.one hs
    obtain ⟨s', h', e, g', eg⟩ := L.use p s h _ g1
    refine ⟨cs.set i s', h', by simp [exec, hs, e], by simpa using g2 h' s' [] g', ?_⟩
    rw [List.map_set, show lib.get s' = ((lib.get s).1, (lib.get s').2) by rw [← eg]]
    exact .use (map_get lib hs)
  | copy i =>
    obtain ⟨s, hs⟩ := get1 (by simpa [Ok] using ok)
    obtain ⟨g1, g2⟩ := g.one hs
    obtain ⟨s', h', e, g', eg⟩ := L.copy p s h _ g1
    refine ⟨cs ++ [s'], h', by simp [exec, hs, e], ?_, ?_⟩
    · have := g2 h' s [s'] g'
      rwa [set_self hs] at this
    · rw [List.map_append, List.map_singleton, eg]; exact .copy (map_get lib hs)
  | copyWith i a =>
    obtain ⟨hi, hw⟩ : i < cs.length ∧ r.withAlloc = true := by simpa [Ok] using ok
    obtain ⟨s, hs⟩ := get1 hi
    obtain ⟨g1, g2⟩ := g.one hs
    obtain ⟨s', h', e, g', eg⟩ := L.copyWith hw p a s h _ g1
    refine ⟨cs ++ [s'], h', by simp [exec, hs, e], ?_, ?_⟩
    · have := g2 h' s [s'] g'
      rwa [set_self hs] at this
    · rw [List.map_append, List.map_singleton, eg]; exact .copyWith (map_get lib hs)
  | move i =>
    obtain ⟨s, hs⟩ := get1 (by simpa [Ok] using ok)
    obtain ⟨g1, g2⟩ := g.one hs
    obtain ⟨t, s', h', e, g', eg, es⟩ := L.move p s h _ g1
    refine ⟨cs.set i s' ++ [t], h', by simp [exec, hs, e], g2 h' s' [t] g', ?_⟩
    rw [List.map_append, List.map_singleton, eg, List.map_set,
      show lib.get s' = ((lib.get s).1, (lib.get s').2) by rw [← es]]
    exact .move (map_get lib hs)
  | moveWith i a =>
    obtain ⟨hi, hw⟩ : i < cs.length ∧ r.withAlloc = true := by simpa [Ok] using ok
    obtain ⟨s, hs⟩ := get1 hi
    obtain ⟨g1, g2⟩ := g.one hs
    obtain ⟨t, s', h', e, g', eg, es⟩ := L.moveWith hw p a s h _ g1
    refine ⟨cs.set i s' ++ [t], h', by simp [exec, hs, e], g2 h' s' [t] g', ?_⟩
    rw [List.map_append, List.map_singleton, eg, List.map_set,
      show lib.get s' = ((lib.get s).1, (lib.get s').2) by rw [← es]]
    exact .moveWith (map_get lib hs)
  | copyAssign i j =>
    obtain ⟨hi, hj, hij⟩ : i < cs.length ∧ j < cs.length ∧ i ≠ j := by simpa [Ok] using ok
    obtain ⟨x, hx⟩ := get1 hi
    obtain ⟨y, hy⟩ := get1 hj
    obtain ⟨F, g1, g2⟩ := g.two hij hx hy
    obtain ⟨x', h', e, g', eg⟩ := L.copyAssign p x y h F g1
    refine ⟨cs.set i x', h', by simp [exec, hx, hy, e], ?_, ?_⟩
    · have := g2 h' x' y g'
      rwa [set_self (by rw [List.getElem?_set_ne hij]; exact hy)] at this
    · rw [List.map_set, eg]; exact .copyAssign (map_get lib hx) (map_get lib hy)
  | moveAssign i j =>
    obtain ⟨hi, hj, hij⟩ : i < cs.length ∧ j < cs.length ∧ i ≠ j := by simpa [Ok] using ok
    obtain ⟨x, hx⟩ := get1 hi
    obtain ⟨y, hy⟩ := get1 hj
    obtain ⟨F, g1, g2⟩ := g.two hij hx hy
    obtain ⟨x', y', h', e, g', eg, ey⟩ := L.moveAssign p x y h F g1
    refine ⟨(cs.set i x').set j y', h', by simp [exec, hx, hy, e], g2 h' x' y' g', ?_⟩
    rw [List.map_set, List.map_set, eg, show lib.get y' = ((lib.get y').1, (lib.get y').2) from rfl]
    exact .moveAssign (map_get lib hx) (map_get lib hy) ey
  | swap i j =>
    obtain ⟨hi, hj, hij, hsw⟩ : i < cs.length ∧ j < cs.length ∧ i ≠ j ∧
      (r.swap = true ∨ (cs.map lib.get)[i]?.map Prod.fst = (cs.map lib.get)[j]?.map Prod.fst) := by
      obtain ⟨h1, h2, h3, h4⟩ := ok
      exact ⟨by simpa using h1, by simpa using h2, h3, h4⟩
    obtain ⟨x, hx⟩ := get1 hi
    obtain ⟨y, hy⟩ := get1 hj
    obtain ⟨F, g1, g2⟩ := g.two hij hx hy
    obtain ⟨g', e1, e2⟩ := L.swap x y h F g1 (by
      rcases hsw with hsw | hsw
      · exact .inl hsw
      · right; simpa [hx, hy] using hsw)
    refine ⟨(cs.set i (lib.swap x y).1).set j (lib.swap x y).2, h, by simp [exec, hx, hy], g2 h _ _ g', ?_⟩
    rw [List.map_set, List.map_set, e1, e2]
    exact .swap (map_get lib hx) (map_get lib hy)
  | destroy i =>
    obtain ⟨s, hs⟩ := get1 (by simpa [Ok] using ok)
    obtain ⟨g1, -⟩ := g.one hs
    obtain ⟨h', e, g'⟩ := L.destroy s h _ g1
    refine ⟨cs.eraseIdx i, h', by simp [exec, hs, e],
      g'.perm (fun t ht => g.inv _ (List.mem_of_mem_eraseIdx ht)) (by simp), ?_⟩
    rw [← List.eraseIdx_map]
    exact .destroy

theorem execAll_ok (L : Lawful lib inv r) : ∀ (ops : List (Op A × (Nat → Pick α))) (cs : List S) (h : Heap A),
    Good inv lib.held h cs [] → Safe r (cs.map lib.get) (ops.map Prod.fst) →
    ∃ cs' h', execAll lib cs h ops = some (cs', h') ∧ Good inv lib.held h' cs' [] ∧
      Run r (cs.map lib.get) (ops.map Prod.fst) (cs'.map lib.get) := by
  intro ops
  induction ops with
  | nil => intro cs h g _; exact ⟨cs, h, rfl, g, .nil⟩
  | cons o ops ih =>
    intro cs h g hs
    obtain ⟨cs', h', e, g', st⟩ := exec_ok L g o.2 hs.1
    obtain ⟨cs'', h'', e', g'', rn⟩ := ih cs' h' g' (hs.2 _ st)
    exact ⟨cs'', h'', by simp [execAll, e, e'], g'', .cons st rn⟩

end Gtl.Alloc
