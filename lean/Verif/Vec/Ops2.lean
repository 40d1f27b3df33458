import Verif.Vec.Ops
/-
What the operations that assign, resize and erase do.
-/
namespace Gtl.Vec
open M
variable {α β γ : Type}

/-- A value that does not come from the vector itself. -/
def Outside (s : St α) (x : Src α) (a : α) : Prop :=
  Reads s x a ∧ ∀ q i, x = .ref (some q) i → s.vec.b ≠ some q

theorem Outside.stable {s : St α} {x : Src α} {a : α} (h : Outside s x a) : Stable s x a :=
  ⟨h.1, fun q i e hb => absurd hb (h.2 q i e)⟩

theorem Outside.val {s : St α} {a : α} : Outside s (.val a) a := ⟨rfl, fun q i h => by cases h⟩

theorem Outside.rel {t : Traits α} {s s' : St α} {l : List α} {x : Src α} {a : α} (h : Outside s x a)
    (g : Good t s l) (hr : Rel s s') : Outside s' x a := by
  cases x with
  | val b => exact ⟨h.1, fun q i e => by cases e⟩
  | ref p i =>
    obtain ⟨⟨q, rfl, ⟨m, h1, h2⟩, h3⟩, h4⟩ := h
    have hq : q < s.next := by
      by_contra hc
      rw [g.fresh q (by omega)] at h1; cases h1
    have hb := h4 q i rfl
    have hf := hr.frame q hq hb
    refine ⟨⟨q, rfl, ⟨m, hf.1.trans h1, h2⟩, (hf.2 i).trans h3⟩, fun q' i' e hc => ?_⟩
    injection e with e1 e2
    injection e1 with e1
    subst e1
    rcases hr.own q hc with h | h
    · exact hb h
    · omega

theorem Outside.all {t : Traits α} {s s' : St α} {l : List α} {xs : List (Src α)} {as : List α}
    (h : List.Forall₂ (Outside s) xs as) (g : Good t s l) (hr : Rel s s') : List.Forall₂ (Outside s') xs as :=
  h.imp fun _ _ h => h.rel g hr

theorem Outside.stables {s : St α} {xs : List (Src α)} {as : List α}
    (h : List.Forall₂ (Outside s) xs as) : List.Forall₂ (Stable s) xs as :=
  h.imp fun _ _ h => h.stable

theorem Stable.outside {s : St α} {x : Src α} {a : α} (h : Stable s x a)
    (hi : isInternal s.vec x = false) : Outside s x a := by
  refine ⟨h.1, fun q i e hb => ?_⟩
  subst e
  have := h.2 q i rfl hb
  simp [isInternal, hb, this] at hi

theorem Stable.upd {s s' : St α} {x : Src α} {a : α} (h : Stable s x a) (hu : Upd s s' s.mem) : Stable s' x a :=
  ⟨h.1.congr hu.1 hu.2.1, fun q i e hb => by rw [hu.2.2.2] at hb ⊢; exact h.2 q i e hb⟩

theorem Outside.upd {s s' : St α} {x : Src α} {a : α} (h : Outside s x a) (hu : Upd s s' s.mem) : Outside s' x a :=
  ⟨h.1.congr hu.1 hu.2.1, fun q i e hb => by rw [hu.2.2.2] at hb; exact h.2 q i e hb⟩

/-- An element of the vector. -/
theorem Stable.elem {t : Traits α} {s : St α} {l : List α} {a : α} {k : Nat} (g : Good t s l) (hk : l[k]? = some a) :
    Stable s (.ref s.vec.b k) a := by
  have hlt : k < l.length := (List.getElem?_eq_some_iff.mp hk).1
  rcases g.mine with ⟨h1, h2⟩ | ⟨q, h⟩
  · subst h2; simp at hlt
  · refine ⟨⟨q, h.b, ⟨_, h.len, by have := h.z; omega⟩, ?_⟩, fun q' i e hb => ?_⟩
    · have := h.has k hlt
      rw [Nat.zero_add] at this
      rw [this, hk]
    · injection e with e1 e2
      rw [← e2, h.e]; exact hlt

/-- An element of another block. -/
theorem Outside.ref {s : St α} {q i n : Nat} {a : α} (hl : s.len q = some n) (hi : i < n) (ha : s.mem q i = some a)
    (hb : s.vec.b ≠ some q) : Outside s (.ref (some q) i) a := by
  refine ⟨⟨q, rfl, ⟨n, hl, hi⟩, ha⟩, fun q' i' e => ?_⟩
  injection e with e1 e2
  injection e1 with e1
  subst e1; exact hb

theorem asVT_ok {t : Traits α} {s : St α} {x : Src α} {a : α} {Q : Src α → St α → Prop} {E : Exc → St α → Prop}
    (h : Stable s x a) (hQ : ∀ x', Stable s x' a → (x' = x ∨ x' = .val a) → Q x' s) : wp (asVT t x) s Q E := by
  unfold asVT
  cases t.byValue with
  | true =>
    simp only [if_true]
    rw [wp_bind]
    refine wp_fetch h.1 ?_
    exact hQ _ Stable.val (.inr rfl)
  | false => exact hQ _ h (.inl rfl)

theorem copyOf_ok {t : Traits α} {s : St α} {x : Src α} {a : α} {Q : Src α → St α → Prop} {E : Exc → St α → Prop}
    (h : Reads s x a) (hQ : ∀ s', Upd s s' s.mem → Q (.val a) s') (hE : ∀ s', Upd s s' s.mem → E .failed s') :
    wp (copyOf t x) s Q E := by
  unfold copyOf
  rw [wp_bind]
  refine wp_fetch h ?_
  rw [wp_bind]
  exact wp_may hQ fun s' _ hu => hE s' hu

/-! ### Work on the elements -/

/-- The vector after work in its block: the elements are `l'`. -/
structure Now (t : Traits α) (s s' : St α) (l' : List α) : Prop where
  good : Good t s' l'
  rel : Rel s s'
  b : s'.vec.b = s.vec.b
  z : s'.vec.z = s.vec.z

theorem Now.trans {t : Traits α} {s s' s'' : St α} {l l' l'' : List α} (g : Good t s l) (h : Now t s s' l')
    (h' : Now t s' s'' l'') : Now t s s'' l'' :=
  ⟨h'.good, h.rel.trans g h'.rel, h'.b.trans h.b, h'.z.trans h.z⟩

theorem Now.refl {t : Traits α} {s : St α} {l : List α} (g : Good t s l) : Now t s s l :=
  ⟨g, Rel.refl' g, rfl, rfl⟩

theorem Mine.now {t : Traits α} {s s' : St α} {l l' : List α} {q : Nat} (h : Mine t s l q) (g : Good t s l)
    (hl : s'.len = s.len) (hn : s'.next = s.next) (hv : s'.vec = { s.vec with e := l'.length })
    (hz : l'.length ≤ s.vec.z)
    (hm : ∀ r i, r ≠ q → s'.mem r i = s.mem r i) (hh : Has s' q 0 l')
    (hr : t.bits = false → ∀ i, l'.length ≤ i → i < s.vec.z → s'.mem q i = none) : Now t s s' l' :=
  have := h.inner g hl hn hv hz hm hh hr
  ⟨this.1, this.2, by rw [hv], by rw [hv]⟩

theorem Mine.set {t : Traits α} {s s' : St α} {l : List α} {q i : Nat} {a : α} (h : Mine t s l q) (g : Good t s l)
    (hu : Upd s s' (update s.mem q i (some a))) (hi : i < l.length) : Now t s s' (l.set i a) := by
  refine h.now g hu.2.1 hu.2.2.1 (by rw [hu.2.2.2, List.length_set, ← h.e]) (by rw [List.length_set]; exact h.z)
    (fun r j hr => ?_) (fun j hj => ?_) (fun hb j h1 h2 => ?_)
  · rw [hu.1]; unfold update; rw [if_neg (by omega)]
  · rw [List.length_set] at hj
    have := h.has j hj
    rw [Nat.zero_add] at this ⊢
    rw [hu.1, List.getElem?_set]; unfold update
    by_cases e : i = j
    · subst e; rw [if_pos ⟨rfl, rfl⟩, if_pos rfl, if_pos hi]
    · rw [if_neg (by omega), if_neg e, this]
  · rw [List.length_set] at h1
    rw [hu.1]; unfold update; rw [if_neg (by omega)]; exact h.raw hb j h1 h2

theorem Good.block {t : Traits α} {s : St α} {l : List α} {i : Nat} (g : Good t s l) (hi : i < l.length) :
    ∃ q, Mine t s l q := by
  rcases g.mine with ⟨h1, h2⟩ | h
  · subst h2; simp at hi
  · exact h

theorem Mine.room {t : Traits α} {s : St α} {l : List α} {q i : Nat} (h : Mine t s l q) (hi : i ≤ l.length) :
    Room s q i := ⟨_, h.len, by have := h.z; omega⟩

theorem Mine.get {t : Traits α} {s : St α} {l : List α} {q i : Nat} (h : Mine t s l q) (hi : i < l.length) :
    s.mem q i = l[i]? := by
  have := h.has i hi
  rwa [Nat.zero_add] at this

theorem setCell_upd {s : St α} {p i : Nat} {c : Option α} {Q : Unit → St α → Prop} {E : Exc → St α → Prop}
    (hr : Room s p (i + 1)) (h : ∀ s', Upd s s' (update s.mem p i c) → Q () s') : wp (setCell (some p) i c) s Q E :=
  wp_setCell hr (h _ ⟨rfl, rfl, rfl, rfl⟩)

/-- `*p = value` for an element. -/
theorem assignAt_ok {t : Traits α} {s : St α} {l : List α} {i : Nat} {x : Src α} {a : α}
    {Q : Unit → St α → Prop} {E : Exc → St α → Prop} (g : Good t s l) (hi : i < l.length) (hx : Reads s x a)
    (hQ : ∀ s', Now t s s' (l.set i a) → Q () s') (hE : ∀ s' b, Now t s s' (l.set i b) → E .failed s') :
    wp (assignAt t s.vec.b i x) s Q E := by
  obtain ⟨q, h⟩ := g.block hi
  unfold assignAt
  rw [wp_bind]
  refine wp_fetch hx ?_
  rw [wp_bind, h.b]
  have hr := h.room (i := i + 1) hi
  refine wp_get (a := l[i]) hr (by rw [h.get hi, List.getElem?_eq_getElem hi]) ?_
  rw [wp_bind, wp_guarded]
  refine wp_may (fun s1 h1 => ?_) (fun s1 _ h1 => ?_)
  · refine setCell_upd (hr.congr h1.2.1) fun s2 h2 => hQ _ (h.set g (h1.trans ?_) hi)
    rw [h1.1] at h2; exact h2
  · refine setCell_upd (hr.congr h1.2.1) fun s2 h2 => hE _ (t.husk l[i]) (h.set g (h1.trans ?_) hi)
    rw [h1.1] at h2; exact h2

/-- `*p = std::move(*q)` for two elements. -/
theorem moveAssign_ok {t : Traits α} {s : St α} {l : List α} {i j : Nat} {a : α}
    {Q : Unit → St α → Prop} {E : Exc → St α → Prop} (g : Good t s l) (hi : i < l.length) (ha : l[j]? = some a)
    (hQ : ∀ s' b, Now t s s' ((l.set j b).set i a) → Q () s')
    (hE : ∀ s' b c, Now t s s' ((l.set i b).set j c) → E .failed s') :
    wp (moveAssign t s.vec.b i s.vec.b j) s Q E := by
  obtain ⟨hj, ha'⟩ := List.getElem?_eq_some_iff.mp ha
  obtain ⟨q, h⟩ := g.block hi
  unfold moveAssign
  have hri := h.room (i := i + 1) hi
  have hrj := h.room (i := j + 1) hj
  rw [wp_bind, h.b]
  refine wp_get (a := a) hrj (by rw [h.get hj, ha]) ?_
  rw [wp_bind]
  refine wp_get (a := l[i]) hri (by rw [h.get hi, List.getElem?_eq_getElem hi]) ?_
  rw [wp_bind, wp_guarded]
  refine wp_may (fun s1 h1 => ?_) (fun s1 _ h1 => ?_)
  · rw [wp_bind]
    refine setCell_upd (hrj.congr h1.2.1) fun s2 h2 => ?_
    have h12 : Upd s s2 (update s.mem q j (some (t.husk a))) := h1.trans (by rw [h1.1] at h2; exact h2)
    have n2 := h.set g h12 hj
    refine setCell_upd (hri.congr (h2.2.1.trans h1.2.1)) fun s3 h3 => hQ _ (t.husk a) (n2.trans g ?_)
    obtain ⟨q', h'⟩ := n2.good.block (i := i) (by rw [List.length_set]; exact hi)
    have : q' = q := by have := h'.b; rw [n2.b, h.b] at this; injection this with this; exact this.symm
    subst this
    exact h'.set n2.good h3 (by rw [List.length_set]; exact hi)
  · rw [wp_bind]
    refine setCell_upd (hri.congr h1.2.1) fun s2 h2 => ?_
    have h12 : Upd s s2 (update s.mem q i (some (t.husk l[i]))) := h1.trans (by rw [h1.1] at h2; exact h2)
    have n2 := h.set g h12 hi
    refine setCell_upd (hrj.congr (h2.2.1.trans h1.2.1)) fun s3 h3 => hE _ (t.husk l[i]) (t.husk a) (n2.trans g ?_)
    obtain ⟨q', h'⟩ := n2.good.block (i := j) (by rw [List.length_set]; exact hj)
    have : q' = q := by have := h'.b; rw [n2.b, h.b] at this; injection this with this; exact this.symm
    subst this
    exact h'.set n2.good h3 (by rw [List.length_set]; exact hj)

theorem take_succ_set {l : List α} {i : Nat} {a : α} (h : i < l.length) : (l.set i a).take (i + 1) = l.take i ++ [a] := by
  apply List.ext_getElem?
  intro j
  rw [List.getElem?_take, List.getElem?_set, List.getElem?_append, List.getElem?_take, List.length_take]
  grind

/-- Assigning values from elsewhere. -/
theorem assignLoop_outside {t : Traits α} {E : Exc → St α → Prop} (xs : List (Src α)) :
    ∀ {s : St α} {l as : List α} {i : Nat} {Q : Unit → St α → Prop}, Good t s l → List.Forall₂ (Outside s) xs as →
      i + xs.length ≤ l.length →
      (∀ s', Now t s s' (l.take i ++ as ++ l.drop (i + as.length)) → Q () s') →
      (∀ s' l', l'.length = l.length → Now t s s' l' → E .failed s') →
      wp (assignLoop t s.vec.b i xs) s Q E := by
  induction xs with
  | nil =>
    intro s l as i Q g hf hi hQ hE
    cases hf
    refine hQ s ?_
    simpa using Now.refl g
  | cons x xs ih =>
    intro s l as i Q g hf hi hQ hE
    cases hf with
    | cons hx hf =>
      rename_i a as
      simp only [List.length_cons] at hi
      unfold assignLoop
      rw [wp_bind]
      refine assignAt_ok g (by omega) hx.1 (fun s1 n1 => ?_) (fun s1 b n1 => hE s1 _ (by simp) n1)
      rw [← n1.b]
      refine ih n1.good (Outside.all hf g n1.rel) (by rw [List.length_set]; omega) (fun s2 n2 => ?_)
        (fun s2 l' hl n2 => hE s2 l' (by rw [hl, List.length_set]) (n1.trans g n2))
      refine hQ s2 ?_
      have := n1.trans g n2
      refine cast (congrArg (Now t s s2) ?_) this
      have hi' : i < l.length := by omega
      rw [take_succ_set hi', List.drop_set, if_pos (by omega), List.length_cons,
        show i + 1 + as.length = i + (as.length + 1) by omega]
      simp

/-- Assigning one value, perhaps that of an element, to a range of elements. -/
theorem assignLoop_fill {t : Traits α} {E : Exc → St α → Prop} {x : Src α} {a : α} (n : Nat) :
    ∀ {s : St α} {l : List α} {i : Nat} {Q : Unit → St α → Prop}, Good t s l → Stable s x a →
      i + n ≤ l.length →
      (∀ s', Now t s s' (l.take i ++ List.replicate n a ++ l.drop (i + n)) → Stable s' x a → Q () s') →
      (∀ s' l', l'.length = l.length → Now t s s' l' → E .failed s') →
      wp (assignLoop t s.vec.b i (List.replicate n x)) s Q E := by
  induction n with
  | zero =>
    intro s l i Q g hx hi hQ hE
    refine hQ s ?_ hx
    simpa using Now.refl g
  | succ n ih =>
    intro s l i Q g hx hi hQ hE
    rw [List.replicate_succ]
    unfold assignLoop
    rw [wp_bind]
    refine assignAt_ok g (by omega) hx.1 (fun s1 n1 => ?_) (fun s1 b n1 => hE s1 _ (by simp) n1)
    rw [← n1.b]
    have hx1 : Stable s1 x a := by
      by_cases hint : isInternal s.vec x = true
      · cases x with
        | val b => exact ⟨hx.1, fun q i e => by cases e⟩
        | ref p k =>
          simp only [isInternal, Bool.and_eq_true, beq_iff_eq, decide_eq_true_eq] at hint
          obtain ⟨⟨h1, rfl⟩, h3⟩ := hint
          rw [← n1.b]
          refine Stable.elem n1.good ?_
          rw [List.getElem?_set]
          rw [g.size] at h3
          split
          · rw [if_pos (by omega)]
          · obtain ⟨q, hm⟩ := g.block h3
            obtain ⟨q', e1, _, e2⟩ := hx.1
            rw [hm.b] at e1
            injection e1 with e1
            subst e1
            rw [← hm.get h3, e2]
      · exact ((hx.outside (by simpa using hint)).rel g n1.rel).stable
    refine ih n1.good hx1 (by rw [List.length_set]; omega) (fun s2 n2 h2 => ?_)
      (fun s2 l' hl n2 => hE s2 l' (by rw [hl, List.length_set]) (n1.trans g n2))
    refine hQ s2 ?_ h2
    have := n1.trans g n2
    refine cast (congrArg (Now t s s2) ?_) this
    have hi' : i < l.length := by omega
    rw [take_succ_set hi', List.drop_set, if_pos (by omega), List.replicate_succ,
      show i + 1 + n = i + (n + 1) by omega]
    simp

/-! ### Exceptions -/

/-- Even the memory for twice `m` elements, and 65 more, takes half of the address space. -/
def Big (t : Traits α) (m : Nat) : Prop := 2 ^ 63 ≤ (2 * m + 65) * t.size

theorem Big.of {t : Traits α} {n m : Nat} (h : 2 ^ 63 ≤ n * t.size) (hn : n ≤ 2 * m + 65) : Big t m :=
  Nat.le_trans h (Nat.mul_le_mul_right _ hn)

theorem Big.mono {t : Traits α} {n m : Nat} (h : Big t n) (hn : n ≤ m) : Big t m :=
  Big.of h (by omega)

theorem pushCap_le' (t : Traits α) (z : Nat) : pushCap t z ≤ 2 * z + 65 := by
  by_cases h : z = 0
  · subst h
    unfold pushCap
    rw [if_pos rfl]
    have := Nat.div_le_self 64 t.size
    omega
  · have := pushCap_le t z h; omega

theorem Bad.mono {t : Traits α} {s s' : St α} {B B' : Prop} {P P' : List α → Prop} {x : Exc} (h : Bad t s B P x s')
    (hB : B → B') (hP : ∀ l', P l' → P' l') : Bad t s B' P' x s' := by
  obtain ⟨h1, h2, h3, l', h4, h5⟩ := h
  exact ⟨fun e => hB (h1 e), h2, h3, l', hP _ h4, h5⟩

theorem Bad.after {t : Traits α} {s s1 s' : St α} {B : Prop} {P : List α → Prop} {x : Exc} {l : List α}
    (g : Good t s l) (r : Rel s s1) (h : Bad t s1 B P x s') : Bad t s B P x s' := by
  obtain ⟨h1, h2, h3, l', h4, h5⟩ := h
  exact ⟨h1, h2, r.trans g h3, l', h4, h5⟩

theorem Bad.of {t : Traits α} {s s' : St α} {B : Prop} {P : List α → Prop} {l' : List α} (r : Rel s s') (g : Good t s' l')
    (h : P l') : Bad t s B P .failed s' :=
  ⟨fun e => (by cases e), by simp, r, l', h, g⟩

theorem Bad.upd {t : Traits α} {s s' : St α} {B : Prop} {P : List α → Prop} {l : List α} (g : Good t s l)
    (hu : Upd s s' s.mem) (h : P l) : Bad t s B P .failed s' :=
  Bad.of (Rel.upd g hu) (g.upd hu) h

/-- Any elements. -/
def Any : List α → Prop := fun _ => True

theorem Forall₂_replicate {R : α → β → Prop} {a : α} {b : β} (h : R a b) (n : Nat) :
    List.Forall₂ R (List.replicate n a) (List.replicate n b) := by
  induction n with
  | zero => exact .nil
  | succ n ih => exact .cons h ih

/-! ### Changing the size -/

/-- `push_back` of values from elsewhere, one after another. -/
theorem pushAll_ok {t : Traits α} (hs : 0 < t.size) (hs' : t.size < 2 ^ 63) (xs : List (Src α)) :
    ∀ {s : St α} {l as : List α}, Good t s l → List.Forall₂ (Outside s) xs as →
      wp (pushAll t xs) s (fun _ s' => Good t s' (l ++ as) ∧ Rel s s')
        (Bad t s (Big t (l.length + xs.length)) Any) := by
  induction xs with
  | nil =>
    intro s l as g hf
    cases hf
    exact ⟨by simpa using g, Rel.refl' g⟩
  | cons x xs ih =>
    intro s l as g hf
    cases hf with
    | cons hx hf =>
      unfold pushAll
      rw [wp_bind]
      refine wp_mono (pushBack_ok (B := Big t (l.length + (x :: xs).length)) g hx.stable hs hs' (fun h h' => ?_)) ?_
        (fun x s1 h => h.1.mono id fun _ _ => trivial)
      · exact Big.of (m := l.length + (x :: xs).length) h' (by have := pushCap_le' t s.vec.z; have := g.size; simp; omega)
      · rintro _ s1 ⟨g1, r1, _⟩
        refine wp_mono (ih g1 (Outside.all hf g r1)) ?_ (fun x s2 h => (h.after g r1).mono (fun h => h.mono ?_) fun _ h => h)
        · rintro _ s2 ⟨g2, r2⟩
          exact ⟨by simpa using g2, r1.trans g r2⟩
        · simp; omega

/-- What `resize` makes of the elements. -/
def resized (l : List α) (n : Nat) (a : α) : List α := l.take n ++ List.replicate (n - l.length) a

theorem resized_le {l : List α} {n : Nat} {a : α} (h : n ≤ l.length) : resized l n a = l.take n := by
  unfold resized; rw [Nat.sub_eq_zero_of_le h]; simp

theorem resized_ge {l : List α} {n : Nat} {a : α} (h : l.length ≤ n) :
    resized l n a = l ++ List.replicate (n - l.length) a := by
  unfold resized; rw [List.take_of_length_le h]

/-- Growing by copies of a value from elsewhere, or of an element when there is enough memory. -/
theorem grow_ok {t : Traits α} {s : St α} {l : List α} {n : Nat} {x : Src α} {a : α} (g : Good t s l)
    (hs : 0 < t.size) (hn : n * t.size < 2 ^ 64) (hl : l.length ≤ n) (hx : Stable s x a)
    (hi : isInternal s.vec x = false ∨ n ≤ s.vec.z) :
    wp (do reserve t n; appendE t (List.replicate (n - s.vec.e) x)) s
      (fun _ s' => Good t s' (resized l n a) ∧ Rel s s' ∧ s'.vec.z = max n s.vec.z)
      (Bad t s (Big t n) (Semi t l)) := by
  rw [wp_bind]
  refine wp_mono (reserve_ok (B := Big t n) g hs hn (fun h => Big.of h (by omega))) ?_ (fun x s1 h => h.1)
  rintro _ s1 ⟨g1, r1, z1, e1⟩
  have hx1 : Stable s1 x a := by
    rcases hi with hi | hi
    · exact ((hx.outside hi).rel g r1).stable
    · rw [e1 hi]; exact hx
  rw [g.size]
  refine appendE_ok g1 (Forall₂_replicate hx1 _) (by rw [List.length_replicate, z1]; omega) (fun s2 g2 r2 z2 _ => ?_)
    (fun s2 _ hu => ?_)
  · rw [resized_ge hl]
    exact ⟨g2, r1.trans g r2, by rw [z2, z1]⟩
  · exact Bad.of (r1.trans g (Rel.upd g1 hu)) (g1.upd hu) ⟨rfl, fun _ => rfl⟩

theorem resize_ok {t : Traits α} {s : St α} {l : List α} {n : Nat} {a : α} (g : Good t s l)
    (hs : 0 < t.size) (hn : n * t.size < 2 ^ 64) (ha : a = if t.memset then t.zero else t.dflt) :
    wp (resize t n) s (fun _ s' => Good t s' (resized l n a) ∧ Rel s s' ∧ s'.vec.z = max n s.vec.z)
      (Bad t s (Big t n) (Semi t l)) := by
  unfold resize
  rw [wp_bind, wp_self]
  have hsz := g.size
  have hz := g.cap
  by_cases h : n ≤ s.vec.e
  · rw [if_pos h, resized_le (by omega)]
    refine wp_mono (destroyRangeE_ok g (by omega)) ?_ (fun x s1 h => h)
    rintro _ s1 ⟨h1, h2, h3⟩
    exact ⟨h1, h2, by omega⟩
  · rw [if_neg h]
    exact grow_ok g hs hn (by omega) (by rw [ha]; exact Stable.val) (.inl rfl)

theorem resizeWith_ok {t : Traits α} {s : St α} {l : List α} {n : Nat} {x : Src α} {a : α} (g : Good t s l)
    (hs : 0 < t.size) (hn : n * t.size < 2 ^ 64) (hx : Stable s x a) :
    wp (resizeWith t n x) s (fun _ s' => Good t s' (resized l n a) ∧ Rel s s' ∧ s'.vec.z = max n s.vec.z)
      (Bad t s (Big t n) (Semi t l)) := by
  unfold resizeWith
  rw [wp_bind]
  refine asVT_ok hx fun x' hx' _ => ?_
  rw [wp_bind, wp_self]
  have hsz := g.size
  have hz := g.cap
  by_cases h : n ≤ s.vec.e
  · rw [if_pos h, resized_le (by omega)]
    refine wp_mono (destroyRangeE_ok g (by omega)) ?_ (fun x s1 h => h)
    rintro _ s1 ⟨h1, h2, h3⟩
    exact ⟨h1, h2, by omega⟩
  · rw [if_neg h]
    by_cases hi : (isInternal s.vec x' && decide (s.vec.z < n)) = true
    · rw [if_pos hi, wp_bind]
      refine copyOf_ok hx'.1 (fun s1 hu => ?_) (fun s1 hu => Bad.upd g hu ⟨rfl, fun _ => rfl⟩)
      rw [← hu.2.2.2]
      refine wp_mono (grow_ok (g.upd hu) hs hn (by omega) Stable.val (.inl rfl)) ?_ (fun x s2 h => h.after g (Rel.upd g hu))
      rintro _ s2 ⟨h1, h2, h3⟩
      exact ⟨h1, (Rel.upd g hu).trans g h2, h3⟩
    · rw [if_neg hi]
      refine grow_ok g hs hn (by omega) hx' ?_
      simp only [Bool.and_eq_true, decide_eq_true_eq, not_and] at hi
      by_cases h' : isInternal s.vec x' = true
      · right; have := hi h'; omega
      · left; simpa using h'

/-- `reset(n)` and then building values. -/
theorem replace_ok {t : Traits α} {s : St α} {l as : List α} {xs : List (Src α)} (g : Good t s l)
    (hs : 0 < t.size) (hn : xs.length * t.size < 2 ^ 64) (hf : List.Forall₂ (Outside s) xs as) :
    wp (do resetTo t xs.length; appendE t xs) s (fun _ s' => Good t s' as ∧ Rel s s')
      (Bad t s (Big t xs.length) Any) := by
  rw [wp_bind]
  refine wp_mono (resetTo_ok (B := Big t xs.length) g hs hn (fun h => Big.of h (by omega))) ?_
    (fun x s1 h => h.mono id fun _ _ => trivial)
  rintro _ s1 ⟨g1, r1, z1⟩
  refine appendE_ok g1 (Outside.stables (Outside.all hf g r1)) (by rw [z1]; simp) (fun s2 g2 r2 _ _ => ?_) (fun s2 _ hu => ?_)
  · exact ⟨by simpa using g2, r1.trans g r2⟩
  · exact Bad.of (r1.trans g (Rel.upd g1 hu)) (g1.upd hu) trivial

theorem assignFill_ok {t : Traits α} {s : St α} {l : List α} {n : Nat} {x : Src α} {a : α} (g : Good t s l)
    (hs : 0 < t.size) (hn : n * t.size < 2 ^ 64) (hx : Stable s x a) :
    wp (assignFill t n x) s (fun _ s' => Good t s' (List.replicate n a) ∧ Rel s s')
      (Bad t s (Big t n) Any) := by
  unfold assignFill
  rw [wp_bind]
  refine asVT_ok hx fun x' hx' _ => ?_
  rw [wp_bind, wp_self]
  have hsz := g.size
  have hz := g.cap
  by_cases h : s.vec.z < n
  · rw [if_pos h]
    by_cases hi : isInternal s.vec x' = true
    · rw [if_pos hi, wp_bind]
      refine copyOf_ok hx'.1 (fun s1 hu => ?_) (fun s1 hu => Bad.upd g hu trivial)
      have := replace_ok (xs := List.replicate n (.val a)) (as := List.replicate n a) (g.upd hu) hs
        (by rwa [List.length_replicate]) (Forall₂_replicate Outside.val _)
      rw [List.length_replicate] at this
      refine wp_mono this ?_ (fun x s2 h => h.after g (Rel.upd g hu))
      rintro _ s2 ⟨h1, h2⟩
      exact ⟨h1, (Rel.upd g hu).trans g h2⟩
    · rw [if_neg hi]
      have := replace_ok (xs := List.replicate n x') (as := List.replicate n a) g hs
        (by rwa [List.length_replicate]) (Forall₂_replicate (hx'.outside (by simpa using hi)) _)
      rwa [List.length_replicate] at this
  · rw [if_neg h]
    by_cases h1 : n ≤ s.vec.e
    · rw [if_pos h1, wp_bind]
      refine assignLoop_fill n g hx' (by omega) (fun s1 n1 _ => ?_) (fun s1 l' _ n1 => Bad.of n1.rel n1.good trivial)
      refine wp_mono (destroyRangeE_ok n1.good (by simp)) ?_ (fun x s2 h => h)
      rintro _ s2 ⟨g2, r2, _⟩
      exact ⟨by simpa using g2, n1.rel.trans g r2⟩
    · rw [if_neg h1, wp_bind]
      refine assignLoop_fill s.vec.e g hx' (by omega) (fun s1 n1 hx1 => ?_) (fun s1 l' _ n1 => Bad.of n1.rel n1.good trivial)
      refine appendE_ok n1.good (Forall₂_replicate hx1 (n - s.vec.e)) ?_ (fun s2 g2 r2 _ _ => ?_) (fun s2 _ hu => ?_)
      · rw [n1.z]; simp; omega
      · refine ⟨?_, n1.rel.trans g r2⟩
        refine cast (congrArg (Good t s2) ?_) g2
        rw [List.take_zero, List.nil_append, List.drop_of_length_le (by omega), List.append_nil,
          List.replicate_append_replicate]
        congr 1; omega
      · exact Bad.of (n1.rel.trans g (Rel.upd n1.good hu)) (n1.good.upd hu) trivial

theorem Forall₂_take {R : α → β → Prop} {xs : List α} {ys : List β} (h : List.Forall₂ R xs ys) (n : Nat) :
    List.Forall₂ R (xs.take n) (ys.take n) := by
  induction h generalizing n with
  | nil => simp
  | cons h1 h2 ih =>
    cases n with
    | zero => simp
    | succ n => simpa using ⟨h1, ih n⟩

theorem Forall₂_drop {R : α → β → Prop} {xs : List α} {ys : List β} (h : List.Forall₂ R xs ys) (n : Nat) :
    List.Forall₂ R (xs.drop n) (ys.drop n) := by
  induction h generalizing n with
  | nil => simp
  | cons h1 h2 ih =>
    cases n with
    | zero => simpa using ⟨h1, h2⟩
    | succ n => simpa using ih n

theorem assignForward_ok {t : Traits α} {s : St α} {l as : List α} {xs : List (Src α)} (g : Good t s l)
    (hs : 0 < t.size) (hn : xs.length * t.size < 2 ^ 64) (hf : List.Forall₂ (Outside s) xs as) :
    wp (assignForward t xs) s (fun _ s' => Good t s' as ∧ Rel s s') (Bad t s (Big t xs.length) Any) := by
  unfold assignForward
  rw [wp_bind, wp_self]
  have hsz := g.size
  have hz := g.cap
  have hlen := hf.length_eq
  by_cases h : s.vec.z < xs.length
  · rw [if_pos h]
    exact replace_ok g hs hn hf
  · rw [if_neg h]
    by_cases h1 : xs.length ≤ s.vec.e
    · rw [if_pos h1, wp_bind]
      refine assignLoop_outside xs g hf (by omega) (fun s1 n1 => ?_) (fun s1 l' _ n1 => Bad.of n1.rel n1.good trivial)
      refine wp_mono (destroyRangeE_ok n1.good (by simp; omega)) ?_ (fun x s2 h => h)
      rintro _ s2 ⟨g2, r2, _⟩
      exact ⟨by simpa [hlen] using g2, n1.rel.trans g r2⟩
    · rw [if_neg h1, wp_bind]
      refine assignLoop_outside _ g (Forall₂_take hf _) (by simp; omega) (fun s1 n1 => ?_)
        (fun s1 l' _ n1 => Bad.of n1.rel n1.good trivial)
      refine appendE_ok n1.good (Outside.stables (Forall₂_drop (Outside.all hf g n1.rel) s.vec.e)) ?_
        (fun s2 g2 r2 _ _ => ?_) (fun s2 _ hu => ?_)
      · rw [n1.z]; simp; omega
      · refine ⟨?_, n1.rel.trans g r2⟩
        refine cast (congrArg (Good t s2) ?_) g2
        rw [List.take_zero, List.nil_append, List.drop_of_length_le (by simp; omega), List.append_nil,
          List.take_append_drop]
      · exact Bad.of (n1.rel.trans g (Rel.upd n1.good hu)) (n1.good.upd hu) trivial

theorem assignSome_ok {t : Traits α} {E : Exc → St α → Prop} (xs : List (Src α)) :
    ∀ {s : St α} {l as : List α} {i : Nat} {Q : Nat × List (Src α) → St α → Prop}, Good t s l →
      List.Forall₂ (Outside s) xs as → i ≤ l.length →
      (∀ s', Now t s s' (l.take i ++ as.take (l.length - i) ++ l.drop (i + as.length)) →
        Q (min l.length (i + xs.length), xs.drop (l.length - i)) s') →
      (∀ s' l', l'.length = l.length → Now t s s' l' → E .failed s') →
      wp (assignSome t s.vec.b l.length i xs) s Q E := by
  induction xs with
  | nil =>
    intro s l as i Q g hf hi hQ hE
    cases hf
    have := hQ s (by simpa using Now.refl g)
    simp only [List.length_nil, Nat.add_zero, List.drop_nil, Nat.min_eq_right hi] at this
    exact this
  | cons x xs ih =>
    intro s l as i Q g hf hi hQ hE
    cases hf with
    | cons hx hf =>
      rename_i a as
      unfold assignSome
      by_cases h : i = l.length
      · rw [if_neg (by simpa using h)]
        have := hQ s (by rw [h, List.drop_of_length_le (by omega)]; simpa using Now.refl g)
        rw [h, Nat.sub_self, Nat.min_eq_left (by omega)] at this
        rw [h]; exact this
      · rw [if_pos h, wp_bind]
        have hi' : i < l.length := by omega
        refine assignAt_ok g hi' hx.1 (fun s1 n1 => ?_) (fun s1 b n1 => hE s1 _ (by simp) n1)
        rw [← n1.b, ← List.length_set (as := l) (i := i) (a := a)]
        refine ih n1.good (Outside.all hf g n1.rel) (by rw [List.length_set]; omega) (fun s2 n2 => ?_)
          (fun s2 l' hl n2 => hE s2 l' (by rw [hl, List.length_set]) (n1.trans g n2))
        have := hQ s2 ?_
        · rw [List.length_set]
          rw [List.length_cons, show l.length - i = (l.length - (i + 1)) + 1 by omega, List.drop_succ_cons] at this
          rw [show i + 1 + xs.length = i + (xs.length + 1) by omega]
          exact this
        · refine cast (congrArg (Now t s s2) ?_) (n1.trans g n2)
          rw [take_succ_set hi', List.drop_set, if_pos (by omega), List.length_cons, List.length_set,
            show i + 1 + as.length = i + (as.length + 1) by omega,
            show l.length - i = (l.length - (i + 1)) + 1 by omega]
          simp

theorem assignInput_ok {t : Traits α} {s : St α} {l as : List α} {xs : List (Src α)} (g : Good t s l)
    (hs : 0 < t.size) (hs' : t.size < 2 ^ 63) (hf : List.Forall₂ (Outside s) xs as) :
    wp (assignInput t xs) s (fun _ s' => Good t s' as ∧ Rel s s') (Bad t s (Big t (l.length + xs.length)) Any) := by
  unfold assignInput
  rw [wp_bind, wp_self, wp_bind]
  have hlen := hf.length_eq
  rw [g.size]
  refine assignSome_ok xs g hf (Nat.zero_le _) (fun s1 n1 => ?_) (fun s1 l' _ n1 => Bad.of n1.rel n1.good trivial)
  simp only [List.take_zero, List.nil_append, Nat.zero_add, Nat.sub_zero] at n1 ⊢
  by_cases h : min l.length xs.length ≠ l.length
  · rw [if_pos h]
    refine wp_mono (destroyRangeE_ok n1.good (by simp; omega)) ?_ (fun x s2 h => h)
    rintro _ s2 ⟨g2, r2, _⟩
    refine ⟨?_, n1.rel.trans g r2⟩
    refine cast (congrArg (Good t s2) ?_) g2
    rw [List.take_of_length_le (l := as) (by omega), Nat.min_eq_right (by omega), hlen]; simp
  · rw [if_neg h]
    have hd : l.drop as.length = [] := List.drop_of_length_le (by omega)
    rw [hd, List.append_nil] at n1
    refine wp_mono (pushAll_ok hs hs' _ n1.good (Forall₂_drop (Outside.all hf g n1.rel) l.length)) ?_
      (fun x s2 h => (h.after g n1.rel).mono (fun h => h.mono ?_) fun _ h => h)
    · rintro _ s2 ⟨g2, r2⟩
      rw [List.take_append_drop] at g2
      exact ⟨g2, n1.rel.trans g r2⟩
    · simp; omega

end Gtl.Vec
