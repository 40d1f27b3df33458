import Verif.Vec.Wp
/-
What each operation of the vector does, in terms of the list of its elements.
-/
namespace Gtl.Vec
open M
variable {α β γ : Type}

/-- The vector of the state is in order and has the elements `l`: no memory and no elements, or a
block of its own with `l` at its beginning and nothing behind it. Blocks not yet handed out are not
allocated. -/
structure Good (t : Traits α) (s : St α) (l : List α) : Prop where
  fresh : ∀ p, s.next ≤ p → s.len p = none
  body : (s.vec = ⟨none, 0, 0⟩ ∧ l = []) ∨
    ∃ p, s.vec.b = some p ∧ s.vec.e = l.length ∧ l.length ≤ s.vec.z ∧ s.len p = some s.vec.z ∧
      s.vec.z * t.size < 2 ^ 63 ∧ p < s.next ∧ Has s p 0 l ∧
      (t.bits = false → ∀ i, l.length ≤ i → i < s.vec.z → s.mem p i = none)

theorem Good.size {t : Traits α} {s : St α} {l : List α} (h : Good t s l) : s.vec.e = l.length := by
  rcases h.body with ⟨h1, h2⟩ | ⟨p, h1, h2, h3⟩
  · rw [h1, h2]; rfl
  · exact h2

theorem Good.cap {t : Traits α} {s : St α} {l : List α} (h : Good t s l) : l.length ≤ s.vec.z := by
  rcases h.body with ⟨h1, h2⟩ | ⟨p, h1, h2, h3, _⟩
  · rw [h1, h2]; simp
  · exact h3

theorem Good.bytes {t : Traits α} {s : St α} {l : List α} (h : Good t s l) : s.vec.z * t.size < 2 ^ 63 := by
  rcases h.body with ⟨h1, h2⟩ | ⟨p, h1, h2, h3, h4, h5, _⟩
  · rw [h1]; simp
  · exact h5

theorem Good.lt {t : Traits α} {s : St α} {l : List α} (h : Good t s l) {p : Nat} (hp : s.vec.b = some p) :
    p < s.next := by
  rcases h.body with ⟨h1, h2⟩ | ⟨q, h1, h2, h3, h4, h5, h6, _⟩
  · rw [h1] at hp; cases hp
  · rw [h1] at hp; injection hp with hp; omega

/-- The contents of a cell of block `r` are the same, or that block is `X` and the cell still contains
an object if it did. -/
def Alike (X : Option Nat) (r : Nat) (c c' : Option α) : Prop := c' = c ∨ (X = some r ∧ c'.isSome = c.isSome)

theorem Alike.eq {X : Option Nat} {r : Nat} {c c' : Option α} (h : Alike X r c c') (hx : X ≠ some r) : c' = c := by
  rcases h with h | h
  · exact h
  · exact absurd h.1 hx

theorem Alike.some {X : Option Nat} {r : Nat} {c c' : Option α} (h : Alike X r c c') : c'.isSome = c.isSome := by
  rcases h with h | h
  · rw [h]
  · exact h.2

theorem Alike.trans {X : Option Nat} {r : Nat} {c c' c'' : Option α} (h : Alike X r c c') (h' : Alike X r c' c'') :
    Alike X r c c'' := by
  rcases h with h | h
  · rw [← h]; exact h'
  · exact .inr ⟨h.1, h'.some.trans h.2⟩

theorem Alike.refl {X : Option Nat} {r : Nat} {c : Option α} : Alike X r c c := .inl rfl

/-- An operation on one vector leaves the memory of everything else (but the contents of the
block `X`) alone, gives back the memory it stops using and uses no memory that it does not own in
the end. -/
structure RelX (X : Option Nat) (s s' : St α) : Prop where
  le : s.next ≤ s'.next
  frameX : ∀ p, p < s.next → s.vec.b ≠ some p →
    s'.len p = s.len p ∧ ∀ i, Alike X p (s.mem p i) (s'.mem p i)
  new : ∀ p, s.next ≤ p → s'.vec.b ≠ some p → s'.len p = none
  old : ∀ p, s.vec.b = some p → s'.vec.b = some p ∨ s'.len p = none
  own : ∀ p, s'.vec.b = some p → s.vec.b = some p ∨ s.next ≤ p

abbrev Rel (s s' : St α) : Prop := RelX none s s'

theorem Rel.frame {s s' : St α} (h : Rel s s') (p : Nat) (hp : p < s.next) (hb : s.vec.b ≠ some p) :
    s'.len p = s.len p ∧ ∀ i, s'.mem p i = s.mem p i :=
  ⟨(h.frameX p hp hb).1, fun i => ((h.frameX p hp hb).2 i).eq (by simp)⟩

theorem RelX.of {X : Option Nat} {s s' : St α} (h : Rel s s') : RelX X s s' :=
  ⟨h.le, fun p hp hb => ⟨(h.frame p hp hb).1, fun i => .inl ((h.frame p hp hb).2 i)⟩, h.new, h.old, h.own⟩

theorem RelX.trans {X : Option Nat} {t : Traits α} {s s' s'' : St α} {l : List α} (g : Good t s l)
    (h : RelX X s s') (h' : RelX X s' s'') : RelX X s s'' where
  le := by have := h.le; have := h'.le; omega
  frameX p hp hb := by
    have h1 : s'.vec.b ≠ some p := fun hc => by
      rcases h.own p hc with h2 | h2
      · exact hb h2
      · omega
    have h2 := h.frameX p hp hb
    have h3 := h'.frameX p (by have := h.le; omega) h1
    exact ⟨h3.1.trans h2.1, fun i => (h2.2 i).trans (h3.2 i)⟩
  new p hp hb := by
    by_cases h1 : s'.vec.b = some p
    · rcases h'.old p h1 with h2 | h2
      · exact absurd h2 hb
      · exact h2
    · by_cases h2 : p < s'.next
      · rw [(h'.frameX p h2 h1).1]; exact h.new p hp h1
      · exact h'.new p (by omega) hb
  old p hp := by
    rcases h.old p hp with h1 | h1
    · exact h'.old p h1
    · by_cases h2 : s'.vec.b = some p
      · exact h'.old p h2
      · right
        rw [(h'.frameX p (by have := g.lt hp; have := h.le; omega) h2).1]; exact h1
  own p hp := by
    rcases h'.own p hp with h1 | h1
    · exact h.own p h1
    · right; have := h.le; omega

theorem Rel.trans {t : Traits α} {s s' s'' : St α} {l : List α} (g : Good t s l) (h : Rel s s') (h' : Rel s' s'') :
    Rel s s'' := RelX.trans g h h'

/-- Changes in the block of the vector only. -/
theorem RelX.inner {X : Option Nat} {t : Traits α} {s s' : St α} {l : List α} (g : Good t s l)
    (hl : s'.len = s.len) (hn : s'.next = s.next) (hb : s'.vec.b = s.vec.b)
    (hm : ∀ p i, s.vec.b ≠ some p → Alike X p (s.mem p i) (s'.mem p i)) : RelX X s s' where
  le := by omega
  frameX p _ hp := ⟨by rw [hl], fun i => hm p i hp⟩
  new p hp _ := by rw [hl]; exact g.fresh p hp
  old p hp := by left; rw [hb]; exact hp
  own p hp := by left; rw [← hb]; exact hp

theorem Rel.inner {t : Traits α} {s s' : St α} {l : List α} (g : Good t s l) (hl : s'.len = s.len) (hn : s'.next = s.next)
    (hb : s'.vec.b = s.vec.b) (hm : ∀ p i, s.vec.b ≠ some p → s'.mem p i = s.mem p i) : Rel s s' :=
  RelX.inner g hl hn hb fun p i h => .inl (hm p i h)

theorem Rel.refl' {t : Traits α} {s : St α} {l : List α} (g : Good t s l) : Rel s s :=
  Rel.inner g rfl rfl rfl fun _ _ _ => rfl

theorem Good.upd {t : Traits α} {s s' : St α} {l : List α} (g : Good t s l) (h : Upd s s' s.mem) : Good t s' l := by
  obtain ⟨h1, h2, h3, h4⟩ := h
  refine ⟨by rw [h2, h3]; exact g.fresh, ?_⟩
  rcases g.body with hb | ⟨p, e1, e2, e3, e4, e5, e6, e7, e8⟩
  · left; rw [h4]; exact hb
  · right
    refine ⟨p, by rw [h4]; exact e1, by rw [h4]; exact e2, by rw [h4]; exact e3, by rw [h4, h2]; exact e4,
      by rw [h4]; exact e5, by rw [h3]; exact e6, fun i hi => by rw [h1]; exact e7 i hi, ?_⟩
    rw [h4, h1]; exact e8

theorem Rel.upd {t : Traits α} {s s' : St α} {l : List α} (g : Good t s l) (h : Upd s s' s.mem) : Rel s s' :=
  Rel.inner g h.2.1 h.2.2.1 (by rw [h.2.2.2]) fun p i _ => by rw [h.1]

/-- The memory after the elements `l` of the vector have been relocated to the beginning of `p`. -/
def relocated (t : Traits α) (s : St α) (p : Nat) (l : List α) : Nat → Nat → Option α :=
  match s.vec.b with
  | none => s.mem
  | some q => blit (gone t s.mem q 0 l.length) p 0 l

theorem gone_blit {t : Traits α} {s : St α} {q : Nat} {l bs : List α} (hh : Has s q 0 l) (hbs : bs.length = l.length)
    (hb : t.bits = true → bs = l) : gone t (blit s.mem q 0 bs) q 0 l.length = gone t s.mem q 0 l.length := by
  unfold gone
  cases h : t.bits with
  | true => simp only [if_true]; rw [hb h, blit_self hh]
  | false =>
    simp only [Bool.false_eq_true, if_false]
    funext r i; unfold clr blit
    rw [hbs]
    by_cases h : r = q ∧ 0 ≤ i ∧ i < 0 + l.length
    · rw [if_pos h, if_pos h]
    · rw [if_neg h, if_neg h, if_neg h]

/-- The vector's own memory. -/
structure Mine (t : Traits α) (s : St α) (l : List α) (q : Nat) : Prop where
  b : s.vec.b = some q
  e : s.vec.e = l.length
  z : l.length ≤ s.vec.z
  len : s.len q = some s.vec.z
  lt : q < s.next
  has : Has s q 0 l
  raw : t.bits = false → ∀ i, l.length ≤ i → i < s.vec.z → s.mem q i = none

/-- `M_relocate` to a new block. -/
theorem wp_relocate {t : Traits α} {s : St α} {p : Nat} {l : List α}
    {Q : Unit → St α → Prop} {E : Exc → St α → Prop}
    (hv : (s.vec = ⟨none, 0, 0⟩ ∧ l = []) ∨ ∃ q, Mine t s l q ∧ q ≠ p)
    (hp : Room s p l.length) (hc : t.bits = false → ∀ i, i < l.length → s.mem p i = none)
    (hQ : ∀ s', Upd s s' (relocated t s p l) → Q () s')
    (hE : ∀ s' q bs, s.vec.b = some q → t.bits = false → t.nothrow = false → bs.length = l.length →
      (t.nocopy = false → bs = l) → Upd s s' (blit s.mem q 0 bs) → E .failed s') :
    wp (relocate t (some p)) s Q E := by
  unfold relocate
  rw [wp_bind, wp_self, wp_bind]
  rcases hv with ⟨h1, h2⟩ | ⟨q, hm, hqp⟩
  · subst h2
    simp only [h1]
    refine wp_relocateMove_zero (wp_relocateDone_zero (hQ s ?_))
    unfold relocated; rw [h1]; exact Upd.rfl'
  · rw [hm.b, hm.e]
    have hq : Room s q (0 + l.length) := ⟨_, hm.len, by have := hm.z; omega⟩
    refine wp_relocateMove hm.has hq (by rw [Nat.zero_add]; exact hp)
      (fun hb i _ h => hc hb i (by omega)) (fun e => absurd e.symm hqp)
      (fun s1 bs hl hb1 hb2 hu => ?_) (fun s1 bs h1 h2 h3 h4 h5 => hE s1 q bs hm.b h1 h2 h3 h4 h5)
    refine wp_relocateDone (Room.congr hq hu.2.1) (fun _ i _ hi => ?_) (hQ _ ?_)
    · rw [hu.1]; unfold blit
      rw [if_neg (by tauto), if_pos ⟨rfl, by omega, by omega⟩]
      rw [List.getElem?_eq_getElem (by omega)]; rfl
    · refine ⟨?_, hu.2.1, hu.2.2.1, hu.2.2.2⟩
      unfold relocated
      simp only [hm.b, hu.1]
      rw [← gone_blit hm.has hl hb1]
      unfold gone
      cases t.bits with
      | true => rfl
      | false =>
        simp only [Bool.false_eq_true, if_false]
        funext r i; unfold clr blit
        grind

theorem Good.mine {t : Traits α} {s : St α} {l : List α} (h : Good t s l) :
    (s.vec = ⟨none, 0, 0⟩ ∧ l = []) ∨ ∃ q, Mine t s l q := by
  rcases h.body with h | ⟨p, e1, e2, e3, e4, e5, e6, e7, e8⟩
  · left; exact h
  · right; exact ⟨p, e1, e2, e3, e4, e6, e7, e8⟩

theorem Mine.good {t : Traits α} {s : St α} {l : List α} {q : Nat} (h : Mine t s l q)
    (hf : ∀ p, s.next ≤ p → s.len p = none) (hz : s.vec.z * t.size < 2 ^ 63) : Good t s l :=
  ⟨hf, .inr ⟨q, h.b, h.e, h.z, h.len, hz, h.lt, h.has, h.raw⟩⟩

/-- A state in which a new block of `cap` cells has been allocated and the vector has not changed. -/
structure Alloc (s s1 : St α) (cap : Nat) : Prop where
  next : s1.next = s.next + 1
  vec : s1.vec = s.vec
  len : ∀ q, s1.len q = if q = s.next then some cap else s.len q

/-- The old block is given back, the vector has the new one. -/
theorem retireX {X : Option Nat} {t : Traits α} {s s1 : St α} {l l' : List α} {cap n : Nat}
    {Q : Unit → St α → Prop} {E : Exc → St α → Prop}
    (g : Good t s l) (ha : Alloc s s1 cap) (hn : n = s.vec.z) (hcap : l'.length ≤ cap) (hbytes : cap * t.size < 2 ^ 63)
    (hframe : ∀ r i, r < s.next → s.vec.b ≠ some r → Alike X r (s.mem r i) (s1.mem r i))
    (hold : t.bits = false → ∀ q i, s.vec.b = some q → i < s.vec.z → s1.mem q i = none)
    (hnew : Has s1 s.next 0 l')
    (hraw : t.bits = false → ∀ i, l'.length ≤ i → i < cap → s1.mem s.next i = none)
    (hQ : ∀ s', Good t s' l' → RelX X s s' → s'.vec.z = cap → Q () s') :
    wp (if s.vec.b.isSome = true then do dealloc t s.vec.b n; setVec ⟨some s.next, l'.length, cap⟩
        else setVec ⟨some s.next, l'.length, cap⟩) s1 Q E := by
  have hbn : s.vec.b ≠ some s.next := fun h => by have := g.lt h; omega
  rcases hb : s.vec.b with _ | q
  · rw [if_neg (by simp)]
    rw [wp_setVec]
    have hm : Mine t { s1 with vec := ⟨some s.next, l'.length, cap⟩ } l' s.next :=
      ⟨rfl, rfl, hcap, by rw [ha.len, if_pos rfl], by rw [ha.next]; omega, hnew, hraw⟩
    refine hQ _ (hm.good (fun p hp => ?_) hbytes) ⟨?_, ?_, ?_, ?_, ?_⟩ rfl
    · rw [ha.next] at hp
      rw [ha.len, if_neg (by omega)]; exact g.fresh p (by omega)
    · rw [ha.next]; omega
    · intro p hp h
      rw [ha.len, if_neg (by omega)]
      exact ⟨rfl, fun i => hframe p i hp h⟩
    · intro p hp h
      rw [ha.len, if_neg (fun e => h (by rw [e]))]; exact g.fresh p hp
    · intro p hp; rw [hb] at hp; cases hp
    · intro p hp
      right
      injection hp with hp; omega
  · have hq : q < s.next := g.lt hb
    rw [if_pos (by rfl), wp_bind, hn]
    refine wp_dealloc ?_ (fun h i hi => hold h q i hb hi) ?_
    · rw [ha.len, if_neg (by omega)]
      rcases g.mine with ⟨h1, _⟩ | ⟨q', h1⟩
      · rw [h1] at hb; cases hb
      · have := h1.b; rw [hb] at this; injection this with this; rw [this]; exact h1.len
    · rw [wp_setVec]
      have hm : Mine t { s1 with
          len := fun r => if r = q then none else s1.len r, vec := ⟨some s.next, l'.length, cap⟩ } l' s.next :=
        ⟨rfl, rfl, hcap, by simp only; rw [if_neg (by omega), ha.len, if_pos rfl], by rw [ha.next]; omega, hnew, hraw⟩
      refine hQ _ (hm.good (fun p hp => ?_) hbytes) ⟨?_, ?_, ?_, ?_, ?_⟩ rfl
      · rw [ha.next] at hp
        simp only
        rw [if_neg (by omega), ha.len, if_neg (by omega)]; exact g.fresh p (by omega)
      · rw [ha.next]; omega
      · intro p hp h
        have : p ≠ q := fun e => h (by rw [hb, e])
        simp only
        rw [if_neg this, ha.len, if_neg (by omega)]
        exact ⟨rfl, fun i => hframe p i hp h⟩
      · intro p hp h
        simp only
        rw [if_neg (by omega), ha.len, if_neg (fun e => h (by rw [e]))]; exact g.fresh p hp
      · intro p hp
        rw [hb] at hp
        injection hp with hp
        right
        simp [hp]
      · intro p hp
        right
        injection hp with hp; omega

theorem retire {t : Traits α} {s s1 : St α} {l l' : List α} {cap n : Nat}
    {Q : Unit → St α → Prop} {E : Exc → St α → Prop}
    (g : Good t s l) (ha : Alloc s s1 cap) (hn : n = s.vec.z) (hcap : l'.length ≤ cap) (hbytes : cap * t.size < 2 ^ 63)
    (hframe : ∀ r i, r < s.next → s.vec.b ≠ some r → s1.mem r i = s.mem r i)
    (hold : t.bits = false → ∀ q i, s.vec.b = some q → i < s.vec.z → s1.mem q i = none)
    (hnew : Has s1 s.next 0 l')
    (hraw : t.bits = false → ∀ i, l'.length ≤ i → i < cap → s1.mem s.next i = none)
    (hQ : ∀ s', Good t s' l' → Rel s s' → s'.vec.z = cap → Q () s') :
    wp (if s.vec.b.isSome = true then do dealloc t s.vec.b n; setVec ⟨some s.next, l'.length, cap⟩
        else setVec ⟨some s.next, l'.length, cap⟩) s1 Q E :=
  retireX g ha hn hcap hbytes (fun r i h1 h2 => .inl (hframe r i h1 h2)) hold hnew hraw hQ

/-- The new block is given back, nothing else has changed apart from the elements' values. -/
theorem abandonX {X : Option Nat} {t : Traits α} {s s1 : St α} {l l' : List α} {cap : Nat}
    {Q : Unit → St α → Prop} {E : Exc → St α → Prop}
    (g : Good t s l) (ha : Alloc s s1 cap)
    (hframe : ∀ r i, r < s.next → s.vec.b ≠ some r → Alike X r (s.mem r i) (s1.mem r i))
    (hl : l'.length = l.length)
    (hold : ∀ q, s.vec.b = some q → Has s1 q 0 l' ∧ ∀ i, l.length ≤ i → s1.mem q i = s.mem q i)
    (hraw : t.bits = false → ∀ i, i < cap → s1.mem s.next i = none)
    (hQ : ∀ s', Good t s' l' → RelX X s s' → s'.vec = s.vec → Q () s') :
    wp (dealloc t (some s.next) cap) s1 Q E := by
  refine wp_dealloc (by rw [ha.len, if_pos rfl]) hraw (hQ _ ⟨?_, ?_⟩ ⟨?_, ?_, ?_, ?_, ?_⟩ ha.vec)
  · intro p hp
    rw [ha.next] at hp
    simp only
    rw [if_neg (by omega), ha.len, if_neg (by omega)]; exact g.fresh p (by omega)
  · rcases g.body with h | ⟨p, e1, e2, e3, e4, e5, e6, e7, e8⟩
    · left; rw [ha.vec]
      refine ⟨h.1, ?_⟩
      rw [h.2] at hl; exact List.length_eq_zero_iff.mp hl
    · right
      refine ⟨p, ?_, ?_, ?_, ?_, ?_, ?_, (hold p e1).1, ?_⟩
      · rw [ha.vec]; exact e1
      · rw [ha.vec, hl]; exact e2
      · rw [ha.vec, hl]; exact e3
      · simp only; rw [if_neg (by omega), ha.len, if_neg (by omega), ha.vec]; exact e4
      · rw [ha.vec]; exact e5
      · rw [ha.next]; omega
      · intro hb i h1 h2
        rw [hl] at h1
        simp only [ha.vec] at h2
        rw [(hold p e1).2 i h1]; exact e8 hb i h1 h2
  · rw [ha.next]; omega
  · intro p hp h
    simp only
    rw [if_neg (by omega), ha.len, if_neg (by omega)]
    exact ⟨rfl, fun i => hframe p i hp h⟩
  · intro p hp _
    simp only
    by_cases h : p = s.next
    · rw [if_pos h]
    · rw [if_neg h, ha.len, if_neg h]; exact g.fresh p hp
  · intro p hp; left; rw [ha.vec]; exact hp
  · intro p hp; left; rw [← ha.vec]; exact hp

theorem abandon {t : Traits α} {s s1 : St α} {l l' : List α} {cap : Nat}
    {Q : Unit → St α → Prop} {E : Exc → St α → Prop}
    (g : Good t s l) (ha : Alloc s s1 cap)
    (hframe : ∀ r i, r < s.next → s.vec.b ≠ some r → s1.mem r i = s.mem r i)
    (hl : l'.length = l.length)
    (hold : ∀ q, s.vec.b = some q → Has s1 q 0 l' ∧ ∀ i, l.length ≤ i → s1.mem q i = s.mem q i)
    (hraw : t.bits = false → ∀ i, i < cap → s1.mem s.next i = none)
    (hQ : ∀ s', Good t s' l' → Rel s s' → s'.vec = s.vec → Q () s') :
    wp (dealloc t (some s.next) cap) s1 Q E :=
  abandonX g ha (fun r i h1 h2 => .inl (hframe r i h1 h2)) hl hold hraw hQ

/-! ### Capacity -/

/-- What an operation that throws leaves: the vector in order, with elements satisfying `P`. -/
def Bad (t : Traits α) (s : St α) (B : Prop) (P : List α → Prop) (x : Exc) (s' : St α) : Prop :=
  (x = .huge → B) ∧ x ≠ .range ∧ Rel s s' ∧ ∃ l', P l' ∧ Good t s' l'

/-- Nothing has changed, or (for types that can only be moved and whose moving may throw) only values. -/
def Semi (t : Traits α) (l l' : List α) : Prop := l'.length = l.length ∧ (Safe t → l' = l)

/-- A new block has been allocated, and nothing but its contents has changed since. -/
structure Fresh (s s1 : St α) (cap : Nat) : Prop extends Alloc s s1 cap where
  mem : ∀ q, q ≠ s.next → ∀ i, s1.mem q i = s.mem q i

theorem Mine.fresh {t : Traits α} {s s1 : St α} {l : List α} {q cap : Nat} (h : Mine t s l q) (hf : Fresh s s1 cap) :
    Mine t s1 l q ∧ q ≠ s.next := by
  have hq : q ≠ s.next := by have := h.lt; omega
  refine ⟨⟨?_, ?_, ?_, ?_, ?_, fun i hi => ?_, fun hb i h1 h2 => ?_⟩, hq⟩
  · rw [hf.vec]; exact h.b
  · rw [hf.vec]; exact h.e
  · rw [hf.vec]; exact h.z
  · rw [hf.vec, hf.len, if_neg hq]; exact h.len
  · rw [hf.next]; have := h.lt; omega
  · rw [hf.mem q hq]; exact h.has i hi
  · rw [hf.vec] at h2
    rw [hf.mem q hq]; exact h.raw hb i h1 h2

theorem Fresh.room {s s1 : St α} {cap n : Nat} (hf : Fresh s s1 cap) (h : n ≤ cap) : Room s1 s.next n :=
  ⟨cap, by rw [hf.len, if_pos rfl], h⟩

theorem Fresh.upd {s s1 s2 : St α} {cap : Nat} {m : Nat → Nat → Option α} (hf : Fresh s s1 cap) (hu : Upd s1 s2 m)
    (hm : ∀ q, q ≠ s.next → ∀ i, m q i = s1.mem q i) : Fresh s s2 cap :=
  ⟨⟨hu.2.2.1.trans hf.next, hu.2.2.2.trans hf.vec, fun q => by rw [hu.2.1]; exact hf.len q⟩,
    fun q hq i => by rw [hu.1, hm q hq, hf.mem q hq]⟩

theorem Good.relocates {t : Traits α} {s s1 : St α} {l : List α} {cap : Nat} (g : Good t s l) (hf : Fresh s s1 cap) :
    (s1.vec = ⟨none, 0, 0⟩ ∧ l = []) ∨ ∃ q, Mine t s1 l q ∧ q ≠ s.next := by
  rcases g.mine with h | ⟨q, h⟩
  · left; rw [hf.vec]; exact h
  · right; exact ⟨q, h.fresh hf⟩

theorem relocated_other {t : Traits α} {s s1 : St α} {l : List α} {cap : Nat} (hf : Fresh s s1 cap)
    (r i : Nat) (hr : r < s.next) (hb : s.vec.b ≠ some r) : relocated t s1 s.next l r i = s.mem r i := by
  unfold relocated
  rw [hf.vec]
  have hm : s1.mem r i = s.mem r i := hf.mem r (by omega) i
  cases h : s.vec.b with
  | none => exact hm
  | some q =>
    have : r ≠ q := fun e => hb (by rw [h, e])
    simp only [gone, blit]
    grind [clr]

theorem relocated_old {t : Traits α} {s s1 : St α} {l : List α} {cap : Nat} (g : Good t s l) (hf : Fresh s s1 cap)
    (hb : t.bits = false) (q i : Nat) (hq : s.vec.b = some q) (hi : i < s.vec.z) :
    relocated t s1 s.next l q i = none := by
  unfold relocated
  have h1 := g.lt hq
  have hm : s1.mem q i = s.mem q i := hf.mem q (by omega) i
  simp only [hf.vec, hq, gone, hb, Bool.false_eq_true, if_false, blit, clr]
  rw [if_neg (by omega)]
  split
  · rfl
  · rename_i h2
    rw [hm]
    rcases g.mine with ⟨h3, _⟩ | ⟨q', h3⟩
    · rw [h3] at hq; cases hq
    · have h4 := h3.b
      rw [hq] at h4; injection h4 with h4
      rw [h4]; exact h3.raw hb i (by grind) hi

theorem relocated_new {t : Traits α} {s s1 : St α} {l : List α} {cap : Nat} (g : Good t s l) (hf : Fresh s s1 cap)
    (i : Nat) : relocated t s1 s.next l s.next i = if i < l.length then l[i]? else s1.mem s.next i := by
  unfold relocated
  rcases g.mine with ⟨h1, h2⟩ | ⟨q, h⟩
  · rw [hf.vec, h1, h2]; simp
  · have := (h.fresh hf).2
    simp only [hf.vec, h.b, blit, gone]
    grind [clr]

theorem Upd.alloc {s s1 s2 : St α} {cap : Nat} {m : Nat → Nat → Option α} (hf : Alloc s s1 cap) (h : Upd s1 s2 m) :
    Alloc s s2 cap :=
  ⟨h.2.2.1.trans hf.next, h.2.2.2.trans hf.vec, fun q => by rw [h.2.1]; exact hf.len q⟩

/-- A relocation has failed: the new block is given back. -/
theorem relocate_abandon {t : Traits α} {s s2 : St α} {l bs : List α} {cap q : Nat} {B : Prop}
    {x : Exc} (hx : x = .failed)
    (g : Good t s l) (ha : Alloc s s2 cap) (hq : s.vec.b = some q) (hb : t.bits = false) (hn : t.nothrow = false)
    (hlen : bs.length = l.length) (hbs : t.nocopy = false → bs = l)
    (hm : ∀ r i, r ≠ s.next → s2.mem r i = blit s.mem q 0 bs r i)
    (hraw : ∀ i, i < cap → s2.mem s.next i = none) :
    wp (dealloc t (some s.next) cap) s2 (fun _ s' => Bad t s B (Semi t l) x s' ∧ s'.vec = s.vec) (fun _ _ => False) := by
  have hqn := g.lt hq
  refine abandon (l' := bs) g ha ?_ hlen ?_ (fun _ => hraw) ?_
  · intro r i hr hne
    have : r ≠ q := fun e => hne (by rw [hq, e])
    rw [hm r i (by omega)]; unfold blit
    rw [if_neg (by tauto)]
  · intro q' hq'
    rw [hq] at hq'; injection hq' with hq'; subst hq'
    refine ⟨fun i hi => ?_, fun i hi => ?_⟩
    · rw [hm _ _ (by omega)]; unfold blit
      rw [if_pos ⟨rfl, by omega, by omega⟩]; simp
    · rw [hm _ _ (by omega)]; unfold blit
      rw [if_neg (by omega)]
  · intro s' h1 h2 h3
    subst hx
    refine ⟨⟨by simp, by simp, h2, bs, ⟨hlen, ?_⟩, h1⟩, h3⟩
    rintro (h | h | h)
    · rw [hb] at h; cases h
    · rw [hn] at h; cases h
    · exact hbs h

theorem blit_congr {m m' : Nat → Nat → Option α} {p d r i : Nat} {as : List α} (h : m r i = m' r i) :
    blit m p d as r i = blit m' p d as r i := by
  unfold blit; rw [h]

/-- A failed allocation. -/
theorem alloc_bad {t : Traits α} {s s' : St α} {l : List α} {B : Prop} {x : Exc} (g : Good t s l) (hx : x = .huge → B)
    (hr : x ≠ .range) (hu : Upd s s' s.mem) : Bad t s B (Semi t l) x s' ∧ s'.vec = s.vec :=
  ⟨⟨hx, hr, Rel.upd g hu, l, ⟨rfl, fun _ => rfl⟩, g.upd hu⟩, hu.2.2.2⟩

theorem reserve_ok {t : Traits α} {s : St α} {l : List α} {n : Nat} {B : Prop} (g : Good t s l) (hs : 0 < t.size)
    (hn : n * t.size < 2 ^ 64) (hB : 2 ^ 63 ≤ n * t.size → B) :
    wp (reserve t n) s
      (fun _ s' => Good t s' l ∧ Rel s s' ∧ s'.vec.z = max n s.vec.z ∧ (n ≤ s.vec.z → s' = s))
      (fun x s' => Bad t s B (Semi t l) x s' ∧ s'.vec = s.vec) := by
  unfold reserve
  rw [wp_bind, wp_self]
  split
  · rename_i h
    exact ⟨g, Rel.refl' g, by omega, fun _ => rfl⟩
  · rename_i h
    rw [capOf_eq hs hn, wp_bind]
    have hlen := g.cap
    refine wp_alloc hs hn (fun s1 hbytes h1 h2 h3 h4 => ?_) (fun s1 x hx hr h1 => ?_)
    · have hf : Fresh s s1 n := ⟨⟨h1, h2, h3⟩, fun q hq i => by rw [h4, if_neg hq]⟩
      have hraw : ∀ i, s1.mem s.next i = none := fun i => by rw [h4, if_pos rfl]
      rw [wp_bind, wp_guarded]
      refine wp_relocate (g.relocates hf) (hf.room (by omega)) (fun _ i _ => hraw i)
        (fun s2 hu => ?_) (fun s2 q bs e1 e2 e3 e4 e5 e6 => ?_)
      · rw [g.size]
        refine retire g (Upd.alloc hf.toAlloc hu) rfl (by omega) hbytes ?_ ?_ ?_ ?_ ?_
        · intro r i hr hb; rw [hu.1]; exact relocated_other hf r i hr hb
        · intro hb q i hq hi; rw [hu.1]; exact relocated_old g hf hb q i hq hi
        · intro i hi; rw [hu.1, relocated_new g hf, Nat.zero_add, if_pos hi]
        · intro hb i h1 _; rw [hu.1, relocated_new g hf, if_neg (by omega), hraw]
        · intro s' e1 e2 e3
          exact ⟨e1, e2, by omega, fun e4 => absurd e4 h⟩
      · rw [hf.vec] at e1
        have hqn := g.lt e1
        refine relocate_abandon rfl g (Upd.alloc hf.toAlloc e6) e1 e2 e3 e4 e5 (fun r i hr => ?_) (fun i _ => ?_)
        · rw [e6.1]; exact blit_congr (hf.mem r hr i)
        · rw [e6.1]; unfold blit
          rw [if_neg (by omega), hraw]
    · exact alloc_bad g (fun e => hB (hx e)) hr h1

theorem destroyAll_ok {t : Traits α} {s : St α} {l : List α} {E : Exc → St α → Prop} {Q : Unit → St α → Prop}
    (g : Good t s l)
    (hQ : ∀ s', s'.vec = s.vec → s'.next = s.next →
      (∀ p, s.vec.b ≠ some p → s'.len p = s.len p ∧ ∀ i, s'.mem p i = s.mem p i) →
      (∀ p, s.vec.b = some p → s'.len p = none) → Q () s') :
    wp (destroyAll t) s Q E := by
  unfold destroyAll
  rw [wp_bind, wp_self]
  rcases g.mine with ⟨h1, h2⟩ | ⟨q, h⟩
  · rw [h1]
    exact hQ s rfl rfl (fun p _ => ⟨rfl, fun _ => rfl⟩) (fun p hp => by rw [h1] at hp; cases hp)
  · rw [h.b, h.e, if_pos (by rfl), wp_bind]
    refine wp_destroyRange (by omega) ⟨_, h.len, h.z⟩ (fun _ i _ hi => ?_) ?_
    · have := h.has i hi
      rw [Nat.zero_add] at this
      rw [this, List.getElem?_eq_getElem hi]; rfl
    · refine wp_dealloc h.len (fun hb i hi => ?_) (hQ _ rfl rfl (fun p hp => ?_) (fun p hp => ?_))
      · simp only [gone, hb, Bool.false_eq_true, if_false, clr]
        split
        · rfl
        · exact h.raw hb i (by grind) hi
      · rw [h.b] at hp
        have hp : p ≠ q := fun e => hp (by rw [e])
        refine ⟨if_neg hp, fun i => ?_⟩
        simp only [gone]
        grind [clr]
      · rw [h.b] at hp; injection hp with hp
        exact if_pos hp.symm

theorem null_good {t : Traits α} {s s' : St α} {l : List α} (g : Good t s l) (hv : s'.vec = ⟨none, 0, 0⟩)
    (hn : s'.next = s.next)
    (h1 : ∀ p, s.vec.b ≠ some p → s'.len p = s.len p ∧ ∀ i, s'.mem p i = s.mem p i)
    (h2 : ∀ p, s.vec.b = some p → s'.len p = none) : Good t s' [] ∧ Rel s s' := by
  refine ⟨⟨fun p hp => ?_, .inl ⟨hv, rfl⟩⟩, ⟨by omega, fun p _ hb => ⟨(h1 p hb).1, fun i => .inl ((h1 p hb).2 i)⟩, fun p hp _ => ?_, fun p hp => .inr (h2 p hp), fun p hp => ?_⟩⟩
  · rw [hn] at hp
    by_cases hb : s.vec.b = some p
    · exact h2 p hb
    · rw [(h1 p hb).1]; exact g.fresh p hp
  · by_cases hb : s.vec.b = some p
    · exact h2 p hb
    · rw [(h1 p hb).1]; exact g.fresh p hp
  · rw [hv] at hp; cases hp

theorem reset_ok {t : Traits α} {s : St α} {l : List α} {E : Exc → St α → Prop} (g : Good t s l) :
    wp (reset t) s (fun _ s' => Good t s' [] ∧ Rel s s' ∧ s'.vec = ⟨none, 0, 0⟩) E := by
  unfold reset
  rw [wp_bind]
  refine destroyAll_ok g (fun s' h1 h2 h3 h4 => ?_)
  rw [wp_setVec]
  have := null_good (s' := { s' with vec := ⟨none, 0, 0⟩ }) g rfl h2 h3 h4
  exact ⟨this.1, this.2, rfl⟩

/-- `Impl::init` on a vector without memory. -/
theorem init_ok {t : Traits α} {s : St α} {n : Nat} {B : Prop} (hs : 0 < t.size)
    (hf : ∀ p, s.next ≤ p → s.len p = none)
    (hn : n * t.size < 2 ^ 64) (hB : 2 ^ 63 ≤ n * t.size → B) :
    wp (init t n) s
      (fun _ s' => Good t s' [] ∧ s'.vec.z = n ∧ (∀ p, p < s.next → s'.len p = s.len p ∧ ∀ i, s'.mem p i = s.mem p i) ∧
        s.next ≤ s'.next ∧ (∀ p, s.next ≤ p → s'.vec.b ≠ some p → s'.len p = none) ∧
        (∀ p, s'.vec.b = some p → s.next ≤ p))
      (fun x s' => (x = .huge → B) ∧ x ≠ .range ∧ Upd s s' s.mem) := by
  unfold init
  split
  · rename_i h
    rw [wp_setVec]
    exact ⟨⟨hf, .inl ⟨rfl, rfl⟩⟩, h.symm, fun p _ => ⟨rfl, fun _ => rfl⟩, Nat.le_refl _, fun p hp _ => hf p hp,
      fun p hp => by cases hp⟩
  · rw [capOf_eq hs hn, wp_bind]
    refine wp_alloc hs hn (fun s1 hbytes h1 h2 h3 h4 => ?_) (fun s1 x hx hr h1 => ⟨fun e => hB (hx e), hr, h1⟩)
    rw [wp_setVec]
    refine ⟨⟨fun p hp => ?_, .inr ⟨s.next, rfl, rfl, by simp, by simp [h3], hbytes, ?_, fun i hi => ?_, fun _ i _ _ => ?_⟩⟩,
      rfl, fun p hp => ⟨by rw [h3, if_neg (by omega)], fun i => by rw [h4, if_neg (by omega)]⟩, by rw [h1]; omega,
      fun p hp hb => ?_, fun p hp => ?_⟩
    · rw [h1] at hp; rw [h3, if_neg (by omega)]; exact hf p (by omega)
    · rw [h1]; omega
    · cases hi
    · rw [h4, if_pos rfl]
    · rw [h3, if_neg (fun e => hb (by rw [e]))]; exact hf p hp
    · injection hp with hp; omega

/-- `Impl::reset(n)`. -/
theorem resetTo_ok {t : Traits α} {s : St α} {l : List α} {n : Nat} {B : Prop} (g : Good t s l) (hs : 0 < t.size)
    (hn : n * t.size < 2 ^ 64) (hB : 2 ^ 63 ≤ n * t.size → B) :
    wp (resetTo t n) s (fun _ s' => Good t s' [] ∧ Rel s s' ∧ s'.vec.z = n) (Bad t s B (fun l' => l' = [])) := by
  unfold resetTo
  rw [wp_bind]
  refine destroyAll_ok g (fun s1 h1 h2 h3 h4 => ?_)
  have hf : ∀ p, s1.next ≤ p → s1.len p = none := fun p hp => by
    rw [h2] at hp
    by_cases hb : s.vec.b = some p
    · exact h4 p hb
    · rw [(h3 p hb).1]; exact g.fresh p hp
  rw [wp_guarded]
  refine wp_mono (init_ok (B := B) hs hf hn hB) ?_ ?_
  · rintro _ s2 ⟨e1, e2, e3, e4, e5, e6⟩
    refine ⟨e1, ⟨by omega, fun p hp hb => ?_, fun p hp hb => e5 p (by omega) hb, fun p hp => ?_, fun p hp => ?_⟩, e2⟩
    · have := e3 p (by omega)
      have h := h3 p hb
      exact ⟨this.1.trans h.1, fun i => .inl ((this.2 i).trans (h.2 i))⟩
    · right; rw [(e3 p (by have := g.lt hp; omega)).1]; exact h4 p hp
    · right; have := e6 p hp; omega
  · rintro x s2 ⟨e1, e2, e3⟩
    unfold init
    rw [if_pos rfl, wp_setVec]
    have := null_good (s' := { s2 with vec := ⟨none, 0, 0⟩ }) g rfl (e3.2.2.1.trans h2)
      (fun p hp => ⟨by rw [e3.2.1]; exact (h3 p hp).1, fun i => by rw [e3.1]; exact (h3 p hp).2 i⟩)
      (fun p hp => by rw [e3.2.1]; exact h4 p hp)
    exact ⟨e1, e2, this.2, [], rfl, this.1⟩

theorem shrinkToFit_ok {t : Traits α} {s : St α} {l : List α} {E : Exc → St α → Prop} (g : Good t s l) (hs : 0 < t.size) :
    wp (shrinkToFit t) s (fun _ s' => Rel s s' ∧ s'.vec.z ≤ s.vec.z ∧ ∃ l', Semi t l l' ∧ Good t s' l') E := by
  unfold shrinkToFit
  rw [wp_bind, wp_self]
  have hsz := g.size
  have hlen := g.cap
  split
  · rename_i h
    refine wp_mono (reset_ok (E := E) g) ?_ (fun _ _ h => h)
    rintro _ s' ⟨h1, h2, h3⟩
    have hl : l = [] := List.length_eq_zero_iff.mp (by omega)
    exact ⟨h2, by rw [h3]; simp, [], ⟨by rw [hl], fun _ => hl.symm⟩, h1⟩
  · rename_i h
    have hbz := g.bytes
    have hb : s.vec.e * t.size < 2 ^ 64 := by
      have := Nat.mul_le_mul_right t.size (show s.vec.e ≤ s.vec.z by omega)
      omega
    simp only [capOf_eq hs hb]
    split
    · exact ⟨Rel.refl' g, Nat.le_refl _, l, ⟨rfl, fun _ => rfl⟩, g⟩
    · rename_i h'
      rw [wp_bind, wp_caught, wp_bind]
      refine wp_alloc hs hb (fun s1 hbytes h1 h2 h3 h4 => ?_) (fun s1 x hx hr h1 => ?_)
      · have hf : Fresh s s1 s.vec.e := ⟨⟨h1, h2, h3⟩, fun q hq i => by rw [h4, if_neg hq]⟩
        have hraw : ∀ i, s1.mem s.next i = none := fun i => by rw [h4, if_pos rfl]
        rw [wp_pure]
        simp only
        rw [wp_bind, wp_caught, wp_bind]
        refine wp_relocate (g.relocates hf) (hf.room (by omega)) (fun _ i _ => hraw i)
          (fun s2 hu => ?_) (fun s2 q bs e1 e2 e3 e4 e5 e6 => ?_)
        · rw [wp_pure, if_pos rfl, g.size]
          refine retire g (Upd.alloc (by rw [g.size] at hf; exact hf.toAlloc) hu) rfl (by omega) (by rw [← g.size]; omega) ?_ ?_ ?_ ?_ ?_
          · intro r i hr hb; rw [hu.1]; exact relocated_other hf r i hr hb
          · intro hb q i hq hi; rw [hu.1]; exact relocated_old g hf hb q i hq hi
          · intro i hi; rw [hu.1, relocated_new g hf, Nat.zero_add, if_pos hi]
          · intro hb i h1 _; rw [hu.1, relocated_new g hf, if_neg (by omega), hraw]
          · intro s' e1 e2 e3
            exact ⟨e2, by omega, l, ⟨rfl, fun _ => rfl⟩, e1⟩
        · rw [hf.vec] at e1
          have hqn := g.lt e1
          rw [wp_bind]
          refine wp_mono (relocate_abandon (B := True) rfl g (Upd.alloc hf.toAlloc e6) e1 e2 e3 e4 e5 (fun r i hr => ?_)
            (fun i _ => ?_)) ?_ (fun _ _ h => h.elim)
          · rw [e6.1]; exact blit_congr (hf.mem r hr i)
          · rw [e6.1]; unfold blit
            rw [if_neg (by omega), hraw]
          · rintro _ s3 ⟨⟨_, _, f3, l', f4, f5⟩, f6⟩
            rw [wp_pure, if_neg (by simp)]
            exact ⟨f3, by rw [f6]; omega, l', f4, f5⟩
      · rw [wp_pure]
        exact ⟨Rel.upd g h1, by rw [h1.2.2.2]; omega, l, ⟨rfl, fun _ => rfl⟩, g.upd h1⟩

/-! ### Work inside the block -/

/-- The vector after work inside its block. -/
theorem Mine.innerX {X : Option Nat} {t : Traits α} {s s' : St α} {l l' : List α} {q : Nat} (h : Mine t s l q) (g : Good t s l)
    (hl : s'.len = s.len) (hn : s'.next = s.next) (hv : s'.vec = { s.vec with e := l'.length })
    (hz : l'.length ≤ s.vec.z)
    (hm : ∀ r i, r ≠ q → Alike X r (s.mem r i) (s'.mem r i)) (hh : Has s' q 0 l')
    (hr : t.bits = false → ∀ i, l'.length ≤ i → i < s.vec.z → s'.mem q i = none) : Good t s' l' ∧ RelX X s s' := by
  have hb : s'.vec.b = s.vec.b := by rw [hv]
  refine ⟨⟨by rw [hl, hn]; exact g.fresh, .inr ⟨q, ?_, ?_, ?_, ?_, ?_, ?_, hh, ?_⟩⟩, RelX.inner g hl hn hb fun p i hp => hm p i ?_⟩
  · rw [hb]; exact h.b
  · rw [hv]
  · rw [hv]; exact hz
  · rw [hv, hl]; exact h.len
  · rw [hv]; exact g.bytes
  · rw [hn]; exact h.lt
  · rw [hv]; exact hr
  · rintro rfl; exact hp h.b

theorem Mine.inner {t : Traits α} {s s' : St α} {l l' : List α} {q : Nat} (h : Mine t s l q) (g : Good t s l)
    (hl : s'.len = s.len) (hn : s'.next = s.next) (hv : s'.vec = { s.vec with e := l'.length })
    (hz : l'.length ≤ s.vec.z)
    (hm : ∀ r i, r ≠ q → s'.mem r i = s.mem r i) (hh : Has s' q 0 l')
    (hr : t.bits = false → ∀ i, l'.length ≤ i → i < s.vec.z → s'.mem q i = none) : Good t s' l' ∧ Rel s s' :=
  h.innerX g hl hn hv hz (fun r i hr => .inl (hm r i hr)) hh hr

theorem getElem?_take_lt {l : List α} {n i : Nat} (h : i < n) : (l.take n)[i]? = l[i]? := by
  rw [List.getElem?_take]; simp [h]

theorem destroyRangeE_ok {t : Traits α} {s : St α} {l : List α} {n : Nat} {E : Exc → St α → Prop}
    (g : Good t s l) (hn : n ≤ l.length) :
    wp (destroyRangeE t n) s (fun _ s' => Good t s' (l.take n) ∧ Rel s s' ∧ s'.vec.z = s.vec.z) E := by
  unfold destroyRangeE
  rw [wp_bind, wp_self, wp_bind]
  rcases g.mine with ⟨h1, h2⟩ | ⟨q, h⟩
  · subst h2
    have hn : n = 0 := by simpa using hn
    subst hn
    rw [h1]
    refine wp_destroyRange_nil ?_
    rw [wp_setVec]
    have : ({ s with vec := ⟨none, 0, 0⟩ } : St α) = s := by rw [← h1]
    rw [this]
    exact ⟨by simpa using g, Rel.refl' g, by rw [h1]⟩
  · rw [h.b, h.e]
    refine wp_destroyRange hn ⟨_, h.len, h.z⟩ (fun _ i _ hi => ?_) ?_
    · have := h.has i hi
      rw [Nat.zero_add] at this
      rw [this, List.getElem?_eq_getElem hi]; rfl
    · rw [wp_setVec]
      have hlt : (l.take n).length = n := by simp; omega
      have := h.inner (s' := { s with
        mem := gone t s.mem q n (l.length - n), vec := { s.vec with e := n } }) (l' := l.take n) g rfl rfl
        (by rw [hlt]) (by rw [hlt]; have := h.z; omega) ?_ ?_ ?_
      · refine ⟨?_, ?_, ?_⟩
        · rw [← h.b, ← h.e]; rw [← h.e] at this; exact this.1
        · rw [← h.b, ← h.e]; rw [← h.e] at this; exact this.2
        · rfl
      · intro r i hr
        simp only [gone]; grind [clr]
      · intro i hi
        rw [hlt] at hi
        have e := h.has i (by omega)
        rw [getElem?_take_lt hi, ← e]
        simp only [gone]
        split
        · rfl
        · unfold clr; rw [if_neg (by omega)]
      · intro hb i h1 h2
        rw [hlt] at h1
        simp only [gone, hb, Bool.false_eq_true, if_false, clr]
        split
        · rfl
        · exact h.raw hb i (by grind) h2

theorem clear_ok {t : Traits α} {s : St α} {l : List α} {E : Exc → St α → Prop} (g : Good t s l) :
    wp (clear t) s (fun _ s' => Good t s' [] ∧ Rel s s' ∧ s'.vec.z = s.vec.z) E := by
  have := destroyRangeE_ok (E := E) g (Nat.zero_le _)
  rw [List.take_zero] at this
  exact this

theorem popBack_ok {t : Traits α} {s : St α} {l : List α} {E : Exc → St α → Prop} (g : Good t s l) (hl : l ≠ []) :
    wp (popBack t) s (fun _ s' => Good t s' l.dropLast ∧ Rel s s' ∧ s'.vec.z = s.vec.z) E := by
  have hpos : 0 < l.length := List.length_pos_iff.mpr hl
  unfold popBack
  rw [wp_bind, wp_self, if_neg (by rw [g.size]; omega), wp_bind, wp_setVec]
  rcases g.mine with ⟨h1, h2⟩ | ⟨q, h⟩
  · exact absurd h2 hl
  · have hat : ∀ i, i < l.length → s.mem q i = l[i]? := fun i hi => by
      have := h.has i hi; rwa [Nat.zero_add] at this
    rw [h.b, h.e]
    refine wp_destroy ⟨_, h.len, by have := h.z; omega⟩ (fun _ => ?_) ?_
    · show (s.mem q _).isSome
      rw [hat _ (by omega), List.getElem?_eq_getElem (by omega)]; rfl
    · have hlt : l.dropLast.length = l.length - 1 := by simp
      have := h.inner (s' := { s with
        mem := (if t.bits = true then s.mem else clr s.mem q (l.length - 1) 1),
        vec := { s.vec with e := l.length - 1 } }) (l' := l.dropLast) g rfl rfl
        (by rw [hlt]) (by rw [hlt]; have := h.z; omega) ?_ ?_ ?_
      · dsimp only at this ⊢
        rw [h.b] at this
        exact ⟨this.1, this.2, rfl⟩
      · intro r i hr
        simp only
        split
        · rfl
        · unfold clr; rw [if_neg (by tauto)]
      · intro i hi
        rw [hlt] at hi
        rw [List.dropLast_eq_take, getElem?_take_lt hi, Nat.zero_add, ← hat i (by omega)]
        simp only
        split
        · rfl
        · unfold clr; rw [if_neg (by omega)]
      · intro hb i h1 h2
        rw [hlt] at h1
        simp only [hb, Bool.false_eq_true, if_false, clr]
        split
        · rfl
        · exact h.raw hb i (by grind) h2

/-- A source of a new element: an outside value, an element of another block or of this vector. -/
def Stable (s : St α) (x : Src α) (a : α) : Prop :=
  Reads s x a ∧ ∀ q i, x = .ref (some q) i → s.vec.b = some q → i < s.vec.e

theorem Stable.val {s : St α} {a : α} : Stable s (.val a) a := ⟨rfl, fun q i h => by cases h⟩

/-- Appending within the capacity. -/
theorem appendE_ok {t : Traits α} {s : St α} {l as : List α} {xs : List (Src α)}
    {Q : Unit → St α → Prop} {E : Exc → St α → Prop}
    (g : Good t s l) (hf : List.Forall₂ (Stable s) xs as) (hz : l.length + xs.length ≤ s.vec.z)
    (hQ : ∀ s', Good t s' (l ++ as) → Rel s s' → s'.vec.z = s.vec.z → s'.vec.b = s.vec.b → Q () s')
    (hE : ∀ s', t.bits = false → Upd s s' s.mem → E .failed s') : wp (appendE t xs) s Q E := by
  have hlen := hf.length_eq
  unfold appendE
  rw [wp_bind, wp_self, wp_bind]
  rcases g.mine with ⟨h1, h2⟩ | ⟨q, h⟩
  · subst h2
    have hx : xs = [] := List.length_eq_zero_iff.mp (by rw [h1] at hz; simpa using hz)
    subst hx
    cases hf
    show Q () _
    rw [List.append_nil] at hQ
    exact hQ s g (Rel.refl' g) rfl rfl
  · rw [h.b, h.e]
    refine wp_buildLoop (as := as) (hf.imp fun x a hx => ⟨hx.1, fun q' i e hc => by
        have := hx.2 q' i e (by rw [h.b, hc.1])
        rw [h.e] at this; omega⟩) ⟨_, h.len, hz⟩
      (fun hb i h1 h2 => h.raw hb i h1 (by omega)) (fun s1 hu => ?_) hE
    · rw [wp_setVec]
      have hv : ({ s1.vec with b := some q, e := l.length + xs.length, z := s.vec.z } : Vec)
          = { s.vec with e := (l ++ as).length } := by
        rw [List.length_append, ← hlen, ← h.b]
      have := h.inner (s' := { s1 with vec := { s.vec with e := (l ++ as).length } }) (l' := l ++ as) g hu.2.1 hu.2.2.1 rfl
        (by rw [List.length_append, ← hlen]; exact hz) ?_ ?_ ?_
      · rw [← h.b, hlen, ← List.length_append]
        exact hQ _ this.1 this.2 rfl rfl
      · intro r i hr
        show s1.mem r i = _
        rw [hu.1]; unfold blit; rw [if_neg (by tauto)]
      · intro i hi
        show s1.mem q (0 + i) = _
        rw [hu.1, Nat.zero_add]; unfold blit
        rw [List.length_append] at hi
        have := h.has i
        rw [Nat.zero_add] at this
        by_cases h1 : i < l.length
        · rw [if_neg (by omega), List.getElem?_append_left h1]; exact this h1
        · rw [if_pos ⟨rfl, by omega, by omega⟩, List.getElem?_append_right (by omega)]
      · intro hb i h1 h2
        show s1.mem q i = _
        rw [hu.1]; unfold blit
        rw [List.length_append] at h1
        rw [if_neg (by omega)]
        exact h.raw hb i (by omega) h2

/-! ### Appending -/

theorem pushCap_gt (t : Traits α) (z : Nat) : z < pushCap t z := by
  unfold pushCap
  split
  · omega
  · split
    · omega
    · split <;> omega

theorem pushCap_le (t : Traits α) (z : Nat) (hz : z ≠ 0) : pushCap t z ≤ z * 2 := by
  unfold pushCap
  rw [if_neg hz]
  split
  · omega
  · split <;> omega

theorem pushCap_bytes {t : Traits α} {z : Nat} (hs : t.size < 2 ^ 63) (hz : z * t.size < 2 ^ 63) :
    pushCap t z * t.size < 2 ^ 64 := by
  by_cases h : z = 0
  · subst h
    unfold pushCap
    rw [if_pos rfl]
    by_cases h1 : 64 / t.size ≤ 1
    · rw [Nat.max_eq_right h1]; omega
    · rw [Nat.max_eq_left (by omega)]
      have := Nat.div_mul_le_self 64 t.size
      omega
  · have := Nat.mul_le_mul_right t.size (pushCap_le t z h)
    have e : z * 2 * t.size = 2 * (z * t.size) := by ac_rfl
    omega

theorem Reads.fresh {s s1 : St α} {x : Src α} {a : α} {cap : Nat} (h : Reads s x a) (hf : Fresh s s1 cap)
    (hfr : ∀ p, s.next ≤ p → s.len p = none) : Reads s1 x a := by
  cases x with
  | val b => exact h
  | ref p i =>
    obtain ⟨q, h1, ⟨m, h2, h3⟩, h4⟩ := h
    have hq : q ≠ s.next := fun e => by
      rw [e, hfr s.next (Nat.le_refl _)] at h2; cases h2
    exact ⟨q, h1, ⟨m, by rw [hf.len, if_neg hq]; exact h2, h3⟩, by rw [hf.mem q hq]; exact h4⟩

theorem emplaceBackAux_ok {t : Traits α} {s : St α} {l : List α} {x : Src α} {a : α} {B : Prop}
    (g : Good t s l) (hx : Reads s x a) (hs : 0 < t.size) (hs' : t.size < 2 ^ 63)
    (hfull : s.vec.e = s.vec.z) (hB : 2 ^ 63 ≤ pushCap t s.vec.z * t.size → B) :
    wp (emplaceBackAux t x) s
      (fun _ s' => Good t s' (l ++ [a]) ∧ Rel s s' ∧ s'.vec.z = pushCap t s.vec.z)
      (fun x s' => Bad t s B (Semi t l) x s' ∧ s'.vec = s.vec) := by
  unfold emplaceBackAux
  rw [wp_bind, wp_self]
  have hn := pushCap_bytes (t := t) hs' g.bytes
  have hgt := pushCap_gt t s.vec.z
  simp only [capOf_eq hs hn]
  generalize hcap : pushCap t s.vec.z = cap at *
  rw [wp_bind]
  have hsz := g.size
  refine wp_alloc hs hn (fun s1 hbytes h1 h2 h3 h4 => ?_) (fun s1 x hx hr h1 => alloc_bad g (fun e => hB (hx e)) hr h1)
  have hf : Fresh s s1 cap := ⟨⟨h1, h2, h3⟩, fun q hq i => by rw [h4, if_neg hq]⟩
  have hraw : ∀ i, s1.mem s.next i = none := fun i => by rw [h4, if_pos rfl]
  have hx1 := hx.fresh hf g.fresh
  rw [wp_bind, wp_guarded]
  have hfin : ∀ s2, Alloc s s2 cap →
      (∀ r i, r < s.next → s.vec.b ≠ some r → s2.mem r i = s.mem r i) →
      (t.bits = false → ∀ q i, s.vec.b = some q → i < s.vec.z → s2.mem q i = none) →
      (∀ i, i < cap → s2.mem s.next i = (l ++ [a])[i]?) →
      wp (if s.vec.b.isSome = true then do dealloc t s.vec.b s.vec.e; setVec ⟨some s.next, s.vec.e + 1, cap⟩
          else setVec ⟨some s.next, s.vec.e + 1, cap⟩) s2
        (fun _ s' => Good t s' (l ++ [a]) ∧ Rel s s' ∧ s'.vec.z = cap)
        (fun x s' => Bad t s B (Semi t l) x s' ∧ s'.vec = s.vec) := by
    intro s2 ha hfr hold hnew
    have hl : s.vec.e + 1 = (l ++ [a]).length := by simp [hsz]
    have hlc : (l ++ [a]).length ≤ cap := by omega
    rw [hl]
    exact retire g ha hfull hlc hbytes hfr hold (fun i hi => by rw [Nat.zero_add]; exact hnew i (by omega))
      (fun _ i h1 h2 => by rw [hnew i h2, List.getElem?_eq_none h1]) (fun s' h1 h2 h3 => ⟨h1, h2, h3⟩)
  cases hb : t.bits with
  | true =>
    simp only [if_true]
    rw [wp_bind]
    -- the elements are copied, then the new one is built
    have hbuild : ∀ s2, Fresh s s2 cap → (∀ i, s2.mem s.next i = l[i]?) → Reads s2 x a →
        wp (build t (some s.next) s.vec.e x) s2
          (fun _ s' => wp (if s.vec.b.isSome = true then do dealloc t s.vec.b s.vec.e; setVec ⟨some s.next, s.vec.e + 1, cap⟩
            else setVec ⟨some s.next, s.vec.e + 1, cap⟩) s'
              (fun _ s' => Good t s' (l ++ [a]) ∧ Rel s s' ∧ s'.vec.z = cap)
              (fun x s' => Bad t s B (Semi t l) x s' ∧ s'.vec = s.vec))
          (fun x s' => wp (dealloc t (some s.next) cap) s'
            (fun _ s'' => Bad t s B (Semi t l) x s'' ∧ s''.vec = s.vec) (fun _ _ => False)) := by
      intro s2 hf2 hm hr
      refine wp_build hr (hf2.room (by omega)) (fun h => by rw [hb] at h; cases h) (fun s3 hu => ?_)
        (fun s3 h => by rw [hb] at h; cases h)
      refine hfin s3 (Upd.alloc hf2.toAlloc hu) (fun r i hr hne => ?_) (fun h => by rw [hb] at h; cases h) (fun i hi => ?_)
      · rw [hu.1]; unfold update
        rw [if_neg (by omega), hf2.mem r (by omega)]
      · rw [hu.1]; unfold update
        by_cases h : i = l.length
        · rw [if_pos ⟨rfl, by omega⟩, h]; simp
        · rw [if_neg (by omega), hm i]
          by_cases h' : i < l.length
          · rw [List.getElem?_append_left h']
          · rw [List.getElem?_eq_none (by omega), List.getElem?_eq_none (by simp; omega)]
    rcases g.mine with ⟨e1, e2⟩ | ⟨q, h⟩
    · rw [e1] at hbuild ⊢
      refine wp_relocateMove_zero (hbuild s1 hf (fun i => ?_) hx1)
      rw [hraw, e2]; simp
    · have hm := h.fresh hf
      rw [h.b, h.e]
      rw [h.b, h.e] at hbuild
      refine wp_relocateMove hm.1.has ⟨_, hm.1.len, by have := hm.1.z; omega⟩ (hf.room (by omega))
        (fun h => by rw [hb] at h; cases h) (fun e => absurd e.symm hm.2) (fun s2 bs e1 e2 e3 hu => ?_)
        (fun s2 bs h => by rw [hb] at h; cases h)
      rw [e2 hb, blit_self hm.1.has] at hu
      have hf2 : Fresh s s2 cap := hf.upd hu fun r hr i => by unfold blit; rw [if_neg (by tauto)]
      refine hbuild s2 hf2 (fun i => ?_) (hx.fresh hf2 g.fresh)
      rw [hu.1]; unfold blit
      by_cases h' : i < l.length
      · rw [if_pos ⟨rfl, by omega, by omega⟩]; simp
      · rw [if_neg (by omega), hraw, List.getElem?_eq_none (by omega)]
  | false =>
    simp only [Bool.false_eq_true, if_false]
    rw [wp_bind]
    -- the new element is built, then the others are relocated
    refine wp_build hx1 (hf.room (by omega)) (fun _ => hraw _) (fun s2 hu => ?_) (fun s2 _ hu => ?_)
    · have hf2 : Fresh s s2 cap := hf.upd hu fun r hr i => by unfold update; rw [if_neg (by tauto)]
      have hm2 : ∀ i, s2.mem s.next i = if i = s.vec.e then some a else none := fun i => by
        rw [hu.1]; unfold update; simp only [true_and, hraw]
      rw [wp_guarded]
      refine wp_relocate (g.relocates hf2) (hf2.room (by omega)) (fun _ i hi => by rw [hm2, if_neg (by omega)])
        (fun s3 hu3 => ?_) (fun s3 q bs e1 e2 e3 e4 e5 e6 => ?_)
      · refine hfin s3 (Upd.alloc hf2.toAlloc hu3) (fun r i hr hne => ?_) (fun hb q i hq hi => ?_) (fun i hi => ?_)
        · rw [hu3.1]; exact relocated_other hf2 r i hr hne
        · rw [hu3.1]; exact relocated_old g hf2 hb q i hq hi
        · rw [hu3.1, relocated_new g hf2]
          by_cases h' : i < l.length
          · rw [if_pos h', List.getElem?_append_left h']
          · rw [if_neg h', hm2, List.getElem?_append_right (by omega)]
            by_cases h2 : i = l.length
            · rw [if_pos (by omega), h2]; simp
            · rw [if_neg (by omega), List.getElem?_eq_none (by simp; omega)]
      · rw [hf2.vec] at e1
        have hqn := g.lt e1
        have hcell : ∀ i, s3.mem s.next i = if i = s.vec.e then some a else none := fun i => by
          rw [e6.1]; unfold blit; rw [if_neg (by omega)]; exact hm2 i
        refine wp_destroy ⟨cap, by rw [e6.2.1, hf2.len, if_pos rfl], by omega⟩ (fun _ => by rw [hcell, if_pos rfl]; rfl) ?_
        simp only [hb, Bool.false_eq_true, if_false]
        have ha := Upd.alloc hf2.toAlloc e6
        refine relocate_abandon rfl g (cap := cap) ⟨ha.next, ha.vec, ha.len⟩ e1 e2 e3 e4 e5 (fun r i hr => ?_) (fun i _ => ?_)
        · simp only [clr]
          rw [if_neg (by tauto), e6.1]
          exact blit_congr (hf2.mem r hr i)
        · simp only [clr]
          split
          · rfl
          · rw [hcell, if_neg (by grind)]
    · refine abandon (l' := l) g (Upd.alloc hf.toAlloc hu) (fun r i hr _ => ?_) rfl (fun q hq => ?_) (fun _ i _ => ?_) ?_
      · rw [hu.1, hf.mem r (by omega)]
      · have hqn := g.lt hq
        rcases g.mine with ⟨e1, e2⟩ | ⟨q', h⟩
        · rw [e1] at hq; cases hq
        · have := h.b; rw [hq] at this; injection this with this; subst this
          exact ⟨fun i hi => by rw [hu.1, hf.mem q (by omega)]; exact h.has i hi,
            fun i _ => by rw [hu.1, hf.mem q (by omega)]⟩
      · rw [hu.1, hraw]
      · intro s' e1 e2 e3
        exact ⟨⟨by simp, by simp, e2, l, ⟨rfl, fun _ => rfl⟩, e1⟩, e3⟩

theorem pushBack_ok {t : Traits α} {s : St α} {l : List α} {x : Src α} {a : α} {B : Prop}
    (g : Good t s l) (hx : Stable s x a) (hs : 0 < t.size) (hs' : t.size < 2 ^ 63)
    (hB : s.vec.e = s.vec.z → 2 ^ 63 ≤ pushCap t s.vec.z * t.size → B) :
    wp (pushBack t x) s
      (fun _ s' => Good t s' (l ++ [a]) ∧ Rel s s' ∧
        s'.vec.z = if s.vec.e = s.vec.z then pushCap t s.vec.z else s.vec.z)
      (fun x s' => Bad t s B (Semi t l) x s' ∧ s'.vec = s.vec) := by
  unfold pushBack
  rw [wp_bind, wp_self]
  by_cases h : s.vec.e = s.vec.z
  case neg =>
    rw [if_pos (show s.vec.e ≠ s.vec.z from h), if_neg h]
    have hz := g.cap
    have hsz := g.size
    have := appendE_ok (t := t) (xs := [x]) (as := [a])
      (Q := fun _ s' => Good t s' (l ++ [a]) ∧ Rel s s' ∧
        s'.vec.z = s.vec.z)
      (E := fun x s' => Bad t s B (Semi t l) x s' ∧ s'.vec = s.vec) g (.cons hx .nil) (by simp; omega)
      (fun s' h1 h2 h3 _ => ⟨h1, h2, h3⟩) (fun s' _ hu => alloc_bad g (by simp) (by simp) hu)
    unfold appendE buildLoop buildLoop at this
    rw [wp_bind, wp_self, wp_bind, wp_bind, wp_guarded] at this
    rw [wp_bind]
    rcases g.mine with ⟨e1, _⟩ | ⟨q, hm⟩
    · rw [e1] at h; exact absurd rfl h
    · refine wp_mono this (fun _ s' h => h) (fun x s' h => ?_)
      unfold destroyRange at h
      rw [if_pos (by omega), Nat.add_zero, Nat.sub_self] at h
      exact h
  case pos =>
    rw [if_neg (show ¬ (s.vec.e ≠ s.vec.z) from fun hc => hc h), if_pos h]
    exact emplaceBackAux_ok g hx.1 hs hs' (by omega) (hB h)

end Gtl.Vec
