import Verif.Vec.Ops5
/-
What `do_real_insert` and the operations that use it do.
-/
namespace Gtl.Vec
open M
variable {α β γ : Type}

/-- `construct` builds `as` at `pos` of any block, whenever the values can be read (`R`); it may
change the contents of block `X`. `destroyNew` undoes this. -/
structure Builds (t : Traits α) (X : Option Nat) (as : List α) (pos : Nat) (R : St α → Nat → Prop)
    (construct destroyNew : Option Nat → Nat → M α Unit) : Prop where
  build : ∀ s1 p, R s1 p → Room s1 p (pos + as.length) →
    (t.bits = false → ∀ i, pos ≤ i → i < pos + as.length → s1.mem p i = none) →
    wp (construct (some p) pos) s1
      (fun _ s2 => ∃ m, Upd s1 s2 (blit m p pos as) ∧ ∀ r i, Alike X r (s1.mem r i) (m r i))
      (fun x s2 => x = .failed ∧ ∃ m, Upd s1 s2 m ∧ ∀ r i, Alike X r (s1.mem r i) (m r i))
  undo : ∀ s1 p (Q : Unit → St α → Prop) (E : Exc → St α → Prop), Room s1 p (pos + as.length) →
    (t.bits = false → ∀ i, pos ≤ i → i < pos + as.length → (s1.mem p i).isSome) →
    Q () { s1 with mem := gone t s1.mem p pos as.length } → wp (destroyNew (some p) pos) s1 Q E

/-- What an insertion that throws leaves. -/
def Kept (t : Traits α) (s : St α) (l : List α) (pos n : Nat) (l' : List α) : Prop :=
  (pos = l.length ∨ s.vec.z < l.length + n → Semi t l l') ∧ (Safe t → l'.take pos = l.take pos)

theorem Kept.semi {t : Traits α} {s : St α} {l l' : List α} {pos n : Nat} (h : Semi t l l') : Kept t s l pos n l' :=
  ⟨fun _ => h, fun hs => by rw [h.2 hs]⟩

theorem wp_if_tail {c : Prop} [Decidable c] {a b : M α Unit} {s : St α} {r : β} {Q : β → St α → Prop} {E : Exc → St α → Prop}
    (h : wp (if c then do a; b else b) s (fun _ s' => Q r s') E) :
    wp (if c then do a; b; (Pure.pure r : M α β) else do b; (Pure.pure r : M α β)) s Q E := by
  split
  · rename_i hc
    rw [if_pos hc, wp_bind] at h
    rw [wp_bind]
    refine wp_mono h (fun _ s1 h => ?_) (fun _ _ h => h)
    rw [wp_bind]
    exact h
  · rename_i hc
    rw [if_neg hc] at h
    rw [wp_bind]
    exact h

/-- Inserting into a new block. -/
theorem insertFresh_ok {t : Traits α} {s s1 : St α} {l as : List α} {pos cap : Nat} {X : Option Nat} {B : Prop}
    {R : St α → Nat → Prop} {construct destroyNew : Option Nat → Nat → M α Unit}
    (g : Good t s l) (hf : Fresh s s1 cap) (hraw1 : ∀ i, s1.mem s.next i = none) (hpos : pos ≤ l.length) (hn : as.length ≠ 0)
    (hcap : l.length + as.length ≤ cap) (hbytes : cap * t.size < 2 ^ 63)
    (hX : ∀ x, X = some x → x < s.next ∧ s.vec.b ≠ some x) (hb : Builds t X as pos R construct destroyNew)
    (hR : R s1 s.next) :
    wp (do
      guarded (construct (some s.next) pos) (dealloc t (some s.next) cap)
      guarded (wrapFrame t (some s.next) pos as.length)
        (do destroyNew (some s.next) pos
            dealloc t (some s.next) cap)
      if s.vec.b.isSome then dealloc t s.vec.b s.vec.z
      setVec ⟨some s.next, s.vec.e + as.length, cap⟩
      return pos) s1
      (fun r s' => r = pos ∧ Good t s' (l.take pos ++ as ++ l.drop pos) ∧ RelX X s s')
      (BadX X t s B (Semi t l)) := by
  have hXn : X ≠ some s.next := fun e => by have := (hX _ e).1; omega
  rw [wp_bind, wp_guarded]
  refine wp_mono (hb.build s1 s.next hR (hf.room (by omega)) (fun _ i _ _ => hraw1 i)) ?_ ?_
  · rintro _ s2 ⟨m, u2, hm⟩
    have a2 : Alloc s s2 cap := u2.alloc hf.toAlloc
    have hoth : ∀ r i, r ≠ s.next → Alike X r (s.mem r i) (s2.mem r i) := fun r i h1 => by
      rw [u2.1, blit_out (by omega), ← hf.mem r h1]; exact hm r i
    have hnew : ∀ (i : Nat), pos ≤ i → i < pos + as.length → s2.mem s.next i = as[i - pos]? := fun i h1 h2 => by
      rw [u2.1, blit_in h1 h2]
    have hraw : t.bits = false → ∀ i, i < pos ∨ pos + as.length ≤ i → i < cap → s2.mem s.next i = none := fun _ i h1 _ => by
      rw [u2.1, blit_out (by omega), (hm _ _).eq hXn, hraw1]
    clear u2
    rw [wp_bind, wp_guarded]
    refine wrapFrame_ok g a2 hpos hn hcap (fun x hx => (hX x hx).2) hoth hnew hraw (fun s5 a5 h1 h2 h3 h4 => ?_)
      (fun s5 l' a5 h1 h2 h3 h4 h5 => ?_)
    · have hlen : (l.take pos ++ as ++ l.drop pos).length = s.vec.e + as.length := by rw [g.size]; simp; omega
      rw [← hlen]
      refine wp_if_tail (retireX g a5 rfl (by rw [hlen, g.size]; omega) hbytes (fun r i e1 e2 => ?_) h3 h1
        (fun hbits i e1 e2 => h2 hbits i (by rw [hlen, g.size] at e1; omega) e2) (fun s6 g6 r6 _ => ⟨rfl, g6, r6⟩))
      rw [h4 r i (by omega) e2]; exact hoth r i (by omega)
    · rw [wp_bind]
      refine hb.undo s5 s.next _ _ ⟨cap, by rw [a5.len, if_pos rfl], by omega⟩ (fun _ i e1 e2 => ?_) ?_
      · rw [h4, hnew i e1 e2]; exact isSome_get (by omega)
      refine abandonX (X := X) (l' := l') g (cap := cap) ⟨a5.next, a5.vec, a5.len⟩ (fun r i e1 e2 => ?_) h1.1 (fun q hq => ?_) (fun _ i hi => ?_)
        (fun s6 g6 r6 _ => BadX.of r6 g6 h1)
      · dsimp only
        rw [gone_out (by omega), h5 r i (by omega) e2]; exact hoth r i (by omega)
      · have := g.lt hq
        constructor
        · intro i hi
          dsimp only
          rw [gone_out (by omega)]; exact (h3 q hq).1 i hi
        · intro i hi
          dsimp only
          rw [gone_out (by omega)]; exact (h3 q hq).2 i hi
      · dsimp only
        by_cases c : pos ≤ i ∧ i < pos + as.length
        · rw [gone_in h2 c.1 c.2]
        · rw [gone_out (by omega), h4]; exact hraw h2 i (by omega) hi
  · rintro x s2 ⟨rfl, m, u2, hm⟩
    refine abandonX (X := X) (l' := l) g (u2.alloc hf.toAlloc) (fun r i e1 e2 => ?_) rfl (fun q hq => ?_) (fun _ i hi => ?_)
      (fun s6 g6 r6 _ => BadX.of r6 g6 ⟨rfl, fun _ => rfl⟩)
    · rw [u2.1, ← hf.mem r (by omega)]; exact hm r i
    · have hlt := g.lt hq
      have e : ∀ i, s2.mem q i = s.mem q i := fun i => by
        rw [u2.1, (hm q i).eq (fun e => (hX q e).2 hq), hf.mem q (by omega)]
      refine ⟨fun i hi => ?_, fun i _ => e i⟩
      rw [e]
      rcases g.mine with ⟨h1, _⟩ | ⟨q', h⟩
      · rw [h1] at hq; cases hq
      · have := h.b
        rw [hq] at this
        injection this with this
        subst this
        exact h.has i hi
    · rw [u2.1, (hm _ _).eq hXn, hraw1]

/-- Inserting within the capacity, once there is a gap. -/
theorem insertGap_ok {t : Traits α} {s s1 : St α} {l as : List α} {pos q : Nat} {X : Option Nat} {B : Prop}
    {R : St α → Nat → Prop} {construct destroyNew : Option Nat → Nat → M α Unit}
    (g : Good t s l) (h : Mine t s l q) (hw : Win t s s1 l pos as.length q) (hpos : pos ≤ l.length)
    (hcap : l.length + as.length ≤ s.vec.z)
    (hX : ∀ x, X = some x → x < s.next ∧ s.vec.b ≠ some x) (hb : Builds t X as pos R construct destroyNew)
    (hR : R s1 q) :
    wp (do
      guarded (construct (some q) pos)
        (if !(pos == s.vec.e) then undoWindow t pos as.length
         else do
          let w ← self
          setVec { w with e := w.e - as.length })
      return pos) s1
      (fun r s' => r = pos ∧ Good t s' (l.take pos ++ as ++ l.drop pos) ∧ RelX X s s' ∧
        s'.vec.z = s.vec.z ∧ s'.vec.b = s.vec.b)
      (BadX X t s B (Kept t s l pos as.length)) := by
  have hXq : X ≠ some q := fun e => (hX q e).2 h.b
  have hlen1 : s1.len q = some s.vec.z := by rw [hw.len]; exact h.len
  rw [wp_bind, wp_guarded]
  refine wp_mono (hb.build s1 q hR ⟨_, hlen1, by omega⟩ hw.gap) ?_ ?_
  · rintro _ s2 ⟨m, u2, hm⟩
    rw [wp_pure]
    have hlen : (l.take pos ++ as ++ l.drop pos).length = l.length + as.length := by simp; omega
    have := h.innerX (X := X) (s' := s2) (l' := l.take pos ++ as ++ l.drop pos) g (u2.2.1.trans hw.len) (u2.2.2.1.trans hw.next)
      (by rw [u2.2.2.2, hw.vec, hlen]; dsimp only; rw [h.b]) (by omega) (fun r i hr => ?_) (fun i hi => ?_) (fun hbits i h1 h2 => ?_)
    · exact ⟨rfl, this.1, this.2, by rw [u2.2.2.2, hw.vec], by rw [u2.2.2.2, hw.vec, h.b]⟩
    · rw [u2.1, blit_out (by omega), ← hw.other r i hr]; exact hm r i
    · rw [hlen] at hi
      rw [Nat.zero_add, u2.1]
      by_cases c1 : i < pos
      · rw [blit_out (by omega), (hm _ _).eq hXq, hw.lo i c1, List.append_assoc, List.getElem?_append_left (by simp; omega), getElem?_take_lt c1]
      · by_cases c2 : i < pos + as.length
        · rw [blit_in (by omega) c2, List.getElem?_append_left (by simp; omega), List.getElem?_append_right (by simp; omega)]
          congr 1; simp; omega
        · rw [blit_out (by omega), (hm _ _).eq hXq, hw.hi i (by omega) hi, List.getElem?_append_right (by simp; omega), List.getElem?_drop]
          congr 1; simp; omega
    · rw [hlen] at h1
      rw [u2.1, blit_out (by omega), (hm _ _).eq hXq]; exact hw.raw hbits i h1 h2
  · rintro x s2 ⟨rfl, m, u2, hm⟩
    have hq2 : ∀ i, s2.mem q i = s1.mem q i := fun i => by rw [u2.1, (hm _ _).eq hXq]
    have hoth : ∀ r i, r ≠ q → Alike X r (s.mem r i) (s2.mem r i) := fun r i h1 => by
      rw [u2.1, ← hw.other r i h1]; exact hm r i
    have hlen2 : s2.len = s.len := u2.2.1.trans hw.len
    have hnext2 : s2.next = s.next := u2.2.2.1.trans hw.next
    have hvec2 : s2.vec = ⟨some q, l.length + as.length, s.vec.z⟩ := u2.2.2.2.trans hw.vec
    clear u2
    by_cases hc : pos = s.vec.e
    · rw [if_neg (by simp [hc]), wp_bind, wp_self, wp_setVec, hvec2]
      rw [g.size] at hc
      have := h.innerX (X := X) (s' := { s2 with vec := ⟨some q, l.length + as.length - as.length, s.vec.z⟩ }) (l' := l) g hlen2 hnext2
        (by dsimp only; rw [h.b, Nat.add_sub_cancel]) h.z hoth (fun i hi => ?_) (fun hbits i h1 h2 => ?_)
      · exact BadX.of this.2 this.1 (Kept.semi ⟨rfl, fun _ => rfl⟩)
      · dsimp only
        rw [hq2, hw.lo _ (by omega), Nat.zero_add]
      · dsimp only
        rw [hq2]
        by_cases c : i < pos + as.length
        · exact hw.gap hbits i (by omega) c
        · exact hw.raw hbits i (by omega) h2
    · rw [if_pos (by simp [hc])]
      unfold undoWindow
      rw [wp_bind, wp_self, wp_bind, hvec2]
      rw [g.size] at hc
      dsimp only
      refine wp_destroyRange (by omega) ⟨_, by rw [hlen2]; exact h.len, by omega⟩ (fun _ i h1 h2 => ?_) ?_
      · rw [hq2, hw.hi i h1 h2]; exact isSome_get (by omega)
      rw [wp_setVec]
      have lt : (l.take pos).length = pos := by simp; omega
      have := h.innerX (X := X) (s' := { s2 with
          mem := gone t s2.mem q (pos + as.length) (l.length + as.length - (pos + as.length)), vec := ⟨some q, pos, s.vec.z⟩ })
        (l' := l.take pos) g hlen2 hnext2 (by dsimp only; rw [h.b, lt]) (by omega) (fun r i h1 => ?_) (fun i hi => ?_) (fun hbits i h1 h2 => ?_)
      · refine BadX.of this.2 this.1 ⟨fun h => ?_, fun _ => by rw [List.take_take, Nat.min_self]⟩
        omega
      · dsimp only
        rw [gone_out (by omega)]; exact hoth r i h1
      · rw [lt] at hi
        dsimp only
        rw [gone_out (by omega), hq2, hw.lo _ (by omega), Nat.zero_add, getElem?_take_lt hi]
      · rw [lt] at h1
        dsimp only
        by_cases c1 : i < pos + as.length
        · rw [gone_out (by omega), hq2]; exact hw.gap hbits i h1 c1
        · by_cases c2 : i < l.length + as.length
          · rw [gone_in hbits (by omega) (by omega)]
          · rw [gone_out (by omega), hq2]; exact hw.raw hbits i (by omega) h2

theorem insertCap_eq {t : Traits α} {s : St α} {l : List α} {n : Nat} (g : Good t s l) (hs : 0 < t.size) (hs' : t.size < 2 ^ 63)
    (hn : n * t.size < 2 ^ 63) : insertCap t s.vec n = max (pushCap t s.vec.z) (l.length + n) ∧
      max (pushCap t s.vec.z) (l.length + n) * t.size < 2 ^ 64 := by
  have h1 := pushCap_bytes (t := t) hs' g.bytes
  have h2 : (l.length + n) * t.size < 2 ^ 64 := by
    have := Nat.mul_le_mul_right t.size g.cap
    have := g.bytes
    rw [Nat.add_mul]; omega
  have h3 : max (pushCap t s.vec.z) (l.length + n) * t.size < 2 ^ 64 := by
    rcases Nat.le_total (pushCap t s.vec.z) (l.length + n) with h | h
    · rw [Nat.max_eq_right h]; exact h2
    · rw [Nat.max_eq_left h]; exact h1
  refine ⟨?_, h3⟩
  unfold insertCap
  rw [g.size, capOf_eq hs h3]

theorem doRealInsert_ok {t : Traits α} {s : St α} {l as : List α} {pos : Nat} {X : Option Nat} {internal : Bool}
    {insertInternal : M α Nat}
    {R : St α → Nat → Prop} {construct destroyNew : Option Nat → Nat → M α Unit}
    (g : Good t s l) (hs : 0 < t.size) (hs' : t.size < 2 ^ 63) (hpos : pos ≤ l.length) (hn : as.length * t.size < 2 ^ 63)
    (hX : ∀ x, X = some x → x < s.next ∧ s.vec.b ≠ some x) (hb : Builds t X as pos R construct destroyNew)
    (hfresh : ∀ s1 cap, Fresh s s1 cap → R s1 s.next)
    (hend : pos = l.length → ∀ s1 q, s.vec.b = some q → s1.mem = s.mem → s1.len = s.len → R s1 q)
    (hwin : pos ≠ l.length → internal = false → l.length + as.length ≤ s.vec.z → ∀ s1 q, s.vec.b = some q → s1.len = s.len →
      (∀ r i, r ≠ q → s1.mem r i = s.mem r i) → R s1 q)
    (hint : pos ≠ l.length → l.length + as.length ≤ s.vec.z → internal = true →
      wp insertInternal s
        (fun r s' => r = pos ∧ Good t s' (l.take pos ++ as ++ l.drop pos) ∧ RelX X s s' ∧
          (l.length + as.length ≤ s.vec.z → s'.vec.z = s.vec.z ∧ s'.vec.b = s.vec.b))
        (BadX X t s (Big t (l.length + as.length)) (Kept t s l pos as.length))) :
    wp (doRealInsert t pos as.length internal insertInternal construct destroyNew) s
      (fun r s' => r = pos ∧ Good t s' (l.take pos ++ as ++ l.drop pos) ∧ RelX X s s' ∧
        (l.length + as.length ≤ s.vec.z → s'.vec.z = s.vec.z ∧ s'.vec.b = s.vec.b))
      (BadX X t s (Big t (l.length + as.length)) (Kept t s l pos as.length)) := by
  unfold doRealInsert
  rw [wp_bind, wp_self]
  by_cases h0 : as.length = 0
  · rw [if_pos h0, wp_pure]
    have : as = [] := List.length_eq_zero_iff.mp h0
    subst this
    exact ⟨rfl, by simpa using g, RelX.of (Rel.refl' g), fun _ => ⟨rfl, rfl⟩⟩
  rw [if_neg h0]
  dsimp only
  have hsz := g.size
  have hzc := g.cap
  by_cases h1 : (!(pos == s.vec.e) && (!decide (s.vec.z < s.vec.e + as.length) && internal)) = true
  · rw [if_pos h1]
    simp only [Bool.and_eq_true, Bool.not_eq_true', beq_eq_false_iff_ne, ne_eq, decide_eq_false_iff_not] at h1
    exact hint (by omega) (by omega) h1.2.2
  rw [if_neg h1, if_neg (by omega)]
  by_cases hfr : s.vec.z < s.vec.e + as.length
  · rw [if_pos (by simpa using hfr)]
    obtain ⟨e1, e2⟩ := insertCap_eq (n := as.length) g hs hs' hn
    rw [e1]
    generalize hcap : max (pushCap t s.vec.z) (l.length + as.length) = cap at *
    rw [wp_bind]
    refine wp_alloc hs e2 (fun s1 hbytes h2 h3 h4 h5 => ?_) (fun x s1 h2 h3 h4 => ?_)
    · have hf : Fresh s s1 cap := ⟨⟨h2, h3, h4⟩, fun q hq i => by rw [h5, if_neg hq]⟩
      refine wp_mono (insertFresh_ok (B := Big t (l.length + as.length)) g hf (fun i => by rw [h5, if_pos rfl]) hpos h0 (by omega) hbytes hX hb (hfresh s1 cap hf)) ?_ ?_
      · rintro r s2 ⟨f1, f2, f3⟩
        exact ⟨f1, f2, f3, fun h => by omega⟩
      · rintro x s2 ⟨f1, f2, f3, l', f4, f5⟩
        exact ⟨f1, f2, f3, l', Kept.semi f4, f5⟩
    · have hp := pushCap_le' t s.vec.z
      refine ⟨fun e => Big.of (h2 e) (by omega), h3, RelX.of (Rel.upd g h4), l, Kept.semi ⟨rfl, fun _ => rfl⟩, g.upd h4⟩
  · rw [if_neg (by simpa using hfr)]
    have hblk : ∃ q, Mine t s l q := by
      rcases g.mine with ⟨e1, _⟩ | h
      · have : s.vec.z = 0 := by rw [e1]
        omega
      · exact h
    obtain ⟨q, h⟩ := hblk
    have hend' := fun s1 => insertGap_ok (t := t) (s := s) (s1 := s1) (l := l) (as := as) (pos := pos) (q := q) (X := X) (B := Big t (l.length + as.length))
      (R := R) (construct := construct) (destroyNew := destroyNew) g h
    by_cases hp : pos = s.vec.e
    · rw [if_neg (by simp [hp]), wp_bind, wp_setVec, h.b]
      refine wp_mono (hend' { s with vec := ⟨some q, s.vec.e + as.length, s.vec.z⟩ } ?_ hpos (by omega) hX hb
        (hend (by omega) _ q h.b rfl rfl)) ?_ (fun x s1 h => h)
      · refine ⟨rfl, rfl, by rw [hsz], fun _ _ _ => rfl, fun i hi => h.get (by omega), fun i h1 h2 => by omega,
          fun hbits i h1 h2 => h.raw hbits i (by omega) (by omega), fun hbits i h1 h2 => h.raw hbits i (by omega) h2⟩
      · rintro r s1 ⟨f1, f2, f3, f4⟩
        exact ⟨f1, f2, f3, fun _ => ⟨f4.1, f4.2.trans h.b⟩⟩
    · rw [if_pos (by simp [hp]), wp_bind, h.b]
      have hi : internal = false := by
        simp only [Bool.and_eq_true, Bool.not_eq_true', beq_eq_false_iff_ne, ne_eq, decide_eq_false_iff_not, not_and] at h1
        simpa using h1 hp hfr
      refine makeWindow_ok g h (by omega) (by omega) (by omega) (fun s1 hw => ?_) (fun s1 l' n1 hp' => ?_)
      · refine wp_mono (hend' s1 hw hpos (by omega) hX hb (hwin (by omega) hi (by omega) s1 q h.b hw.len hw.other)) ?_ (fun x s1 h => h)
        rintro r s1 ⟨f1, f2, f3, f4⟩
        exact ⟨f1, f2, f3, fun _ => ⟨f4.1, f4.2.trans h.b⟩⟩
      · exact BadX.of (RelX.of n1.rel) n1.good ⟨fun h => by omega, fun _ => hp'⟩

/-! ### The operations -/

/-- The values can be read, and are not where something is to be built. -/
def Readable (xs : List (Src α)) (as : List α) (pos : Nat) (s1 : St α) (p : Nat) : Prop :=
  List.Forall₂ (fun x a => Reads s1 x a ∧ ∀ q i, x = .ref (some q) i → ¬ (q = p ∧ pos ≤ i ∧ i < pos + xs.length)) xs as

theorem builds_loop {t : Traits α} {xs : List (Src α)} {as : List α} {pos : Nat} (hl : xs.length = as.length) :
    Builds t none as pos (Readable xs as pos) (fun b i => buildLoop t b i 0 xs)
      (fun b i => destroyRange t b i (i + as.length)) where
  build s1 p hR hr hc := by
    refine wp_buildLoop hR (by rw [hl]; exact hr) (by rw [hl]; exact hc) (fun s2 hu => ⟨s1.mem, hu, fun _ _ => Alike.refl⟩)
      (fun s2 _ hu => ⟨rfl, s1.mem, hu, fun _ _ => Alike.refl⟩)
  undo s1 p Q E hr hc h := by
    refine wp_destroyRange (by omega) hr hc ?_
    rw [Nat.add_sub_cancel_left]; exact h

theorem builds_one {t : Traits α} {x : Src α} {a : α} {pos : Nat} :
    Builds t none [a] pos (Readable [x] [a] pos) (fun b i => build t b i x) (fun b i => destroy t b i) where
  build s1 p hR hr hc := by
    cases hR with
    | cons h1 h2 =>
      refine wp_build h1.1 hr (fun hb => hc hb pos (Nat.le_refl _) (by simp)) (fun s2 hu => ⟨s1.mem, ?_, fun _ _ => Alike.refl⟩)
        (fun s2 _ hu => ⟨rfl, s1.mem, hu, fun _ _ => Alike.refl⟩)
      refine ⟨hu.1.trans ?_, hu.2⟩
      have := blit_snoc s1.mem p pos [] a
      rw [blit_nil] at this
      exact this
  undo s1 p Q E hr hc h := by
    exact wp_destroy hr (fun hb => hc hb pos (Nat.le_refl _) (by simp)) h

theorem Reads.old {t : Traits α} {s : St α} {l : List α} {x : Src α} {a : α} {q i : Nat} (g : Good t s l) (h : Reads s x a)
    (e : x = .ref (some q) i) : q < s.next := by
  subst e
  obtain ⟨q', e, ⟨m, h1, _⟩, _⟩ := h
  injection e with e
  subst e
  by_contra hc
  rw [g.fresh q (by omega)] at h1; cases h1

theorem readable_fresh {t : Traits α} {s s1 : St α} {l as : List α} {xs : List (Src α)} {pos cap : Nat} (g : Good t s l)
    (h : List.Forall₂ (Stable s) xs as) (hf : Fresh s s1 cap) : Readable xs as pos s1 s.next :=
  h.imp fun x a hx => ⟨hx.1.fresh hf g.fresh, fun q i e hc => by have := hx.1.old g e; omega⟩

theorem readable_end {t : Traits α} {s s1 : St α} {l as : List α} {xs : List (Src α)} {q : Nat} (g : Good t s l)
    (h : List.Forall₂ (Stable s) xs as) (hq : s.vec.b = some q) (hm : s1.mem = s.mem) (hl : s1.len = s.len) :
    Readable xs as l.length s1 q :=
  h.imp fun x a hx => ⟨hx.1.congr hm hl, fun q' i e hc => by
    have := hx.2 q' i e (by rw [hc.1]; exact hq)
    rw [g.size] at this; omega⟩

theorem readable_win {s s1 : St α} {as : List α} {xs : List (Src α)} {pos q : Nat}
    (h : List.Forall₂ (Outside s) xs as) (hq : s.vec.b = some q) (hl : s1.len = s.len)
    (hm : ∀ r i, r ≠ q → s1.mem r i = s.mem r i) : Readable xs as pos s1 q := by
  refine h.imp fun x a hx => ⟨?_, fun q' i e hc => hx.2 q' i e (by rw [hc.1]; exact hq)⟩
  cases x with
  | val b => exact hx.1
  | ref p i =>
    obtain ⟨⟨r, rfl, ⟨m, h1, h2⟩, h3⟩, h4⟩ := hx
    have hr : r ≠ q := fun e => h4 r i rfl (by rw [e]; exact hq)
    exact ⟨r, rfl, ⟨m, by rw [hl]; exact h1, h2⟩, by rw [hm r i hr]; exact h3⟩

theorem badX_none {t : Traits α} {s s' : St α} {B : Prop} {P : List α → Prop} {x : Exc} (h : BadX none t s B P x s') :
    Bad t s B P x s' := h

/-- The result of a successful insertion. -/
def Inserted (t : Traits α) (s : St α) (l as : List α) (pos : Nat) (r : Nat) (s' : St α) : Prop :=
  r = pos ∧ Good t s' (l.take pos ++ as ++ l.drop pos) ∧ Rel s s' ∧
    (l.length + as.length ≤ s.vec.z → s'.vec.z = s.vec.z ∧ s'.vec.b = s.vec.b)

theorem emplace_ok {t : Traits α} {s : St α} {l : List α} {pos : Nat} {x : Src α} {a : α} (g : Good t s l) (hs : 0 < t.size)
    (hs' : t.size < 2 ^ 63) (hpos : pos ≤ l.length) (hx : Stable s x a)
    (hout : pos = l.length ∨ s.vec.z = l.length ∨ isInternal s.vec x = false) :
    wp (emplace t pos x) s (Inserted t s l [a] pos) (Bad t s (Big t (l.length + 1)) (Kept t s l pos 1)) := by
  unfold emplace
  refine doRealInsert_ok (as := [a]) (X := none) (R := Readable [x] [a] pos) g hs hs' hpos (by simpa using hs') (fun x h => by cases h) builds_one
    (fun s1 cap hf => readable_fresh g (.cons hx .nil) hf)
    (fun e s1 q hq hm hl => e ▸ readable_end g (.cons hx .nil) hq hm hl)
    (fun hne _ hcap s1 q hq hl hm => readable_win (.cons (hx.outside ?_) .nil) hq hl hm) (fun _ _ h => by cases h)
  rcases hout with h | h | h
  · exact absurd h hne
  · simp only [List.length_singleton] at hcap; omega
  · exact h

theorem insertForward_ok {t : Traits α} {s : St α} {l as : List α} {pos : Nat} {xs : List (Src α)} (g : Good t s l) (hs : 0 < t.size)
    (hs' : t.size < 2 ^ 63) (hpos : pos ≤ l.length) (hn : xs.length * t.size < 2 ^ 63) (hf : List.Forall₂ (Outside s) xs as) :
    wp (insertForward t pos xs) s (Inserted t s l as pos) (Bad t s (Big t (l.length + as.length)) (Kept t s l pos as.length)) := by
  have hl := hf.length_eq
  unfold insertForward
  rw [hl]
  exact doRealInsert_ok (X := none) (R := Readable xs as pos) g hs hs' hpos (by rw [← hl]; exact hn) (fun x h => by cases h) (builds_loop hl)
    (fun s1 cap h => readable_fresh g (Outside.stables hf) h)
    (fun e s1 q hq hm hl => e ▸ readable_end g (Outside.stables hf) hq hm hl)
    (fun _ _ _ s1 q hq hl hm => readable_win hf hq hl hm) (fun _ _ h => by cases h)

theorem Inserted.after {t : Traits α} {s s1 s' : St α} {l as : List α} {pos r : Nat} (g : Good t s l) (hu : Upd s s1 s.mem)
    (h : Inserted t s1 l as pos r s') : Inserted t s l as pos r s' := by
  obtain ⟨h1, h2, h3, h4⟩ := h
  refine ⟨h1, h2, (Rel.upd g hu).trans g h3, ?_⟩
  rw [hu.2.2.2] at h4; exact h4

theorem Kept.after {t : Traits α} {s s1 s' : St α} {l : List α} {pos n : Nat} {B : Prop} {x : Exc} (g : Good t s l)
    (hu : Upd s s1 s.mem) (h : Bad t s1 B (Kept t s1 l pos n) x s') : Bad t s B (Kept t s l pos n) x s' := by
  have := h.after g (Rel.upd g hu)
  unfold Kept at *
  rw [hu.2.2.2] at this
  exact this

theorem insertOne_ok {t : Traits α} {s : St α} {l : List α} {pos : Nat} {x : Src α} {a : α} (g : Good t s l) (hs : 0 < t.size)
    (hs' : t.size < 2 ^ 63) (hpos : pos ≤ l.length) (hx : Stable s x a) :
    wp (insertOne t pos x) s (Inserted t s l [a] pos) (Bad t s (Big t (l.length + 1)) (Kept t s l pos 1)) := by
  unfold insertOne
  rw [wp_bind, wp_self]
  refine doRealInsert_ok (as := [a]) (X := none) (R := Readable [x] [a] pos) g hs hs' hpos (by simpa using hs') (fun x h => by cases h) builds_one
    (fun s1 cap hf => readable_fresh g (.cons hx .nil) hf)
    (fun e s1 q hq hm hl => e ▸ readable_end g (.cons hx .nil) hq hm hl)
    (fun hne hi _ s1 q hq hl hm => readable_win (.cons (hx.outside hi) .nil) hq hl hm) (fun h1 h2 h3 => ?_)
  rw [wp_bind]
  refine copyOf_ok hx.1 (fun s1 hu => ?_) (fun s1 hu => Bad.upd g hu (Kept.semi ⟨rfl, fun _ => rfl⟩))
  refine wp_mono (doRealInsert_ok (as := [a]) (X := none) (R := Readable [.val a] [a] pos) (g.upd hu) hs hs' hpos (by simpa using hs')
    (fun x h => by cases h) builds_one (fun s1 cap hf => readable_fresh (g.upd hu) (.cons Stable.val .nil) hf)
    (fun e s1 q hq hm hl => e ▸ readable_end (g.upd hu) (.cons Stable.val .nil) hq hm hl)
    (fun _ _ _ s1 q hq hl hm => readable_win (.cons Outside.val .nil) hq hl hm) (fun _ _ h => by cases h))
    (fun r s2 h => Inserted.after g hu h) (fun x s2 h => Kept.after g hu h)

theorem insertFill_ok {t : Traits α} {s : St α} {l : List α} {pos n : Nat} {x : Src α} {a : α} (g : Good t s l) (hs : 0 < t.size)
    (hs' : t.size < 2 ^ 63) (hpos : pos ≤ l.length) (hn : n * t.size < 2 ^ 63) (hx : Stable s x a) :
    wp (insertFill t pos n x) s (Inserted t s l (List.replicate n a) pos)
      (Bad t s (Big t (l.length + n)) (Kept t s l pos n)) := by
  unfold insertFill
  rw [wp_bind]
  refine asVT_ok hx fun x' hx' _ => ?_
  rw [wp_bind, wp_self]
  have hlen : (List.replicate n a).length = n := by simp
  have hfx : ∀ {s : St α} {y : Src α} {R : St α → Src α → α → Prop}, R s y a →
      List.Forall₂ (R s) (List.replicate n y) (List.replicate n a) := fun h => Forall₂_replicate h n
  have H := doRealInsert_ok (as := List.replicate n a) (X := none) (R := Readable (List.replicate n x') (List.replicate n a) pos)
    (internal := isInternal s.vec x') (insertInternal := do
      let temp ← copyOf t x'
      doRealInsert t pos n false ub (fun b i => buildLoop t b i 0 (List.replicate n temp))
        (fun b i => destroyRange t b i (i + n)))
    g hs hs' hpos (by rw [hlen]; exact hn)
    (fun x h => by cases h) (builds_loop (by simp))
    (fun s1 cap hf => readable_fresh g (Forall₂_replicate hx' n) hf)
    (fun e s1 q hq hm hl => e ▸ readable_end g (Forall₂_replicate hx' n) hq hm hl)
    (fun hne hi _ s1 q hq hl hm => readable_win (Forall₂_replicate (hx'.outside hi) n) hq hl hm) (fun h1 h2 h3 => ?_)
  · unfold Inserted
    rw [hlen] at H ⊢
    exact H
  rw [wp_bind]
  refine copyOf_ok hx'.1 (fun s1 hu => ?_) (fun s1 hu => Bad.upd g hu (Kept.semi ⟨rfl, fun _ => rfl⟩))
  have H := doRealInsert_ok (as := List.replicate n a) (X := none) (R := Readable (List.replicate n (.val a)) (List.replicate n a) pos)
    (internal := false) (insertInternal := ub) (g.upd hu) hs hs' hpos (by rw [hlen]; exact hn)
    (fun x h => by cases h) (builds_loop (by simp)) (fun s1 cap hf => readable_fresh (g.upd hu) (Forall₂_replicate Stable.val n) hf)
    (fun e s1 q hq hm hl => e ▸ readable_end (g.upd hu) (Forall₂_replicate Stable.val n) hq hm hl)
    (fun _ _ _ s1 q hq hl hm => readable_win (Forall₂_replicate Outside.val n) hq hl hm) (fun _ _ h => by cases h)
  refine wp_mono ?_ (fun r s2 h => Inserted.after (s1 := s1) g hu h) (fun x s2 h => Kept.after (s1 := s1) g hu h)
  unfold Inserted
  rw [hlen] at H ⊢
  exact H

end Gtl.Vec
