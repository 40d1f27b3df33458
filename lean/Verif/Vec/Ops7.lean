import Verif.Vec.Ops6
/-
Insertion from input iterators, copies of vectors and constructors.
-/
namespace Gtl.Vec
open M
variable {α β γ : Type}

/-! ### Insertion from input iterators -/

theorem Has.isSome {s : St α} {p i : Nat} {as : List α} (h : Has s p 0 as) (hi : i < as.length) : (s.mem p i).isSome := by
  have := h i hi
  rw [Nat.zero_add] at this
  rw [this]; exact isSome_get hi

theorem builds_moved {t : Traits α} {as : List α} {pos x : Nat} :
    Builds t (some x) as pos (fun s1 p => Has s1 x 0 as ∧ Room s1 x as.length ∧ p ≠ x)
      (fun b i => uninitMove t b i (some x) 0 as.length) (fun b i => destroyRange t b i (i + as.length)) where
  build s1 p hR hr hc := by
    obtain ⟨h1, h2, h3⟩ := hR
    have hal : ∀ bs : List α, bs.length = as.length → ∀ r i, Alike (some x) r (s1.mem r i) (blit s1.mem x 0 bs r i) := by
      intro bs hbs r i
      by_cases c : r = x ∧ i < as.length
      · obtain ⟨rfl, c⟩ := c
        rw [blit_in (by omega) (by omega)]
        exact .inr ⟨rfl, by rw [h1.isSome c]; exact isSome_get (by omega)⟩
      · rw [blit_out (by omega)]; exact Alike.refl
    refine wp_uninitMove h1 (by rw [Nat.zero_add]; exact h2) hr hc (fun e => absurd e h3)
      (fun s2 bs hl hu => ⟨_, hu, hal bs hl⟩) (fun s2 bs _ _ hl hu => ⟨rfl, _, hu, hal bs hl⟩)
  undo s1 p Q E hr hc h := by
    refine wp_destroyRange (by omega) hr hc ?_
    rw [Nat.add_sub_cancel_left]; exact h

theorem insertMoved_ok {t : Traits α} {s : St α} {l as : List α} {pos x : Nat} (g : Good t s l) (hs : 0 < t.size)
    (hs' : t.size < 2 ^ 63) (hpos : pos ≤ l.length) (hn : as.length * t.size < 2 ^ 63) (hx : x < s.next)
    (hb : s.vec.b ≠ some x) (hh : Has s x 0 as) (hr : Room s x as.length) :
    wp (insertMoved t pos (some x) as.length) s
      (fun r s' => r = pos ∧ Good t s' (l.take pos ++ as ++ l.drop pos) ∧ RelX (some x) s s' ∧
        (l.length + as.length ≤ s.vec.z → s'.vec.z = s.vec.z ∧ s'.vec.b = s.vec.b))
      (BadX (some x) t s (Big t (l.length + as.length)) (Kept t s l pos as.length)) := by
  unfold insertMoved
  refine doRealInsert_ok (X := some x) g hs hs' hpos hn (fun y h => by injection h with h; subst h; exact ⟨hx, hb⟩)
    builds_moved (fun s1 cap hf => ⟨fun i hi => ?_, ?_, by omega⟩)
    (fun _ s1 q hq hm hl => ⟨fun i hi => ?_, hr.congr hl, fun e => hb (e ▸ hq)⟩)
    (fun _ _ _ s1 q hq hl hm => ⟨fun i hi => ?_, hr.congr hl, fun e => hb (e ▸ hq)⟩) (fun _ _ h => by cases h)
  · rw [hf.mem x (by omega)]; exact hh i hi
  · obtain ⟨m, h1, h2⟩ := hr
    exact ⟨m, by rw [hf.len, if_neg (by omega)]; exact h1, h2⟩
  · rw [hm]; exact hh i hi
  · rw [hm x _ (fun e => hb (e ▸ hq))]; exact hh i hi

/-- The local vector is destroyed. -/
theorem storage_done {t : Traits α} {s s2 s3 : St α} {l l3 : List α} {n : Nat} {Q : Unit → St α → Prop} {E : Exc → St α → Prop}
    (g : Good t s l) (a : Alloc s s2 n)
    (hframe : ∀ r i, r < s.next → s.vec.b ≠ some r → s2.mem r i = s.mem r i)
    (hsome : ∀ i, i < n → (s2.mem s.next i).isSome) (r : RelX (some s.next) s2 s3) (g3 : Good t s3 l3)
    (hQ : ∀ s4, Good t s4 l3 → Rel s s4 → s4.vec = s3.vec → Q () s4) :
    wp (do
      destroyRange t (some s.next) 0 n
      dealloc t (some s.next) n) s3 Q E := by
  have hb : s2.vec.b ≠ some s.next := fun e => by
    rw [a.vec] at e
    have := g.lt e; omega
  have hb3 : s3.vec.b ≠ some s.next := fun e => by
    rcases r.own _ e with h | h
    · exact hb h
    · rw [a.next] at h; omega
  have hf := r.frameX s.next (by rw [a.next]; omega) hb
  have hlen : s3.len s.next = some n := by rw [hf.1, a.len, if_pos rfl]
  have hle := r.le
  rw [a.next] at hle
  rw [wp_bind]
  refine wp_destroyRange (Nat.zero_le _) ⟨_, hlen, Nat.le_refl _⟩ (fun _ i _ hi => by rw [(hf.2 i).some]; exact hsome i hi) ?_
  refine wp_dealloc hlen (fun hbits i hi => by dsimp only; rw [gone_in hbits (by omega) (by omega)]) (hQ _ ?_ ?_ rfl)
  · refine ⟨fun p hp => ?_, ?_⟩
    · dsimp only at hp ⊢
      rw [if_neg (by omega)]; exact g3.fresh p hp
    · rcases g3.body with h | ⟨p, e1, e2, e3, e4, e5, e6, e7, e8⟩
      · exact .inl h
      · have hp : p ≠ s.next := fun e => hb3 (e ▸ e1)
        refine .inr ⟨p, e1, e2, e3, ?_, e5, e6, fun i hi => ?_, fun hbits i h1 h2 => ?_⟩
        · dsimp only; rw [if_neg hp]; exact e4
        · dsimp only; rw [gone_out (by omega)]; exact e7 i hi
        · dsimp only at h2 ⊢; rw [gone_out (by omega)]; exact e8 hbits i h1 h2
  · refine ⟨by dsimp only; omega, fun p hp h => ?_, fun p hp h => ?_, fun p hp => ?_, fun p hp => ?_⟩
    · have h2 := r.frameX p (by rw [a.next]; omega) (by rw [a.vec]; exact h)
      dsimp only
      rw [if_neg (by omega)]
      refine ⟨by rw [h2.1, a.len, if_neg (by omega)], fun i => .inl ?_⟩
      rw [gone_out (by omega), (h2.2 i).eq (by simp; omega), hframe p i hp h]
    · dsimp only at h ⊢
      by_cases c : p = s.next
      · rw [if_pos c]
      · rw [if_neg c]; exact r.new p (by rw [a.next]; omega) h
    · have := g.lt hp
      dsimp only
      rw [if_neg (by omega)]
      exact r.old p (by rw [a.vec]; exact hp)
    · dsimp only at hp
      rcases r.own p hp with h | h
      · left; rw [← a.vec]; exact h
      · right; rw [a.next] at h; omega

theorem insertInput_ok {t : Traits α} {s : St α} {l as : List α} {pos : Nat} {xs : List (Src α)} (g : Good t s l) (hs : 0 < t.size)
    (hs' : t.size < 2 ^ 63) (hpos : pos ≤ l.length) (hf : List.Forall₂ (Outside s) xs as) :
    wp (insertInput t pos xs) s
      (fun r s' => r = pos ∧ Good t s' (l.take pos ++ as ++ l.drop pos) ∧ Rel s s')
      (Bad t s (Big t (l.length + as.length)) Any) := by
  have hsz := g.size
  have hlen := hf.length_eq
  unfold insertInput
  rw [wp_bind, wp_self, if_neg (by omega)]
  dsimp only
  by_cases h0 : s.vec.e - pos = 0
  · rw [if_pos h0, wp_bind]
    refine wp_mono (destroyRangeE_ok g hpos) ?_ (fun x s2 h => h)
    rintro _ s1 ⟨g1, r1, _⟩
    rw [wp_bind]
    refine wp_mono (pushAll_ok hs hs' xs g1 (Outside.all hf g r1)) ?_ (fun x s2 h => ?_)
    · rintro _ s2 ⟨g2, r2⟩
      rw [wp_pure, List.drop_of_length_le (by omega), List.append_nil]
      exact ⟨rfl, g2, r1.trans g r2⟩
    · exact (h.after g r1).mono (fun hb => hb.mono (by simp; omega)) fun _ h => h
  rw [if_neg h0]
  obtain ⟨q, h⟩ := g.block (i := pos) (by omega)
  have hq := h.lt
  have hzb := g.bytes
  have hz := g.cap
  have hnb : (s.vec.e - pos) * t.size < 2 ^ 63 := Nat.lt_of_le_of_lt (Nat.mul_le_mul_right _ (by omega)) hzb
  rw [capOf_eq hs (by omega), wp_bind]
  have ld : (l.drop pos).length = s.vec.e - pos := by simp; omega
  refine wp_alloc hs (by omega) (fun s1 _ h2 h3 h4 h5 => ?_) (fun s1 x h2 h3 h4 => ?_)
  · have a1 : Alloc s s1 (s.vec.e - pos) := ⟨h2, h3, h4⟩
    have hl1 : s1.len q = some s.vec.z := by rw [h4, if_neg (by omega)]; exact h.len
    have hm1 : ∀ i, s1.mem q i = s.mem q i := fun i => by rw [h5, if_neg (by omega)]
    rw [wp_bind, wp_guarded, h.b, ← ld]
    have hhas : Has s1 q pos (l.drop pos) := fun i hi => by
      rw [hm1, h.get (by omega), List.getElem?_drop]
    refine wp_uninitMove hhas ⟨_, hl1, by omega⟩ ⟨_, by rw [h4, if_pos rfl], by omega⟩ (fun _ i _ _ => by rw [h5, if_pos rfl])
      (fun e => by omega) (fun s2 bs hbs u2 => ?_) (fun s2 bs hb _ hbs u2 => ?_)
    · have a2 : Alloc s s2 (l.drop pos).length := by rw [ld]; exact u2.alloc a1
      have hoth : ∀ r i, r ≠ s.next → r ≠ q → s2.mem r i = s.mem r i := fun r i e1 e2 => by
        rw [u2.1, blit_out (by omega), blit_out (by omega), h5, if_neg e1]
      have hst : Has s2 s.next 0 (l.drop pos) := fun i hi => by
        rw [u2.1, blit_in (by omega) (by omega)]; congr 1; omega
      have lt : (l.take pos).length = pos := by simp; omega
      have m2 : Mine t s2 (l.take pos ++ bs) q := by
        refine ⟨by rw [a2.vec]; exact h.b, by rw [a2.vec]; simp; omega, by rw [a2.vec]; simp; omega, by rw [a2.vec, u2.2.1]; exact hl1,
          by rw [a2.next]; omega, fun i hi => ?_, fun hb i e1 e2 => ?_⟩
        · simp only [List.length_append, lt] at hi
          rw [Nat.zero_add, u2.1, blit_out (by omega)]
          by_cases c : i < pos
          · rw [blit_out (by omega), hm1, h.get (by omega), List.getElem?_append_left (by omega), getElem?_take_lt c]
          · rw [blit_in (by omega) (by omega), List.getElem?_append_right (by omega), lt]
        · simp only [List.length_append, lt] at e1
          rw [a2.vec] at e2
          rw [u2.1, blit_out (by omega), blit_out (by omega), hm1]; exact h.raw hb i (by omega) e2
      have g2 : Good t s2 (l.take pos ++ bs) := m2.good (fun p hp => by
        rw [a2.next] at hp
        rw [a2.len, if_neg (by omega)]; exact g.fresh p (by omega)) (by rw [a2.vec]; exact hzb)
      have hf2 : List.Forall₂ (Outside s2) xs as := by
        refine hf.imp fun x a hx => ?_
        cases x with
        | val b => exact ⟨hx.1, fun _ _ e => by cases e⟩
        | ref p i =>
          obtain ⟨⟨r, rfl, ⟨m, e1, e2⟩, e3⟩, e4⟩ := hx
          have hrq : r ≠ q := fun e => e4 r i rfl (by rw [e]; exact h.b)
          have hrn : r ≠ s.next := fun e => by
            rw [e, g.fresh _ (Nat.le_refl _)] at e1; cases e1
          refine Outside.ref (n := m) ?_ e2 ?_ ?_
          · rw [a2.len, if_neg hrn]; exact e1
          · rw [hoth r i hrn hrq]; exact e3
          · rw [a2.vec]; exact e4 r i rfl
      clear u2
      have hbn : s2.vec.b ≠ some s.next := fun e => by
        rw [a2.vec, h.b] at e; injection e with e; omega
      have hframe : ∀ r i, r < s.next → s.vec.b ≠ some r → s2.mem r i = s.mem r i := fun r i e1 e2 =>
        hoth r i (by omega) (fun e => e2 (by rw [e]; exact h.b))
      have hsome : ∀ i, i < (l.drop pos).length → (s2.mem s.next i).isSome := fun i hi => hst.isSome hi
      have fail : ∀ (x : Exc) (s3 : St α), BadX (some s.next) t s2 (Big t (l.length + as.length)) Any x s3 →
          wp (do
            destroyRange t (some s.next) 0 (l.drop pos).length
            dealloc t (some s.next) (l.drop pos).length) s3
            (fun _ s4 => Bad t s (Big t (l.length + as.length)) Any x s4) (fun _ _ => False) := by
        rintro x s3 ⟨e1, e2, e3, l', _, e4⟩
        exact storage_done g a2 hframe hsome e3 e4 (fun s4 g4 r4 _ => ⟨e1, e2, r4, l', trivial, g4⟩)
      rw [wp_bind, wp_finally, wp_bind]
      refine wp_mono (destroyRangeE_ok (n := pos) g2 (by simp; omega)) ?_ (fun x s3 h => h)
      rintro _ s3 ⟨g3, r3, _⟩
      have e3 : (l.take pos ++ bs).take pos = l.take pos := by
        rw [List.take_append_of_le_length (by omega), List.take_take, Nat.min_self]
      rw [e3] at g3
      rw [wp_bind]
      refine wp_mono (pushAll_ok hs hs' xs g3 (Outside.all hf2 g2 r3)) ?_ (fun x s4 h => ?_)
      · rintro _ s4 ⟨g4, r4⟩
        have r24 := r3.trans g2 r4
        rw [wp_bind, wp_self, g4.size, wp_bind]
        have hfr := r24.frame s.next (by rw [a2.next]; omega) hbn
        refine wp_mono (insertMoved_ok (x := s.next) (as := l.drop pos) g4 hs hs' (Nat.le_refl _) (by rw [ld]; exact hnb)
          (by have := r24.le; rw [a2.next] at this; omega) (fun e => ?_) (fun i hi => ?_) ⟨(l.drop pos).length, ?_, Nat.le_refl _⟩) ?_ (fun x s5 h => ?_)
        · rcases r24.own _ e with h | h
          · exact hbn h
          · rw [a2.next] at h; omega
        · rw [hfr.2]; exact hst i hi
        · rw [hfr.1, a2.len, if_pos rfl]
        · rintro r s5 ⟨_, g5, r5, _⟩
          rw [wp_pure]
          refine storage_done g a2 hframe hsome (RelX.trans g2 (RelX.of r24) r5) g5 (fun s6 g6 r6 _ => ⟨rfl, ?_, r6⟩)
          refine cast (congrArg (Good t s6) ?_) g6
          rw [List.take_length, List.drop_length, List.append_nil]
        · refine fail x s5 ?_
          obtain ⟨e1, e2, e3, l', _, e5⟩ := h
          refine ⟨fun hx => (e1 hx).mono ?_, e2, RelX.trans g2 (RelX.of r24) e3, l', trivial, e5⟩
          simp; omega
      · refine fail x s4 ?_
        obtain ⟨e1, e2, e3, l', _, e5⟩ := h
        refine ⟨fun hx => (e1 hx).mono ?_, e2, RelX.of (r3.trans g2 e3), l', trivial, e5⟩
        simp; omega
    · refine abandon (l' := l.take pos ++ bs) g (cap := (l.drop pos).length) (by rw [ld]; exact u2.alloc a1) (fun r i e1 e2 => ?_) (by simp; omega)
        (fun q' hq' => ?_) (fun _ i hi => ?_) (fun s3 g3 r3 _ => Bad.of r3 g3 trivial)
      · have : r ≠ q := fun e => e2 (by rw [e]; exact h.b)
        rw [u2.1, blit_out (by omega), h5, if_neg (by omega)]
      · rw [h.b] at hq'
        injection hq' with hq'
        subst hq'
        have lt : (l.take pos).length = pos := by simp; omega
        constructor
        · intro i hi
          simp only [List.length_append, lt] at hi
          rw [Nat.zero_add, u2.1]
          by_cases c : i < pos
          · rw [blit_out (by omega), hm1, h.get (by omega), List.getElem?_append_left (by omega), getElem?_take_lt c]
          · rw [blit_in (by omega) (by omega), List.getElem?_append_right (by omega), lt]
        · intro i hi
          rw [u2.1, blit_out (by omega), hm1]
      · rw [u2.1, blit_out (by omega), h5, if_pos rfl]
  · exact (alloc_bad g (fun e => Big.of (h2 e) (by omega)) h3 h4).1.mono id fun _ _ => trivial

/-! ### Other vectors -/

/-- A vector `o` other than the one worked on keeps its elements. -/
theorem Good.other {t : Traits α} {s s' : St α} {l' lo : List α} {o : Vec} (go : Good t { s with vec := o } lo)
    (hap : ∀ q, o.b = some q → s.vec.b ≠ some q) (r : Rel s s') (g' : Good t s' l') :
    Good t { s' with vec := o } lo ∧ ∀ q, o.b = some q → s'.vec.b ≠ some q := by
  refine ⟨⟨g'.fresh, ?_⟩, fun q hq hc => ?_⟩
  · rcases go.body with h | ⟨p, e1, e2, e3, e4, e5, e6, e7, e8⟩
    · exact .inl h
    · dsimp only at e1 e2 e3 e4 e5 e6 e8
      have hf := r.frame p e6 (hap p e1)
      refine .inr ⟨p, e1, e2, e3, by dsimp only; rw [hf.1]; exact e4, e5, ?_, fun i hi => ?_, fun hb i h1 h2 => ?_⟩
      · have := r.le; dsimp only; omega
      · dsimp only; rw [hf.2]; exact e7 i hi
      · dsimp only; rw [hf.2]; exact e8 hb i h1 h2
  · have hlt : q < s.next := go.lt hq
    rcases r.own q hc with h | h
    · exact hap q hq h
    · omega

theorem refs_outside {t : Traits α} {s : St α} {lo : List α} {o : Vec} (go : Good t { s with vec := o } lo)
    (hap : ∀ q, o.b = some q → s.vec.b ≠ some q) (j n : Nat) (hn : j + n ≤ lo.length) :
    List.Forall₂ (Outside s) (refs o.b j n) ((lo.drop j).take n) := by
  induction n generalizing j with
  | zero => simp [refs]
  | succ n ih =>
    have hj : j < lo.length := by omega
    rw [List.drop_eq_getElem_cons hj, List.take_succ_cons]
    unfold refs
    rw [List.range'_succ, List.map_cons]
    refine .cons ?_ (ih (j + 1) (by omega))
    obtain ⟨q, h⟩ := go.block hj
    have hb : o.b = some q := h.b
    rw [hb]
    have := h.z
    dsimp only at this
    refine Outside.ref h.len (by dsimp only; omega) ?_ (hap q hb)
    have := h.get hj
    rw [List.getElem?_eq_getElem hj] at this
    exact this

theorem appendCopyE_ok {t : Traits α} {s : St α} {l lo : List α} {o : Vec} {j n : Nat}
    {Q : Unit → St α → Prop} {E : Exc → St α → Prop}
    (g : Good t s l) (go : Good t { s with vec := o } lo) (hap : ∀ q, o.b = some q → s.vec.b ≠ some q) (hn : j + n ≤ lo.length)
    (hz : l.length + n ≤ s.vec.z)
    (hQ : ∀ s', Good t s' (l ++ (lo.drop j).take n) → Rel s s' → s'.vec.z = s.vec.z → s'.vec.b = s.vec.b → Q () s')
    (hE : ∀ s', t.bits = false → Upd s s' s.mem → E .failed s') : wp (appendCopyE t o.b j n) s Q E := by
  have hrl : (refs o.b j n : List (Src α)).length = n := by simp [refs]
  cases hb : t.bits with
  | false =>
    have e : (appendCopyE t o.b j n : M α Unit) = appendE t (refs o.b j n) := by
      unfold appendCopyE appendE uninitCopy
      rw [hb, hrl]; rfl
    rw [e]
    exact appendE_ok g (Outside.stables (refs_outside go hap j n hn)) (by rw [hrl]; exact hz) hQ (fun s' _ => hE s' hb)
  | true =>
    unfold appendCopyE uninitCopy
    rw [wp_bind, wp_self, wp_bind, hb, if_pos rfl]
    by_cases h0 : n = 0
    · subst h0
      rw [memcpy_zero, wp_pure, wp_setVec]
      rw [List.take_zero, List.append_nil] at hQ
      exact hQ s g (Rel.refl' g) rfl rfl
    · obtain ⟨q, h⟩ := go.block (i := j) (by omega)
      have hob : o.b = some q := h.b
      have hm : ∃ p, Mine t s l p := by
        rcases g.mine with ⟨e1, e2⟩ | h
        · rw [e1] at hz; dsimp only at hz; omega
        · exact h
      obtain ⟨p, m⟩ := hm
      have hpq : p ≠ q := fun e => hap q hob (by rw [m.b, e])
      have hal : ((lo.drop j).take n).length = n := by simp; omega
      have hlq : s.len q = some o.z := h.len
      have hzo : lo.length ≤ o.z := h.z
      rw [hob, m.b, m.e]
      have := wp_memcpy (s := s) (p := p) (d := l.length) (q := q) (j := j) (as := (lo.drop j).take n)
        (Q := fun _ s1 => wp (setVec ⟨some p, l.length + n, s.vec.z⟩) s1 Q E) (E := E) (fun i hi => ?_) ⟨_, hlq, by omega⟩
        ⟨_, m.len, by omega⟩ (fun e => absurd e hpq) ?_
      · rw [hal] at this
        have hv : ({ s.vec with b := some p, e := l.length + n, z := s.vec.z } : Vec) = ⟨some p, l.length + n, s.vec.z⟩ := rfl
        rw [← hv, ← m.b] at this
        rw [← m.b]
        exact this
      · have := h.get (i := j + i) (by omega)
        rw [getElem?_take_lt (by omega), List.getElem?_drop]
        exact this
      · rw [wp_setVec]
        have hll : (l ++ (lo.drop j).take n).length = l.length + n := by rw [List.length_append, hal]
        have := m.inner (s' := { s with mem := blit s.mem p l.length ((lo.drop j).take n), vec := ⟨some p, l.length + n, s.vec.z⟩ })
          (l' := l ++ (lo.drop j).take n) g rfl rfl (by dsimp only; rw [hll, m.b]) (by omega) (fun r i hr => ?_) (fun i hi => ?_) (fun hbf => ?_)
        · exact hQ _ this.1 this.2 rfl m.b.symm
        · dsimp only; rw [blit_out (by omega)]
        · rw [hll] at hi
          dsimp only
          rw [Nat.zero_add]
          by_cases c : i < l.length
          · rw [blit_out (by omega), m.get c, List.getElem?_append_left c]
          · rw [blit_in (by omega) (by omega), List.getElem?_append_right (by omega)]
        · rw [hb] at hbf; cases hbf

/-! ### Constructors -/

theorem null_outside {s : St α} {x : Src α} {a : α} (hv : s.vec = ⟨none, 0, 0⟩) (h : Reads s x a) : Outside s x a :=
  ⟨h, fun q i _ hb => by rw [hv] at hb; cases hb⟩

theorem init_null {t : Traits α} {s : St α} {n : Nat} (g : Good t s []) (hv : s.vec = ⟨none, 0, 0⟩) (hs : 0 < t.size)
    (hn : n * t.size < 2 ^ 64) :
    wp (init t n) s (fun _ s' => Good t s' [] ∧ s'.vec.z = n ∧ Rel s s')
      (fun x s' => Bad t s (Big t n) (fun l => l = []) x s' ∧ s'.vec = ⟨none, 0, 0⟩) := by
  refine wp_mono (init_ok (B := Big t n) hs g.fresh hn (fun h => Big.of h (by omega))) ?_ ?_
  · rintro _ s1 ⟨h1, h2, h3, h4, h5, h6⟩
    refine ⟨h1, h2, h4, fun p hp _ => ⟨(h3 p hp).1, fun i => .inl ((h3 p hp).2 i)⟩, h5, fun p hp => ?_, fun p hp => .inr (h6 p hp)⟩
    rw [hv] at hp; cases hp
  · rintro x s1 ⟨h1, h2, h3⟩
    exact ⟨⟨h1, h2, Rel.upd g h3, [], rfl, g.upd h3⟩, by rw [h3.2.2.2, hv]⟩

theorem newForward_ok {t : Traits α} {s : St α} {xs : List (Src α)} {as : List α} (g : Good t s []) (hv : s.vec = ⟨none, 0, 0⟩)
    (hs : 0 < t.size) (hn : xs.length * t.size < 2 ^ 64) (hf : List.Forall₂ (Reads s) xs as) :
    wp (newForward t xs) s (fun _ s' => Good t s' as ∧ Rel s s' ∧ s'.vec.z = xs.length)
      (fun x s' => Bad t s (Big t xs.length) (fun l => l = []) x s' ∧ s'.vec = ⟨none, 0, 0⟩) := by
  unfold newForward
  rw [wp_bind]
  refine wp_mono (init_null g hv hs hn) ?_ (fun x s1 h => h)
  rintro _ s1 ⟨g1, z1, r1⟩
  have hf1 := Outside.all (hf.imp fun _ _ h => null_outside hv h) g r1
  rw [wp_guarded]
  refine appendE_ok g1 (Outside.stables hf1) (by rw [z1]; simp) (fun s2 g2 r2 z2 _ => ⟨g2, r1.trans g r2, z2.trans z1⟩)
    (fun s2 _ hu => ?_)
  refine wp_mono (reset_ok (g1.upd hu)) ?_ (fun x s3 h => h)
  rintro _ s3 ⟨g3, r3, v3⟩
  exact ⟨Bad.of ((r1.trans g (Rel.upd g1 hu)).trans g r3) g3 rfl, v3⟩

theorem newFill_ok {t : Traits α} {s : St α} {n : Nat} {x : Src α} {a : α} (g : Good t s []) (hv : s.vec = ⟨none, 0, 0⟩)
    (hs : 0 < t.size) (hn : n * t.size < 2 ^ 64) (hx : Reads s x a) :
    wp (newFill t n x) s (fun _ s' => Good t s' (List.replicate n a) ∧ Rel s s' ∧ s'.vec.z = n)
      (fun x s' => Bad t s (Big t n) (fun l => l = []) x s' ∧ s'.vec = ⟨none, 0, 0⟩) := by
  unfold newFill
  rw [wp_bind]
  refine asVT_ok (null_outside hv hx).stable fun x' hx' _ => ?_
  have := newForward_ok (xs := List.replicate n x') g hv hs (by simpa using hn) (Forall₂_replicate hx'.1 n)
  unfold newForward at this
  simpa only [List.length_replicate] using this

theorem newSized_ok {t : Traits α} {s : St α} {n : Nat} (g : Good t s []) (hv : s.vec = ⟨none, 0, 0⟩)
    (hs : 0 < t.size) (hn : n * t.size < 2 ^ 64) :
    wp (newSized t n) s (fun _ s' => Good t s' (List.replicate n (if t.memset then t.zero else t.dflt)) ∧ Rel s s' ∧ s'.vec.z = n)
      (fun x s' => Bad t s (Big t n) (fun l => l = []) x s' ∧ s'.vec = ⟨none, 0, 0⟩) := by
  have := newForward_ok (t := t) (s := s) (xs := List.replicate n (fresh t)) (as := List.replicate n (if t.memset then t.zero else t.dflt)) g hv hs (by simpa using hn)
    (Forall₂_replicate (R := Reads s) (a := fresh t) (b := if t.memset then t.zero else t.dflt) rfl n)
  unfold newForward at this
  unfold newSized
  simpa only [List.length_replicate] using this

theorem newInput_ok {t : Traits α} {s : St α} {xs : List (Src α)} {as : List α} (g : Good t s []) (hv : s.vec = ⟨none, 0, 0⟩)
    (hs : 0 < t.size) (hs' : t.size < 2 ^ 63) (hf : List.Forall₂ (Reads s) xs as) :
    wp (newInput t xs) s (fun _ s' => Good t s' as ∧ Rel s s')
      (fun x s' => Bad t s (Big t xs.length) (fun l => l = []) x s' ∧ s'.vec = ⟨none, 0, 0⟩) := by
  unfold newInput
  rw [wp_bind, wp_setVec, ← hv, wp_guarded]
  refine wp_mono (pushAll_ok hs hs' xs g (hf.imp fun _ _ h => null_outside hv h)) ?_ (fun x s1 h => ?_)
  · rintro _ s1 h
    simpa using h
  · obtain ⟨e1, e2, e3, l', _, e4⟩ := h
    refine wp_mono (reset_ok e4) ?_ (fun x s3 h => h)
    rintro _ s3 ⟨g3, r3, v3⟩
    exact ⟨⟨fun h => (e1 h).mono (by simp), e2, e3.trans g r3, [], rfl, g3⟩, v3.trans hv.symm⟩

theorem newCopy_ok {t : Traits α} {s : St α} {o : Vec} {lo : List α} (g : Good t s []) (hv : s.vec = ⟨none, 0, 0⟩)
    (hs : 0 < t.size) (go : Good t { s with vec := o } lo) :
    wp (newCopy t o) s (fun _ s' => Good t s' lo ∧ Rel s s' ∧ s'.vec.z = lo.length)
      (fun x s' => Bad t s (Big t lo.length) (fun l => l = []) x s' ∧ s'.vec = ⟨none, 0, 0⟩) := by
  have hsz : o.e = lo.length := go.size
  have hn : lo.length * t.size < 2 ^ 63 := Nat.lt_of_le_of_lt (Nat.mul_le_mul_right _ go.cap) go.bytes
  unfold newCopy
  rw [hsz, wp_bind]
  refine wp_mono (init_null g hv hs (by omega)) ?_ (fun x s1 h => h)
  rintro _ s1 ⟨g1, z1, r1⟩
  obtain ⟨go1, hap1⟩ := go.other (fun q _ h => by rw [hv] at h; cases h) r1 g1
  rw [wp_guarded]
  refine appendCopyE_ok g1 go1 hap1 (by omega) (by rw [z1]; simp) (fun s2 g2 r2 z2 _ => ⟨?_, r1.trans g r2, z2.trans z1⟩)
    (fun s2 _ hu => ?_)
  · simpa using g2
  · refine wp_mono (reset_ok (g1.upd hu)) ?_ (fun x s3 h => h)
    rintro _ s3 ⟨g3, r3, v3⟩
    exact ⟨Bad.of ((r1.trans g (Rel.upd g1 hu)).trans g r3) g3 rfl, v3⟩

theorem copyAssign_ok {t : Traits α} {s : St α} {l lo : List α} {o : Vec} (g : Good t s l) (hs : 0 < t.size)
    (go : Good t { s with vec := o } lo) (hap : ∀ q, o.b = some q → s.vec.b ≠ some q) :
    wp (copyAssign t o) s (fun _ s' => Good t s' lo ∧ Rel s s') (Bad t s (Big t lo.length) Any) := by
  have hsz : o.e = lo.length := go.size
  have hn : lo.length * t.size < 2 ^ 63 := Nat.lt_of_le_of_lt (Nat.mul_le_mul_right _ go.cap) go.bytes
  have hsv := g.size
  have hz := g.cap
  have hrl : ∀ j n, (refs o.b j n : List (Src α)).length = n := fun j n => by simp [refs]
  unfold copyAssign
  rw [wp_bind, wp_self, hsz]
  by_cases h : s.vec.z < lo.length
  · rw [if_pos h, wp_bind]
    refine wp_mono (resetTo_ok (B := Big t lo.length) g hs (by omega) (fun h => Big.of h (by omega))) ?_
      (fun x s1 h => h.mono id fun _ _ => trivial)
    rintro _ s1 ⟨g1, r1, z1⟩
    obtain ⟨go1, hap1⟩ := go.other hap r1 g1
    refine appendCopyE_ok g1 go1 hap1 (by omega) (by rw [z1]; simp) (fun s2 g2 r2 z2 _ => ⟨?_, r1.trans g r2⟩)
      (fun s2 _ hu => Bad.of (r1.trans g (Rel.upd g1 hu)) (g1.upd hu) trivial)
    simpa using g2
  · rw [if_neg h]
    by_cases h1 : lo.length ≤ s.vec.e
    · rw [if_pos h1, wp_bind]
      have hf := refs_outside go hap 0 lo.length (by omega)
      rw [List.drop_zero, List.take_length] at hf
      refine assignLoop_outside _ g hf (by rw [hrl]; omega) (fun s1 n1 => ?_) (fun s1 l' _ n1 => Bad.of n1.rel n1.good trivial)
      refine wp_mono (destroyRangeE_ok n1.good (by simp)) ?_ (fun x s2 h => h)
      rintro _ s2 ⟨g2, r2, _⟩
      exact ⟨by simpa using g2, n1.rel.trans g r2⟩
    · rw [if_neg h1, wp_bind]
      have hf := refs_outside go hap 0 s.vec.e (by omega)
      refine assignLoop_outside _ g hf (by rw [hrl]; omega) (fun s1 n1 => ?_) (fun s1 l' _ n1 => Bad.of n1.rel n1.good trivial)
      obtain ⟨go1, hap1⟩ := go.other hap n1.rel n1.good
      refine appendCopyE_ok n1.good go1 hap1 (by omega) (by rw [n1.z]; simp; omega) (fun s2 g2 r2 z2 _ => ⟨?_, n1.rel.trans g r2⟩)
        (fun s2 _ hu => Bad.of (n1.rel.trans g (Rel.upd n1.good hu)) (n1.good.upd hu) trivial)
      refine cast (congrArg (Good t s2) ?_) g2
      rw [List.take_zero, List.nil_append, List.drop_zero, List.drop_of_length_le (by simp; omega), List.append_nil]
      rw [List.take_of_length_le (l := lo.drop s.vec.e) (by simp), List.take_append_drop]

end Gtl.Vec
