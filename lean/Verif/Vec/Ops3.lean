import Verif.Vec.Ops2
/-
What the operations that erase do, and access to elements.
-/
namespace Gtl.Vec
open M
variable {α β γ : Type}

theorem shift_set (A X C : List α) (x b c : α) :
    (((A ++ (x :: X)) ++ (c :: C)).set (A.length + (X.length + 1)) b).set A.length c =
      ((A ++ [c]) ++ (X ++ [b])) ++ C := by
  rw [List.set_append_right _ _ (by simp)]
  simp

/-- The elements behind a gap move down. -/
theorem moveDown_ok {t : Traits α} {E : Exc → St α → Prop} (C : List α) :
    ∀ {s : St α} {A X : List α} {Q : Unit → St α → Prop}, X ≠ [] → Good t s (A ++ X ++ C) →
      (∀ s' X', X'.length = X.length → Now t s s' (A ++ C ++ X') → Q () s') →
      (∀ s' l', l'.length = (A ++ X ++ C).length → l'.take A.length = A → Now t s s' l' → E .failed s') →
      wp (moveDown t s.vec.b A.length (A.length + X.length) C.length) s Q E := by
  induction C with
  | nil =>
    intro s A X Q hX g hQ hE
    exact hQ s X rfl (by simpa using Now.refl g)
  | cons c C ih =>
    intro s A X Q hX g hQ hE
    cases X with
    | nil => exact absurd rfl hX
    | cons x X =>
      rw [List.length_cons, List.length_cons]
      unfold moveDown
      rw [wp_bind]
      refine moveAssign_ok (a := c) g (by simp) (by rw [List.getElem?_append_right (by simp)]; simp) (fun s1 b n1 => ?_)
        (fun s1 b d n1 => hE s1 _ (by simp) ?_ n1)
      · rw [shift_set] at n1
        have := ih (s := s1) (A := A ++ [c]) (X := X ++ [b]) (Q := Q) (by simp) n1.good (fun s2 X' hl n2 => ?_)
          (fun s2 l' hl hp n2 => ?_)
        · simp only [List.length_append, List.length_cons, List.length_nil, n1.b] at this
          rw [show A.length + (X.length + 1) + 1 = A.length + (0 + 1) + (X.length + (0 + 1)) by omega]
          exact this
        · refine hQ s2 X' (by rw [hl]; simp) ?_
          have := n1.trans g n2
          simpa using this
        · refine hE s2 l' (by rw [hl]; simp) ?_ (n1.trans g n2)
          have := congrArg (List.take A.length) hp
          rw [List.take_take] at this
          simpa using this
      · rw [List.take_set, List.take_set, List.set_eq_of_length_le (by simp), List.set_eq_of_length_le (by simp)]
        simp

/-- What `erase` leaves when an assignment throws. -/
def Prefix (l : List α) (n : Nat) (l' : List α) : Prop := l'.length = l.length ∧ l'.take n = l.take n

theorem erase_ok {t : Traits α} {s : St α} {l : List α} {first last : Nat} (g : Good t s l)
    (h1 : first ≤ last) (h2 : last ≤ l.length) :
    wp (erase t first last) s
      (fun r s' => r = first ∧ Good t s' (l.take first ++ l.drop last) ∧ Rel s s' ∧ s'.vec.z = s.vec.z)
      (Bad t s False (Prefix l first)) := by
  unfold erase
  rw [wp_bind, wp_self, if_pos (by rw [g.size]; omega)]
  by_cases he : first = last
  · subst he
    rw [if_neg (by simp), wp_pure]
    exact ⟨rfl, by rwa [List.take_append_drop], Rel.refl' g, rfl⟩
  rw [if_pos he]
  by_cases hl : last = s.vec.e
  · rw [if_pos hl, wp_bind]
    refine wp_mono (destroyRangeE_ok g (by omega)) ?_ (fun x s1 h => h)
    rintro _ s1 ⟨g1, r1, z1⟩
    rw [wp_pure]
    refine ⟨rfl, ?_, r1, z1⟩
    rw [hl, g.size, List.drop_length, List.append_nil]; exact g1
  rw [if_neg hl]
  rw [g.size] at hl
  obtain ⟨q, h⟩ := g.block (i := first) (by omega)
  by_cases hb : t.bits = true
  · rw [if_pos hb, wp_bind, h.b, g.size]
    refine wp_destroyRange h1 (h.room h2) (fun hc => by rw [hb] at hc; cases hc) ?_
    have hgone : gone t s.mem q first (last - first) = s.mem := by unfold gone; rw [if_pos hb]
    rw [hgone]
    dsimp only
    have hd : (l.drop last).length = l.length - last := by simp
    have hh : Has s q last (l.drop last) := fun i hi => by
      rw [List.getElem?_drop]; exact h.get (by omega)
    have fin : ∀ s1 : St α, s1 = { s with mem := blit s.mem q first (l.drop last) } →
        wp (do setVec ⟨some q, l.length - (last - first), s.vec.z⟩; Pure.pure first) s1
          (fun r s' => r = first ∧ Good t s' (l.take first ++ l.drop last) ∧ Rel s s' ∧ s'.vec.z = s.vec.z)
          (Bad t s False (Prefix l first)) := by
      rintro s1 rfl
      rw [wp_bind, wp_setVec, wp_pure]
      have hlen : (l.take first ++ l.drop last).length = l.length - (last - first) := by simp; omega
      have := h.now (s' := { s with mem := blit s.mem q first (l.drop last), vec := ⟨some q, l.length - (last - first), s.vec.z⟩ })
        (l' := l.take first ++ l.drop last) g rfl rfl (by rw [hlen, ← h.b]) (by rw [hlen]; have := h.z; omega) ?_ ?_ ?_
      · exact ⟨rfl, this.good, this.rel, this.z⟩
      · intro r i hr
        simp only [blit]; rw [if_neg (by omega)]
      · intro i hi
        rw [hlen] at hi
        simp only [blit, Nat.zero_add]
        rw [hd]
        by_cases hc : first ≤ i
        · rw [if_pos ⟨by trivial, hc, by omega⟩, List.getElem?_append_right (by simp; omega)]
          congr 1
          simp; omega
        · rw [if_neg (by omega), h.get (by omega), List.getElem?_append_left (by simp; omega), getElem?_take_lt (by omega)]
      · intro hc; rw [hb] at hc; cases hc
    have hr1 : Room s q (last + (l.drop last).length) := h.room (by omega)
    have hr2 : Room s q (first + (l.drop last).length) := h.room (by omega)
    rw [← hd]
    by_cases hc : (l.drop last).length ≤ last - first
    · rw [if_pos hc, wp_bind]
      refine wp_memcpy hh hr1 hr2 (fun _ => by omega) ?_
      exact fin _ rfl
    · rw [if_neg hc, wp_bind]
      refine wp_memmove hh hr1 hr2 ?_
      exact fin _ rfl
  · rw [if_neg hb, wp_bind]
    have hsplit : l = l.take first ++ (l.take last).drop first ++ l.drop last := by
      have e1 : l.take first = (l.take last).take first := by rw [List.take_take, Nat.min_eq_left h1]
      rw [e1, List.take_append_drop, List.take_append_drop]
    have lA : (l.take first).length = first := by simp; omega
    have lX : ((l.take last).drop first).length = last - first := by simp; omega
    have lC : (l.drop last).length = l.length - last := by simp
    have := moveDown_ok (t := t) (E := Bad t s False (Prefix l first)) (l.drop last) (s := s) (A := l.take first) (X := (l.take last).drop first)
      (Q := fun _ s' => wp (do destroyRangeE t (s.vec.e - (last - first)); Pure.pure first) s'
        (fun r s' => r = first ∧ Good t s' (l.take first ++ l.drop last) ∧ Rel s s' ∧ s'.vec.z = s.vec.z)
          (Bad t s False (Prefix l first)))
      (fun hc => by rw [hc] at lX; simp at lX; omega) (by rw [← hsplit]; exact g) (fun s1 X' hl' n1 => ?_) (fun s1 l' hl' hp n1 => ?_)
    · rw [lA, lX, lC, show first + (last - first) = last by omega] at this
      rw [g.size] at this ⊢
      exact this
    · rw [wp_bind]
      refine wp_mono (destroyRangeE_ok n1.good (by rw [g.size]; simp; omega)) ?_ (fun x s2 h => h)
      rintro _ s2 ⟨g2, r2, z2⟩
      rw [wp_pure]
      refine ⟨rfl, ?_, n1.rel.trans g r2, z2.trans n1.z⟩
      refine cast (congrArg (Good t s2) ?_) g2
      rw [List.take_left']
      rw [g.size]; simp; omega
    · rw [← hsplit] at hl'
      rw [lA] at hp
      exact Bad.of n1.rel n1.good ⟨hl', hp⟩

/-! ### Erasing by value -/

theorem removeLoop_ok {t : Traits α} {bad : α → Bool} {E : Exc → St α → Prop} (R : List α) :
    ∀ {s : St α} {K G : List α} {Q : Nat → St α → Prop}, Good t s (K ++ G ++ R) →
      (∀ s' G', G'.length + (R.filter fun a => !bad a).length = G.length + R.length →
        Now t s s' (K ++ (R.filter fun a => !bad a) ++ G') → Q (K.length + (R.filter fun a => !bad a).length) s') →
      (∀ s' l', l'.length = (K ++ G ++ R).length → Now t s s' l' → E .failed s') →
      wp (removeLoop t bad s.vec.b K.length (K.length + G.length) R.length) s Q E := by
  induction R with
  | nil =>
    intro s K G Q g hQ hE
    have := hQ s G (by simp) (by simpa using Now.refl g)
    exact this
  | cons a R ih =>
    intro s K G Q g hQ hE
    rw [List.length_cons]
    unfold removeLoop
    rw [wp_bind]
    obtain ⟨q, h⟩ := g.block (i := K.length + G.length) (by simp)
    have hget : s.mem q (K.length + G.length) = some a := by
      rw [h.get (by simp), List.getElem?_append_right (by simp)]; simp
    rw [h.b]
    refine wp_get (h.room (by simp; omega)) hget ?_
    rw [← h.b]
    by_cases hb : bad a = true
    · rw [if_pos hb]
      have hfil : (a :: R).filter (fun a => !bad a) = R.filter fun a => !bad a := by simp [hb]
      rw [hfil] at hQ
      have := ih (s := s) (K := K) (G := G ++ [a]) (Q := Q) (by simpa using g)
        (fun s' G' hl n => hQ s' G' (by rw [hl]; simp; omega) n) (fun s' l' hl n => hE s' l' (by rw [hl]; simp) n)
      rw [List.length_append, List.length_singleton, ← Nat.add_assoc] at this
      exact this
    · rw [if_neg hb]
      have hfil : (a :: R).filter (fun a => !bad a) = a :: R.filter fun a => !bad a := by simp [hb]
      rw [hfil] at hQ
      by_cases he : K.length = K.length + G.length
      · rw [if_pos he]
        have hG : G = [] := List.length_eq_zero_iff.mp (by omega)
        subst hG
        have := ih (s := s) (K := K ++ [a]) (G := []) (Q := Q) (by simpa using g)
          (fun s' G' hl n => ?_) (fun s' l' hl n => hE s' l' (by rw [hl]; simp) n)
        · rw [List.length_append, List.length_singleton, List.length_nil] at this
          exact this
        · have := hQ s' G' (by simp at hl ⊢; omega) (by simpa using n)
          rw [List.length_append, List.length_singleton]
          rwa [List.length_cons, ← Nat.add_assoc, Nat.add_right_comm] at this
      · rw [if_neg he, wp_bind]
        cases G with
        | nil => simp at he
        | cons x G =>
          refine moveAssign_ok (a := a) g (by simp) (by rw [List.getElem?_append_right (by simp)]; simp) (fun s1 b n1 => ?_)
            (fun s1 b d n1 => hE s1 _ (by simp) n1)
          rw [List.length_cons, shift_set] at n1
          have := ih (s := s1) (K := K ++ [a]) (G := G ++ [b]) (Q := Q) n1.good
            (fun s' G' hl n => ?_) (fun s' l' hl n => hE s' l' (by rw [hl]; simp) (n1.trans g n))
          · rw [List.length_append, List.length_singleton, List.length_append, List.length_singleton, n1.b] at this
            rw [List.length_cons, show K.length + (G.length + 1) + 1 = K.length + 1 + (G.length + 1) by omega]
            exact this
          · have := hQ s' G' (by simp at hl ⊢; omega) (by have := n1.trans g n; simpa using this)
            rw [List.length_append, List.length_singleton]
            rwa [List.length_cons, ← Nat.add_assoc, Nat.add_right_comm] at this

theorem eraseIf_ok {t : Traits α} {s : St α} {l : List α} {bad : α → Bool} (g : Good t s l) :
    wp (eraseIf t bad) s
      (fun _ s' => Good t s' (l.filter fun a => !bad a) ∧ Rel s s' ∧ s'.vec.z = s.vec.z)
      (Bad t s False (fun l' => l'.length = l.length)) := by
  unfold eraseIf
  rw [wp_bind, wp_self, wp_bind]
  have := removeLoop_ok (t := t) (bad := bad) (E := Bad t s False (fun l' => l'.length = l.length)) l (s := s)
    (K := []) (G := []) (Q := fun r s1 => wp (do let _ ← erase t r s.vec.e) s1
      (fun _ s' => Good t s' (l.filter fun a => !bad a) ∧ Rel s s' ∧ s'.vec.z = s.vec.z)
      (Bad t s False (fun l' => l'.length = l.length))) (by simpa using g) (fun s1 G' hl n1 => ?_)
      (fun s1 l' hl n1 => Bad.of n1.rel n1.good (by simpa using hl))
  · rw [g.size] at this ⊢
    exact this
  · simp only [List.nil_append, List.length_nil, Nat.zero_add] at hl n1 ⊢
    rw [wp_bind]
    refine wp_mono (erase_ok n1.good (by have := g.size; omega) (by rw [g.size]; simp; omega)) ?_
      (fun x s2 h => (h.after g n1.rel).mono id (fun l' h => by rw [h.1]; simp; omega))
    rintro r s2 ⟨_, g2, r2, z2⟩
    rw [wp_pure]
    refine ⟨?_, n1.rel.trans g r2, z2.trans n1.z⟩
    refine cast (congrArg (Good t s2) ?_) g2
    rw [List.take_left', List.drop_of_length_le, List.append_nil]
    · rw [g.size]; simp; omega
    · rfl

/-! ### Access -/

theorem index_ok {t : Traits α} {s : St α} {l : List α} {i : Nat} {a : α} {Q : α → St α → Prop} {E : Exc → St α → Prop}
    (g : Good t s l) (h : l[i]? = some a) (hQ : Q a s) : wp (index i) s Q E := by
  obtain ⟨hi, _⟩ := List.getElem?_eq_some_iff.mp h
  obtain ⟨q, hm⟩ := g.block hi
  unfold index
  rw [wp_bind, wp_self, if_pos (by rw [g.size]; exact hi), hm.b]
  exact wp_get (hm.room hi) (by rw [hm.get hi, h]) hQ

theorem at_ok {t : Traits α} {s : St α} {l : List α} {i : Nat} (g : Good t s l) :
    wp (at_ i) s (fun a s' => l[i]? = some a ∧ s' = s) (fun x s' => x = .range ∧ l.length ≤ i ∧ s' = s) := by
  unfold at_
  rw [wp_bind, wp_self]
  by_cases h : s.vec.e ≤ i
  · rw [if_pos h, wp_throw]; exact ⟨rfl, by rw [← g.size]; exact h, rfl⟩
  · rw [if_neg h]
    rw [g.size] at h
    have : l[i]? = some l[i] := List.getElem?_eq_getElem (by omega)
    exact index_ok g this ⟨this, rfl⟩

theorem front_ok {t : Traits α} {s : St α} {l : List α} {a : α} {Q : α → St α → Prop} {E : Exc → St α → Prop}
    (g : Good t s l) (h : l.head? = some a) (hQ : Q a s) : wp front s Q E := by
  cases l with
  | nil => cases h
  | cons b l =>
    obtain ⟨q, hm⟩ := g.block (i := 0) (by simp)
    unfold front
    rw [wp_bind, wp_self, if_neg (by rw [g.size]; simp), hm.b]
    exact wp_get (hm.room (by simp)) (by rw [hm.get (by simp)]; exact h) hQ

theorem back_ok {t : Traits α} {s : St α} {l : List α} {a : α} {Q : α → St α → Prop} {E : Exc → St α → Prop}
    (g : Good t s l) (h : l.getLast? = some a) (hQ : Q a s) : wp back s Q E := by
  have hl : l ≠ [] := fun e => by rw [e] at h; cases h
  have hpos : 0 < l.length := List.length_pos_iff.mpr hl
  obtain ⟨q, hm⟩ := g.block (i := 0) hpos
  unfold back
  rw [wp_bind, wp_self, if_neg (by rw [g.size]; omega), hm.b, g.size]
  exact wp_get (hm.room (by omega)) (by rw [hm.get (by omega), ← h, List.getLast?_eq_getElem?]) hQ

end Gtl.Vec
