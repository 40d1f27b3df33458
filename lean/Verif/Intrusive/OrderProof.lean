import Verif.Intrusive.Order
import Mathlib.Algebra.BigOperators.Group.Finset.Piecewise
/-!
# Every use of a shared object happens before its deletion
-/

namespace Gtl.Intrusive.Order

open Gtl.Spec.HB
open Gtl.Intrusive (wrap)
open Gtl.Intrusive.Threads (Own)

/-! ## Pointers -/

theorem total_add {n t : Nat} (ht : t < n) (w : Own) (i j : Nat) :
    (w.add t i).total n j = if j = i then w.total n j + 1 else w.total n j := by
  unfold Own.total Own.add
  by_cases h : j = i
  · subst h
    rw [if_pos rfl]
    have e : (∑ x ∈ Finset.range n, if x = t then 1 else 0) = 1 := by
      simp only [Finset.sum_ite_eq', Finset.mem_range, ht, if_true]
    have e2 := Finset.sum_add_distrib (s := Finset.range n) (f := fun s => w s j) (g := fun s => if s = t then 1 else 0)
    rw [e] at e2
    rw [← e2]
    refine Finset.sum_congr rfl fun s _ => ?_
    by_cases hs : s = t <;> simp [hs]
  · simp [h]

theorem total_sub {n t : Nat} (ht : t < n) {w : Own} {i : Nat} (hw : 0 < w t i) (j : Nat) :
    (w.sub t i).total n j + (if j = i then 1 else 0) = w.total n j := by
  unfold Own.total Own.sub
  by_cases h : j = i
  · subst h
    have e : (∑ x ∈ Finset.range n, if x = t then 1 else 0) = 1 := by
      simp only [Finset.sum_ite_eq', Finset.mem_range, ht, if_true]
    have e2 := Finset.sum_add_distrib (s := Finset.range n) (f := fun s => if s = t ∧ j = j then w s j - 1 else w s j)
      (g := fun s => if s = t then 1 else 0)
    rw [e] at e2
    rw [if_pos rfl, ← e2]
    refine Finset.sum_congr rfl fun s _ => ?_
    by_cases hs : s = t
    · subst hs; simp; omega
    · simp [hs]
  · simp [h]

theorem own_zero {n : Nat} {w : Own} {i : Nat} (h : w.total n i = 0) {t : Nat} (ht : t < n) : w t i = 0 := by
  unfold Own.total at h
  exact (Finset.sum_eq_zero_iff.1 h) t (Finset.mem_range.2 ht)

theorem own_pos {n : Nat} {w : Own} {i t : Nat} (ht : t < n) (h : 0 < w t i) : 0 < w.total n i := by
  rcases Nat.eq_zero_or_pos (w.total n i) with h0 | h0
  · have := own_zero h0 ht; omega
  · exact h0

/-! ## Order -/

theorem edge_mono {tr : List Ev} {e : Ev} {i j : Nat} (h : Edge tr i j) : Edge (tr ++ [e]) i j := by
  obtain ⟨h1, a, b, ha, hb, h2⟩ := h
  refine ⟨h1, a, b, ?_, ?_, h2⟩
  · rw [List.getElem?_append_left (List.getElem?_eq_some_iff.1 ha).1]; exact ha
  · rw [List.getElem?_append_left (List.getElem?_eq_some_iff.1 hb).1]; exact hb

theorem before_mono {tr : List Ev} {e : Ev} {i j : Nat} (h : Before tr i j) : Before (tr ++ [e]) i j :=
  Relation.TransGen.mono (p := Edge (tr ++ [e])) (fun _ _ h => edge_mono h) _ _ h

/-- Event `k` happens before whatever thread `t` does next. -/
def Known (tr : List Ev) (t k : Nat) : Prop :=
  ∃ k', (k = k' ∨ Before tr k k') ∧ ∃ a, tr[k']? = some a ∧ (a.thread = t ∨ a.act = .pass t)

/-- Event `k` happens before whatever acquires variable `c` next. -/
def Pub (tr : List Ev) (c k : Nat) : Prop :=
  ∃ k', (k = k' ∨ Before tr k k') ∧ ∃ a, tr[k']? = some a ∧ a.act.Releases c

theorem at_last {tr : List Ev} {e : Ev} : (tr ++ [e])[tr.length]? = some e := by simp

theorem at_old {tr : List Ev} {e a : Ev} {k : Nat} (h : tr[k]? = some a) : (tr ++ [e])[k]? = some a := by
  rw [List.getElem?_append_left (List.getElem?_eq_some_iff.1 h).1]; exact h

theorem before_last {tr : List Ev} {e : Ev} {k k' : Nat} (h : k = k' ∨ Before tr k k') (h' : Edge (tr ++ [e]) k' tr.length) :
    Before (tr ++ [e]) k tr.length := by
  rcases h with rfl | h
  · exact .single h'
  · exact .tail (before_mono h) h'

theorem Known.last {tr : List Ev} {t k : Nat} (h : Known tr t k) {e : Ev} (he : e.thread = t) : Before (tr ++ [e]) k tr.length := by
  obtain ⟨k', h1, a, h2, h3⟩ := h
  refine before_last h1 ⟨(List.getElem?_eq_some_iff.1 h2).1, a, e, at_old h2, at_last, ?_⟩
  rw [he]
  rcases h3 with h3 | h3
  · exact .inl h3
  · exact .inr (.inl h3)

theorem Pub.last {tr : List Ev} {c k : Nat} (h : Pub tr c k) {e : Ev} (he : e.act.Acquires c) : Before (tr ++ [e]) k tr.length := by
  obtain ⟨k', h1, a, h2, h3⟩ := h
  exact before_last h1 ⟨(List.getElem?_eq_some_iff.1 h2).1, a, e, at_old h2, at_last, .inr (.inr (.inl ⟨c, h3, he⟩))⟩

theorem Known.mono {tr : List Ev} {t k : Nat} (h : Known tr t k) (e : Ev) : Known (tr ++ [e]) t k := by
  obtain ⟨k', h1, a, h2, h3⟩ := h
  exact ⟨k', h1.imp id before_mono, a, at_old h2, h3⟩

theorem Pub.mono {tr : List Ev} {c k : Nat} (h : Pub tr c k) (e : Ev) : Pub (tr ++ [e]) c k := by
  obtain ⟨k', h1, a, h2, h3⟩ := h
  exact ⟨k', h1.imp id before_mono, a, at_old h2, h3⟩

/-- What the thread does next is known to it. -/
theorem known_of {tr : List Ev} {e : Ev} {k t : Nat} (h : k = tr.length ∨ Before (tr ++ [e]) k tr.length)
    (he : e.thread = t ∨ e.act = .pass t) : Known (tr ++ [e]) t k := ⟨tr.length, h, e, at_last, he⟩

theorem pub_of {tr : List Ev} {e : Ev} {k c : Nat} (h : k = tr.length ∨ Before (tr ++ [e]) k tr.length)
    (he : e.act.Releases c) : Pub (tr ++ [e]) c k := ⟨tr.length, h, e, at_last, he⟩

/-- Event number `k` touches object `c`. -/
def Touch (H : List Lab) (k c : Nat) : Prop := ∃ a, H[k]? = some a ∧ a.touches = some c

theorem touch_snoc {H : List Lab} {a : Lab} {k c : Nat} (h : Touch (H ++ [a]) k c) :
    Touch H k c ∨ k = H.length ∧ a.touches = some c := by
  obtain ⟨b, hb, hc⟩ := h
  by_cases hk : k < H.length
  · rw [List.getElem?_append_left hk] at hb; exact .inl ⟨b, hb, hc⟩
  · have : k = H.length := by
      have := (List.getElem?_eq_some_iff.1 hb).1
      simp at this; omega
    subst this
    simp at hb; subst hb
    exact .inr ⟨rfl, hc⟩

/-! ## The invariant -/

structure Inv (O : Orders) (n : Nat) (H : List Lab) (s : St) : Prop where
  /-- somebody owns a pointer -/
  owned : ∀ c, 0 < s.own.total n c → s.rc c = s.own.total n c ∧ s.own.total n c < 2 ^ 32 ∧ s.live c = true ∧ ∀ t, s.pend t ≠ some c
  /-- somebody is about to delete -/
  pend : ∀ t c, s.pend t = some c → t < n ∧ s.live c = true ∧ s.own.total n c = 0 ∧ (∀ t', s.pend t' = some c → t' = t) ∧
    ∀ k, Touch H k c → Known (H.map (Lab.ev O)) t k
  carry : ∀ c, 0 < s.own.total n c → ∀ k, Touch H k c →
    Pub (H.map (Lab.ev O)) c k ∨ ∃ t, t < n ∧ 0 < s.own t c ∧ Known (H.map (Lab.ev O)) t k
  done : ∀ j t c, H[j]? = some (.del t c) → s.live c = false ∧ ∀ k, Touch H k c → k ≠ j → Before (H.map (Lab.ev O)) k j

theorem start_inv (O : Orders) {n : Nat} {w : Own} (hw : ∀ i, w.total n i < 2 ^ 32) : Inv O n [] (start n w) where
  owned c h := ⟨rfl, hw c, rfl, fun t h => by cases h⟩
  pend t c h := by cases h
  carry c h k hk := by obtain ⟨a, ha, -⟩ := hk; simp at ha
  done j t c h := by simp at h

theorem del_snoc {H : List Lab} {a : Lab} {j t c : Nat} (h : (H ++ [a])[j]? = some (.del t c)) :
    H[j]? = some (.del t c) ∨ j = H.length ∧ a = .del t c := by
  by_cases hk : j < H.length
  · rw [List.getElem?_append_left hk] at h; exact .inl h
  · have : j = H.length := by
      have := (List.getElem?_eq_some_iff.1 h).1
      simp at this; omega
    subst this
    simp at h
    exact .inr ⟨rfl, h⟩

/-- Steps that touch `c` and leave the owners alone keep the past. -/
theorem done_snoc {O : Orders} {n : Nat} {H : List Lab} {s : St} (h : Inv O n H s) {a : Lab} {live' : Nat → Bool}
    (hl : ∀ c, s.live c = false → live' c = false) (ha : ∀ c, a.touches = some c → s.live c = true)
    (hd : ∀ t c, a = .del t c → live' c = false ∧ ∀ k, Touch H k c → Before ((H ++ [a]).map (Lab.ev O)) k H.length) :
    ∀ j t c, (H ++ [a])[j]? = some (.del t c) → live' c = false ∧ ∀ k, Touch (H ++ [a]) k c → k ≠ j →
      Before ((H ++ [a]).map (Lab.ev O)) k j := by
  intro j t c hj
  rcases del_snoc hj with hj | ⟨rfl, hj'⟩
  · obtain ⟨h1, h2⟩ := h.done j t c hj
    refine ⟨hl c h1, fun k hk hne => ?_⟩
    rcases touch_snoc hk with hk | ⟨rfl, hk'⟩
    · rw [List.map_append]; exact before_mono (h2 k hk hne)
    · rw [ha c hk'] at h1; cases h1
  · obtain ⟨h1, h2⟩ := hd t c hj'
    refine ⟨h1, fun k hk hne => ?_⟩
    rcases touch_snoc hk with hk | ⟨rfl, hk'⟩
    · exact h2 k hk
    · exact absurd rfl hne

theorem wrap_lt {k : Nat} (h : k < 2 ^ 32) : wrap k = k := Nat.mod_eq_of_lt h

theorem wrap_pred {k : Nat} (h : 0 < k) (h' : k < 2 ^ 32) : wrap (k + (2 ^ 32 - 1)) = k - 1 := by
  unfold wrap
  have : k + (2 ^ 32 - 1) = (k - 1) + 2 ^ 32 := by omega
  rw [this, Nat.add_mod_right]
  exact Nat.mod_eq_of_lt (by omega)

/-- An event of thread `t` that changes no state but maybe the owners of `c` upwards. -/
theorem step_inv {O : Orders} (hO : O.decAcq = true ∧ O.decRel = true) {n : Nat} {H : List Lab} {s s' : St} {a : Lab}
    (h : Inv O n H s) (hs : Step n s a s') : Inv O n (H ++ [a]) s' := by
  have hlen : (H.map (Lab.ev O)).length = H.length := List.length_map _
  have emap : (H ++ [a]).map (Lab.ev O) = H.map (Lab.ev O) ++ [a.ev O] := by simp
  cases hs with
  | @inc t c ht hp ho hb =>
    obtain ⟨g1, g2, g3, g4⟩ := h.owned c (own_pos ht ho)
    have hlive : ∀ c', (Lab.inc t c).touches = some c' → s.live c' = true := by
      intro c' hc'; cases hc'; exact g3
    refine ⟨fun c' hc' => ?_, fun t' c' hp' => ?_, fun c' hc' k hk => ?_, done_snoc h (fun _ h => h) hlive (fun _ _ e => by cases e)⟩
    · rw [total_add ht] at hc' ⊢
      by_cases e : c' = c
      · subst e
        rw [if_pos rfl]
        refine ⟨?_, hb, g3, g4⟩
        simp only [set, if_pos]
        rw [wrap_lt (by omega), g1]
      · rw [if_neg e] at hc' ⊢
        simp only [set, if_neg e]
        exact h.owned c' hc'
    · obtain ⟨p1, p2, p3, p4, p5⟩ := h.pend t' c' hp'
      have e : c' ≠ c := by rintro rfl; exact g4 t' hp'
      refine ⟨p1, p2, by rw [total_add ht, if_neg e]; exact p3, p4, fun k hk => ?_⟩
      rcases touch_snoc hk with hk | ⟨rfl, hk'⟩
      · rw [emap]; exact (p5 k hk).mono _
      · cases hk'; exact absurd rfl e
    · rw [emap]
      rcases touch_snoc hk with hk | ⟨rfl, hk'⟩
      · rcases Nat.eq_zero_or_pos (s.own.total n c') with h0 | h0
        · rw [total_add ht] at hc'
          by_cases e : c' = c
          · subst e; have := own_pos ht ho; omega
          · rw [if_neg e] at hc'; omega
        · rcases h.carry c' h0 k hk with hc | ⟨t', q1, q2, q3⟩
          · exact .inl (hc.mono _)
          · refine .inr ⟨t', q1, ?_, q3.mono _⟩
            simp only [Own.add]; split <;> omega
      · cases hk'
        refine .inr ⟨t, ht, ?_, known_of (.inl hlen.symm) (.inl rfl)⟩
        simp [Own.add]
  | @dec t c ht hp ho =>
    obtain ⟨g1, g2, g3, g4⟩ := h.owned c (own_pos ht ho)
    have hpos := own_pos ht ho
    have hsub := total_sub ht ho
    have hlive : ∀ c', (Lab.dec t c).touches = some c' → s.live c' = true := by
      intro c' hc'; cases hc'; exact g3
    have hw : wrap (s.rc c + (2 ^ 32 - 1)) = s.own.total n c - 1 := by rw [g1]; exact wrap_pred hpos g2
    have hc0 := hsub c
    rw [if_pos rfl] at hc0
    have hne : ∀ c', c' ≠ c → (s.own.sub t c).total n c' = s.own.total n c' := by
      intro c' e
      have := hsub c'
      rw [if_neg e] at this; omega
    have hrel : (Lab.ev O (.dec t c)).act.Releases c := ⟨rfl, hO.2⟩
    have hacq : (Lab.ev O (.dec t c)).act.Acquires c := ⟨rfl, hO.1⟩
    refine ⟨fun c' hc' => ?_, fun t' c' hp' => ?_, fun c' hc' k hk => ?_, done_snoc h (fun _ h => h) hlive (fun _ _ e => by cases e)⟩
    · dsimp only at hc' ⊢
      by_cases e : c' = c
      · subst e
        simp only [set, if_pos]
        refine ⟨by rw [hw]; omega, by omega, g3, fun t' => ?_⟩
        rw [hw, if_neg (by omega)]
        exact g4 t'
      · rw [hne c' e] at hc' ⊢
        obtain ⟨o1, o2, o3, o4⟩ := h.owned c' hc'
        simp only [set, if_neg e]
        refine ⟨o1, o2, o3, fun t' hp' => ?_⟩
        by_cases h0 : wrap (s.rc c + (2 ^ 32 - 1)) = 0
        · rw [if_pos h0] at hp'
          by_cases et : t' = t
          · simp only [set, if_pos et] at hp'
            injection hp' with hp'; exact e hp'.symm
          · simp only [set, if_neg et] at hp'
            exact o4 t' hp'
        · rw [if_neg h0] at hp'
          exact o4 t' hp'
    · dsimp only at hp' ⊢
      by_cases h0 : wrap (s.rc c + (2 ^ 32 - 1)) = 0
      · rw [if_pos h0] at hp' ⊢
        rw [hw] at h0
        by_cases et : t' = t
        · subst et
          simp only [set, if_pos] at hp'
          cases hp'
          refine ⟨ht, g3, by omega, fun t'' hp'' => ?_, fun k hk => ?_⟩
          · by_contra hn
            simp only [set, if_neg hn] at hp''
            exact g4 t'' hp''
          · rw [emap]
            rcases touch_snoc hk with hk | ⟨rfl, hk'⟩
            · rcases h.carry c hpos k hk with hc | ⟨t2, q1, q2, q3⟩
              · exact known_of (.inr (hc.last hacq)) (.inl rfl)
              · by_cases e2 : t2 = t'
                · subst e2
                  exact known_of (.inr (q3.last rfl)) (.inl rfl)
                · exfalso
                  have : (s.own.sub t' c) t2 c = 0 := own_zero (by omega) q1
                  simp only [Own.sub, e2, false_and, if_false] at this
                  omega
            · exact known_of (.inl hlen.symm) (.inl rfl)
        · simp only [set, if_neg et] at hp'
          obtain ⟨p1, p2, p3, p4, p5⟩ := h.pend t' c' hp'
          have e : c' ≠ c := by rintro rfl; exact g4 t' hp'
          refine ⟨p1, p2, by rw [hne c' e]; exact p3, fun t'' hp'' => ?_, fun k hk => ?_⟩
          · by_cases e2 : t'' = t
            · subst e2
              simp only [set, if_pos] at hp''
              exact absurd (Option.some.inj hp'').symm e
            · simp only [set, if_neg e2] at hp''
              exact p4 t'' hp''
          · rcases touch_snoc hk with hk | ⟨rfl, hk'⟩
            · rw [emap]; exact (p5 k hk).mono _
            · cases hk'; exact absurd rfl e
      · rw [if_neg h0] at hp' ⊢
        obtain ⟨p1, p2, p3, p4, p5⟩ := h.pend t' c' hp'
        have e : c' ≠ c := by rintro rfl; exact g4 t' hp'
        refine ⟨p1, p2, by rw [hne c' e]; exact p3, p4, fun k hk => ?_⟩
        rcases touch_snoc hk with hk | ⟨rfl, hk'⟩
        · rw [emap]; exact (p5 k hk).mono _
        · cases hk'; exact absurd rfl e
    · dsimp only at hc' ⊢
      rw [emap]
      rcases touch_snoc hk with hk | ⟨rfl, hk'⟩
      · have h0 : 0 < s.own.total n c' := by
          by_cases e : c' = c
          · subst e; exact hpos
          · rw [hne c' e] at hc'; exact hc'
        rcases h.carry c' h0 k hk with hc | ⟨t', q1, q2, q3⟩
        · exact .inl (hc.mono _)
        · by_cases e : t' = t ∧ c' = c
          · obtain ⟨rfl, rfl⟩ := e
            exact .inl (pub_of (.inr (q3.last rfl)) hrel)
          · exact .inr ⟨t', q1, by simp only [Own.sub, if_neg e]; exact q2, q3.mono _⟩
      · cases hk'
        exact .inl (pub_of (.inl hlen.symm) hrel)
  | @del t c hp =>
    obtain ⟨p1, p2, p3, p4, p5⟩ := h.pend t c hp
    have hlive : ∀ c', (Lab.del t c).touches = some c' → s.live c' = true := by
      intro c' hc'; cases hc'; exact p2
    refine ⟨fun c' hc' => ?_, fun t' c' hp' => ?_, fun c' hc' k hk => ?_, done_snoc h (fun c' hc' => ?_) hlive (fun t' c' e => ?_)⟩
    · dsimp only at hc' ⊢
      obtain ⟨o1, o2, o3, o4⟩ := h.owned c' hc'
      have e : c' ≠ c := by rintro rfl; omega
      refine ⟨o1, o2, by simp only [set, if_neg e]; exact o3, fun t' hp' => ?_⟩
      by_cases et : t' = t
      · simp [set, et] at hp'
      · simp only [set, if_neg et] at hp'; exact o4 t' hp'
    · dsimp only at hp' ⊢
      have et : t' ≠ t := by rintro rfl; simp [set] at hp'
      simp only [set, if_neg et] at hp'
      obtain ⟨r1, r2, r3, r4, r5⟩ := h.pend t' c' hp'
      have e : c' ≠ c := by rintro rfl; exact et (p4 t' hp')
      refine ⟨r1, by simp only [set, if_neg e]; exact r2, r3, fun t'' hp'' => ?_, fun k hk => ?_⟩
      · by_cases e2 : t'' = t
        · simp [set, e2] at hp''
        · simp only [set, if_neg e2] at hp''; exact r4 t'' hp''
      · rcases touch_snoc hk with hk | ⟨rfl, hk'⟩
        · rw [emap]; exact (r5 k hk).mono _
        · cases hk'; exact absurd rfl e
    · dsimp only at hc' ⊢
      have e : c' ≠ c := by rintro rfl; omega
      rw [emap]
      rcases touch_snoc hk with hk | ⟨rfl, hk'⟩
      · rcases h.carry c' hc' k hk with hc | ⟨t', q1, q2, q3⟩
        · exact .inl (hc.mono _)
        · exact .inr ⟨t', q1, q2, q3.mono _⟩
      · cases hk'; exact absurd rfl e
    · simp only [set]; split
      · rfl
      · exact hc'
    · cases e
      refine ⟨by simp [set], fun k hk => ?_⟩
      rw [emap, ← hlen]
      exact (p5 k hk).last rfl
  | @use t c ht hp ho =>
    obtain ⟨g1, g2, g3, g4⟩ := h.owned c (own_pos ht ho)
    have hlive : ∀ c', (Lab.use t c).touches = some c' → s.live c' = true := by
      intro c' hc'; cases hc'; exact g3
    refine ⟨h.owned, fun t' c' hp' => ?_, fun c' hc' k hk => ?_, done_snoc h (fun _ h => h) hlive (fun _ _ e => by cases e)⟩
    · obtain ⟨p1, p2, p3, p4, p5⟩ := h.pend t' c' hp'
      refine ⟨p1, p2, p3, p4, fun k hk => ?_⟩
      rcases touch_snoc hk with hk | ⟨rfl, hk'⟩
      · rw [emap]; exact (p5 k hk).mono _
      · cases hk'; exact absurd hp' (g4 t')
    · rw [emap]
      rcases touch_snoc hk with hk | ⟨rfl, hk'⟩
      · rcases h.carry c' hc' k hk with hc | ⟨t', q1, q2, q3⟩
        · exact .inl (hc.mono _)
        · exact .inr ⟨t', q1, q2, q3.mono _⟩
      · cases hk'
        exact .inr ⟨t, ht, ho, known_of (.inl hlen.symm) (.inl rfl)⟩
  | @count t c ht hp ho =>
    obtain ⟨g1, g2, g3, g4⟩ := h.owned c (own_pos ht ho)
    have hlive : ∀ c', (Lab.count t c (s.rc c)).touches = some c' → s.live c' = true := by
      intro c' hc'; cases hc'; exact g3
    refine ⟨h.owned, fun t' c' hp' => ?_, fun c' hc' k hk => ?_, done_snoc h (fun _ h => h) hlive (fun _ _ e => by cases e)⟩
    · obtain ⟨p1, p2, p3, p4, p5⟩ := h.pend t' c' hp'
      refine ⟨p1, p2, p3, p4, fun k hk => ?_⟩
      rcases touch_snoc hk with hk | ⟨rfl, hk'⟩
      · rw [emap]; exact (p5 k hk).mono _
      · cases hk'; exact absurd hp' (g4 t')
    · rw [emap]
      rcases touch_snoc hk with hk | ⟨rfl, hk'⟩
      · rcases h.carry c' hc' k hk with hc | ⟨t', q1, q2, q3⟩
        · exact .inl (hc.mono _)
        · exact .inr ⟨t', q1, q2, q3.mono _⟩
      · cases hk'
        exact .inr ⟨t, ht, ho, known_of (.inl hlen.symm) (.inl rfl)⟩
  | @give t t' c ht ht' hp ho =>
    have htot : ∀ c', ((s.own.sub t c).add t' c).total n c' = s.own.total n c' := by
      intro c'
      have := total_sub ht ho c'
      rw [total_add ht']
      by_cases e : c' = c
      · rw [if_pos e] at this ⊢; omega
      · rw [if_neg e] at this ⊢; omega
    refine ⟨fun c' hc' => ?_, fun u c' hp' => ?_, fun c' hc' k hk => ?_, done_snoc h (fun _ h => h) (fun c' hc' => by cases hc') (fun _ _ e => by cases e)⟩
    · dsimp only at hc' ⊢
      rw [htot] at hc' ⊢
      exact h.owned c' hc'
    · dsimp only at hp' ⊢
      obtain ⟨p1, p2, p3, p4, p5⟩ := h.pend u c' hp'
      refine ⟨p1, p2, by rw [htot]; exact p3, p4, fun k hk => ?_⟩
      rcases touch_snoc hk with hk | ⟨rfl, hk'⟩
      · rw [emap]; exact (p5 k hk).mono _
      · cases hk'
    · dsimp only at hc' ⊢
      rw [htot] at hc'
      rw [emap]
      rcases touch_snoc hk with hk | ⟨rfl, hk'⟩
      · rcases h.carry c' hc' k hk with hc | ⟨u, q1, q2, q3⟩
        · exact .inl (hc.mono _)
        · by_cases e : u = t ∧ c' = c
          · obtain ⟨rfl, rfl⟩ := e
            exact .inr ⟨t', ht', by simp [Own.add], known_of (.inr (q3.last rfl)) (.inr rfl)⟩
          · refine .inr ⟨u, q1, ?_, q3.mono _⟩
            simp only [Own.add, Own.sub, if_neg e]
            split <;> omega
      · cases hk'

theorem exec_inv {O : Orders} (hO : O.decAcq = true ∧ O.decRel = true) {n : Nat} {w : Own} (hw : ∀ i, w.total n i < 2 ^ 32)
    {H : List Lab} {s : St} (h : Exec n (start n w) H s) : Inv O n H s := by
  induction h with
  | nil => exact start_inv O hw
  | snoc _ hs ih => exact step_inv hO ih hs

end Gtl.Intrusive.Order
