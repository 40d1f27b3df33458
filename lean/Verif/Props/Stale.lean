import Verif.Utils.Stale
/-!
# Property theorems C124: timestamps tell what is out of date
-/

namespace Gtl.Props.Stale

open Gtl.Timestamp
open Gtl.Spec.Stale

/-! ## Glue -/

/-- Object `i` last changed at position `p`. -/
def Last (c : List Nat) (i p : Nat) : Prop := c[p]? = some i ∧ ∀ q : Nat, p < q → c[q]? ≠ some i

/-- The stamps are the positions of the last changes. -/
structure Inv (w : World) (n : Nat) (c : List Nat) : Prop where
  clock : w.clock = c.length
  count : w.stamps.length = n
  last : ∀ i, i < n → ∃ p, Last c i p ∧ w.get i = p + 1

theorem last_new (c : List Nat) (i : Nat) : Last (c ++ [i]) i c.length := by
  refine ⟨by simp, fun q hq => ?_⟩
  rw [List.getElem?_eq_none (by simp; omega)]
  simp

theorem last_old {c : List Nat} {i j p : Nat} (h : Last c i p) (hij : i ≠ j) : Last (c ++ [j]) i p := by
  have hp : p < c.length := (List.getElem?_eq_some_iff.1 h.1).1
  refine ⟨by rw [List.getElem?_append_left hp]; exact h.1, fun q hq => ?_⟩
  by_cases hc : q < c.length
  · rw [List.getElem?_append_left hc]; exact h.2 q hq
  · rw [List.getElem?_append_right (by omega)]
    intro e
    have := List.mem_of_getElem? e
    rw [List.mem_singleton] at this
    exact hij this

theorem inv_touch {w : World} {n : Nat} {c : List Nat} (h : Inv w n c) (hb : c.length + 1 < 2 ^ 64) {i : Nat} (hi : i < n) :
    Inv ((tick w).1.put i (tick w).2) n (c ++ [i]) := by
  have hm : (w.clock + 1) % 2 ^ 64 = c.length + 1 := by rw [h.clock]; exact Nat.mod_eq_of_lt hb
  unfold tick World.put
  simp only [hm]
  refine ⟨by simp, by simp [h.count], fun j hj => ?_⟩
  by_cases e : j = i
  · subst e
    refine ⟨c.length, last_new c j, ?_⟩
    unfold World.get
    simp [h.count, hj]
  · obtain ⟨p, g1, g2⟩ := h.last j hj
    refine ⟨p, last_old g1 e, ?_⟩
    rw [← g2]
    unfold World.get
    simp only [List.getD_eq_getElem?_getD]
    rw [List.getElem?_set_ne (fun x => e x.symm)]

theorem inv_create {w : World} {n : Nat} {c : List Nat} (h : Inv w n c) (hb : c.length + 1 < 2 ^ 64) (hn : n ∉ c) :
    Inv (w.step .create).1 (n + 1) (c ++ [n]) := by
  have hm : (w.clock + 1) % 2 ^ 64 = c.length + 1 := by rw [h.clock]; exact Nat.mod_eq_of_lt hb
  unfold World.step tick
  simp only [hm]
  refine ⟨by simp, by simp [h.count], fun j hj => ?_⟩
  by_cases e : j = n
  · subst e
    refine ⟨c.length, last_new c j, ?_⟩
    unfold World.get
    simp [← h.count]
  · obtain ⟨p, g1, g2⟩ := h.last j (by omega)
    refine ⟨p, last_old g1 e, ?_⟩
    rw [← g2]
    unfold World.get
    simp only [List.getD_eq_getElem?_getD]
    rw [List.getElem?_append_left (by rw [h.count]; omega)]

theorem run_inv : ∀ (as : List Act) {w : World} {n : Nat} {c : List Nat}, Inv w n c → (∀ i ∈ c, i < n) → Valid n as →
    (c ++ changes n as).length < 2 ^ 64 → Inv (w.run (as.map toOp)).1 (count n as) (c ++ changes n as)
  | [], w, n, c, h, _, _, _ => by
    simp only [changes, List.append_nil]
    exact h
  | .create :: as, w, n, c, h, hc, hv, hb => by
    simp only [changes, List.length_append, List.length_cons] at hb
    have h1 := inv_create h (by omega) (fun x => by have := hc n x; omega)
    have h2 := run_inv as (c := c ++ [n]) h1 (fun i hi => by
      rcases List.mem_append.1 hi with hi | hi
      · have := hc i hi; omega
      · rw [List.mem_singleton] at hi; omega) hv (by simp only [List.length_append, List.length_cons, List.length_nil]; omega)
    rw [List.append_assoc] at h2
    exact h2
  | .touch i :: as, w, n, c, h, hc, hv, hb => by
    simp only [changes, List.length_append, List.length_cons] at hb
    have h1 := inv_touch h (by omega) hv.1
    have h2 := run_inv as (c := c ++ [i]) h1 (fun j hj => by
      rcases List.mem_append.1 hj with hj | hj
      · exact hc j hj
      · rw [List.mem_singleton] at hj; subst hj; exact hv.1) hv.2
      (by simp only [List.length_append, List.length_cons, List.length_nil]; omega)
    rw [List.append_assoc] at h2
    exact h2
  | .set i old new :: as, w, n, c, h, hc, hv, hb => by
    by_cases e : old = new
    · simp only [changes, if_pos e] at hb ⊢
      have h2 := run_inv as h hc hv.2 hb
      show Inv (World.run (w.step (.setWithTs i old new)).1 (as.map toOp)).1 _ _
      have e2 : w.step (.setWithTs i old new) = (w, false) := by
        unfold World.step; simp [e]
      rw [e2]
      exact h2
    · simp only [changes, if_neg e, List.length_append, List.length_cons] at hb ⊢
      have h1 := inv_touch h (by omega) hv.1
      have h2 := run_inv as (c := c ++ [i]) h1 (fun j hj => by
        rcases List.mem_append.1 hj with hj | hj
        · exact hc j hj
        · rw [List.mem_singleton] at hj; subst hj; exact hv.1) hv.2
        (by simp only [List.length_append, List.length_cons, List.length_nil]; omega)
      rw [List.append_assoc] at h2
      show Inv (World.run (w.step (.setWithTs i old new)).1 (as.map toOp)).1 _ _
      have e2 : (w.step (.setWithTs i old new)).1 = (tick w).1.put i (tick w).2 := by
        unfold World.step; simp [e]
      rw [e2]
      exact h2

theorem init_inv : Inv World.init 0 [] := ⟨rfl, rfl, fun i hi => absurd hi (Nat.not_lt_zero _)⟩

theorem get_lt_iff {w : World} {n : Nat} {c : List Nat} (h : Inv w n c) {a b : Nat} (ha : a < n) (hb : b < n) :
    w.get b < w.get a ↔ ChangedAfter c a b := by
  obtain ⟨p, g1, g2⟩ := h.last a ha
  obtain ⟨q, k1, k2⟩ := h.last b hb
  rw [g2, k2]
  constructor
  · intro hlt
    exact ⟨p, g1.1, fun r hr => k1.2 r (by omega)⟩
  · rintro ⟨r, r1, r2⟩
    apply Nat.lt_of_not_le
    intro hle
    have hrp : r ≤ p := by
      apply Nat.le_of_not_lt
      intro x
      exact g1.2 r x r1
    exact r2 q (by omega) k1.1

theorem stampOf_max (w : World) : ∀ x : Whole, (∃ a ∈ x.parts, w.get a = w.stampOf x) ∧ ∀ a ∈ x.parts, w.get a ≤ w.stampOf x
  | .part i => ⟨⟨i, by simp [Whole.parts], rfl⟩, fun a ha => by
    simp only [Whole.parts, List.mem_singleton] at ha
    subst ha
    exact Nat.le_refl _⟩
  | .both x y => by
    obtain ⟨⟨a, a1, a2⟩, a3⟩ := stampOf_max w x
    obtain ⟨⟨b, b1, b2⟩, b3⟩ := stampOf_max w y
    simp only [World.stampOf, Whole.parts, List.mem_append]
    split
    · refine ⟨⟨a, .inl a1, a2⟩, ?_⟩
      rintro d (hd | hd)
      · exact a3 d hd
      · have := b3 d hd; omega
    · refine ⟨⟨b, .inr b1, b2⟩, ?_⟩
      rintro d (hd | hd)
      · have := a3 d hd; omega
      · exact b3 d hd

theorem stampOf_lt (w : World) (x y : Whole) :
    w.stampOf y < w.stampOf x ↔ ∃ a ∈ x.parts, ∀ b ∈ y.parts, w.get b < w.get a := by
  obtain ⟨⟨a, a1, a2⟩, a3⟩ := stampOf_max w x
  obtain ⟨⟨b, b1, b2⟩, b3⟩ := stampOf_max w y
  constructor
  · intro h
    exact ⟨a, a1, fun d hd => by have := b3 d hd; omega⟩
  · rintro ⟨d, d1, d2⟩
    have := d2 b b1
    have := a3 d d1
    omega

/-! ## C124 -/

/-- **Newer**: after any program (with less than `2^64` changes), `x.is_newer_than(y)` says whether some part of `x` changed
after everything in `y`. -/
theorem C124_newer (as : List Act) (hv : Valid 0 as) (hb : (changes 0 as).length < 2 ^ 64) (x y : Whole)
    (hx : ∀ i ∈ x.parts, i < count 0 as) (hy : ∀ i ∈ y.parts, i < count 0 as) :
    (World.init.run (as.map toOp)).1.isNewer x y = true ↔
      ∃ a ∈ x.parts, ∀ b ∈ y.parts, ChangedAfter (changes 0 as) a b := by
  have h := run_inv as init_inv (by simp) hv (by simpa using hb)
  rw [List.nil_append] at h
  unfold World.isNewer
  rw [decide_eq_true_iff, gt_iff_lt, stampOf_lt]
  constructor
  · rintro ⟨a, a1, a2⟩
    exact ⟨a, a1, fun b hb => (get_lt_iff h (hx a a1) (hy b hb)).1 (a2 b hb)⟩
  · rintro ⟨a, a1, a2⟩
    exact ⟨a, a1, fun b hb => (get_lt_iff h (hx a a1) (hy b hb)).2 (a2 b hb)⟩

/-- **Older** is the converse. -/
theorem C124_older (as : List Act) (hv : Valid 0 as) (hb : (changes 0 as).length < 2 ^ 64) (x y : Whole)
    (hx : ∀ i ∈ x.parts, i < count 0 as) (hy : ∀ i ∈ y.parts, i < count 0 as) :
    (World.init.run (as.map toOp)).1.isOlder x y = true ↔
      ∃ b ∈ y.parts, ∀ a ∈ x.parts, ChangedAfter (changes 0 as) b a := by
  have := C124_newer as hv hb y x hy hx
  unfold World.isNewer at this
  unfold World.isOlder
  exact this

/-- **Out of date**: something computed from `x`, whose timestamp `d` is touched whenever it is computed, is older than `x`
exactly if some part of `x` changed since it was computed. -/
theorem C124_stale (as : List Act) (hv : Valid 0 as) (hb : (changes 0 as).length < 2 ^ 64) (d : Nat) (x : Whole)
    (hd : d < count 0 as) (hx : ∀ i ∈ x.parts, i < count 0 as) :
    (World.init.run (as.map toOp)).1.isOlder (.part d) x = true ↔
      ∃ b ∈ x.parts, ChangedAfter (changes 0 as) b d := by
  rw [C124_older as hv hb (.part d) x (by simpa [Whole.parts] using hd) hx]
  simp [Whole.parts]

/-- So after computing it anew it is not out of date, and stays so while nothing in `x` is changed. -/
theorem C124_fresh (as bs : List Act) (d : Nat) (x : Whole) (hv : Valid 0 (as ++ .touch d :: bs))
    (hb : (changes 0 (as ++ .touch d :: bs)).length < 2 ^ 64) (hd : d < count 0 as) (hx : ∀ i ∈ x.parts, i < count 0 as)
    (hn : ∀ i ∈ x.parts, i ∉ changes (count 0 as) bs) :
    (World.init.run ((as ++ .touch d :: bs).map toOp)).1.isOlder (.part d) x = false := by
  have hchg : ∀ (as cs : List Act) (n : Nat), changes n (as ++ cs) = changes n as ++ changes (count n as) cs := by
    intro as
    induction as with
    | nil => intro cs n; rfl
    | cons a as ih =>
      intro cs n
      cases a with
      | create => simp [changes, count, ih]
      | touch i => simp [changes, count, ih]
      | set i old new =>
        simp only [List.cons_append, changes, count, ih]
        split <;> simp
  have hcnt : ∀ (as : List Act) (n : Nat), n ≤ count n as := by
    intro as
    induction as with
    | nil => intro n; exact Nat.le_refl _
    | cons a as ih =>
      intro n
      cases a with
      | create => exact Nat.le_trans (Nat.le_succ _) (ih (n + 1))
      | touch i => exact ih n
      | set i old new => exact ih n
  have hcount : ∀ (as cs : List Act) (n : Nat), count n (as ++ cs) = count (count n as) cs := by
    intro as
    induction as with
    | nil => intro cs n; rfl
    | cons a as ih =>
      intro cs n
      cases a <;> simp [count, ih]
  have hle : count 0 as ≤ count 0 (as ++ .touch d :: bs) := by rw [hcount]; exact hcnt _ _
  rw [← Bool.not_eq_true, C124_stale _ hv hb d x (by omega) (fun i hi => by have := hx i hi; omega)]
  rintro ⟨b, b1, p, p1, p2⟩
  have e : changes 0 (as ++ .touch d :: bs) = changes 0 as ++ d :: changes (count 0 as) bs := by rw [hchg]; rfl
  rw [e] at p1 p2
  have hpd : ¬ p ≤ (changes 0 as).length := fun x => p2 _ x (by simp)
  rw [List.getElem?_append_right (by omega)] at p1
  have hp1 : p - (changes 0 as).length = (p - (changes 0 as).length - 1) + 1 := by omega
  rw [hp1, List.getElem?_cons_succ] at p1
  exact hn b b1 (List.mem_of_getElem? p1)

/-! ## Concrete cases -/

/-- Two inputs and a result. The result is computed, the first input is set to the value it has, then the second changed. -/
def session : List Act := [.create, .create, .create, .touch 2, .set 0 7 7, .set 1 3 4]

/-- The hypotheses are met. The result is out of date because of the second input, but not the first. -/
example : Valid 0 session ∧ (changes 0 session).length < 2 ^ 64 ∧ count 0 session = 3 ∧
    (World.init.run (session.map toOp)).1.isOlder (.part 2) (.both (.part 0) (.part 1)) = true ∧
    (World.init.run (session.map toOp)).1.isOlder (.part 2) (.part 0) = false := by
  refine ⟨by simp [session, Valid], by decide, rfl, by decide, by decide⟩

end Gtl.Props.Stale
