import Verif.Intrusive.OrderProof
import Mathlib.Tactic.IntervalCases
/-!
# Property theorems C92: what happens before the deletion of a shared object
-/

namespace Gtl.Props.IntrusiveOrder

open Gtl.Spec.HB Gtl.Intrusive.Order
open Gtl.Intrusive.Threads (Own)

/-- The record as the memory model sees it, for the memory orders of the code. -/
def seen (H : List Lab) : List Ev := H.map (Lab.ev code)

/-- In every execution, by any number of threads, of any program that uses objects through pointers it owns: everything
that touches an object (uses, copies and destructions of pointers, `use_count`) happens before its deletion in the sense
of the memory model. So the deletion races with nothing, and sees everything the other owners wrote. -/
theorem C92_use_before_delete {n : Nat} {w : Own} (hw : ∀ i, w.total n i < 2 ^ 32) {H : List Lab} {s : St}
    (hx : Exec n (start n w) H s) {j t c : Nat} (hj : H[j]? = some (.del t c)) {k : Nat} {a : Lab} (hk : H[k]? = some a)
    (ha : a.touches = some c) (hne : k ≠ j) : Before (seen H) k j :=
  ((exec_inv (O := code) ⟨rfl, rfl⟩ hw hx).done j t c hj).2 k ⟨a, hk, ha⟩ hne

/-- Whoever owns the only pointer (`use_count()` returns 1 to an owner) is alone: nobody else owns one, and everything
that touched the object before, in any thread, happens before that call. So the object may be changed without a lock. -/
theorem C92_unique {n : Nat} {w : Own} (hw : ∀ i, w.total n i < 2 ^ 32) {H : List Lab} {s s' : St}
    (hx : Exec n (start n w) H s) {t c : Nat} (hs : Step n s (.count t c 1) s') :
    s.own t c = 1 ∧ (∀ t', t' < n → t' ≠ t → s.own t' c = 0) ∧
    ∀ (k : Nat) (a : Lab), H[k]? = some a → a.touches = some c → Before (seen (H ++ [.count t c 1])) k H.length := by
  have hi := exec_inv (O := code) ⟨rfl, rfl⟩ hw hx
  generalize hl : Lab.count t c 1 = l at hs
  cases hs with
  | @count t0 c0 ht hp ho =>
    injection hl with e1 e2 e3
    subst e1 e2
    obtain ⟨g1, -, -, -⟩ := hi.owned c (own_pos ht ho)
    have htot : s.own.total n c = 1 := by omega
    have hone := total_sub ht ho c
    rw [if_pos rfl, htot] at hone
    have hz : (s.own.sub t c).total n c = 0 := by omega
    have ho1 : s.own t c = 1 := by
      have := own_zero hz ht
      simp only [Own.sub, and_self, if_true] at this
      omega
    have hot : ∀ t', t' < n → t' ≠ t → s.own t' c = 0 := by
      intro t' ht' hne
      have := own_zero hz ht'
      simpa only [Own.sub, hne, false_and, if_false] using this
    refine ⟨ho1, hot, fun k a hk ha => ?_⟩
    have hlen : (H.map (Lab.ev code)).length = H.length := List.length_map _
    have e : seen (H ++ [.count t c (s.rc c)]) = H.map (Lab.ev code) ++ [Lab.ev code (.count t c (s.rc c))] := by simp [seen]
    rw [e, ← hlen]
    rcases hi.carry c (own_pos ht ho) k ⟨a, hk, ha⟩ with hc | ⟨t', q1, q2, q3⟩
    · exact hc.last ⟨rfl, rfl⟩
    · by_cases hne : t' = t
      · subst hne; exact q3.last rfl
      · have := hot t' q1 hne; omega
  | inc => cases hl
  | dec => cases hl
  | del => cases hl
  | use => cases hl
  | give => cases hl

/-- Whatever a thread touches exists at that moment. -/
theorem C92_alive {n : Nat} {w : Own} (hw : ∀ i, w.total n i < 2 ^ 32) {H : List Lab} {s s' : St} {a : Lab}
    (hx : Exec n (start n w) H s) (hs : Step n s a s') {c : Nat} (ha : a.touches = some c) : s.live c = true := by
  have hi := exec_inv (O := code) ⟨rfl, rfl⟩ hw hx
  cases hs with
  | inc ht _ ho _ => cases ha; exact (hi.owned _ (own_pos ht ho)).2.2.1
  | dec ht _ ho => cases ha; exact (hi.owned _ (own_pos ht ho)).2.2.1
  | del hp => cases ha; exact (hi.pend _ _ hp).2.1
  | use ht _ ho => cases ha; exact (hi.owned _ (own_pos ht ho)).2.2.1
  | count ht _ ho => cases ha; exact (hi.owned _ (own_pos ht ho)).2.2.1
  | give => cases ha

/-! ## An execution -/

/-- Two threads, a pointer to each object in each of them. -/
def two : Own := fun t _ => if t < 2 then 1 else 0

theorem two_total (i : Nat) : two.total 2 i = 2 := by
  simp [Own.total, two, Finset.sum_range_succ]

theorem two_ok (i : Nat) : two.total 2 i < 2 ^ 32 := by rw [two_total]; decide

/-- Thread 0 uses object 0, drops its pointer; thread 1 sees that it is alone, drops its pointer and deletes. -/
def story : List Lab := [.use 0 0, .dec 0 0, .count 1 0 1, .dec 1 0, .del 1 0]

/-- The state after it. -/
theorem story_runs : ∃ s, Exec 2 (start 2 two) story s ∧ s.live 0 = false := by
  have e1 : Step 2 (start 2 two) (.use 0 0) (start 2 two) := .use (by decide) rfl (by decide)
  have e2 := Step.dec (n := 2) (s := start 2 two) (t := 0) (c := 0) (by decide) rfl (by decide)
  have hrc : (start 2 two).rc 0 = 2 := two_total 0
  have hw : Gtl.Intrusive.wrap (2 + (2 ^ 32 - 1)) = 1 := by decide
  rw [hrc, hw, if_neg (by decide)] at e2
  generalize hs2 : ({ start 2 two with rc := set (start 2 two).rc 0 1, own := (start 2 two).own.sub 0 0, pend := (start 2 two).pend } : St) = s2 at e2
  have h2 : s2.rc 0 = 1 ∧ s2.own 1 0 = 1 ∧ s2.pend = fun _ => none := by subst hs2; exact ⟨rfl, by decide, rfl⟩
  have e3 := Step.count (n := 2) (s := s2) (t := 1) (c := 0) (by decide) (by rw [h2.2.2]) (by rw [h2.2.1]; decide)
  rw [h2.1] at e3
  have e4 := Step.dec (n := 2) (s := s2) (t := 1) (c := 0) (by decide) (by rw [h2.2.2]) (by rw [h2.2.1]; decide)
  have hw' : Gtl.Intrusive.wrap (1 + (2 ^ 32 - 1)) = 0 := by decide
  rw [h2.1, hw', if_pos rfl] at e4
  have e5 := Step.del (n := 2) (s := { s2 with rc := set s2.rc 0 0, own := s2.own.sub 1 0, pend := set s2.pend 1 (some 0) }) (t := 1) (c := 0) rfl
  exact ⟨_, .snoc (.snoc (.snoc (.snoc (.snoc .nil e1) e2) e3) e4) e5, rfl⟩

/-- The hypotheses are met: the use of thread 0 happens before the deletion by thread 1. -/
example : ∃ n w H s, (∀ i, Own.total n w i < 2 ^ 32) ∧ Exec n (start n w) H s ∧ H[0]? = some (.use 0 0) ∧ H[4]? = some (.del 1 0) ∧
    Before (seen H) 0 4 := by
  obtain ⟨s, hs, -⟩ := story_runs
  exact ⟨2, two, story, s, two_ok, hs, rfl, rfl,
    C92_use_before_delete two_ok hs (j := 4) rfl (k := 0) rfl rfl (by decide)⟩

/-! ## The memory orders are needed -/

theorem back {tr : List Ev} {S : Nat → Prop} (h : ∀ i j, Edge tr i j → S j → S i) {i j : Nat} (hb : Before tr i j) (hj : S j) : S i := by
  induction hb with
  | single he => exact h _ _ he hj
  | tail _ he ih => exact ih (h _ _ he hj)

def bare : List Lab := [.use 0 0, .dec 0 0, .dec 1 0, .del 1 0]

theorem bare_runs : ∃ s, Exec 2 (start 2 two) bare s := by
  have e1 : Step 2 (start 2 two) (.use 0 0) (start 2 two) := .use (by decide) rfl (by decide)
  have e2 := Step.dec (n := 2) (s := start 2 two) (t := 0) (c := 0) (by decide) rfl (by decide)
  have hrc : (start 2 two).rc 0 = 2 := two_total 0
  have hw : Gtl.Intrusive.wrap (2 + (2 ^ 32 - 1)) = 1 := by decide
  rw [hrc, hw, if_neg (by decide)] at e2
  generalize hs2 : ({ start 2 two with rc := set (start 2 two).rc 0 1, own := (start 2 two).own.sub 0 0, pend := (start 2 two).pend } : St) = s2 at e2
  have h2 : s2.rc 0 = 1 ∧ s2.own 1 0 = 1 ∧ s2.pend = fun _ => none := by subst hs2; exact ⟨rfl, by decide, rfl⟩
  have e4 := Step.dec (n := 2) (s := s2) (t := 1) (c := 0) (by decide) (by rw [h2.2.2]) (by rw [h2.2.1]; decide)
  have hw' : Gtl.Intrusive.wrap (1 + (2 ^ 32 - 1)) = 0 := by decide
  rw [h2.1, hw', if_pos rfl] at e4
  have e5 := Step.del (n := 2) (s := { s2 with rc := set s2.rc 0 0, own := s2.own.sub 1 0, pend := set s2.pend 1 (some 0) }) (t := 1) (c := 0) rfl
  exact ⟨_, .snoc (.snoc (.snoc (.snoc .nil e1) e2) e4) e5⟩

/-- With any weaker order on the decrement, one that does not acquire or does not release, there is an execution in which
a use does not happen before the deletion, whatever the order of the increment is. -/
theorem C92_needed (O : Orders) (hO : O.decAcq = false ∨ O.decRel = false) :
    ∃ n w H s, (∀ i, Own.total n w i < 2 ^ 32) ∧ Exec n (start n w) H s ∧
      H[0]? = some (.use 0 0) ∧ H[3]? = some (.del 1 0) ∧ ¬ Before (H.map (Lab.ev O)) 0 3 := by
  obtain ⟨s, hs⟩ := bare_runs
  refine ⟨2, two, bare, s, two_ok, hs, rfl, rfl, fun hb => ?_⟩
  have := back (S := fun i => 2 ≤ i) (fun i j he hj => ?_) hb (by decide)
  · exact absurd this (by decide)
  · obtain ⟨hlt, a, b, ha, hb, h⟩ := he
    have hj4 : j < 4 := (List.getElem?_eq_some_iff.1 hb).1
    by_contra hi
    have hi2 : i < 2 := by omega
    interval_cases i <;> interval_cases j <;> simp [bare, Lab.ev] at ha hb <;> subst ha <;> subst hb <;>
      simp [Act.Releases, Act.Acquires, Act.Unlocks] at h <;> (rcases hO with hO | hO <;> simp_all)

/-- With the order `memory_order_acq_rel` for the decrement, any order is good enough for the increment. -/
theorem C92_orders {O : Orders} (hO : O.decAcq = true ∧ O.decRel = true) {n : Nat} {w : Own} (hw : ∀ i, w.total n i < 2 ^ 32)
    {H : List Lab} {s : St} (hx : Exec n (start n w) H s) {j t c : Nat} (hj : H[j]? = some (.del t c)) {k : Nat} {a : Lab}
    (hk : H[k]? = some a) (ha : a.touches = some c) (hne : k ≠ j) : Before (H.map (Lab.ev O)) k j :=
  ((exec_inv hO hw hx).done j t c hj).2 k ⟨a, hk, ha⟩ hne

end Gtl.Props.IntrusiveOrder
