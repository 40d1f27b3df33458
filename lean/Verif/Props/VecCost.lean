import Verif.Vec.Cost
import Verif.Props.Vector
import Mathlib.Tactic.Ring
/-
C84: what growing a `gtl::vector` costs. `moved i w w'` is read off `data()`, `capacity()` and
`size()`; `Path t i w ops n w'` says that the operations `ops` lead from `w` to `w'` and move `n`
elements of vector `i` to another buffer in all.
-/
namespace Gtl.Props.VecCost
open Gtl.Vec Gtl.Spec.Seq Gtl.Props.Vector

variable {α : Type} {t : Traits α} {w w' : World α}

/-- C84: from any state a program reaches, whatever insertions and removals follow, of single
elements, of copies or of ranges, at whatever positions, mixed with uses of other vectors: the elements moved to a new
buffer are in all at most three times those added, and the size at the beginning. -/
theorem C84_growth_amortised (hs : Sane t) (hr : Reach t w) {i : Nat} {l : List α} (hl : view w i = some l) {ops : List (Op α)}
    (hg : ∀ op ∈ ops, op.gradual i = true) {n : Nat} (hp : Path t i w ops n w') : n ≤ 3 * totalAdds i ops + l.length := by
  obtain ⟨v, hv, g⟩ := (hr.inv hs).vec hl
  have h := path_paid hs hp hr hv hg
  have e1 : v.e = l.length := g.size
  have e2 : l.length ≤ v.z := g.cap
  unfold saved at h
  omega

/-- C84: in particular a vector made of `k` calls of `push_back` moved at most `3 * k` elements. -/
theorem C84_push_back (hs : Sane t) (hr : Reach t w) {i : Nat} (hl : view w i = some []) (xs : List (Arg α)) {n : Nat}
    (hp : Path t i w (xs.map (Op.pushBack i)) n w') : n ≤ 3 * xs.length := by
  have h := C84_growth_amortised hs hr hl (fun op ho => by
    obtain ⟨x, _, rfl⟩ := List.mem_map.mp ho
    rfl) hp
  have e : totalAdds i (xs.map (Op.pushBack i)) = xs.length := by
    unfold totalAdds
    rw [List.map_map]
    have : (Op.adds i ∘ Op.pushBack i : Arg α → Nat) = fun _ => 1 := by funext x; simp [Op.adds]
    rw [this]
    simp
  rw [e] at h
  simpa using h

/-! ### `resize` -/

/-- `resize(a + 1)`, `resize(a + 2)`, ..., `resize(a + m)` of vector 0. -/
def stepwise (a m : Nat) : List (Op α) := (List.range' (a + 1) m).map (Op.resize 0)

theorem resize_once (hs : Sane t) (hr : Reach t w) (hc : ∀ i, w.luck i = false) {l : List α} (hl : view w 0 = some l)
    (hz : capacity w 0 = some l.length) (hb : ¬ Big t (2 * l.length + 1)) :
    ∃ a w' l', Fair t (view w) (.resize 0 (l.length + 1)) ∧ step t w (.resize 0 (l.length + 1)) = .ok a w' ∧ Reach t w' ∧
      (∀ i, w'.luck i = false) ∧ view w' 0 = some l' ∧ l'.length = l.length + 1 ∧ capacity w' 0 = some (l.length + 1) ∧
      moved 0 w w' = l.length := by
  obtain ⟨v, hv, g⟩ := (hr.inv hs).vec hl
  have hsmall : (l.length + 1) * t.size < 2 ^ 63 := by
    unfold Big at hb
    have : (l.length + 1) * t.size ≤ (2 * (2 * l.length + 1) + 65) * t.size := Nat.mul_le_mul_right _ (by omega)
    omega
  have hf : Fair t (view w) (.resize 0 (l.length + 1)) := ⟨.inl (by simp [effect, hl]), hsmall, trivial⟩
  obtain ⟨a, w', e1, e2, e3, e4⟩ := C45_ends_partial hs hr hf hc (by simpa [extent, target, hl, count, Nat.two_mul, Nat.add_assoc] using hb) rfl
  simp only [effect, hl, Option.map_some, Option.some.injEq, Prod.mk.injEq] at e2
  obtain ⟨_, s', h1, h2⟩ := on_result (f := fun _ => .unit) hv (resize_ok g hs.pos (by omega) rfl) e1
  have hcap : capacity w' 0 = some (l.length + 1) := by
    rw [capacity, hv, Option.map_some, Option.some.injEq] at hz
    rw [capacity, h1, Option.map_some, h2.2.2]
    show some (max (l.length + 1) v.z) = _
    rw [hz]
    simp
  refine ⟨a, w', _, hf, e1, e3, e4, by rw [← e2.1]; exact if_pos rfl, by simp, hcap, ?_⟩
  unfold moved
  rw [if_neg (by rw [hcap, hz]; simp), hl]
  rfl

/-- C84, outside the claim: `resize` asks for exactly what it needs. A vector grown by one element at a time
with `resize` moves all of its elements every time, `k * (k - 1) / 2` for `k` calls. -/
theorem C84_resize_quadratic (hs : Sane t) (k : Nat) (hb : ¬ Big t (2 * k)) :
    ∃ n w', Path t 0 (World.init fun _ => false) (.create 0 :: stepwise 0 k) n w' ∧ 2 * n = k * (k - 1) := by
  have key : ∀ (m : Nat) (w : World α) (l : List α), Reach t w → (∀ i, w.luck i = false) → view w 0 = some l →
      capacity w 0 = some l.length → ¬ Big t (2 * (l.length + m)) →
      ∃ n w', Path t 0 w (stepwise l.length m) n w' ∧ 2 * n + l.length * (l.length - 1) = (l.length + m) * (l.length + m - 1) := by
    intro m
    induction m with
    | zero => exact fun w l _ _ _ _ _ => ⟨0, w, .nil w, by simp⟩
    | succ m ih =>
      intro w l hr hc hl hz hb
      obtain ⟨a, w', l', h1, h2, h3, h4, h5, h6, h7, h8⟩ := resize_once hs hr hc hl hz (fun h => hb (h.mono (by omega)))
      obtain ⟨n, w'', h9, h10⟩ := ih w' l' h3 h4 h5 (by rw [h7, h6]) (fun h => hb (h.mono (by omega)))
      rw [h6] at h9 h10
      refine ⟨l.length + n, w'', ?_, ?_⟩
      · have := Path.cons h1 h2 h9
        rw [h8] at this
        exact this
      · have e1 : l.length + 1 + m = l.length + (m + 1) := by omega
        rw [e1] at h10
        rw [← h10]
        have e2 : (l.length + 1) * (l.length + 1 - 1) = l.length * (l.length - 1) + 2 * l.length := by
          cases l.length with
          | zero => rfl
          | succ x => simp only [Nat.add_sub_cancel]; ring
        rw [e2]
        omega
  have hf : Fair t (view (World.init (α := α) fun _ => false)) (.create 0) := ⟨.inl rfl, by simp [count], trivial⟩
  have h0 : step t (World.init fun _ => false) (.create 0) = .ok .unit ((World.init fun _ => false).after 0 ((World.init fun _ => false).state ⟨none, 0, 0⟩) (some ⟨none, 0, 0⟩)) := rfl
  obtain ⟨n, w', h1, h2⟩ := key k _ [] ((Reach.init _).ok hf h0) (fun _ => rfl) rfl rfl (by simpa using hb)
  have h3 := Path.cons (i := 0) hf h0 h1
  refine ⟨_, w', h3, ?_⟩
  have h4 : ∀ w' : World α, moved 0 (World.init fun _ => false) w' = 0 := fun w' => by
    unfold moved
    split <;> rfl
  rw [h4]
  simpa using h2

/-! ### The hypotheses are met -/

/-- Eleven strings appended one by one, one taken away, two copies put in front. -/
def someOps : List (Op Nat) :=
  (List.range 11).map (fun k => .pushBack 0 (.ext k)) ++ [.popBack 0, .insertFill 0 0 2 (.elem 0 3), .erase 0 1 4, .pushBack 0 (.elem 0 0)]

/-- A path to be computed. -/
def path? (t : Traits α) (i : Nat) (w : World α) : List (Op α) → Option Nat
  | [] => some 0
  | op :: ops =>
    match step t w op with
    | .ok _ w' => (path? t i w' ops).map (moved i w w' + ·)
    | _ => none

theorem path_of (hs : Sane t) {i : Nat} : ∀ {ops : List (Op α)} {w : World α} {n : Nat}, Reach t w → (∀ i, w.luck i = false) →
    FairRun t (view w) ops → path? t i w ops = some n → ∃ w', Path t i w ops n w'
  | [], w, n, _, _, _, h => by
    injection h with h
    subst h
    exact ⟨w, .nil w⟩
  | op :: ops, w, n, hr, hc, hf, h => by
    obtain ⟨⟨h1, h2, h3⟩, h4⟩ := hf
    unfold path? at h
    cases hstep : step t w op with
    | ub => rw [hstep] at h; cases h
    | thrown x w' => rw [hstep] at h; cases h
    | ok a w' =>
      rw [hstep] at h
      dsimp only at h
      cases he : effect t.dflt (view w) op with
      | none => rw [he] at h4; exact h4.elim
      | some p =>
        have hf : Fair t (view w) op := ⟨.inl (by rw [he]; rfl), h1, h2⟩
        have h5 := (C45_effect_partial hs hr hf).2 a w' hstep
        rw [h5] at h4
        have h6 := step_calm t hc op
        rw [hstep] at h6
        cases h7 : path? t i w' ops with
        | none => rw [h7] at h; cases h
        | some m =>
          rw [h7, Option.map_some, Option.some.injEq] at h
          subst h
          obtain ⟨w'', h8⟩ := path_of hs (hr.ok hf hstep) h6 h4 h7
          exact ⟨w'', .cons hf hstep h8⟩

set_option maxRecDepth 20000 in
example : ∃ n w w', view w 0 = some [] ∧ Reach strings w ∧ Path strings 0 w someOps n w' ∧ n = 12 ∧ totalAdds 0 someOps = 14 := by
  have hf : Fair strings (view (World.init (α := Nat) fun _ => false)) (.create 0) := ⟨.inl rfl, by simp [count], trivial⟩
  have h0 : step strings (World.init fun _ => false) (.create 0) = .ok .unit ((World.init fun _ => false).after 0 ((World.init fun _ => false).state ⟨none, 0, 0⟩) (some ⟨none, 0, 0⟩)) := rfl
  obtain ⟨w', hw⟩ := path_of strings_sane (i := 0) (ops := someOps) (n := 12) ((Reach.init _).ok hf h0) (fun _ => rfl)
    (by decide +kernel) (by decide +kernel)
  exact ⟨12, _, w', rfl, (Reach.init _).ok hf h0, hw, rfl, by decide⟩

example : Sane ints ∧ ¬ Big ints (2 * 1000000000000) := ⟨ints_sane, by unfold Big; decide⟩

end Gtl.Props.VecCost
