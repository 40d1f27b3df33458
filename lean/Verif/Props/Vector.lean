import Verif.Vec.View
/-
C45, C57-C59: `gtl::vector`. The specification is `Verif/Spec/Seq.lean`; `view w` are the elements all
vectors show, `Reach t w` the states programs get into.
-/
namespace Gtl.Props.Vector
open Gtl.Vec Gtl.Spec.Seq

variable {α : Type} {t : Traits α} {w w' : World α} {op : Op α} {a : Ans α} {x : Exc}

/-! ### C45: operations are those of sequences -/

/-- C45, partial: no operation has undefined behaviour, and when it ends normally it has changed the
elements of all vectors as the specification says and returned what the specification says; also
when the value inserted, filled in or assigned is an element of the vector itself.
Not covered, because it is wrong there (see below): `emplace` of the vector's own element, requests
that overflow `size_t`, types whose zero bytes are not the value-initialised object, and
`shrink_to_fit` for types that can neither be copied nor moved without exceptions. -/
theorem C45_effect_partial (hs : Sane t) (hr : Reach t w) (hf : Fair t (view w) op) :
    step t w op ≠ .ub ∧ ∀ a w', step t w op = .ok a w' → effect t.dflt (view w) op = some (view w', a) := by
  have h := hr.outcome hs hf
  refine ⟨fun e => by rw [e] at h; exact h, fun a w' e => ?_⟩
  rw [e] at h
  obtain ⟨σ', h1, h2⟩ := h
  rw [hs.initial] at h1
  rw [h1, h2.view]

/-- When no constructor, assignment or allocation throws and the request is not near half of the
address space, the operation does end normally. -/
theorem C45_ends_partial (hs : Sane t) (hr : Reach t w) (hf : Fair t (view w) op) (hc : ∀ i, w.luck i = false)
    (hb : ¬ Big t (extent (view w) op)) (hi : outOfRange (view w) op = false) :
    ∃ a w', step t w op = .ok a w' ∧ effect t.dflt (view w) op = some (view w', a) ∧ Reach t w' ∧ ∀ i, w'.luck i = false := by
  have h := hr.outcome hs hf
  have hcalm := step_calm t hc op
  cases e : step t w op with
  | ok a w' =>
    rw [e] at hcalm
    exact ⟨a, w', rfl, (C45_effect_partial hs hr hf).2 a w' e, .ok hr hf e, hcalm⟩
  | thrown x w' =>
    rw [e] at h hcalm
    obtain ⟨h1, h2, _⟩ := h
    cases x with
    | failed => exact absurd rfl hcalm.1
    | huge => exact absurd (h2 rfl) hb
    | range => rw [h1.mp rfl] at hi; cases hi
  | ub => rw [e] at h; exact h.elim

/-- What the specification makes of a program. -/
def specRun (dflt : α) (σ : Env α) : List (Op α) → Option (Env α × List (Ans α))
  | [] => some (σ, [])
  | op :: ops =>
    match effect dflt σ op with
    | some (σ', a) => (specRun dflt σ' ops).map fun r => (r.1, a :: r.2)
    | none => none

/-- All operations of the program keep the rules. -/
def FairRun (t : Traits α) (σ : Env α) : List (Op α) → Prop
  | [] => True
  | op :: ops => (count op * t.size < 2 ^ 63 ∧ Supported t σ op ∧ ¬ Big t (extent σ op)) ∧
      match effect t.dflt σ op with
      | some (σ', _) => FairRun t σ' ops
      | none => False

/-- C45, partial: programs of any length give the answers and the final elements of the specification. -/
theorem C45_program_partial (hs : Sane t) (ops : List (Op α)) (hf : FairRun t (fun _ => none) ops) :
    ∃ w as, run t (World.init fun _ => false) ops = some (w, as) ∧ specRun t.dflt (fun _ => none) ops = some (view w, as) := by
  have key : ∀ (ops : List (Op α)) (w : World α), Reach t w → (∀ i, w.luck i = false) → FairRun t (view w) ops →
      ∃ w' as, run t w ops = some (w', as) ∧ specRun t.dflt (view w) ops = some (view w', as) := by
    intro ops
    induction ops with
    | nil => exact fun w _ _ _ => ⟨w, [], rfl, rfl⟩
    | cons op ops ih =>
      intro w hr hc hf
      obtain ⟨⟨h1, h2, h3⟩, h4⟩ := hf
      cases he : effect t.dflt (view w) op with
      | none => rw [he] at h4; exact h4.elim
      | some p =>
        obtain ⟨σ', a⟩ := p
        rw [he] at h4
        have hin : outOfRange (view w) op = false := by
          cases op <;> try rfl
          rename_i i k
          simp only [effect] at he
          cases hl : view w i with
          | none => simp [outOfRange, hl]
          | some l =>
            rw [hl] at he
            by_cases hk : k < l.length
            · simpa [outOfRange, hl] using hk
            · rw [Option.bind_some, List.getElem?_eq_none (by omega)] at he; cases he
        obtain ⟨a', w', e1, e2, e3, e4⟩ := C45_ends_partial hs hr ⟨.inl (by rw [he]; rfl), h1, h2⟩ hc h3 hin
        rw [he] at e2
        injection e2 with e2
        injection e2 with e5 e6
        subst e5 e6
        obtain ⟨w2, as, r1, r2⟩ := ih w' e3 e4 h4
        exact ⟨w2, a :: as, by simp only [run, e1, r1, Option.map_some], by simp only [specRun, he, r2, Option.map_some]⟩
  have := key ops (World.init fun _ => false) (.init _) (fun _ => rfl) (by rw [(Inv.init t fun _ => false).view]; exact hf)
  rwa [(Inv.init t fun _ => false).view] at this

/-- `size() <= capacity()`, and `size()` is the number of elements. -/
theorem C45_size_le_capacity (hs : Sane t) (hr : Reach t w) {i : Nat} {l : List α} (hl : view w i = some l) :
    ∃ c, capacity w i = some c ∧ l.length ≤ c := by
  obtain ⟨v, h1, h2⟩ := (hr.inv hs).vec hl
  exact ⟨v.z, by simp [capacity, h1], h2.cap⟩

/-! ### C57: exceptions -/

/-- C57: an operation that throws has left all other vectors alone and its own in order; with the
strong guarantee nothing has changed. `out_of_range` is thrown by `at` exactly when it should be. -/
theorem C57_exception_safety (hs : Sane t) (hr : Reach t w) (hf : Fair t (view w) op) (he : step t w op = .thrown x w') :
    AfterThrow (Safe t) (view w) op (view w') ∧ (x = .range ↔ outOfRange (view w) op = true) ∧
      (x = .huge → Big t (extent (view w) op)) := by
  have h := hr.outcome hs hf
  rw [he] at h
  obtain ⟨h1, h2, σ', h3, h4⟩ := h
  rw [h4.view]
  exact ⟨h3, h1, h2⟩

/-- `at` out of range throws `out_of_range` and nothing changes. -/
theorem C57_at (hs : Sane t) (hr : Reach t w) {i k : Nat} {l : List α} (hl : view w i = some l) (hk : l.length ≤ k) :
    ∃ w', step t w (.at_ i k) = .thrown .range w' ∧ view w' = view w := by
  obtain ⟨v, h1, g⟩ := (hr.inv hs).vec hl
  have he : v.e ≤ k := by have : v.e = l.length := g.size; omega
  have hat : value (at_ k) (w.state v) = .thrown .range (w.state v) := by
    have : (if v.e ≤ k then (M.throw .range : M α α) else index k) (w.state v) = .thrown .range (w.state v) := by
      rw [if_pos he]; rfl
    show M.bind (at_ k) _ (w.state v) = _
    unfold M.bind
    rw [show at_ k (w.state v) = (if v.e ≤ k then (M.throw .range : M α α) else index k) (w.state v) from rfl, this]
  refine ⟨w.after i (w.state v) (some v), ?_, ?_⟩
  · simp only [step, World.on, h1, hat]
    rfl
  · have : w.after i (w.state v) (some v) = w := by
      unfold World.after World.state
      congr 1
      funext j
      split
      · rename_i e; rw [e, h1]
      · rfl
    rw [this]

/-! ### C58: memory -/

/-- C58: every block of memory in use is the buffer of exactly one vector, and the objects in it
are that vector's elements. -/
theorem C58_memory_owned (hs : Sane t) (hr : Reach t w) {p n : Nat} (hp : w.len p = some n) :
    ∃ i, data w i = some (some p) ∧ capacity w i = some n ∧ (∀ j, data w j = some (some p) → j = i) ∧
      (t.bits = false → ∃ l, view w i = some l ∧ ∀ (k : Nat), k < n → w.mem p k = l[k]?) := by
  have h := hr.inv hs
  obtain ⟨i, v, h1, h2⟩ := h.owned p n hp
  obtain ⟨l, h3, h4⟩ := h.good i v h1
  refine ⟨i, by simp [data, h1, h2], ?_, fun j hj => ?_, fun hb => ⟨l, h3, fun k hk => ?_⟩⟩
  · rcases h4.body with ⟨h5, _⟩ | ⟨q, h5, h6, h7, h8, _⟩
    · have : v.b = none := by rw [show v = _ from h5]
      rw [this] at h2; cases h2
    · have h5 : v.b = some q := h5
      rw [h5] at h2
      injection h2 with h2
      subst h2
      have h8 : w.len q = some v.z := h8
      rw [hp] at h8
      simp [capacity, h1, h8]
  · by_contra hc
    unfold data at hj
    cases hu : w.vecs j with
    | none => rw [hu] at hj; cases hj
    | some u =>
      rw [hu, Option.map_some, Option.some.injEq] at hj
      exact h.apart j i u v p hc hu h1 hj h2
  · rcases h4.body with ⟨h5, _⟩ | ⟨q, h5, h6, h7, h8, _, _, h9, h10⟩
    · have : v.b = none := by rw [show v = _ from h5]
      rw [this] at h2; cases h2
    · have h5 : v.b = some q := h5
      rw [h5] at h2
      injection h2 with h2
      subst h2
      have h8 : w.len q = some v.z := h8
      rw [hp] at h8
      injection h8 with h8
      by_cases hkl : k < l.length
      · have := h9 k hkl
        rwa [Nat.zero_add] at this
      · rw [List.getElem?_eq_none (by omega)]
        exact h10 hb k (by omega) (by show k < v.z; omega)

/-- C58: when all vectors are gone, so is all memory. -/
theorem C58_no_leak (hs : Sane t) (hr : Reach t w) (hn : ∀ i, view w i = none) (p : Nat) : w.len p = none := by
  cases hp : w.len p with
  | none => rfl
  | some n =>
    obtain ⟨i, h1, _⟩ := C58_memory_owned hs hr hp
    have := (hr.inv hs).absent (hn i)
    simp [data, this] at h1

/-! ### C59: capacity -/

/-- C59: an operation that needs no more room than there is keeps the buffer and the capacity, also
when it throws. -/
theorem C59_no_reallocation (hs : Sane t) (hr : Reach t w) {v : Vec}
    (hv : w.vecs (target op) = some v) (hfits : Fits (fun j => ((view w j).map List.length).getD 0) v op)
    (he : step t w op = .ok a w' ∨ step t w op = .thrown x w') :
    data w' (target op) = data w (target op) ∧ capacity w' (target op) = capacity w (target op) := by
  have hsz : (fun j => ((view w j).map List.length).getD 0) = fun j => ((w.vecs j).map Vec.e).getD 0 := by
    funext j
    unfold view
    cases hj : w.vecs j with
    | none => rfl
    | some u =>
      obtain ⟨l, _, h2⟩ := (hr.inv hs).good j u hj
      rw [Option.map_some, Option.map_some, h2.contents]
      exact h2.size.symm
  rw [hsz] at hfits
  have h := step_kept t hv hfits
  rcases he with he | he <;> rw [he] at h <;> obtain ⟨v', h1, h2, h3⟩ := h
  · simp [data, capacity, hv, h1, h2, h3]
  · simp [data, capacity, hv, h1, h2, h3]

/-- C59: no operation touches buffer, capacity or size of another vector, except `swap` and the two
moves. -/
theorem C59_others (h1 : ∀ i j, op ≠ .swap i j ∧ op ≠ .moveAssign i j ∧ op ≠ .createMove i j)
    (he : step t w op = .ok a w' ∨ step t w op = .thrown x w') {j : Nat} (hj : j ≠ target op) : w'.vecs j = w.vecs j := by
  have := step_others t (w := w) h1 hj
  rcases he with he | he <;> rw [he] at this <;> exact this

/-- C59: after `reserve(n)` the capacity is at least `n`, and exactly `n` when it has grown. -/
theorem C59_reserve (hs : Sane t) (hr : Reach t w) {i n : Nat} (hf : Fair t (view w) (.reserve i n))
    (he : step t w (.reserve i n) = .ok a w') : ∃ c c', capacity w i = some c ∧ capacity w' i = some c' ∧ c' = max n c := by
  have h := hr.inv hs
  rcases hf.allowed with h1 | h1
  · simp only [effect, Option.isSome_map] at h1
    obtain ⟨l, hl⟩ := Option.isSome_iff_exists.mp h1
    obtain ⟨v, hv, g⟩ := h.vec hl
    have hsm := hf.small
    simp only [count] at hsm
    obtain ⟨_, s', e1, e2⟩ := on_result (f := fun _ => .unit) hv (reserve_ok g hs.pos (by omega) (B := True) (fun _ => trivial)) he
    exact ⟨v.z, s'.vec.z, by simp [capacity, hv], by simp [capacity, e1], e2.2.2.1⟩
  · cases h1

/-- C59: `push_back` into a full vector makes the capacity at least one and a half times as large. -/
theorem C59_growth (hs : Sane t) (hr : Reach t w) {i : Nat} {y : Arg α} (hf : Fair t (view w) (.pushBack i y))
    (he : step t w (.pushBack i y) = .ok a w') :
    ∃ c c', capacity w i = some c ∧ capacity w' i = some c' ∧ (c' = c ∨ 3 * c ≤ 2 * c') ∧ 0 < c' := by
  have h := hr.inv hs
  rcases hf.allowed with h1 | h1
  · simp only [effect] at h1
    cases hl : view w i with
    | none => rw [hl] at h1; cases h1
    | some l =>
      cases hy : y.value (view w) with
      | none => simp [hl, hy] at h1
      | some b =>
        obtain ⟨v, hv, g⟩ := h.vec hl
        obtain ⟨z, e1, e2, _⟩ := h.arg hy i v (.inl hv)
        simp only [step] at he
        rw [src_eq e1] at he
        obtain ⟨_, s', e3, e4⟩ := on_result (f := fun _ => .unit) hv (pushBack_ok g e2 hs.pos hs.small (B := True) (fun _ _ => trivial)) he
        refine ⟨v.z, s'.vec.z, by simp [capacity, hv], by simp [capacity, e3], ?_⟩
        have e5 : s'.vec.z = if v.e = v.z then pushCap t v.z else v.z := e4.2.2
        have hz : v.e ≤ v.z := by have := g.cap; have := g.size; simp only [World.state] at *; omega
        rw [e5]
        by_cases hfull : v.e = v.z
        · rw [if_pos hfull]
          refine ⟨.inr ?_, by have := pushCap_gt t v.z; omega⟩
          unfold pushCap
          split
          · omega
          · split
            · omega
            · split <;> omega
        · rw [if_neg hfull]
          exact ⟨.inl rfl, by omega⟩
  · cases h1

/-! ### The hypotheses are met -/

/-- Elements of 16 bytes that can be copied, and moved with exceptions; a moved-from object is 0. -/
def strings : Traits Nat := ⟨false, false, false, false, false, 16, fun _ => 0, 7, 7⟩

/-- Plain integers of 8 bytes. -/
def ints : Traits Nat := ⟨true, true, false, true, true, 8, fun a => a, 0, 0⟩

theorem strings_sane : Sane strings := ⟨by decide, by decide, by decide⟩

theorem ints_sane : Sane ints := ⟨by decide, by decide, by decide⟩

instance {t : Traits α} {σ : Env α} {op : Op α} : Decidable (Supported t σ op) := by
  cases op <;> unfold Supported <;> try exact inferInstance
  unfold Safe
  exact inferInstance

instance decFairRun (t : Traits α) : ∀ (σ : Env α) (ops : List (Op α)), Decidable (FairRun t σ ops)
  | _, [] => .isTrue trivial
  | σ, op :: ops => by
    unfold FairRun
    cases effect t.dflt σ op with
    | none => exact .isFalse fun h => h.2
    | some p =>
      have := decFairRun t p.1 ops
      unfold Big
      exact inferInstance

/-- A program with two vectors, aliased arguments, growth, ranges, moves and destruction. -/
def exProgram : List (Op Nat) :=
  [.createRange 0 [.ext 1, .ext 2, .ext 3] false, .pushBack 0 (.elem 0 1), .pushBack 0 (.elem 0 0), .insert 0 1 (.elem 0 2),
   .insertFill 0 0 3 (.elem 0 4), .createCopy 1 0, .erase 1 1 4, .resize 1 9, .resizeWith 1 40 (.elem 1 2),
   .assignFill 0 2 (.elem 0 1), .insertRange 0 1 [.elem 1 1, .elem 1 2, .ext 9] true, .swap 0 1, .shrinkToFit 0,
   .eraseIf 0 (· == 2), .equal 0 1 (· == ·), .less 1 0 (· < ·), .size 0, .back 1, .drop 0, .moveAssign 1 1, .clear 1, .drop 1]

theorem exProgram_fair : FairRun strings (fun _ => none) exProgram ∧ FairRun ints (fun _ => none) exProgram := by
  constructor <;> decide +kernel

def Ans.nat : Ans Nat → Nat
  | .unit => 0
  | .val a => a
  | .num n => n
  | .bool b => if b then 1 else 0

/-- What it answers. -/
theorem exProgram_answers : (run strings (World.init fun _ => false) exProgram).map (fun r => r.2.map Ans.nat) =
    some [0, 0, 0, 1, 0, 0, 1, 0, 0, 0, 1, 0, 0, 0, 0, 1, 6, 2, 0, 0, 0, 0] := by decide +kernel

instance {d : α} {σ : Env α} {op : Op α} : Decidable (Allowed d σ op) := by unfold Allowed; exact inferInstance

instance {t : Traits α} {σ : Env α} {op : Op α} : Decidable (Fair t σ op) :=
  decidable_of_iff (Allowed t.dflt σ op ∧ count op * t.size < 2 ^ 63 ∧ Supported t σ op)
    ⟨fun h => ⟨h.1, h.2.1, h.2.2⟩, fun h => ⟨h.allowed, h.small, h.supported⟩⟩

/-- The world after a program that goes on when an operation has thrown. -/
def follow (t : Traits α) (w : World α) : List (Op α) → Option (World α)
  | [] => some w
  | op :: ops =>
    if Fair t (view w) op then
      match step t w op with
      | .ok _ w' | .thrown _ w' => follow t w' ops
      | .ub => none
    else none

theorem follow_reach (t : Traits α) : ∀ (ops : List (Op α)) (w w' : World α), Reach t w → follow t w ops = some w' → Reach t w'
  | [], w, w', hr, h => by injection h with h; rwa [← h]
  | op :: ops, w, w', hr, h => by
    unfold follow at h
    by_cases hf : Fair t (view w) op
    · rw [if_pos hf] at h
      cases he : step t w op with
      | ok a w1 => rw [he] at h; exact follow_reach t ops w1 w' (.ok hr hf he) h
      | thrown x w1 => rw [he] at h; exact follow_reach t ops w1 w' (.thrown hr hf he) h
      | ub => rw [he] at h; cases h
    · rw [if_neg hf] at h; cases h

/-- The `k`-th thing that may throw does. -/
def unlucky (k : Nat) : Nat → Bool := fun i => i == k

def exThrow : List (Op Nat) :=
  [.createRange 0 [.ext 1, .ext 2, .ext 3] false, .createRange 1 [.ext 4] false, .pushBack 0 (.elem 0 1)]

def exThrown : World Nat := (follow strings (World.init (unlucky 9)) exThrow).get (by decide +kernel)

theorem exThrown_reach : Reach strings exThrown := follow_reach _ exThrow _ _ (.init (unlucky 9)) (by simp [exThrown])

/-- The second copy made while `push_back` moves the elements to a new buffer fails. The vector has kept its
elements, its buffer and its capacity. -/
theorem exThrown_state : view exThrown 0 = some [1, 2, 3] ∧ view exThrown 1 = some [4] ∧ capacity exThrown 0 = some 3 ∧
    data exThrown 0 = some (some 0) ∧ exThrown.next = 3 ∧ exThrown.len 2 = none := by
  refine ⟨?_, ?_, ?_, ?_, ?_, ?_⟩ <;> decide +kernel

/-- Hypotheses of the theorems above at that state. -/
example : Fair strings (view exThrown) (.insert 0 1 (.elem 0 2)) ∧ Fair strings (view exThrown) (.reserve 1 50) ∧
    Fair strings (view exThrown) (.pushBack 0 (.elem 0 2)) ∧ Fits (fun _ => 0) ⟨some 0, 3, 3⟩ (Op.erase (α := Nat) 0 1 2) := by
  refine ⟨?_, ?_, ?_, trivial⟩ <;> decide +kernel

/-! ### Where it goes wrong -/

def isUb {σ β : Type} : Out σ β → Bool
  | .ub => true
  | _ => false

/-- A vector with room for more. -/
def roomy : World Nat := (follow strings (World.init fun _ => false)
  [.createRange 0 [.ext 1, .ext 2, .ext 3] false, .reserve 0 8]).get (by decide +kernel)

theorem roomy_reach : Reach strings roomy := follow_reach _ _ _ _ (.init _) (Option.some_get _).symm

/-- C45 is false of `emplace`: `v.emplace(v.begin(), v[0])` reads an object that has been destroyed, and
`v.emplace(v.begin(), v[2])` inserts another element's value, though `size() < capacity()`. -/
theorem C45_emplace_alias_false :
    (Allowed strings.dflt (view roomy) (.emplace 0 0 (.elem 0 0)) ∧ isUb (step strings roomy (.emplace 0 0 (.elem 0 0))) = true) ∧
    ∃ a w', step strings roomy (.emplace 0 0 (.elem 0 2)) = .ok a w' ∧ view w' 0 = some [2, 1, 2, 3] ∧
      (effect strings.dflt (view roomy) (.emplace 0 0 (.elem 0 2))).map (fun r => r.1 0) = some (some [3, 1, 2, 3]) := by
  refine ⟨⟨by decide +kernel, by decide +kernel⟩, ?_⟩
  have h : (match step strings roomy (.emplace 0 0 (.elem 0 2)) with
    | .ok _ w' => view w' 0
    | _ => none) = some [2, 1, 2, 3] := by decide +kernel
  cases e : step strings roomy (.emplace 0 0 (.elem 0 2)) with
  | ok a w' => rw [e] at h; exact ⟨a, w', rfl, h, by decide +kernel⟩
  | thrown x w' => rw [e] at h; cases h
  | ub => rw [e] at h; cases h

/-- Elements of 4 bytes. -/
def small : Traits Nat := ⟨true, true, false, true, true, 4, fun a => a, 0, 0⟩

def one : World Nat := (follow small (World.init fun _ => false) [.createFill 0 1 (.ext 5)]).get (by decide +kernel)

def empty : World Nat := (follow small (World.init fun _ => false) [.create 0]).get (by decide +kernel)

/-- For elements of 4 bytes `reserve(2^62)` writes outside its buffer, or with an empty vector returns
normally with capacity 0: `n * sizeof(T)` is 0 in `size_t`. `std::vector` throws `length_error`. The same
in `resize(2^62 + 1)`, which allocates one element. -/
theorem C45_overflow_false :
    (Allowed small.dflt (view one) (.reserve 0 (2 ^ 62)) ∧ isUb (step small one (.reserve 0 (2 ^ 62))) = true) ∧
    (∃ a w', step small empty (.reserve 0 (2 ^ 62)) = .ok a w' ∧ capacity w' 0 = some 0) ∧
    isUb (step small empty (.resize 0 (2 ^ 62 + 1))) = true := by
  refine ⟨⟨by decide +kernel, by decide +kernel⟩, ?_, by decide +kernel⟩
  have h : (match step small empty (.reserve 0 (2 ^ 62)) with
    | .ok _ w' => capacity w' 0
    | _ => none) = some 0 := by decide +kernel
  cases e : step small empty (.reserve 0 (2 ^ 62)) with
  | ok a w' => rw [e] at h; exact ⟨a, w', rfl, h⟩
  | thrown x w' => rw [e] at h; cases h
  | ub => rw [e] at h; cases h

/-- A type that is no class and whose value-initialised object (here 255) is not all zero bytes, such as a
pointer to a data member. -/
def memberPointer : Traits Nat := ⟨true, true, false, true, true, 8, fun a => a, 255, 0⟩

def noMembers : World Nat := (follow memberPointer (World.init fun _ => false) [.create 0]).get (by decide +kernel)

/-- C45 is false of `resize(n)` and `vector(n)` for such types: they fill in zero bytes. -/
theorem C45_memset_false : ∃ a w', step memberPointer noMembers (.resize 0 2) = .ok a w' ∧ view w' 0 = some [0, 0] ∧
    (effect memberPointer.dflt (view noMembers) (.resize 0 2)).map (fun r => r.1 0) = some (some [255, 255]) := by
  have h : (match step memberPointer noMembers (.resize 0 2) with
    | .ok _ w' => view w' 0
    | _ => none) = some [0, 0] := by decide +kernel
  cases e : step memberPointer noMembers (.resize 0 2) with
  | ok a w' => rw [e] at h; exact ⟨a, w', rfl, h, by decide +kernel⟩
  | thrown x w' => rw [e] at h; cases h
  | ub => rw [e] at h; cases h

/-- A type that cannot be copied and whose move constructor may throw. -/
def moveOnly : Traits Nat := ⟨false, false, true, false, false, 16, fun _ => 0, 7, 7⟩

/-- Two elements in a buffer for eight; the second move made by `shrink_to_fit` will throw. -/
def fragile : World Nat := (follow moveOnly (World.init (unlucky 5)) [.create 0, .reserve 0 8, .pushBack 0 (.ext 1), .pushBack 0 (.ext 2)]).get
  (by decide +kernel)

/-- C45 is false of `shrink_to_fit` for such types: it ends normally and has lost elements. -/
theorem C45_shrink_false : ∃ a w', step moveOnly fragile (.shrinkToFit 0) = .ok a w' ∧ view fragile 0 = some [1, 2] ∧ view w' 0 = some [0, 0] := by
  have h : (match step moveOnly fragile (.shrinkToFit 0) with
    | .ok _ w' => view w' 0
    | _ => none) = some [0, 0] := by decide +kernel
  cases e : step moveOnly fragile (.shrinkToFit 0) with
  | ok a w' => rw [e] at h; exact ⟨a, w', rfl, by decide +kernel, h⟩
  | thrown x w' => rw [e] at h; cases h
  | ub => rw [e] at h; cases h

end Gtl.Props.Vector
