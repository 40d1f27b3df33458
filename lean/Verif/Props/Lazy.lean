import Verif.Memo.Lazy
import Mathlib.Data.Nat.Fib.Basic
/-!
# Properties of `lazy_list` (C121)
-/

namespace Gtl.Props.Lazy

open Gtl.Memo.Lazy
open Gtl.Spec.Lazy

variable {T : Type}

theorem get_zero (l : LazyList T) (f : Nat) : l.get (f + 1) 0 = .ok (l.first, 0) := rfl

theorem get_succ (l : LazyList T) (f : Nat) {i : Nat} (hi : 0 < i) : l.get (f + 1) i =
    (evalWith (l.get f) (l.next i) 1 >>= fun p => if l.byRef then .ok p else .ub) := by
  unfold LazyList.get
  rw [LazyList.index, if_neg (by omega)]
  change ((evalWith (l.get f) (l.next i) 1 >>= fun p => Res.ok ((if l.byRef = true then Ref.kept p.1 else Ref.gone), p.2)) >>=
    fun p => l.read p.1 >>= fun w => Res.ok (w, p.2)) = _
  rw [bind_assoc]
  congr 1
  funext p
  cases l.byRef <;> rfl

/-! ## A function that returns references -/

/-- With enough depth the function gets its answer. -/
theorem eval_of_gives {l : LazyList T} (hb : l.byRef = true) {b : Body T} {v : T} (h : Gives l.first l.next b v) :
    ∃ d, ∀ f, d ≤ f → ∀ n, ∃ m, evalWith (l.get f) b n = .ok (v, m) := by
  induction h with
  | ret => exact ⟨0, fun f _ n => ⟨n, rfl⟩⟩
  | first _ ih =>
    obtain ⟨d, hd⟩ := ih
    refine ⟨d + 1, fun f hf n => ?_⟩
    obtain ⟨g, rfl⟩ : ∃ g, f = g + 1 := ⟨f - 1, by omega⟩
    exact hd (g + 1) (by omega) (n + 0)
  | @other j k w v hj _ _ ih1 ih2 =>
    obtain ⟨d1, h1⟩ := ih1
    obtain ⟨d2, h2⟩ := ih2
    refine ⟨d1 + d2 + 1, fun f hf n => ?_⟩
    obtain ⟨g, rfl⟩ : ∃ g, f = g + 1 := ⟨f - 1, by omega⟩
    obtain ⟨m1, e1⟩ := h1 g (by omega) 1
    obtain ⟨m2, e2⟩ := h2 (g + 1) (by omega) (n + m1)
    refine ⟨m2, ?_⟩
    unfold evalWith
    rw [get_succ l g hj, e1]
    simp only [Res.ok_bind, hb, if_true]
    exact e2

/-- What the function returns is right, if what it gets is. -/
theorem gives_of_eval {l : LazyList T} {f : Nat} (hf : ∀ j w m, l.get f j = .ok (w, m) → Element l.first l.next j w) :
    ∀ {b : Body T} {n : Nat} {v : T} {m : Nat}, evalWith (l.get f) b n = .ok (v, m) → Gives l.first l.next b v
  | .ret _, _, _, _, h => by cases h; exact .ret
  | .ask j k, n, v, m, h => by
    unfold evalWith at h
    obtain ⟨⟨w, m1⟩, h1, h2⟩ := Res.bind_eq_ok.1 h
    have h3 := gives_of_eval hf h2
    rcases hf _ _ _ h1 with ⟨rfl, rfl⟩ | ⟨hj, hg⟩
    · exact .first h3
    · exact .other hj hg h3

theorem element_of_get (l : LazyList T) : ∀ (f i : Nat) (v : T) (m : Nat), l.get f i = .ok (v, m) → Element l.first l.next i v
  | 0, i, v, m, h => by cases h
  | f + 1, i, v, m, h => by
    rcases Nat.eq_zero_or_pos i with rfl | hi
    · rw [get_zero] at h; cases h; exact .inl ⟨rfl, rfl⟩
    · rw [get_succ l f hi] at h
      obtain ⟨⟨w, m1⟩, h1, h2⟩ := Res.bind_eq_ok.1 h
      split at h2
      · cases h2
        exact .inr ⟨hi, gives_of_eval (element_of_get l f) h1⟩
      · cases h2

/-- The element at index 0 is the first one; for it the function is not called. -/
theorem C121_first (l : LazyList T) (f : Nat) : l.get (f + 1) 0 = .ok (l.first, 0) := rfl

/-- Whatever the function does, and whether it returns references or values: a value that is read is the right one. -/
theorem C121_right (l : LazyList T) {f i : Nat} {v : T} {m : Nat} (h : l.get f i = .ok (v, m)) : Element l.first l.next i v :=
  element_of_get l f i v m h

/-- If the function returns references to objects that stay: every element there is can be read. Missing: functions that
return values. -/
theorem C121_read_partial (l : LazyList T) (hb : l.byRef = true) {i : Nat} {v : T} (h : Element l.first l.next i v) :
    ∃ d, ∀ f, d ≤ f → ∃ m, l.get f i = .ok (v, m) := by
  rcases h with ⟨rfl, rfl⟩ | ⟨hi, hg⟩
  · refine ⟨1, fun f hf => ⟨0, ?_⟩⟩
    obtain ⟨g, rfl⟩ : ∃ g, f = g + 1 := ⟨f - 1, by omega⟩
    rfl
  · obtain ⟨d, hd⟩ := eval_of_gives hb hg
    refine ⟨d + 1, fun f hf => ?_⟩
    obtain ⟨g, rfl⟩ : ∃ g, f = g + 1 := ⟨f - 1, by omega⟩
    obtain ⟨m, e⟩ := hd g (by omega) 1
    exact ⟨m, by rw [get_succ l g hi, e]; simp [hb]⟩

theorem eval_total {l : LazyList T} {f i : Nat} (hq : ∀ j, j < i → ∃ w m, l.get f j = .ok (w, m)) :
    ∀ {b : Body T}, Below i b → ∀ n, ∃ v m, evalWith (l.get f) b n = .ok (v, m) := by
  intro b hb
  induction hb with
  | ret => exact fun n => ⟨_, _, rfl⟩
  | ask hj _ ih =>
    intro n
    obtain ⟨w, m, e⟩ := hq _ hj
    obtain ⟨v, m', e'⟩ := ih w (n + m)
    refine ⟨v, m', ?_⟩
    unfold evalWith
    rw [e]
    exact e'

/-- If moreover the function at each index asks only for elements before it, every index has an element, and a depth of
`i + 1` calls is enough to read the one at `i`. -/
theorem C121_ends_partial (l : LazyList T) (hb : l.byRef = true) (hn : ∀ i, 0 < i → Below i (l.next i)) :
    ∀ (f i : Nat), i < f → ∃ v m, l.get f i = .ok (v, m) ∧ Element l.first l.next i v
  | 0, i, h => by omega
  | f + 1, i, h => by
    rcases Nat.eq_zero_or_pos i with rfl | hi
    · exact ⟨_, _, get_zero l f, .inl ⟨rfl, rfl⟩⟩
    · obtain ⟨v, m, e⟩ := eval_total (l := l) (f := f) (fun j hj => by
        obtain ⟨w, m, e, _⟩ := C121_ends_partial l hb hn f j (by omega)
        exact ⟨w, m, e⟩) (hn i hi) 1
      have : l.get (f + 1) i = .ok (v, m) := by rw [get_succ l f hi, e]; simp [hb]
      exact ⟨v, m, this, C121_right l this⟩

/-! ## A function that returns values -/

theorem eval_ub {l : LazyList T} (hb : l.byRef = false) {b : Body T} {v : T} (h : Gives l.first l.next b v) :
    ∃ d, ∀ f, d ≤ f → ∀ n, (∃ m, evalWith (l.get f) b n = .ok (v, m)) ∨ evalWith (l.get f) b n = .ub := by
  induction h with
  | ret => exact ⟨0, fun f _ n => .inl ⟨n, rfl⟩⟩
  | first _ ih =>
    obtain ⟨d, hd⟩ := ih
    refine ⟨d + 1, fun f hf n => ?_⟩
    obtain ⟨g, rfl⟩ : ∃ g, f = g + 1 := ⟨f - 1, by omega⟩
    exact hd (g + 1) (by omega) (n + 0)
  | @other j k w v hj _ _ ih1 _ =>
    obtain ⟨d1, h1⟩ := ih1
    refine ⟨d1 + 1, fun f hf n => .inr ?_⟩
    obtain ⟨g, rfl⟩ : ∃ g, f = g + 1 := ⟨f - 1, by omega⟩
    unfold evalWith
    rw [get_succ l g hj]
    rcases h1 g (by omega) 1 with ⟨m, e⟩ | e
    · rw [e]; simp [hb]
    · rw [e]; rfl

/-- The full statement is false: if the function returns values, reading any element but the first is undefined, for every
function and every list. -/
theorem C121_value_refuted (l : LazyList T) (hb : l.byRef = false) {i : Nat} (hi : 0 < i) {v : T}
    (h : Element l.first l.next i v) : ∃ d, ∀ f, d ≤ f → l.get f i = .ub := by
  rcases h with ⟨rfl, _⟩ | ⟨_, hg⟩
  · omega
  · obtain ⟨d, hd⟩ := eval_ub hb hg
    refine ⟨d + 1, fun f hf => ?_⟩
    obtain ⟨g, rfl⟩ : ∃ g, f = g + 1 := ⟨f - 1, by omega⟩
    rw [get_succ l g hi]
    rcases hd g (by omega) 1 with ⟨m, e⟩ | e
    · rw [e]; simp [hb]
    · rw [e]; rfl

/-! ## How often the function is called -/

/-- The Fibonacci numbers, each the sum of the two before it. -/
def fibs : LazyList Nat where
  first := 0
  next := fun i => if i = 1 then .ret 1 else .ask (i - 1) fun a => .ask (i - 2) fun b => .ret (a + b)
  byRef := true

/-- Elements are not remembered: reading the Fibonacci number at index `i` calls the function `fib (i + 2) - 1` times. -/
theorem C121_calls : ∀ (f i : Nat), i < f → fibs.get f i = .ok (Nat.fib i, Nat.fib (i + 2) - 1)
  | 0, i, h => by omega
  | f + 1, 0, h => rfl
  | f + 1, 1, h => by
    rw [get_succ fibs f (by omega)]; rfl
  | f + 1, i + 2, h => by
    rw [get_succ fibs f (by omega)]
    show (evalWith (fibs.get f) (if i + 2 = 1 then .ret 1 else
      .ask (i + 1) fun a => .ask i fun b => .ret (a + b)) 1 >>= _) = _
    rw [if_neg (by omega)]
    simp only [evalWith, C121_calls f (i + 1) (by omega), C121_calls f i (by omega), Res.ok_bind]
    show Res.ok _ = _
    have h1 : Nat.fib (i + 2) = Nat.fib i + Nat.fib (i + 1) := Nat.fib_add_two
    have h2 : Nat.fib (i + 3) = Nat.fib (i + 1) + Nat.fib (i + 2) := Nat.fib_add_two
    have h3 : Nat.fib (i + 4) = Nat.fib (i + 2) + Nat.fib (i + 3) := Nat.fib_add_two
    have h4 : 0 < Nat.fib (i + 2) := Nat.fib_pos.2 (by omega)
    have h5 : 0 < Nat.fib (i + 3) := Nat.fib_pos.2 (by omega)
    refine congrArg _ (Prod.ext ?_ ?_)
    · show Nat.fib (i + 1) + Nat.fib i = _
      omega
    · show 1 + (Nat.fib (i + 1 + 2) - 1) + (Nat.fib (i + 2) - 1) = Nat.fib (i + 2 + 2) - 1
      rw [show i + 1 + 2 = i + 3 by omega, show i + 2 + 2 = i + 4 by omega]
      omega

/-- So an element can be computed more than once: for index `i > 2` there are more calls than elements. -/
theorem C121_once_refuted {f i : Nat} (hi : 2 < i) (hf : i < f) : ∃ v m, fibs.get f i = .ok (v, m) ∧ i < m := by
  refine ⟨_, _, C121_calls f i hf, ?_⟩
  have : ∀ n, n + 5 ≤ Nat.fib (n + 5) := by
    intro n
    exact Nat.le_fib_self (by omega)
  obtain ⟨n, rfl⟩ : ∃ n, i = n + 3 := ⟨i - 3, by omega⟩
  have := this n
  show n + 3 < Nat.fib (n + 5) - 1
  omega

/-! ## Examples -/

theorem fibs_below : ∀ i, 0 < i → Below i (fibs.next i) := by
  intro i hi
  show Below i (if i = 1 then _ else _)
  split
  · exact .ret
  · exact .ask (by omega) fun _ => .ask (by omega) fun _ => .ret

example : fibs.byRef = true ∧ Element fibs.first fibs.next 10 55 :=
  ⟨rfl, C121_right fibs (C121_calls 11 10 (by omega))⟩

/-- A list of which the function returns values, as in the example of the library (`memoize_primes.cpp`). -/
def odds : LazyList Nat where
  first := 1
  next := fun i => .ask (i - 1) fun a => .ret (a + 2)
  byRef := false

example : odds.byRef = false ∧ Element odds.first odds.next 2 5 ∧ odds.get 1 0 = .ok (1, 0) ∧ odds.get 3 2 = .ub :=
  ⟨rfl, .inr ⟨by decide, .other (by decide) (.first .ret) .ret⟩, rfl, rfl⟩

end Gtl.Props.Lazy
