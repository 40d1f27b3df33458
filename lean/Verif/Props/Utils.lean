import Verif.Utils.SearchLemmas
import Verif.Utils.SliceLemmas
import Verif.Utils.ScopedLemmas
import Verif.Utils.TimestampSim
/-!
# Properties of the small utilities: C46, C47, C50, C51
-/

namespace Gtl.Props.Utils

/-! ## C47: binary_search -/

section Search

open Gtl.Search Gtl.Spec.Double

/-- Any type, any `middle` which answers strictly between its arguments (in a ranking by integers): the search ends, at two points
which `middle` cannot separate, with the predicate false at the first and true at the second. -/
theorem C47_any_middle {T : Type} (mid : T → T → Res (Option T)) (rank : T → Int)
    (hmid : ∀ l r, rank l < rank r → ∃ o, mid l r = .ok o ∧ ∀ m, o = some m → rank l < rank m ∧ rank m < rank r)
    (pred : T → Bool) (l r : T) (hlr : rank l < rank r) (hl : pred l = false) (hr : pred r = true) :
    ∃ (n : Nat) (a b : T), (∀ f ≥ n, binarySearch mid pred f l r = .ok (a, b)) ∧ pred a = false ∧ pred b = true ∧
      mid a b = .ok none ∧ rank l ≤ rank a ∧ rank a < rank b ∧ rank b ≤ rank r := by
  have hs := search_ok mid pred rank (fun _ _ => True) (by
    intro l r _ h
    obtain ⟨o, h1, h2⟩ := hmid l r h
    exact ⟨o, h1, fun m hm => ⟨(h2 m hm).1, (h2 m hm).2, trivial, trivial⟩⟩)
  obtain ⟨a, b, e, q1, q2, q3, q4, q5, q6, -⟩ := hs (rank r - rank l).toNat l r trivial hlr (by omega) hl hr
  refine ⟨(rank r - rank l).toNat, a, b, ?_, q1, q2, q3, q4, q5, q6⟩
  intro f hf
  rw [← e]
  obtain ⟨k, rfl⟩ := Nat.exists_eq_add_of_le hf
  exact search_more_ok _ _ _ _ _ _ _ _ e

/-- Integers of any width, signed or not, when `r - l` is a value of the type (always so for unsigned types and for types smaller
than `int`): the search ends at the unique adjacent pair where a monotone predicate flips. -/
theorem C47_integers_partial (t : IntTy) (pred : Int → Bool) (l r : Int) (hl : t.min ≤ l) (hr : r ≤ t.max) (hlr : l < r)
    (hfit : t.bits < 32 ∨ t.signed = false ∨ r - l ≤ t.max) (hpl : pred l = false) (hpr : pred r = true) :
    ∃ (n : Nat) (a : Int), (∀ f ≥ n, binarySearch (middleInt t) pred f l r = .ok (a, a + 1)) ∧ l ≤ a ∧ a < r ∧
      pred a = false ∧ pred (a + 1) = true ∧
      ((∀ x y, l ≤ x → x ≤ y → y ≤ r → pred x = true → pred y = true) →
        ∀ x, l ≤ x → x ≤ r → (pred x = true ↔ a + 1 ≤ x)) := by
  obtain ⟨a, e, h1, h2, h3, h4⟩ := searchInt_ok pred hl hr hlr hfit hpl hpr (r - l).toNat (by omega)
  refine ⟨(r - l).toNat, a, ?_, h1, h2, h3, h4, ?_⟩
  · intro f hf
    rw [← e]
    obtain ⟨k, rfl⟩ := Nat.exists_eq_add_of_le hf
    exact search_more_ok _ _ _ _ _ _ _ _ e
  · intro hm x hx1 hx2
    constructor
    · intro hx
      by_contra hc
      have := hm x a hx1 (by omega) (by omega) hx
      rw [h3] at this
      cases this
    · intro hx
      exact hm (a + 1) x (by omega) hx hx2 h4

/-- Without the condition on `r - l` the property fails: searching all of `int` overflows. -/
theorem C47_signed_refuted : ∃ (pred : Int → Bool) (l r : Int), (⟨32, true⟩ : IntTy).min ≤ l ∧ r ≤ (⟨32, true⟩ : IntTy).max ∧
    l < r ∧ pred l = false ∧ pred r = true ∧ (∀ x y, x ≤ y → pred x = true → pred y = true) ∧
    ∀ f, binarySearch (middleInt ⟨32, true⟩) pred (f + 1) l r = .ub := by
  refine ⟨fun x => decide (0 ≤ x), -2 ^ 31, 2 ^ 31 - 1, by decide, by decide, by decide, by decide, by decide, ?_, ?_⟩
  · intro x y hxy hx
    simp only [decide_eq_true_eq] at *
    omega
  · intro f
    have h : middleInt ⟨32, true⟩ (-2 ^ 31) (2 ^ 31 - 1) = .ub := by decide +kernel
    unfold binarySearch
    rw [h]
    rfl

/-- Doubles (given by their bits) which are not negative and not NaN: the search ends at two doubles with no double between. -/
theorem C47_doubles_partial (pred : Int → Bool) (l r : Int) (hl : 0 ≤ l) (hr : r < 2 ^ 63) (hlr : value l < value r)
    (hr' : isNaN r = false) (hl' : l < 2 ^ 63) (hr0 : 0 ≤ r) (hpl : pred l = false) (hpr : pred r = true) :
    ∃ (n : Nat) (a b : Int), (∀ f ≥ n, binarySearch middleDouble pred f l r = .ok (a, b)) ∧ pred a = false ∧ pred b = true ∧
      value l ≤ value a ∧ value a < value b ∧ value b ≤ value r ∧ isNaN a = false ∧ isNaN b = false ∧
      ∀ c, 0 ≤ c → c < 2 ^ 64 → ¬ (value a < value c ∧ value c < value b) := by
  have hlr' := (value_lt_iff hl hl' hr0 hr).1 hlr
  obtain ⟨a, e, h1, h2, h3, h4⟩ := searchInt_ok (t := ⟨64, false⟩) pred (l := l) (r := r) hl
    (by show r ≤ 2 ^ 64 - 1; omega) hlr' (.inr (.inl rfl)) hpl hpr (r - l).toNat (by omega)
  refine ⟨(r - l).toNat, a, a + 1, ?_, h3, h4, ?_, ?_, ?_, ?_, ?_, ?_⟩
  · intro f hf
    rw [← e]
    obtain ⟨k, rfl⟩ := Nat.exists_eq_add_of_le hf
    exact search_more_ok _ _ _ _ _ _ _ _ e
  · unfold value; rw [if_pos hl', if_pos (by omega)]; exact magnitude_mono hl h1 (by omega)
  · exact (value_lt_iff (by omega) (by omega) (by omega) (by omega)).2 (by omega)
  · unfold value; rw [if_pos (by omega), if_pos hr]; exact magnitude_mono (by omega) (by omega) hr
  · simp only [isNaN, decide_eq_false_iff_not] at *
    omega
  · simp only [isNaN, decide_eq_false_iff_not] at *
    omega
  · intro c hc1 hc2 ⟨hac, hcb⟩
    by_cases hc : c < 2 ^ 63
    · have h5 := (value_lt_iff (by omega) (by omega) hc1 hc).1 hac
      have h6 := (value_lt_iff hc1 hc (by omega) (by omega)).1 hcb
      omega
    · have h7 : value c ≤ 0 := by
        unfold value; rw [if_neg hc]
        have := magnitude_nonneg c
        omega
      have h8 : 0 ≤ value a := by
        unfold value; rw [if_pos (by omega)]; exact magnitude_nonneg a
      omega

/-- -1.0, 1.0 and 0.5. -/
def minusOne : Int := 0xBFF0000000000000
def one : Int := 0x3FF0000000000000
def half : Int := 0x3FE0000000000000

/-- `x >= 0.5` for doubles. -/
def atLeastHalf (b : Int) : Bool := !isNaN b && decide (value half ≤ value b)

theorem minusOne_search : nexts middleDouble atLeastHalf 63 (minusOne, one) =
    some (0x7FF0000000000001, 0x7FF0000000000000) := by decide +kernel

theorem minusOne_stuck : next middleDouble atLeastHalf (0x7FF0000000000001, 0x7FF0000000000000) =
    some (0x7FF0000000000001, 0x7FF0000000000000) := by decide +kernel

theorem minusOne_values : value minusOne = -2 ^ 1074 ∧ value one = 2 ^ 1074 ∧ value half = 2 ^ 1073 := by decide +kernel

/-- With a negative lower end the property fails: looking for 0.5 between -1.0 and 1.0 never ends. -/
theorem C47_negative_double_refuted : value minusOne < value half ∧ value half < value one ∧
    atLeastHalf minusOne = false ∧ atLeastHalf one = true ∧
    ∀ f, binarySearch middleDouble atLeastHalf f minusOne one = .hang := by
  refine ⟨by decide +kernel, by decide +kernel, by decide +kernel, by decide +kernel, ?_⟩
  intro f
  refine search_hang_le f (f + 63) _ _ (by omega) ?_
  have := search_nexts 63 minusOne_search f
  rw [this]
  exact search_stuck minusOne_stuck f

/-- A case meeting the hypotheses: the first square of at least 1000, in `int`, and 0.5 between 0.0 and 1.0. -/
theorem ex_search : binarySearch (middleInt ⟨32, true⟩) (fun x => decide (1000 ≤ x * x)) 8 0 100 = .ok (31, 32) := by
  decide +kernel

example : (⟨32, true⟩ : IntTy).min ≤ 0 ∧ (100 : Int) ≤ (⟨32, true⟩ : IntTy).max ∧ (100 : Int) - 0 ≤ (⟨32, true⟩ : IntTy).max := by
  decide

theorem ex_doubles : value 0 < value one ∧ isNaN one = false ∧ atLeastHalf 0 = false ∧ atLeastHalf one = true ∧
    binarySearch middleDouble atLeastHalf 70 0 one = .ok (half - 1, half) := by
  decide +kernel

end Search

/-! ## C46: slice, cat, map -/

section Slice

open Gtl.Slice Gtl.Spec.Slices

variable {α : Type}

/-- Indices within the vector (negative ones counted from the end, `-1` being the end itself) and a positive stride: `slice` gives
the elements at `first`, `first + stride`, ... before `last`, where `last` is first brought down to a multiple of the stride. `max` is the largest size a vector may have. -/
theorem C46_slice (max : Nat) (v : List α) (first last : Int) (f l s : Nat) (hv : v.length ≤ max) (hm : max < 2 ^ 63)
    (hf : fromEnd v.length first = f) (hl : fromEnd v.length last = l) (hf' : f ≤ v.length) (hl' : l ≤ v.length) (hs : 0 < s) :
    slice max v first last s = .ok (some (elements v f (f + s * ((l - f) / s)) s)) :=
  slice_eq v hv hm hf hl hf' hl' hs

/-- A negative stride never gives an element: the result is empty, or `std::length_error` is thrown when the stride fits between
`first` and `last`. -/
theorem C46_negative (max : Nat) (v : List α) (first last : Int) (f l s : Nat) (hv : v.length ≤ max) (hm : max < 2 ^ 63)
    (hf : fromEnd v.length first = f) (hl : fromEnd v.length last = l) (hf' : f ≤ v.length) (hl' : l ≤ v.length) (hs : 0 < s) :
    slice max v first last (-(s : Int)) = if f + s ≤ l then .ok none else .ok (some []) :=
  slice_negative v hv hm hf hl hf' hl' hs

/-- An index outside the vector, or stride zero when there is something between `first` and `last`, is undefined. -/
theorem C46_undefined (max : Nat) (v : List α) (first last stride : Int)
    (h : fromEnd v.length first < 0 ∨ (v.length : Int) < fromEnd v.length first ∨ fromEnd v.length last < 0 ∨
      (v.length : Int) < fromEnd v.length last ∨ (stride = 0 ∧ fromEnd v.length first < fromEnd v.length last)) :
    slice max v first last stride = .ub := by
  by_cases h1 : fromEnd v.length first < 0 ∨ (v.length : Int) < fromEnd v.length first
  · unfold slice; rw [position_ub h1]; rfl
  · obtain ⟨f, hf⟩ := Int.eq_ofNat_of_zero_le (a := fromEnd v.length first) (by omega)
    unfold slice
    rw [position_eq (p := f) hf (by omega)]
    by_cases h2 : fromEnd v.length last < 0 ∨ (v.length : Int) < fromEnd v.length last
    · rw [position_ub h2]; rfl
    · obtain ⟨l, hl⟩ := Int.eq_ofNat_of_zero_le (a := fromEnd v.length last) (by omega)
      rw [position_eq (p := l) hl (by omega)]
      simp only [Res.ok_bind]
      have h3 : stride = 0 ∧ f < l := by omega
      rw [if_pos (by omega), h3.1]
      rfl

/-- Python gives `[4, 2]` for `v[4:0:-2]`; here it is empty, and the other way round it throws. -/
theorem C46_negative_refuted : slice 100 [0, 1, 2, 3, 4] 4 0 (-2) = .ok (some []) ∧
    slice 100 [0, 1, 2, 3, 4] 0 4 (-2) = .ok none ∧ slice 100 [0, 1, 2, 3, 4] 1 3 (-5) = .ok (some []) := by decide +kernel

/-- When the stride divides the length (in particular for stride 1) these are all the elements before `last`. -/
theorem C46_slice_exact_partial (max : Nat) (v : List α) (first last : Int) (f l s : Nat) (hv : v.length ≤ max)
    (hm : max < 2 ^ 63) (hf : fromEnd v.length first = f) (hl : fromEnd v.length last = l) (hf' : f ≤ v.length) (hl' : l ≤ v.length) (hs : 0 < s)
    (hd : s ∣ l - f) : slice max v first last s = .ok (some (elements v f l s)) := by
  rw [C46_slice max v first last f l s hv hm hf hl hf' hl' hs, Nat.mul_div_cancel' hd]
  by_cases h : f ≤ l
  · rw [Nat.add_sub_cancel' h]
  · have e : f + (l - f) = f := by omega
    rw [e]
    unfold elements
    have : ∀ m, m ≤ f → (List.range v.length).filter (fun p => decide (f ≤ p ∧ p < m ∧ (p - f) % s = 0)) = [] := by
      intro m hm
      rw [List.filter_eq_nil_iff]
      intro p _
      simp only [decide_eq_true_eq]
      omega
    rw [this f (Nat.le_refl _), this l (by omega)]

/-- Otherwise the last one is missing. -/
theorem C46_stride_refuted : slice 100 [0, 1, 2, 3, 4] 0 (-1) 2 = .ok (some [0, 2]) ∧ elements [0, 1, 2, 3, 4] 0 5 2 = [0, 2, 4] := by
  decide +kernel

/-- And negative indices are not those of Python, where `v[0:-1]` leaves out the last element and `v[-2:3]` has two elements. -/
theorem C46_python_refuted : slice 100 [0, 1, 2] 0 (-1) 1 = .ok (some [0, 1, 2]) ∧
    elements [0, 1, 2] 0 (python 3 (-1)).toNat 1 = [0, 1] ∧ slice 100 [0, 1, 2] (-2) 3 1 = .ok (some [2]) ∧
    elements [0, 1, 2] (python 3 (-2)).toNat 3 1 = [1, 2] := by
  decide +kernel

/-- `cat` is concatenation and `map` applies the function to every element in order. -/
theorem C46_cat (vs : List (List α)) : cat vs = vs.flatten := cat_eq vs
theorem C46_map {β : Type} (f : α → β) (v : List α) : Slice.map f v = List.map f v := map_eq f v

theorem ex_slice : slice 100 [10, 11, 12, 13, 14, 15] (-6) (-2) 2 = .ok (some [11, 13]) ∧ fromEnd 6 (-6) = 1 ∧ fromEnd 6 (-2) = 5 ∧
    2 ∣ 5 - 1 := by decide +kernel

end Slice

/-! ## C50: scoped objects -/

section Scoped

open Gtl.Scoped

variable {α : Type}

/-- A block that declares a guard and then does anything, with any inner scoped objects, nested blocks and exceptions: the guard's
function runs exactly once, after everything else in the block, also when the block is left by an exception. -/
theorem C50_guard (moved : α → α) (n : Nat) (f : State α → State α) (body : Prog α) (st : List (Obj α)) (s : State α)
    (hk : Keeps n body) :
    scope moved (.guard n f true body) st s =
      { scope moved body st s with state := f (scope moved body st s).state } :=
  scope_object moved (.guard n f true) body st s hk

/-- A guard declared with `do_it = false`, or dismissed before the block is left, does nothing. -/
theorem C50_guard_off (moved : α → α) (n : Nat) (f : State α → State α) (body : Prog α) (st : List (Obj α)) (s : State α)
    (hk : Keeps n body) : scope moved (.guard n f false body) st s = scope moved body st s :=
  scope_object moved (.guard n f false) body st s hk

theorem C50_guard_dismissed (moved : α → α) (n : Nat) (f : State α → State α) (d : Bool) (b1 b2 : Prog α) (st : List (Obj α))
    (s : State α) (h1 : Keeps n b1) (h1' : Undeclared n b1) (h2 : Keeps n b2) (ht : (scope moved b1 st s).threw = false) :
    scope moved (.guard n f d (b1.seq (.dismiss n b2))) st s = scope moved (b1.seq b2) st s :=
  scope_dismissed moved (.guard n f d) (fun _ => rfl) b1 b2 st s h1 h1' h2 ht

/-- If the dismissal is not reached, because of an exception, the function runs. -/
theorem C50_guard_not_dismissed (moved : α → α) (n : Nat) (f : State α → State α) (b1 b2 : Prog α) (st : List (Obj α))
    (s : State α) (h1 : Keeps n b1) (ht : (scope moved b1 st s).threw = true) :
    scope moved (.guard n f true (b1.seq (.dismiss n b2))) st s =
      { scope moved b1 st s with state := f (scope moved b1 st s).state } := by
  rw [← C50_guard moved n f b1 st s h1]
  have ht' : (exec moved b1 (.guard n f true :: st) s).threw = true := by
    obtain ⟨A', B', s', t, e1, e2, _⟩ := exec_insert moved (.guard n f true) b1 [] st s h1
    simp only [List.nil_append] at e1 e2
    rw [e2]
    unfold scope leave at ht
    rw [e1] at ht
    exact ht
  unfold scope
  show leave st.length (exec moved (b1.seq (.dismiss n b2)) (.guard n f true :: st) s) = _
  rw [exec_seq, if_pos ht']
  rfl

/-- Nested guards run in reverse order of declaration. -/
theorem C50_lifo (moved : α → α) (gs : List (Nat × (State α → State α))) (body : Prog α) (st : List (Obj α)) (s : State α)
    (hk : ∀ g ∈ gs, Keeps g.1 body) :
    scope moved (gs.foldr (fun g p => .guard g.1 g.2 true p) body) st s =
      { scope moved body st s with state := gs.foldr (fun g x => g.2 x) (scope moved body st s).state } := by
  induction gs with
  | nil => rfl
  | cons g gs ih =>
    have hk' : ∀ (gs : List (Nat × (State α → State α))), Keeps g.1 body →
        Keeps g.1 (gs.foldr (fun g p => Prog.guard g.1 g.2 true p) body) := by
      intro gs h
      induction gs with
      | nil => exact h
      | cons x xs ihx => exact ihx
    rw [List.foldr_cons, C50_guard _ _ _ _ _ _ (hk' gs (hk g List.mem_cons_self)),
      ih (fun x hx => hk x (List.mem_cons_of_mem _ hx))]
    rfl

/-- `scoped_set_value`: the block runs with the new value; afterwards the variable has its old value again, whatever the block did
with it and however it was left; the other variables are as the block left them. -/
theorem C50_set_value (moved : α → α) (n x : Nat) (a : α) (body : Prog α) (st : List (Obj α)) (s : State α) (hk : Keeps n body) :
    scope moved (.setValue n x (.const a) true body) st s =
      { scope moved body st (s.set x a) with state := (scope moved body st (s.set x a)).state.set x (s x) } := by
  have h : setValueCtor moved s x (.const a) = s.set x a := by
    funext y
    simp only [setValueCtor, Arg.eval, State.set]
    split <;> rfl
  have := scope_object moved (.value n x (s x) true) body st (s.set x a) hk
  unfold scope at this ⊢
  simp only [exec, if_true, h]
  exact this

theorem C50_set_value_off (moved : α → α) (n x : Nat) (v : Arg α) (body : Prog α) (st : List (Obj α)) (s : State α)
    (hk : Keeps n body) : scope moved (.setValue n x v false body) st s = scope moved body st s := by
  have := scope_object moved (.value n x (s x) false) body st s hk
  unfold scope at this ⊢
  simp only [exec]
  exact this

/-- A dismissed `scoped_set_value` leaves the new value (and whatever the block made of it). -/
theorem C50_set_value_dismissed (moved : α → α) (n x : Nat) (a : α) (b1 b2 : Prog α) (st : List (Obj α)) (s : State α)
    (h1 : Keeps n b1) (h1' : Undeclared n b1) (h2 : Keeps n b2) (ht : (scope moved b1 st (s.set x a)).threw = false) :
    scope moved (.setValue n x (.const a) true (b1.seq (.dismiss n b2))) st s = scope moved (b1.seq b2) st (s.set x a) := by
  have h : setValueCtor moved s x (.const a) = s.set x a := by
    funext y
    simp only [setValueCtor, Arg.eval, State.set]
    split <;> rfl
  have := scope_dismissed moved (.value n x (s x) true) (fun _ => rfl) b1 b2 st (s.set x a) h1 h1' h2 ht
  unfold scope at this ⊢
  simp only [exec, if_true, h]
  exact this

/-- `scoped_set_unset`: `set`, the block, `unset`; when `set` throws, neither the block nor `unset` runs. -/
theorem C50_set_unset (moved : α → α) (n : Nat) (set : State α → State α × Bool) (unset : State α → State α) (body : Prog α)
    (st : List (Obj α)) (s : State α) (hk : Keeps n body) :
    scope moved (.setUnset n set unset true body) st s =
      if (set s).2 then { state := (set s).1, stack := st, threw := true }
      else { scope moved body st (set s).1 with state := unset (scope moved body st (set s).1).state } := by
  have := scope_object moved (.guard n unset true) body st (set s).1 hk
  unfold scope at this ⊢
  simp only [exec, if_true]
  by_cases h : (set s).2 = true
  · simp [h, leave]
  · simp only [h]
    exact this

/-- When the new value is given as a reference to the variable itself, the variable is moved from first: its value is lost for the
duration of the scope (e.g. a string becomes empty), and `replace` loses it for good. -/
theorem C50_alias_refuted : ∃ (moved : String → String) (s : State String),
    setValueCtor moved s 0 (.ref 0) 0 ≠ s 0 ∧ (replace moved s 0 (.ref 0)).1 0 ≠ s 0 :=
  ⟨fun _ => "", fun _ => "text", by decide, by decide⟩

/-- `replace` with a value that is not a reference to the variable, and `change`. -/
theorem C50_replace (moved : α → α) (s : State α) (x : Nat) (v : Arg α) (hv : v ≠ .ref x) :
    replace moved s x v = (s.set x (v.eval s), s x) := by
  unfold replace
  refine Prod.ext ?_ rfl
  dsimp only
  funext y
  simp only [State.set]
  by_cases hy : y = x
  · simp only [if_pos hy]
    cases v with
    | const a => rfl
    | ref z =>
      have : z ≠ x := fun e => hv (by rw [e])
      simp [Arg.eval, State.set, this]
  · simp only [if_neg hy]

theorem C50_change [DecidableEq α] (var val : α) : (change var val).1 = val ∧ ((change var val).2 = true ↔ var ≠ val) := by
  unfold change
  by_cases h : var = val
  · simp [h]
  · simp [h]

/-- A program meeting the hypotheses: a guard (adding 100 to variable 0), a temporary value 7 of variable 1, an inner block which
throws out of both. -/
def exBody : Prog Nat :=
  .setValue 2 1 (.const 7) true
    (.block false (.guard 3 (fun s => s.set 0 (s 0 * 2)) true (.act (fun s => (s.set 0 (s 1 + 1), true)) .done))
      (.act (fun s => (s.set 0 999, false)) .done))

theorem ex_scope : Keeps 1 exBody ∧
    (scope id (.guard 1 (fun s => s.set 0 (s 0 + 100)) true exBody) [] (fun _ => 5)).state 0 = 116 ∧
    (scope id (.guard 1 (fun s => s.set 0 (s 0 + 100)) true exBody) [] (fun _ => 5)).state 1 = 5 ∧
    (scope id (.guard 1 (fun s => s.set 0 (s 0 + 100)) true exBody) [] (fun _ => 5)).threw = true :=
  ⟨by simp [Keeps, exBody], by decide +kernel, by decide +kernel, by decide +kernel⟩

end Scoped

/-! ## C51: timestamps -/

section Times

open Gtl.Timestamp

/-- Every history of fewer than 2^64 operations which does not give a number to a timestamp's constructor: all the answers are those
of moments of the history. -/
theorem C51_moments (ops : List Op) (hlen : ops.length < 2 ^ 64) (hno : ∀ s, Op.createWith s ∉ ops) :
    (World.init.run ops).2 = (Spec.Times.run 0 [] ops).2 :=
  (run_rel ops init_rel (by omega) hno).1

/-- In particular a timestamp just touched is newer than all others. -/
theorem C51_touch_newest (ops : List Op) (hlen : ops.length + 2 < 2 ^ 64) (hno : ∀ s, Op.createWith s ∉ ops) (i j : Nat)
    (hi : i < (World.init.run ops).1.stamps.length) (hij : i ≠ j) :
    (((World.init.run ops).1.step (.touch i)).1.step (.newer i j)).2 = true ∧
      (((World.init.run ops).1.step (.touch i)).1.step (.newer j i)).2 = false := by
  obtain ⟨hc, ps, h1, h2, hinv⟩ := (run_rel ops init_rel (by omega) hno).2
  have hj : (World.init.run ops).1.get j ≤ (World.init.run ops).1.clock := by
    unfold World.get
    rw [h1, pick_fst]
    exact (hinv _ (pick_mem ps j)).1
  have ht : ((World.init.run ops).1.clock + 1) % 2 ^ 64 = (World.init.run ops).1.clock + 1 := Nat.mod_eq_of_lt (by omega)
  have e1 : ((World.init.run ops).1.step (.touch i)).1.get i = (World.init.run ops).1.clock + 1 := by
    simp only [World.step, tick, World.put, World.get, ht, List.getD_eq_getElem?_getD]
    rw [List.getElem?_set_self hi]
    rfl
  have e2 : ((World.init.run ops).1.step (.touch i)).1.get j = (World.init.run ops).1.get j := by
    simp only [World.step, tick, World.put, World.get, List.getD_eq_getElem?_getD]
    rw [List.getElem?_set_ne hij]
  have key : ∀ a b, (((World.init.run ops).1.step (.touch i)).1.step (.newer a b)).2 =
      decide (((World.init.run ops).1.step (.touch i)).1.get a > ((World.init.run ops).1.step (.touch i)).1.get b) :=
    fun _ _ => rfl
  rw [key, key, e1, e2]
  simp only [decide_eq_true_eq, decide_eq_false_iff_not]
  omega

/-- And merging (`|=`) never goes backwards. -/
theorem C51_merge (w : World) (i j : Nat) :
    ((w.step (.merge i j)).1.step (.older i j)).2 = false ∨ w.stamps.length ≤ i := by
  by_cases hi : i < w.stamps.length
  · left
    by_cases hij : i = j
    · subst hij
      simp [World.step]
    · simp only [World.step, World.put, World.get, List.getD_eq_getElem?_getD, List.getElem?_set_self hi,
        List.getElem?_set_ne hij, Option.getD_some, decide_eq_false_iff_not]
      split <;> omega
  · right; omega

/-- A timestamp made from a number may stay newer than later touches. -/
theorem C51_number_refuted : (World.init.run [.createWith 10, .create, .touch 1, .newer 1 0]).2 = [false, false, false, false] := by
  decide +kernel

/-- A history meeting the hypotheses. -/
theorem ex_times : (World.init.run [.create, .create, .newer 1 0, .touch 0, .newer 0 1, .merge 1 0, .same 0 1, .reset 0, .isSet 0,
    .older 0 1, .copy 1, .setWithTs 2 4 4, .same 1 2, .setWithTs 2 4 5, .newer 2 1]).2 =
    [false, false, true, false, true, false, true, false, false, true, false, false, true, true, true] := by decide +kernel

end Times

end Gtl.Props.Utils
