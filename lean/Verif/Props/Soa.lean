import Verif.Soa.Sim
import Mathlib.Data.List.FinRange
import Mathlib.Data.List.Sort
/-!
# Properties of `soa` (C39, C40)
-/

namespace Gtl.Props.Soa

open Gtl.Soa Gtl.Spec.Soa

variable {m : Nat} {T : Fin (m + 1) → Type}

theorem shows_of {s : Soa T} {rows : List (Row T)} (h : Holds s rows) : Shows s rows where
  size := h.size
  col := h
  row j := by
    unfold Soa.row
    dsimp only
    cases hj : rows[j]? with
    | none =>
      rw [if_neg]
      · rfl
      · intro hall
        have := hall 0
        rw [h 0, List.getElem?_map, hj] at this
        cases this
    | some r =>
      have : (fun i => (s.col i)[j]?) = fun i => some (r i) := by
        funext i
        rw [h i, List.getElem?_map, hj]; rfl
      rw [if_pos (fun i => by rw [congrFun this i]; rfl), this]
      rfl

/-! ## C40: columns stay aligned -/

/-- After every history of operations whose preconditions are met, nothing was undefined, and the `soa` shows the rows that
the same operations give on a list of rows. Missing: histories in which a table without rows is sorted, see
`C39_empty_refuted`. -/
theorem C40_rows_partial {S : Sorter} (hS : S.Ok) (dflt : Row T) (ops : List (Op T)) (hok : Ok dflt [] ops) :
    ∃ s rows, run S dflt empty ops = .ok s ∧ Run dflt [] ops rows ∧ Shows s rows := by
  obtain ⟨s, rows, h1, h2, h3⟩ := run_ok hS dflt ops empty [] (fun i => rfl) hok
  exact ⟨s, rows, h1, h3, shows_of h2⟩

/-! ## C39: sorting -/

/-- Sorting by a field in any state reached that has a row: the rows are those from before, sorted stably by that field.
Missing: the table without rows. -/
theorem C39_sort_partial {S : Sorter} (hS : S.Ok) (dflt : Row T) (s : Soa T) (rows : List (Row T)) (h : Shows s rows)
    (hne : rows ≠ []) (c : Fin (m + 1)) (lt : T c → T c → Bool) (hlt : StrictWeak lt (fun v => ∃ r ∈ rows, r c = v)) :
    ∃ s' rows', s.step S dflt (.sort c lt) = .ok s' ∧ Shows s' rows' ∧ StableSortOf (fun r s => lt (r c) (s c)) rows rows' := by
  obtain ⟨s', rows', h1, h2, h3⟩ := sort_ok hS h.col dflt c lt hne hlt
  exact ⟨s', rows', h1, shows_of h2, h3⟩

/-- Sorting a table without rows is undefined, for all columns and comparisons: `reorder` clears a `bit_vector` without bits. -/
theorem C39_empty_refuted {S : Sorter} (hS : S.Ok) (dflt : Row T) (s : Soa T) (h : Shows s []) (c : Fin (m + 1))
    (lt : T c → T c → Bool) : s.step S dflt (.sort c lt) = .ub := by
  have h0 : s.size = 0 := h.size
  have ho : S.sort (cmpAt (s.col c) lt) (List.range s.size) = [] := by
    obtain ⟨o, h1, h2, _⟩ := hS (cmpAt (s.col c) lt) (List.range s.size) (by
      rw [h0]
      exact ⟨fun a ha => (nomatch ha), fun a _ _ ha => (nomatch ha), fun a _ _ ha => (nomatch ha)⟩)
    rw [h0] at h1
    rw [List.perm_nil.1 h1] at h2
    simpa using h2
  have hgo : ∀ (k : Nat) (hk : k + 1 ≤ m + 1), eachCol.go (fun _ l => reorder l []) (k + 1) hk s = .ub := by
    intro k
    induction k with
    | zero => intro hk; rfl
    | succ k ih =>
      intro hk
      rw [eachCol.go, ih (by omega)]
      rfl
  unfold Soa.step
  dsimp only
  rw [ho]
  exact hgo m (Nat.le_refl _)

/-- A list sorted stably has the same values, in order; and for every value, the values equivalent to it in the same order
as before. -/
theorem C39_stable {α : Type} {lt : α → α → Bool} {l l' : List α} (h : StableSortOf lt l l') :
    l'.Perm l ∧ l'.Pairwise (fun x y => lt y x = false) ∧
    ∀ p : α → Bool, (∀ x ∈ l, ∀ y ∈ l, p x = true → p y = true → lt x y = false) → l'.filter p = l.filter p := by
  obtain ⟨o, h1, h2, h3⟩ := h
  have hmem : ∀ i ∈ o, i < l.length := fun i hi => List.mem_range.1 (h1.mem_iff.1 hi)
  have hl : l.map some = (List.range l.length).map (fun (i : Nat) => l[i]?) := by
    apply List.ext_getElem?
    intro i
    rw [List.getElem?_map, List.getElem?_map]
    by_cases hi : i < l.length
    · rw [List.getElem?_range hi, List.getElem?_eq_getElem hi]; simp
    · rw [List.getElem?_eq_none (by omega), List.getElem?_eq_none (by rw [List.length_range]; omega)]; rfl
  have hinj : Function.Injective (some : α → Option α) := Option.some_injective α
  refine ⟨?_, ?_, ?_⟩
  · rw [← List.map_perm_map_iff hinj, h2, hl]
    exact h1.map _
  · have : (l'.map some).Pairwise (fun x y => ∀ a b, x = some a → y = some b → lt b a = false) := by
      rw [h2, List.pairwise_map]
      exact h3.imp (fun {a b} hab x y hx hy => (hab x y hx hy).1)
    rw [List.pairwise_map] at this
    exact this.imp (fun {a b} hab => hab a b rfl rfl)
  · intro p hp
    -- both sides are the values at the indices that satisfy `p`, in increasing order
    let q : Nat → Bool := fun i => match l[i]? with | some x => p x | none => false
    have hf : ∀ (k : List α) (o' : List Nat), (∀ i ∈ o', i < l.length) → k.map some = o'.map (fun (i : Nat) => l[i]?) →
        (k.filter p).map some = (o'.filter q).map (fun (i : Nat) => l[i]?) := by
      intro k
      induction k with
      | nil =>
        intro o' _ e
        cases o' with
        | nil => rfl
        | cons _ _ => cases e
      | cons x k ih =>
        intro o' ho' e
        cases o' with
        | nil => cases e
        | cons i o' =>
          rw [List.map_cons, List.map_cons, List.cons.injEq] at e
          have ih' := ih o' (fun i hi => ho' i (List.mem_cons_of_mem _ hi)) e.2
          have hq : q i = p x := by simp only [q]; rw [← e.1]
          rw [List.filter_cons, List.filter_cons, hq]
          cases p x with
          | true => rw [if_pos rfl, if_pos rfl, List.map_cons, List.map_cons, ih', ← e.1]
          | false => rw [if_neg (by simp), if_neg (by simp), ih']
    have e1 := hf l' o hmem h2
    have e2 := hf l (List.range l.length) (fun i hi => List.mem_range.1 hi) hl
    have hsame : o.filter q = (List.range l.length).filter q := by
      apply List.Perm.eq_of_pairwise (le := fun a b => a < b)
      · intro a b _ _ hab hba; omega
      · have hpw : (o.filter q).Pairwise _ := h3.filter q
        refine hpw.imp_of_mem ?_
        intro a b ha hb hab
        rw [List.mem_filter] at ha hb
        have hal := hmem a ha.1
        have hbl := hmem b hb.1
        have hxa : l[a]? = some l[a] := List.getElem?_eq_getElem hal
        have hxb : l[b]? = some l[b] := List.getElem?_eq_getElem hbl
        have hpa : p l[a] = true := by have := ha.2; simp only [q, hxa] at this; exact this
        have hpb : p l[b] = true := by have := hb.2; simp only [q, hxb] at this; exact this
        exact (hab _ _ hxa hxb).2 (hp _ (List.getElem_mem hal) _ (List.getElem_mem hbl) hpa hpb)
      · exact (List.pairwise_lt_range).filter q
      · exact h1.filter q
    rw [hsame, ← e2] at e1
    exact (List.map_injective_iff.2 hinj) e1

/-- There is only one result. -/
theorem C39_unique {α : Type} {lt : α → α → Bool} {l l1 l2 : List α} (h1 : StableSortOf lt l l1) (h2 : StableSortOf lt l l2) :
    l1 = l2 := by
  obtain ⟨o1, a1, a2, a3⟩ := h1
  obtain ⟨o2, b1, b2, b3⟩ := h2
  have : o1 = o2 := by
    refine List.Perm.eq_of_pairwise (fun a b ha hb hab hba => ?_) a3 b3 (a1.trans b1.symm)
    have hal := List.mem_range.1 (a1.mem_iff.1 ha)
    have hbl := List.mem_range.1 (b1.mem_iff.1 hb)
    have e1 := hab _ _ (List.getElem?_eq_getElem hal) (List.getElem?_eq_getElem hbl)
    have e2 := hba _ _ (List.getElem?_eq_getElem hbl) (List.getElem?_eq_getElem hal)
    have := e1.2 e2.1
    have := e2.2 e1.1
    omega
  subst this
  rw [← a2] at b2
  exact ((List.map_injective_iff.2 (Option.some_injective α)) b2).symm

/-! ## A stable sort exists, so the hypotheses can be met -/

/-- Order of the positions of `l`: by value, then by position. -/
def before {α : Type} (lt : α → α → Bool) (l : List α) (a b : Fin l.length) : Bool :=
  !lt l[b] l[a] && (lt l[a] l[b] || decide (a ≤ b))

/-- Insertion sort of the positions. -/
def isort : Sorter where
  sort lt l := ((List.finRange l.length).insertionSort (fun a b => before lt l a b = true)).map (fun i => l[i])

theorem isort_ok : isort.Ok := by
  intro α lt l hlt
  have hd : ∀ i : Fin l.length, l[i] ∈ l := fun i => List.getElem_mem i.isLt
  have hasym : ∀ i j : Fin l.length, lt l[i] l[j] = true → lt l[j] l[i] = false := by
    intro i j h
    cases h' : lt l[j] l[i] with
    | false => rfl
    | true =>
      have := hlt.trans _ _ _ (hd i) (hd j) (hd i) h h'
      rw [hlt.irrefl _ (hd i)] at this
      cases this
  have htotal : ∀ a b, before lt l a b || before lt l b a := by
    intro a b
    unfold before
    have h1 := hasym a b
    have h2 := hasym b a
    rcases Nat.le_total a.val b.val with h | h
    · have h' : a ≤ b := h
      cases ha : lt l[a] l[b] <;> cases hb : lt l[b] l[a] <;> simp_all
    · have h' : b ≤ a := h
      cases ha : lt l[a] l[b] <;> cases hb : lt l[b] l[a] <;> simp_all
  have hntrans : ∀ i j k : Fin l.length, lt l[j] l[i] = false → lt l[k] l[j] = false → lt l[k] l[i] = false := by
    intro i j k h1 h2
    cases h3 : lt l[k] l[i] with
    | false => rfl
    | true =>
      exfalso
      cases h4 : lt l[i] l[j] with
      | true =>
        have := hlt.trans _ _ _ (hd k) (hd i) (hd j) h3 h4
        rw [h2] at this; cases this
      | false =>
        cases h5 : lt l[j] l[k] with
        | true =>
          have := hlt.trans _ _ _ (hd j) (hd k) (hd i) h5 h3
          rw [h1] at this; cases this
        | false =>
          have := (hlt.incomp _ _ _ (hd i) (hd j) (hd k) h4 h1 h5 h2).2
          rw [h3] at this; cases this
  have htrans : ∀ a b c, before lt l a b → before lt l b c → before lt l a c := by
    intro a b c h1 h2
    unfold before at h1 h2 ⊢
    simp only [Bool.and_eq_true, Bool.not_eq_true', Bool.or_eq_true, decide_eq_true_eq] at h1 h2 ⊢
    refine ⟨hntrans a b c h1.1 h2.1, ?_⟩
    cases hac : lt l[a] l[c] with
    | true => exact .inl rfl
    | false =>
      right
      have hca := hntrans a b c h1.1 h2.1
      have hab : lt l[a] l[b] = false := hntrans b c a h2.1 hac
      have hbc : lt l[b] l[c] = false := by
        cases h : lt l[b] l[c] with
        | false => rfl
        | true =>
          have := hntrans c a b hac h1.1
          rw [h] at this; cases this
      have h3 : a ≤ b := (h1.2.resolve_left (by rw [hab]; simp))
      have h4 : b ≤ c := (h2.2.resolve_left (by rw [hbc]; simp))
      exact Nat.le_trans h3 h4
  have hp : ((List.finRange l.length).insertionSort (fun a b => before lt l a b = true)).Perm (List.finRange l.length) := List.perm_insertionSort _ _
  refine ⟨((List.finRange l.length).insertionSort (fun a b => before lt l a b = true)).map Fin.val, ?_, ?_, ?_⟩
  · have := hp.map Fin.val
    rw [List.map_coe_finRange_eq_range] at this
    exact this
  · show List.map some (List.map _ _) = _
    rw [List.map_map, List.map_map]
    apply List.map_congr_left
    intro i _
    simp
  · rw [List.pairwise_map]
    have hnd : ((List.finRange l.length).insertionSort (fun a b => before lt l a b = true)).Nodup := hp.nodup_iff.2 (List.nodup_finRange _)
    haveI : Std.Total (fun a b => before lt l a b = true) := ⟨fun a b => by simpa using htotal a b⟩
    haveI : IsTrans _ (fun a b => before lt l a b = true) := ⟨htrans⟩
    have hs := List.pairwise_insertionSort (fun a b => before lt l a b = true) (List.finRange l.length)
    refine (hs.and hnd).imp ?_
    intro a b hab x y hx hy
    rw [List.getElem?_eq_getElem a.isLt, Option.some.injEq] at hx
    rw [List.getElem?_eq_getElem b.isLt, Option.some.injEq] at hy
    subst hx hy
    obtain ⟨h1, h2⟩ := hab
    unfold before at h1
    simp only [Bool.and_eq_true, Bool.not_eq_true', Bool.or_eq_true, decide_eq_true_eq] at h1
    refine ⟨h1.1, fun hf => ?_⟩
    have h3 : a ≤ b := h1.2.resolve_left (by intro h; rw [show lt l[a] l[b] = false from hf] at h; cases h)
    have h4 : a.val ≠ b.val := fun e => h2 (Fin.ext e)
    have h5 : a.val ≤ b.val := h3
    omega

/-! ## A concrete table: numbers and names -/

def exT : Fin 2 → Type := fun i => if i = 0 then Nat else String

def exRow (n : Nat) (s : String) : Row exT := fun i => match i with
  | ⟨0, _⟩ => (n : Nat)
  | ⟨1, _⟩ => (s : String)

def exOps : List (Op exT) :=
  [.insert (exRow 3 "c"), .insert (exRow 1 "a"), .insert (exRow 3 "b"), .insert (exRow 2 "z"), .insert (exRow 1 "y"),
   .assign 3 ⟨0, by omega⟩ (5 : Nat), .sort ⟨0, by omega⟩ (fun (a b : Nat) => decide (a < b)), .resize 6]

theorem exOps_ok : Ok (exRow 0 "") [] exOps := by
  refine ⟨trivial, fun r h => ?_⟩; subst h
  refine ⟨trivial, fun r h => ?_⟩; subst h
  refine ⟨trivial, fun r h => ?_⟩; subst h
  refine ⟨trivial, fun r h => ?_⟩; subst h
  refine ⟨trivial, fun r h => ?_⟩; subst h
  refine ⟨show 3 < 5 by decide, fun r h => ?_⟩; subst h
  refine ⟨⟨by simp, ?_⟩, fun r h => ⟨trivial, fun _ _ => trivial⟩⟩
  refine ⟨fun (a : Nat) _ => by simp, fun (a b c : Nat) _ _ _ h1 h2 => ?_, fun (a b c : Nat) _ _ _ h1 h2 h3 h4 => ?_⟩
  · simp only [decide_eq_true_eq] at *; omega
  · simp only [decide_eq_false_iff_not] at *; omega

/-- A new table meets the hypothesis of `C39_empty_refuted`. -/
example : Shows (empty (T := exT)) [] := shows_of (fun _ => rfl)

def numbers (s : Soa exT) : List Nat := s.col ⟨0, by omega⟩
def names (s : Soa exT) : List String := s.col ⟨1, by omega⟩

theorem exOps_run : (match run isort (exRow 0 "") (empty (T := exT)) exOps with
    | .ok s => decide (numbers s = [1, 1, 3, 3, 5, 0] ∧ names s = ["a", "y", "c", "b", "z", ""])
    | _ => false) = true := by decide +kernel

end Gtl.Props.Soa
