import Verif.Props.Soa
import Verif.Soa.Scratch
/-!
# Property theorems C100: tables that are sorted with the same scratch data
-/

namespace Gtl.Props.SoaTables

open Gtl.Soa Gtl.Spec.Soa Gtl.Props.Soa Gtl.Bits

variable {m : Nat} {T : Fin (m + 1) → Type}

/-- Sorting a table with a row gives its rows, sorted stably, whatever the scratch data contains before: the marks and indices
left by sorting larger or smaller tables, or by a call that threw. -/
theorem C100_sort_partial {S : Sorter} (hS : S.Ok) (s : Soa T) (rows : List (Row T)) (h : Shows s rows) (hne : rows ≠ [])
    (t : Tmp) (c : Fin (m + 1)) (lt : T c → T c → Bool) (hlt : StrictWeak lt (fun v => ∃ r ∈ rows, r c = v)) :
    ∃ s' t' rows', s.sortB S t c lt = .ok (s', t') ∧ Shows s' rows' ∧
      StableSortOf (fun r s => lt (r c) (s c)) rows rows' := by
  obtain ⟨s', t', rows', h1, h2, h3⟩ := sortB_ok hS h.col t c lt hne hlt
  exact ⟨s', t', rows', h1, shows_of h2, h3⟩

theorem step_holds {S : Sorter} (hS : S.Ok) (dflt : Row T) (left : Tmp) (w : Thread T) (rows : Nat → List (Row T))
    (h : ∀ x, Holds (w.table x) (rows x)) (op : TOp T) (hv : op.Valid rows) :
    ∃ w' rows', w.step S dflt left op = .ok w' ∧ TStep dflt rows op rows' ∧ ∀ x, Holds (w'.table x) (rows' x) := by
  have hput : ∀ {x : Nat} {s : Soa T} {r : List (Row T)}, Holds s r → ∀ y, Holds (put w.table x s y) (put rows x r y) := by
    intro x s r hs y
    unfold put
    split
    · exact hs
    · exact h y
  have hself : ∀ {β : Type} (f : Nat → β) (x : Nat) (b : β), put f x b x = b := fun f x b => if_pos rfl
  have hother : ∀ {β : Type} (f : Nat → β) (x : Nat) (b : β) (y : Nat), y ≠ x → put f x b y = f y := fun f x b y hy => if_neg hy
  cases op with
  | on x op =>
    obtain ⟨s, r, e1, e2, e3⟩ := step_ok hS (h x) dflt op hv.2
    refine ⟨{ w with table := put w.table x s }, put rows x r, ?_,
      ⟨by rw [hself]; exact e3, fun y hy => hother _ _ _ _ hy⟩, hput e2⟩
    unfold Thread.step
    dsimp only
    rw [e1]
    rfl
  | sort x f c lt =>
    obtain ⟨s, t, r, e1, e2, e3⟩ := sortB_ok hS (h x) (w.tmp f) c lt hv.1 hv.2
    refine ⟨{ table := put w.table x s, tmp := put w.tmp f t }, put rows x r, ?_,
      ⟨by rw [hself]; exact e3, fun y hy => hother _ _ _ _ hy⟩, hput e2⟩
    unfold Thread.step
    dsimp only
    rw [e1]
    rfl
  | sortThrows x f => exact ⟨_, rows, rfl, rfl, h⟩
  | copy x y => exact ⟨_, put rows x (rows y), rfl, ⟨hself _ _ _, fun z hz => hother _ _ _ _ hz⟩, hput (h y)⟩

/-- Any number of tables, sorted in any order by any fields with any comparisons, some of these calls left by exceptions: every
table shows what the calls on it alone make of its rows. Missing: sorting a table without rows. -/
theorem C100_tables_partial {S : Sorter} (hS : S.Ok) (dflt : Row T) (left : Nat → Tmp) : ∀ (ops : List (TOp T)) (w : Thread T)
    (rows : Nat → List (Row T)), (∀ x, Shows (w.table x) (rows x)) → TOk dflt rows ops →
    ∃ w' rows', w.run S dflt left ops = .ok w' ∧ TRun dflt rows ops rows' ∧ ∀ x, Shows (w'.table x) (rows' x)
  | [], w, rows, h, _ => ⟨w, rows, rfl, .nil, h⟩
  | op :: ops, w, rows, h, hok => by
    obtain ⟨w1, rows1, e1, g1, h1⟩ := step_holds hS dflt (left ops.length) w rows (fun x => (h x).col) op hok.1
    obtain ⟨w2, rows2, e2, g2, h2⟩ := C100_tables_partial hS dflt left ops w1 rows1 (fun x => shows_of (h1 x)) (hok.2 rows1 g1)
    refine ⟨w2, rows2, ?_, .cons g1 g2, h2⟩
    unfold Thread.run
    rw [e1]
    exact e2

/-- Sorting a table without rows is undefined, whatever the scratch data contains. -/
theorem C100_empty_refuted {S : Sorter} (hS : S.Ok) (s : Soa T) (h : Shows s []) (t : Tmp) (c : Fin (m + 1))
    (lt : T c → T c → Bool) : s.sortB S t c lt = .ub := by
  have h0 : s.size = 0 := h.size
  have ho : S.sort (cmpAt (s.col c) lt) [] = [] := by
    obtain ⟨o, h1, h2, _⟩ := hS (cmpAt (s.col c) lt) []
      ⟨fun a ha => (nomatch ha), fun a _ _ ha => (nomatch ha), fun a _ _ ha => (nomatch ha)⟩
    rw [List.perm_nil.1 h1] at h2
    simpa using h2
  obtain ⟨v, l, e1, e2, e3⟩ := resize_any t.done 0
  have hv : v = { sz := 0, s := [] } := by
    have := List.length_eq_zero_iff.1 e3
    subst this
    exact e2.unique empty_sim
  subst hv
  have hgo : ∀ (k : Nat) (hk : k + 1 ≤ m + 1), reorderCols [] (k + 1) hk s { sz := 0, s := [] } = .ub := by
    intro k
    induction k with
    | zero => intro hk; rfl
    | succ k ih =>
      intro hk
      rw [reorderCols, ih (by omega)]
      rfl
  unfold Soa.sortB
  dsimp only
  rw [h0, e1, Res.ok_bind, iota_ok 0 0 _ (by rw [length_resizeVec]) (fun j hj => by omega), Res.ok_bind]
  rw [show List.range (0 + 0) = [] from rfl, ho, hgo m (Nat.le_refl _)]
  rfl

/-! ## Concrete cases -/

def byNumber : exT ⟨0, by omega⟩ → exT ⟨0, by omega⟩ → Bool := fun (a b : Nat) => decide (a < b)

theorem byNumber_ok (dom : Nat → Prop) : StrictWeak byNumber dom := by
  unfold byNumber
  refine ⟨fun (a : Nat) _ => by simp, fun (a b c : Nat) _ _ _ h1 h2 => ?_, fun (a b c : Nat) _ _ _ h1 h2 h3 h4 => ?_⟩
  · simp only [decide_eq_true_eq] at *; omega
  · simp only [decide_eq_false_iff_not] at *; omega

/-- Two tables of different sizes, a copy, and a sort that throws between. -/
def exT2 : List (TOp exT) :=
  [.on 0 (.insert (exRow 3 "c")), .on 0 (.insert (exRow 1 "a")), .on 0 (.insert (exRow 2 "b")), .copy 1 0,
   .sort 0 7 ⟨0, by omega⟩ byNumber, .on 1 (.resize 1), .sortThrows 0 7, .on 1 (.insert (exRow 0 "z")),
   .sort 1 7 ⟨0, by omega⟩ byNumber]

/-- Scratch data in disorder: marks that are set, a size that does not fit. -/
def junk : Tmp := { o := [9, 9, 9, 9, 9], done := { sz := 1000, s := [~~~ 0] } }

theorem exT2_ok : TOk (exRow 0 "") (fun _ => []) exT2 := by
  have one : ∀ {rows rows' : Nat → List (Row exT)} {x : Nat} {op : Op exT}, TStep (exRow 0 "") rows (.on x op) rows' →
      Step (exRow 0 "") (rows x) op (rows' x) := fun h => h.1
  refine ⟨⟨fun _ _ h => (nomatch h), trivial⟩, fun r1 h1 => ⟨⟨fun _ _ h => (nomatch h), trivial⟩, fun r2 h2 =>
    ⟨⟨fun _ _ h => (nomatch h), trivial⟩, fun r3 h3 => ⟨trivial, fun r4 h4 => ?_⟩⟩⟩⟩
  have n3 : r3 0 ≠ [] := by
    have h3 : r3 0 = r2 0 ++ [exRow 2 "b"] := one h3
    rw [h3]; simp
  have n4 : r4 0 ≠ [] := by rw [h4.2 0 (by decide)]; exact n3
  refine ⟨⟨n4, byNumber_ok _⟩, fun r5 h5 => ⟨⟨fun _ _ h => (nomatch h), trivial⟩, fun r6 h6 => ⟨trivial, fun r7 h7 =>
    ⟨⟨fun _ _ h => (nomatch h), trivial⟩, fun r8 h8 => ⟨⟨?_, byNumber_ok _⟩, fun _ _ => trivial⟩⟩⟩⟩⟩
  have h8 : r8 1 = r7 1 ++ [exRow 0 "z"] := one h8
  rw [h8]; simp

example : ∀ x, Shows ((⟨fun _ => empty, fun _ => junk⟩ : Thread exT).table x) [] := fun _ => shows_of (fun _ => rfl)

example : (match (⟨fun _ => empty, fun _ => junk⟩ : Thread exT).run isort (exRow 0 "") (fun _ => junk) exT2 with
    | .ok w => decide (names (w.table 0) = ["a", "b", "c"] ∧ numbers (w.table 1) = [0, 3] ∧ names (w.table 1) = ["z", "c"])
    | _ => false) = true := by decide +kernel

end Gtl.Props.SoaTables
