import Verif.Props.Soa
import Verif.Soa.Fail
/-!
# Property theorems C78: `soa` when memory runs out
-/

namespace Gtl.Props.SoaFail

open Gtl.Soa Gtl.Spec.Soa Gtl.Props.Soa

variable {m : Nat} {T : Fin (m + 1) → Type}

/-- The calls that did not throw, with the rows after them; a call that threw leaves the rows. -/
inductive RunOk (dflt : Row T) : List (Row T) → List (Op T × Option (Fin (m + 1))) → List (Row T) → Prop
  | nil {rows} : RunOk dflt rows [] rows
  | done {rows rows' rows'' op calls} : Step dflt rows op rows' → RunOk dflt rows' calls rows'' →
      RunOk dflt rows ((op, none) :: calls) rows''
  | threw {rows rows' op k calls} : RunOk dflt rows calls rows' → RunOk dflt rows ((op, some k) :: calls) rows'

/-- Preconditions along a history; memory runs out only in calls that need some. -/
def OkA (dflt : Row T) : List (Row T) → List (Op T × Option (Fin (m + 1))) → Prop
  | _, [] => True
  | rows, (op, none) :: calls => op.Valid rows ∧ ∀ rows', Step dflt rows op rows' → OkA dflt rows' calls
  | rows, (op, some _) :: calls => (∀ n, op = .resize n → rows.length < n) ∧ (∀ i c v, op ≠ .assign i c v) ∧ op ≠ .clear ∧
      OkA dflt rows calls

/-- Memory runs out in column `k` of a call: all rows from before are still there and the same, but if `k` is not the first
column, `size()` counts rows that are not complete, and reading the first of them is undefined. So the call is without effect
only if the first column throws. -/
theorem C78_throw_partial (dflt : Row T) {s : Soa T} {rows : List (Row T)} (h : Shows s rows) (k : Fin (m + 1)) :
    (∀ r, ∃ s', s.stepThrow dflt k (.insert r) = .ok s' ∧
      (∀ (j : Nat) r', rows[j]? = some r' → s'.row j = .ok (fun i => some (r' i))) ∧
      (k.val = 0 → Shows s' rows) ∧
      (k.val ≠ 0 → s'.size = rows.length + 1 ∧ s'.row rows.length = .ub)) ∧
    (∀ n, rows.length < n → ∃ s', s.stepThrow dflt k (.resize n) = .ok s' ∧
      (∀ (j : Nat) r', rows[j]? = some r' → s'.row j = .ok (fun i => some (r' i))) ∧
      (k.val = 0 → Shows s' rows) ∧
      (k.val ≠ 0 → s'.size = n ∧ s'.row rows.length = .ub)) := by
  have key : ∀ op, MayThrow s op → ∃ s', s.stepThrow dflt k op = .ok s' ∧
      (∀ (j : Nat) r', rows[j]? = some r' → s'.row j = .ok (fun i => some (r' i))) ∧
      (k.val = 0 → Shows s' rows) ∧ s'.row rows.length = .ub ∧ ∀ i, s'.col i = rows.map (fun r => r i) ++
        (if i.val < k.val then (match op with
          | .insert r => [r i]
          | .resize n => List.replicate (n - rows.length) (dflt i)
          | _ => []) else []) := by
    intro op ht
    obtain ⟨s', e1, e2⟩ := stepThrow_ok h.col dflt k op ht
    refine ⟨s', e1, ?_, ?_, ?_, e2⟩
    · intro j r' hj
      have hl := (List.getElem?_eq_some_iff.1 hj).1
      have : (fun i => (s'.col i)[j]?) = fun i => some (r' i) := by
        funext i
        rw [e2 i, List.getElem?_append_left (by rw [List.length_map]; exact hl), List.getElem?_map, hj]; rfl
      unfold Soa.row
      dsimp only
      rw [if_pos (fun i => by rw [congrFun this i]; rfl), this]
      rfl
    · intro hk
      refine shows_of fun i => ?_
      rw [e2 i, if_neg (by omega), List.append_nil]
    · unfold Soa.row
      dsimp only
      rw [if_neg]
      · rfl
      · intro hall
        have := hall k
        rw [e2 k, if_neg (by omega), List.append_nil, List.getElem?_eq_none (by rw [List.length_map])] at this
        cases this
  refine ⟨fun r => ?_, fun n hn => ?_⟩
  · obtain ⟨s', e1, e2, e3, e4, e5⟩ := key (.insert r) trivial
    refine ⟨s', e1, e2, e3, fun hk => ⟨?_, e4⟩⟩
    unfold Soa.size
    rw [e5 0, if_pos (by simpa using Nat.pos_of_ne_zero hk)]
    simp
  · obtain ⟨s', e1, e2, e3, e4, e5⟩ := key (.resize n) (by show s.size < n; rw [h.size]; exact hn)
    refine ⟨s', e1, e2, e3, fun hk => ⟨?_, e4⟩⟩
    unfold Soa.size
    rw [e5 0, if_pos (by simpa using Nat.pos_of_ne_zero hk)]
    simp; omega

/-- `reserve` and sorting leave the rows when memory runs out in them. -/
theorem C78_reserve_sort (dflt : Row T) {s : Soa T} {rows : List (Row T)} (h : Shows s rows) (k : Fin (m + 1)) (n : Nat)
    (c : Fin (m + 1)) (lt : T c → T c → Bool) :
    (∃ s', s.stepThrow dflt k (.reserve n) = .ok s' ∧ Shows s' rows) ∧
    ∃ s', s.stepThrow dflt k (.sort c lt) = .ok s' ∧ Shows s' rows :=
  ⟨⟨s, rfl, h⟩, ⟨s, rfl, h⟩⟩

/-- A caller that after every exception resizes the table to the number of rows it had keeps a table that shows exactly
the rows of the calls that did not throw, for every history in which no table without rows is sorted (see
`C39_empty_refuted`). -/
theorem C78_repair_partial {S : Sorter} (hS : S.Ok) (dflt : Row T) (calls : List (Op T × Option (Fin (m + 1))))
    (hok : OkA dflt [] calls) :
    ∃ s rows, runGuarded S dflt empty calls = .ok s ∧ RunOk dflt [] calls rows ∧ Shows s rows := by
  have key : ∀ (calls : List (Op T × Option (Fin (m + 1)))) (s : Soa T) (rows : List (Row T)), Holds s rows →
      OkA dflt rows calls → ∃ s' rows', runGuarded S dflt s calls = .ok s' ∧ RunOk dflt rows calls rows' ∧ Holds s' rows' := by
    intro calls
    induction calls with
    | nil => exact fun s rows h _ => ⟨s, rows, rfl, .nil, h⟩
    | cons c calls ih =>
      intro s rows h hok
      obtain ⟨op, o⟩ := c
      cases o with
      | none =>
        obtain ⟨s1, rows1, e1, h1, g1⟩ := step_ok hS h dflt op hok.1
        obtain ⟨s2, rows2, e2, g2, h2⟩ := ih s1 rows1 h1 (hok.2 rows1 g1)
        refine ⟨s2, rows2, ?_, .done g1 g2, h2⟩
        unfold runGuarded Soa.guarded
        rw [e1]
        exact e2
      | some k =>
        have ht : MayThrow s op := by
          cases op with
          | insert r => trivial
          | assign i c v => exact absurd rfl (hok.2.1 i c v)
          | resize n => show s.size < n; rw [h.size]; exact hok.1 n rfl
          | reserve n => trivial
          | clear => exact absurd rfl hok.2.2.1
          | sort c lt => trivial
        obtain ⟨s1, e1, h1⟩ := guarded_throw_ok (S := S) h dflt k op ht
        obtain ⟨s2, rows2, e2, g2, h2⟩ := ih s1 rows h1 hok.2.2.2
        refine ⟨s2, rows2, ?_, .threw g2, h2⟩
        unfold runGuarded
        rw [e1]
        exact e2
  obtain ⟨s, rows, h1, h2, h3⟩ := key calls empty [] (fun i => rfl) hok
  exact ⟨s, rows, h1, h2, shows_of h3⟩

/-- Without that, rows get mixed up: a table with two columns in which the second column of an insertion threw shows, after
the next insertion, a row that was never inserted. -/
theorem C78_mixed_refuted : ∃ s1 s2 s3 : Soa exT,
    (empty (T := exT)).step isort (exRow 0 "") (.insert (exRow 1 "one")) = .ok s1 ∧
    s1.stepThrow (exRow 0 "") 1 (.insert (exRow 2 "two")) = .ok s2 ∧
    s2.step isort (exRow 0 "") (.insert (exRow 3 "three")) = .ok s3 ∧
    ∃ r, s3.row 1 = .ok r ∧ r 0 = some (2 : Nat) ∧ r 1 = some "three" := by
  obtain ⟨s1, e1, f1⟩ := eachCol_ok (s := empty (T := exT)) (f := fun i l => .ok (l ++ [exRow 1 "one" i]))
    (g := fun i => [exRow 1 "one" i]) (fun i => rfl)
  have h1 : Holds s1 [exRow 1 "one"] := f1
  obtain ⟨s2, e2, f2⟩ := stepThrow_ok h1 (exRow 0 "") 1 (.insert (exRow 2 "two")) trivial
  obtain ⟨s3, e3, f3⟩ := eachCol_ok (s := s2) (f := fun i l => .ok (l ++ [exRow 3 "three" i]))
    (g := fun i => s2.col i ++ [exRow 3 "three" i]) (fun i => rfl)
  refine ⟨s1, s2, s3, e1, e2, e3, fun i => (s3.col i)[1]?, ?_, ?_, ?_⟩
  · unfold Soa.row
    dsimp only
    rw [if_pos]
    · rfl
    · intro i
      rw [f3 i, f2 i]
      match i with
      | 0 => rfl
      | 1 => rfl
  · show (s3.col 0)[1]? = _
    rw [f3 0, f2 0]; rfl
  · show (s3.col 1)[1]? = _
    rw [f3 1, f2 1]; rfl

/-- A history of a careful caller that meets the hypotheses of `C78_repair_partial`. -/
example : OkA (exRow 0 "") [] [(.insert (exRow 1 "one"), none), (.insert (exRow 2 "two"), some 1),
    (.resize 5, some 1), (.insert (exRow 3 "three"), none), (.reserve 9, some 0)] := by
  refine ⟨trivial, fun rows h => ?_⟩
  have h : rows = [exRow 1 "one"] := h
  subst h
  refine ⟨fun n h => (nomatch h), fun i c v h => (nomatch h), fun h => (nomatch h), ?_⟩
  refine ⟨fun n h => (by cases h; decide), fun i c v h => (nomatch h), fun h => (nomatch h), ?_⟩
  refine ⟨trivial, fun rows h => ?_⟩
  exact ⟨fun n h => (nomatch h), fun i c v h => (nomatch h), fun h => (nomatch h), trivial⟩

example : ∃ (s : Soa exT) (rows : List (Row exT)), Shows s rows ∧ rows.length = 1 := by
  obtain ⟨s1, e1, f1⟩ := eachCol_ok (s := empty (T := exT)) (f := fun i l => .ok (l ++ [exRow 1 "one" i]))
    (g := fun i => [exRow 1 "one" i]) (fun i => rfl)
  exact ⟨s1, [exRow 1 "one"], shows_of f1, rfl⟩

end Gtl.Props.SoaFail
