import Verif.Soa.Sim
import Verif.Bits.Ops
import Verif.Bits.Fail
import Verif.Spec.SoaTables
/-!
# `soa::sort_by_field` with its scratch data

`sort_by_field` keeps its order of indices and its marks in a `thread_local` object, so all tables of one type that a thread
sorts by the same field and the same type of comparison use the same object, and what one call leaves in it is what the next
one finds. Here the marks are the `bit_vector` itself, as modelled in `Verif.Bits`.
-/

namespace Gtl.Soa

open Gtl.Spec.Soa Gtl.Bits

variable {α : Type} {m : Nat} {T : Fin (m + 1) → Type}

/-- `sort_data` (soa.hpp:141-148). -/
structure Tmp where
  o : List Nat
  done : Bv

/-- `for (i = 0; i < num_elems; ++i) sort_tmp.o[i] = i` (soa.hpp:111-112), from `i` on, `k` more iterations. -/
def iota : Nat → Nat → List Nat → Res (List Nat)
  | 0, _, o => .ok o
  | k + 1, i, o => do
    Res.guardUb (decide (i < o.length))
    iota k (i + 1) (o.set i i)

/-- The `do ... while` loop of `reorder` (soa.hpp:190-199) with the `bit_vector`. -/
def cycleB (o : List Nat) (i : Nat) (ci : α) : Nat → List (Option α) → Bv → Nat → Res (List (Option α) × Bv)
  | 0, _, _, _ => .hang
  | f + 1, c, done, cur => do
    let d ← done.get cur
    Res.guardUb (!d)
    let done ← done.setTo cur true
    let oc ← at? o cur
    if oc = i then do
      let c ← putCell c cur ci
      .ok (c, done)
    else do
      let (v, c) ← takeCell c oc
      let c ← putCell c cur v
      let cur := oc
      let oc ← at? o cur
      if oc ≠ cur then cycleB o i ci f c done cur else .ok (c, done)

/-- The loop of `reorder` over `i` (soa.hpp:185-201) with the `bit_vector`. -/
def outerB (o : List Nat) : Nat → Nat → List (Option α) → Bv → Res (List (Option α) × Bv)
  | 0, _, c, done => .ok (c, done)
  | k + 1, i, c, done => do
    let d ← done.get i
    if !d then do
      let (ci, c) ← takeCell c i
      let (c, done) ← cycleB o i ci (o.length + 1) c done i
      outerB o k (i + 1) c done
    else outerB o k (i + 1) c done

/-- `reorder(c, o, done)` (soa.hpp:179-202): `done.reset()` first. -/
def reorderB (c : List α) (o : List Nat) (done : Bv) : Res (List α × Bv) := do
  let done ← done.setAll false
  let (c, done) ← outerB o o.length 0 (c.map some) done
  let c ← unwrapAll c
  .ok (c, done)

/-- `sort_by_reference_impl` (soa.hpp:171-174, 204-208): `reorder` for each column in turn, with the same scratch data. -/
def reorderCols (o : List Nat) : (k : Nat) → k ≤ m + 1 → Soa T → Bv → Res (Soa T × Bv)
  | 0, _, s, d => .ok (s, d)
  | k + 1, h, s, d => do
    let (s, d) ← reorderCols o k (by omega) s d
    let i : Fin (m + 1) := ⟨k, by omega⟩
    let (l, d) ← reorderB (s.col i) o d
    .ok ({ col := fun j => if e : j = i then e ▸ l else s.col j }, d)

/-- `sort_by_field<c>(lt)` (soa.hpp:105-121) with the scratch data `t`: it is resized (144-147), the indices are written, sorted
with a comparison that looks values up in the column, and every column is rearranged. -/
def Soa.sortB (S : Sorter) (s : Soa T) (t : Tmp) (c : Fin (m + 1)) (lt : T c → T c → Bool) : Res (Soa T × Tmp) := do
  let n := s.size
  let done ← t.done.resize n false
  let o ← iota n 0 (resizeVec 0 n t.o)
  let o := S.sort (cmpAt (s.col c) lt) o
  let (s, done) ← reorderCols o (m + 1) (Nat.le_refl _) s done
  .ok (s, { o := o, done := done })

/-- The tables of a thread and the scratch data it has: one for each function `sort_by_field<col_idx, C>` (soa.hpp:108). -/
structure Thread (T : Fin (m + 1) → Type) where
  table : Nat → Soa T
  tmp : Nat → Tmp

/-- Replace one. -/
def put {β : Type} (f : Nat → β) (x : Nat) (b : β) : Nat → β := fun y => if y = x then b else f y

/-- A call on one of the tables. `sort x f c lt`: `f` says which function `sort_by_field<col_idx, C>` is called. A sort that is
left by an exception, of the comparison or for lack of memory, has not touched the columns yet (soa.hpp:105-121), and leaves
scratch data of which nothing is assumed (`left`). -/
def Thread.step (S : Sorter) (dflt : Row T) (left : Tmp) (w : Thread T) : TOp T → Res (Thread T)
  | .on x op => do
    let s ← (w.table x).step S dflt op
    .ok { w with table := put w.table x s }
  | .sort x f c lt => do
    let (s, t) ← (w.table x).sortB S (w.tmp f) c lt
    .ok { table := put w.table x s, tmp := put w.tmp f t }
  | .sortThrows _ f => .ok { w with tmp := put w.tmp f left }
  | .copy x y => .ok { w with table := put w.table x (w.table y) }

/-- A history; `left k` is what the call with `k` calls after it leaves if it throws. -/
def Thread.run (S : Sorter) (dflt : Row T) (left : Nat → Tmp) (w : Thread T) : List (TOp T) → Res (Thread T)
  | [] => .ok w
  | op :: ops => do
    let w ← w.step S dflt (left ops.length) op
    w.run S dflt left ops

/-! ## The `bit_vector` does what the list of marks does -/

theorem at_of {l : List Bool} {i : Nat} {d : Bool} (h : at? l i = .ok d) : i < l.length ∧ at' l i = d := by
  unfold Gtl.Soa.at? at h
  cases e : l[i]? with
  | none => rw [e] at h; cases h
  | some x =>
    rw [e] at h
    cases h
    obtain ⟨hi, e⟩ := List.getElem?_eq_some_iff.1 e
    exact ⟨hi, by rw [at_get hi, e]⟩

theorem cycleB_ok (o : List Nat) (i : Nat) (ci : α) : ∀ (f : Nat) (c : List (Option α)) (done : List Bool) (v : Bv) (cur : Nat)
    {c' : List (Option α)} {done' : List Bool}, Sim v done → cycle o i ci f c done cur = .ok (c', done') →
    ∃ v', cycleB o i ci f c v cur = .ok (c', v') ∧ Sim v' done'
  | 0, _, _, _, _, _, _, _, h => by cases h
  | f + 1, c, done, v, cur, c', done', hv, h => by
    unfold cycle at h
    unfold cycleB
    obtain ⟨d, e1, h⟩ := Res.bind_eq_ok.1 h
    obtain ⟨hi, ea⟩ := at_of e1
    rw [get_sim hv hi, Res.ok_bind, ea]
    obtain ⟨_, e2, h⟩ := Res.bind_eq_ok.1 h
    rw [e2, Res.ok_bind]
    dsimp only at h
    obtain ⟨v1, e3, hv1⟩ := setTo_sim hv hi true
    rw [e3, Res.ok_bind]
    obtain ⟨oc, e4, h⟩ := Res.bind_eq_ok.1 h
    rw [e4, Res.ok_bind]
    split at h
    · next hoc =>
      rw [if_pos hoc]
      obtain ⟨c1, e5, h⟩ := Res.bind_eq_ok.1 h
      rw [e5, Res.ok_bind]
      cases h
      exact ⟨v1, rfl, hv1⟩
    · next hoc =>
      rw [if_neg hoc]
      obtain ⟨⟨x, c1⟩, e5, h⟩ := Res.bind_eq_ok.1 h
      rw [e5, Res.ok_bind]
      dsimp only at h ⊢
      obtain ⟨c2, e6, h⟩ := Res.bind_eq_ok.1 h
      rw [e6, Res.ok_bind]
      obtain ⟨oc', e7, h⟩ := Res.bind_eq_ok.1 h
      rw [e7, Res.ok_bind]
      split at h
      · next hn =>
        rw [if_pos hn]
        exact cycleB_ok o i ci f _ _ _ _ hv1 h
      · next hn =>
        rw [if_neg hn]
        cases h
        exact ⟨v1, rfl, hv1⟩

theorem outerB_ok (o : List Nat) : ∀ (k i : Nat) (c : List (Option α)) (done : List Bool) (v : Bv)
    {c' : List (Option α)} {done' : List Bool}, Sim v done → outer o k i c done = .ok (c', done') →
    ∃ v', outerB o k i c v = .ok (c', v') ∧ Sim v' done'
  | 0, _, _, _, v, _, _, hv, h => by cases h; exact ⟨v, rfl, hv⟩
  | k + 1, i, c, done, v, c', done', hv, h => by
    unfold outer at h
    unfold outerB
    obtain ⟨d, e1, h⟩ := Res.bind_eq_ok.1 h
    obtain ⟨hi, ea⟩ := at_of e1
    rw [get_sim hv hi, Res.ok_bind, ea]
    split at h
    · next hd =>
      rw [if_pos hd]
      obtain ⟨⟨x, c1⟩, e5, h⟩ := Res.bind_eq_ok.1 h
      rw [e5, Res.ok_bind]
      dsimp only at h ⊢
      obtain ⟨⟨c2, d2⟩, e6, h⟩ := Res.bind_eq_ok.1 h
      obtain ⟨v2, e7, hv2⟩ := cycleB_ok o i x _ _ _ _ _ hv e6
      rw [e7, Res.ok_bind]
      exact outerB_ok o k _ _ _ _ hv2 h
    · next hd =>
      rw [if_neg hd]
      exact outerB_ok o k _ _ _ _ hv h

/-- The length of the marks does not change. -/
theorem cycle_length (o : List Nat) (i : Nat) (ci : α) : ∀ (f : Nat) (c : List (Option α)) (done : List Bool) (cur : Nat)
    {c' : List (Option α)} {done' : List Bool}, cycle o i ci f c done cur = .ok (c', done') → done'.length = done.length
  | 0, _, _, _, _, _, h => by cases h
  | f + 1, c, done, cur, c', done', h => by
    unfold cycle at h
    obtain ⟨d, e1, h⟩ := Res.bind_eq_ok.1 h
    obtain ⟨_, e2, h⟩ := Res.bind_eq_ok.1 h
    dsimp only at h
    obtain ⟨oc, e4, h⟩ := Res.bind_eq_ok.1 h
    split at h
    · obtain ⟨c1, e5, h⟩ := Res.bind_eq_ok.1 h
      cases h
      exact List.length_set ..
    · obtain ⟨⟨x, c1⟩, e5, h⟩ := Res.bind_eq_ok.1 h
      dsimp only at h
      obtain ⟨c2, e6, h⟩ := Res.bind_eq_ok.1 h
      obtain ⟨oc', e7, h⟩ := Res.bind_eq_ok.1 h
      split at h
      · rw [cycle_length o i ci f _ _ _ h, List.length_set]
      · cases h
        exact List.length_set ..

theorem outer_length (o : List Nat) : ∀ (k i : Nat) (c : List (Option α)) (done : List Bool)
    {c' : List (Option α)} {done' : List Bool}, outer o k i c done = .ok (c', done') → done'.length = done.length
  | 0, _, _, _, _, _, h => by cases h; rfl
  | k + 1, i, c, done, c', done', h => by
    unfold outer at h
    obtain ⟨d, e1, h⟩ := Res.bind_eq_ok.1 h
    split at h
    · obtain ⟨⟨x, c1⟩, e5, h⟩ := Res.bind_eq_ok.1 h
      dsimp only at h
      obtain ⟨⟨c2, d2⟩, e6, h⟩ := Res.bind_eq_ok.1 h
      rw [outer_length o k _ _ _ h, cycle_length o i x _ _ _ _ e6]
    · exact outer_length o k _ _ _ h

theorem reorderB_ok {c l : List α} {o : List Nat} (h : reorder c o = .ok l) {v : Bv} {done : List Bool} (hv : Sim v done)
    (hl : done.length = o.length) : ∃ v' done', reorderB c o v = .ok (l, v') ∧ Sim v' done' ∧ done'.length = o.length := by
  unfold reorder at h
  unfold reorderB
  obtain ⟨_, e0, h⟩ := Res.bind_eq_ok.1 h
  have hne : done ≠ [] := by
    intro e
    subst e
    cases o with
    | nil => cases e0
    | cons _ _ => cases hl
  obtain ⟨v1, e1, hv1⟩ := fill_sim hv hne false
  have hrep : done.map (fun _ => false) = List.replicate o.length false := by
    rw [List.map_const', hl]
  rw [hrep] at hv1
  obtain ⟨⟨c1, d1⟩, e2, h⟩ := Res.bind_eq_ok.1 h
  obtain ⟨v2, e3, hv2⟩ := outerB_ok o _ _ _ _ _ hv1 e2
  refine ⟨v2, d1, ?_, hv2, by rw [outer_length o _ _ _ _ e2, List.length_replicate]⟩
  rw [e1, Res.ok_bind, e3, Res.ok_bind]
  dsimp only at h ⊢
  rw [h, Res.ok_bind]

theorem reorderCols_ok {s : Soa T} {o : List Nat} {g : (i : Fin (m + 1)) → List (T i)} (h : ∀ i, reorder (s.col i) o = .ok (g i))
    {v : Bv} {done : List Bool} (hv : Sim v done) (hl : done.length = o.length) : ∀ (k : Nat) (hk : k ≤ m + 1),
    ∃ s' v' done', reorderCols o k hk s v = .ok (s', v') ∧ Sim v' done' ∧ done'.length = o.length ∧
      ∀ i : Fin (m + 1), s'.col i = if i.val < k then g i else s.col i
  | 0, hk => ⟨s, v, done, rfl, hv, hl, fun i => by simp⟩
  | k + 1, hk => by
    obtain ⟨s1, v1, d1, h1, hv1, hl1, h2⟩ := reorderCols_ok h hv hl k (by omega)
    have hc : s1.col ⟨k, by omega⟩ = s.col ⟨k, by omega⟩ := by rw [h2, if_neg (by simp)]
    obtain ⟨v2, d2, e2, hv2, hl2⟩ := reorderB_ok (h ⟨k, by omega⟩) hv1 hl1
    refine ⟨?_, v2, d2, ?_, hv2, hl2, ?_⟩
    · exact { col := fun j => if e : j = ⟨k, by omega⟩ then e ▸ g ⟨k, by omega⟩ else s1.col j }
    · unfold reorderCols
      rw [h1]
      simp only [Res.ok_bind]
      rw [hc, e2]
      rfl
    · intro i
      dsimp only
      by_cases hi : i = ⟨k, by omega⟩
      · subst hi
        rw [dif_pos rfl, if_pos (by simp)]
      · rw [dif_neg hi, h2 i]
        have : i.val ≠ k := fun e => hi (Fin.ext e)
        by_cases hlt : i.val < k
        · rw [if_pos hlt, if_pos (by omega)]
        · rw [if_neg hlt, if_neg (by omega)]

/-! ## Whatever is left from before -/

/-- `resize` makes a usable `bit_vector` of anything. -/
theorem resize_any (v : Bv) (n : Nat) : ∃ v' l, v.resize n false = .ok v' ∧ Sim v' l ∧ l.length = n := by
  have h0 : Sim { v with sz := 64 * v.s.length } ((List.range (64 * v.s.length)).map (bit v.s)) := by
    refine ⟨by simp, by simp; omega, fun i => ?_⟩
    rw [at_range]
    by_cases hi : i < 64 * v.s.length
    · simp [hi]
    · rw [bit_out (by simpa using hi)]; simp [hi]
  obtain ⟨v', h1, h2⟩ := resize_sim h0 n false
  rw [resize_sz] at h1
  exact ⟨v', _, h1, h2, by unfold resized; simp⟩

theorem iota_ok : ∀ (k i : Nat) (o : List Nat), o.length = i + k → (∀ (j : Nat), j < i → o[j]? = some j) →
    iota k i o = .ok (List.range (i + k))
  | 0, i, o, hl, h => by
    unfold iota
    congr 1
    apply List.ext_getElem?
    intro j
    by_cases hj : j < i
    · rw [h j hj, List.getElem?_range (by omega)]
    · rw [List.getElem?_eq_none (by omega), List.getElem?_eq_none (by rw [List.length_range]; omega)]
  | k + 1, i, o, hl, h => by
    unfold iota
    rw [Res.guardUb_of (by rw [decide_eq_true_eq]; omega), Res.ok_bind, iota_ok k (i + 1) _ (by rw [List.length_set]; omega)]
    · congr 2; omega
    · intro j hj
      by_cases e : j = i
      · subst e
        rw [List.getElem?_set_self (by omega)]
      · rw [List.getElem?_set_ne (by omega)]
        exact h j (by omega)

theorem length_resizeVec (d : α) (n : Nat) (l : List α) : (resizeVec d n l).length = n := by
  unfold resizeVec; simp; omega

/-- Sorting with scratch data from before is sorting. -/
theorem sortB_ok {S : Sorter} (hS : S.Ok) {s : Soa T} {rows : List (Row T)} (h : Holds s rows) (t : Tmp) (c : Fin (m + 1))
    (lt : T c → T c → Bool) (hne : rows ≠ []) (hlt : StrictWeak lt (fun v => ∃ r ∈ rows, r c = v)) :
    ∃ s' t' rows', s.sortB S t c lt = .ok (s', t') ∧ Holds s' rows' ∧ StableSortOf (fun r s => lt (r c) (s c)) rows rows' := by
  obtain ⟨o, rows', ho, hlo, hg, hs⟩ := sort_order hS h c lt hne hlt
  obtain ⟨v, l, e1, e2, e3⟩ := resize_any t.done s.size
  obtain ⟨s', v', d', e4, _, _, e5⟩ := reorderCols_ok hg e2 (by rw [e3, hlo]) (m + 1) (Nat.le_refl _)
  refine ⟨s', { o := o, done := v' }, rows', ?_, fun i => by rw [e5 i, if_pos i.isLt], hs⟩
  unfold Soa.sortB
  dsimp only
  rw [e1, Res.ok_bind, iota_ok s.size 0 _ (by rw [length_resizeVec]; omega) (fun j hj => by omega), Res.ok_bind, Nat.zero_add, ho, e4]
  rfl

end Gtl.Soa
