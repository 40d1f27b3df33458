import Verif.Soa.Rows
import Verif.Spec.SoaRows
import Verif.Props.SoaTables
/-!
# Properties of rows of a `soa` as references (C122)
-/

namespace Gtl.Props.SoaRows

open Gtl.Soa Gtl.Spec.Soa Gtl.Spec.SoaRows
open Gtl.Props.Soa (shows_of)

variable {m : Nat} {T : Fin (m + 1) → Type}

theorem step_size {dflt : Row T} {rows rows' : List (Row T)} {op : Op T} (h : Step dflt rows op rows') :
    rows'.length = sizeAfter rows.length op := by
  cases op with
  | insert r => cases h; simp [sizeAfter]
  | assign i c v => cases h; simp [sizeAfter]
  | resize n => cases h; simp only [sizeAfter, List.length_append, List.length_take, List.length_replicate]; omega
  | reserve n => cases h; rfl
  | clear => cases h; rfl
  | sort c lt =>
    obtain ⟨o, h1, h2, _⟩ := h
    have := congrArg List.length h2
    simp only [List.length_map] at this
    rw [this, h1.length_eq, List.length_range]; rfl

theorem len_col {s : Soa T} {rows : List (Row T)} (h : Shows s rows) (c : Fin (m + 1)) : (s.col c).length = rows.length := by
  rw [h.col]; simp

theorem need_le {room j k : Nat} {op : Op T} {ops : List (Op T)} (h : Keeps room j k (op :: ops)) : need k op ≤ room := by
  obtain ⟨_, h2, h3, _⟩ := h
  cases op with
  | reserve n => exact h3 n rfl
  | _ => first | exact h2 | exact Nat.zero_le _

/-- One step that stays within the room. -/
theorem step_within {S : Sorter} (hS : S.Ok) (G : Growth) (dflt : Row T) {t : Tab T} {rows : List (Row T)} (h : Shows t.s rows)
    {op : Op T} (hv : op.Valid rows) (hn : ∀ c, need rows.length op ≤ t.room c) :
    ∃ t' rows', t.step S G dflt op = .ok t' ∧ Step dflt rows op rows' ∧ Shows t'.s rows' ∧ t'.room = t.room ∧ t'.block = t.block := by
  obtain ⟨s', rows', h1, h2, h3⟩ := step_ok hS h.col dflt op hv
  refine ⟨_, rows', by unfold Tab.step; rw [h1]; rfl, h3, shows_of h2, ?_, ?_⟩
  · funext c; dsimp only; rw [if_pos (by rw [len_col h]; exact hn c)]
  · funext c; dsimp only; rw [if_pos (by rw [len_col h]; exact hn c)]

/-! ## References stay -/

/-- A row taken from a table can be read for as long as the table has a row at this index and does not need more room than
it had, whatever else happens, and shows the row that is now at this index. -/
theorem C122_stays {S : Sorter} (hS : S.Ok) (G : Growth) (dflt : Row T) {t : Tab T} {rows : List (Row T)} (h : Shows t.s rows)
    {j n : Nat} (hj : j < rows.length) (hn : ∀ c, n ≤ t.room c) (ops : List (Op T)) (hok : Ok dflt rows ops)
    (hk : Keeps n j rows.length ops) :
    ∃ t' rows' row, trun S G dflt t ops = .ok t' ∧ Run dflt rows ops rows' ∧ Shows t'.s rows' ∧ rows'[j]? = some row ∧
      ∀ c, t'.read (t.rowRef j) c = .ok (row c) := by
  have key : ∀ (ops : List (Op T)) (t : Tab T) (rows : List (Row T)), Shows t.s rows → j < rows.length → (∀ c, n ≤ t.room c) →
      Ok dflt rows ops → Keeps n j rows.length ops →
      ∃ t' rows', trun S G dflt t ops = .ok t' ∧ Run dflt rows ops rows' ∧ Shows t'.s rows' ∧ j < rows'.length ∧
        t'.block = t.block := by
    intro ops
    induction ops with
    | nil => exact fun t rows h hj _ _ _ => ⟨t, rows, rfl, .nil, h, hj, rfl⟩
    | cons op ops ih =>
      intro t rows h hj hn hok hk
      obtain ⟨t1, rows1, h1, h2, h3, h4, h5⟩ := step_within hS G dflt h hok.1 (fun c => (need_le hk).trans (hn c))
      have hl := step_size h2
      obtain ⟨k1, _, _, k4⟩ := hk
      obtain ⟨t2, rows2, i1, i2, i3, i4, i5⟩ := ih t1 rows1 h3 (by rw [hl]; exact k1) (by rw [h4]; exact hn) (hok.2 _ h2)
        (by rw [hl]; exact k4)
      exact ⟨t2, rows2, by rw [trun, h1]; exact i1, .cons h2 i2, i3, i4, i5.trans h5⟩
  obtain ⟨t', rows', h1, h2, h3, h4, h5⟩ := key ops t rows h hj hn hok hk
  refine ⟨t', rows', rows'[j], h1, h2, h3, List.getElem?_eq_getElem h4, fun c => ?_⟩
  unfold Tab.read Tab.rowRef
  dsimp only
  rw [if_pos (by rw [h5]), h3.col, List.getElem?_map, List.getElem?_eq_getElem h4]
  rfl

/-- `reserve(n)` changes no row, and makes room for `n` rows; references stay if there was room. -/
theorem C122_reserve {S : Sorter} (hS : S.Ok) (G : Growth) (dflt : Row T) {t : Tab T} {rows : List (Row T)} (h : Shows t.s rows)
    (n : Nat) : ∃ t', t.step S G dflt (.reserve n) = .ok t' ∧ Shows t'.s rows ∧
      ∀ c, n ≤ t'.room c ∧ (n ≤ t.room c → t'.block c = t.block c) := by
  obtain ⟨s', rows', h1, h2, h3⟩ := step_ok hS h.col dflt (.reserve n) trivial
  cases h3
  refine ⟨_, by unfold Tab.step; rw [h1]; rfl, shows_of h2, fun c => ⟨?_, fun hc => ?_⟩⟩
  · dsimp only
    split
    · assumption
    · exact G.enough _ _
  · exact if_pos hc

theorem room_step {S : Sorter} {G : Growth} {dflt : Row T} {t t' : Tab T} {op : Op T} (h : t.step S G dflt op = .ok t')
    {n : Nat} {c : Fin (m + 1)} (hn : n ≤ t.room c) : n ≤ t'.room c := by
  unfold Tab.step at h
  obtain ⟨s, _, h2⟩ := Res.bind_eq_ok.1 h
  cases h2
  dsimp only
  split
  · exact hn
  · have := G.enough (t.room c) (need (t.s.col c).length op)
    omega

theorem room_run {S : Sorter} {G : Growth} {dflt : Row T} {n : Nat} {c : Fin (m + 1)} : ∀ (ops : List (Op T)) {t t' : Tab T},
    trun S G dflt t ops = .ok t' → n ≤ t.room c → n ≤ t'.room c
  | [], _, _, h, hn => by cases h; exact hn
  | op :: ops, t, t', h, hn => by
    rw [trun] at h
    obtain ⟨t1, h1, h2⟩ := Res.bind_eq_ok.1 h
    exact room_run ops h2 (room_step h1 hn)

theorem trun_ok {S : Sorter} (hS : S.Ok) (G : Growth) (dflt : Row T) : ∀ (ops : List (Op T)) {t : Tab T} {rows : List (Row T)},
    Shows t.s rows → Ok dflt rows ops → ∃ t' rows', trun S G dflt t ops = .ok t' ∧ Run dflt rows ops rows' ∧ Shows t'.s rows'
  | [], t, rows, h, _ => ⟨t, rows, rfl, .nil, h⟩
  | op :: ops, t, rows, h, hok => by
    obtain ⟨s', rows1, h1, h2, h3⟩ := step_ok hS h.col dflt op hok.1
    have h4 : ∃ t1, t.step S G dflt op = .ok t1 ∧ t1.s = s' := ⟨_, by unfold Tab.step; rw [h1]; rfl, rfl⟩
    obtain ⟨t1, e1, rfl⟩ := h4
    obtain ⟨t2, rows2, i1, i2, i3⟩ := trun_ok hS G dflt ops (shows_of h2) (hok.2 _ h3)
    exact ⟨t2, rows2, by rw [trun, e1]; exact i1, .cons h3 i2, i3⟩

/-- After `reserve(n)` at any time in a history: whatever is done before a row is taken, it can be used while there is a row
at its index, and never more than `n` rows. -/
theorem C122_reserved {S : Sorter} (hS : S.Ok) (G : Growth) (dflt : Row T) (n : Nat) (ops0 ops1 : List (Op T))
    (hok : Ok dflt [] (ops0 ++ .reserve n :: ops1)) :
    ∃ t rows, trun S G dflt Tab.empty (ops0 ++ .reserve n :: ops1) = .ok t ∧ Shows t.s rows ∧
      Run dflt [] (ops0 ++ .reserve n :: ops1) rows ∧
      ∀ j, j < rows.length → ∀ ops2, Ok dflt rows ops2 → Keeps n j rows.length ops2 →
        ∃ t' rows' row, trun S G dflt t ops2 = .ok t' ∧ Run dflt rows ops2 rows' ∧ Shows t'.s rows' ∧ rows'[j]? = some row ∧
          ∀ c, t'.read (t.rowRef j) c = .ok (row c) := by
  obtain ⟨t, rows, h1, h2, h3⟩ := trun_ok hS G dflt _ (t := Tab.empty) (rows := []) (shows_of fun i => rfl) hok
  refine ⟨t, rows, h1, h3, h2, fun j hj ops2 hok2 hk => C122_stays hS G dflt h3 hj (fun c => ?_) ops2 hok2 hk⟩
  have : ∀ (ops0 : List (Op T)) (t0 : Tab T), trun S G dflt t0 (ops0 ++ .reserve n :: ops1) = .ok t → n ≤ t.room c := by
    intro ops0
    induction ops0 with
    | nil =>
      intro t0 h
      rw [List.nil_append, trun] at h
      obtain ⟨t1, e1, e2⟩ := Res.bind_eq_ok.1 h
      refine room_run ops1 e2 ?_
      unfold Tab.step at e1
      obtain ⟨s, _, e3⟩ := Res.bind_eq_ok.1 e1
      cases e3
      dsimp only
      split
      · assumption
      · exact G.enough _ _
    | cons op ops ih =>
      intro t0 h
      rw [List.cons_append, trun] at h
      obtain ⟨t1, _, e2⟩ := Res.bind_eq_ok.1 h
      exact ih t1 e2
  exact this ops0 _ h1

/-- When an operation needs more room in a column than there is, all references into this column that were taken before
are gone. -/
theorem C122_grow {S : Sorter} (hS : S.Ok) (G : Growth) (dflt : Row T) {t : Tab T} {rows : List (Row T)} (h : Shows t.s rows)
    {op : Op T} (hv : op.Valid rows) {c : Fin (m + 1)} (hc : t.room c < need rows.length op) :
    ∃ t', t.step S G dflt op = .ok t' ∧ ∀ j, t'.read (t.rowRef j) c = .ub := by
  obtain ⟨s', rows', h1, h2, h3⟩ := step_ok hS h.col dflt op hv
  refine ⟨_, by unfold Tab.step; rw [h1]; rfl, fun j => ?_⟩
  unfold Tab.read Tab.rowRef
  dsimp only
  rw [if_neg]
  rw [if_neg (by rw [len_col h]; omega)]
  omega

/-! ## Writing -/

theorem write_ok {t : Tab T} {rows : List (Row T)} (h : Shows t.s rows) {r : RowRef m} (hb : r.block = t.block)
    (hj : r.idx < rows.length) (c : Fin (m + 1)) (v : T c) :
    ∃ t', t.write r c v = .ok t' ∧ Shows t'.s (rows.modify r.idx (fun row => patch row [⟨c, v⟩])) ∧ t'.block = t.block ∧
      t'.room = t.room := by
  refine ⟨{ t with s := { col := fun i => if e : i = c then e ▸ (t.s.col c).set r.idx v else t.s.col i } }, by
    unfold Tab.write; rw [if_pos ⟨by rw [hb], by rw [len_col h]; exact hj⟩], shows_of ?_, rfl, rfl⟩
  intro i
  dsimp only
  apply List.ext_getElem?
  intro k
  rw [List.getElem?_map, List.getElem?_modify]
  by_cases hi : i = c
  · subst hi
    rw [dif_pos rfl]
    show ((t.s.col i).set r.idx v)[k]? = _
    rw [h.col i, List.getElem?_set]
    by_cases hk : r.idx = k
    · subst hk
      simp only [if_true, List.length_map, hj, List.getElem?_eq_getElem hj]
      simp [patch]
    · simp [hk]
  · rw [dif_neg hi, h.col i, List.getElem?_map]
    by_cases hk : r.idx = k
    · subst hk
      simp [patch, List.getElem?_eq_getElem hj, hi]
    · simp [hk]

theorem modify_patch (rows : List (Row T)) (j : Nat) (p : Σ c, T c) (l : List (Σ c, T c)) :
    (rows.modify j (fun row => patch row [p])).modify j (fun row => patch row l) = rows.modify j (fun row => patch row (p :: l)) := by
  apply List.ext_getElem?
  intro k
  simp only [List.getElem?_modify]
  cases rows[k]? with
  | none => rfl
  | some row => by_cases hk : j = k <;> simp [hk, patch]

/-- Writing through a view, of any columns in any order: the row at its index gets the values, in other columns and other
rows nothing changes. All references stay. -/
theorem C122_write {r : RowRef m} : ∀ (l : List (Σ c, T c)) {t : Tab T} {rows : List (Row T)}, Shows t.s rows → r.block = t.block →
    r.idx < rows.length →
    ∃ t', t.writeView r l = .ok t' ∧ Shows t'.s (rows.modify r.idx (fun row => patch row l)) ∧ t'.block = t.block ∧ t'.room = t.room
  | [], t, rows, h, hb, hj => by
    refine ⟨t, rfl, ?_, rfl, rfl⟩
    have : rows.modify r.idx (fun row => patch row []) = rows := List.modify_id r.idx rows
    rw [this]; exact h
  | ⟨c, v⟩ :: l, t, rows, h, hb, hj => by
    obtain ⟨t1, e1, h1, h2, h3⟩ := write_ok h hb hj c v
    obtain ⟨t2, i1, i2, i3, i4⟩ := C122_write (r := r) l h1 (hb.trans h2.symm) (by simpa using hj)
    refine ⟨t2, ?_, ?_, i3.trans h2, i4.trans h3⟩
    · unfold Tab.writeView; rw [e1]; exact i1
    · rw [modify_patch] at i2; exact i2

/-- The row with the fields `cs` taken from another one. -/
def pick (src : Row T) (cs : List (Fin (m + 1))) : List (Σ c, T c) := cs.map (fun c => ⟨c, src c⟩)

/-- A field that is not in the list keeps its value; one that is gets the last value for it. -/
theorem C122_patch (row : Row T) (l : List (Σ c, T c)) (p : Σ c, T c) :
    (∀ i, (∀ q ∈ l, q.1 ≠ i) → patch row l i = row i) ∧ patch row (l ++ [p]) p.1 = p.2 := by
  constructor
  · intro i
    induction l generalizing row with
    | nil => exact fun _ => rfl
    | cons q l ih =>
      intro h
      show patch (fun j => if e : j = q.1 then e ▸ q.2 else row j) l i = row i
      rw [ih _ (fun q' hq => h q' (by simp [hq]))]
      rw [dif_neg (fun e => h q (by simp) e.symm)]
  · unfold patch
    rw [List.foldl_append]
    simp

/-- Assigning one row to another copies all fields, also if they are the same row. -/
theorem C122_assign {dst src : RowRef m} : ∀ (cs : List (Fin (m + 1))) {t : Tab T} {rows : List (Row T)} {a : Row T}, Shows t.s rows →
    dst.block = t.block → src.block = t.block → dst.idx < rows.length → rows[src.idx]? = some a →
    ∃ t', t.assignRow dst src cs = .ok t' ∧ Shows t'.s (rows.modify dst.idx (fun row => patch row (pick a cs))) ∧
      t'.block = t.block
  | [], t, rows, a, h, _, _, _, _ => by
    refine ⟨t, rfl, ?_, rfl⟩
    have : rows.modify dst.idx (fun row => patch row (pick a [])) = rows := List.modify_id dst.idx rows
    rw [this]; exact h
  | c :: cs, t, rows, a, h, hd, hs, hj, ha => by
    have hr : t.read src c = .ok (a c) := by
      unfold Tab.read
      rw [if_pos (by rw [hs]), h.col, List.getElem?_map, ha]; rfl
    obtain ⟨t1, e1, h1, h2, h3⟩ := write_ok h hd hj c (a c)
    have ha1 : (rows.modify dst.idx (fun row => patch row [⟨c, a c⟩]))[src.idx]? = some a := by
      rw [List.getElem?_modify, ha]
      split
      · refine congrArg some (funext fun i => ?_)
        show (if e : i = c then e ▸ a c else a i) = a i
        split
        · rename_i e; subst e; rfl
        · rfl
      · rfl
    obtain ⟨t2, i1, i2, i3⟩ := C122_assign (dst := dst) (src := src) cs h1 (hd.trans h2.symm) (hs.trans h2.symm)
      (by simpa using hj) ha1
    refine ⟨t2, ?_, ?_, i3.trans h2⟩
    · unfold Tab.assignRow; rw [hr, Res.ok_bind, e1]; exact i1
    · rw [modify_patch] at i2; exact i2

theorem patch_pick (a : Row T) : ∀ (cs : List (Fin (m + 1))) (row : Row T) (i : Fin (m + 1)), i ∈ cs ∨ row i = a i →
    patch row (pick a cs) i = a i
  | [], row, i, h => by
    rcases h with h | h
    · cases h
    · exact h
  | c :: cs, row, i, h => by
    show patch (fun j => if e : j = c then e ▸ a c else row j) (pick a cs) i = a i
    refine patch_pick a cs _ i ?_
    by_cases hi : i = c
    · subst hi; right; rw [dif_pos rfl]
    · rw [dif_neg hi]
      rcases h with h | h
      · rcases List.mem_cons.1 h with h | h
        · exact absurd h hi
        · exact .inl h
      · exact .inr h

/-- `t[i] = t[j]`: the row at `i` becomes equal to the row at `j`, nothing else changes. -/
theorem C122_assign_all {t : Tab T} {rows : List (Row T)} (h : Shows t.s rows) {i j : Nat} {a : Row T} (hi : i < rows.length)
    (hj : rows[j]? = some a) : ∃ t', t.assignRow (t.rowRef i) (t.rowRef j) (List.finRange (m + 1)) = .ok t' ∧
      Shows t'.s (rows.set i a) ∧ t'.block = t.block := by
  obtain ⟨t', h1, h2, h3⟩ := C122_assign (dst := t.rowRef i) (src := t.rowRef j) (List.finRange (m + 1)) h rfl rfl hi hj
  refine ⟨t', h1, ?_, h3⟩
  have : rows.modify i (fun row => patch row (pick a (List.finRange (m + 1)))) = rows.set i a := by
    apply List.ext_getElem?
    intro k
    rw [List.getElem?_modify, List.getElem?_set]
    by_cases hk : i = k
    · subst hk
      simp only [if_true, hi, List.getElem?_eq_getElem hi, Option.map_eq_map, Option.map_some]
      exact congrArg some (funext fun c => patch_pick a _ _ c (.inl (List.mem_finRange c)))
    · simp [hk]
  rw [← this]
  exact h2

/-! ## Example -/

open Gtl.Props.Soa (exT exRow isort isort_ok numbers names)
open Gtl.Props.SoaTables (byNumber byNumber_ok)

/-- Blocks of at least twice the size. -/
def twice : Growth := ⟨fun cap need => max need (2 * cap), fun _ _ => Nat.le_max_left _ _⟩

def exStart : List (Op exT) := [.insert (exRow 7 "q"), .clear] ++ .reserve 3 :: [.insert (exRow 5 "x"), .insert (exRow 4 "y")]

def exUse : List (Op exT) := [.insert (exRow 9 "z"), .assign 0 ⟨0, by omega⟩ (6 : Nat), .sort ⟨0, by omega⟩ byNumber, .resize 1,
  .reserve 2]

theorem exStart_ok : Ok (exRow 0 "") [] exStart := by
  refine ⟨trivial, fun r h => ?_⟩; subst h
  refine ⟨trivial, fun r h => ?_⟩; subst h
  refine ⟨trivial, fun r h => ?_⟩; subst h
  refine ⟨trivial, fun r h => ?_⟩; subst h
  exact ⟨trivial, fun r h => trivial⟩

/-- What may be done with the table of `exStart` while the row at index 0 is used. -/
theorem exUse_ok (rows : List (Row exT)) (hr : rows.length = 2) : Ok (exRow 0 "") rows exUse ∧ Keeps 3 0 rows.length exUse := by
  constructor
  · refine ⟨trivial, fun r h => ?_⟩; subst h
    refine ⟨by simp [Op.Valid], fun r h => ?_⟩; subst h
    refine ⟨⟨by simp [List.modify_eq_nil_iff], byNumber_ok _⟩, fun r h => ⟨trivial, fun r h => ⟨trivial, fun _ _ => trivial⟩⟩⟩
  · rw [hr]
    simp [Keeps, exUse, sizeAfter]

/-- The name in a row that is used. -/
def nameIn (t : Tab exT) (r : RowRef 1) : Res String := t.read r ⟨1, by omega⟩

/-- The row at index 0 is read when it is taken, and again after some operations. -/
def exRead (ops : List (Op exT)) : Res (String × String) := do
  let t ← trun isort twice (exRow 0 "") Tab.empty exStart
  let v ← nameIn t (t.rowRef 0)
  let t' ← trun isort twice (exRow 0 "") t ops
  let w ← nameIn t' (t.rowRef 0)
  .ok (v, w)

/-- After sorting the reference shows the row that is now at index 0. When the table becomes larger than what was reserved
the reference is gone. -/
theorem exRows : exRead exUse = .ok ("x", "y") ∧ exRead [.insert (exRow 1 ""), .insert (exRow 2 "")] = .ub := by
  constructor <;> decide +kernel

end Gtl.Props.SoaRows
