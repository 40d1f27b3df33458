import Verif.Props.SoaDefs
import Mathlib.Data.List.Nodup
import Mathlib.Data.Option.Basic
import Mathlib.Data.List.Perm.Basic
/-!
# `reorder` permutes, and `soa` is a table of rows
-/

namespace Gtl.Soa

open Gtl.Spec.Soa

variable {α : Type}

/-! ## `reorder` -/

/-- Where the rearrangement of `old` by `o` stands: `D` are the finished positions, `gap` is the position moved from. -/
structure Mid (o : List Nat) (old : List α) (c : List (Option α)) (done : List Bool) (D : Nat → Prop) (gap : Option Nat) : Prop where
  len : c.length = o.length
  dlen : done.length = o.length
  bits : ∀ (x : Nat), x < o.length → (done[x]? = some true ↔ D x)
  lt : ∀ x, D x → x < o.length
  fin : ∀ (x y : Nat), D x → o[x]? = some y → c[x]? = some (old[y]?)
  hole : ∀ x, gap = some x → ¬ D x ∧ x < o.length
  rest : ∀ (x : Nat), x < o.length → ¬ D x → gap ≠ some x → c[x]? = some (old[x]?)

/-- `o` is a permutation. -/
structure Perm (o : List Nat) : Prop where
  lt : ∀ (x y : Nat), o[x]? = some y → y < o.length
  inj : ∀ (x x' y : Nat), o[x]? = some y → o[x']? = some y → x = x'

theorem done_false {o : List Nat} {old : List α} {c done D gap} (h : Mid o old c done D gap) {x : Nat} (hx : x < o.length) (hd : ¬ D x) :
    done[x]? = some false := by
  have hl : x < done.length := by rw [h.dlen]; exact hx
  rw [List.getElem?_eq_getElem hl]
  cases hb : done[x] with
  | false => rfl
  | true =>
    exact absurd ((h.bits x hx).1 (by rw [List.getElem?_eq_getElem hl, hb])) hd

theorem count_set {done : List Bool} : ∀ {x : Nat}, done[x]? = some false → (done.set x true).count false + 1 = done.count false := by
  induction done with
  | nil => intro x h; simp at h
  | cons b done ih =>
    intro x h
    cases x with
    | zero =>
      simp only [List.getElem?_cons_zero, Option.some.injEq] at h
      subst h
      simp
    | succ x =>
      rw [List.getElem?_cons_succ] at h
      have := ih h
      simp only [List.set_cons_succ, List.count_cons]
      omega

theorem cycle_ok {o : List Nat} (ho : Perm o) {old : List α} (hold : old.length = o.length) {i : Nat} {ci : α} (hci : old[i]? = some ci) :
    ∀ (f : Nat) (c : List (Option α)) (done : List Bool) (D : Nat → Prop) (cur : Nat),
    Mid o old c done D (some cur) → done.count false ≤ f →
    (∀ (x y : Nat), D x → o[x]? = some y → D y ∨ y = cur) →
    (∀ x, D x → (∃ y, D y ∧ o[y]? = some x) ∨ x = i) →
    (D i ∨ i = cur) → (cur ≠ i → ∃ y, D y ∧ o[y]? = some cur) →
    ∃ c' done' D', cycle o i ci f c done cur = .ok (c', done') ∧ Mid o old c' done' D' none ∧
      (∀ x, D x → D' x) ∧ D' cur ∧
      (∀ (x y : Nat), D' x → o[x]? = some y → D' y) ∧ (∀ x, D' x → (∃ y, D' y ∧ o[y]? = some x)) ∧ D' i
  | 0, c, done, D, cur, h, hf, _, _, _, _ => by
    obtain ⟨h1, h2⟩ := h.hole cur rfl
    have hfalse := done_false h h2 h1
    have := count_set hfalse
    omega
  | f + 1, c, done, D, cur, h, hf, hn, hp, hi, hc => by
    obtain ⟨hcd, hcl⟩ := h.hole cur rfl
    have hfalse := done_false h hcl hcd
    have hcount := count_set hfalse
    have hoc : o[cur]? = some o[cur] := List.getElem?_eq_getElem hcl
    generalize hy : o[cur] = oc at hoc
    have hol := ho.lt cur oc hoc
    -- the finished positions after this step
    have hmark : ∀ (x : Nat), x < o.length → ((done.set cur true)[x]? = some true ↔ (D x ∨ x = cur)) := by
      intro x hx
      rw [List.getElem?_set]
      by_cases hxc : cur = x
      · subst hxc
        rw [if_pos rfl, if_pos (by rw [h.dlen]; exact hx)]
        simp
      · rw [if_neg hxc, h.bits x hx]
        exact ⟨.inl, fun h' => h'.resolve_right (fun e => hxc e.symm)⟩
    unfold cycle
    simp only [at?, hfalse, hoc, Res.ofOption_some, Res.ok_bind, Bool.not_false, Res.guardUb_true]
    by_cases hend : oc = i
    · rw [if_pos hend]
      unfold putCell
      rw [if_pos (by rw [h.len]; exact hcl)]
      refine ⟨_, _, fun x => D x ∨ x = cur, rfl, ?_, fun x hx => .inl hx, .inr rfl, ?_, ?_, hi.imp id id⟩
      · refine ⟨by rw [List.length_set, h.len], by rw [List.length_set, h.dlen], hmark, ?_, ?_, (fun x hx => by cases hx), ?_⟩
        · rintro x (hx | rfl)
          · exact h.lt x hx
          · exact hcl
        · intro x y hx hxy
          rw [List.getElem?_set]
          by_cases hxc : cur = x
          · subst hxc
            rw [if_pos rfl, if_pos (by rw [h.len]; exact hcl)]
            rw [hoc] at hxy
            injection hxy with hxy
            rw [← hxy, hend, hci]
          · rw [if_neg hxc]
            rcases hx with hx | hx
            · exact h.fin x y hx hxy
            · exact absurd hx.symm hxc
        · intro x hx hxd _
          rw [List.getElem?_set, if_neg (fun e => hxd (.inr e.symm))]
          exact h.rest x hx (fun hd => hxd (.inl hd)) (fun e => hxd (.inr (by injection e with e; exact e.symm)))
      · rintro x y (hx | rfl) hxy
        · rcases hn x y hx hxy with hy | hy
          · exact .inl hy
          · exact .inr hy
        · rw [hoc] at hxy
          injection hxy with hxy
          rw [← hxy, hend]
          exact hi.imp id id
      · rintro x (hx | rfl)
        · rcases hp x hx with ⟨y, hy1, hy2⟩ | rfl
          · exact ⟨y, .inl hy1, hy2⟩
          · exact ⟨cur, .inr rfl, by rw [hoc, hend]⟩
        · by_cases hci' : x = i
          · exact ⟨x, .inr rfl, by rw [hoc, hend, hci']⟩
          · obtain ⟨y, hy1, hy2⟩ := hc hci'
            exact ⟨y, .inl hy1, hy2⟩
    · rw [if_neg hend]
      have hocd : ¬ D oc := by
        intro hd
        rcases hp oc hd with ⟨y, hy1, hy2⟩ | he
        · rw [ho.inj y cur oc hy2 hoc] at hy1
          exact hcd hy1
        · exact hend he
      have hocc : oc ≠ cur := by
        intro he
        subst he
        obtain ⟨y, hy1, hy2⟩ := hc hend
        rw [ho.inj y oc oc hy2 hoc] at hy1
        exact hcd hy1
      have hcell := h.rest oc hol hocd (fun e => hocc (by injection e with e; exact e.symm))
      have holdl : oc < old.length := by rw [hold]; exact hol
      have hv : old[oc]? = some old[oc] := List.getElem?_eq_getElem holdl
      unfold takeCell putCell
      rw [hcell, hv]
      simp only [Res.ok_bind]
      rw [List.length_set, if_pos (by rw [h.len]; exact hcl)]
      simp only [Res.ok_bind]
      have hoo : o[oc]? = some o[oc] := List.getElem?_eq_getElem hol
      rw [hoo]
      simp only [Res.ofOption_some, Res.ok_bind]
      have hne : o[oc] ≠ oc := by
        intro he
        rw [he] at hoo
        exact hocc (ho.inj oc cur oc hoo hoc)
      rw [if_pos hne]
      have hmid : Mid o old ((c.set oc none).set cur (some old[oc])) (done.set cur true) (fun x => D x ∨ x = cur) (some oc) := by
        refine ⟨by rw [List.length_set, List.length_set, h.len], by rw [List.length_set, h.dlen], hmark, ?_, ?_, ?_, ?_⟩
        · rintro x (hx | rfl)
          · exact h.lt x hx
          · exact hcl
        · intro x y hx hxy
          rw [List.getElem?_set]
          by_cases hxc : cur = x
          · subst hxc
            rw [if_pos rfl, if_pos (by rw [List.length_set, h.len]; exact hcl)]
            rw [hoc] at hxy
            injection hxy with hxy
            rw [← hxy, hv]
          · rw [if_neg hxc]
            rcases hx with hx | hx
            · rw [List.getElem?_set, if_neg (fun e => hocd (by rw [e]; exact hx))]
              exact h.fin x y hx hxy
            · exact absurd hx.symm hxc
        · intro x hx
          injection hx with hx
          subst hx
          refine ⟨?_, hol⟩
          rintro (h1 | h1)
          · exact hocd h1
          · exact hocc h1
        · intro x hx hxd hxg
          rw [List.getElem?_set, if_neg (fun e => hxd (.inr e.symm)), List.getElem?_set, if_neg (fun e => hxg (by rw [e]))]
          exact h.rest x hx (fun hd => hxd (.inl hd)) (fun e => hxd (.inr (by injection e with e; exact e.symm)))
      obtain ⟨c', done', D', e1, e2, e3, e4, e5, e6, e7⟩ := cycle_ok ho hold hci f _ _ _ oc hmid (by omega)
        (by
          rintro x y (hx | rfl) hxy
          · rcases hn x y hx hxy with hy | hy
            · exact .inl (.inl hy)
            · exact .inl (.inr hy)
          · rw [hoc] at hxy
            injection hxy with hxy
            exact .inr hxy.symm)
        (by
          rintro x (hx | rfl)
          · rcases hp x hx with ⟨y, hy1, hy2⟩ | hx
            · exact .inl ⟨y, .inl hy1, hy2⟩
            · exact .inr hx
          · by_cases hxi : x = i
            · exact .inr hxi
            · obtain ⟨y, hy1, hy2⟩ := hc hxi
              exact .inl ⟨y, .inl hy1, hy2⟩)
        (.inl (hi.imp id id)) (fun _ => ⟨cur, .inr rfl, hoc⟩)
      exact ⟨c', done', D', e1, e2, fun x hx => e3 x (.inl hx), e3 cur (.inr rfl), e5, e6, e7⟩

theorem outer_ok {o : List Nat} (ho : Perm o) {old : List α} (hold : old.length = o.length) :
    ∀ (k i : Nat) (c : List (Option α)) (done : List Bool) (D : Nat → Prop), i + k = o.length → Mid o old c done D none →
    (∀ x, x < i → D x) → (∀ (x y : Nat), D x → o[x]? = some y → D y) → (∀ x, D x → ∃ y, D y ∧ o[y]? = some x) →
    ∃ c' done' D', outer o k i c done = .ok (c', done') ∧ Mid o old c' done' D' none ∧ ∀ x, x < o.length → D' x
  | 0, i, c, done, D, hk, h, hi, _, _ => ⟨c, done, D, rfl, h, fun x hx => hi x (by omega)⟩
  | k + 1, i, c, done, D, hk, h, hi, hn, hp => by
    have hil : i < o.length := by omega
    unfold outer
    by_cases hd : D i
    · have : done[i]? = some true := (h.bits i hil).2 hd
      simp only [at?, this, Res.ofOption_some, Res.ok_bind, Bool.not_true]
      exact outer_ok ho hold k (i + 1) c done D (by omega) h (fun x hx => by
        rcases Nat.lt_succ_iff_lt_or_eq.1 hx with hx | rfl
        · exact hi x hx
        · exact hd) hn hp
    · have hfalse := done_false h hil hd
      have hv : old[i]? = some old[i] := List.getElem?_eq_getElem (by rw [hold]; exact hil)
      have hcell := h.rest i hil hd (fun e => by cases e)
      simp only [at?, hfalse, Res.ofOption_some, Res.ok_bind, Bool.not_false, if_true]
      unfold takeCell
      rw [hcell, hv]
      simp only [Res.ok_bind]
      have hmid : Mid o old (c.set i none) done D (some i) := by
        refine ⟨by rw [List.length_set, h.len], h.dlen, h.bits, h.lt, ?_, ?_, ?_⟩
        · intro x y hx hxy
          rw [List.getElem?_set, if_neg (fun e => hd (by rw [e]; exact hx))]
          exact h.fin x y hx hxy
        · intro x hx
          injection hx with hx
          subst hx
          exact ⟨hd, hil⟩
        · intro x hx hxd hxg
          rw [List.getElem?_set, if_neg (fun e => hxg (by rw [e]))]
          exact h.rest x hx hxd (fun e => by cases e)
      have hcnt : done.count false ≤ o.length + 1 := by
        have := List.count_le_length (a := false) (l := done)
        rw [h.dlen] at this
        omega
      obtain ⟨c', done', D', e1, e2, e3, e4, e5, e6, e7⟩ := cycle_ok ho hold hv (o.length + 1) _ _ D i hmid hcnt
        (fun x y hx hxy => .inl (hn x y hx hxy)) (fun x hx => .inl (hp x hx)) (.inr rfl) (fun he => absurd rfl he)
      rw [e1]
      simp only [Res.ok_bind]
      exact outer_ok ho hold k (i + 1) c' done' D' (by omega) e2 (fun x hx => by
        rcases Nat.lt_succ_iff_lt_or_eq.1 hx with hx | rfl
        · exact e3 x (hi x hx)
        · exact e4) e5 e6

theorem unwrapAll_map : ∀ (l : List α), unwrapAll (l.map some) = .ok l
  | [] => rfl
  | a :: l => by
    rw [List.map_cons]
    unfold unwrapAll
    rw [unwrapAll_map l]; rfl

theorem perm_of {o : List Nat} {n : Nat} (h : o.Perm (List.range n)) : o.length = n ∧ Perm o := by
  have hl : o.length = n := by rw [h.length_eq, List.length_range]
  refine ⟨hl, ⟨fun x y hxy => ?_, fun x x' y h1 h2 => ?_⟩⟩
  · rw [hl, ← List.mem_range]
    exact h.mem_iff.1 (List.mem_of_getElem? hxy)
  · have hnd : o.Nodup := h.nodup_iff.2 List.nodup_range
    obtain ⟨hx, e1⟩ := List.getElem?_eq_some_iff.1 h1
    obtain ⟨hx', e2⟩ := List.getElem?_eq_some_iff.1 h2
    exact (List.Nodup.getElem_inj_iff hnd).1 (e1.trans e2.symm)

/-- `reorder` puts at position `i` the value of position `o[i]`. -/
theorem reorder_ok {o : List Nat} {old : List α} (hne : old ≠ []) (h : o.Perm (List.range old.length)) :
    ∃ l, reorder old o = .ok l ∧ l.map some = o.map (fun (i : Nat) => old[i]?) := by
  obtain ⟨hl, ho⟩ := perm_of h
  have h0 : Mid o old (old.map some) (List.replicate o.length false) (fun _ => False) none := by
    refine ⟨by rw [List.length_map, hl], List.length_replicate, ?_, (fun x hx => hx.elim), (fun x y hx => hx.elim), (fun x hx => by cases hx), ?_⟩
    · intro x hx
      rw [List.getElem?_replicate, if_pos hx]
      simp
    · intro x hx _ _
      rw [List.getElem?_map, List.getElem?_eq_getElem (by omega)]
      rfl
  obtain ⟨c', done', D', e1, e2, e3⟩ := outer_ok ho hl.symm o.length 0 _ _ _ (by omega) h0 (fun x hx => by omega)
    (fun x y hx => hx.elim) (fun x hx => hx.elim)
  have hc : c' = o.map (fun (i : Nat) => old[i]?) := by
    apply List.ext_getElem?
    intro x
    by_cases hx : x < o.length
    · rw [List.getElem?_map, List.getElem?_eq_getElem hx]
      exact e2.fin x _ (e3 x hx) (List.getElem?_eq_getElem hx)
    · rw [List.getElem?_eq_none (by rw [e2.len]; omega), List.getElem?_eq_none (by rw [List.length_map]; omega)]
  obtain ⟨l, hsome⟩ : ∃ l : List α, l.map some = o.map (fun (i : Nat) => old[i]?) := by
    have : ∀ (p : List Nat), (∀ i ∈ p, i < old.length) → ∃ l : List α, l.map some = p.map (fun (i : Nat) => old[i]?) := by
      intro p
      induction p with
      | nil => intro _; exact ⟨[], rfl⟩
      | cons a p ih =>
        intro hp
        obtain ⟨l, hl'⟩ := ih (fun i hi => hp i (List.mem_cons_of_mem _ hi))
        have ha := hp a List.mem_cons_self
        exact ⟨old[a] :: l, by rw [List.map_cons, List.map_cons, hl', List.getElem?_eq_getElem ha]⟩
    exact this o (fun i hi => List.mem_range.1 (h.mem_iff.1 hi))
  refine ⟨l, ?_, hsome⟩
  unfold reorder
  have hoe : (!o.isEmpty) = true := by
    cases o with
    | nil => exact absurd (List.length_eq_zero_iff.1 hl.symm) hne
    | cons _ _ => rfl
  rw [Res.guardUb_of hoe, e1]
  simp only [Res.ok_bind]
  rw [hc, ← hsome, unwrapAll_map]

/-! ## Rows -/

variable {m : Nat} {T : Fin (m + 1) → Type}

/-- The columns hold the fields of the rows. -/
def Holds (s : Soa T) (rows : List (Row T)) : Prop := ∀ i, s.col i = rows.map (fun r => r i)

theorem eachCol_go {s : Soa T} {f : (i : Fin (m + 1)) → List (T i) → Res (List (T i))} {g : (i : Fin (m + 1)) → List (T i)}
    (h : ∀ i, f i (s.col i) = .ok (g i)) : ∀ (k : Nat) (hk : k ≤ m + 1),
    ∃ s', eachCol.go f k hk s = .ok s' ∧ ∀ i : Fin (m + 1), s'.col i = if i.val < k then g i else s.col i
  | 0, hk => ⟨s, rfl, fun i => by simp⟩
  | k + 1, hk => by
    obtain ⟨s1, h1, h2⟩ := eachCol_go h k (by omega)
    refine ⟨?_, ?_, ?_⟩
    · exact { col := fun j => if e : j = ⟨k, by omega⟩ then e ▸ g ⟨k, by omega⟩ else s1.col j }
    · unfold eachCol.go
      rw [h1]
      simp only [Res.ok_bind]
      rw [h2 ⟨k, by omega⟩, if_neg (by simp), h ⟨k, by omega⟩]
      rfl
    · intro i
      dsimp only
      by_cases hi : i = ⟨k, by omega⟩
      · subst hi
        rw [dif_pos rfl, if_pos (by simp)]
      · rw [dif_neg hi, h2 i]
        have : i.val ≠ k := fun e => hi (Fin.ext e)
        by_cases hlt : i.val < k
        · rw [if_pos hlt, if_pos (by omega)]
        · rw [if_neg hlt, if_neg (by omega)]

theorem eachCol_ok {s : Soa T} {f : (i : Fin (m + 1)) → List (T i) → Res (List (T i))} {g : (i : Fin (m + 1)) → List (T i)}
    (h : ∀ i, f i (s.col i) = .ok (g i)) : ∃ s', eachCol s f = .ok s' ∧ ∀ i, s'.col i = g i := by
  obtain ⟨s', h1, h2⟩ := eachCol_go h (m + 1) (Nat.le_refl _)
  exact ⟨s', h1, fun i => by rw [h2 i, if_pos i.isLt]⟩

theorem Holds.size {s : Soa T} {rows : List (Row T)} (h : Holds s rows) : s.size = rows.length := by
  unfold Soa.size
  rw [h 0, List.length_map]

/-- The order found, and what the columns become. -/
theorem sort_order {S : Sorter} (hS : S.Ok) {s : Soa T} {rows : List (Row T)} (h : Holds s rows) (c : Fin (m + 1))
    (lt : T c → T c → Bool) (hne : rows ≠ []) (hlt : StrictWeak lt (fun v => ∃ r ∈ rows, r c = v)) :
    ∃ o rows', S.sort (cmpAt (s.col c) lt) (List.range s.size) = o ∧ s.size = o.length ∧
      (∀ i, reorder (s.col i) o = .ok (rows'.map (fun r => r i))) ∧ StableSortOf (fun r s => lt (r c) (s c)) rows rows' := by
  have hcol : ∀ (a : Nat), (s.col c)[a]? = (rows[a]?).map (fun r => r c) := fun a => by rw [h c, List.getElem?_map]
  generalize hcmp : cmpAt (s.col c) lt = cmp
  have hcmp' : ∀ (a b : Nat) x y, rows[a]? = some x → rows[b]? = some y → cmp a b = lt (x c) (y c) := by
    intro a b x y hx hy
    subst hcmp
    unfold cmpAt
    rw [hcol a, hcol b, hx, hy]
    rfl
  have hget : ∀ {a : Nat}, a ∈ List.range s.size → ∃ x, rows[a]? = some x ∧ ∃ r ∈ rows, r c = x c := by
    intro a ha
    rw [List.mem_range, h.size] at ha
    exact ⟨rows[a], List.getElem?_eq_getElem ha, rows[a], List.getElem_mem ha, rfl⟩
  have hsw : StrictWeak cmp (· ∈ List.range s.size) := by
    refine ⟨fun a ha => ?_, fun a b d ha hb hd => ?_, fun a b d ha hb hd => ?_⟩
    · obtain ⟨x, hx, mx⟩ := hget ha
      rw [hcmp' a a x x hx hx]
      exact hlt.irrefl _ mx
    · obtain ⟨x, hx, mx⟩ := hget ha
      obtain ⟨y, hy, my⟩ := hget hb
      obtain ⟨z, hz, mz⟩ := hget hd
      rw [hcmp' a b x y hx hy, hcmp' b d y z hy hz, hcmp' a d x z hx hz]
      exact hlt.trans _ _ _ mx my mz
    · obtain ⟨x, hx, mx⟩ := hget ha
      obtain ⟨y, hy, my⟩ := hget hb
      obtain ⟨z, hz, mz⟩ := hget hd
      rw [hcmp' a b x y hx hy, hcmp' b a y x hy hx, hcmp' b d y z hy hz, hcmp' d b z y hz hy, hcmp' a d x z hx hz, hcmp' d a z x hz hx]
      exact hlt.incomp _ _ _ mx my mz
  obtain ⟨o', ho1, ho2, ho3⟩ := hS cmp (List.range s.size) hsw
  generalize ho : S.sort cmp (List.range s.size) = o at ho2
  rw [List.length_range, h.size] at ho1
  -- sorting indices: `o` and `o'` are the same list
  have hoo : o = o' := by
    have : o.map some = o'.map some := by
      rw [ho2]
      apply List.map_congr_left
      intro i hi
      rw [h.size, List.getElem?_range (List.mem_range.1 (ho1.mem_iff.1 hi))]
    exact (List.map_injective_iff.2 (Option.some_injective _)) this
  subst hoo
  obtain ⟨rows', hr1, hr2⟩ := reorder_ok (old := rows) hne ho1
  have hstep : ∀ i, reorder (s.col i) o = .ok (rows'.map (fun r => r i)) := by
    intro i
    obtain ⟨l, h1, h2⟩ := reorder_ok (old := s.col i) (o := o) (by rw [h i]; simpa using hne) (by rw [h i, List.length_map]; exact ho1)
    rw [h1]
    congr 1
    have : l.map some = (rows'.map (fun r => r i)).map some := by
      rw [h2, List.map_map]
      have e : rows'.map (some ∘ fun r => r i) = (rows'.map some).map (fun x => x.map (fun r : Row T => r i)) := by
        rw [List.map_map]; rfl
      rw [e, hr2, List.map_map]
      apply List.map_congr_left
      intro a _
      rw [h i, List.getElem?_map]
      rfl
    exact (List.map_injective_iff.2 (Option.some_injective _)) this
  refine ⟨o, rows', rfl, by rw [ho1.length_eq, List.length_range, h.size], hstep, o, ho1, hr2, ?_⟩
  · refine ho3.imp_of_mem ?_
    intro a b ha hb hab x y hx hy
    have hal := List.mem_range.1 (ho1.mem_iff.1 ha)
    have hbl := List.mem_range.1 (ho1.mem_iff.1 hb)
    have := hab a b (List.getElem?_range (by rw [h.size]; exact hal)) (List.getElem?_range (by rw [h.size]; exact hbl))
    rw [hcmp' a b x y hx hy, hcmp' b a y x hy hx] at this
    exact this

theorem sort_ok {S : Sorter} (hS : S.Ok) {s : Soa T} {rows : List (Row T)} (h : Holds s rows) (dflt : Row T) (c : Fin (m + 1))
    (lt : T c → T c → Bool) (hne : rows ≠ []) (hlt : StrictWeak lt (fun v => ∃ r ∈ rows, r c = v)) :
    ∃ s' rows', s.step S dflt (.sort c lt) = .ok s' ∧ Holds s' rows' ∧ StableSortOf (fun r s => lt (r c) (s c)) rows rows' := by
  obtain ⟨o, rows', ho, _, hstep, hs⟩ := sort_order hS h c lt hne hlt
  obtain ⟨s', e1, e2⟩ := eachCol_ok (f := fun _ l => reorder l o) hstep
  refine ⟨s', rows', ?_, e2, hs⟩
  unfold Soa.step
  dsimp only
  rw [ho]
  exact e1

theorem step_ok {S : Sorter} (hS : S.Ok) {s : Soa T} {rows : List (Row T)} (h : Holds s rows) (dflt : Row T) (op : Op T)
    (hv : op.Valid rows) : ∃ s' rows', s.step S dflt op = .ok s' ∧ Holds s' rows' ∧ Step dflt rows op rows' := by
  cases op with
  | insert r =>
    obtain ⟨s', e1, e2⟩ := eachCol_ok (s := s) (f := fun i l => .ok (l ++ [r i])) (g := fun i => s.col i ++ [r i]) (fun i => rfl)
    exact ⟨s', rows ++ [r], e1, fun i => by rw [e2 i, h i, List.map_append]; rfl, rfl⟩
  | assign j c v =>
    refine ⟨?_, _, ?_, ?_, rfl⟩
    · exact { col := fun i => if e : i = c then e ▸ (s.col c).set j v else s.col i }
    · unfold Soa.step
      dsimp only
      have : decide (j < (s.col c).length) = true := by
        rw [decide_eq_true_eq, h c, List.length_map]
        exact hv
      rw [Res.guardUb_of this]
      rfl
    · intro i
      dsimp only
      by_cases hi : i = c
      · subst hi
        rw [dif_pos rfl, h i]
        apply List.ext_getElem?
        intro x
        rw [List.getElem?_map, List.getElem?_modify, List.getElem?_set]
        by_cases hx : j = x
        · subst hx
          have hlt : j < rows.length := hv
          rw [if_pos rfl, List.length_map, if_pos hlt, List.getElem?_eq_getElem hlt]
          simp
        · rw [if_neg hx, List.getElem?_map]
          simp [hx]
      · rw [dif_neg hi, h i]
        apply List.ext_getElem?
        intro x
        rw [List.getElem?_map, List.getElem?_map, List.getElem?_modify]
        cases rows[x]? with
        | none => rfl
        | some r =>
          by_cases hx : j = x <;> simp [hx, hi]
  | resize n =>
    obtain ⟨s', e1, e2⟩ := eachCol_ok (s := s) (f := fun i l => .ok (resizeVec (dflt i) n l))
      (g := fun i => resizeVec (dflt i) n (s.col i)) (fun i => rfl)
    refine ⟨s', rows.take n ++ List.replicate (n - rows.length) dflt, e1, fun i => ?_, rfl⟩
    rw [e2 i, h i]
    unfold resizeVec
    rw [List.map_append, List.map_take, List.length_map, List.map_replicate]
  | reserve n => exact ⟨s, rows, rfl, h, rfl⟩
  | clear =>
    obtain ⟨s', e1, e2⟩ := eachCol_ok (s := s) (f := fun _ _ => .ok []) (g := fun i => []) (fun i => rfl)
    exact ⟨s', [], e1, fun i => by rw [e2 i]; rfl, rfl⟩
  | sort c lt => exact sort_ok hS h dflt c lt hv.1 hv.2

theorem run_ok {S : Sorter} (hS : S.Ok) (dflt : Row T) : ∀ (ops : List (Op T)) (s : Soa T) (rows : List (Row T)), Holds s rows →
    Ok dflt rows ops → ∃ s' rows', run S dflt s ops = .ok s' ∧ Holds s' rows' ∧ Run dflt rows ops rows'
  | [], s, rows, h, _ => ⟨s, rows, rfl, h, .nil⟩
  | op :: ops, s, rows, h, hok => by
    obtain ⟨s1, rows1, e1, h1, g1⟩ := step_ok hS h dflt op hok.1
    obtain ⟨s2, rows2, e2, h2, g2⟩ := run_ok hS dflt ops s1 rows1 h1 (hok.2 rows1 g1)
    refine ⟨s2, rows2, ?_, h2, .cons g1 g2⟩
    unfold run
    rw [e1]
    exact e2

end Gtl.Soa
