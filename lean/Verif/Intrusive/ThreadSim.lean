import Verif.Intrusive.Threads
import Mathlib.Algebra.Order.BigOperators.Group.Finset
import Mathlib.Algebra.Group.Nat.Defs
/-!
# Invariant of shared intrusive pointers
-/

namespace Gtl.Intrusive.Threads

open Gtl.Conc (Code TS World upd Step)
open Gtl.Spec (Event)
open Gtl.Intrusive (wrap)

theorem sum_change {n t : Nat} (ht : t < n) {f f' : Nat → Nat} (h : ∀ s, s ≠ t → f' s = f s) :
    ∑ s ∈ Finset.range n, f' s + f t = ∑ s ∈ Finset.range n, f s + f' t := by
  have hm : t ∈ Finset.range n := Finset.mem_range.2 ht
  rw [← Finset.add_sum_erase _ f hm, ← Finset.add_sum_erase _ f' hm]
  have : ∑ s ∈ (Finset.range n).erase t, f' s = ∑ s ∈ (Finset.range n).erase t, f s :=
    Finset.sum_congr rfl (fun s hs => h s (Finset.ne_of_mem_erase hs))
  rw [this]; omega

/-- Where a thread is. -/
inductive Kind where
  | idle
  | copy0 (i : Nat)
  | copy1 (i : Nat)
  | drop0 (i : Nat)
  | dropDel (i : Nat)
  | dropRet (i : Nat)
  | use0 (i : Nat)
  | useRet (i : Nat)

def Kind.ts : Kind → TS Op Cell Unit
  | .idle => .idle
  | .copy0 i => .run (.copy i) (safe (.copy i))
  | .copy1 i => .run (.copy i) (.ret ())
  | .drop0 i => .run (.drop i) (safe (.drop i))
  | .dropDel i => .run (.drop i) (del i)
  | .dropRet i => .run (.drop i) (.ret ())
  | .use0 i => .run (.use i) (safe (.use i))
  | .useRet i => .run (.use i) (.ret ())

/-- References counted by the counter that nobody owns: taken but not handed out, or given up but still counted. -/
def Kind.mass (k : Kind) (i : Nat) : Nat :=
  match k with
  | .copy1 j => if j = i then 1 else 0
  | .drop0 j => if j = i then 1 else 0
  | _ => 0

/-- The same, with those that are about to be taken. -/
def Kind.room (k : Kind) (i : Nat) : Nat :=
  match k with
  | .copy0 j => if j = i then 1 else 0
  | .copy1 j => if j = i then 1 else 0
  | .drop0 j => if j = i then 1 else 0
  | _ => 0

/-- Is about to delete. -/
def Kind.dels (k : Kind) (i : Nat) : Nat :=
  match k with
  | .dropDel j => if j = i then 1 else 0
  | _ => 0

/-- What the thread must own. -/
def Kind.needs (k : Kind) (i : Nat) : Nat :=
  match k with
  | .copy0 j => if j = i then 1 else 0
  | .use0 j => if j = i then 1 else 0
  | _ => 0

def S (n : Nat) (kd : Nat → Kind) (w : Own) (i : Nat) : Nat := ∑ t ∈ Finset.range n, (w t i + (kd t).mass i)
def M (n : Nat) (kd : Nat → Kind) (w : Own) (i : Nat) : Nat := ∑ t ∈ Finset.range n, (w t i + (kd t).room i)
def D (n : Nat) (kd : Nat → Kind) (i : Nat) : Nat := ∑ t ∈ Finset.range n, (kd t).dels i

structure ObjInv (S M D : Nat) (c : Cell) : Prop where
  rc : c.rc = S
  room : M < 2 ^ 32
  pos : 0 < S → c.live = true ∧ c.deletes = 0 ∧ D = 0
  zero : S = 0 → (c.live = true ∧ c.deletes = 0 ∧ D = 1) ∨ (c.live = false ∧ c.deletes = 1 ∧ D = 0)

structure Inv (n : Nat) (kd : Nat → Kind) (s : St) : Prop where
  th : ∀ t, s.1.th t = (kd t).ts
  out : ∀ t, n ≤ t → kd t = .idle
  needs : ∀ t i, (kd t).needs i ≤ s.2 t i
  obj : ∀ i, ObjInv (S n kd s.2 i) (M n kd s.2 i) (D n kd i) (s.1.obj i)

theorem mass_le_room (k : Kind) (i : Nat) : k.mass i ≤ k.room i := by
  cases k <;> simp only [Kind.mass, Kind.room] <;> omega

theorem S_le_M (n : Nat) (kd : Nat → Kind) (w : Own) (i : Nat) : S n kd w i ≤ M n kd w i :=
  Finset.sum_le_sum (fun t _ => Nat.add_le_add_left (mass_le_room _ _) _)

theorem room_le_one (k : Kind) (i : Nat) : k.room i ≤ 1 := by
  cases k <;> simp only [Kind.room] <;> (try split) <;> omega

theorem M_le (n : Nat) (kd : Nat → Kind) (w : Own) (i : Nat) : M n kd w i ≤ w.total n i + n := by
  have : M n kd w i ≤ ∑ t ∈ Finset.range n, (w t i + 1) := Finset.sum_le_sum (fun t _ => Nat.add_le_add_left (room_le_one _ _) _)
  rw [Finset.sum_add_distrib, Finset.sum_const, Finset.card_range] at this
  unfold Own.total
  have e : n • 1 = n := by simp
  rw [e] at this
  exact this

/-- Change the state of one thread. -/
theorem changes {n t : Nat} (ht : t < n) (kd : Nat → Kind) (k : Kind) {w w' : Own} (hw : ∀ s i, s ≠ t → w' s i = w s i) (i : Nat) :
    S n (upd kd t k) w' i + (w t i + (kd t).mass i) = S n kd w i + (w' t i + k.mass i) ∧
    M n (upd kd t k) w' i + (w t i + (kd t).room i) = M n kd w i + (w' t i + k.room i) ∧
    D n (upd kd t k) i + (kd t).dels i = D n kd i + k.dels i := by
  have hu : ∀ s, s ≠ t → upd kd t k s = kd s := fun s hs => by unfold upd; rw [if_neg hs]
  have hut : upd kd t k t = k := by unfold upd; rw [if_pos rfl]
  refine ⟨?_, ?_, ?_⟩
  · have := sum_change ht (f := fun t => w t i + (kd t).mass i) (f' := fun s => w' s i + (upd kd t k s).mass i)
      (fun s hs => by rw [hu s hs, hw s i hs])
    rw [hut] at this
    exact this
  · have := sum_change ht (f := fun t => w t i + (kd t).room i) (f' := fun s => w' s i + (upd kd t k s).room i)
      (fun s hs => by rw [hu s hs, hw s i hs])
    rw [hut] at this
    exact this
  · have := sum_change ht (f := fun t => (kd t).dels i) (f' := fun s => (upd kd t k s).dels i)
      (fun s hs => by rw [hu s hs])
    rw [hut] at this
    exact this

theorem total_change {n t : Nat} (ht : t < n) {w w' : Own} (hw : ∀ s i, s ≠ t → w' s i = w s i) (kd : Nat → Kind) (i : Nat) :
    S n kd w' i + w t i = S n kd w i + w' t i ∧ M n kd w' i + w t i = M n kd w i + w' t i := by
  have hu : upd kd t (kd t) = kd := by funext s; unfold upd; split <;> simp_all
  have := changes ht kd (kd t) hw i
  rw [hu] at this
  omega

theorem le_sum {n t : Nat} (ht : t < n) (f : Nat → Nat) : f t ≤ ∑ s ∈ Finset.range n, f s :=
  Finset.single_le_sum (f := f) (fun _ _ => Nat.zero_le _) (Finset.mem_range.2 ht)

theorem sub_self (w : Own) (t i : Nat) : w.sub t i t i = w t i - 1 := by unfold Own.sub; rw [if_pos ⟨rfl, rfl⟩]
theorem sub_obj (w : Own) (t i : Nat) {j : Nat} (h : j ≠ i) (s : Nat) : w.sub t i s j = w s j := by
  unfold Own.sub; rw [if_neg (fun e => h e.2)]
theorem sub_th (w : Own) (t i : Nat) {s : Nat} (h : s ≠ t) (j : Nat) : w.sub t i s j = w s j := by
  unfold Own.sub; rw [if_neg (fun e => h e.1)]
theorem add_self (w : Own) (t i : Nat) : w.add t i t i = w t i + 1 := by unfold Own.add; rw [if_pos ⟨rfl, rfl⟩]
theorem add_obj (w : Own) (t i : Nat) {j : Nat} (h : j ≠ i) (s : Nat) : w.add t i s j = w s j := by
  unfold Own.add; rw [if_neg (fun e => h e.2)]
theorem add_th (w : Own) (t i : Nat) {s : Nat} (h : s ≠ t) (j : Nat) : w.add t i s j = w s j := by
  unfold Own.add; rw [if_neg (fun e => h e.1)]

theorem ts_upd {W : World Op Cell Unit} {kd : Nat → Kind} (h : ∀ t, W.th t = (kd t).ts) (t : Nat) (k : Kind) :
    ∀ s, upd W.th t k.ts s = (upd kd t k s).ts := by
  intro s
  unfold upd
  split
  · rfl
  · exact h s

theorem out_upd {n : Nat} {kd : Nat → Kind} (h : ∀ t, n ≤ t → kd t = .idle) {t : Nat} (ht : t < n) (k : Kind) :
    ∀ s, n ≤ s → upd kd t k s = .idle := by
  intro s hs
  unfold upd
  rw [if_neg (by omega)]
  exact h s hs

theorem needs_upd {kd : Nat → Kind} {w w' : Own} (h : ∀ t i, (kd t).needs i ≤ w t i) {t : Nat} (hw : ∀ s i, s ≠ t → w' s i = w s i) {k : Kind}
    (hk : ∀ i, k.needs i ≤ w' t i) : ∀ s i, (upd kd t k s).needs i ≤ w' s i := by
  intro s i
  unfold upd
  split
  · rename_i e; subst e; exact hk i
  · rename_i e; rw [hw s i e]; exact h s i

theorem start_inv {n : Nat} {w : Own} (hw : ∀ i, 0 < w.total n i ∧ w.total n i < 2 ^ 32) : Inv n (fun _ => .idle) (start n w) where
  th := fun t => rfl
  out := fun t _ => rfl
  needs := fun t i => Nat.zero_le _
  obj := fun i => by
    have h1 : S n (fun _ => Kind.idle) w i = w.total n i := rfl
    have h2 : M n (fun _ => Kind.idle) w i = w.total n i := rfl
    have h3 : D n (fun _ => Kind.idle) i = 0 := by unfold D Kind.dels; simp
    obtain ⟨h4, h5⟩ := hw i
    refine ⟨?_, ?_, fun _ => ⟨rfl, rfl, h3⟩, fun h => ?_⟩
    · exact h1.symm
    · show M n (fun _ => Kind.idle) w i < _
      omega
    · have h : S n (fun _ => Kind.idle) w i = 0 := h
      omega

theorem wrap_pred {c : Nat} (h0 : 0 < c) (h : c < 2 ^ 32) : wrap (c + (2 ^ 32 - 1)) = c - 1 := by
  unfold wrap
  rw [show c + (2 ^ 32 - 1) = (c - 1) + 2 ^ 32 by omega, Nat.add_mod_right]
  exact Nat.mod_eq_of_lt (by omega)

theorem ObjInv.same {S M D S' M' D' : Nat} {c : Cell} (h : ObjInv S M D c) (hS : S' = S) (hM : M' < 2 ^ 32) (hD : D' = D) : ObjInv S' M' D' c := by
  subst hS hD
  exact ⟨h.rc, hM, h.pos, h.zero⟩

theorem mass_le_S {n t : Nat} (ht : t < n) (kd : Nat → Kind) (w : Own) (i : Nat) : (kd t).mass i + w t i ≤ S n kd w i := by
  have : w t i + (kd t).mass i ≤ S n kd w i := le_sum ht (fun t => w t i + (kd t).mass i)
  omega

theorem dels_le_D {n t : Nat} (ht : t < n) (kd : Nat → Kind) (i : Nat) : (kd t).dels i ≤ D n kd i :=
  le_sum ht (fun t => (kd t).dels i)

/-- A step of one thread. -/
theorem inv_of {n t : Nat} {kd : Nat → Kind} {W W' : World Op Cell Unit} {w w' : Own} (hi : Inv n kd (W, w)) (ht : t < n) (k : Kind)
    (hth : W'.th = upd W.th t k.ts) (hw : ∀ s i, s ≠ t → w' s i = w s i) (hneeds : ∀ i, k.needs i ≤ w' t i)
    (hobj : ∀ j S M D S' M' D', ObjInv S M D (W.obj j) → S ≤ M → S' ≤ M' →
      (kd t).mass j + w t j ≤ S → (kd t).dels j ≤ D → M' ≤ w'.total n j + n →
      S' + (w t j + (kd t).mass j) = S + (w' t j + k.mass j) →
      M' + (w t j + (kd t).room j) = M + (w' t j + k.room j) →
      D' + (kd t).dels j = D + k.dels j → ObjInv S' M' D' (W'.obj j)) : Inv n (upd kd t k) (W', w') := by
  refine ⟨?_, out_upd hi.out ht k, needs_upd hi.needs hw hneeds, fun j => ?_⟩
  · show ∀ s, W'.th s = _
    rw [hth]
    exact ts_upd hi.th t k
  · obtain ⟨h1, h2, h3⟩ := changes ht kd k hw j
    refine hobj j _ _ _ _ _ _ (hi.obj j) (S_le_M _ _ _ _) (S_le_M _ _ _ _) ?_ ?_ (M_le _ _ _ _) h1 h2 h3
    · exact mass_le_S ht kd w j
    · exact dels_le_D ht kd j

theorem kind_of {n : Nat} {kd : Nat → Kind} {s : St} (hi : Inv n kd s) {t : Nat} (h : kd t ≠ .idle) : t < n := by
  by_contra hn
  exact h (hi.out t (by omega))

/-- Steps of the safe counter keep the invariant. -/
theorem step_inv {n : Nat} {kd : Nat → Kind} {s s' : St} (hi : Inv n kd s) (hs : OStep safe n s s') : ∃ kd', Inv n kd' s' := by
  cases hs with
  | @call W W' w t o ht hown hroom hstep =>
    cases hstep with
    | call hidle =>
      have hk : kd t = .idle := by
        have := hi.th t
        rw [show (W, w).1.th t = W.th t from rfl, hidle] at this
        cases h : kd t <;> rw [h] at this <;> first | rfl | cases this
      cases o with
      | copy i =>
        have hroom' := hroom i rfl
        have hown : 0 < w t i := hown
        refine ⟨_, inv_of hi ht (.copy0 i) rfl (fun _ _ _ => rfl) (fun j => ?_) ?_⟩
        · show (if i = j then 1 else 0) ≤ w t j
          split
          · rename_i e; subst e; omega
          · omega
        · intro j S M D S' M' D' ho hSM _ h1 h2 hM e1 e2 e3
          rw [hk] at e1 e2 e3
          simp only [Kind.mass, Kind.room, Kind.dels] at e1 e2 e3
          have := ho.room
          refine ho.same (by omega) ?_ (by omega)
          by_cases hij : i = j
          · subst hij
            have hM : M' ≤ w.total n i + n := hM
            omega
          · rw [if_neg hij] at e2; omega
      | drop i =>
        have hown : 0 < w t i := hown
        refine ⟨_, inv_of hi ht (.drop0 i) rfl (fun s j hs => sub_th w t i hs j) (fun j => Nat.zero_le _) ?_⟩
        intro j S M D S' M' D' ho hSM _ h1 h2 hM e1 e2 e3
        rw [hk] at e1 e2 e3
        simp only [Kind.mass, Kind.room, Kind.dels] at e1 e2 e3
        have := ho.room
        by_cases hij : i = j
        · subst hij
          rw [sub_self, if_pos rfl] at e1 e2
          exact ho.same (by omega) (by omega) (by omega)
        · rw [sub_obj w t i (fun e => hij e.symm), if_neg hij] at e1 e2
          exact ho.same (by omega) (by omega) (by omega)
      | use i =>
        have hown : 0 < w t i := hown
        refine ⟨_, inv_of hi ht (.use0 i) rfl (fun _ _ _ => rfl) (fun j => ?_) ?_⟩
        · show (if i = j then 1 else 0) ≤ w t j
          split
          · rename_i e; subst e; omega
          · omega
        · intro j S M D S' M' D' ho hSM _ h1 h2 hM e1 e2 e3
          rw [hk] at e1 e2 e3
          simp only [Kind.mass, Kind.room, Kind.dels] at e1 e2 e3
          have := ho.room
          exact ho.same (by omega) (by omega) (by omega)
  | @go W W' w hstep =>
    cases hstep with
    | @act t o i f k hrun =>
      have hth : (kd t).ts = .run o (.act i f k) := by rw [← hi.th t]; exact hrun
      have ht : t < n := kind_of hi (by intro e; rw [e] at hth; cases hth)
      have hmass : (kd t).needs i ≤ w t i := hi.needs t i
      cases hk : kd t with
      | idle => rw [hk] at hth; cases hth
      | copy1 j => rw [hk] at hth; cases hth
      | dropRet j => rw [hk] at hth; cases hth
      | useRet j => rw [hk] at hth; cases hth
      | copy0 j =>
        rw [hk] at hth
        cases hth
        rw [hk] at hmass
        simp only [Kind.needs, if_true] at hmass
        have hlive : (W.obj i).live = true := by
          obtain ⟨g1, g2, g3, g4⟩ := hi.obj i
          have := mass_le_S ht kd w i
          exact (g3 (show 0 < S n kd w i by omega)).1
        refine ⟨_, inv_of hi ht (.copy1 i) (by show upd W.th t (.run _ (if (W.obj i).live = true then .ret () else .ub)) = _; rw [if_pos hlive]; rfl) (fun _ _ _ => rfl) (fun j => Nat.zero_le _) ?_⟩
        intro j S M D S' M' D' ho hSM hSM' h1 h2 hM e1 e2 e3
        rw [hk] at h1 h2 e1 e2 e3
        simp only [Kind.mass, Kind.room, Kind.dels] at h1 h2 e1 e2 e3
        have := ho.room
        by_cases hij : i = j
        · subst hij
          rw [if_pos rfl] at e1 e2
          have hrc := ho.rc
          refine ⟨?_, by omega, fun _ => ?_, fun h => by omega⟩
          · simp only [upd, if_true]
            unfold wrap
            rw [Nat.mod_eq_of_lt (by omega)]; omega
          · simp only [upd, if_true]
            have := ho.pos (by omega)
            exact ⟨this.1, this.2.1, by omega⟩
        · rw [if_neg hij] at e1 e2
          have : upd W.obj i { W.obj i with rc := wrap ((W.obj i).rc + 1) } j = W.obj j := by unfold upd; rw [if_neg (fun e => hij e.symm)]
          show ObjInv S' M' D' (upd W.obj i { W.obj i with rc := wrap ((W.obj i).rc + 1) } j)
          rw [this]
          exact ho.same (by omega) (by omega) (by omega)
      | drop0 j =>
        rw [hk] at hth
        cases hth
        have hS : 0 < S n kd w i := by
          have := mass_le_S ht kd w i
          rw [hk] at this
          simp only [Kind.mass, if_true] at this
          omega
        have hSM := S_le_M n kd w i
        obtain ⟨g1, g2, g3, g4⟩ := hi.obj i
        dsimp only at g1 g2 g3 g4
        have hlive := (g3 hS).1
        have hw := wrap_pred (c := (W.obj i).rc) (by omega) (by omega)
        by_cases hz : (W.obj i).rc - 1 = 0
        · refine ⟨_, inv_of hi ht (.dropDel i) (by show upd W.th t (.run _ (if (W.obj i).live = true then (if wrap ((W.obj i).rc + (2 ^ 32 - 1)) = 0 then del i else .ret ()) else .ub)) = _; rw [if_pos hlive, hw, if_pos hz]; rfl) (fun _ _ _ => rfl) (fun j => Nat.zero_le _) ?_⟩
          intro j S M D S' M' D' ho hSM hSM' h1 h2 hM e1 e2 e3
          rw [hk] at h1 h2 e1 e2 e3
          simp only [Kind.mass, Kind.room, Kind.dels] at h1 h2 e1 e2 e3
          have := ho.room
          by_cases hij : i = j
          · subst hij
            rw [if_pos rfl] at h1 e1 e2 e3
            have hrc := ho.rc
            have hpos := ho.pos (by omega)
            refine ⟨?_, by omega, fun h => by omega, fun _ => .inl ?_⟩
            · simp only [upd, if_true]
              rw [hw]; omega
            · simp only [upd, if_true]
              exact ⟨hpos.1, hpos.2.1, by omega⟩
          · rw [if_neg hij] at e1 e2 e3
            have : upd W.obj i { W.obj i with rc := wrap ((W.obj i).rc + (2 ^ 32 - 1)) } j = W.obj j := by unfold upd; rw [if_neg (fun e => hij e.symm)]
            show ObjInv S' M' D' (upd W.obj i { W.obj i with rc := wrap ((W.obj i).rc + (2 ^ 32 - 1)) } j)
            rw [this]
            exact ho.same (by omega) (by omega) (by omega)
        · refine ⟨_, inv_of hi ht (.dropRet i) (by show upd W.th t (.run _ (if (W.obj i).live = true then (if wrap ((W.obj i).rc + (2 ^ 32 - 1)) = 0 then del i else .ret ()) else .ub)) = _; rw [if_pos hlive, hw, if_neg hz]; rfl) (fun _ _ _ => rfl) (fun j => Nat.zero_le _) ?_⟩
          intro j S M D S' M' D' ho hSM hSM' h1 h2 hM e1 e2 e3
          rw [hk] at h1 h2 e1 e2 e3
          simp only [Kind.mass, Kind.room, Kind.dels] at h1 h2 e1 e2 e3
          have := ho.room
          by_cases hij : i = j
          · subst hij
            rw [if_pos rfl] at h1 e1 e2
            have hrc := ho.rc
            have hpos := ho.pos (by omega)
            refine ⟨?_, by omega, fun h => ?_, fun _ => by omega⟩
            · simp only [upd, if_true]
              rw [hw]; omega
            · simp only [upd, if_true]
              exact ⟨hpos.1, hpos.2.1, by omega⟩
          · rw [if_neg hij] at e1 e2
            have : upd W.obj i { W.obj i with rc := wrap ((W.obj i).rc + (2 ^ 32 - 1)) } j = W.obj j := by unfold upd; rw [if_neg (fun e => hij e.symm)]
            show ObjInv S' M' D' (upd W.obj i { W.obj i with rc := wrap ((W.obj i).rc + (2 ^ 32 - 1)) } j)
            rw [this]
            exact ho.same (by omega) (by omega) (by omega)
      | dropDel j =>
        rw [hk] at hth
        cases hth
        have hD : 0 < D n kd i := by
          have := dels_le_D ht kd i
          rw [hk] at this
          simp only [Kind.dels, if_true] at this
          omega
        obtain ⟨g1, g2, g3, g4⟩ := hi.obj i
        dsimp only at g1 g2 g3 g4
        have hS0 : S n kd w i = 0 := by
          by_contra h
          have := (g3 (by omega)).2.2
          omega
        have hlive : (W.obj i).live = true ∧ (W.obj i).deletes = 0 ∧ D n kd i = 1 := by
          rcases g4 hS0 with h | h
          · exact h
          · omega
        refine ⟨_, inv_of hi ht (.dropRet i) (by show upd W.th t (.run _ (if (W.obj i).live = true then .ret () else .ub)) = _; rw [if_pos hlive.1]; rfl) (fun _ _ _ => rfl) (fun j => Nat.zero_le _) ?_⟩
        intro j S M D S' M' D' ho hSM hSM' h1 h2 hM e1 e2 e3
        rw [hk] at h1 h2 e1 e2 e3
        simp only [Kind.mass, Kind.room, Kind.dels] at h1 h2 e1 e2 e3
        have := ho.room
        by_cases hij : i = j
        · subst hij
          rw [if_pos rfl] at h2 e3
          have hrc := ho.rc
          have hz : S = 0 := by
            by_contra h
            have := (ho.pos (by omega)).2.2
            omega
          refine ⟨?_, by omega, fun h => by omega, fun _ => .inr ?_⟩
          · simp only [upd, if_true]
            omega
          · simp only [upd, if_true]
            refine ⟨trivial, by omega, ?_⟩
            rcases ho.zero hz with h | h <;> omega
        · rw [if_neg hij] at e3
          have : upd W.obj i { W.obj i with live := false, deletes := (W.obj i).deletes + 1 } j = W.obj j := by unfold upd; rw [if_neg (fun e => hij e.symm)]
          show ObjInv S' M' D' (upd W.obj i { W.obj i with live := false, deletes := (W.obj i).deletes + 1 } j)
          rw [this]
          exact ho.same (by omega) (by omega) (by omega)
      | use0 j =>
        rw [hk] at hth
        cases hth
        rw [hk] at hmass
        simp only [Kind.needs, if_true] at hmass
        have hlive : (W.obj i).live = true := by
          obtain ⟨g1, g2, g3, g4⟩ := hi.obj i
          have := mass_le_S ht kd w i
          exact (g3 (show 0 < S n kd w i by omega)).1
        refine ⟨_, inv_of hi ht (.useRet i) (by show upd W.th t (.run _ (if (W.obj i).live = true then .ret () else .ub)) = _; rw [if_pos hlive]; rfl) (fun _ _ _ => rfl) (fun j => Nat.zero_le _) ?_⟩
        intro j S M D S' M' D' ho hSM hSM' h1 h2 hM e1 e2 e3
        rw [hk] at h1 h2 e1 e2 e3
        simp only [Kind.mass, Kind.room, Kind.dels] at h1 h2 e1 e2 e3
        have := ho.room
        have : upd W.obj i (id (W.obj i)) j = W.obj j := by unfold upd; split <;> simp_all
        show ObjInv S' M' D' (upd W.obj i (id (W.obj i)) j)
        rw [this]
        exact ho.same (by omega) (by omega) (by omega)
    | @lock t o i m k hrun =>
      have hth : (kd t).ts = .run o (.lock i m k) := by rw [← hi.th t]; exact hrun
      cases hk : kd t <;> rw [hk] at hth <;> cases hth
    | @unlock t o i m k hrun =>
      have hth : (kd t).ts = .run o (.unlock i m k) := by rw [← hi.th t]; exact hrun
      cases hk : kd t <;> rw [hk] at hth <;> cases hth
    | @unlockBad t o i m k hrun =>
      have hth : (kd t).ts = .run o (.unlock i m k) := by rw [← hi.th t]; exact hrun
      cases hk : kd t <;> rw [hk] at hth <;> cases hth
  | @ret W W' w t o r hr hstep =>
    have hth : (kd t).ts = .run o (.ret r) := by rw [← hi.th t]; exact hr
    have ht : t < n := kind_of hi (by intro e; rw [e] at hth; cases hth)
    cases hstep with
    | ret h =>
      cases hk : kd t with
      | idle => rw [hk] at hth; cases hth
      | copy0 j => rw [hk] at hth; cases hth
      | drop0 j => rw [hk] at hth; cases hth
      | dropDel j => rw [hk] at hth; cases hth
      | use0 j => rw [hk] at hth; cases hth
      | copy1 i =>
        rw [hk] at hth
        cases hth
        refine ⟨_, inv_of hi ht .idle rfl (fun s j hs => add_th w t i hs j) (fun j => Nat.zero_le _) ?_⟩
        intro j S M D S' M' D' ho hSM hSM' h1 h2 hM e1 e2 e3
        rw [hk] at h1 h2 e1 e2 e3
        simp only [Kind.mass, Kind.room, Kind.dels] at h1 h2 e1 e2 e3
        have := ho.room
        by_cases hij : i = j
        · subst hij
          rw [add_self, if_pos rfl] at e1 e2
          exact ho.same (by omega) (by omega) (by omega)
        · rw [add_obj w t i (fun e => hij e.symm), if_neg hij] at e1 e2
          exact ho.same (by omega) (by omega) (by omega)
      | dropRet i =>
        rw [hk] at hth
        cases hth
        refine ⟨_, inv_of hi ht .idle rfl (fun _ _ _ => rfl) (fun j => Nat.zero_le _) ?_⟩
        intro j S M D S' M' D' ho hSM hSM' h1 h2 hM e1 e2 e3
        rw [hk] at h1 h2 e1 e2 e3
        simp only [Kind.mass, Kind.room, Kind.dels] at h1 h2 e1 e2 e3
        have := ho.room
        exact ho.same (by omega) (by omega) (by omega)
      | useRet i =>
        rw [hk] at hth
        cases hth
        refine ⟨_, inv_of hi ht .idle rfl (fun _ _ _ => rfl) (fun j => Nat.zero_le _) ?_⟩
        intro j S M D S' M' D' ho hSM hSM' h1 h2 hM e1 e2 e3
        rw [hk] at h1 h2 e1 e2 e3
        simp only [Kind.mass, Kind.room, Kind.dels] at h1 h2 e1 e2 e3
        have := ho.room
        exact ho.same (by omega) (by omega) (by omega)
  | @give W w t t' i h1 h2 h3 h4 =>
    refine ⟨kd, hi.th, hi.out, ?_, fun j => ?_⟩
    · intro s j
      have hn := hi.needs s j
      show (kd s).needs j ≤ (w.sub t i).add t' i s j
      have hk : kd t = .idle := by
        have := hi.th t
        rw [show (W, w).1.th t = W.th t from rfl, h3] at this
        cases h : kd t <;> rw [h] at this <;> first | rfl | cases this
      by_cases hst : s = t
      · subst hst
        rw [hk]
        exact Nat.zero_le _
      · have : w s j ≤ (w.sub t i).add t' i s j := by
          unfold Own.add
          split
          · rw [sub_th w t i hst]; omega
          · rw [sub_th w t i hst]
        exact Nat.le_trans hn this
    · have e1 := total_change h1 (fun s j hs => sub_th w t i hs j) kd j
      have e2 := total_change h2 (fun s j hs => add_th (w.sub t i) t' i hs j) kd j
      have ho := hi.obj j
      dsimp only at ho
      have hr := ho.room
      by_cases hij : j = i
      · subst hij
        rw [sub_self] at e1
        rw [add_self] at e2
        exact ho.same (by dsimp only; omega) (by dsimp only; omega) rfl
      · rw [sub_obj w t i hij] at e1
        rw [add_obj (w.sub t i) t' i hij] at e2
        exact ho.same (by dsimp only; omega) (by dsimp only; omega) rfl

end Gtl.Intrusive.Threads
