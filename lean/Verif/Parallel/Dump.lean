import Verif.Parallel.Bulk
import Verif.Swiss.Dump
/-!
# `phmap_dump` / `phmap_load` of parallel containers (phmap_dump.hpp:113-169), used from one thread

The number of submaps, followed by the archives of the submaps one after the other. The messages on `std::cerr` are not
modelled.
-/

namespace Gtl.Parallel

open Gtl.Swiss Gtl.Swiss.Tbl

namespace PTbl
variable {α κ : Type} (P : PCfg α κ) (I : Image α)

/-- The loop of `parallel_hash_set::phmap_dump` (phmap_dump.hpp:127-134) from submap `i` on. `junk i j` is what happens to
be in the raw slot `j` of submap `i`. -/
def dumpFrom (junk : Nat → Nat → List Ctrl) : Nat → List (Tbl α) → Res (List Ctrl)
  | _, [] => .ok []
  | i, t :: ts => do
    let a ← t.dumpArchive P.C I (junk i)
    let b ← dumpFrom junk (i + 1) ts
    .ok (a ++ b)

/-- `parallel_hash_set::phmap_dump` (phmap_dump.hpp:121-136); `subcnt()` is `2^N` (phmap.hpp:4423). -/
def dumpArchive (junk : Nat → Nat → List Ctrl) (p : PTbl α) : Res (List Ctrl) := do
  let b ← dumpFrom P I junk 0 p.sets
  .ok (u64 (2 ^ P.N) ++ b)

/-- The loop of `parallel_hash_set::phmap_load` (phmap_dump.hpp:160-167): the submaps, the returned `bool`, and the rest of
the stream. -/
def loadFrom : List (Tbl α) → List Ctrl → Res (List (Tbl α) × Bool × List Ctrl)
  | [], ar => .ok ([], true, ar)
  | t :: ts, ar => do
    let (t, b, ar) ← loadArchive P.C I t ar
    if b then do
      let (ts, b, ar) ← loadFrom ts ar
      .ok (t :: ts, b, ar)
    else .ok (t :: ts, false, ar)

/-- `parallel_hash_set::phmap_load` (phmap_dump.hpp:148-169). -/
def loadArchive (p : PTbl α) (ar : List Ctrl) : Res (PTbl α × Bool × List Ctrl) := do
  let (n, ar) := readWord 0 ar
  if n ≠ 2 ^ P.N then .ok (p, false, ar)
  else do
    let (ts, b, ar) ← loadFrom P I p.sets ar
    .ok ({ sets := ts }, b, ar)

end PTbl

open PTbl
variable {α κ : Type}

/-- What loading a submap from nothing gives. -/
theorem loadArchive_nil {C : Cfg α κ} {I : Image α} {old u : Tbl α} (ho : old.destroySlots = .ok u) :
    Tbl.loadArchive C I old [] = .ok (Tbl.empty, true, []) := by
  have hw : readWord 0 [] = (0, []) := by decide +kernel
  unfold Tbl.loadArchive
  rw [ho]
  simp only [Res.ok_bind, hw]
  simp [hw, Tbl.empty]

theorem loadFrom_nil {P : PCfg α κ} {I : Image α} : ∀ {olds : List (Tbl α)},
    (∀ o ∈ olds, ∃ u, o.destroySlots = .ok u) → loadFrom P I olds [] = .ok (olds.map fun _ => Tbl.empty, true, [])
  | [], _ => rfl
  | o :: os, h => by
    obtain ⟨u, hu⟩ := h o List.mem_cons_self
    have ih := loadFrom_nil (P := P) (I := I) (olds := os) (fun x hx => h x (List.mem_cons_of_mem _ hx))
    simp only [loadFrom, loadArchive_nil hu, Res.ok_bind, if_true, ih, List.map_cons]

/-- The first submaps are restored, and the others read what follows. -/
theorem load_dumpFrom {P : PCfg α κ} (hC : CfgOk P.C) {I : Image α} (hI : ImageOk I) {junk : Nat → Nat → List Ctrl} :
    ∀ {ts olds olds' : List (Tbl α)} (i : Nat), ts.length = olds.length →
    (∀ i', i ≤ i' → i' < i + ts.length → ∀ j, (junk i' j).length = I.size) →
    (∀ t ∈ ts, (∃ c, Inv P.C t c) ∧ t.size < 2 ^ 64 ∧ t.capacity < 2 ^ 64 ∧ t.growthLeft < 2 ^ 64) →
    (∀ o ∈ olds, ∃ u, o.destroySlots = .ok u) →
    ∃ ar, dumpFrom P I junk i ts = .ok ar ∧ ∀ tail, ∃ ts', ts'.length = ts.length ∧
      (loadFrom P I (olds ++ olds') (ar ++ tail) = (do
        let (us, b, ar) ← loadFrom P I olds' tail
        .ok (ts' ++ us, b, ar))) ∧
      ∀ (j : Nat) t t', ts[j]? = some t → ts'[j]? = some t' → (∃ c, Inv P.C t' c) ∧ elems t' = elems t ∧ t'.size = t.size ∧
        t'.capacity = t.capacity
  | [], [], olds', i, _, _, _, _ => ⟨[], rfl, fun tail => ⟨[], rfl, by
      simp only [List.nil_append]
      cases loadFrom P I olds' tail with
      | ok r => rfl
      | ub => rfl
      | hang => rfl, fun j t t' h => by simp at h⟩⟩
  | t :: ts, o :: os, olds', i, hl, hj, ht, ho => by
    obtain ⟨⟨c, hi⟩, h1, h2, h3⟩ := ht t List.mem_cons_self
    obtain ⟨u, hu⟩ := ho o List.mem_cons_self
    obtain ⟨a, e1, e2⟩ := load_dump hC hI (hj i (Nat.le_refl _) (by simp)) hi h1 h2 h3 hu
    obtain ⟨b, e3, e4⟩ := load_dumpFrom (P := P) (junk := junk) hC hI (ts := ts) (olds := os) (olds' := olds') (i + 1) (by simpa using hl)
      (fun i' h1 h2 => hj i' (by omega) (by simp only [List.length_cons]; omega))
      (fun x hx => ht x (List.mem_cons_of_mem _ hx)) (fun x hx => ho x (List.mem_cons_of_mem _ hx))
    refine ⟨a ++ b, by simp only [dumpFrom, e1, e3, Res.ok_bind], fun tail => ?_⟩
    obtain ⟨t', c', f1, f2, f3, f4, f5, _⟩ := e2 (b ++ tail)
    obtain ⟨ts', g1, g2, g3⟩ := e4 tail
    refine ⟨t' :: ts', by simp [g1], ?_, ?_⟩
    · rw [List.append_assoc]
      simp only [List.cons_append, loadFrom, f1, Res.ok_bind, if_true, g2]
      cases loadFrom P I olds' tail with
      | ok r => rfl
      | ub => rfl
      | hang => rfl
    · intro j x x' hx hx'
      cases j with
      | zero =>
        simp only [List.getElem?_cons_zero, Option.some.injEq] at hx hx'
        subst hx; subst hx'
        exact ⟨⟨c', f2⟩, f3, f4, f5⟩
      | succ j =>
        simp only [List.getElem?_cons_succ] at hx hx'
        exact g3 j x x' hx hx'

/-- Dumping the first submaps, then the others. -/
theorem dumpFrom_append {P : PCfg α κ} {I : Image α} {junk : Nat → Nat → List Ctrl} : ∀ (ts us : List (Tbl α)) (i : Nat),
    dumpFrom P I junk i (ts ++ us) = (do
      let a ← dumpFrom P I junk i ts
      let b ← dumpFrom P I junk (i + ts.length) us
      .ok (a ++ b))
  | [], us, i => by
    simp only [List.nil_append, dumpFrom, Res.ok_bind, List.length_nil, Nat.add_zero]
    cases dumpFrom P I junk i us <;> rfl
  | t :: ts, us, i => by
    simp only [List.cons_append, dumpFrom, dumpFrom_append ts us (i + 1), List.length_cons]
    rw [show i + 1 + ts.length = i + (ts.length + 1) by omega]
    cases t.dumpArchive P.C I (junk i) with
    | ok a =>
      simp only [Res.ok_bind]
      cases dumpFrom P I junk (i + 1) ts with
      | ok b =>
        simp only [Res.ok_bind]
        cases dumpFrom P I junk (i + (ts.length + 1)) us with
        | ok c => simp only [Res.ok_bind, List.append_assoc]
        | ub => rfl
        | hang => rfl
      | ub => rfl
      | hang => rfl
    | ub => rfl
    | hang => rfl

end Gtl.Parallel
