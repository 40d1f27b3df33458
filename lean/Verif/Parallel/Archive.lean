import Verif.Parallel.Dump
/-!
# Archives: several values and containers in one file (phmap_dump.hpp:180-238)

`dumpTo` is `phmap_dump` call by call on any archive: `put s b` is `saveBinary` with the bytes `b`, it gives the new state
of the archive and the returned `bool`. `OFile` is the file of `BinaryOutputArchive`.
-/

namespace Gtl.Swiss

open Gtl.Parallel

variable {α κ σ : Type}

/-- `raw_hash_set::phmap_dump` (phmap_dump.hpp:57-71), one `saveBinary` after the other. `junk i` is what happens to be in
the raw slot `i`. -/
def Tbl.dumpTo (C : Cfg α κ) (I : Tbl.Image α) (put : σ → List Ctrl → σ × Bool) (junk : Nat → List Ctrl) (t : Tbl α) (s : σ) :
    Res (σ × Bool) :=
  let (s, _) := put s (Tbl.u64 Tbl.version)
  let (s, _) := put s (Tbl.u64 t.size)
  let (s, _) := put s (Tbl.u64 t.capacity)
  if t.size = 0 then .ok (s, true)
  else
    let (s, _) := put s (Tbl.u64 t.growthLeft)
    if t.capacity + C.G.W + 1 ≤ t.ctrl.length ∧ t.capacity ≤ t.slots.length then
      let (s, _) := put s (t.ctrl.take (t.capacity + C.G.W + 1))
      let (s, _) := put s ((List.range t.capacity).flatMap (slotBytes I junk t))
      .ok (s, true)
    else .ub

end Gtl.Swiss

namespace Gtl.Parallel.PTbl

open Gtl.Swiss

variable {α κ σ : Type}

/-- The loop of `parallel_hash_set::phmap_dump` (phmap_dump.hpp:127-135). -/
def dumpSubsTo (P : PCfg α κ) (I : Tbl.Image α) (put : σ → List Ctrl → σ × Bool)
    (junk : Nat → Nat → List Ctrl) : Nat → List (Tbl α) → σ → Res (σ × Bool)
  | _, [], s => .ok (s, true)
  | i, t :: ts, s => do
    let (s, b) ← t.dumpTo P.C I put (junk i) s
    if b then dumpSubsTo P I put junk (i + 1) ts s else .ok (s, false)

/-- `parallel_hash_set::phmap_dump` (phmap_dump.hpp:121-136). -/
def dumpTo (P : PCfg α κ) (I : Tbl.Image α) (put : σ → List Ctrl → σ × Bool)
    (junk : Nat → Nat → List Ctrl) (p : PTbl α) (s : σ) : Res (σ × Bool) :=
  let (s, _) := put s (Tbl.u64 (2 ^ P.N))
  dumpSubsTo P I put junk 0 p.sets s

end Gtl.Parallel.PTbl

namespace Gtl.Swiss

open Gtl.Parallel

variable {α κ σ : Type}

/-- The `std::ofstream` of a `BinaryOutputArchive` (phmap_dump.hpp:182-210): the bytes that reached the file, the bytes the
device still has room for, and whether the stream is good. Simplification: no buffering, so that a full device is noticed
by the stream at once. -/
structure OFile where
  data : List Ctrl
  room : Nat
  good : Bool
  deriving DecidableEq

/-- The constructor (phmap_dump.hpp:184-186): the file is truncated; `opened` says whether `open` succeeded. -/
def OFile.fresh (room : Nat) (opened : Bool) : OFile := { data := [], room := room, good := opened }

/-- `ofs_.write(p, n)`. A stream that is not good writes nothing. -/
def OFile.write (f : OFile) (b : List Ctrl) : OFile :=
  if f.good then { data := f.data ++ b.take f.room, room := f.room - b.length, good := decide (b.length ≤ f.room) }
  else f

/-- `BinaryOutputArchive::saveBinary` (phmap_dump.hpp:192-201). -/
def OFile.put (f : OFile) (b : List Ctrl) : OFile × Bool := (f.write b, true)

/-- Something that goes into an archive: a trivially copyable value, a hash container, a parallel hash container. The
functions say what happens to be in raw slots. -/
inductive Item (α : Type) where
  | value (b : List Ctrl)
  | table (t : Tbl α) (junk : Nat → List Ctrl)
  | ptable (p : PTbl α) (junk : Nat → Nat → List Ctrl)

/-- The three overloads of `saveBinary` (phmap_dump.hpp:192-206). For a value the result is that of `put`. -/
def Item.save (C : Cfg α κ) (P : PCfg α κ) (I : Tbl.Image α) (put : σ → List Ctrl → σ × Bool) (x : Item α) (s : σ) :
    Res (σ × Bool) :=
  match x with
  | .value b => .ok (put s b)
  | .table t junk => t.dumpTo C I put junk s
  | .ptable p junk => p.dumpTo P I put junk s

/-- The three overloads of `loadBinary` (phmap_dump.hpp:220-234) with the target `x`. -/
def Item.load (C : Cfg α κ) (P : PCfg α κ) (I : Tbl.Image α) (x : Item α) (ar : List Ctrl) :
    Res (Item α × Bool × List Ctrl) :=
  match x with
  | .value b => .ok (.value (Tbl.readInto b b.length ar).1, true, (Tbl.readInto b b.length ar).2)
  | .table t junk => do
    let (t, b, ar) ← Tbl.loadArchive C I t ar
    .ok (.table t junk, b, ar)
  | .ptable p junk => do
    let (p, b, ar) ← p.loadArchive P I ar
    .ok (.ptable p junk, b, ar)

/-- A program that saves one thing after the other and keeps the answers. -/
def saveAll (C : Cfg α κ) (P : PCfg α κ) (I : Tbl.Image α) (put : σ → List Ctrl → σ × Bool) :
    List (Item α) → σ → Res (σ × List Bool)
  | [], s => .ok (s, [])
  | x :: xs, s => do
    let (s, b) ← x.save C P I put s
    let (s, bs) ← saveAll C P I put xs s
    .ok (s, b :: bs)

/-- A program that loads one thing after the other. -/
def loadAll (C : Cfg α κ) (P : PCfg α κ) (I : Tbl.Image α) :
    List (Item α) → List Ctrl → Res (List (Item α) × List Bool × List Ctrl)
  | [], ar => .ok ([], [], ar)
  | x :: xs, ar => do
    let (x, b, ar) ← x.load C P I ar
    let (xs, bs, ar) ← loadAll C P I xs ar
    .ok (x :: xs, b :: bs, ar)

/-! ### Lemmas -/

/-- The file after a sequence of writes. -/
theorem OFile.write_append (f : OFile) (a b : List Ctrl) : (f.write a).write b = f.write (a ++ b) := by
  unfold OFile.write
  by_cases hg : f.good = true
  · simp only [hg, if_true]
    by_cases ha : a.length ≤ f.room
    · have e : a.take f.room = a := List.take_of_length_le ha
      simp only [ha, decide_true, if_true, e, List.length_append, List.append_assoc, OFile.mk.injEq]
      refine ⟨?_, by omega, ?_⟩
      · rw [List.take_append, e]
      · congr 1; rw [eq_iff_iff]; omega
    · have : ¬ (a.length + b.length ≤ f.room) := by omega
      simp only [ha, this, decide_false, Bool.false_eq_true, if_false, List.length_append, OFile.mk.injEq, and_true]
      refine ⟨?_, by omega⟩
      rw [List.take_append_of_le_length (by omega)]
  · have hg : f.good = false := by simpa using hg
    simp [hg]

theorem OFile.write_nil (f : OFile) : f.write [] = f := by
  unfold OFile.write
  cases f with
  | mk d r g => cases g <;> simp

/-- Blocks handed to `saveBinary`, in order. -/
def Tbl.blocks (C : Cfg α κ) (I : Tbl.Image α) (junk : Nat → List Ctrl) (t : Tbl α) : List (List Ctrl) :=
  [Tbl.u64 Tbl.version, Tbl.u64 t.size, Tbl.u64 t.capacity] ++ (if t.size = 0 then [] else
    [Tbl.u64 t.growthLeft, t.ctrl.take (t.capacity + C.G.W + 1),
      (List.range t.capacity).flatMap (slotBytes I junk t)])

/-- State of an archive after a list of blocks. -/
def puts (put : σ → List Ctrl → σ × Bool) (s : σ) (bs : List (List Ctrl)) : σ := bs.foldl (fun s b => (put s b).1) s

theorem puts_file (f : OFile) (bs : List (List Ctrl)) : puts OFile.put f bs = f.write bs.flatten := by
  induction bs generalizing f with
  | nil => exact (OFile.write_nil f).symm
  | cons b bs ih =>
    show puts OFile.put (f.write b) bs = _
    rw [ih, OFile.write_append, List.flatten_cons]

theorem dumpTo_ok {C : Cfg α κ} {I : Tbl.Image α} {junk : Nat → List Ctrl} {t : Tbl α} {ar : List Ctrl}
    (h : t.dumpArchive C I junk = .ok ar) :
    (t.blocks C I junk).flatten = ar ∧
      ∀ (σ : Type) (put : σ → List Ctrl → σ × Bool) s, t.dumpTo C I put junk s = .ok (puts put s (t.blocks C I junk), true) := by
  unfold Tbl.dumpArchive at h
  unfold Tbl.blocks Tbl.dumpTo
  dsimp only at h ⊢
  by_cases h0 : t.size = 0
  · rw [if_pos h0] at h
    injection h with h
    refine ⟨by rw [if_pos h0, ← h]; simp, fun σ put s => ?_⟩
    rw [if_pos h0, if_pos h0]; rfl
  · rw [if_neg h0] at h
    split at h
    · rename_i hc
      injection h with h
      refine ⟨?_, fun σ put s => ?_⟩
      · rw [if_neg h0, ← h]
        simp only [List.cons_append, List.nil_append, List.flatten_cons, List.flatten_nil, List.append_nil,
          List.append_assoc]
        rfl
      · rw [if_neg h0, if_pos hc, if_neg h0]; rfl
    · cases h

theorem puts_append (put : σ → List Ctrl → σ × Bool) (s : σ) (a b : List (List Ctrl)) :
    puts put s (a ++ b) = puts put (puts put s a) b := List.foldl_append

/-- What a dump writes, block by block, is the archive. -/
theorem dumpSubsTo_ok {P : PCfg α κ} {I : Tbl.Image α} {junk : Nat → Nat → List Ctrl} : ∀ (ts : List (Tbl α)) (i : Nat)
    (ar : List Ctrl), PTbl.dumpFrom P I junk i ts = .ok ar →
    ∃ bs : List (List Ctrl), bs.flatten = ar ∧ ∀ (σ : Type) (put : σ → List Ctrl → σ × Bool) s,
      PTbl.dumpSubsTo P I put junk i ts s = .ok (puts put s bs, true) := by
  intro ts
  induction ts with
  | nil =>
    intro i ar h
    unfold PTbl.dumpFrom at h
    injection h with h
    exact ⟨[], by rw [← h]; rfl, fun σ put s => rfl⟩
  | cons t ts ih =>
    intro i ar h
    unfold PTbl.dumpFrom at h
    obtain ⟨a, h1, h⟩ := Res.bind_eq_ok.1 h
    obtain ⟨b, h2, h⟩ := Res.bind_eq_ok.1 h
    injection h with h
    obtain ⟨e1, e2⟩ := dumpTo_ok h1
    obtain ⟨bs, f1, f2⟩ := ih (i + 1) b h2
    refine ⟨t.blocks P.C I (junk i) ++ bs, by rw [List.flatten_append, e1, f1, h], fun σ put s => ?_⟩
    unfold PTbl.dumpSubsTo
    rw [e2]
    simp only [Res.ok_bind, if_true]
    rw [f2, puts_append]

theorem pdumpTo_ok {P : PCfg α κ} {I : Tbl.Image α} {junk : Nat → Nat → List Ctrl} {p : PTbl α} {ar : List Ctrl}
    (h : p.dumpArchive P I junk = .ok ar) : ∃ bs : List (List Ctrl), bs.flatten = ar ∧
      ∀ (σ : Type) (put : σ → List Ctrl → σ × Bool) s, p.dumpTo P I put junk s = .ok (puts put s bs, true) := by
  unfold PTbl.dumpArchive at h
  obtain ⟨b, h1, h⟩ := Res.bind_eq_ok.1 h
  injection h with h
  obtain ⟨bs, f1, f2⟩ := dumpSubsTo_ok p.sets 0 b h1
  refine ⟨Tbl.u64 (2 ^ P.N) :: bs, by rw [List.flatten_cons, f1, h], fun σ put s => ?_⟩
  unfold PTbl.dumpTo
  dsimp only
  rw [f2]; rfl

end Gtl.Swiss
