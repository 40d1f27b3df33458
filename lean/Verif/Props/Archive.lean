import Verif.Props.ParDump
import Verif.Parallel.Archive
/-!
# Property theorems C114: several values and containers in one archive
-/

namespace Gtl.Props.Archive

open Gtl.Swiss Gtl.Swiss.Tbl Gtl.Parallel Gtl.Props.Hash Gtl.Props.Parallel Gtl.Props.ParDump
open Gtl.Props.Dump (Fits byteImage byteSet byteSet_contract byteReach C16_round_trip C17_header_only readInto_nil)

variable {α κ σ : Type}

/-- What may be saved: any value, and any container that operations produce and whose numbers fit in a `size_t`. -/
def Ok [BEq α] (C : Cfg α κ) (P : PCfg α κ) (I : Image α) : Item α → Prop
  | .value _ => True
  | .table t junk => Reachable C t ∧ Fits I junk t
  | .ptable p junk => PReachable P p ∧ PFits P I junk p

/-- What a saved thing may be loaded into: a variable of the same type, with any old contents. -/
def Target [BEq α] (C : Cfg α κ) (P : PCfg α κ) : Item α → Item α → Prop
  | .value b, .value b' => b'.length = b.length
  | .table _ _, .table old _ => Reachable C old
  | .ptable _ _, .ptable old _ => PReachable P old
  | _, _ => False

/-- The loaded thing is the saved one: the same bytes; the same elements in the same order and the same size, and it
behaves like that from then on. -/
def Same [BEq α] (C : Cfg α κ) (P : PCfg α κ) : Item α → Item α → Prop
  | .value b, .value b' => b' = b
  | .table t _, .table t' _ => ∃ l, t.iterate C = .ok l ∧ t'.iterate C = .ok l ∧ t'.size = t.size ∧ BehavesAs C t' l
  | .ptable p _, .ptable p' _ => ∃ l, p.iterate P = .ok l ∧ p'.iterate P = .ok l ∧ p'.size = p.size ∧ PBehavesAs P p' l
  | _, _ => False

/-- A container, as opposed to a value. -/
def IsContainer : Item α → Prop
  | .value _ => False
  | _ => True

/-! ### Helpers -/

theorem item_blocks [BEq α] [LawfulBEq α] {C : Cfg α κ} {P : PCfg α κ} (h : Contract C) (hP : Contract P.C) {I : Image α}
    {x : Item α} (hx : Ok C P I x) : ∃ bs : List (List Ctrl),
      (∀ (σ : Type) (put : σ → List Ctrl → σ × Bool) s, ∃ b, x.save C P I put s = .ok (puts put s bs, b) ∧
        (((∀ s b, (put s b).2 = true) ∨ IsContainer x) → b = true)) ∧
      ∀ y, Target C P x y → ∀ tail, ∃ y', y.load C P I (bs.flatten ++ tail) = .ok (y', true, tail) ∧ Same C P x y' := by
  cases x with
  | value b =>
    refine ⟨[b], fun σ put s => ⟨(put s b).2, rfl, ?_⟩, ?_⟩
    · rintro (hp | hp)
      · exact hp s b
      · exact hp.elim
    · intro y hy tail
      cases y with
      | value b' =>
        refine ⟨.value b, ?_, rfl⟩
        unfold Item.load
        dsimp only
        have e : ([b] : List (List Ctrl)).flatten = b := by simp
        rw [e, readInto_append tail (show b.length = b'.length from hy.symm) rfl]
      | table t j => exact hy.elim
      | ptable t j => exact hy.elim
  | table t junk =>
    obtain ⟨ar, l, h1, h2, h3⟩ := C16_round_trip h hx.1 hx.1 hx.2
    obtain ⟨e1, e2⟩ := dumpTo_ok h1
    refine ⟨_, fun σ put s => ⟨true, e2 σ put s, fun _ => rfl⟩, ?_⟩
    intro y hy tail
    cases y with
    | value b => exact hy.elim
    | ptable t j => exact hy.elim
    | table old j =>
      obtain ⟨ar', l', g1, g2, g3⟩ := C16_round_trip h hx.1 hy hx.2
      rw [h1] at g1
      injection g1 with g1
      subst g1
      obtain ⟨t', f1, f2, f3, _, f4⟩ := g3 tail
      refine ⟨.table t' j, ?_, l', g2, f2, f3, f4⟩
      rw [e1]
      unfold Item.load
      dsimp only
      rw [f1]; rfl
  | ptable p junk =>
    obtain ⟨ar, l, h1, h2, h3⟩ := C73_round_trip hP hx.1 hx.1 hx.2
    obtain ⟨bs, e1, e2⟩ := pdumpTo_ok h1
    refine ⟨bs, fun σ put s => ⟨true, e2 σ put s, fun _ => rfl⟩, ?_⟩
    intro y hy tail
    cases y with
    | value b => exact hy.elim
    | table t j => exact hy.elim
    | ptable old j =>
      obtain ⟨ar', l', g1, g2, g3⟩ := C73_round_trip hP hx.1 hy hx.2
      rw [h1] at g1
      injection g1 with g1
      subst g1
      obtain ⟨p', f1, f2, f3, f4⟩ := g3 tail
      refine ⟨.ptable p' j, ?_, l', g2, f2, f3, f4⟩
      rw [e1]
      unfold Item.load
      dsimp only
      rw [f1]; rfl

theorem items_blocks [BEq α] [LawfulBEq α] {C : Cfg α κ} {P : PCfg α κ} (h : Contract C) (hP : Contract P.C) {I : Image α} :
    ∀ {xs : List (Item α)}, (∀ x ∈ xs, Ok C P I x) → ∃ bs : List (List Ctrl),
      (∀ (σ : Type) (put : σ → List Ctrl → σ × Bool) s, ∃ r, saveAll C P I put xs s = .ok (puts put s bs, r) ∧
        (((∀ s b, (put s b).2 = true) ∨ ∀ x ∈ xs, IsContainer x) → r = List.replicate xs.length true)) ∧
      ∀ ys, List.Forall₂ (Target C P) xs ys → ∀ tail,
        ∃ ys', loadAll C P I ys (bs.flatten ++ tail) = .ok (ys', List.replicate xs.length true, tail) ∧
          List.Forall₂ (Same C P) xs ys' := by
  intro xs
  induction xs with
  | nil =>
    intro _
    refine ⟨[], fun σ put s => ⟨[], rfl, fun _ => rfl⟩, fun ys hy tail => ?_⟩
    cases hy
    exact ⟨[], rfl, .nil⟩
  | cons x xs ih =>
    intro hok
    obtain ⟨b, b1, b2⟩ := item_blocks h hP (hok x List.mem_cons_self)
    obtain ⟨bs, c1, c2⟩ := ih (fun y hy => hok y (List.mem_cons_of_mem _ hy))
    refine ⟨b ++ bs, fun σ put s => ?_, fun ys hy tail => ?_⟩
    · obtain ⟨r, r1, r2⟩ := b1 σ put s
      obtain ⟨rs, q1, q2⟩ := c1 σ put (puts put s b)
      refine ⟨r :: rs, ?_, fun hput => ?_⟩
      · unfold saveAll
        rw [r1]
        simp only [Res.ok_bind]
        rw [q1]
        simp only [Res.ok_bind, puts_append]
      · rw [r2 (hput.imp id (fun hc => hc x List.mem_cons_self)),
          q2 (hput.imp id (fun hc y hy => hc y (List.mem_cons_of_mem _ hy)))]
        rfl
    · cases hy with
      | cons h1 h2 =>
        obtain ⟨y', g1, g2⟩ := b2 _ h1 (bs.flatten ++ tail)
        obtain ⟨ys', k1, k2⟩ := c2 _ h2 tail
        refine ⟨y' :: ys', ?_, .cons g2 k2⟩
        unfold loadAll
        rw [List.flatten_append, List.append_assoc, g1]
        simp only [Res.ok_bind]
        rw [k1]
        rfl

theorem saveAll_append (C : Cfg α κ) (P : PCfg α κ) (I : Image α) (put : σ → List Ctrl → σ × Bool) (xs zs : List (Item α)) :
    ∀ s, saveAll C P I put (xs ++ zs) s = (do
      let (s, a) ← saveAll C P I put xs s
      let (s, b) ← saveAll C P I put zs s
      .ok (s, a ++ b)) := by
  induction xs with
  | nil =>
    intro s
    simp only [List.nil_append, saveAll, Res.ok_bind]
    cases saveAll C P I put zs s <;> rfl
  | cons x xs ih =>
    intro s
    simp only [List.cons_append, saveAll]
    cases x.save C P I put s with
    | ok r =>
      simp only [Res.ok_bind, ih]
      cases saveAll C P I put xs r.1 with
      | ok q =>
        simp only [Res.ok_bind]
        cases saveAll C P I put zs q.1 <;> rfl
      | _ => rfl
    | _ => rfl

theorem items_file [BEq α] [LawfulBEq α] {C : Cfg α κ} {P : PCfg α κ} (h : Contract C) (hP : Contract P.C) {I : Image α}
    {xs : List (Item α)} (hok : ∀ x ∈ xs, Ok C P I x) : ∃ w : List Ctrl,
      (∀ f : OFile, saveAll C P I OFile.put xs f = .ok (f.write w, List.replicate xs.length true)) ∧
      (∀ (σ : Type) (put : σ → List Ctrl → σ × Bool) (grow : σ → List Ctrl), (∀ s b, grow (put s b).1 = grow s ++ b) →
        ∀ s, ∃ s' r, saveAll C P I put xs s = .ok (s', r) ∧ grow s' = grow s ++ w) ∧
      ∀ ys, List.Forall₂ (Target C P) xs ys → ∀ tail,
        ∃ ys', loadAll C P I ys (w ++ tail) = .ok (ys', List.replicate xs.length true, tail) ∧
          List.Forall₂ (Same C P) xs ys' := by
  obtain ⟨bs, b1, b2⟩ := items_blocks h hP hok
  refine ⟨bs.flatten, fun f => ?_, fun σ put grow hg s => ?_, b2⟩
  · obtain ⟨r, r1, r2⟩ := b1 OFile OFile.put f
    rw [r1, r2 (.inl fun _ _ => rfl), puts_file]
  · obtain ⟨r, r1, _⟩ := b1 σ put s
    refine ⟨_, _, r1, ?_⟩
    clear r1 b1 b2
    induction bs generalizing s with
    | nil => simp [puts]
    | cons b bs ih =>
      show grow (puts put (put s b).1 bs) = _
      rw [ih, hg, List.flatten_cons, List.append_assoc]

theorem fresh_write (room : Nat) (b : List Ctrl) :
    ((OFile.fresh room true).write b).data = b.take room ∧
      (((OFile.fresh room true).write b).good = true ↔ b.length ≤ room) := by
  unfold OFile.fresh OFile.write
  simp

/-! ## C114 -/

/-- The device may fill up at any byte. The file is then a prefix of what a large enough device would hold. Whatever was
saved before that point is restored completely, from the front of the file, into variables with any old contents: `a` is
what the first things occupy and `b` the others. -/
theorem C114_full_disk [BEq α] [LawfulBEq α] {C : Cfg α κ} {P : PCfg α κ} (h : Contract C) (hP : Contract P.C) {I : Image α}
    {xs zs : List (Item α)} (hx : ∀ x ∈ xs ++ zs, Ok C P I x) : ∃ a b : List Ctrl,
      (∀ room, a.length ≤ room → ∃ f r, saveAll C P I OFile.put xs (OFile.fresh room true) = .ok (f, r) ∧ f.data = a) ∧
      ∀ room, ∃ f, saveAll C P I OFile.put (xs ++ zs) (OFile.fresh room true) =
          .ok (f, List.replicate (xs ++ zs).length true) ∧
        f.data = (a ++ b).take room ∧ (f.good = true ↔ (a ++ b).length ≤ room) ∧
        (a.length ≤ room → ∀ ys, List.Forall₂ (Target C P) xs ys → ∃ ys',
          loadAll C P I ys f.data = .ok (ys', List.replicate xs.length true, b.take (room - a.length)) ∧
          List.Forall₂ (Same C P) xs ys') := by
  obtain ⟨a, a1, _, a2⟩ := items_file h hP (fun x hm => hx x (List.mem_append_left _ hm))
  obtain ⟨b, b1, _⟩ := items_file h hP (fun x hm => hx x (List.mem_append_right _ hm))
  refine ⟨a, b, fun room hr => ⟨_, _, a1 _, ?_⟩, fun room => ?_⟩
  · rw [(fresh_write room _).1, List.take_of_length_le hr]
  · refine ⟨(OFile.fresh room true).write (a ++ b), ?_, (fresh_write room _).1, (fresh_write room _).2, ?_⟩
    · rw [saveAll_append, a1]
      simp only [Res.ok_bind, b1, List.replicate_append_replicate, List.length_append, OFile.write_append]
    · intro hr ys hy
      obtain ⟨ys', g1, g2⟩ := a2 ys hy (b.take (room - a.length))
      refine ⟨ys', ?_, g2⟩
      rw [(fresh_write room _).1, List.take_append, List.take_of_length_le hr]
      exact g1

/-- On a device with enough room, any sequence of values and containers saved to one archive and loaded in the same order
comes back, whatever the variables held before; nothing is left over and every call answers `true`. -/
theorem C114_restores_partial [BEq α] [LawfulBEq α] {C : Cfg α κ} {P : PCfg α κ} (h : Contract C) (hP : Contract P.C) {I : Image α}
    {xs : List (Item α)} (hx : ∀ x ∈ xs, Ok C P I x) : ∃ full : List Ctrl, ∀ room, full.length ≤ room →
      ∃ f, saveAll C P I OFile.put xs (OFile.fresh room true) = .ok (f, List.replicate xs.length true) ∧ f.good = true ∧
        f.data = full ∧ ∀ ys, List.Forall₂ (Target C P) xs ys →
          ∃ ys', loadAll C P I ys f.data = .ok (ys', List.replicate xs.length true, []) ∧ List.Forall₂ (Same C P) xs ys' := by
  obtain ⟨w, w1, _, w2⟩ := items_file h hP hx
  refine ⟨w, fun room hr => ⟨(OFile.fresh room true).write w, w1 _, (fresh_write room _).2.2 hr, ?_, ?_⟩⟩
  · rw [(fresh_write room _).1, List.take_of_length_le hr]
  · intro ys hy
    obtain ⟨ys', g1, g2⟩ := w2 ys hy []
    refine ⟨ys', ?_, g2⟩
    rw [(fresh_write room _).1, List.take_of_length_le hr]
    simpa using g1

/-- Containers saved to any archive, for instance one of the user's: what `saveBinary` answers has no effect. Every dump
answers `true`, and the archive ends in the state it would have if `saveBinary` always succeeded. -/
theorem C114_any_archive [BEq α] [LawfulBEq α] {C : Cfg α κ} {P : PCfg α κ} (h : Contract C) (hP : Contract P.C) {I : Image α}
    {xs : List (Item α)} (hx : ∀ x ∈ xs, Ok C P I x) (hc : ∀ x ∈ xs, IsContainer x) (put : σ → List Ctrl → σ × Bool) (s : σ) :
    ∃ s', saveAll C P I put xs s = .ok (s', List.replicate xs.length true) ∧
      saveAll C P I (fun s b => ((put s b).1, true)) xs s = .ok (s', List.replicate xs.length true) := by
  obtain ⟨bs, b1, _⟩ := items_blocks h hP hx
  obtain ⟨r, r1, r2⟩ := b1 σ put s
  obtain ⟨q, q1, q2⟩ := b1 σ (fun s b => ((put s b).1, true)) s
  refine ⟨_, by rw [r1, r2 (.inr hc)], ?_⟩
  rw [q1, q2 (.inr hc)]
  rfl

/-- An archive of the user's that appends to `grow` what it is given ends up with exactly the bytes that a file would hold,
and loads from them the same things. -/
theorem C114_appending [BEq α] [LawfulBEq α] {C : Cfg α κ} {P : PCfg α κ} (h : Contract C) (hP : Contract P.C) {I : Image α}
    {xs : List (Item α)} (hx : ∀ x ∈ xs, Ok C P I x) (put : σ → List Ctrl → σ × Bool) (s : σ)
    (grow : σ → List Ctrl) (hg : ∀ s b, grow (put s b).1 = grow s ++ b) :
    ∃ full s' r, saveAll C P I put xs s = .ok (s', r) ∧ grow s' = grow s ++ full ∧
      (∀ room, full.length ≤ room → ∃ f r', saveAll C P I OFile.put xs (OFile.fresh room true) = .ok (f, r') ∧ f.data = full) ∧
      ∀ ys, List.Forall₂ (Target C P) xs ys → ∀ tail, ∃ ys',
        loadAll C P I ys (full ++ tail) = .ok (ys', List.replicate xs.length true, tail) ∧
          List.Forall₂ (Same C P) xs ys' := by
  obtain ⟨w, w1, w2, w3⟩ := items_file h hP hx
  obtain ⟨s', r, e1, e2⟩ := w2 σ put grow hg s
  refine ⟨w, s', r, e1, e2, fun room hr => ⟨_, _, w1 _, ?_⟩, w3⟩
  rw [(fresh_write room _).1, List.take_of_length_le hr]

/-- When the file could not be opened, every save answers `true` and nothing is stored. -/
theorem C114_not_opened [BEq α] [LawfulBEq α] {C : Cfg α κ} {P : PCfg α κ} (h : Contract C) (hP : Contract P.C) {I : Image α}
    {xs : List (Item α)} (hx : ∀ x ∈ xs, Ok C P I x) (room : Nat) :
    ∃ f, saveAll C P I OFile.put xs (OFile.fresh room false) = .ok (f, List.replicate xs.length true) ∧ f.data = [] := by
  obtain ⟨w, w1, _⟩ := items_file h hP hx
  exact ⟨_, w1 _, rfl⟩

/-- What loading from an empty or missing file leaves: values keep what they held and tables are emptied, both with the
answer `true`; only parallel containers notice and are left alone. -/
theorem C114_nothing_there [BEq α] [LawfulBEq α] {C : Cfg α κ} {P : PCfg α κ} (h : Contract C) (I : Image α) :
    (∀ b, (Item.value b : Item α).load C P I [] = .ok (.value b, true, [])) ∧
    (∀ t junk, Reachable C t → (Item.table t junk).load C P I [] = .ok (.table Tbl.empty junk, true, [])) ∧
    (∀ p junk, (Item.ptable p junk).load C P I [] = .ok (.ptable p junk, false, [])) := by
  refine ⟨fun b => ?_, fun t junk hr => ?_, fun p junk => ?_⟩
  · unfold Item.load
    dsimp only
    rw [readInto_nil]
  · obtain ⟨u, hu⟩ := destroySlots_sim h.cfgOk (hr.sim h)
    unfold Item.load
    dsimp only
    rw [loadArchive_nil hu]; rfl
  · have hw : readWord 0 [] = (0, []) := by decide +kernel
    have hn : (0 : Nat) ≠ 2 ^ P.N := (Nat.ne_of_lt (Nat.pow_pos (by decide)))
    unfold Item.load PTbl.loadArchive
    dsimp only
    rw [hw]
    dsimp only
    rw [if_pos hn]; rfl

/-- A device that is full right after the header of a table: saving and loading both answer `true`, and the loaded container
claims the size of the saved one and has no elements. -/
theorem C114_silent_loss [BEq α] [LawfulBEq α] {C : Cfg α κ} {P : PCfg α κ} (h : Contract C) (hP : Contract P.C) {I : Image α}
    {t old : Tbl α} {junk : Nat → List Ctrl} (hr : Reachable C t) (hf : Fits I junk t) (hs0 : t.size ≠ 0)
    (ho : Reachable C old) : ∃ f t', saveAll C P I OFile.put [.table t junk] (OFile.fresh 24 true) = .ok (f, [true]) ∧
      f.good = false ∧ loadAll C P I [.table old junk] f.data = .ok ([.table t' junk], [true], []) ∧
      t'.size = t.size ∧ t'.iterate C = .ok [] := by
  obtain ⟨ar, t', h1, h2, h3, h4⟩ := C17_header_only h hr ho hf hs0
  obtain ⟨e1, e2⟩ := dumpTo_ok h1
  obtain ⟨ar', g1, g2, _⟩ := Gtl.Props.Dump.C17_never_detected h hr ho hf hs0
  rw [h1] at g1
  injection g1 with g1
  subst g1
  refine ⟨(OFile.fresh 24 true).write ar, t', ?_, ?_, ?_, h3, h4⟩
  · simp only [saveAll, Item.save, e2, Res.ok_bind, puts_file, e1]
  · rw [Bool.eq_false_iff, ne_eq, (fresh_write 24 _).2]; omega
  · rw [(fresh_write 24 _).1]
    simp only [loadAll, Item.load, h2, Res.ok_bind]

/-- What a user may hope: when every call answered `true`, everything is in the file. -/
def Reports [BEq α] (C : Cfg α κ) (P : PCfg α κ) (I : Image α) : Prop :=
  ∀ (xs : List (Item α)) room opened f r, (∀ x ∈ xs, Ok C P I x) →
    saveAll C P I OFile.put xs (OFile.fresh room opened) = .ok (f, r) → (∀ b ∈ r, b = true) → f.good = true

/-! ### Concrete cases -/

/-- A flag byte, a set of two bytes in 31 slots, a parallel set of six bytes, and a word. -/
theorem exItems : ∃ xs : List (Item (BitVec 8)), xs.length = 4 ∧
    (∀ x ∈ xs, Ok (byteSet groupPortable) byteP byteImage x) ∧
    ∃ t p, xs = [.value [7#8], .table t (fun _ => [0x55#8]), .ptable p (fun _ _ => [0x55#8]), .value (u64 1000)] ∧
      t.size = 2 ∧ p.size = 6 := by
  obtain ⟨t, h1, h2, h3, h4⟩ := byteReach
  obtain ⟨p, g1, g2, g3, _⟩ := bytePReach
  refine ⟨[.value [7#8], .table t (fun _ => [0x55#8]), .ptable p (fun _ _ => [0x55#8]), .value (u64 1000)], rfl, ?_,
    t, p, rfl, h2, g3⟩
  intro x hx
  simp only [List.mem_cons, List.not_mem_nil, or_false] at hx
  rcases hx with rfl | rfl | rfl | rfl
  · trivial
  · exact ⟨h1, h4⟩
  · exact ⟨g1, g2⟩
  · trivial

theorem exTargets : List.Forall₂ (Target (byteSet groupPortable) byteP)
    [.value [7#8], .table t j, .ptable p k, .value (u64 1000)]
    [.value [0#8], .table Tbl.empty (fun _ => []), .ptable (PTbl.empty byteP) (fun _ _ => []), .value (u64 5)] :=
  .cons rfl (.cons ⟨[], _, _, 0, by simp, rfl, rfl⟩
    (.cons ⟨[], _, _, 0, (fun _ h => absurd h (by simp)), rfl, rfl⟩ (.cons rfl .nil)))

/-- They come back together, into variables that held other things. -/
example : ∃ (xs : List (Item (BitVec 8))) (f : OFile) (room : Nat), xs.length = 4 ∧
    saveAll (byteSet groupPortable) byteP byteImage OFile.put xs (OFile.fresh room true) = .ok (f, [true, true, true, true]) ∧
    ∃ ys', loadAll (byteSet groupPortable) byteP byteImage [.value [0#8], .table Tbl.empty (fun _ => []),
        .ptable (PTbl.empty byteP) (fun _ _ => []), .value (u64 5)] f.data = .ok (ys', [true, true, true, true], []) ∧
      List.Forall₂ (Same (byteSet groupPortable) byteP) xs ys' := by
  obtain ⟨xs, h1, h2, t, p, rfl, h4, h5⟩ := exItems
  have hc := byteSet_contract (G := groupPortable) (.inr (.inr rfl))
  obtain ⟨full, hf⟩ := C114_restores_partial hc (P := byteP) hc h2
  obtain ⟨f, e1, e2, e3, e4⟩ := hf full.length (Nat.le_refl _)
  exact ⟨_, f, _, rfl, e1, e4 _ exTargets⟩

/-- An archive that refuses every block: the two containers are still "saved". -/
example : ∃ (t : Tbl (BitVec 8)) (p : PTbl (BitVec 8)), t.size = 2 ∧ p.size = 6 ∧
    saveAll (byteSet groupPortable) byteP byteImage (fun (n : Unit) _ => (n, false))
      [.table t (fun _ => [0x55#8]), .ptable p (fun _ _ => [0x55#8])] () = .ok ((), [true, true]) := by
  obtain ⟨xs, h1, h2, t, p, rfl, h4, h5⟩ := exItems
  have hc := byteSet_contract (G := groupPortable) (.inr (.inr rfl))
  obtain ⟨s', e, _⟩ := C114_any_archive hc (P := byteP) hc (I := byteImage)
    (xs := [.table t (fun _ => [0x55#8]), .ptable p (fun _ _ => [0x55#8])])
    (fun x hx => h2 x (by simp only [List.mem_cons, List.not_mem_nil, or_false] at hx ⊢; tauto))
    (fun x hx => by simp only [List.mem_cons, List.not_mem_nil, or_false] at hx; rcases hx with rfl | rfl <;> trivial)
    (fun (n : Unit) _ => (n, false)) ()
  exact ⟨t, p, h4, h5, e⟩

theorem C114_reports_refuted : ¬ Reports (byteSet groupPortable) byteP byteImage := by
  intro hd
  obtain ⟨t, h1, h2, _, h4⟩ := byteReach
  have hc := byteSet_contract (G := groupPortable) (.inr (.inr rfl))
  obtain ⟨f, t', e1, e2, _⟩ := C114_silent_loss hc (P := byteP) hc h1 h4 (by omega) h1
  have := hd _ 24 true f _ (by simpa [Ok] using ⟨h1, h4⟩) e1 (by simp)
  rw [e2] at this
  cases this

end Gtl.Props.Archive
