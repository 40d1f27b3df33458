import Verif.Bits.Move
/-!
# C86 Moved-from bit vectors
-/

namespace Gtl.Props.Bits

open Gtl.Bits Gtl.Spec.Bits

/-! ## Helpers -/

/-- The vectors that have not been moved from hold the bits of the specification. -/
def Holds (w : World) (S : Bits) : Prop := ∀ x l, S x = some l → Sim (w x) l

/-- The world with an empty vector in the place of every moved-from one. -/
def mended (w : World) (S : Bits) : World := fun x => if S x = none then { sz := 0, s := [] } else w x

theorem mended_sim {w : World} {S : Bits} (h : Holds w S) (x : Nat) : Sim (mended w S x) (S.lists x) := by
  unfold mended Bits.lists
  cases e : S x with
  | none => exact empty_sim
  | some l => exact h x l e

theorem mended_some {w : World} {S : Bits} {x : Nat} (h : S x ≠ none) : mended w S x = w x := if_neg h

theorem run_put {r : Res Bv} {w w1 : World} {x : Nat} (e : (do let v ← r; Res.ok (w.put x v)) = .ok w1) :
    ∃ v, r = .ok v ∧ w1 = w.put x v := by
  cases r with
  | ok v => exact ⟨v, rfl, by injection e with e; exact e.symm⟩
  | ub => cases e
  | hang => cases e

theorem run_congr {w w' : World} {op : Op} (hu : ∀ x ∈ op.uses, w' x = w x) (hc : ∀ x y, op ≠ .copy x y)
    (hs : ∀ x y, op ≠ .swap x y) {w1 : World} (e : op.run w' = .ok w1) :
    ∃ v, op.run w = .ok (w.put op.target v) ∧ w1 = w'.put op.target v := by
  cases op with
  | copy x y => exact absurd rfl (hc x y)
  | swap x y => exact absurd rfl (hs x y)
  | create x n b => obtain ⟨v, e1, e2⟩ := run_put e; exact ⟨v, by simp only [Op.run, e1]; rfl, e2⟩
  | ofWords x ws => obtain ⟨v, e1, e2⟩ := run_put e; exact ⟨v, by simp only [Op.run, e1]; rfl, e2⟩
  | bin k x first last y ofirst olast =>
    obtain ⟨v, e1, e2⟩ := run_put e
    have a := hu x (by simp [Op.uses])
    have b := hu y (by simp [Op.uses])
    refine ⟨v, ?_, e2⟩
    simp only [other, a, b] at e1
    simp only [Op.run, other, e1]; rfl
  | assignView x first last y ofirst olast =>
    obtain ⟨v, e1, e2⟩ := run_put e
    have a := hu x (by simp [Op.uses])
    have b := hu y (by simp [Op.uses])
    refine ⟨v, ?_, e2⟩
    simp only [other, a, b] at e1
    simp only [Op.run, other, e1]; rfl
  | _ =>
    obtain ⟨v, e1, e2⟩ := run_put e
    rw [hu _ List.mem_cons_self] at e1
    exact ⟨v, by simp only [Op.run, e1]; rfl, e2⟩

theorem call_spec {S : Bits} {op : Op} (hc : ∀ x y, op ≠ .copy x y) (hs : ∀ x y, op ≠ .swap x y) :
    (MOp.call op).spec S = S.put op.target (some (op.spec S.lists op.target)) := by
  cases op <;> first | rfl | exact absurd rfl (hc _ _) | exact absurd rfl (hs _ _)

theorem step_moves {w : World} {S : Bits} (h : Holds w S) {op : MOp} (hc : op.Clean S) :
    ∃ w', op.run w = .ok w' ∧ Holds w' (op.spec S) := by
  cases op with
  | move x y left =>
    refine ⟨_, rfl, fun z l e => ?_⟩
    simp only [MOp.spec, Bits.put, World.put] at e ⊢
    by_cases c : z = y
    · rw [if_pos c] at e; cases e
    · rw [if_neg c] at e ⊢
      by_cases d : z = x
      · rw [if_pos d] at e ⊢; exact h _ _ e
      · rw [if_neg d] at e ⊢; exact h _ _ e
  | call op =>
    by_cases cc : ∃ x y, op = .copy x y
    · obtain ⟨x, y, rfl⟩ := cc
      refine ⟨_, rfl, fun z l e => ?_⟩
      simp only [MOp.spec, Bits.put, World.put] at e ⊢
      by_cases d : z = x
      · rw [if_pos d] at e ⊢; exact h _ _ e
      · rw [if_neg d] at e ⊢; exact h _ _ e
    by_cases cs : ∃ x y, op = .swap x y
    · obtain ⟨x, y, rfl⟩ := cs
      refine ⟨_, rfl, fun z l e => ?_⟩
      simp only [MOp.spec, Bits.put, World.put] at e ⊢
      by_cases c : z = y
      · rw [if_pos c] at e ⊢; exact h _ _ e
      · rw [if_neg c] at e ⊢
        by_cases d : z = x
        · rw [if_pos d] at e ⊢; exact h _ _ e
        · rw [if_neg d] at e ⊢; exact h _ _ e
    have cc' : ∀ x y, op ≠ .copy x y := fun x y e => cc ⟨x, y, e⟩
    have cs' : ∀ x y, op ≠ .swap x y := fun x y e => cs ⟨x, y, e⟩
    obtain ⟨w1, e1, e2⟩ := step_sim (mended_sim h) hc.2
    obtain ⟨v, e3, e4⟩ := run_congr (fun x hx => mended_some (hc.1 x hx)) cc' cs' e1
    refine ⟨_, e3, fun z l e => ?_⟩
    rw [call_spec cc' cs'] at e
    simp only [Bits.put, World.put] at e ⊢
    by_cases d : z = op.target
    · rw [if_pos d] at e ⊢
      injection e with e
      have := e2 op.target
      rw [e4, e] at this
      simpa [World.put] using this
    · rw [if_neg d] at e ⊢; exact h _ _ e

theorem run_moves : ∀ (ops : List MOp) {w : World} {S : Bits} (_ : Holds w S) (_ : CleanMoves S ops),
    ∃ w', runMoves w ops = .ok w' ∧ Holds w' (specMoves S ops)
  | [], w, _, h, _ => ⟨w, rfl, h⟩
  | op :: ops, w, S, h, hc => by
    obtain ⟨w1, e1, e2⟩ := step_moves h hc.1
    obtain ⟨w2, e3, e4⟩ := run_moves ops e2 hc.2
    exact ⟨w2, by unfold runMoves; rw [e1]; exact e3, e4⟩

/-! ## Theorems -/

/-- Any history of calls and moves on any number of vectors, in which the bits of a moved-from vector are not used before it has
been given a new value, has defined behaviour; each vector that is not moved from holds the bits the specification says. What
the moved-from vectors keep inside does not matter. Missing: any other use of a moved-from vector, see
`C86_moved_from_refuted`, and the calls `C55_history_partial` excludes. -/
theorem C86_history_partial (ops : List MOp) (hc : CleanMoves (fun _ => some []) ops) :
    ∃ w, runMoves (fun _ => { sz := 0, s := [] }) ops = .ok w ∧
      ∀ x l, specMoves (fun _ => some []) ops x = some l → Contents (w x) l := by
  obtain ⟨w, e1, e2⟩ := run_moves ops (w := fun _ => { sz := 0, s := [] }) (S := fun _ => some [])
    (fun x l e => by injection e with e; subst e; exact empty_sim) hc
  exact ⟨w, e1, fun x l e => contents_of_sim (e2 x l e)⟩

/-- A history in which a vector is moved away, the source gets new contents by assignment, is moved again and swapped. -/
def exMoves : List MOp :=
  [.call (.create 0 70 false), .call (.setTo 0 65 true), .move 1 0 [], .call (.flip 1 3), .call (.copy 2 0), .call (.copy 0 1),
    .call (.flipAll 0), .move 0 1 [5, 6, 7], .call (.swap 1 0), .call (.resize 1 66 false), .call (.create 0 3 true)]

example : CleanMoves (fun _ => some []) exMoves ∧ specMoves (fun _ => some []) exMoves 0 = some [true, true, true] ∧
    specMoves (fun _ => some []) exMoves 1 = some ((List.range 66).map fun i => i = 3 || i = 65) ∧
    specMoves (fun _ => some []) exMoves 2 = none := by
  refine ⟨?_, ?_, ?_, ?_⟩
  · simp [exMoves, CleanMoves, MOp.Clean, Op.uses, Op.Clean, MOp.spec, Bits.put, Bits.lists, Op.spec, Op.target, Lists.put]
  · decide +kernel
  · decide +kernel
  · decide +kernel

/-- A move hands over all bits: whatever the history, the target holds afterwards what the source held before, and no other
vector changes. -/
theorem C86_target (ops : List MOp) (hc : CleanMoves (fun _ => some []) ops) {w : World}
    (e : runMoves (fun _ => { sz := 0, s := [] }) ops = .ok w) {x y : Nat} (hne : x ≠ y) {l : List Bool}
    (hy : specMoves (fun _ => some []) ops y = some l) (left : List Word) :
    ∃ w', (MOp.move x y left).run w = .ok w' ∧ Contents (w' x) l ∧ (w' y).sz = l.length ∧ ∀ z, z ≠ x → z ≠ y → w' z = w z := by
  obtain ⟨w0, e1, e2⟩ := run_moves ops (w := fun _ => { sz := 0, s := [] }) (S := fun _ => some [])
    (fun x l e => by injection e with e; subst e; exact empty_sim) hc
  rw [e] at e1
  injection e1 with e1
  subst e1
  have hs := e2 y l hy
  refine ⟨_, rfl, ?_, ?_, ?_⟩
  · simp only [World.put, if_neg hne, if_true]; exact contents_of_sim hs
  · simp only [World.put, if_true]; exact hs.sz
  · intro z h1 h2; simp only [World.put, if_neg h1, if_neg h2]

theorem lookUp_nil {τ : Type} (f : Look τ) (n i : Nat) (t : τ) : lookUp f [] (n + 1) i t = .ub := rfl

theorem lookAll_gone {τ : Type} {v : Bv} (hs : v.s = []) (hz : v.sz ≠ 0) (oor : Bool) (f : Look τ) (t : τ) :
    v.lookAll oor f t = .ub := by
  unfold Bv.lookAll
  dsimp only
  have h0 : slotCnt v.sz ≠ 0 := by simp only [slotCnt, slot]; omega
  rw [if_neg h0, hs]
  rcases hn : slotCnt v.sz with _ | _ | n
  · exact absurd hn h0
  · rfl
  · rfl

theorem visitV_gone {τ : Type} (oor : Bool) {n : Nat} (hz : n ≠ 0) (f : Look τ) (t : τ) : visitV oor 0 n f [] t = .ub := by
  unfold visitV
  dsimp only
  rw [if_neg (by omega)]
  by_cases c : slot 0 = slot n
  · rw [if_pos c]; rfl
  · rw [if_neg c]
    have h0 : mod 0 = 0 := rfl
    rw [if_neg (by rw [h0]; simp)]
    have : ∃ k, slot n - slot 0 = k + 1 := ⟨slot n - slot 0 - 1, by simp only [slot] at c ⊢; omega⟩
    obtain ⟨k, hk⟩ := this
    show (do let (t, stop) ← lookUp f [] (slot n - slot 0) (slot 0) t; _) = _
    rw [hk, lookUp_nil]; rfl

theorem mapAll_gone {v : Bv} (hs : v.s = []) (hz : v.sz ≠ 0) (f : Word → Word) : v.mapAll f = .ub := by
  unfold Bv.mapAll
  dsimp only
  have h0 : slotCnt v.sz ≠ 0 := by simp only [slotCnt, slot]; omega
  rw [if_neg h0, hs]
  rcases hn : slotCnt v.sz with _ | _ | n
  · exact absurd hn h0
  · rfl
  · rfl

/-- A moved-from vector is not a valid vector. For every vector with at least one bit: after a move construction from it, its
`size()` is still the old one, but reading, setting or flipping a bit below that size has undefined behaviour, and so have `set()`,
`reset()`, `flip()`, `any()`, `every()`, `count()`, `find_first()`, comparison with a vector of that size, `to_ullong()` and the
hash. -/
theorem C86_moved_from_refuted {v : Bv} {l : List Bool} (hc : Contents v l) (hne : l ≠ []) :
    (v.movedFrom []).sz = l.length ∧
    (∀ i, i < l.length → (v.movedFrom []).get i = .ub ∧ (∀ b, (v.movedFrom []).setTo i b = .ub) ∧ (v.movedFrom []).flip i = .ub) ∧
    (∀ b, (v.movedFrom []).setAll b = .ub) ∧ (v.movedFrom []).flipAll = .ub ∧ (v.movedFrom []).any = .ub ∧
    (v.movedFrom []).every = .ub ∧ (v.movedFrom []).count = .ub ∧ (v.movedFrom []).findFirst 0 (v.movedFrom []).sz = .ub ∧
    (∀ o, o.sz = l.length → (v.movedFrom []).eq o = .ub) ∧ (v.movedFrom []).toUllong = .ub ∧ (v.movedFrom []).hash = .ub := by
  have hz : (v.movedFrom []).sz ≠ 0 := by
    show v.sz ≠ 0
    rw [hc.1]; intro e; exact hne (List.length_eq_zero_iff.1 e)
  have hs : (v.movedFrom []).s = [] := rfl
  refine ⟨hc.1, fun i _ => ⟨rfl, fun b => rfl, rfl⟩, fun b => rfl, mapAll_gone hs hz _, lookAll_gone hs hz _ _ _,
    lookAll_gone hs hz _ _ _, lookAll_gone hs hz _ _ _, ?_, ?_, ?_, ?_⟩
  · unfold Bv.findFirst
    rw [hs, visitV_gone _ hz]; rfl
  · intro o ho
    unfold Bv.eq Bv.viewEq
    have : (v.movedFrom []).sz = o.sz := by rw [ho]; exact hc.1
    rw [if_neg (by rw [this]; simp), hs, visitV_gone _ hz]; rfl
  · unfold Bv.toUllong
    rw [if_pos hz, hs]; rfl
  · unfold Bv.hash
    have h0 : slotCnt (v.movedFrom []).sz ≠ 0 := by simp only [slotCnt, slot]; omega
    rcases hn : slotCnt (v.movedFrom []).sz with _ | n
    · exact absurd hn h0
    · rfl

/-- Resizing a vector after a move construction from it gives a new vector of that size: all its bits have the given value. -/
theorem C86_resize (v : Bv) (n : Nat) (b : Bool) :
    (v.movedFrom []).resize n b = Bv.create n b ∧ ∃ v', (v.movedFrom []).resize n b = .ok v' ∧ Contents v' (List.replicate n b) := by
  have e : (v.movedFrom []).resize n b = Bv.create n b := rfl
  exact ⟨e, by rw [e]; exact C32_create n b⟩

example : ∃ v l, Reachable v ∧ Contents v l ∧ l ≠ [] := ⟨exV, exL, exV_reach, exV_contents, by decide +kernel⟩

end Gtl.Props.Bits
