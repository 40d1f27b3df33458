import Verif.Props.BitLemmas
import Verif.Bits.Replace
/-!
# Bit vectors: the theorems

`Reachable v`: some history of calls whose assertions hold produces `v`. `Contents v l`: `v.size()` is the length of `l` and
`v[i]` reads `l[i]`. The specification is in `Spec/Bits.lean`.
-/

namespace Gtl.Props.Bits

open Gtl.Bits Gtl.Spec.Bits

theorem toContents {r : Res Bv} {l l' : List Bool} (e : l = l') (h : ∃ v', r = .ok v' ∧ Sim v' l) : ∃ v', r = .ok v' ∧ Contents v' l' := by
  obtain ⟨v', a, b⟩ := h
  exact ⟨v', a, contents_of_sim (e ▸ b)⟩

/-! ## Example vectors: 70 bits with bits 3 and 65 set, 70 bits with bits 3, 64 and 69 set, no bits -/

def exL : List Bool := (List.range 70).map fun i => i = 3 || i = 65
def exL2 : List Bool := (List.range 70).map fun i => i = 3 || i = 64 || i = 69
def exV : Bv := { sz := 70, s := [8, 2] }
def exV2 : Bv := { sz := 70, s := [8, 33] }

theorem exV_reach : Reachable exV := by
  have h1 : Bv.create 70 false = .ok { sz := 70, s := [0, 0] } := by decide +kernel
  have h2 : Bv.setTo { sz := 70, s := [0, 0] } 3 true = .ok { sz := 70, s := [8, 0] } := by decide +kernel
  have h3 : Bv.setTo { sz := 70, s := [8, 0] } 65 true = .ok exV := by decide +kernel
  have r1 := Reach.init.step (op := .create 0 70 false) trivial (by show (do let v ← Bv.create 70 false; _) = _; rw [h1]; rfl)
  have r2 := r1.step (op := .setTo 0 3 true) (by show 3 < 70; decide)
    (by show (do let v ← Bv.setTo { sz := 70, s := [0, 0] } 3 true; _) = _; rw [h2]; rfl)
  have r3 := r2.step (op := .setTo 0 65 true) (by show 65 < 70; decide)
    (by show (do let v ← Bv.setTo { sz := 70, s := [8, 0] } 65 true; _) = _; rw [h3]; rfl)
  exact ⟨_, 0, r3, rfl⟩

theorem exV2_reach : Reachable exV2 := by
  have h1 : Bv.create 70 false = .ok { sz := 70, s := [0, 0] } := by decide +kernel
  have h2 : Bv.assignWords { sz := 70, s := [0, 0] } 0 [8, 97] = .ok exV2 := by decide +kernel
  have r1 := Reach.init.step (op := .create 0 70 false) trivial (by show (do let v ← Bv.create 70 false; _) = _; rw [h1]; rfl)
  have r2 := r1.step (op := .assignWords 0 [8, 97]) trivial
    (by show (do let v ← Bv.assignWords { sz := 70, s := [0, 0] } 0 [8, 97]; _) = _; rw [h2]; rfl)
  exact ⟨_, 0, r2, rfl⟩

instance (v : Bv) (l : List Bool) : Decidable (Contents v l) := by unfold Contents; infer_instance

theorem exV_contents : Contents exV exL := by decide +kernel
theorem exV2_contents : Contents exV2 exL2 := by decide +kernel

/-! ## C32 Element access -/

/-- A new vector has `n` bits, all equal to `b`. -/
theorem C32_create (n : Nat) (b : Bool) : ∃ v, Bv.create n b = .ok v ∧ Contents v (List.replicate n b) :=
  toContents rfl (create_sim n b)

/-- `set(i)`, `reset(i)`, `set(i, b)` change exactly bit `i`. -/
theorem C32_set {v : Bv} {l : List Bool} (hr : Reachable v) (hc : Contents v l) {i : Nat} (hi : i < l.length) (b : Bool) :
    ∃ v', v.setTo i b = .ok v' ∧ Contents v' (l.set i b) := toContents rfl (setTo_sim (hr.sim hc) hi b)

/-- `flip(i)` changes exactly bit `i`. -/
theorem C32_flip {v : Bv} {l : List Bool} (hr : Reachable v) (hc : Contents v l) {i : Nat} (hi : i < l.length) :
    ∃ v', v.flip i = .ok v' ∧ Contents v' (l.set i (!l[i])) :=
  toContents (by rw [at_get hi]) (flip_sim (hr.sim hc) hi)

/-- `flip()` acts on every bit. -/
theorem C32_flip_all {v : Bv} {l : List Bool} (hr : Reachable v) (hc : Contents v l) :
    ∃ v', v.flipAll = .ok v' ∧ Contents v' (l.map (! ·)) := toContents rfl (flipAll_sim (hr.sim hc))

/-- `set()` and `reset()` act on every bit. Missing: vectors with no bits, see `C32_set_all_empty_refuted`. -/
theorem C32_set_all_partial {v : Bv} {l : List Bool} (hr : Reachable v) (hc : Contents v l) (hne : l ≠ []) (b : Bool) :
    ∃ v', v.setAll b = .ok v' ∧ Contents v' (List.replicate l.length b) :=
  toContents (List.map_const') (fill_sim (hr.sim hc) hne b)

/-- `set()` and `reset()` on a vector with no bits have undefined behaviour: they take the address of `_s[0]`. -/
theorem C32_set_all_empty_refuted {v : Bv} (hr : Reachable v) (hc : Contents v []) (b : Bool) : v.setAll b = .ub := by
  have h := hr.sim hc
  have hs : v.s = [] := List.length_eq_zero_iff.1 (by rw [h.len]; rfl)
  unfold Bv.setAll Bv.fill ld
  rw [hs]; rfl

/-- `view.set()`, `view.reset()` act on the bits of the view and on nothing else. -/
theorem C32_view_set {v : Bv} {l : List Bool} (hr : Reachable v) (hc : Contents v l) {first last : Nat} (h1 : first ≤ last)
    (h2 : last ≤ l.length) (b : Bool) :
    ∃ v', v.viewFill first last b = .ok v' ∧ Contents v' (replace l first last (List.replicate (last - first) b)) :=
  toContents (fill_replace h1 h2 b) (viewFill_sim (hr.sim hc) h1 h2 b)

/-- `view.flip()` acts on the bits of the view and on nothing else. -/
theorem C32_view_flip {v : Bv} {l : List Bool} (hr : Reachable v) (hc : Contents v l) {first last : Nat} (h1 : first ≤ last)
    (h2 : last ≤ l.length) :
    ∃ v', v.viewFlip first last = .ok v' ∧ Contents v' (replace l first last ((slice l first last).map (! ·))) :=
  toContents (flip_replace h1 h2) (viewFlip_sim (hr.sim hc) h1 h2)

example : ∃ v l, Reachable v ∧ Contents v l ∧ l ≠ [] ∧ (3 ≤ 67 ∧ 67 ≤ l.length) ∧ 65 < l.length ∧ l[65]? = some true :=
  ⟨exV, exL, exV_reach, exV_contents, by decide +kernel⟩

example : ∃ v, Reachable v ∧ Contents v [] := ⟨_, ⟨_, 0, Reach.init, rfl⟩, by decide +kernel⟩

/-! ## C33 Boolean operators -/

/-- What each operator does to a pair of bits. -/
def Bin.onBits : Bv.Bin → Bool → Bool → Bool
  | .or, a, b => a || b
  | .and, a, b => a && b
  | .xor, a, b => a != b
  | .sub, a, b => a && !b
  | .orNot, a, b => a || !b

theorem bin_bitwise (k : Bv.Bin) : Bitwise k.fn (Bin.onBits k) := by
  intro a b j hj
  cases k <;> simp [Bv.Bin.fn, Bin.onBits, hj]

/-- `v |= o` and so on, for two different vectors of the same size. -/
theorem C33_assign {v o : Bv} {l lo : List Bool} (hr : Reachable v) (hc : Contents v l) (hro : Reachable o) (hco : Contents o lo)
    (hl : l.length = lo.length) (k : Bv.Bin) :
    ∃ v', v.vecBin k (some o) = .ok v' ∧ Contents v' (List.zipWith (Bin.onBits k) l lo) := by
  have h := hr.sim hc
  have ho := hro.sim hco
  have e := binAssign_sim (o := some o) (lo := some lo) h ho (first := 0) (last := l.length) (ofirst := 0) (olast := lo.length)
    (by omega) (by omega) (by omega) (by exact Nat.le_refl _) (by omega) (by simp) (bin_bitwise k)
  unfold Bv.vecBin
  rw [h.sz, Option.getD_some, ho.sz]
  refine toContents ?_ e
  rw [combine_replace (olast := lo.length) (by omega) (by omega) (by omega) (by exact Nat.le_refl _) (by omega), replace_all, slice_all]
  show List.zipWith _ l (slice lo 0 lo.length) = _
  rw [slice_all]

/-- `v |= v` and so on. -/
theorem C33_assign_self {v : Bv} {l : List Bool} (hr : Reachable v) (hc : Contents v l) (k : Bv.Bin) :
    ∃ v', v.vecBin k none = .ok v' ∧ Contents v' (List.zipWith (Bin.onBits k) l l) := by
  have h := hr.sim hc
  have e := binAssign_sim (o := none) (lo := none) h trivial (first := 0) (last := l.length) (ofirst := 0) (olast := l.length)
    (by omega) (by omega) (by omega) (by exact Nat.le_refl _) (by omega) (by simp) (bin_bitwise k)
  unfold Bv.vecBin
  rw [Option.getD_none, h.sz]
  refine toContents ?_ e
  rw [combine_replace (olast := l.length) (by omega) (by omega) (by omega) (by exact Nat.le_refl _) (by omega), replace_all, slice_all]
  show List.zipWith _ l (slice l 0 l.length) = _
  rw [slice_all]

/-- `v | o` and so on. -/
theorem C33_op {v o : Bv} {l lo : List Bool} (hr : Reachable v) (hc : Contents v l) (hro : Reachable o) (hco : Contents o lo)
    (hl : l.length = lo.length) (k : Bv.Bin) :
    ∃ v', Bv.vecOp k v o = .ok v' ∧ Contents v' (List.zipWith (Bin.onBits k) l lo) := C33_assign hr hc hro hco hl k

/-- `~v`. -/
theorem C33_not {v : Bv} {l : List Bool} (hr : Reachable v) (hc : Contents v l) :
    ∃ v', v.compl = .ok v' ∧ Contents v' (l.map (! ·)) := C32_flip_all hr hc

/-- After any history the storage has no slot beyond the last bit and its unused high bits are zero. -/
theorem C33_unused_zero {v : Bv} (hr : Reachable v) :
    v.s.length = (v.sz + 63) / 64 ∧
    ∀ (k : Nat) (w : Word), v.s[k]? = some w → ∀ j, j < 64 → v.sz ≤ 64 * k + j → w.getLsbD j = false := by
  obtain ⟨l, h⟩ := hr.wf
  refine ⟨by rw [h.len, h.sz], fun k w hk j hj hz => ?_⟩
  have := h.bits (64 * k + j)
  rw [at_out (by rw [← h.sz]; exact hz)] at this
  unfold bit at this
  rw [show (64 * k + j) / 64 = k by omega, show (64 * k + j) % 64 = j by omega, hk] at this
  exact this

example : ∃ v o l lo, Reachable v ∧ Contents v l ∧ Reachable o ∧ Contents o lo ∧ l.length = lo.length ∧ l ≠ lo :=
  ⟨exV, exV2, exL, exL2, exV_reach, exV_contents, exV2_reach, exV2_contents, by decide +kernel⟩

/-! ## C34 Shifts -/

/-- `v >>= n` moves bit `i` to `i + n` for every `n`. -/
theorem C34_right {v : Bv} {l : List Bool} (hr : Reachable v) (hc : Contents v l) (n : Nat) :
    ∃ v', v.shr 0 v.sz n = .ok v' ∧ Contents v' (shiftUp n l) := by
  have h := hr.sim hc
  rw [h.sz]
  exact toContents (by rw [up_replace (by omega) (by omega), replace_all, slice_all]) (shr_sim h (Nat.zero_le _) (Nat.le_refl _) n)

/-- `v <<= n` moves bit `i + n` to `i` for every `n`. -/
theorem C34_left {v : Bv} {l : List Bool} (hr : Reachable v) (hc : Contents v l) (n : Nat) :
    ∃ v', v.shl 0 v.sz n = .ok v' ∧ Contents v' (shiftDown n l) := by
  have h := hr.sim hc
  rw [h.sz]
  exact toContents (by rw [down_replace (by omega) (by omega), replace_all, slice_all]) (shl_sim h (Nat.zero_le _) (Nat.le_refl _) n)

/-- The same on views, nothing outside the view changes. -/
theorem C34_view_right {v : Bv} {l : List Bool} (hr : Reachable v) (hc : Contents v l) {first last : Nat} (h1 : first ≤ last)
    (h2 : last ≤ l.length) (n : Nat) :
    ∃ v', v.shr first last n = .ok v' ∧ Contents v' (replace l first last (shiftUp n (slice l first last))) :=
  toContents (up_replace h1 h2 n) (shr_sim (hr.sim hc) h1 h2 n)

theorem C34_view_left {v : Bv} {l : List Bool} (hr : Reachable v) (hc : Contents v l) {first last : Nat} (h1 : first ≤ last)
    (h2 : last ≤ l.length) (n : Nat) :
    ∃ v', v.shl first last n = .ok v' ∧ Contents v' (replace l first last (shiftDown n (slice l first last))) :=
  toContents (down_replace h1 h2 n) (shl_sim (hr.sim hc) h1 h2 n)

/-- `shiftUp` and `shiftDown`, bit by bit. -/
theorem C34_meaning (n : Nat) (m : List Bool) (i : Nat) (hi : i < m.length) :
    (shiftUp n m)[i]? = some (if n ≤ i then bitAt m (i - n) else false) ∧
    (shiftDown n m)[i]? = some (bitAt m (i + n)) := by
  constructor
  · have e : at' (shiftUp n m) i = if n ≤ i then bitAt m (i - n) else false := by
      unfold shiftUp
      rw [at_append, at_replicate, at_take, List.length_replicate]
      by_cases c : n ≤ i
      · rw [if_pos c, if_neg (by omega), show min n m.length = n by omega]
        have : i - n < m.length - n := by omega
        simp only [this, decide_true, Bool.true_and]; rfl
      · rw [if_neg c, if_pos (by omega)]; simp
    rw [← e, List.getElem?_eq_getElem (by rw [length_shiftUp]; exact hi), at_get (by rw [length_shiftUp]; exact hi)]
  · have e : at' (shiftDown n m) i = bitAt m (i + n) := by
      unfold shiftDown
      rw [at_append, at_replicate, at_drop, List.length_drop, Nat.add_comm n i]
      by_cases c : i + n < m.length
      · rw [if_pos (by omega)]; rfl
      · rw [if_neg (by omega), show bitAt m (i + n) = at' m (i + n) from rfl, at_out (by omega)]; simp
    rw [← e, List.getElem?_eq_getElem (by rw [length_shiftDown]; exact hi), at_get (by rw [length_shiftDown]; exact hi)]

example : ∃ v l, Reachable v ∧ Contents v l ∧ 3 ≤ 67 ∧ 67 ≤ l.length ∧ shiftUp 62 (slice l 3 67) ≠ slice l 3 67 :=
  ⟨exV, exL, exV_reach, exV_contents, by decide +kernel⟩

/-! ## C35 Queries -/

theorem C35_any {v : Bv} {l : List Bool} (hr : Reachable v) (hc : Contents v l) : v.any = .ok (decide (true ∈ l)) := by
  rw [lookAll_any (hr.sim hc)]; congr 1; apply bool_eq_of_iff; simp

theorem C35_every {v : Bv} {l : List Bool} (hr : Reachable v) (hc : Contents v l) : v.every = .ok (decide (false ∉ l)) := by
  rw [lookAll_every (hr.sim hc)]; congr 1; apply bool_eq_of_iff; simp

theorem C35_count {v : Bv} {l : List Bool} (hr : Reachable v) (hc : Contents v l) : v.count = .ok (l.count true) :=
  count_sim (hr.sim hc)

theorem C35_equal {v o : Bv} {l lo : List Bool} (hr : Reachable v) (hc : Contents v l) (hro : Reachable o) (hco : Contents o lo) :
    v.eq o = .ok (decide (l = lo)) := eq_sim (hr.sim hc) (hro.sim hco)

/-- `std::hash` has defined behaviour and equal vectors have equal hashes. -/
theorem C35_hash {v o : Bv} (hr : Reachable v) (hro : Reachable o) :
    ∃ x y, v.hash = .ok x ∧ o.hash = .ok y ∧ (v.eq o = .ok true → x = y) := by
  obtain ⟨l, h⟩ := hr.wf
  obtain ⟨lo, ho⟩ := hro.wf
  obtain ⟨x, hx⟩ := hash_ok h
  obtain ⟨y, hy⟩ := hash_ok ho
  refine ⟨x, y, hx, hy, fun e => ?_⟩
  rw [eq_sim h ho] at e
  have e : l = lo := by simpa using e
  subst e
  have := h.unique ho
  subst this
  rw [hx] at hy
  injection hy

theorem C35_view_any {v : Bv} {l : List Bool} (hr : Reachable v) (hc : Contents v l) {first last : Nat} (h1 : first ≤ last)
    (h2 : last ≤ l.length) : v.viewAny first last = .ok (decide (true ∈ slice l first last)) := by
  rw [viewAny_sim (hr.sim hc) h1 h2]; congr 1; apply bool_eq_of_iff; simp

theorem C35_view_every {v : Bv} {l : List Bool} (hr : Reachable v) (hc : Contents v l) {first last : Nat} (h1 : first ≤ last)
    (h2 : last ≤ l.length) : v.viewEvery first last = .ok (decide (false ∉ slice l first last)) := by
  rw [viewEvery_sim (hr.sim hc) h1 h2]; congr 1; apply bool_eq_of_iff; simp

theorem C35_view_count {v : Bv} {l : List Bool} (hr : Reachable v) (hc : Contents v l) {first last : Nat} (h1 : first ≤ last)
    (h2 : last ≤ l.length) : v.viewCount first last = .ok ((slice l first last).count true) := viewCount_sim (hr.sim hc) h1 h2

theorem C35_view_equal {v o : Bv} {l lo : List Bool} (hr : Reachable v) (hc : Contents v l) (hro : Reachable o) (hco : Contents o lo)
    {first last ofirst olast : Nat} (h1 : first ≤ last) (h2 : last ≤ l.length) (h3 : ofirst ≤ olast) (h4 : olast ≤ lo.length) :
    v.viewEq first last o ofirst olast = .ok (decide (slice l first last = slice lo ofirst olast)) :=
  viewEq_sim (hr.sim hc) (hro.sim hco) h1 h2 h3 h4

/-- `disjoint`, also for views of different lengths: no index is set in both. -/
theorem C35_view_disjoint {v o : Bv} {l lo : List Bool} (hr : Reachable v) (hc : Contents v l) (hro : Reachable o) (hco : Contents o lo)
    {first last ofirst olast : Nat} (h1 : first ≤ last) (h2 : last ≤ l.length) (h3 : ofirst ≤ olast) (h4 : olast ≤ lo.length) :
    v.viewDisjoint first last o ofirst olast = .ok (disjoint (slice l first last) (slice lo ofirst olast)) :=
  viewDisjoint_sim (hr.sim hc) (hro.sim hco) h1 h2 h3 h4

/-- `contains`: every bit set in `o` is set in this view. Missing: `o` shorter than this view, see the refutation. -/
theorem C35_view_contains_partial {v o : Bv} {l lo : List Bool} (hr : Reachable v) (hc : Contents v l) (hro : Reachable o)
    (hco : Contents o lo) {first last ofirst olast : Nat} (h1 : first ≤ last) (h2 : last ≤ l.length) (h3 : ofirst ≤ olast)
    (h4 : olast ≤ lo.length) (h5 : last - first ≤ olast - ofirst) :
    v.viewContains first last o ofirst olast =
      .ok (decide (olast - ofirst = last - first) && contains (slice l first last) (slice lo ofirst olast)) := by
  by_cases c : olast - ofirst = last - first
  · rw [viewContains_sim (hr.sim hc) (hro.sim hco) h1 h2 h3 h4 c]; simp [c]
  · unfold Bv.viewContains
    rw [if_pos (by omega)]; simp [c]

/-- `contains` of a shorter vector reads past the end of the shorter one. -/
theorem C35_contains_shorter_refuted : ∃ v o, Reachable v ∧ Reachable o ∧ o.sz ≤ v.sz ∧ v.viewContains 0 v.sz o 0 o.sz = .ub := by
  have h1 : Bv.create 128 true = .ok { sz := 128, s := [ones, ones] } := by decide +kernel
  have h2 : Bv.create 64 true = .ok { sz := 64, s := [ones] } := by decide +kernel
  exact ⟨_, _, reachable_run Reach.init (op := .create 0 128 true) trivial (x := 0) (by show (do let v ← Bv.create 128 true; _) = _; rw [h1]; rfl),
    reachable_run Reach.init (op := .create 0 64 true) trivial (x := 0) (by show (do let v ← Bv.create 64 true; _) = _; rw [h2]; rfl),
    by decide, by decide +kernel⟩

example : ∃ v o l lo, Reachable v ∧ Contents v l ∧ Reachable o ∧ Contents o lo ∧ 1 ≤ 68 ∧ 68 ≤ l.length ∧ 2 ≤ 69 ∧ 69 ≤ lo.length ∧
    68 - 1 ≤ 69 - 2 ∧ slice l 1 68 ≠ slice lo 2 69 :=
  ⟨exV, exV2, exL, exL2, exV_reach, exV_contents, exV2_reach, exV2_contents, by decide +kernel⟩

/-! ## C36 Searching -/

/-- `v.find_first()`. -/
theorem C36_find_first {v : Bv} {l : List Bool} (hr : Reachable v) (hc : Contents v l) :
    v.findFirst 0 v.sz = .ok (findFirst l) := by
  have h := hr.sim hc
  rw [h.sz, findFirst_sim h (by omega) (by omega) (.inl rfl), slice_all]

/-- `view.find_first()` is right exactly if the view starts at a slot boundary, or the lowest set bit is not in the slot in which
the view ends, or the view is inside one slot. Missing: the other cases, see `C36_find_next_refuted`. -/
theorem C36_view_find_first_partial {v : Bv} {l : List Bool} (hr : Reachable v) (hc : Contents v l) {first last : Nat} (h1 : first ≤ last)
    (h2 : last ≤ l.length) :
    v.findFirst first last = .ok (findFirst (slice l first last)) ↔
      (first % 64 = 0 ∨ first / 64 = last / 64 ∨
        ∀ k, findFirst (slice l first last) = some k → (first + k) / 64 < last / 64) := by
  have h := hr.sim hc
  constructor
  · intro e
    by_cases c1 : first % 64 = 0
    · exact .inl c1
    by_cases c2 : first / 64 = last / 64
    · exact .inr (.inl c2)
    refine .inr (.inr (fun k hk => ?_))
    rcases findFirst_gen h h1 h2 with ⟨k', hk', e'⟩ | ⟨hn, e'⟩
    · have hs := findFirst_slice_some h2 hk'
      rw [hs] at hk
      injection hk with hk
      rw [e, hs] at e'
      injection e' with e'
      have h1' := hk'.1
      by_contra hcon
      unfold foundAt at e'
      rw [if_pos (⟨c2, by have := hk'.2.1; omega⟩ : first / 64 ≠ last / 64 ∧ k' / 64 = last / 64)] at e'
      split at e'
      · injection e' with e'; omega
      · cases e'
    · rw [findFirst_slice_none h2 hn] at hk; cases hk
  · rintro (c | c | c)
    · exact findFirst_sim h h1 h2 (.inl c)
    · exact findFirst_sim h h1 h2 (.inr (.inr c))
    · exact findFirst_sim' h h1 h2 c

/-- `find_next(start)` gives the lowest set bit at or after `start` whenever the search of the rest of the view is right. -/
theorem C36_find_next_partial {v : Bv} {l : List Bool} (hr : Reachable v) (hc : Contents v l) {first last start : Nat}
    (h2 : last ≤ l.length)
    (hs : (first + start) % 64 = 0 ∨ (first + start) / 64 = last / 64 ∨
      ∀ k, findNext (slice l first last) start = some k → (first + k) / 64 < last / 64) :
    v.findNext first last start = .ok (findNext (slice l first last) start) := by
  have h := hr.sim hc
  unfold Bv.findNext findNext
  rw [slice_drop]
  by_cases c : first + start ≥ last
  · rw [if_pos c]
    have : slice l (first + start) last = [] := by
      rw [slice_eq h2, show last - (first + start) = 0 by omega]; rfl
    rw [this]; rfl
  · rw [if_neg c, (C36_view_find_first_partial hr hc (by omega) h2).2]
    · rfl
    · rcases hs with a | a | a
      · exact .inl a
      · exact .inr (.inl a)
      · refine .inr (.inr (fun k hk => ?_))
        have := a (k + start) (by unfold findNext; rw [slice_drop, hk]; rfl)
        rw [show first + start + k = first + (k + start) by omega]; exact this

/-- `find_next(4)` on 70 bits of which 3 and 65 are set gives 69, a bit that is not set. -/
theorem C36_find_next_refuted : ∃ v l, Reachable v ∧ Contents v l ∧ findNext l 4 = some 65 ∧ v.findNext 0 v.sz 4 = .ok (some 69) ∧
    l[69]? = some false :=
  ⟨exV, exL, exV_reach, exV_contents, by decide +kernel⟩

example : ∃ v l, Reachable v ∧ Contents v l ∧ findFirst l = some 3 ∧ (64 % 64 = 0 ∧ 64 ≤ l.length ∧ findNext l 64 = some 65) :=
  ⟨exV, exL, exV_reach, exV_contents, by decide +kernel⟩

/-! ## C37 Resizing -/

/-- `resize(n, b)` never fails, keeps the bits below both sizes, and gives every new bit the value `b`, if `b` is false or the old size
is a multiple of 64 or there is no new bit. Missing: the other cases, see `C37_refuted`. -/
theorem C37_resize_partial {v : Bv} {l : List Bool} (hr : Reachable v) (hc : Contents v l) (n : Nat) (b : Bool)
    (hok : b = false ∨ l.length % 64 = 0 ∨ n ≤ l.length) :
    ∃ v', v.resize n b = .ok v' ∧ Contents v' (resize l n b) :=
  toContents (resized_eq hok) (resize_sim (hr.sim hc) n b)

/-- What `resize` does in all cases: new bits in the old last slot are always false. -/
theorem C37_resize_actual {v : Bv} {l : List Bool} (hr : Reachable v) (hc : Contents v l) (n : Nat) (b : Bool) :
    ∃ v' l', v.resize n b = .ok v' ∧ Contents v' l' ∧ l'.length = n ∧
      ∀ i, i < n → l'[i]? = some (if i < l.length then bitAt l i else b && decide (64 * ((l.length + 63) / 64) ≤ i)) := by
  obtain ⟨v', e1, e2⟩ := resize_sim (hr.sim hc) n b
  refine ⟨v', _, e1, contents_of_sim e2, by unfold resized; simp, fun i hi => ?_⟩
  unfold resized
  simp only [List.getElem?_map, List.getElem?_range, hi, Option.map_some]
  congr 1
  by_cases c : i < l.length
  · rw [if_pos c, if_pos c]; rfl
  · rw [if_neg c, if_neg c]
    by_cases d : 64 * ((l.length + 63) / 64) ≤ i
    · simp [d, show ¬ i < 64 * ((l.length + 63) / 64) by omega]
    · simp [d, show i < 64 * ((l.length + 63) / 64) by omega]

/-- Growing 70 bits to 200 with `true` leaves bits 70 to 127 false. -/
theorem C37_refuted : ∃ v l, Reachable v ∧ Contents v l ∧ ∃ v', v.resize 200 true = .ok v' ∧ ¬ Contents v' (resize l 200 true) ∧
    v'.get 70 = .ok false := by
  refine ⟨exV, exL, exV_reach, exV_contents, { sz := 200, s := [8, 2, ones, 0xff] }, by decide +kernel, ?_, by decide +kernel⟩
  decide +kernel

example : ∃ v l, Reachable v ∧ Contents v l ∧ (66 ≤ l.length ∧ resize l 66 true ≠ l) ∧ resize l 130 false ≠ l :=
  ⟨exV, exL, exV_reach, exV_contents, by decide +kernel⟩

/-! ## C38 Assigning views -/

/-- Between two different vectors. -/
theorem C38_other_vector {v o : Bv} {l lo : List Bool} (hr : Reachable v) (hc : Contents v l) (hro : Reachable o) (hco : Contents o lo)
    {first last ofirst olast : Nat} (h1 : first ≤ last) (h2 : last ≤ l.length) (h3 : ofirst ≤ olast) (h4 : olast ≤ lo.length)
    (h5 : olast - ofirst = last - first) :
    ∃ v', v.assignView first last (some o) ofirst olast = .ok v' ∧ Contents v' (replace l first last (slice lo ofirst olast)) :=
  toContents (copy_replace (lo := lo) h1 h2 h3 h4 h5) (assignView_sim (o := some o) (lo := some lo) (hr.sim hc) (hro.sim hco) h1 h2 h3 h4 h5 (by simp))

/-- Within one vector, if the destination does not start above the source or starts where it ends. Missing: destinations above the
source, see the two refutations. -/
theorem C38_same_vector_partial {v : Bv} {l : List Bool} (hr : Reachable v) (hc : Contents v l) {first last ofirst olast : Nat}
    (h1 : first ≤ last) (h2 : last ≤ l.length) (h3 : ofirst ≤ olast) (h4 : olast ≤ l.length) (h5 : olast - ofirst = last - first)
    (hal : first ≤ ofirst ∨ olast = first) :
    ∃ v', v.assignView first last none ofirst olast = .ok v' ∧ Contents v' (replace l first last (slice l ofirst olast)) :=
  toContents (copy_replace (lo := l) h1 h2 h3 h4 h5) (assignView_sim (o := none) (lo := none) (hr.sim hc) trivial h1 h2 h3 h4 h5 (fun _ => hal))

/-- Destination `[1, 69)`, source `[0, 68)`: bits written first are read later. -/
theorem C38_overlap_refuted : ∃ v l, Reachable v ∧ Contents v l ∧ 69 ≤ l.length ∧
    ∃ v', v.assignView 1 69 none 0 68 = .ok v' ∧ ¬ Contents v' (replace l 1 69 (slice l 0 68)) := by
  have h1 : Bv.create 70 false = .ok { sz := 70, s := [0, 0] } := by decide +kernel
  have h2 : Bv.assignWords { sz := 70, s := [0, 0] } 0 [0x4000000000000000, 0] = .ok { sz := 70, s := [0x4000000000000000, 0] } := by
    decide +kernel
  have r1 := Reach.init.step (op := .create 0 70 false) trivial (by show (do let v ← Bv.create 70 false; _) = _; rw [h1]; rfl)
  have r2 := r1.step (op := .assignWords 0 [0x4000000000000000, 0]) trivial
    (by show (do let v ← Bv.assignWords { sz := 70, s := [0, 0] } 0 [0x4000000000000000, 0]; _) = _; rw [h2]; rfl)
  refine ⟨{ sz := 70, s := [0x4000000000000000, 0] }, (List.range 70).map (· = 62), ⟨_, 0, r2, rfl⟩, by decide +kernel, by decide +kernel, ?_⟩
  exact ⟨{ sz := 70, s := [0x8000000000000000, 1] }, by decide +kernel⟩

/-- Destination `[65, 69)`, source `[3, 7)`: the destination is copied to the source. -/
theorem C38_direction_refuted : ∃ v l, Reachable v ∧ Contents v l ∧ 69 ≤ l.length ∧
    ∃ v', v.assignView 66 69 none 3 6 = .ok v' ∧ Contents v' (replace l 3 6 (slice l 66 69)) ∧
      ¬ Contents v' (replace l 66 69 (slice l 3 6)) := by
  refine ⟨exV, exL, exV_reach, exV_contents, by decide +kernel, { sz := 70, s := [0, 2] }, by decide +kernel⟩

example : ∃ v l, Reachable v ∧ Contents v l ∧ 2 ≤ 66 ∧ 66 ≤ l.length ∧ 3 ≤ 67 ∧ 67 ≤ l.length ∧ 67 - 3 = 66 - 2 ∧ (2 ≤ 3 ∨ 67 = 2) ∧
    slice l 2 66 ≠ slice l 3 67 := ⟨exV, exL, exV_reach, exV_contents, by decide +kernel⟩

/-! ## C52 Boolean operators on views -/

theorem C52_other_vector {v o : Bv} {l lo : List Bool} (hr : Reachable v) (hc : Contents v l) (hro : Reachable o) (hco : Contents o lo)
    {first last ofirst olast : Nat} (h1 : first ≤ last) (h2 : last ≤ l.length) (h3 : ofirst ≤ olast) (h4 : olast ≤ lo.length)
    (h5 : olast - ofirst = last - first) (k : Bv.Bin) :
    ∃ v', v.binAssign first last (some o) ofirst olast k.fn = .ok v' ∧
      Contents v' (replace l first last (List.zipWith (Bin.onBits k) (slice l first last) (slice lo ofirst olast))) :=
  toContents (combine_replace (lo := lo) h1 h2 h3 h4 h5)
    (binAssign_sim (o := some o) (lo := some lo) (hr.sim hc) (hro.sim hco) h1 h2 h3 h4 h5 (by simp) (bin_bitwise k))

/-- Two views of one vector. Missing: the destination starts inside the source, see the refutation. -/
theorem C52_same_vector_partial {v : Bv} {l : List Bool} (hr : Reachable v) (hc : Contents v l) {first last ofirst olast : Nat}
    (h1 : first ≤ last) (h2 : last ≤ l.length) (h3 : ofirst ≤ olast) (h4 : olast ≤ l.length) (h5 : olast - ofirst = last - first)
    (hal : first ≤ ofirst ∨ olast ≤ first) (k : Bv.Bin) :
    ∃ v', v.binAssign first last none ofirst olast k.fn = .ok v' ∧
      Contents v' (replace l first last (List.zipWith (Bin.onBits k) (slice l first last) (slice l ofirst olast))) :=
  toContents (combine_replace (lo := l) h1 h2 h3 h4 h5)
    (binAssign_sim (o := none) (lo := none) (hr.sim hc) trivial h1 h2 h3 h4 h5 (fun _ => hal) (bin_bitwise k))

/-- `view(1, 69) |= view(0, 68)` with bits 62 set: bits written first are read later. -/
theorem C52_overlap_refuted : ∃ v l, Reachable v ∧ Contents v l ∧ 69 ≤ l.length ∧
    ∃ v', v.binAssign 1 69 none 0 68 Bv.Bin.or.fn = .ok v' ∧
      ¬ Contents v' (replace l 1 69 (List.zipWith (· || ·) (slice l 1 69) (slice l 0 68))) := by
  have h1 : Bv.create 70 false = .ok { sz := 70, s := [0, 0] } := by decide +kernel
  have h2 : Bv.assignWords { sz := 70, s := [0, 0] } 0 [0x4000000000000000, 0] = .ok { sz := 70, s := [0x4000000000000000, 0] } := by
    decide +kernel
  have r1 := Reach.init.step (op := .create 0 70 false) trivial (by show (do let v ← Bv.create 70 false; _) = _; rw [h1]; rfl)
  have r2 := r1.step (op := .assignWords 0 [0x4000000000000000, 0]) trivial
    (by show (do let v ← Bv.assignWords { sz := 70, s := [0, 0] } 0 [0x4000000000000000, 0]; _) = _; rw [h2]; rfl)
  refine ⟨{ sz := 70, s := [0x4000000000000000, 0] }, (List.range 70).map (· = 62), ⟨_, 0, r2, rfl⟩, by decide +kernel, by decide +kernel, ?_⟩
  exact ⟨{ sz := 70, s := [0xc000000000000000, 1] }, by decide +kernel⟩

/-! ## C53 Assigning integers -/

/-- A vector made from words holds their binary digits, lowest first. -/
theorem C53_new (ws : List Word) : ∃ v, Bv.ofWords ws = .ok v ∧ Contents v (wordsBits ws) :=
  toContents (words_new ws) (ofWords_sim ws)

/-- `v = {w0, w1, ...}` writes as many digits as fit. -/
theorem C53_vector {v : Bv} {l : List Bool} (hr : Reachable v) (hc : Contents v l) (ws : List Word) :
    ∃ v', v.assignWords 0 ws = .ok v' ∧ Contents v' (replace l 0 (min l.length (64 * ws.length)) ((wordsBits ws).take l.length)) :=
  toContents (words_all ws) (assignWords_sim ws (hr.sim hc) 0)

/-- `view = w` writes the low digits of `w`, if the view is inside one slot. Missing: other views, see the refutation. -/
theorem C53_view_word_partial {v : Bv} {l : List Bool} (hr : Reachable v) (hc : Contents v l) {first last : Nat} (h1 : first ≤ last)
    (h2 : last ≤ l.length) (hs : last = first ∨ first / 64 = (last - 1) / 64) (w : Word) :
    ∃ v', v.assignWord first last w = .ok v' ∧ Contents v' (replace l first last ((wordBits w).take (last - first))) :=
  toContents (word_replace h1 h2 (by omega) w) (assignWord_sim (hr.sim hc) h1 h2 hs w)

/-- `view = w` on any view of at most 64 bits that touches two slots shifts by a negative amount. -/
theorem C53_view_word_refuted {v : Bv} {l : List Bool} (hr : Reachable v) (hc : Contents v l) {first last : Nat} (h1 : first < last)
    (h2 : last ≤ l.length) (h3 : last - first ≤ 64) (hs : first / 64 ≠ (last - 1) / 64) (w : Word) :
    v.assignWord first last w = .ub := assignWord_ub (hr.sim hc) h1 h2 h3 hs w

/-- `view = {w0, w1, ...}` writes as many digits as fit, if the view starts at a slot boundary or is inside one slot. -/
theorem C53_view_words_partial {v : Bv} {l : List Bool} (hr : Reachable v) (hc : Contents v l) {first last : Nat} (h1 : first ≤ last)
    (h2 : last ≤ l.length) (hs : first % 64 = 0 ∨ first / 64 = (last - 1) / 64 ∨ first = last) (ws : List Word) :
    ∃ v', v.viewAssignWords last first ws = .ok v' ∧
      Contents v' (replace l first (min last (first + 64 * ws.length)) ((wordsBits ws).take (last - first))) :=
  toContents (words_replace h1 h2 ws) (viewAssignWords_sim ws (hr.sim hc) h1 h2 hs)

example : ∃ v l, Reachable v ∧ Contents v l ∧ (65 ≤ 70 ∧ 70 ≤ l.length ∧ 65 / 64 = (70 - 1) / 64) ∧
    (60 < 70 ∧ 70 - 60 ≤ 64 ∧ 60 / 64 ≠ (70 - 1) / 64) := ⟨exV, exL, exV_reach, exV_contents, by decide +kernel⟩

/-! ## C54 Conversions -/

/-- `to_string()` lists the bits, highest first. -/
theorem C54_to_string {v : Bv} {l : List Bool} (hr : Reachable v) (hc : Contents v l) : v.toStringBits v.sz = .ok l.reverse := by
  have h := hr.sim hc
  rw [h.sz, toStringBits_sim h _ (Nat.le_refl _), List.take_length]

/-- `to_ullong()` is the number the lowest 64 bits write. -/
theorem C54_to_ullong {v : Bv} {l : List Bool} (hr : Reachable v) (hc : Contents v l) : v.toUllong = .ok (value (l.take 64)) :=
  toUllong_sim (hr.sim hc)

/-- A view prints as `0x` and two hexadecimal digits for each started group of eight bits, or as `<empty>`. -/
theorem C54_hex {v : Bv} {l : List Bool} (hr : Reachable v) (hc : Contents v l) {first last : Nat} (h1 : first ≤ last)
    (h2 : last ≤ l.length) : v.viewString first last = .ok (hexString (slice l first last)) := viewString_sim (hr.sim hc) h1 h2

example : ∃ v l, Reachable v ∧ Contents v l ∧ hexString (slice l 2 67) = "0x008000000000000002".toList ∧ value (l.take 64) = 8 :=
  ⟨exV, exL, exV_reach, exV_contents, by decide +kernel⟩

/-! ## C55 Histories -/

/-- The specification of a program: lists of bits. -/
abbrev Lists := Nat → List Bool

def Lists.put (w : Lists) (x : Nat) (l : List Bool) : Lists := fun y => if y = x then l else w y

/-- The effect of a call on lists of bits. -/
def Op.spec (w : Lists) : Op → Lists
  | .create x n b => w.put x (List.replicate n b)
  | .ofWords x ws => w.put x (wordsBits ws)
  | .assignWords x ws => w.put x (replace (w x) 0 (min (w x).length (64 * ws.length)) ((wordsBits ws).take (w x).length))
  | .copy x y => w.put x (w y)
  | .swap x y => (w.put x (w y)).put y (w x)
  | .resize x n b => w.put x (Spec.Bits.resize (w x) n b)
  | .setTo x i b => w.put x ((w x).set i b)
  | .flip x i => w.put x ((w x).set i (!bitAt (w x) i))
  | .setAll x b => w.put x (List.replicate (w x).length b)
  | .flipAll x => w.put x ((w x).map (! ·))
  | .viewFill x first last b => w.put x (replace (w x) first last (List.replicate (last - first) b))
  | .viewFlip x first last => w.put x (replace (w x) first last ((slice (w x) first last).map (! ·)))
  | .bin k x first last y ofirst olast =>
    w.put x (replace (w x) first last (List.zipWith (Bin.onBits k) (slice (w x) first last) (slice (w y) ofirst olast)))
  | .assignView x first last y ofirst olast => w.put x (replace (w x) first last (slice (w y) ofirst olast))
  | .assignWord x first last val => w.put x (replace (w x) first last ((wordBits val).take (last - first)))
  | .viewWords x first last ws => w.put x (replace (w x) first (min last (first + 64 * ws.length)) ((wordsBits ws).take (last - first)))
  | .shl x first last n => w.put x (replace (w x) first last (shiftDown n (slice (w x) first last)))
  | .shr x first last n => w.put x (replace (w x) first last (shiftUp n (slice (w x) first last)))

/-- The assertions of the code hold and the call is not one of those the `_refuted` theorems are about. -/
def Op.Clean (w : Lists) : Op → Prop
  | .create .. => True
  | .ofWords .. => True
  | .assignWords .. => True
  | .copy .. => True
  | .swap .. => True
  | .resize x n b => b = false ∨ (w x).length % 64 = 0 ∨ n ≤ (w x).length
  | .setTo x i _ => i < (w x).length
  | .flip x i => i < (w x).length
  | .setAll x _ => w x ≠ []
  | .flipAll .. => True
  | .viewFill x first last _ => first ≤ last ∧ last ≤ (w x).length
  | .viewFlip x first last => first ≤ last ∧ last ≤ (w x).length
  | .bin _ x first last y ofirst olast =>
    first ≤ last ∧ last ≤ (w x).length ∧ ofirst ≤ olast ∧ olast ≤ (w y).length ∧ olast - ofirst = last - first ∧
      (x = y → first ≤ ofirst ∨ olast ≤ first)
  | .assignView x first last y ofirst olast =>
    first ≤ last ∧ last ≤ (w x).length ∧ ofirst ≤ olast ∧ olast ≤ (w y).length ∧ olast - ofirst = last - first ∧
      (x = y → first ≤ ofirst ∨ olast = first)
  | .assignWord x first last _ => first ≤ last ∧ last ≤ (w x).length ∧ (last = first ∨ first / 64 = (last - 1) / 64)
  | .viewWords x first last _ =>
    first ≤ last ∧ last ≤ (w x).length ∧ (first % 64 = 0 ∨ first / 64 = (last - 1) / 64 ∨ first = last)
  | .shl x first last _ => first ≤ last ∧ last ≤ (w x).length
  | .shr x first last _ => first ≤ last ∧ last ≤ (w x).length

/-- A history of the code and of the specification. -/
def runAll (w : World) : List Op → Res World
  | [] => .ok w
  | op :: ops => do
    let w ← op.run w
    runAll w ops

def specAll (w : Lists) : List Op → Lists
  | [] => w
  | op :: ops => specAll (op.spec w) ops

def CleanAll (w : Lists) : List Op → Prop
  | [] => True
  | op :: ops => op.Clean w ∧ CleanAll (op.spec w) ops

theorem put_sim {w : World} {L : Lists} (h : ∀ x, Sim (w x) (L x)) {r : Res Bv} {x : Nat} {l l' : List Bool} (e : l = l')
    (hr : ∃ v, r = .ok v ∧ Sim v l) :
    ∃ w', (do let v ← r; Res.ok (w.put x v)) = .ok w' ∧ ∀ y, Sim (w' y) (L.put x l' y) := by
  obtain ⟨v, e1, e2⟩ := hr
  subst e
  refine ⟨w.put x v, by rw [e1]; rfl, fun y => ?_⟩
  unfold World.put Lists.put
  split
  · exact e2
  · exact h y

theorem other_sim {w : World} {L : Lists} (h : ∀ x, Sim (w x) (L x)) (x y : Nat) :
    SimO (L x) (other w x y) (if x = y then none else some (L y)) ∧ srcBits (L x) (if x = y then none else some (L y)) = L y := by
  unfold other
  by_cases c : x = y
  · rw [if_pos c, if_pos c]; exact ⟨trivial, by subst c; rfl⟩
  · rw [if_neg c, if_neg c]; exact ⟨h y, rfl⟩

theorem step_sim {w : World} {L : Lists} (h : ∀ x, Sim (w x) (L x)) {op : Op} (hc : op.Clean L) :
    ∃ w', op.run w = .ok w' ∧ ∀ x, Sim (w' x) (op.spec L x) := by
  cases op with
  | create x n b => exact put_sim h rfl (create_sim n b)
  | ofWords x ws => exact put_sim h (words_new ws) (ofWords_sim ws)
  | assignWords x ws => exact put_sim h (words_all ws) (assignWords_sim ws (h x) 0)
  | copy x y =>
    refine ⟨_, rfl, fun z => ?_⟩
    simp only [World.put, Op.spec, Lists.put]
    split <;> exact h _
  | swap x y =>
    refine ⟨_, rfl, fun z => ?_⟩
    simp only [World.put, Op.spec, Lists.put]
    split
    · exact h _
    · split <;> exact h _
  | resize x n b => exact put_sim h (resized_eq hc) (resize_sim (h x) n b)
  | setTo x i b => exact put_sim h rfl (setTo_sim (h x) hc b)
  | flip x i => exact put_sim h rfl (flip_sim (h x) hc)
  | setAll x b => exact put_sim h (List.map_const') (fill_sim (h x) hc b)
  | flipAll x => exact put_sim h rfl (flipAll_sim (h x))
  | viewFill x first last b => exact put_sim h (fill_replace hc.1 hc.2 b) (viewFill_sim (h x) hc.1 hc.2 b)
  | viewFlip x first last => exact put_sim h (flip_replace hc.1 hc.2) (viewFlip_sim (h x) hc.1 hc.2)
  | bin k x first last y ofirst olast =>
    obtain ⟨h1, h2, h3, h4, h5, h6⟩ := hc
    obtain ⟨a, b⟩ := other_sim h x y
    exact put_sim h (by rw [b]; exact combine_replace h1 h2 h3 h4 h5) (binAssign_sim (h x) a h1 h2 h3 (by rw [b]; exact h4) h5
      (fun e => h6 (by by_contra hne; simp [other, hne] at e)) (bin_bitwise k))
  | assignView x first last y ofirst olast =>
    obtain ⟨h1, h2, h3, h4, h5, h6⟩ := hc
    obtain ⟨a, b⟩ := other_sim h x y
    exact put_sim h (by rw [b]; exact copy_replace h1 h2 h3 h4 h5) (assignView_sim (h x) a h1 h2 h3 (by rw [b]; exact h4) h5
      (fun e => h6 (by by_contra hne; simp [other, hne] at e)))
  | assignWord x first last val =>
    obtain ⟨h1, h2, h3⟩ := hc
    exact put_sim h (word_replace h1 h2 (by omega) val) (assignWord_sim (h x) h1 h2 h3 val)
  | viewWords x first last ws =>
    obtain ⟨h1, h2, h3⟩ := hc
    exact put_sim h (words_replace h1 h2 ws) (viewAssignWords_sim ws (h x) h1 h2 h3)
  | shl x first last n => exact put_sim h (down_replace hc.1 hc.2 n) (shl_sim (h x) hc.1 hc.2 n)
  | shr x first last n => exact put_sim h (up_replace hc.1 hc.2 n) (shr_sim (h x) hc.1 hc.2 n)

theorem run_sim : ∀ (ops : List Op) {w : World} {L : Lists} (_ : ∀ x, Sim (w x) (L x)) (_ : CleanAll L ops),
    ∃ w', runAll w ops = .ok w' ∧ ∀ x, Sim (w' x) (specAll L ops x)
  | [], w, _, h, _ => ⟨w, rfl, h⟩
  | op :: ops, w, L, h, hc => by
    obtain ⟨w1, e1, e2⟩ := step_sim h hc.1
    obtain ⟨w2, e3, e4⟩ := run_sim ops e2 hc.2
    exact ⟨w2, by unfold runAll; rw [e1]; exact e3, e4⟩

/-- Any history of calls on any number of vectors has defined behaviour and leaves in each vector the bits the specification
says. Missing: the calls excluded by `Clean`. -/
theorem C55_history_partial (ops : List Op) (hc : CleanAll (fun _ => []) ops) :
    ∃ w, runAll (fun _ => { sz := 0, s := [] }) ops = .ok w ∧ ∀ x, Contents (w x) (specAll (fun _ => []) ops x) := by
  obtain ⟨w, e1, e2⟩ := run_sim ops (w := fun _ => { sz := 0, s := [] }) (L := fun _ => []) (fun _ => empty_sim) hc
  exact ⟨w, e1, fun x => contents_of_sim (e2 x)⟩

example : CleanAll (fun _ => []) [.create 0 70 false, .setTo 0 65 true, .copy 1 0, .shl 1 3 70 5, .bin .xor 0 1 66 1 2 67,
    .assignView 0 2 66 0 3 67, .resize 0 200 false, .setAll 1 true] := by
  simp [CleanAll, Op.Clean, Op.spec, Lists.put, replace, slice, shiftDown]

end Gtl.Props.Bits
