import Verif.Base.Res
/-!
# Model of `gtl::bit_vector` and `gtl::bit_view` (bit_vector.hpp)

`size_t` is modelled by `Nat`: sizes and indices are assumed to stay below `2^64 - 64`, so that `n + 63` and
`idx + _first` do not wrap. Reading or writing a slot outside of the slot array is undefined behaviour, as is a shift by a
negative count. Assertions are compiled out (`NDEBUG`).
-/

namespace Gtl.Bits

/-- A word of the storage, `uint64_t` (bit_vector.hpp:28-37). -/
abbrev Word := BitVec 64

/-- `mod` (bit_vector.hpp:31). -/
def mod (n : Nat) : Nat := n &&& 0x3f

/-- `slot` (bit_vector.hpp:32). -/
def slot (n : Nat) : Nat := n >>> 6

/-- `slot_cnt` (bit_vector.hpp:33). -/
def slotCnt (n : Nat) : Nat := slot (n + 63)

/-- `ones` (bit_vector.hpp:29). -/
def ones : Word := -1

/-- `bitmask` (bit_vector.hpp:36). -/
def bitmask (n : Nat) : Word := 1#64 <<< mod n

/-- `lowmask` (bit_vector.hpp:39). -/
def lowmask (n : Nat) : Word := bitmask n - 1

/-- `himask` (bit_vector.hpp:42). -/
def himask (n : Nat) : Word := ~~~ lowmask n

/-- `_popcount64` (bit_vector.hpp:44-49). -/
def popcount64 (y : Word) : Nat :=
  let y := y - ((y >>> 1) &&& 0x5555555555555555)
  let y := (y &&& 0x3333333333333333) + ((y >>> 2) &&& 0x3333333333333333)
  ((((y + (y >>> 4)) &&& 0xf0f0f0f0f0f0f0f) * 0x101010101010101) >>> 56).toNat

/-- The table in `countr_zero` (bit_vector.hpp:53-56). -/
def index64 : List Nat :=
  [0,  47, 1,  56, 48, 27, 2,  60, 57, 49, 41, 37, 28, 16, 3,  61,
   54, 58, 35, 52, 50, 42, 21, 44, 38, 32, 29, 23, 17, 11, 4,  62,
   46, 55, 26, 59, 40, 36, 15, 53, 34, 51, 20, 43, 31, 22, 10, 45,
   25, 39, 14, 33, 19, 30, 9,  24, 13, 18, 8,  12, 7,  6,  5,  63]

/-- `countr_zero` (bit_vector.hpp:52-60). -/
def countrZero (bb : Word) : Res Nat :=
  Res.ofOption index64[(((bb ^^^ (bb - 1)) * 0x03f79d71b4cb0a89) >>> 58).toNat]?

/-- A bit vector: `_sz` and the slots. `vec` (bit_vector.hpp:762-1033) and the `storage` inside it (75-371) each have a
`_sz`; they are always set together and are modelled once. -/
structure Bv where
  sz : Nat
  s : List Word
  deriving DecidableEq, Repr

/-- `_s[i]`, read. -/
def ld (s : List Word) (i : Nat) : Res Word := Res.ofOption s[i]?

/-- `_s[i] = w`. -/
def st (s : List Word) (i : Nat) (w : Word) : Res (List Word) := if i < s.length then .ok (s.set i w) else .ub

/-- `std::vector::resize(n, w)`. -/
def resizeList (s : List Word) (n : Nat) (w : Word) : List Word := s.take n ++ List.replicate (n - s.length) w

/-- `storage::resize` (bit_vector.hpp:82-89). -/
def Bv.resize (v : Bv) (n : Nat) (val : Bool) : Res Bv := do
  let s := resizeList v.s (slotCnt n) (if val then ones else 0)
  if mod n ≠ 0 then do
    let w ← ld s (slotCnt n - 1)
    let s ← st s (slotCnt n - 1) (w &&& ~~~ himask n)
    .ok { sz := n, s := s }
  else .ok { sz := n, s := s }

/-- Constructor `vec(sz, val)` (bit_vector.hpp:768-770, 78). -/
def Bv.create (n : Nat) (val : Bool) : Res Bv := Bv.resize { sz := 0, s := [] } n val

/-! ## `bit_sequence` (bit_vector.hpp:101-159) -/

/-- The state of a `bit_sequence`: `_cur`, `_last`, `_init_lg`, `_shift` (bit_vector.hpp:153-158). -/
structure Seq where
  cur : Nat
  last : Nat
  initLg : Nat
  shift : Nat

/-- Constructor (bit_vector.hpp:103-116). -/
def mkSeq (first last asFirst : Nat) : Seq :=
  { cur := first, last := last, initLg := mod (64 - mod asFirst), shift := mod asFirst }

/-- `get_next_bits` (bit_vector.hpp:130-151); `src` is the storage the sequence reads. -/
def getNextBits (src : List Word) (q : Seq) (lg : Nat) : Res (Seq × Word) := do
  let lg := min lg (q.last - q.cur)
  let idx := slot q.cur
  let offset := mod q.cur
  let v ←
    if lg = 64 ∧ offset = 0 then ld src idx
    else if lg ≤ 64 - offset then do
      let x ← ld src idx
      Res.ok ((x &&& (if mod (q.cur + lg) = 0 then ones else lowmask (q.cur + lg))) >>> offset)
    else do
      let x ← ld src idx
      let y ← ld src (idx + 1)
      Res.ok ((x >>> offset) ||| ((y &&& lowmask (lg - (64 - offset))) <<< (64 - offset)))
  .ok ({ q with cur := q.cur + lg }, v)

/-- `operator()` (bit_vector.hpp:118-126). -/
def Seq.next (src : List Word) (q : Seq) : Res (Seq × Word) :=
  if q.initLg ≠ 0 then do
    let (q', v) ← getNextBits src q q.initLg
    .ok ({ q' with initLg := 0 }, v <<< q.shift)
  else getNextBits src q 64

/-! ## Visitors (bit_vector.hpp:163-353) -/

/-- `update_bit<true>` / `update_bit<false>` (bit_vector.hpp:173-186). -/
def Bv.updateBit (v : Bv) (val : Bool) (idx : Nat) : Res Bv := do
  let x ← ld v.s (slot idx)
  let m := bitmask idx
  let old := x &&& m ≠ 0
  if val then
    if ¬ old then do
      let s ← st v.s (slot idx) (x ||| m)
      .ok { v with s := s }
    else .ok v
  else
    if old then do
      let s ← st v.s (slot idx) (x &&& ~~~ m)
      .ok { v with s := s }
    else .ok v

/-- `update_bit(idx, f)` (bit_vector.hpp:163-171). -/
def Bv.updateBitF (v : Bv) (idx : Nat) (f : Word → Word) : Res Bv := do
  let x ← ld v.s (slot idx)
  let m := bitmask idx
  let s ← st v.s (slot idx) ((x &&& ~~~ m) ||| (f x &&& m))
  .ok { v with s := s }

variable {τ : Type}

/-- A callback of `visit` that returns a new slot value. It sees the storage as it is at that moment (a `bit_sequence` may
read it), its own state, the slot and the shift. -/
abbrev Upd (τ : Type) := List Word → τ → Word → Int → Res (τ × Word)

/-- A partially covered slot: `m` has ones on the bits that must not change (bit_vector.hpp:211-221, 227-236, 255-264,
270-279, 299-306). `vt::oor_ones` is never used when updating. -/
def updMasked (f : Upd τ) (i : Nat) (m : Word) (shift : Int) (s : List Word) (t : τ) : Res (List Word × τ) := do
  let v ← ld s i
  let (t, fs) ← f s t (v &&& ~~~ m) shift
  if v ≠ fs then do
    let s ← st s i ((v &&& m) ||| (fs &&& ~~~ m))
    .ok (s, t)
  else .ok (s, t)

/-- A full slot (bit_vector.hpp:243-249, 288-294). -/
def updFull (f : Upd τ) (i : Nat) (s : List Word) (t : τ) : Res (List Word × τ) := do
  let v ← ld s i
  let (t, fs) ← f s t v 0
  if v ≠ fs then do
    let s ← st s i fs
    .ok (s, t)
  else .ok (s, t)

/-- Loop over full slots, upwards (bit_vector.hpp:242-250); `n` slots from `i` on. -/
def fullUp (f : Upd τ) : Nat → Nat → List Word → τ → Res (List Word × τ)
  | 0, _, s, t => .ok (s, t)
  | n + 1, i, s, t => do
    let (s, t) ← updFull f i s t
    fullUp f n (i + 1) s t

/-- Loop over full slots, downwards (bit_vector.hpp:287-295); `n` slots from `i` on. -/
def fullDown (f : Upd τ) : Nat → Nat → List Word → τ → Res (List Word × τ)
  | 0, _, s, t => .ok (s, t)
  | n + 1, i, s, t => do
    let (s, t) ← updFull f i s t
    fullDown f n (i - 1) s t

/-- `visit<none>` and `visit<none | backward>` (bit_vector.hpp:202-312). -/
def visit (backward : Bool) (first last : Nat) (f : Upd τ) (s : List Word) (t : τ) : Res (List Word × τ) :=
  if last ≤ first then .ok (s, t)
  else
    let firstSlot := slot first
    let lastSlot := slot last
    let shift := mod first
    if firstSlot = lastSlot then
      updMasked f firstSlot (~~~ (lowmask first ^^^ lowmask last)) (shift : Int) s t
    else if ¬ backward then do
      let (firstSlot, s, t) ← (if shift ≠ 0 then do
          let (s, t) ← updMasked f firstSlot (lowmask first) (shift : Int) s t
          Res.ok (firstSlot + 1, s, t)
        else Res.ok (firstSlot, s, t))
      let (s, t) ← fullUp f (lastSlot - firstSlot) firstSlot s t
      if mod last ≠ 0 then updMasked f lastSlot (himask last) (-(shift : Int)) s t
      else .ok (s, t)
    else do
      let (s, t) ← (if mod last ≠ 0 then updMasked f lastSlot (himask last) (-(shift : Int)) s t
        else Res.ok (s, t))
      let lastSlot := lastSlot - 1
      let (s, t) ← fullDown f (lastSlot - firstSlot) lastSlot s t
      updMasked f firstSlot (lowmask first) (shift : Int) s t

/-- A callback that only looks; `true` stops the visit. -/
abbrev Look (τ : Type) := τ → Word → Int → Res (τ × Bool)

/-- `oor_bits` (bit_vector.hpp:188-194). -/
def oorBits (ones : Bool) (s m : Word) : Word := if ones then s ||| m else s &&& ~~~ m

/-- One partial slot: the callback sees it with the bits outside the view set or cleared (bit_vector.hpp:188-194, 215-240). -/
def lookMasked (oor : Bool) (f : Look τ) (i : Nat) (m : Word) (shift : Int) (s : List Word) (t : τ) : Res (τ × Bool) := do
  let v ← ld s i
  f t (oorBits oor v m) shift

/-- Loop over full slots with early exit (bit_vector.hpp:242-250). -/
def lookUp (f : Look τ) (s : List Word) : Nat → Nat → τ → Res (τ × Bool)
  | 0, _, t => .ok (t, false)
  | n + 1, i, t => do
    let v ← ld s i
    let (t, stop) ← f t v 0
    if stop then .ok (t, true) else lookUp f s n (i + 1) t

/-- `visit<view>` and `visit<view | oor_ones>` (bit_vector.hpp:202-265). -/
def visitV (oor : Bool) (first last : Nat) (f : Look τ) (s : List Word) (t : τ) : Res τ :=
  if last ≤ first then .ok t
  else
    let firstSlot := slot first
    let lastSlot := slot last
    let shift := mod first
    if firstSlot = lastSlot then do
      let (t, _) ← lookMasked oor f firstSlot (~~~ (lowmask first ^^^ lowmask last)) (shift : Int) s t
      .ok t
    else do
      let (firstSlot, t, stop) ← (if shift ≠ 0 then do
          let (t, stop) ← lookMasked oor f firstSlot (lowmask first) (shift : Int) s t
          Res.ok (firstSlot + 1, t, stop)
        else Res.ok (firstSlot, t, false))
      if stop then .ok t
      else do
        let (t, stop) ← lookUp f s (lastSlot - firstSlot) firstSlot t
        if stop then .ok t
        else if mod last ≠ 0 then do
          let (t, _) ← lookMasked oor f lastSlot (himask last) (-(shift : Int)) s t
          .ok t
        else .ok t

/-- `visit_all<true_>` and `visit_all<false_>` (bit_vector.hpp:318-329). `&_s[0]` is undefined if there is no slot. -/
def Bv.fill (v : Bv) (val : Bool) : Res Bv := do
  let n := slotCnt v.sz
  let _ ← ld v.s 0
  let s := List.replicate n (if val then ones else 0) ++ v.s.drop n
  if val ∧ mod v.sz ≠ 0 then do
    let w ← ld s (n - 1)
    let s ← st s (n - 1) (w &&& ~~~ himask v.sz)
    .ok { v with s := s }
  else .ok { v with s := s }

/-- `visit_all<none>` with a stateless callback (bit_vector.hpp:330-351). -/
def Bv.mapAll (v : Bv) (f : Word → Word) : Res Bv :=
  let n := slotCnt v.sz
  if n = 0 then .ok v
  else do
    let (s, _) ← fullUp (fun _ t w _ => .ok (t, f w)) (n - 1) 0 v.s ()
    let m := if mod v.sz ≠ 0 then himask v.sz else 0
    let w ← ld s (n - 1)
    let fs := f (w &&& ~~~ m)
    if w ≠ fs then do
      let s ← st s (n - 1) (fs &&& ~~~ m)
      .ok { v with s := s }
    else .ok { v with s := s }

/-- `visit_all<view>` and `visit_all<view | oor_ones>` (bit_vector.hpp:330-351); no shift is passed. -/
def Bv.lookAll (v : Bv) (oor : Bool) (f : Look τ) (t : τ) : Res τ :=
  let n := slotCnt v.sz
  if n = 0 then .ok t
  else do
    let (t, stop) ← lookUp f v.s (n - 1) 0 t
    if stop then .ok t
    else do
      let m := if mod v.sz ≠ 0 then himask v.sz else 0
      let (t, _) ← lookMasked oor f (n - 1) m 0 v.s t
      .ok t

/-! ## `vec` (bit_vector.hpp:762-1033) -/

namespace Bv

/-- `operator[]` (bit_vector.hpp:797). -/
def get (v : Bv) (i : Nat) : Res Bool := do
  let w ← ld v.s (slot i)
  .ok (decide (w &&& bitmask i ≠ 0))

/-- `set(idx)`, `reset(idx)`, `set(idx, val)` (bit_vector.hpp:784-791, 800-806). -/
def setTo (v : Bv) (i : Nat) (b : Bool) : Res Bv := v.updateBit b i

/-- `flip(idx)` (bit_vector.hpp:792-795). -/
def flip (v : Bv) (i : Nat) : Res Bv := v.updateBitF i (~~~ ·)

/-- `set()`, `reset()` (bit_vector.hpp:810-817). -/
def setAll (v : Bv) (b : Bool) : Res Bv := v.fill b

/-- `flip()`, `operator~` (bit_vector.hpp:818-821, 848-852). -/
def flipAll (v : Bv) : Res Bv := v.mapAll (~~~ ·)

/-! ### Views: a vector and a range `[first, last)` (bit_vector.hpp:377-756) -/

/-- `visit` on the storage of the vector. -/
def visit (v : Bv) (backward : Bool) (first last : Nat) (f : Upd τ) (t : τ) : Res Bv := do
  let (s, _) ← Bits.visit backward first last f v.s t
  .ok { v with s := s }

/-- `view.set()`, `view.reset()` (bit_vector.hpp:418-426). -/
def viewFill (v : Bv) (first last : Nat) (b : Bool) : Res Bv :=
  v.visit false first last (fun _ t _ _ => .ok (t, if b then ones else 0)) ()

/-- `view.flip()` (bit_vector.hpp:428-431). -/
def viewFlip (v : Bv) (first last : Nat) : Res Bv :=
  v.visit false first last (fun _ t w _ => .ok (t, ~~~ w)) ()

/-- The storage the source of a two-view operation is in: `none` if it is the destination itself. -/
def source (o : Option Bv) (s : List Word) : List Word :=
  match o with
  | none => s
  | some o => o.s

/-- `bin_assign` with a `bit_sequence` over the source view (bit_vector.hpp:435-441 and the lambdas in 443-466). -/
def binAssign (v : Bv) (first last : Nat) (o : Option Bv) (ofirst olast : Nat) (g : Word → Word → Word) : Res Bv :=
  v.visit false first last (fun s q w _ => do
    let (q, x) ← q.next (source o s)
    .ok (q, g w x)) (mkSeq ofirst olast first)

/-- `operator|=`, `&=`, `^=`, `-=`, `or_not` (bit_vector.hpp:443-466). -/
inductive Bin where
  | or | and | xor | sub | orNot
  deriving DecidableEq, Repr

/-- What the operators do with two words (bit_vector.hpp:443-466). -/
def Bin.fn : Bin → Word → Word → Word
  | .or, a, b => a ||| b
  | .and, a, b => a &&& b
  | .xor, a, b => a ^^^ b
  | .sub, a, b => a &&& ~~~ b
  | .orNot, a, b => a ||| ~~~ b

/-- The two branches of `operator<<=` for `cnt <= 64` (bit_vector.hpp:474-487). -/
def shlStep (v : Bv) (first last cnt : Nat) : Res Bv :=
  if cnt = 64 then v.visit true first last (fun _ c w _ => .ok (w, c)) (0 : Word)
  else v.visit true first last (fun _ c w _ => .ok (w <<< (64 - cnt), (w >>> cnt) ||| c)) (0 : Word)

/-- The `while` loop of `operator<<=` (bit_vector.hpp:488-494); each round is `*this <<= shift`, which starts with the
test `cnt >= size()` (471). -/
def shlLoop (v : Bv) (first last : Nat) : Nat → Nat → Res Bv
  | 0, _ => .hang
  | n + 1, cnt =>
    if cnt = 0 then .ok v
    else do
      let shift := min cnt 64
      let v ← if shift ≥ last - first then v.viewFill first last false else v.shlStep first last shift
      shlLoop v first last n (cnt - shift)

/-- `operator<<=` (bit_vector.hpp:470-497). -/
def shl (v : Bv) (first last cnt : Nat) : Res Bv :=
  if cnt ≥ last - first then v.viewFill first last false
  else if cnt = 0 then .ok v
  else if cnt ≤ 64 then v.shlStep first last cnt
  else v.shlLoop first last (cnt + 1) cnt

/-- The two branches of `operator>>=` for `cnt <= 64` (bit_vector.hpp:503-516). -/
def shrStep (v : Bv) (first last cnt : Nat) : Res Bv :=
  if cnt = 64 then v.visit false first last (fun _ c w _ => .ok (w, c)) (0 : Word)
  else v.visit false first last (fun _ c w _ => .ok (w >>> (64 - cnt), (w <<< cnt) ||| c)) (0 : Word)

/-- The `while` loop of `operator>>=` (bit_vector.hpp:517-523). -/
def shrLoop (v : Bv) (first last : Nat) : Nat → Nat → Res Bv
  | 0, _ => .hang
  | n + 1, cnt =>
    if cnt = 0 then .ok v
    else do
      let shift := min cnt 64
      let v ← if shift ≥ last - first then v.viewFill first last false else v.shrStep first last shift
      shrLoop v first last n (cnt - shift)

/-- `operator>>=` (bit_vector.hpp:499-526). -/
def shr (v : Bv) (first last cnt : Nat) : Res Bv :=
  if cnt ≥ last - first then v.viewFill first last false
  else if cnt = 0 then .ok v
  else if cnt ≤ 64 then v.shrStep first last cnt
  else v.shrLoop first last (cnt + 1) cnt

/-- `view = uint64_t` (bit_vector.hpp:530-536). A negative shift count is undefined. -/
def assignWord (v : Bv) (first last : Nat) (val : Word) : Res Bv :=
  v.visit false first last (fun _ t _ shl => if 0 ≤ shl then .ok (t, val <<< shl.toNat) else .ub) ()

/-- `view = {w0, w1, ...}` (bit_vector.hpp:538-548). -/
def viewAssignWords (v : Bv) (last : Nat) : Nat → List Word → Res Bv
  | _, [] => .ok v
  | start, w :: ws =>
    if start ≤ last then do
      let e := min last (start + 64)
      let v ← v.assignWord start e w
      viewAssignWords v last e ws
    else .ok v

/-- `vec = {w0, w1, ...}` (bit_vector.hpp:889-895). -/
def assignWords (v : Bv) : Nat → List Word → Res Bv
  | _, [] => .ok v
  | i, w :: ws => do
    let v ← v.assignWord (i * 64) (min ((i + 1) * 64) v.sz) w
    assignWords v (i + 1) ws

/-- Constructor from words (bit_vector.hpp:772-775). -/
def ofWords (ws : List Word) : Res Bv := do
  let v ← create (ws.length * 64) false
  v.assignWords 0 ws

/-- `view = view` between different vectors, or within one vector when this branch is taken (bit_vector.hpp:552-554). -/
def copyView (v : Bv) (first last : Nat) (o : Option Bv) (ofirst olast : Nat) : Res Bv :=
  v.visit false first last (fun s q _ _ => q.next (source o s)) (mkSeq ofirst olast first)

/-- `view = view` (bit_vector.hpp:550-561). `o = none`: both views are on the same vector; the last branch copies from
`*this` to `o`. -/
def assignView (v : Bv) (first last : Nat) (o : Option Bv) (ofirst olast : Nat) : Res Bv :=
  if o.isSome ∨ first < ofirst ∨ first ≤ olast then v.copyView first last o ofirst olast
  else if first > ofirst then v.copyView ofirst olast none first last
  else .ok v

/-- `v |= o` and so on for whole vectors (bit_vector.hpp:866-885); `none`: the two are the same vector. -/
def vecBin (k : Bin) (v : Bv) (o : Option Bv) : Res Bv := v.binAssign 0 v.sz o 0 (o.getD v).sz k.fn

/-- `v | o` and so on: a copy, then `|=` (bit_vector.hpp:828-847). -/
def vecOp (k : Bin) (v o : Bv) : Res Bv := vecBin k v (some o)

/-- `~v` (bit_vector.hpp:848-852). -/
def compl (v : Bv) : Res Bv := v.flipAll

/-! ### Queries -/

/-- `view == view` (bit_vector.hpp:584-596). -/
def viewEq (v : Bv) (first last : Nat) (o : Bv) (ofirst olast : Nat) : Res Bool :=
  if last - first ≠ olast - ofirst then .ok false
  else do
    let (_, r) ← visitV false first last (fun (q, res) w _ => do
      let (q, x) ← q.next o.s
      let r := if w ≠ x then false else res
      .ok ((q, r), !r)) v.s (mkSeq ofirst olast first, true)
    .ok r

/-- Callback of `any` (bit_vector.hpp:602-606, 912-916). -/
def anyF : Look Bool := fun res w _ =>
  let res := if w ≠ 0 then true else res
  .ok (res, res)

/-- Callback of `every` (bit_vector.hpp:612-616, 922-926). -/
def everyF : Look Bool := fun res w _ =>
  let res := if w ≠ ones then false else res
  .ok (res, !res)

/-- `view.any()` (bit_vector.hpp:600-608). -/
def viewAny (v : Bv) (first last : Nat) : Res Bool := visitV false first last anyF v.s false

/-- `view.every()` (bit_vector.hpp:610-618). -/
def viewEvery (v : Bv) (first last : Nat) : Res Bool := visitV true first last everyF v.s true

/-- `vec.any()` (bit_vector.hpp:910-918). -/
def any (v : Bv) : Res Bool := v.lookAll false anyF false

/-- `vec.every()` (bit_vector.hpp:920-928). -/
def every (v : Bv) : Res Bool := v.lookAll true everyF true

/-- `view.contains(view)` (bit_vector.hpp:624-638). -/
def viewContains (v : Bv) (first last : Nat) (o : Bv) (ofirst olast : Nat) : Res Bool :=
  if last - first < olast - ofirst then .ok false
  else do
    let (_, r) ← visitV false first last (fun (q, res) w _ => do
      let (q, x) ← q.next o.s
      let r := if w ||| x ≠ w then false else res
      .ok ((q, r), !r)) v.s (mkSeq ofirst olast first, true)
    .ok r

/-- `view.disjoint(view)` (bit_vector.hpp:640-661). -/
def viewDisjoint (v : Bv) (first last : Nat) (o : Bv) (ofirst olast : Nat) : Res Bool :=
  let f : Look (Seq × Bool) := fun (q, res) w _ => do
    let (q, x) ← q.next o.s
    let r := if w &&& x ≠ 0 then false else res
    .ok ((q, r), !r)
  if last - first ≤ olast - ofirst then do
    let (_, r) ← visitV false first last f v.s (mkSeq ofirst (ofirst + (last - first)) first, true)
    .ok r
  else do
    let (_, r) ← visitV false first (first + (olast - ofirst)) f v.s (mkSeq ofirst olast first, true)
    .ok r

/-- `view.count()` (bit_vector.hpp:670-677). -/
def viewCount (v : Bv) (first last : Nat) : Res Nat :=
  visitV false first last (fun n w _ => .ok (n + popcount64 w, false)) v.s 0

/-- `vec.count()` (bit_vector.hpp:962-970). -/
def count (v : Bv) : Res Nat :=
  v.lookAll false (fun n w _ => .ok (if w ≠ 0 then n + popcount64 w else n, false)) 0

/-- Callback of `find_first` (bit_vector.hpp:683-691). `countr_zero(v) - shift` is computed in 32-bit unsigned
arithmetic, `stride - shift` in `size_t`. -/
def findF : Look Nat := fun idx w shift =>
  if w ≠ 0 then do
    let c ← countrZero w
    .ok (idx + (((c : Int) - shift) % 2 ^ 32).toNat, true)
  else .ok (idx + ((64 - shift) % 2 ^ 64).toNat, false)

/-- `view.find_first()` (bit_vector.hpp:681-695); `none` is `npos`. -/
def findFirst (v : Bv) (first last : Nat) : Res (Option Nat) := do
  let idx ← visitV false first last findF v.s first
  .ok (if idx < last then some (idx - first) else none)

/-- `view.find_next(start)` (bit_vector.hpp:697-702). -/
def findNext (v : Bv) (first last start : Nat) : Res (Option Nat) :=
  if first + start ≥ last then .ok none
  else do
    let r ← v.findFirst (first + start) last
    .ok (r.map (· + start))

/-- `vec.to_string()` (bit_vector.hpp:992-999), as the list of its bits from the left. -/
def toStringBits (v : Bv) : Nat → Res (List Bool)
  | 0 => .ok []
  | n + 1 => do
    let b ← v.get n
    let r ← toStringBits v n
    .ok (b :: r)

/-- `to_hex` (bit_vector.hpp:720). -/
def toHex (b : Word) : Char := if b.toNat > 9 then Char.ofNat (97 + b.toNat - 10) else Char.ofNat (48 + b.toNat)

/-- Inner loop of `append_to_string` (bit_vector.hpp:725-734): `n` rounds, `cur` characters to go, `acc` what has been
written, which is the right end of the string. -/
def hexBytes : Nat → Nat → Word → List Char → Nat × List Char
  | 0, cur, _, acc => (cur, acc)
  | n + 1, cur, v, acc =>
    if cur = 0 then (cur, acc)
    else
      let b := v &&& 0xff
      hexBytes n (cur - 2) (v >>> 8) (toHex (b >>> 4) :: toHex (b &&& 0xf) :: acc)

/-- Outer loop of `append_to_string` (bit_vector.hpp:723-735). -/
def hexLoop (v : Bv) : Nat → Seq → Nat → List Char → Res (List Char)
  | 0, _, _, _ => .hang
  | n + 1, q, cur, acc =>
    if cur > 0 then do
      let (q, w) ← q.next v.s
      let (cur, acc) := hexBytes 8 cur w acc
      hexLoop v n q cur acc
    else .ok acc

/-- Conversion of a view to `std::string` (bit_vector.hpp:713-750); `append_to_string` starts with an empty string. -/
def viewString (v : Bv) (first last : Nat) : Res (List Char) :=
  if last - first = 0 then .ok "<empty>".toList
  else do
    let numBytes := (last - first + 7) >>> 3
    let digits ← v.hexLoop (numBytes * 2 + 1) (mkSeq first last 0) (numBytes * 2) []
    .ok ("0x".toList ++ digits)

/-- `to_ullong()` (bit_vector.hpp:1001). -/
def toUllong (v : Bv) : Res Nat :=
  if v.sz ≠ 0 then do
    let w ← ld v.s 0
    .ok w.toNat
  else .ok 0

/-- Loop of `std::hash<gtl::bit_vector>` (bit_vector.hpp:1052-1053). -/
def hashLoop (v : Bv) : Nat → Nat → Word → Res Word
  | 0, _, h => .ok h
  | n + 1, i, h => do
    let b ← ld v.s i
    hashLoop v n (i + 1) (h ^^^ (b + 0xc6a4a7935bd1e995 + (h <<< 6) + (h >>> 2)))

/-- `std::hash<gtl::bit_vector>` (bit_vector.hpp:1047-1060), 64-bit platform. -/
def hash (v : Bv) : Res Word := v.hashLoop (slotCnt v.sz) 0 (BitVec.ofNat 64 v.sz)

/-- `operator==` of vectors (bit_vector.hpp:936-938). -/
def eq (v o : Bv) : Res Bool := v.viewEq 0 v.sz o 0 o.sz

end Bv
end Gtl.Bits
