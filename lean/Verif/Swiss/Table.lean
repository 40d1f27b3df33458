import Verif.Swiss.Ctrl
/-!
# The hash table `raw_hash_set` (include/gtl/phmap.hpp:1440-2990)

The table owns one allocation holding the control bytes and the slots.  A slot is `none` while it is raw
storage and `some a` while it holds a constructed element.  Every access is bounds checked by the model:
an access outside the allocation, reading or destroying a raw slot, and constructing over a live element are
all `Res.ub`.  Probe loops run with an iteration budget of `capacity + 1`; running out of it is `Res.hang`.

Simplifications: `size_t` is `Nat`; allocation always succeeds; where the code relies on the wrap-around of
`size_t` this is made explicit (`usub`, `subMask`).  `SanitizerPoison*` calls are dropped.
-/

namespace Gtl.Swiss

/-- What the table is instantiated with: `Policy::key`, `Hash` (already composed with `phmap_mix`,
phmap.hpp:2521-2531), `Eq`, and the group implementation. -/
structure Cfg (α κ : Type) where
  key : α → κ
  hash : κ → Nat
  eqv : κ → κ → Bool
  G : Group

/-- The data members of `raw_hash_set` (phmap.hpp:2982-2990). `ctrl` is the readable part of the control array. -/
structure Tbl (α : Type) where
  ctrl : List Ctrl
  slots : List (Option α)
  size : Nat
  capacity : Nat
  growthLeft : Nat
  deriving Repr, DecidableEq

/-- `EmptyGroup()` (phmap.hpp:823-832). -/
def emptyGroup : List Ctrl := kSentinel :: List.replicate 15 kEmpty

/-- `size_t` subtraction: wraps modulo `2^64` when it underflows. -/
def usub (a b : Nat) : Nat := if b ≤ a then a - b else a + 2 ^ 64 - b

/-- `(i - w) & cap` on `size_t`.  `cap + 1` is a power of two that divides `2^64`, so subtracting `w` modulo
`2^64` and masking is the same as adding `(cap+1)*w - w` and masking (`subMask_eq_wrap`). -/
def subMask (i w cap : Nat) : Nat := (i + ((cap + 1) * w - w)) &&& cap

/-- `probe_seq` (phmap.hpp:665-688). -/
structure Probe where
  offset : Nat
  index : Nat
  deriving Repr, DecidableEq

namespace Probe
/-- Constructor (phmap.hpp:668-671). -/
def start (hash mask : Nat) : Probe := { offset := H1 hash &&& mask, index := 0 }
/-- `next` (phmap.hpp:676-680). -/
def next (W mask : Nat) (p : Probe) : Probe :=
  { index := p.index + W, offset := (p.offset + (p.index + W)) &&& mask }
/-- `offset(i)` (phmap.hpp:674). -/
def at_ (mask : Nat) (p : Probe) (i : Nat) : Nat := (p.offset + i) &&& mask
end Probe

namespace Tbl
variable {α κ : Type}

/-- Default constructor (phmap.hpp:1703-1705, members 2982-2986). -/
def empty : Tbl α := { ctrl := emptyGroup, slots := [], size := 0, capacity := 0, growthLeft := 0 }

/-- `Group{ ctrl_ + pos }` loads `W` bytes. -/
def load (W : Nat) (t : Tbl α) (pos : Nat) : Res (List Ctrl) :=
  if pos + W ≤ t.ctrl.length then .ok ((t.ctrl.drop pos).take W) else .ub

/-- `ctrl_[i]`. -/
def ctrlAt (t : Tbl α) (i : Nat) : Res Ctrl := Res.ofOption t.ctrl[i]?

/-- `PolicyTraits::element(slots_ + i)`: reading a constructed slot. -/
def readSlot (t : Tbl α) (i : Nat) : Res α :=
  match t.slots[i]? with
  | some (some a) => .ok a
  | _ => .ub

/-- `PolicyTraits::construct` on raw storage `slots_ + i` (phmap.hpp:2893-2903). -/
def constructSlot (t : Tbl α) (i : Nat) (a : α) : Res (Tbl α) :=
  match t.slots[i]? with
  | some none => .ok { t with slots := t.slots.set i (some a) }
  | _ => .ub

/-- `PolicyTraits::destroy(slots_ + i)`, or moving the element out of the slot. -/
def destroySlot (t : Tbl α) (i : Nat) : Res (Tbl α) :=
  match t.slots[i]? with
  | some (some _) => .ok { t with slots := t.slots.set i none }
  | _ => .ub

/-- `set_ctrl` (phmap.hpp:2909-2920). -/
def setCtrl (W : Nat) (t : Tbl α) (i : Nat) (h : Ctrl) : Res (Tbl α) :=
  let j := subMask i W t.capacity + 1 + ((W - 1) &&& t.capacity)
  if i < t.capacity ∧ i < t.ctrl.length ∧ j < t.ctrl.length then
    .ok { t with ctrl := (t.ctrl.set i h).set j h }
  else .ub

/-- `reset_ctrl` (phmap.hpp:2930-2934) on a freshly allocated or reused control array of
`new_capacity + W + 1` bytes. The last byte is not initialised by the C++ code and never read by it. -/
def resetCtrl (W cap : Nat) : List Ctrl :=
  ((List.replicate (cap + W) kEmpty).set cap kSentinel) ++ [0#8]

section Find
variable (C : Cfg α κ)

/-- Inner loop over the matching positions of one group (phmap.hpp:2500-2505, 2848-2852, 2781-2784). -/
def scan (t : Tbl α) (pred : α → Bool) (p : Probe) : List Nat → Res (Option Nat)
  | [] => .ok none
  | i :: is => do
    let off := p.at_ t.capacity i
    let a ← t.readSlot off
    if pred a then .ok (some off) else scan t pred p is

/-- Probe loop of `find_impl` (phmap.hpp:2491-2510), `_find_key` (2838-2857) and `has_element` (2771-2790). -/
def probeFind (t : Tbl α) (pred : α → Bool) (h2 : Ctrl) : Nat → Probe → Res (Option Nat)
  | 0, _ => .hang
  | n + 1, p => do
    let g ← t.load C.G.W p.offset
    match ← t.scan pred p (C.G.matchH2 g h2).toList with
    | some off => .ok (some off)
    | none =>
      if (C.G.matchEmpty g).toBool then .ok none
      else probeFind t pred h2 n (p.next C.G.W t.capacity)

/-- More steps than a probe sequence has groups (C19). -/
def fuel (t : Tbl α) : Nat := t.capacity + 1

/-- `find_impl(key, hashval, offset)` / `find(key, hashval)` (phmap.hpp:2395-2424, 2491-2510):
`some offset` or `none` (`end()`). -/
def findHash (t : Tbl α) (k : κ) (hashval : Nat) : Res (Option Nat) :=
  t.probeFind C (fun a => C.eqv (C.key a) k) (H2 hashval) t.fuel (Probe.start hashval t.capacity)

/-- `find(key)` (phmap.hpp:2413-2416). -/
def find (t : Tbl α) (k : κ) : Res (Option Nat) := t.findHash C k (C.hash k)

/-- `contains(key)` (phmap.hpp:2426-2429). -/
def contains (t : Tbl α) (k : κ) : Res Bool := do
  let r ← t.find C k
  .ok r.isSome

/-- `count(key)` (phmap.hpp:2367-2370). -/
def count (t : Tbl α) (k : κ) : Res Nat := do
  let r ← t.find C k
  .ok (if r.isSome then 1 else 0)

/-- `has_element(elem)` (phmap.hpp:2771-2795); `veq` is `operator==` on whole elements. -/
def hasElement (veq : α → α → Bool) (t : Tbl α) (elem : α) : Res Bool := do
  let hashval := C.hash (C.key elem)
  let r ← t.probeFind C (fun a => veq a elem) (H2 hashval) t.fuel (Probe.start hashval t.capacity)
  .ok r.isSome

/-- `find_first_non_full` (phmap.hpp:2811-2822). -/
def probeNonFull (t : Tbl α) : Nat → Probe → Res Nat
  | 0, _ => .hang
  | n + 1, p => do
    let g ← t.load C.G.W p.offset
    let m := C.G.matchEmptyOrDeleted g
    if m.toBool then .ok (p.at_ t.capacity m.lowest)
    else probeNonFull t n (p.next C.G.W t.capacity)

/-- `find_first_non_full` (phmap.hpp:2811-2822), from the start of the probe sequence. -/
def findFirstNonFull (t : Tbl α) (hashval : Nat) : Res Nat :=
  t.probeNonFull C t.fuel (Probe.start hashval t.capacity)

end Find

section Mutate
variable (C : Cfg α κ)

/-- `initialize_slots` (phmap.hpp:2634-2644) followed by `capacity_ = new_capacity`
(2675, 1718): `reset_growth_left` uses the unchanged `size_`. -/
def initializeSlots (t : Tbl α) (newCap : Nat) : Tbl α :=
  { ctrl := resetCtrl C.G.W newCap
    slots := List.replicate newCap none
    size := t.size
    capacity := newCap
    growthLeft := usub (capacityToGrowth C.G.W newCap) t.size }

/-- Explicit constructor with a bucket count (phmap.hpp:1708-1720). -/
def withBuckets (n : Nat) : Tbl α :=
  if n = 0 then empty else initializeSlots C empty (normalizeCapacity n)

/-- `destroy_slots` loop / `clear` loop: destroy every full slot (phmap.hpp:2650-2658, 1915-1922). -/
def destroyFull (t : Tbl α) : Res (Tbl α) :=
  (List.range t.capacity).foldlM (fun t i => do
    let c ← t.ctrlAt i
    if isFull c then t.destroySlot i else .ok t) t

/-- `destroy_slots` (phmap.hpp:2646-2668). Deallocating while a slot is still constructed would leak it;
the model reports that as `ub`. -/
def destroySlots (t : Tbl α) : Res (Tbl α) :=
  if t.capacity = 0 then .ok t
  else do
    let t ← t.destroyFull
    if t.slots.all Option.isNone then .ok empty else .ub

/-- One iteration of the loop of `resize` (phmap.hpp:2677-2685): `old` is the source, `t` the new table. -/
def resizeStep (s : Tbl α × Tbl α) (i : Nat) : Res (Tbl α × Tbl α) := do
  let (old, t) := s
  let c ← old.ctrlAt i
  if isFull c then do
    let a ← old.readSlot i
    let hashval := C.hash (C.key a)
    let newI ← t.findFirstNonFull C hashval
    let t ← t.setCtrl C.G.W newI (H2 hashval)
    let t ← t.constructSlot newI a
    let old ← old.destroySlot i
    .ok (old, t)
  else .ok (old, t)

/-- `resize` (phmap.hpp:2670-2692). -/
def resize (t : Tbl α) (newCap : Nat) : Res (Tbl α) := do
  let (old, new) ← (List.range t.capacity).foldlM (resizeStep C) (t, initializeSlots C t newCap)
  if old.slots.all Option.isNone then .ok new else .ub

/-- The group loop of `ConvertDeletedToEmptyAndFullToDeleted` (phmap.hpp:1039-1041): it runs until
`pos == ctrl + capacity + 1`. -/
def convertLoop (cap : Nat) : Nat → Nat → List Ctrl → Res (List Ctrl)
  | 0, _, _ => .hang
  | n + 1, pos, ctrl =>
    if pos = cap + 1 then .ok ctrl
    else if pos + C.G.W ≤ ctrl.length then
      convertLoop cap n (pos + C.G.W)
        (ctrl.take pos ++ C.G.convertSpecial ((ctrl.drop pos).take C.G.W) ++ ctrl.drop (pos + C.G.W))
    else .ub

/-- `ConvertDeletedToEmptyAndFullToDeleted` (phmap.hpp:1035-1044). -/
def convertCtrl (t : Tbl α) : Res (Tbl α) := do
  let ctrl ← convertLoop C t.capacity (t.capacity + 2) 0 t.ctrl
  if t.capacity + 1 + C.G.W ≤ ctrl.length then
    let ctrl := ctrl.take (t.capacity + 1) ++ ctrl.take C.G.W ++ ctrl.drop (t.capacity + 1 + C.G.W)
    .ok { t with ctrl := ctrl.set t.capacity kSentinel }
  else .ub

/-- Loop of `drop_deletes_without_resize` (phmap.hpp:2718-2755).  `--i; ... ++i` is "do not advance". Every
repetition turns one more `kDeleted` byte into a full one, so `2 * capacity + 1` iterations suffice. -/
def dropLoop : Nat → Nat → Tbl α → Res (Tbl α)
  | 0, _, _ => .hang
  | n + 1, i, t =>
    if i = t.capacity then .ok t
    else do
      let c ← t.ctrlAt i
      if !isDeleted c then dropLoop n (i + 1) t
      else do
        let a ← t.readSlot i
        let hashval := C.hash (C.key a)
        let newI ← t.findFirstNonFull C hashval
        let probeIndex := fun pos => (subMask pos (Probe.start hashval t.capacity).offset t.capacity) / C.G.W
        if probeIndex newI = probeIndex i then do
          let t ← t.setCtrl C.G.W i (H2 hashval)
          dropLoop n (i + 1) t
        else do
          let cn ← t.ctrlAt newI
          if isEmpty cn then do
            let t ← t.setCtrl C.G.W newI (H2 hashval)
            let t ← t.constructSlot newI a
            let t ← t.destroySlot i
            let t ← t.setCtrl C.G.W i kEmpty
            dropLoop n (i + 1) t
          else do
            let t ← t.setCtrl C.G.W newI (H2 hashval)
            -- swap the elements of slots i and newI through the temporary `slot`
            let b ← t.readSlot newI
            let t ← t.destroySlot i
            let t ← t.constructSlot i b
            let t ← t.destroySlot newI
            let t ← t.constructSlot newI a
            dropLoop n i t

/-- `drop_deletes_without_resize` (phmap.hpp:2694-2757). -/
def dropDeletes (t : Tbl α) : Res (Tbl α) := do
  let t ← t.convertCtrl C
  let t ← dropLoop C (2 * t.capacity + 1) 0 t
  .ok { t with growthLeft := usub (capacityToGrowth C.G.W t.capacity) t.size }

/-- `rehash_and_grow_if_necessary` (phmap.hpp:2759-2769). -/
def rehashAndGrow (t : Tbl α) : Res (Tbl α) :=
  if t.capacity = 0 then t.resize C 1
  else if t.size ≤ capacityToGrowth C.G.W t.capacity / 2 then t.dropDeletes C
  else t.resize C (t.capacity * 2 + 1)

/-- `prepare_insert` (phmap.hpp:2867-2881). -/
def prepareInsert (t : Tbl α) (hashval : Nat) : Res (Tbl α × Nat) := do
  let target ← t.findFirstNonFull C hashval
  let c ← t.ctrlAt target
  let (t, target) ←
    if t.growthLeft = 0 ∧ ¬ isDeleted c then do
      let t ← t.rehashAndGrow C
      let target ← t.findFirstNonFull C hashval
      Res.ok (t, target)
    else Res.ok (t, target)
  let c ← t.ctrlAt target
  .ok ({ t with size := t.size + 1
                growthLeft := usub t.growthLeft (if isEmpty c then 1 else 0) }, target)

/-- `emplace_decomposable` (phmap.hpp:2543-2552), also `lazy_emplace_with_hash` (2187-2196),
`InsertSlot` (2571-2588) and `try_emplace_impl` (3154-3167): look the key up, otherwise prepare a slot,
construct the element there and mark it full.  Returns the position and whether it was inserted.
The value is only constructed (`mk ()`) when it is inserted. -/
def emplaceHash (t : Tbl α) (k : κ) (hashval : Nat) (mk : Unit → α) : Res (Tbl α × Nat × Bool) := do
  match ← t.findHash C k hashval with
  | some off => .ok (t, off, false)
  | none => do
    let (t, off) ← t.prepareInsert C hashval
    let t ← t.constructSlot off (mk ())
    let t ← t.setCtrl C.G.W off (H2 hashval)
    .ok (t, off, true)

/-- `emplace(args...)` / `insert(value)` (phmap.hpp:1941-1985, 2068-2071). -/
def emplace (t : Tbl α) (a : α) : Res (Tbl α × Nat × Bool) :=
  t.emplaceHash C (C.key a) (C.hash (C.key a)) (fun _ => a)

/-- `erase_meta_only` (phmap.hpp:2614-2632). -/
def eraseMetaOnly (t : Tbl α) (index : Nat) : Res (Tbl α) := do
  let W := C.G.W
  let before := subMask index W t.capacity
  let ga ← t.load W index
  let gb ← t.load W before
  let emptyAfter := C.G.matchEmpty ga
  let emptyBefore := C.G.matchEmpty gb
  let wasNeverFull := emptyBefore.toBool && emptyAfter.toBool &&
    decide (emptyAfter.trailingZeros + emptyBefore.leadingZeros < W)
  let t := { t with size := t.size - 1 }
  let t ← t.setCtrl W index (if wasNeverFull then kEmpty else kDeleted)
  .ok { t with growthLeft := t.growthLeft + (if wasNeverFull then 1 else 0) }

/-- `_erase(it)` (phmap.hpp:2255-2259). -/
def eraseAt (t : Tbl α) (index : Nat) : Res (Tbl α) := do
  let t ← t.destroySlot index
  t.eraseMetaOnly C index

/-- `erase(key)` (phmap.hpp:2230-2237). -/
def erase (t : Tbl α) (k : κ) : Res (Tbl α × Nat) := do
  match ← t.find C k with
  | none => .ok (t, 0)
  | some off => do
    let t ← t.eraseAt C off
    .ok (t, 1)

/-- `extract(position)` (phmap.hpp:2298-2302): the element moves into the node handle. -/
def extractAt (t : Tbl α) (index : Nat) : Res (Tbl α × α) := do
  let a ← t.readSlot index
  let t ← t.destroySlot index
  let t ← t.eraseMetaOnly C index
  .ok (t, a)

/-- `extract(key)` (phmap.hpp:2304-2308). -/
def extract (t : Tbl α) (k : κ) : Res (Tbl α × Option α) := do
  match ← t.find C k with
  | none => .ok (t, none)
  | some off => do
    let (t, a) ← t.extractAt C off
    .ok (t, some a)

/-- `insert(node_type&&)` (phmap.hpp:2027-2039): returns the table, the position (`none` is `end()`), the flag
and what is left in the node handle. -/
def insertNode (t : Tbl α) (node : Option α) : Res (Tbl α × Option Nat × Bool × Option α) :=
  match node with
  | none => .ok (t, none, false, none)
  | some a => do
    let (t, off, ins) ← t.emplaceHash C (C.key a) (C.hash (C.key a)) (fun _ => a)
    .ok (t, some off, ins, if ins then none else some a)

/-- `emplace_single_with_hash` (phmap.hpp:2210-2219): toggles the presence of a key. -/
def emplaceSingle (t : Tbl α) (k : κ) (hashval : Nat) (mk : Unit → α) : Res (Tbl α) := do
  match ← t.findHash C k hashval with
  | some off => t.eraseAt C off
  | none => do
    let (t, off) ← t.prepareInsert C hashval
    let t ← t.constructSlot off (mk ())
    t.setCtrl C.G.W off (H2 hashval)

/-- `clear` (phmap.hpp:1911-1929). Note that the capacity is kept. -/
def clear (t : Tbl α) : Res (Tbl α) :=
  if t.size = 0 then .ok t
  else if t.capacity = 0 then .ok t
  else do
    let t ← t.destroyFull
    if t.slots.all Option.isNone then
      .ok { t with size := 0
                   ctrl := resetCtrl C.G.W t.capacity
                   growthLeft := usub (capacityToGrowth C.G.W t.capacity) 0 }
    else .ub

/-- `rehash(n)` (phmap.hpp:2338-2353). -/
def rehash (t : Tbl α) (n : Nat) : Res (Tbl α) :=
  if n = 0 ∧ t.capacity = 0 then .ok t
  else if n = 0 ∧ t.size = 0 then t.destroySlots
  else
    let m := normalizeCapacity (max n t.size)
    if n = 0 ∨ m > t.capacity then t.resize C m else .ok t

/-- `reserve(n)` (phmap.hpp:2355). -/
def reserve (t : Tbl α) (n : Nat) : Res (Tbl α) := t.rehash C (growthToLowerboundCapacity C.G.W n)

end Mutate

/-! ## Iteration -/
section Iter
variable (C : Cfg α κ)

/-- `skip_empty_or_deleted` (phmap.hpp:1635-1652). -/
def skip (t : Tbl α) : Nat → Nat → Res Nat
  | 0, _ => .hang
  | n + 1, p => do
    let c ← t.ctrlAt p
    if isEmptyOrDeleted c then do
      let g ← t.load C.G.W p
      skip t n (p + C.G.countLeadingEmptyOrDeleted g)
    else .ok p

/-- `begin()` (phmap.hpp:1888-1892). An iterator is the index of its control byte; `end()` is `capacity`. -/
def begin_ (t : Tbl α) : Res Nat := t.skip C t.fuel 0

/-- `operator++` (phmap.hpp:1596-1601). -/
def next (t : Tbl α) (p : Nat) : Res Nat := t.skip C t.fuel (p + 1)

/-- The loop `for (it = b; it != end(); ++it) out.push_back(*it)`. -/
def collect (t : Tbl α) : Nat → Nat → Res (List α)
  | 0, _ => .hang
  | n + 1, p =>
    if p = t.capacity then .ok []
    else do
      let a ← t.readSlot p
      let p' ← t.next C p
      let r ← collect t n p'
      .ok (a :: r)

/-- All elements in iteration order. -/
def iterate (t : Tbl α) : Res (List α) := do
  let b ← t.begin_ C
  t.collect C t.fuel b

/-- `erase(iterator)` (phmap.hpp:2265-2270). -/
def eraseIt (t : Tbl α) (p : Nat) : Res (Tbl α × Nat) := do
  let res ← t.next C p
  let t ← t.eraseAt C p
  .ok (t, res)

/-- `erase(first, last)` (phmap.hpp:2272-2277). -/
def eraseRange : Nat → Tbl α → Nat → Nat → Res (Tbl α × Nat)
  | 0, _, _, _ => .hang
  | n + 1, t, first, last =>
    if first = last then .ok (t, last)
    else do
      let nxt ← t.next C first
      let t ← t.eraseAt C first
      eraseRange n t nxt last

/-- `priv::erase_if` (phmap.hpp:5597-5608): the loop body over a running iterator.
`std::move(const_cast<..>(*it))` passes the element to the predicate by reference. -/
def eraseIfLoop (pred : α → Bool) : Nat → Tbl α → Nat → Res (Tbl α)
  | 0, _, _ => .hang
  | n + 1, t, p =>
    if p = t.capacity then .ok t
    else do
      let a ← t.readSlot p
      if pred a then do
        let nxt ← t.next C p
        let t ← t.eraseAt C p
        eraseIfLoop pred n t nxt
      else do
        let nxt ← t.next C p
        eraseIfLoop pred n t nxt

/-- `erase_if(c, pred)` (phmap.hpp:5597-5608): returns `old_size - c.size()`. -/
def eraseIf (t : Tbl α) (pred : α → Bool) : Res (Tbl α × Nat) := do
  let b ← t.begin_ C
  let t' ← eraseIfLoop C pred t.fuel t b
  .ok (t', t.size - t'.size)

/-- Copy constructor (phmap.hpp:1817-1830). -/
def copy (that : Tbl α) : Res (Tbl α) := do
  let t ← (empty : Tbl α).rehash C that.capacity
  let vs ← that.iterate C
  let t ← vs.foldlM (fun t v => do
    let hashval := C.hash (C.key v)
    let target ← t.findFirstNonFull C hashval
    let t ← t.setCtrl C.G.W target (H2 hashval)
    t.constructSlot target v) t
  .ok { t with size := that.size, growthLeft := usub t.growthLeft that.size }

/-- Loop of `merge` (phmap.hpp:2283-2291): `(dst, src)`. -/
def mergeLoop : Nat → Tbl α × Tbl α → Nat → Res (Tbl α × Tbl α)
  | 0, _, _ => .hang
  | n + 1, (dst, src), p =>
    if p = src.capacity then .ok (dst, src)
    else do
      let a ← src.readSlot p
      let (dst, _, ins) ← dst.emplaceHash C (C.key a) (C.hash (C.key a)) (fun _ => a)
      let src ← if ins then do
          let src ← src.destroySlot p
          src.eraseMetaOnly C p
        else Res.ok src
      let nxt ← src.next C p
      mergeLoop n (dst, src) nxt

/-- `merge(src)` (phmap.hpp:2283-2291). The transfer into `dst` leaves the source slot raw. -/
def merge (dst src : Tbl α) : Res (Tbl α × Tbl α) := do
  let b ← src.begin_ C
  mergeLoop C src.fuel (dst, src) b

/-- Early-exit loop of `operator==` (phmap.hpp:2470-2473). -/
def allIn (veq : α → α → Bool) (inner : Tbl α) : List α → Res Bool
  | [] => .ok true
  | a :: as => do
    let b ← inner.hasElement C veq a
    if b then allIn veq inner as else .ok false

/-- `operator==` (phmap.hpp:2464-2475). -/
def beqTbl (veq : α → α → Bool) (a b : Tbl α) : Res Bool :=
  if a.size ≠ b.size then .ok false
  else
    let (outer, inner) := if a.capacity > b.capacity then (b, a) else (a, b)
    do
      let vs ← outer.iterate C
      allIn C veq inner vs

/-- `insert(first, last)` for random access ranges (phmap.hpp:2007-2012). -/
def insertRange (t : Tbl α) (vs : List α) : Res (Tbl α) := do
  let t ← t.reserve C (t.size + vs.length)
  vs.foldlM (fun t v => do
    let (t, _, _) ← t.emplace C v
    .ok t) t

end Iter

/-- Move constructor (phmap.hpp:1832-1848): `(new, that)`. -/
def move (that : Tbl α) : Tbl α × Tbl α := (that, empty)

/-- `swap` (phmap.hpp:2310-2328). -/
def swap (a b : Tbl α) : Tbl α × Tbl α := (b, a)

end Tbl
end Gtl.Swiss
