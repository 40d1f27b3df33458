import Verif.Bits.Hex
/-!
# Histories of bit vectors

A program works on any number of vectors, named by numbers. `Step` is one call that changes a vector; `Reachable` are the
vectors that histories of such calls produce.
-/

namespace Gtl.Props.Bits

open Gtl.Bits

/-- The vectors of a program. -/
abbrev World := Nat → Bv

def World.put (w : World) (x : Nat) (v : Bv) : World := fun y => if y = x then v else w y

/-- The calls that change vectors. `x` is the vector changed, `y` the other one; views are `[first, last)`. -/
inductive Op where
  | create (x n : Nat) (b : Bool)
  | ofWords (x : Nat) (ws : List Word)
  | assignWords (x : Nat) (ws : List Word)
  | copy (x y : Nat)
  | swap (x y : Nat)
  | resize (x n : Nat) (b : Bool)
  | setTo (x i : Nat) (b : Bool)
  | flip (x i : Nat)
  | setAll (x : Nat) (b : Bool)
  | flipAll (x : Nat)
  | viewFill (x first last : Nat) (b : Bool)
  | viewFlip (x first last : Nat)
  | bin (k : Bv.Bin) (x first last y ofirst olast : Nat)
  | assignView (x first last y ofirst olast : Nat)
  | assignWord (x first last : Nat) (val : Word)
  | viewWords (x first last : Nat) (ws : List Word)
  | shl (x first last n : Nat)
  | shr (x first last n : Nat)

/-- The assertions of the code: views are ranges inside the vector, two views have the same length, an index is inside. -/
def Op.Asserts (w : World) : Op → Prop
  | .create .. => True
  | .ofWords .. => True
  | .assignWords .. => True
  | .copy .. => True
  | .swap .. => True
  | .resize .. => True
  | .setTo x i _ => i < (w x).sz
  | .flip x i => i < (w x).sz
  | .setAll .. => True
  | .flipAll .. => True
  | .viewFill x first last _ => first ≤ last ∧ last ≤ (w x).sz
  | .viewFlip x first last => first ≤ last ∧ last ≤ (w x).sz
  | .bin _ x first last y ofirst olast =>
    first ≤ last ∧ last ≤ (w x).sz ∧ ofirst ≤ olast ∧ olast ≤ (w y).sz ∧ olast - ofirst = last - first
  | .assignView x first last y ofirst olast =>
    first ≤ last ∧ last ≤ (w x).sz ∧ ofirst ≤ olast ∧ olast ≤ (w y).sz ∧ olast - ofirst = last - first
  | .assignWord x first last _ => first ≤ last ∧ last ≤ (w x).sz ∧ last - first ≤ 64
  | .viewWords x first last _ => first ≤ last ∧ last ≤ (w x).sz
  | .shl x first last _ => first ≤ last ∧ last ≤ (w x).sz
  | .shr x first last _ => first ≤ last ∧ last ≤ (w x).sz

/-- The other vector of a two-view call, `none` if it is the same one. -/
def other (w : World) (x y : Nat) : Option Bv := if x = y then none else some (w y)

def Op.run (w : World) : Op → Res World
  | .create x n b => do let v ← Bv.create n b; .ok (w.put x v)
  | .ofWords x ws => do let v ← Bv.ofWords ws; .ok (w.put x v)
  | .assignWords x ws => do let v ← (w x).assignWords 0 ws; .ok (w.put x v)
  | .copy x y => .ok (w.put x (w y))
  | .swap x y => .ok ((w.put x (w y)).put y (w x))
  | .resize x n b => do let v ← (w x).resize n b; .ok (w.put x v)
  | .setTo x i b => do let v ← (w x).setTo i b; .ok (w.put x v)
  | .flip x i => do let v ← (w x).flip i; .ok (w.put x v)
  | .setAll x b => do let v ← (w x).setAll b; .ok (w.put x v)
  | .flipAll x => do let v ← (w x).flipAll; .ok (w.put x v)
  | .viewFill x first last b => do let v ← (w x).viewFill first last b; .ok (w.put x v)
  | .viewFlip x first last => do let v ← (w x).viewFlip first last; .ok (w.put x v)
  | .bin k x first last y ofirst olast => do
    let v ← (w x).binAssign first last (other w x y) ofirst olast k.fn; .ok (w.put x v)
  | .assignView x first last y ofirst olast => do
    let v ← (w x).assignView first last (other w x y) ofirst olast; .ok (w.put x v)
  | .assignWord x first last val => do let v ← (w x).assignWord first last val; .ok (w.put x v)
  | .viewWords x first last ws => do let v ← (w x).viewAssignWords last first ws; .ok (w.put x v)
  | .shl x first last n => do let v ← (w x).shl first last n; .ok (w.put x v)
  | .shr x first last n => do let v ← (w x).shr first last n; .ok (w.put x v)

/-- All histories of calls whose assertions hold, from empty vectors. A history ends where the behaviour is undefined. -/
inductive Reach : World → Prop
  | init : Reach (fun _ => { sz := 0, s := [] })
  | step {w w' : World} {op : Op} : Reach w → op.Asserts w → op.run w = .ok w' → Reach w'

/-- A vector some history produces. -/
def Reachable (v : Bv) : Prop := ∃ w x, Reach w ∧ w x = v

/-- What a user sees: the size and `operator[]`. -/
def Contents (v : Bv) (l : List Bool) : Prop := v.sz = l.length ∧ ∀ i (h : i < l.length), v.get i = .ok l[i]

end Gtl.Props.Bits
