import Verif.Spec.Parallel
import Verif.Spec.Stepwise
/-!
# Specification: containers divided into parts, shared by many threads

Containers hold elements as in `Verif.Spec.Assoc`. Every key belongs to a part `sub key < n` of its container. Calls
about one key are atomic. Calls about a whole container work through the parts in order, one atomic step per part.
-/

namespace Gtl.Spec.Share

variable {α κ : Type}

/-- What threads call; containers are numbered. -/
inductive Call (α κ : Type) where
  /-- a call about one key -/
  | on (c : Nat) (o : POp α κ)
  /-- `for_each`; the answer is the list of elements the callback has seen, in order -/
  | forEach (c : Nat)
  /-- `for_each_m` with a callback that assigns `f` -/
  | forEachM (c : Nat) (f : α → α)
  /-- `with_submap` with a callback that looks at all elements -/
  | withSubmap (c i : Nat)
  /-- `with_submap_m` with a callback that makes these calls -/
  | withSubmapM (c i : Nat) (ops : List (Op α κ))
  | clear (c : Nat)
  | clearSubmap (c i : Nat)
  /-- what a worker of `for_each(policy, f)` does with one part -/
  | visitPart (c i : Nat)
  /-- what a worker of `for_each_m(policy, f)` does with one part -/
  | changePart (c i : Nat) (f : α → α)
  | rehash (c n : Nat)
  | reserve (c n : Nat)
  /-- `c.merge(d)` -/
  | merge (c d : Nat)
  /-- `c.swap(d)` -/
  | swap (c d : Nat)
  /-- `c == d` -/
  | equal (c d : Nat)

/-- Atomic steps; `i` is a part. -/
inductive Atom (α κ : Type) where
  | on (c : Nat) (o : POp α κ)
  | visit (c i : Nat)
  | change (c i : Nat) (f : α → α)
  | script (c i : Nat) (ops : List (Op α κ))
  | wipe (c i : Nat)
  /-- nothing that the caller can see -/
  | tidy (c i : Nat)
  | merge (c d i : Nat)
  | swap (c d i : Nat)
  | equal (c d i : Nat)

inductive Ans (α : Type) where
  | one (r : Resp α)
  | elems (l : List α)
  | many (rs : List (Resp α))

/-! ## Which steps a call takes -/

/-- One step for each of the parts `i, i+1, ..`, then an answer made from theirs. -/
def sweep (f : Nat → Atom α κ) (done : List (Ans α) → Ans α) : Nat → Nat → List (Ans α) → Plan (Atom α κ) (Ans α) (Ans α)
  | 0, _, xs => .ret (done xs)
  | n + 1, i, xs => .step (f i) fun x => sweep f done n (i + 1) (xs ++ [x])

/-- Compare part by part until there is a difference. -/
def compare (c d : Nat) : Nat → Nat → Plan (Atom α κ) (Ans α) (Ans α)
  | 0, _ => .ret (.one (.bool true))
  | n + 1, i => .step (.equal c d i) fun x => match x with
    | .one (.bool true) => compare c d n (i + 1)
    | _ => .ret (.one (.bool false))

/-- All elements seen. -/
def seen (xs : List (Ans α)) : Ans α := .elems (xs.flatMap fun | .elems l => l | _ => [])

def nothing (_ : List (Ans α)) : Ans α := .one .unit

/-- The plan of a call on containers with `n` parts. -/
def plan (n : Nat) : Call α κ → Plan (Atom α κ) (Ans α) (Ans α)
  | .on c o => .step (.on c o) .ret
  | .forEach c => sweep (.visit c) seen n 0 []
  | .forEachM c f => sweep (.change c · f) nothing n 0 []
  | .withSubmap c i => .step (.visit c i) .ret
  | .withSubmapM c i ops => .step (.script c i ops) .ret
  | .clear c => sweep (.wipe c) nothing n 0 []
  | .clearSubmap c i => .step (.wipe c i) .ret
  | .visitPart c i => .step (.visit c i) .ret
  | .changePart c i f => .step (.change c i f) .ret
  | .rehash c _ => sweep (.tidy c) nothing n 0 []
  | .reserve c _ => sweep (.tidy c) nothing n 0 []
  | .merge c d => sweep (.merge c d) nothing n 0 []
  | .swap c d => sweep (.swap c d) nothing n 0 []
  | .equal c d => compare c d n 0

section
variable (key : α → κ) (eqv : κ → κ → Bool) (sub : κ → Nat)

/-! ## What a step does -/

/-- The elements of part `i`. -/
def inside (l : List α) (i : Nat) : List α := l.filter fun a => sub (key a) == i

/-- All others. -/
def outside (l : List α) (i : Nat) : List α := l.filter fun a => !(sub (key a) == i)

/-- The key of `a` is in `l`. -/
def has (l : List α) (a : α) : Bool := l.any fun b => eqv (key b) (key a)

/-- The containers after a step. -/
def next (w : Nat → List α) : Atom α κ → Nat → List α
  | .on c o => put w c (pstep key eqv (w c) o).1
  | .visit _ _ => w
  | .change c i f => put w c ((w c).map fun a => if sub (key a) = i then f a else a)
  | .script c _ ops => put w c (run key eqv (w c) ops).1
  | .wipe c i => put w c (outside key sub (w c) i)
  | .tidy _ _ => w
  | .merge c d i =>
    put (put w c (w c ++ (inside key sub (w d) i).filter fun a => !has key eqv (w c) a))
      d ((w d).filter fun a => !(sub (key a) == i) || has key eqv (w c) a)
  | .swap c d i =>
    put (put w c (inside key sub (w d) i ++ outside key sub (w c) i)) d (inside key sub (w c) i ++ outside key sub (w d) i)
  | .equal _ _ _ => w

/-- The wrong answer that `erase` may give with a shared mutex: "erased", though there was nothing. -/
def FalseErase (l : List α) : POp α κ → Ans α → Prop
  | .base (.erase k), x => lookup key eqv l k = none ∧ x = .one (.nat 1)
  | .eraseIfKey k _, x => lookup key eqv l k = none ∧ x = .one (.bool true)
  | _, _ => False

/-- What a step may answer. `weak`: the wrong answer above is possible. -/
def Answers (weak : Bool) (w : Nat → List α) : Atom α κ → Ans α → Prop
  | .on c o, x => x = .one (pstep key eqv (w c) o).2 ∨ weak = true ∧ FalseErase key eqv (w c) o x
  | .visit c i, x => ∃ l, x = .elems l ∧ l.Perm (inside key sub (w c) i) ∧ l.Pairwise fun a b => eqv (key a) (key b) = false
  | .script c _ ops, x => x = .many (run key eqv (w c) ops).2
  | .equal c d i, x => ∃ b, x = .one (.bool b) ∧ (b = true ↔ (inside key sub (w c) i).Perm (inside key sub (w d) i))
  | _, x => x = .one .unit

/-- Effect and answer of a step. -/
def sem (weak : Bool) (w : Nat → List α) (s : Atom α κ) (w' : Nat → List α) (x : Ans α) : Prop :=
  w' = next key eqv sub w s ∧ Answers key eqv sub weak w s x

/-- The key a call of the ordinary interface is about. -/
def about : Op α κ → Option κ
  | .insert a => some (key a)
  | .insertOrAssign a _ => some (key a)
  | .subscript a _ => some (key a)
  | .at k => some k
  | .find k => some k
  | .contains k => some k
  | .count k => some k
  | .erase k => some k
  | .extract k => some k
  | .insertNode (some a) => some (key a)
  | .toggle a => some (key a)
  | _ => none

/-- Preconditions: changes keep the key; parts exist; the calls made on one part are about keys of this part; `rehash`
gets at least one bucket per part; two containers are not the same. -/
def Call.Valid (n : Nat) : Call α κ → Prop
  | .on _ o => o.Valid key n
  | .forEachM _ f => ∀ a, key (f a) = key a
  | .withSubmap _ i => i < n
  | .withSubmapM _ i ops => i < n ∧ ∀ op ∈ ops, op.Valid key ∧ ∃ k, about key op = some k ∧ sub k = i
  | .clearSubmap _ i => i < n
  | .visitPart _ i => i < n
  | .changePart _ i f => i < n ∧ ∀ a, key (f a) = key a
  | .rehash _ m => n ≤ m
  | .merge c d => c ≠ d
  | .swap c d => c ≠ d
  | .equal c d => c ≠ d
  | _ => True

/-- The containers after the steps of an explanation. -/
def after {op : Type} (w : Nat → List α) (E : List (SEvent op (Atom α κ) (Ans α) (Ans α))) : Nat → List α :=
  (E.filterMap SEvent.step).foldl (fun w s => next key eqv sub w s.1) w

/-! ## What happens during a call -/

/-- In the explanation `E`, thread `t` makes the call `o` and gets the answer `r`; `E1` is what happens before the call,
`E2` what happens during the call. -/
structure During {op : Type} (E : List (SEvent op (Atom α κ) (Ans α) (Ans α))) (t : Nat) (o : op) (r : Ans α)
    (E1 E2 : List (SEvent op (Atom α κ) (Ans α) (Ans α))) : Prop where
  split : ∃ E3, E = E1 ++ .inv t o :: (E2 ++ .ret t r :: E3)
  own : ∀ e ∈ E2, e.tid = t → ∃ s x, e = .eff t s x

/-- `m` is what the containers hold at some instant of the call, from just before its first step to just after its last. -/
def Instant {op : Type} (w : Nat → List α) (E1 E2 : List (SEvent op (Atom α κ) (Ans α) (Ans α))) (m : Nat → List α) : Prop :=
  ∃ F G, E2 = F ++ G ∧ m = after key eqv sub w (E1 ++ F)

/-- In the explanation `E`, something is divided into the calls `o 0, .., o (n-1)`, made by any threads in any order; `E1` is
what happens before, `E2` what happens from the beginning to the end. Call `i` gets the answer `r i`. -/
structure Spread {op : Type} (E : List (SEvent op (Atom α κ) (Ans α) (Ans α))) (n : Nat) (o : Nat → op) (r : Nat → Ans α)
    (E1 E2 : List (SEvent op (Atom α κ) (Ans α) (Ans α))) : Prop where
  split : ∃ E3, E = E1 ++ (E2 ++ E3)
  work : ∀ i, i < n → ∃ t A B C, E2 = A ++ .inv t (o i) :: (B ++ .ret t (r i) :: C) ∧ During E t (o i) (r i) (E1 ++ A) B

end

/-- The call that is invoked by an event. -/
def invoked {op ρ : Type} : Event op ρ → Option op
  | .inv _ o => some o
  | .ret _ _ => none

/-- The answer that is given by an event. -/
def answered {op ρ : Type} : Event op ρ → Option ρ
  | .inv _ _ => none
  | .ret _ r => some r

/-- The elements that a callback has seen. -/
def shown : Ans α → List α
  | .elems l => l
  | _ => []

end Gtl.Spec.Share
