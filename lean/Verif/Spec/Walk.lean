import Verif.Spec.Share
/-!
# Specification: callbacks of traversals that throw, while many threads use the containers

Containers as in `Verif.Spec.Share`. A traversal shows the elements to a callback, part by part. The callback may assign
to the element it is shown and may throw; both may depend on what it has been shown before. When it throws, the call
ends: nothing more is shown, and what has been assigned stays.
-/

namespace Gtl.Spec.Walk

variable {α κ st ρ' ρ : Type}

/-- A callback. -/
structure Cb (α : Type) where
  /-- whether it keeps its state in itself, as a function object with members does, or elsewhere -/
  own : Bool
  /-- from what it has been shown before and the element: what it assigns to the element, whether it throws -/
  run : List α → α → α × Bool

/-- Show the elements of a list until the callback throws: the elements shown with what was assigned to them, and whether
it threw. -/
def tell (run : List α → α → α × Bool) : List α → List α → List (α × α) × Bool
  | _, [] => ([], false)
  | before, a :: l =>
    if (run before a).2 then ([(a, (run before a).1)], true)
    else ((a, (run before a).1) :: (tell run (before ++ [a]) l).1, (tell run (before ++ [a]) l).2)

/-- What threads call. -/
inductive Call (α κ : Type) where
  /-- a call without a callback that throws -/
  | base (o : Share.Call α κ)
  /-- `for_each` -/
  | visit (c : Nat) (cb : Cb α)
  /-- `for_each_m` -/
  | alter (c : Nat) (cb : Cb α)
  /-- `with_submap` with a callback that goes through the elements and may throw -/
  | look (c i : Nat) (run : List α → α → α × Bool)
  /-- `with_submap_m` with a callback that makes these calls and then throws -/
  | script (c i : Nat) (ops : List (Op α κ))

/-- Atomic steps. -/
inductive Atom (α κ : Type) where
  | base (s : Share.Atom α κ)
  /-- show the elements of a part; the callback has been shown `before` -/
  | visit (c i : Nat) (before : List α) (run : List α → α → α × Bool)
  | alter (c i : Nat) (before : List α) (run : List α → α → α × Bool)

inductive Ans (α : Type) where
  | ret (x : Share.Ans α)
  /-- the elements that were shown, with what was assigned to them, and whether the callback threw -/
  | shown (ps : List (α × α)) (threw : Bool)
  /-- the callback got these answers and threw -/
  | cut (rs : List (Resp α))

def Ans.pairs : Ans α → List (α × α)
  | .shown ps _ => ps
  | _ => []

def Ans.threw : Ans α → Bool
  | .shown _ b => b
  | .cut _ => true
  | .ret _ => false

/-! ## Which steps a call takes -/

/-- The plan of a call whose callback does not throw. -/
def lift : Plan (Share.Atom α κ) (Share.Ans α) (Share.Ans α) → Plan (Atom α κ) (Ans α) (Ans α)
  | .ret r => .ret (.ret r)
  | .step s k => .step (.base s) fun x => match x with
    | .ret y => lift (k y)
    | x => .ret x

/-- What a callback knows when it is copied or not at the beginning of a part. -/
def knows (own : Bool) (ps : List (α × α)) : List α := if own then [] else ps.map (·.1)

/-- Part by part until the callback throws. -/
def walk (f : Nat → List α → Atom α κ) (own : Bool) : Nat → Nat → List (α × α) → Plan (Atom α κ) (Ans α) (Ans α)
  | 0, _, ps => .ret (.shown ps false)
  | n + 1, i, ps => .step (f i (knows own ps)) fun x =>
      if x.threw then .ret (.shown (ps ++ x.pairs) true) else walk f own n (i + 1) (ps ++ x.pairs)

/-- The plan of a call on containers with `n` parts. -/
def plan (n : Nat) : Call α κ → Plan (Atom α κ) (Ans α) (Ans α)
  | .base o => lift (Share.plan n o)
  | .visit c cb => walk (fun i before => .visit c i before cb.run) cb.own n 0 []
  | .alter c cb => walk (fun i before => .alter c i before cb.run) cb.own n 0 []
  | .look c i run => .step (.visit c i [] run) .ret
  | .script c i ops => .step (.base (.script c i ops)) fun x => match x with
    | .ret (.many rs) => .ret (.cut rs)
    | x => .ret x

section
variable (key : α → κ) (eqv : κ → κ → Bool) (sub : κ → Nat)

/-! ## What a step does -/

/-- What becomes of an element: what was assigned to it if it was shown. -/
def assigned (ps : List (α × α)) (a : α) : α :=
  match ps.find? fun p => eqv (key p.1) (key a) with
  | some p => p.2
  | none => a

/-- The containers after a step with this answer. -/
def next (w : Nat → List α) : Atom α κ → Ans α → Nat → List α
  | .base s, _ => Share.next key eqv sub w s
  | .visit _ _ _ _, _ => w
  | .alter c _ _ _, x => put w c ((w c).map (assigned key eqv x.pairs))

/-- What a step may answer. -/
def Answers (weak : Bool) (w : Nat → List α) : Atom α κ → Ans α → Prop
  | .base s, x => ∃ y, x = .ret y ∧ Share.Answers key eqv sub weak w s y
  | .visit c i before run, x => ∃ l, l.Perm (Share.inside key sub (w c) i) ∧
      l.Pairwise (fun a b => eqv (key a) (key b) = false) ∧ x = .shown (tell run before l).1 (tell run before l).2
  | .alter c i before run, x => ∃ l, l.Perm (Share.inside key sub (w c) i) ∧
      l.Pairwise (fun a b => eqv (key a) (key b) = false) ∧ x = .shown (tell run before l).1 (tell run before l).2

/-- Effect and answer of a step. -/
def sem (weak : Bool) (w : Nat → List α) (s : Atom α κ) (w' : Nat → List α) (x : Ans α) : Prop :=
  w' = next key eqv sub w s x ∧ Answers key eqv sub weak w s x

/-- Preconditions: assignments keep the key; `for_each` and `with_submap` assign nothing; parts exist. -/
def Call.Valid (n : Nat) : Call α κ → Prop
  | .base o => o.Valid key sub n
  | .visit _ cb => ∀ h a, (cb.run h a).1 = a
  | .alter _ cb => ∀ h a, key (cb.run h a).1 = key a
  | .look _ i run => i < n ∧ ∀ h a, (run h a).1 = a
  | .script c i ops => (Share.Call.withSubmapM c i ops).Valid key sub n

/-! ## What happens during a call -/

/-- In the explanation `E`, thread `t` makes the call `o` and gets the answer `r`; `E1` is what happens before the call,
`E2` what happens during the call. -/
structure During {op : Type} (E : List (SEvent op st ρ' ρ)) (t : Nat) (o : op) (r : ρ) (E1 E2 : List (SEvent op st ρ' ρ)) :
    Prop where
  split : ∃ E3, E = E1 ++ .inv t o :: (E2 ++ .ret t r :: E3)
  own : ∀ e ∈ E2, e.tid = t → ∃ s x, e = .eff t s x

/-- The containers after the steps of an explanation. -/
def after {op : Type} (w : Nat → List α) (E : List (SEvent op (Atom α κ) (Ans α) (Ans α))) : Nat → List α :=
  (E.filterMap SEvent.step).foldl (fun w s => next key eqv sub w s.1 s.2) w

/-- `m` is what the containers hold at some instant of the call. -/
def Instant {op : Type} (w : Nat → List α) (E1 E2 : List (SEvent op (Atom α κ) (Ans α) (Ans α))) (m : Nat → List α) : Prop :=
  ∃ F G, E2 = F ++ G ∧ m = after key eqv sub w (E1 ++ F)

/-- What a callback knows when it is shown `a` after `l`: everything, or, if it keeps its state in itself, what it has been
shown of the part that `a` belongs to. -/
def since (own : Bool) (l : List α) (a : α) : List α := if own then l.filter fun b => sub (key b) == sub (key a) else l

/-- The callback has done its work: it has assigned to every element that it was shown what it wants to assign, and it
threw at the last one if the call threw, and at no other. -/
def Served (cb : Cb α) (ps : List (α × α)) (threw : Bool) : Prop :=
  (threw = true → ps ≠ []) ∧
  ∀ X a b Y, ps = X ++ (a, b) :: Y →
    b = (cb.run (since key sub cb.own (X.map (·.1)) a) a).1 ∧
    ((cb.run (since key sub cb.own (X.map (·.1)) a) a).2 = true ↔ Y = [] ∧ threw = true)

end
end Gtl.Spec.Walk
