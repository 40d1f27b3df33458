import Verif.Vec.Step
import Verif.Vec.Stay
/-
What the user sees of the vectors, and the worlds a program can reach.
-/
namespace Gtl.Vec
open M Gtl.Spec.Seq

variable {α β : Type}

/-- The elements a vector shows: what is in the first `size()` cells of its buffer. -/
def contents (w : World α) (v : Vec) : List α := (List.range v.e).filterMap fun k => v.b.bind fun p => w.mem p k

/-- All vectors that exist with their elements. -/
def view (w : World α) : Env α := fun i => (w.vecs i).map (contents w)

/-- `capacity()` (vector.hpp 916) and `data()` (1054-1055) of vector `i`. -/
def capacity (w : World α) (i : Nat) : Option Nat := (w.vecs i).map Vec.z

def data (w : World α) (i : Nat) : Option (Option Nat) := (w.vecs i).map Vec.b

/-- The caller keeps the rules: the operation may be called, the bytes it asks for fit in `ptrdiff_t`,
and it is none of the operations known to be wrong. -/
structure Fair (t : Traits α) (σ : Env α) (op : Op α) : Prop where
  allowed : Allowed t.dflt σ op
  small : count op * t.size < 2 ^ 63
  supported : Supported t σ op

/-- The element type: some size, and when the code writes zero bytes for a value-initialised element,
that is the same. -/
structure Sane (t : Traits α) : Prop where
  pos : 0 < t.size
  small : t.size < 2 ^ 63
  zero : t.memset = true → t.zero = t.dflt

/-- The worlds a program reaches: from the beginning, with any operations that throw where `luck`
says so, by operations that end normally or throw. -/
inductive Reach (t : Traits α) : World α → Prop
  | init (luck : Nat → Bool) : Reach t (World.init luck)
  | ok {w w' : World α} {op : Op α} {a : Ans α} : Reach t w → Fair t (view w) op → step t w op = .ok a w' → Reach t w'
  | thrown {w w' : World α} {op : Op α} {x : Exc} : Reach t w → Fair t (view w) op → step t w op = .thrown x w' → Reach t w'

theorem filterMap_range {f : Nat → Option α} : ∀ {l : List α}, (∀ (i : Nat), i < l.length → f i = l[i]?) →
    (List.range l.length).filterMap f = l := by
  intro l h
  have : (List.range l.length).map f = l.map some := by
    apply List.ext_getElem
    · simp
    · intro i h1 h2
      simp only [List.length_map, List.length_range] at h1
      simp [h i h1, List.getElem?_eq_getElem h1]
  have h2 : (List.range l.length).filterMap f = ((List.range l.length).map f).filterMap id := by
    rw [List.filterMap_map]; rfl
  rw [h2, this, List.filterMap_map]
  simp

theorem Good.contents {t : Traits α} {w : World α} {v : Vec} {l : List α} (g : Good t (w.state v) l) : contents w v = l := by
  unfold Vec.contents
  have he : v.e = l.length := g.size
  rw [he]
  refine filterMap_range fun i hi => ?_
  rcases g.mine with ⟨h1, h2⟩ | ⟨q, h⟩
  · subst h2; simp at hi
  · have hb : v.b = some q := h.b
    rw [hb, Option.bind_some]
    have := h.has i hi
    rwa [Nat.zero_add] at this

theorem Inv.view {t : Traits α} {w : World α} {σ : Env α} (h : Inv t w σ) : view w = σ := by
  funext i
  unfold Vec.view
  cases hv : w.vecs i with
  | none => rw [h.nil i hv]; rfl
  | some v =>
    obtain ⟨l, h1, h2⟩ := h.good i v hv
    rw [h1, Option.map_some, h2.contents]

theorem Sane.initial {t : Traits α} (h : Sane t) : initial t = t.dflt := by
  unfold Vec.initial
  split
  · rename_i hm; exact h.zero hm
  · rfl

theorem Reach.inv {t : Traits α} {w : World α} (hs : Sane t) (h : Reach t w) : Inv t w (Vec.view w) := by
  have key : ∀ {w : World α} {op : Op α}, Inv t w (Vec.view w) → Fair t (Vec.view w) op → Outcome t (Vec.view w) op (step t w op) :=
    fun hi hf => step_ok hs.pos hs.small hi _ (by rw [hs.initial]; exact hf.allowed) hf.small hf.supported
  induction h with
  | init luck =>
    have := Inv.init t luck
    rwa [this.view]
  | ok _ hf he ih =>
    have := key ih hf
    rw [he] at this
    obtain ⟨σ', _, h'⟩ := this
    rwa [h'.view]
  | thrown _ hf he ih =>
    have := key ih hf
    rw [he] at this
    obtain ⟨_, _, σ', _, h'⟩ := this
    rwa [h'.view]

theorem Reach.outcome {t : Traits α} {w : World α} {op : Op α} (hs : Sane t) (h : Reach t w) (hf : Fair t (Vec.view w) op) :
    Outcome t (Vec.view w) op (step t w op) :=
  step_ok hs.pos hs.small (h.inv hs) _ (by rw [hs.initial]; exact hf.allowed) hf.small hf.supported

/-- A member function that ended normally. -/
theorem on_result {w w' : World α} {i : Nat} {v : Vec} {m : M α β} {f : β → Ans α} {a : Ans α} {Q : β → St α → Prop}
    {E : Exc → St α → Prop} (hv : w.vecs i = some v) (hm : wp m (w.state v) Q E)
    (he : w.on i (do let b ← m; return f b) = .ok a w') : ∃ b s', w'.vecs i = some s'.vec ∧ Q b s' := by
  unfold World.on at he
  rw [hv] at he
  dsimp only at he
  have : wp (do let b ← m; return f b) (w.state v) (fun _ s' => ∃ b, Q b s') E := by
    rw [wp_bind]
    exact wp_mono hm (fun b s' h => ⟨b, h⟩) (fun _ _ h => h)
  unfold wp at this
  split at this
  · rename_i b s' e
    rw [e] at he
    injection he with _ he
    subst he
    obtain ⟨b, hb⟩ := this
    exact ⟨b, s', by simp [World.after], hb⟩
  · rename_i e; rw [e] at he; cases he
  · rename_i e; rw [e] at he; cases he

/-! ### Whole programs -/

/-- The program `ops` when nothing throws. -/
def run (t : Traits α) (w : World α) : List (Op α) → Option (World α × List (Ans α))
  | [] => some (w, [])
  | op :: ops =>
    match step t w op with
    | .ok a w' => (run t w' ops).map fun r => (r.1, a :: r.2)
    | _ => none

end Gtl.Vec
