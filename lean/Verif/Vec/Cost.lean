import Verif.Vec.View
import Verif.Spec.SeqCost
/-
How often elements move to another buffer.
-/
namespace Gtl.Vec
open M Gtl.Spec.Seq

variable {α β γ : Type}

/-- The elements of vector `i` moved to another buffer by an operation: all of them, when `data()` or
`capacity()` is different afterwards (vector.hpp 1139-1199, 1361-1377), otherwise none. -/
def moved (i : Nat) (w w' : World α) : Nat :=
  if data w' i = data w i ∧ capacity w' i = capacity w i then 0 else ((view w i).map List.length).getD 0

/-- `ops`, called one after the other as the rules say, end normally; they move `n` elements of
vector `i` in all. -/
inductive Path (t : Traits α) (i : Nat) : World α → List (Op α) → Nat → World α → Prop
  | nil (w : World α) : Path t i w [] 0 w
  | cons {w w' w'' : World α} {op : Op α} {ops : List (Op α)} {a : Ans α} {n : Nat} : Fair t (view w) op →
      step t w op = .ok a w' → Path t i w' ops n w'' → Path t i w (op :: ops) (moved i w w' + n) w''

/-! ### The new capacity -/

theorem wlp_true {m : M α β} {s : St α} : wlp m s (fun _ _ => True) (fun _ => True) := by
  unfold wlp
  cases m s <;> trivial

theorem wlp_skip {m : M α β} {f : β → M α γ} {s : St α} {Q : γ → St α → Prop}
    (h : ∀ b s', wlp (f b) s' Q (fun _ => True)) : wlp (m >>= f) s Q (fun _ => True) :=
  wlp_bind (wlp_mono wlp_true (fun b s' _ => h b s') fun _ _ => trivial)

variable {t : Traits α} {s : St α}

theorem pushCap_half (t : Traits α) (z : Nat) : 3 * z ≤ 2 * pushCap t z := by
  unfold pushCap
  split
  · omega
  · split
    · omega
    · split <;> omega

theorem insertCap_half (hs : 0 < t.size) (hs' : t.size < 2 ^ 63) {v : Vec} {n : Nat} (hz : v.z * t.size < 2 ^ 63) (he : v.e ≤ v.z)
    (hn : n * t.size < 2 ^ 63) : 3 * v.z ≤ 2 * insertCap t v n := by
  unfold insertCap
  have h1 := pushCap_bytes (t := t) hs' hz
  have h2 : (v.e + n) * t.size < 2 ^ 64 := by
    have := Nat.mul_le_mul_right t.size he
    rw [Nat.add_mul]; omega
  rw [capOf_eq hs (by rcases Nat.le_total (pushCap t v.z) (v.e + n) with h | h
                      · rw [Nat.max_eq_right h]; exact h2
                      · rw [Nat.max_eq_left h]; exact h1)]
  have := pushCap_half t v.z
  omega

/-- The buffer is kept, or the capacity is one and a half times the old. -/
def Ample (u v : Vec) : Prop := Keep u v ∨ 3 * u.z ≤ 2 * v.z

theorem doRealInsert_ample {pos n : Nat} {b : Bool} {m : M α Nat} {c d : Option Nat → Nat → M α Unit}
    (hn : s.vec.z < s.vec.e + n) (hc : 3 * s.vec.z ≤ 2 * insertCap t s.vec n) :
    wlp (doRealInsert t pos n b m c d) s (fun _ s' => Ample s.vec s'.vec) (fun _ => True) := by
  unfold doRealInsert
  apply wlp_bind
  show wlp (if n = 0 then _ else _) s _ _
  by_cases h0 : n = 0
  · rw [if_pos h0]; exact .inl (Keep.refl _)
  rw [if_neg h0]
  dsimp only
  have hfresh : decide (s.vec.z < s.vec.e + n) = true := by simp; omega
  rw [hfresh]
  rw [if_neg (by simp)]
  by_cases hp : s.vec.e < pos
  · rw [if_pos hp]; trivial
  rw [if_neg hp, if_pos rfl]
  refine wlp_skip fun q s1 => wlp_skip fun _ s2 => wlp_skip fun _ s3 => ?_
  have fin : ∀ s4 : St α, wlp (do setVec ⟨some q, s.vec.e + n, insertCap t s.vec n⟩; return pos) s4
      (fun _ s' => Ample s.vec s'.vec) (fun _ => True) := fun s4 => .inr hc
  by_cases hb : s.vec.b.isSome = true
  · rw [if_pos hb]
    exact wlp_skip fun _ s4 => fin s4
  · rw [if_neg hb]
    exact fin s3

theorem insertOne_ample {pos : Nat} {x : Src α} (hn : s.vec.z < s.vec.e + 1) (hc : 3 * s.vec.z ≤ 2 * insertCap t s.vec 1) :
    wlp (insertOne t pos x) s (fun _ s' => Ample s.vec s'.vec) (fun _ => True) := by
  unfold insertOne
  apply wlp_bind
  exact doRealInsert_ample hn hc

theorem insertFill_ample {pos n : Nat} {x : Src α} (hn : s.vec.z < s.vec.e + n) (hc : 3 * s.vec.z ≤ 2 * insertCap t s.vec n) :
    wlp (insertFill t pos n x) s (fun _ s' => Ample s.vec s'.vec) (fun _ => True) := by
  unfold insertFill
  apply wlp_bind
  refine wlp_mono (wlp_same (pres_asVT (same_stab s.vec)) rfl) (fun src s' h => ?_) (fun _ _ => trivial)
  rw [← h] at hn hc ⊢
  apply wlp_bind
  exact doRealInsert_ample hn hc

theorem pushBack_ample {x : Src α} (hs : 0 < t.size) (hs' : t.size < 2 ^ 63) (hz : s.vec.z * t.size < 2 ^ 63) :
    wlp (pushBack t x) s (fun _ s' => Ample s.vec s'.vec) (fun _ => True) := by
  unfold pushBack
  apply wlp_bind
  show wlp (if s.vec.e ≠ s.vec.z then _ else _) s _ _
  by_cases h : s.vec.e ≠ s.vec.z
  · rw [if_pos h]
    refine wlp_skip fun _ s1 => .inl ⟨rfl, rfl⟩
  · rw [if_neg h]
    unfold emplaceBackAux
    apply wlp_bind
    show wlp (alloc t _ >>= _) s _ _
    refine wlp_skip fun q s1 => wlp_skip fun _ s2 => ?_
    have fin : ∀ s4 : St α, wlp (setVec ⟨some q, s.vec.e + 1, capOf t (pushCap t s.vec.z)⟩) s4
        (fun _ s' => Ample s.vec s'.vec) (fun _ => True) := fun s4 => .inr (by
          show 3 * s.vec.z ≤ 2 * capOf t (pushCap t s.vec.z)
          rw [capOf_eq hs (pushCap_bytes hs' hz)]
          exact pushCap_half t _)
    by_cases hb : s.vec.b.isSome = true
    · rw [if_pos hb]
      exact wlp_skip fun _ s4 => fin s4
    · rw [if_neg hb]
      exact fin s2

theorem insertForward_ample {pos : Nat} {xs : List (Src α)} (hn : s.vec.z < s.vec.e + xs.length)
    (hc : 3 * s.vec.z ≤ 2 * insertCap t s.vec xs.length) :
    wlp (insertForward t pos xs) s (fun _ s' => Ample s.vec s'.vec) (fun _ => True) := doRealInsert_ample hn hc

theorem emplace_ample {pos : Nat} {x : Src α} (hn : s.vec.z < s.vec.e + 1) (hc : 3 * s.vec.z ≤ 2 * insertCap t s.vec 1) :
    wlp (emplace t pos x) s (fun _ s' => Ample s.vec s'.vec) (fun _ => True) := doRealInsert_ample hn hc

/-! ### The step -/

theorem on_ample {w w' : World α} {i : Nat} {v : Vec} {m : M α β} {f : β → Ans α} {a : Ans α} (hv : w.vecs i = some v)
    (hm : wlp m (w.state v) (fun _ s' => Ample v s'.vec) (fun _ => True))
    (he : w.on i (do let b ← m; return f b) = .ok a w') : ∃ v', w'.vecs i = some v' ∧ Ample v v' := by
  unfold World.on at he
  rw [hv] at he
  dsimp only at he
  have key : wlp (do let b ← m; return f b) (w.state v) (fun _ s' => Ample v s'.vec) (fun _ => True) :=
    wlp_bind (wlp_mono hm (fun _ _ h => h) (fun _ _ => trivial))
  unfold wlp at key
  split at key
  · rename_i b s' e
    rw [e] at he
    injection he with _ he
    subst he
    exact ⟨s'.vec, by simp [World.after], key⟩
  · rename_i e; rw [e] at he; cases he
  · rename_i e; rw [e] at he; cases he

theorem arg_ok {w w' : World α} {x : Arg α} {f : Src α → Out (World α) (Ans α)} {a : Ans α} (h : w.arg x f = .ok a w') :
    ∃ y, f y = .ok a w' := by
  unfold World.arg at h
  cases hx : w.src x with
  | none => rw [hx] at h; cases h
  | some y => rw [hx] at h; exact ⟨y, h⟩

theorem args_ok {w w' : World α} {xs : List (Arg α)} {f : List (Src α) → Out (World α) (Ans α)} {a : Ans α} (h : w.args xs f = .ok a w') :
    ∃ ys, ys.length = xs.length ∧ f ys = .ok a w' := by
  unfold World.args at h
  cases hx : w.srcs xs with
  | none => rw [hx] at h; cases h
  | some y => rw [hx] at h; exact ⟨y, srcs_length hx, h⟩

theorem step_ample {w w' : World α} {op : Op α} {v : Vec} {l : List α} {a : Ans α} (hs : 0 < t.size) (hs' : t.size < 2 ^ 63)
    (hv : w.vecs (target op) = some v) (g : Good t (w.state v) l) (hg : op.gradual (target op) = true)
    (hn : count op * t.size < 2 ^ 63) (he : step t w op = .ok a w') : ∃ v', w'.vecs (target op) = some v' ∧ (Keep v v' ∨ v.z < v.e + op.adds (target op) ∧ Ample v v') := by
  have hz : v.z * t.size < 2 ^ 63 := g.bytes
  have hez : v.e ≤ v.z := by have := g.cap; have := g.size; simp only [World.state] at *; omega
  by_cases hf : Fits (fun j => ((w.vecs j).map Vec.e).getD 0) v op
  · have := step_kept t hv hf
    rw [he] at this
    obtain ⟨v', h1, h2⟩ := this
    exact ⟨v', h1, .inl h2⟩
  suffices h : (∃ v', w'.vecs (target op) = some v' ∧ Ample v v') ∧ v.z < v.e + op.adds (target op) by
    obtain ⟨⟨v', h1, h2⟩, h3⟩ := h
    exact ⟨v', h1, .inr ⟨h3, h2⟩⟩
  cases op with
  | pushBack i x =>
    obtain ⟨y, he⟩ := arg_ok he
    simp only [Fits, Nat.not_le] at hf
    refine ⟨?_, by simpa [Op.adds, target] using hf⟩
    exact on_ample hv (pushBack_ample (s := w.state v) hs hs' hz) he
  | insert i pos x =>
    obtain ⟨y, he⟩ := arg_ok he
    simp only [Fits, Nat.not_le] at hf
    refine ⟨?_, by simpa [Op.adds, target] using hf⟩
    exact on_ample hv (insertOne_ample (s := w.state v) hf (insertCap_half hs hs' hz hez hn)) he
  | emplace i pos x =>
    obtain ⟨y, he⟩ := arg_ok he
    simp only [Fits, Nat.not_le] at hf
    refine ⟨?_, by simpa [Op.adds, target] using hf⟩
    exact on_ample hv (emplace_ample (s := w.state v) hf (insertCap_half hs hs' hz hez hn)) he
  | insertFill i pos n x =>
    obtain ⟨y, he⟩ := arg_ok he
    simp only [Fits, Nat.not_le] at hf
    refine ⟨?_, by simpa [Op.adds, target] using hf⟩
    exact on_ample hv (insertFill_ample (s := w.state v) hf (insertCap_half hs hs' hz hez hn)) he
  | insertRange i pos xs input =>
    obtain ⟨ys, hy, he⟩ := args_ok he
    simp only [Fits, Nat.not_le] at hf
    have hi : input = false := by simpa [Op.gradual, target] using hg
    subst hi
    refine ⟨?_, by simpa [Op.adds, target] using hf⟩
    rw [← hy] at hf
    simp only [count] at hn
    rw [← hy] at hn
    exact on_ample hv (insertForward_ample (s := w.state v) hf (insertCap_half hs hs' hz hez hn)) he
  | popBack | clear | erase | eraseIf | write | size | index | at_ | front | back | equal | less => exact absurd trivial hf
  | _ => simp [Op.gradual, target] at hg

/-- How much longer container `i` gets. -/
theorem effect_adds {d : α} {σ σ' : Env α} {op : Op α} {a : Ans α} {i : Nat} {l : List α} (hl : σ i = some l)
    (hg : op.gradual i = true) (hi : target op = i) (he : effect d σ op = some (σ', a)) :
    ∃ l', σ' i = some l' ∧ l'.length ≤ l.length + op.adds i := by
  subst hi
  cases op with
  | pushBack i x =>
    simp only [effect, target] at *
    rw [hl] at he
    cases hx : x.value σ with
    | none => simp [hx] at he
    | some b =>
      simp only [hx, Option.bind_some, Option.map_some, Option.some.injEq, Prod.mk.injEq] at he
      rw [← he.1]
      exact ⟨l ++ [b], by simp [put], by simp [Op.adds]⟩
  | popBack i =>
    simp only [effect, target] at *
    rw [hl] at he
    by_cases hn : l = []
    · simp [hn] at he
    · simp only [Option.bind_some, if_neg hn, Option.some.injEq, Prod.mk.injEq] at he
      rw [← he.1]
      exact ⟨l.dropLast, by simp [put], by simp [Op.adds]⟩
  | clear i =>
    simp only [effect, target] at *
    rw [hl] at he
    simp only [Option.map_some, Option.some.injEq, Prod.mk.injEq] at he
    rw [← he.1]
    exact ⟨[], by simp [put], by simp⟩
  | insert i pos x =>
    simp only [effect, target] at *
    rw [hl] at he
    cases hx : x.value σ with
    | none => simp [hx] at he
    | some b =>
      simp only [hx, Option.bind_some] at he
      by_cases hp : pos ≤ l.length
      · simp only [if_pos hp, Option.some.injEq, Prod.mk.injEq] at he
        rw [← he.1]
        exact ⟨_, if_pos rfl, by simp [Op.adds, insertAt]; omega⟩
      · rw [if_neg hp] at he; cases he
  | emplace i pos x =>
    simp only [effect, target] at *
    rw [hl] at he
    cases hx : x.value σ with
    | none => simp [hx] at he
    | some b =>
      simp only [hx, Option.bind_some] at he
      by_cases hp : pos ≤ l.length
      · simp only [if_pos hp, Option.some.injEq, Prod.mk.injEq] at he
        rw [← he.1]
        exact ⟨_, if_pos rfl, by simp [Op.adds, insertAt]; omega⟩
      · rw [if_neg hp] at he; cases he
  | insertFill i pos n x =>
    simp only [effect, target] at *
    rw [hl] at he
    cases hx : x.value σ with
    | none => simp [hx] at he
    | some b =>
      simp only [hx, Option.bind_some] at he
      by_cases hp : pos ≤ l.length
      · simp only [if_pos hp, Option.some.injEq, Prod.mk.injEq] at he
        rw [← he.1]
        exact ⟨_, if_pos rfl, by simp [Op.adds, insertAt]; omega⟩
      · rw [if_neg hp] at he; cases he
  | insertRange i pos xs input =>
    simp only [effect, target] at *
    rw [hl, Option.bind_some] at he
    by_cases ha : xs.any (Arg.inside i) = true
    · rw [if_pos ha] at he; cases he
    rw [if_neg ha] at he
    cases hx : values σ xs with
    | none => simp [hx] at he
    | some as =>
      have hlen : ∀ (xs : List (Arg α)) (as : List α), values σ xs = some as → as.length = xs.length := by
        intro xs
        induction xs with
        | nil => intro as h; simp only [values, Option.some.injEq] at h; subst h; rfl
        | cons x xs ih =>
          intro as h
          simp only [values] at h
          cases h1 : x.value σ with
          | none => simp [h1] at h
          | some b =>
            cases h2 : values σ xs with
            | none => simp [h1, h2] at h
            | some bs =>
              simp only [h1, h2, Option.bind_some, Option.map_some, Option.some.injEq] at h
              subst h
              simp [ih bs h2]
      simp only [hx, Option.bind_some] at he
      by_cases hp : pos ≤ l.length
      · simp only [if_pos hp, Option.some.injEq, Prod.mk.injEq] at he
        rw [← he.1]
        exact ⟨_, if_pos rfl, by have := hlen xs as hx; simp [Op.adds, insertAt]; omega⟩
      · rw [if_neg hp] at he; cases he
  | erase i first last =>
    simp only [effect, target] at *
    rw [hl, Option.bind_some] at he
    by_cases hp : first ≤ last ∧ last ≤ l.length
    · simp only [if_pos hp, Option.some.injEq, Prod.mk.injEq] at he
      rw [← he.1]
      exact ⟨_, if_pos rfl, by simp; omega⟩
    · rw [if_neg hp] at he; cases he
  | eraseIf i p =>
    simp only [effect, target] at *
    rw [hl] at he
    simp only [Option.map_some, Option.some.injEq, Prod.mk.injEq] at he
    rw [← he.1]
    exact ⟨_, if_pos rfl, by have := List.length_filter_le (fun a => !p a) l; omega⟩
  | write i k x =>
    simp only [effect, target] at *
    rw [hl] at he
    cases hx : x.value σ with
    | none => simp [hx] at he
    | some b =>
      simp only [hx, Option.bind_some] at he
      by_cases hp : k < l.length
      · simp only [if_pos hp, Option.some.injEq, Prod.mk.injEq] at he
        rw [← he.1]
        exact ⟨_, if_pos rfl, by simp⟩
      · rw [if_neg hp] at he; cases he
  | size i =>
    simp only [effect, target] at *
    rw [hl] at he
    simp only [Option.map_some, Option.some.injEq, Prod.mk.injEq] at he
    rw [← he.1]
    exact ⟨l, hl, by omega⟩
  | index i k | at_ i k =>
    simp only [effect, target] at *
    rw [hl, Option.bind_some] at he
    cases hk : l[k]? with
    | none => simp [hk] at he
    | some b =>
      simp only [hk, Option.map_some, Option.some.injEq, Prod.mk.injEq] at he
      rw [← he.1]
      exact ⟨l, hl, by omega⟩
  | front i =>
    simp only [effect, target] at *
    rw [hl, Option.bind_some] at he
    cases hk : l.head? with
    | none => simp [hk] at he
    | some b =>
      simp only [hk, Option.map_some, Option.some.injEq, Prod.mk.injEq] at he
      rw [← he.1]
      exact ⟨l, hl, by omega⟩
  | back i =>
    simp only [effect, target] at *
    rw [hl, Option.bind_some] at he
    cases hk : l.getLast? with
    | none => simp [hk] at he
    | some b =>
      simp only [hk, Option.map_some, Option.some.injEq, Prod.mk.injEq] at he
      rw [← he.1]
      exact ⟨l, hl, by omega⟩
  | equal i j eq | less i j eq =>
    simp only [effect, target] at *
    rw [hl, Option.bind_some] at he
    cases hk : σ j with
    | none => simp [hk] at he
    | some b =>
      simp only [hk, Option.map_some, Option.some.injEq, Prod.mk.injEq] at he
      rw [← he.1]
      exact ⟨l, hl, by omega⟩
  | _ => simp [Op.gradual, target] at hg

/-- What has been saved up: `3 * size() - 2 * capacity()`. -/
def saved (v : Vec) : Nat := 3 * v.e - 2 * v.z

theorem step_paid {w w' : World α} {op : Op α} {v : Vec} {a : Ans α} {i : Nat} (hs : Sane t) (hr : Reach t w)
    (hv : w.vecs i = some v) (hg : op.gradual i = true) (hf : Fair t (Vec.view w) op) (he : step t w op = .ok a w') :
    ∃ v', w'.vecs i = some v' ∧ moved i w w' + saved v' ≤ saved v + 3 * op.adds i := by
  obtain ⟨l, hl, g⟩ := (hr.inv hs).good i v hv
  have hez : v.e ≤ v.z := by have := g.cap; have := g.size; simp only [World.state] at *; omega
  by_cases hi : target op = i
  · have hi' := hi
    subst hi
    obtain ⟨v', hv', hA⟩ := step_ample hs.pos hs.small hv g hg hf.small he
    have ho := hr.outcome hs hf
    rw [he] at ho
    obtain ⟨σ', h1, h2⟩ := ho
    obtain ⟨l', hl', hlen⟩ := effect_adds hl hg rfl h1
    obtain ⟨v'', hv'', g'⟩ := h2.vec hl'
    rw [hv'] at hv''
    injection hv'' with hv''
    subst hv''
    have e1 : v.e = l.length := g.size
    have e2 : v'.e = l'.length := g'.size
    have hz' : v'.e ≤ v'.z := by have := g'.cap; simp only [World.state] at *; omega
    refine ⟨v', hv', ?_⟩
    have hm : moved (target op) w w' ≤ v.e := by
      unfold moved
      split
      · omega
      · rw [hl, e1]; simp
    by_cases hk : Keep v v'
    · have h0 : moved (target op) w w' = 0 := by
        unfold moved
        rw [if_pos]
        simp only [data, capacity, hv, hv', Option.map_some]
        exact ⟨by rw [hk.1], by rw [hk.2]⟩
      have := hk.2
      unfold saved
      omega
    · rcases hA with hA | ⟨hA, hB⟩
      · exact absurd hA hk
      · rcases hB with hB | hB
        · exact absurd hB hk
        · unfold saved
          omega
  · have h1 : w'.vecs i = w.vecs i := by
      have := step_others t (w := w) (op := op) (j := i) (fun j k => ⟨fun e => by subst e; simp [Op.gradual] at hg,
        fun e => by subst e; simp [Op.gradual] at hg, fun e => by subst e; simp [Op.gradual] at hg⟩) (fun e => hi e.symm)
      rw [he] at this
      exact this
    refine ⟨v, by rw [h1, hv], ?_⟩
    have h0 : moved i w w' = 0 := by
      unfold moved
      rw [if_pos]
      simp [data, capacity, h1]
    omega

theorem path_paid {i : Nat} (hs : Sane t) {w w' : World α} {ops : List (Op α)} {n : Nat} (hp : Path t i w ops n w') :
    ∀ {v : Vec}, Reach t w → w.vecs i = some v → (∀ op ∈ ops, op.gradual i = true) → n ≤ saved v + 3 * totalAdds i ops := by
  induction hp with
  | nil w => exact fun _ _ _ => Nat.zero_le _
  | cons hf he _ ih =>
    intro v hr hv hg
    obtain ⟨v', hv', h1⟩ := step_paid hs hr hv (hg _ (List.mem_cons_self ..)) hf he
    have h2 := ih (hr.ok hf he) hv' (fun o ho => hg o (List.mem_cons_of_mem _ ho))
    simp only [totalAdds, List.map_cons, List.sum_cons] at h2 ⊢
    omega

end Gtl.Vec
