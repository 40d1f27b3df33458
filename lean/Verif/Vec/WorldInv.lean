import Verif.Vec.World
import Verif.Vec.Ops7
import Verif.Vec.Ops3
/-
The invariant of programs that use any number of vectors.
-/
namespace Gtl.Vec
open M Gtl.Spec.Seq

variable {α β : Type}

/-- The vectors of `w` have the elements `σ`, and own disjoint memory and all there is. -/
structure Inv (t : Traits α) (w : World α) (σ : Env α) : Prop where
  fresh : ∀ p, w.next ≤ p → w.len p = none
  good : ∀ i v, w.vecs i = some v → ∃ l, σ i = some l ∧ Good t (w.state v) l
  nil : ∀ i, w.vecs i = none → σ i = none
  apart : ∀ i j u v q, i ≠ j → w.vecs i = some u → w.vecs j = some v → u.b = some q → v.b ≠ some q
  owned : ∀ p n, w.len p = some n → ∃ i v, w.vecs i = some v ∧ v.b = some p

theorem Inv.init (t : Traits α) (luck : Nat → Bool) : Inv t (World.init luck) (fun _ => none) :=
  ⟨fun _ _ => rfl, fun _ _ h => (by cases h), fun _ _ => rfl, fun _ _ _ _ _ _ h => (by cases h), fun _ _ h => (by cases h)⟩

theorem Inv.vec {t : Traits α} {w : World α} {σ : Env α} {i : Nat} {l : List α} (h : Inv t w σ) (hl : σ i = some l) :
    ∃ v, w.vecs i = some v ∧ Good t (w.state v) l := by
  cases hv : w.vecs i with
  | none => rw [h.nil i hv] at hl; cases hl
  | some v =>
    obtain ⟨l', h1, h2⟩ := h.good i v hv
    rw [hl] at h1
    injection h1 with h1
    subst h1
    exact ⟨v, rfl, h2⟩

theorem Inv.absent {t : Traits α} {w : World α} {σ : Env α} {i : Nat} (h : Inv t w σ) (hl : σ i = none) : w.vecs i = none := by
  cases hv : w.vecs i with
  | none => rfl
  | some v =>
    obtain ⟨l', h1, h2⟩ := h.good i v hv
    rw [hl] at h1; cases h1

theorem null_state {t : Traits α} {w : World α} {σ : Env α} (h : Inv t w σ) : Good t (w.state ⟨none, 0, 0⟩) [] :=
  ⟨h.fresh, .inl ⟨rfl, rfl⟩⟩

/-- An operation of vector `i` that is `v` (null when it does not exist yet). -/
theorem Inv.after {t : Traits α} {w : World α} {σ : Env α} {i : Nat} {v : Vec} {s' : St α} {l' : List α} (h : Inv t w σ)
    (hv : w.vecs i = some v ∨ (w.vecs i = none ∧ v = ⟨none, 0, 0⟩)) (r : Rel (w.state v) s') (g' : Good t s' l')
    (o : Option Vec) (ol : Option (List α))
    (ho : (o = some s'.vec ∧ ol = some l') ∨ (o = none ∧ ol = none ∧ s'.vec.b = none)) :
    Inv t (w.after i s' o) (put σ i ol) := by
  have hap : ∀ j u, j ≠ i → w.vecs j = some u → ∀ q, u.b = some q → v.b ≠ some q := by
    intro j u hj hu q hq
    rcases hv with hv | ⟨_, rfl⟩
    · exact h.apart j i u v q hj hu hv hq
    · simp
  have hoth : ∀ j u, j ≠ i → w.vecs j = some u → ∃ l, σ j = some l ∧ Good t { s' with vec := u } l ∧ ∀ q, u.b = some q → s'.vec.b ≠ some q := by
    intro j u hj hu
    obtain ⟨l, h1, h2⟩ := h.good j u hu
    exact ⟨l, h1, Good.other (s := w.state v) h2 (hap j u hj hu) r g'⟩
  refine ⟨fun p hp => g'.fresh p hp, fun j u hu => ?_, fun j hj => ?_, fun j k u u' q hjk hu hu' hq => ?_, fun p n hp => ?_⟩
  · simp only [World.after] at hu
    by_cases hj : j = i
    · subst hj
      rw [if_pos rfl] at hu
      rcases ho with ⟨rfl, rfl⟩ | ⟨rfl, _⟩
      · injection hu with hu
        subst hu
        exact ⟨l', by simp [put], g'⟩
      · cases hu
    · rw [if_neg hj] at hu
      obtain ⟨l, h1, h2, _⟩ := hoth j u hj hu
      exact ⟨l, by simp [put, hj, h1], h2⟩
  · simp only [World.after] at hj
    by_cases hji : j = i
    · subst hji
      rw [if_pos rfl] at hj
      rcases ho with ⟨rfl, rfl⟩ | ⟨_, rfl, _⟩
      · cases hj
      · simp [put]
    · rw [if_neg hji] at hj
      simp [put, hji, h.nil j hj]
  · simp only [World.after] at hu hu'
    by_cases hj : j = i
    · subst hj
      rw [if_pos rfl] at hu
      rw [if_neg (fun e => hjk e.symm)] at hu'
      obtain ⟨_, _, _, h3⟩ := hoth k u' (fun e => hjk e.symm) hu'
      rcases ho with ⟨rfl, _⟩ | ⟨rfl, _⟩
      · injection hu with hu
        subst hu
        exact fun hc => h3 q hc hq
      · cases hu
    · rw [if_neg hj] at hu
      obtain ⟨_, _, _, h3⟩ := hoth j u hj hu
      by_cases hk : k = i
      · rw [if_pos hk] at hu'
        rcases ho with ⟨rfl, _⟩ | ⟨rfl, _⟩
        · injection hu' with hu'
          subst hu'
          exact h3 q hq
        · cases hu'
      · rw [if_neg hk] at hu'
        exact h.apart j k u u' q hjk hu hu' hq
  · have hp' : s'.len p = some n := hp
    by_cases hb : s'.vec.b = some p
    · rcases ho with ⟨rfl, _⟩ | ⟨_, _, hn⟩
      · exact ⟨i, s'.vec, by simp [World.after], hb⟩
      · rw [hn] at hb; cases hb
    · by_cases hlt : p < w.next
      · have hvb : v.b ≠ some p := fun hc => by
          rcases r.old p hc with h1 | h1
          · exact hb h1
          · rw [hp'] at h1; cases h1
        have hf : s'.len p = w.len p := (r.frame p hlt hvb).1
        obtain ⟨j, u, h1, h2⟩ := h.owned p n (by rw [← hf]; exact hp')
        have hj : j ≠ i := by
          rintro rfl
          rcases hv with hv | ⟨hv, _⟩
          · rw [h1] at hv
            injection hv with hv
            subst hv
            exact hvb h2
          · rw [h1] at hv; cases hv
        exact ⟨j, u, by simp [World.after, hj, h1], h2⟩
      · have := r.new p (by show w.next ≤ p; omega) hb
        rw [hp'] at this; cases this

theorem put_same {σ : Env α} {i : Nat} {l : Option (List α)} (h : σ i = l) : put σ i l = σ := by
  funext j
  unfold put
  split
  · rename_i e; rw [e, h]
  · rfl

/-- How many elements an operation asks for. -/
def count : Op α → Nat
  | .createSized _ n | .createFill _ n _ | .reserve _ n | .resize _ n | .resizeWith _ n _ | .assignFill _ n _ | .insertFill _ _ n _ => n
  | .createRange _ xs _ | .assignRange _ xs _ | .insertRange _ _ xs _ => xs.length
  | .pushBack _ _ | .insert _ _ _ | .emplace _ _ _ => 1
  | _ => 0

/-- An upper bound for the number of elements the operation deals with. -/
def extent (σ : Env α) (op : Op α) : Nat :=
  ((σ (target op)).map List.length).getD 0 + count op +
    match op with
    | .createCopy _ j | .copyAssign _ j => ((σ j).map List.length).getD 0
    | _ => 0

/-- The operations that are right. `emplace` of the vector's own element is not, `shrink_to_fit` is
only for elements that can be copied or moved without exceptions. -/
def Supported (t : Traits α) (σ : Env α) : Op α → Prop
  | .emplace i pos x => x.inside i = false ∨ (σ i).map List.length = some pos
  | .shrinkToFit _ => Safe t
  | _ => True

/-- A value-initialised element, as the code makes it. -/
def initial (t : Traits α) : α := if t.memset then t.zero else t.dflt

/-- What an operation may do. -/
def Outcome (t : Traits α) (σ : Env α) (op : Op α) : Out (World α) (Ans α) → Prop
  | .ok a w' => ∃ σ', effect (initial t) σ op = some (σ', a) ∧ Inv t w' σ'
  | .thrown x w' => (x = .range ↔ outOfRange σ op = true) ∧ (x = .huge → Big t (extent σ op)) ∧
      ∃ σ', AfterThrow (Safe t) σ op σ' ∧ Inv t w' σ'
  | .ub => False

/-- What an operation on one vector leaves when it throws. -/
def Failed (t : Traits α) (σ : Env α) (op : Op α) (s : St α) (l : List α) (x : Exc) (s' : St α) : Prop :=
  Rel s s' ∧ (x = .range ↔ outOfRange σ op = true) ∧ (x = .huge → Big t (extent σ op)) ∧ noexcept op = false ∧
    ∃ l', Good t s' l' ∧ (strong σ op = true → Semi t l l')

theorem Bad.failed {t : Traits α} {σ : Env α} {op : Op α} {s s' : St α} {l : List α} {B : Prop} {P : List α → Prop} {x : Exc}
    (h : Bad t s B P x s') (hB : B → Big t (extent σ op)) (hr : outOfRange σ op = false) (hn : noexcept op = false)
    (hP : ∀ l', P l' → strong σ op = true → Semi t l l') : Failed t σ op s l x s' := by
  obtain ⟨h1, h2, h3, l', h4, h5⟩ := h
  exact ⟨h3, by simp [h2, hr], fun e => hB (h1 e), hn, l', h5, hP l' h4⟩

theorem on_outcome {t : Traits α} {w : World α} {σ : Env α} {op : Op α} {l : List α} {m : M α (Ans α)} (h : Inv t w σ)
    (i : Nat) (hi : target op = i) (hl : σ i = some l)
    (hm : ∀ v, w.vecs i = some v → Good t (w.state v) l → wp m (w.state v)
      (fun a s' => Rel (w.state v) s' ∧ ∃ l', Good t s' l' ∧ effect (initial t) σ op = some (put σ i (some l'), a))
      (Failed t σ op (w.state v) l)) : Outcome t σ op (w.on i m) := by
  obtain ⟨v, hv, g⟩ := h.vec hl
  have := hm v hv g
  unfold World.on
  rw [hv]
  unfold wp at this
  dsimp only
  split at this
  · rename_i a s' e
    rw [e]
    obtain ⟨r, l', g', he⟩ := this
    exact ⟨_, he, h.after (.inl hv) r g' _ _ (.inl ⟨rfl, rfl⟩)⟩
  · rename_i x s' e
    rw [e]
    obtain ⟨r, hr, hh, hn, l', g', hp⟩ := this
    refine ⟨hr, hh, put σ i (some l'), ⟨hn, fun j hj => ?_, ?_, fun hs => ?_, fun hsafe hs => ?_⟩,
      h.after (.inl hv) r g' _ _ (.inl ⟨rfl, rfl⟩)⟩
    · rw [hi] at hj; simp [put, hj]
    · rw [hi]; simp [put, hl]
    · rw [hi]; simp [put, hl, (hp hs).1]
    · rw [(hp hs).2 hsafe, put_same hl]
  · exact this.elim

theorem make_outcome {t : Traits α} {w : World α} {σ : Env α} {op : Op α} {m : M α (Ans α)} (h : Inv t w σ)
    (i : Nat) (hi : target op = i) (hl : σ i = none)
    (hm : Good t (w.state ⟨none, 0, 0⟩) [] → wp m (w.state ⟨none, 0, 0⟩)
      (fun a s' => Rel (w.state ⟨none, 0, 0⟩) s' ∧ ∃ l', Good t s' l' ∧ effect (initial t) σ op = some (put σ i (some l'), a))
      (fun x s' => Failed t σ op (w.state ⟨none, 0, 0⟩) [] x s' ∧ s'.vec = ⟨none, 0, 0⟩)) :
    Outcome t σ op (w.make i m) := by
  have hv := h.absent hl
  have := hm (null_state h)
  unfold World.make
  rw [hv]
  unfold wp at this
  dsimp only
  split at this
  · rename_i a s' e
    rw [e]
    obtain ⟨r, l', g', he⟩ := this
    exact ⟨_, he, h.after (.inr ⟨hv, rfl⟩) r g' _ _ (.inl ⟨rfl, rfl⟩)⟩
  · rename_i x s' e
    rw [e]
    obtain ⟨⟨r, hr, hh, hn, l', g', hp⟩, hnull⟩ := this
    have hinv := h.after (.inr ⟨hv, rfl⟩) r g' none none (.inr ⟨rfl, rfl, by rw [hnull]⟩)
    rw [put_same hl] at hinv
    exact ⟨hr, hh, σ, ⟨hn, fun j hj => rfl, rfl, fun hs => rfl, fun hsafe hs => rfl⟩, hinv⟩
  · exact this.elim

/-! ### Arguments -/

theorem Inv.arg {t : Traits α} {w : World α} {σ : Env α} {x : Arg α} {a : α} (h : Inv t w σ) (hx : x.value σ = some a)
    (i : Nat) (v : Vec) (hv : w.vecs i = some v ∨ (w.vecs i = none ∧ v = ⟨none, 0, 0⟩)) :
    ∃ y, w.src x = some y ∧ Stable (w.state v) y a ∧ (x.inside i = false → Outside (w.state v) y a) := by
  cases x with
  | ext b =>
    injection hx with hx
    subst hx
    exact ⟨_, rfl, Stable.val, fun _ => Outside.val⟩
  | elem j k =>
    simp only [Arg.value, Option.bind_eq_some_iff] at hx
    obtain ⟨m, hm, hk⟩ := hx
    obtain ⟨u, hu, g⟩ := h.vec hm
    have hlt : k < m.length := (List.getElem?_eq_some_iff.mp hk).1
    have hsz : u.e = m.length := g.size
    have hsrc : w.src (.elem j k) = some (.ref u.b k) := by
      simp [World.src, hu, hsz, hlt]
    have hout : j ≠ i → Outside (w.state v) (.ref u.b k) a := by
      intro hj
      have hap : ∀ q, u.b = some q → v.b ≠ some q := by
        intro q hq
        rcases hv with hv | ⟨_, rfl⟩
        · exact h.apart j i u v q hj hu hv hq
        · simp
      have := refs_outside (s := w.state v) (o := u) (lo := m) g hap k 1 (by omega)
      unfold refs at this
      rw [List.range'_one, List.map_singleton, List.drop_eq_getElem_cons hlt, List.take_succ_cons, List.take_zero] at this
      cases this with
      | cons h1 _ =>
        have e : m[k] = a := by
          rw [List.getElem?_eq_getElem hlt] at hk; injection hk
        rw [← e]; exact h1
    refine ⟨_, hsrc, ?_, fun hin => hout ?_⟩
    · by_cases hj : j = i
      · subst hj
        rcases hv with hv | ⟨hv, _⟩
        · rw [hu] at hv
          injection hv with hv
          subst hv
          exact Stable.elem g hk
        · rw [hu] at hv; cases hv
      · exact (hout hj).stable
    · simpa [Arg.inside] using hin

theorem Inv.args {t : Traits α} {w : World α} {σ : Env α} {xs : List (Arg α)} {as : List α} (h : Inv t w σ)
    (hx : values σ xs = some as) (i : Nat) (v : Vec) (hv : w.vecs i = some v ∨ (w.vecs i = none ∧ v = ⟨none, 0, 0⟩)) :
    ∃ ys, w.srcs xs = some ys ∧ List.Forall₂ (Stable (w.state v)) ys as ∧
      (xs.any (Arg.inside i) = false → List.Forall₂ (Outside (w.state v)) ys as) := by
  induction xs generalizing as with
  | nil =>
    injection hx with hx
    subst hx
    exact ⟨[], rfl, .nil, fun _ => .nil⟩
  | cons x xs ih =>
    simp only [values, Option.bind_eq_some_iff, Option.map_eq_some_iff] at hx
    obtain ⟨a, ha, bs, hbs, rfl⟩ := hx
    obtain ⟨y, e1, e2, e3⟩ := h.arg ha i v hv
    obtain ⟨ys, f1, f2, f3⟩ := ih hbs
    refine ⟨y :: ys, by simp [World.srcs, e1, f1], .cons e2 f2, fun hn => ?_⟩
    simp only [List.any_cons, Bool.or_eq_false_iff] at hn
    exact .cons (e3 hn.1) (f3 hn.2)

theorem values_length {σ : Env α} {xs : List (Arg α)} {as : List α} (hx : values σ xs = some as) : as.length = xs.length := by
  induction xs generalizing as with
  | nil => injection hx with hx; subst hx; rfl
  | cons x xs ih =>
    simp only [values, Option.bind_eq_some_iff, Option.map_eq_some_iff] at hx
    obtain ⟨a, ha, bs, hbs, rfl⟩ := hx
    simp [ih hbs]

/-! ### Comparison -/

theorem equalLoop_ok {t : Traits α} {eq : α → α → Bool} {s : St α} {o : Vec} {l m : List α} {E : Exc → St α → Prop}
    (g : Good t s l) (go : Good t { s with vec := o } m) (n : Nat) :
    ∀ i, i + n = l.length → i + n = m.length →
      wp (equalLoop eq s.vec.b o.b i n) s (fun b s' => s' = s ∧ b = all2 eq (l.drop i) (m.drop i)) E := by
  induction n with
  | zero =>
    intro i h1 h2
    rw [List.drop_of_length_le (by omega), List.drop_of_length_le (by omega)]
    exact ⟨rfl, rfl⟩
  | succ n ih =>
    intro i h1 h2
    have hl : i < l.length := by omega
    have hm : i < m.length := by omega
    obtain ⟨q, hq⟩ := g.block hl
    obtain ⟨r, hr⟩ := go.block hm
    have hob : o.b = some r := hr.b
    unfold equalLoop
    rw [wp_bind, hq.b]
    refine wp_get (hq.room hl) (by rw [hq.get hl, List.getElem?_eq_getElem hl]) ?_
    rw [wp_bind, hob]
    refine wp_get (a := m[i]) (s := s) (hr.room hm) (by have := hr.get hm; rw [List.getElem?_eq_getElem hm] at this; exact this) ?_
    rw [List.drop_eq_getElem_cons hl, List.drop_eq_getElem_cons hm]
    unfold all2
    by_cases hc : eq l[i] m[i] = true
    · rw [if_pos hc, hc, Bool.true_and, ← hq.b, ← hob]
      exact ih (i + 1) (by omega) (by omega)
    · rw [if_neg hc]
      simp only [Bool.not_eq_true] at hc
      rw [hc, Bool.false_and]
      exact ⟨rfl, rfl⟩

theorem all2_length {eq : α → α → Bool} {l m : List α} (h : l.length ≠ m.length) : all2 eq l m = false := by
  induction l generalizing m with
  | nil => cases m <;> simp [all2] at *
  | cons a l ih =>
    cases m with
    | nil => rfl
    | cons b m => simp [all2, ih (m := m) (by simpa using h)]

theorem equal_ok {t : Traits α} {eq : α → α → Bool} {s : St α} {o : Vec} {l m : List α} {E : Exc → St α → Prop}
    (g : Good t s l) (go : Good t { s with vec := o } m) :
    wp (equal eq o) s (fun b s' => s' = s ∧ b = all2 eq l m) E := by
  unfold equal
  have h2 : o.e = m.length := go.size
  rw [wp_bind, wp_self, g.size, h2]
  by_cases h : l.length = m.length
  · rw [if_pos h]
    exact equalLoop_ok g go _ 0 (by omega) (by omega)
  · rw [if_neg h, all2_length h]
    exact ⟨rfl, rfl⟩

theorem lessLoop_ok {t : Traits α} {lt : α → α → Bool} {s : St α} {o : Vec} {l m : List α} {E : Exc → St α → Prop}
    (g : Good t s l) (go : Good t { s with vec := o } m) (n : Nat) :
    ∀ i k, i + n = l.length → i + k = m.length →
      wp (lessLoop lt s.vec.b o.b i n k) s (fun b s' => s' = s ∧ b = lexLess lt (l.drop i) (m.drop i)) E := by
  induction n with
  | zero =>
    intro i k h1 h2
    cases k with
    | zero =>
      rw [List.drop_of_length_le (l := m) (by omega)]
      unfold lessLoop lexLess
      exact ⟨rfl, by cases l.drop i <;> rfl⟩
    | succ k =>
      rw [List.drop_of_length_le (l := l) (by omega), List.drop_eq_getElem_cons (l := m) (by omega)]
      exact ⟨rfl, rfl⟩
  | succ n ih =>
    intro i k h1 h2
    cases k with
    | zero =>
      rw [List.drop_of_length_le (l := m) (by omega)]
      unfold lessLoop lexLess
      exact ⟨rfl, by cases l.drop i <;> rfl⟩
    | succ k =>
      have hl : i < l.length := by omega
      have hm : i < m.length := by omega
      obtain ⟨q, hq⟩ := g.block hl
      obtain ⟨r, hr⟩ := go.block hm
      have hob : o.b = some r := hr.b
      unfold lessLoop
      rw [wp_bind, hq.b]
      refine wp_get (hq.room hl) (by rw [hq.get hl, List.getElem?_eq_getElem hl]) ?_
      rw [wp_bind, hob]
      refine wp_get (a := m[i]) (s := s) (hr.room hm) (by have := hr.get hm; rw [List.getElem?_eq_getElem hm] at this; exact this) ?_
      rw [List.drop_eq_getElem_cons hl, List.drop_eq_getElem_cons hm]
      unfold lexLess
      by_cases hc : lt l[i] m[i] = true
      · rw [if_pos hc, if_pos hc]
        exact ⟨rfl, rfl⟩
      · rw [if_neg hc, if_neg hc]
        by_cases hd : lt m[i] l[i] = true
        · rw [if_pos hd, if_pos hd]
          exact ⟨rfl, rfl⟩
        · rw [if_neg hd, if_neg hd, ← hq.b, ← hob]
          exact ih (i + 1) k (by omega) (by omega)

theorem less_ok {t : Traits α} {lt : α → α → Bool} {s : St α} {o : Vec} {l m : List α} {E : Exc → St α → Prop}
    (g : Good t s l) (go : Good t { s with vec := o } m) :
    wp (less lt o) s (fun b s' => s' = s ∧ b = lexLess lt l m) E := by
  unfold less
  have h2 : o.e = m.length := go.size
  rw [wp_bind, wp_self, g.size, h2]
  exact lessLoop_ok g go _ 0 _ (by omega) (by omega)

end Gtl.Vec
