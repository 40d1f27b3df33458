import Verif.Vec.Model
import Mathlib.Data.List.Forall2
import Mathlib.Tactic.Tauto
/-
Reasoning about the programs of `Verif.Vec.Model`: what holds when they end,
and exact descriptions of the loops over memory.
-/
namespace Gtl.Vec
open M
variable {α β γ : Type}

/-- From `s` the program has defined behaviour, ends with `Q` or throws with `E`. -/
def wp (m : M α β) (s : St α) (Q : β → St α → Prop) (E : Exc → St α → Prop) : Prop :=
  match m s with
  | .ok b s' => Q b s'
  | .thrown x s' => E x s'
  | .ub => False

theorem wp_mono {m : M α β} {s : St α} {Q Q' : β → St α → Prop} {E E' : Exc → St α → Prop}
    (h : wp m s Q E) (hQ : ∀ b s', Q b s' → Q' b s') (hE : ∀ x s', E x s' → E' x s') : wp m s Q' E' := by
  unfold wp at *
  split at h
  · exact hQ _ _ h
  · exact hE _ _ h
  · exact h

theorem wp_bind {m : M α β} {f : β → M α γ} {s : St α} {Q : γ → St α → Prop} {E : Exc → St α → Prop} :
    wp (m >>= f) s Q E ↔ wp m s (fun b s' => wp (f b) s' Q E) E := by
  show wp (M.bind m f) s Q E ↔ _
  unfold wp M.bind
  cases m s <;> simp

theorem wp_pure {b : β} {s : St α} {Q : β → St α → Prop} {E : Exc → St α → Prop} :
    wp (Pure.pure b : M α β) s Q E ↔ Q b s := Iff.rfl

theorem wp_ub {s : St α} {Q : β → St α → Prop} {E : Exc → St α → Prop} :
    wp (M.ub : M α β) s Q E ↔ False := Iff.rfl

theorem wp_throw {x : Exc} {s : St α} {Q : β → St α → Prop} {E : Exc → St α → Prop} :
    wp (M.throw x : M α β) s Q E ↔ E x s := Iff.rfl

theorem wp_self {s : St α} {Q : Vec → St α → Prop} {E : Exc → St α → Prop} :
    wp (M.self : M α Vec) s Q E ↔ Q s.vec s := Iff.rfl

theorem wp_setVec {v : Vec} {s : St α} {Q : Unit → St α → Prop} {E : Exc → St α → Prop} :
    wp (M.setVec v : M α Unit) s Q E ↔ Q () { s with vec := v } := Iff.rfl

theorem wp_guarded {m : M α β} {r : M α Unit} {s : St α} {Q : β → St α → Prop} {E : Exc → St α → Prop} :
    wp (guarded m r) s Q E ↔ wp m s Q (fun x s' => wp r s' (fun _ s'' => E x s'') (fun _ _ => False)) := by
  unfold wp guarded
  cases h : m s with
  | ok b s' => simp
  | thrown x s' =>
    simp only
    cases h : r s' <;> simp
  | ub => simp

theorem wp_caught {m r : M α β} {s : St α} {Q : β → St α → Prop} {E : Exc → St α → Prop} :
    wp (caught m r) s Q E ↔ wp m s Q (fun _ s' => wp r s' Q E) := by
  unfold wp caught
  cases h : m s <;> simp

theorem wp_finally {m : M α β} {d : M α Unit} {s : St α} {Q : β → St α → Prop} {E : Exc → St α → Prop} :
    wp (finally_ m d) s Q E ↔
      wp m s (fun b s' => wp d s' (fun _ s'' => Q b s'') E)
        (fun x s' => wp d s' (fun _ s'' => E x s'') (fun _ _ => False)) := by
  unfold finally_
  rw [wp_bind, wp_guarded]
  simp only [wp_bind, wp_pure]

/-- The same memory blocks and vector, the memory has become `mem`. -/
def Upd (s s' : St α) (mem : Nat → Nat → Option α) : Prop :=
  s'.mem = mem ∧ s'.len = s.len ∧ s'.next = s.next ∧ s'.vec = s.vec

theorem Upd.rfl' {s : St α} : Upd s s s.mem := ⟨rfl, rfl, rfl, rfl⟩

theorem Upd.trans {s s' s'' : St α} {m m' : Nat → Nat → Option α} (h : Upd s s' m) (h' : Upd s' s'' m') :
    Upd s s'' m' := ⟨h'.1, h'.2.1.trans h.2.1, h'.2.2.1.trans h.2.2.1, h'.2.2.2.trans h.2.2.2⟩

/-- The objects `as` in the cells of `p` from `d` on. -/
def blit (mem : Nat → Nat → Option α) (p d : Nat) (as : List α) : Nat → Nat → Option α :=
  fun q i => if q = p ∧ d ≤ i ∧ i < d + as.length then as[i - d]? else mem q i

/-- The `n` cells of `p` from `d` on are empty. -/
def clr (mem : Nat → Nat → Option α) (p d n : Nat) : Nat → Nat → Option α :=
  fun q i => if q = p ∧ d ≤ i ∧ i < d + n then none else mem q i

theorem blit_nil (mem : Nat → Nat → Option α) (p d : Nat) : blit mem p d [] = mem := by
  funext q i; simp only [blit, List.length_nil]; rw [if_neg (by omega)]

theorem clr_zero (mem : Nat → Nat → Option α) (p d : Nat) : clr mem p d 0 = mem := by
  funext q i; simp only [clr]; rw [if_neg (by omega)]

theorem blit_snoc (mem : Nat → Nat → Option α) (p d : Nat) (as : List α) (a : α) :
    update (blit mem p d as) p (d + as.length) (some a) = blit mem p d (as ++ [a]) := by
  funext q i
  simp only [update, blit, List.length_append, List.length_cons, List.length_nil]
  by_cases hq : q = p
  · by_cases h1 : i = d + as.length
    · subst h1
      rw [if_pos ⟨hq, rfl⟩, if_pos ⟨hq, by omega, by omega⟩]
      have : d + as.length - d = as.length := by omega
      rw [this]; simp
    · rw [if_neg (by tauto)]
      by_cases h2 : d ≤ i ∧ i < d + as.length
      · rw [if_pos ⟨hq, h2⟩, if_pos ⟨hq, h2.1, by omega⟩, List.getElem?_append_left (by omega)]
      · rw [if_neg (by tauto), if_neg (by omega)]
  · rw [if_neg (by tauto), if_neg (by tauto), if_neg (by tauto)]

/-- `as` are the objects in the cells of `p` from `d` on. -/
def Has (s : St α) (p d : Nat) (as : List α) : Prop :=
  ∀ (i : Nat), i < as.length → s.mem p (d + i) = as[i]?

theorem blit_self {s : St α} {p d : Nat} {as : List α} (h : Has s p d as) : blit s.mem p d as = s.mem := by
  funext q i
  simp only [blit]
  split
  · rename_i hc
    obtain ⟨rfl, h1, h2⟩ := hc
    have := h (i - d) (by omega)
    rw [← this]; congr 1; omega
  · rfl

/-- The block `p` is allocated and its cells up to `n` exist. -/
def Room (s : St α) (p n : Nat) : Prop := ∃ m, s.len p = some m ∧ n ≤ m

theorem Room.mono {s : St α} {p n n' : Nat} (h : Room s p n) (hn : n' ≤ n) : Room s p n' := by
  obtain ⟨m, h1, h2⟩ := h; exact ⟨m, h1, by omega⟩

theorem Room.congr {s s' : St α} {p n : Nat} (h : Room s p n) (he : s'.len = s.len) : Room s' p n := by
  unfold Room at *; rwa [he]

/-! ### Single cells -/

theorem wp_cell {s : St α} {p i : Nat} {Q : Option α → St α → Prop} {E : Exc → St α → Prop}
    (hr : Room s p (i + 1)) (h : Q (s.mem p i) s) : wp (cell (some p) i) s Q E := by
  obtain ⟨m, h1, h2⟩ := hr
  unfold wp cell
  simp only [h1]
  rw [if_pos (by omega)]
  exact h

theorem wp_setCell {s : St α} {p i : Nat} {c : Option α} {Q : Unit → St α → Prop} {E : Exc → St α → Prop}
    (hr : Room s p (i + 1)) (h : Q () { s with mem := update s.mem p i c }) :
    wp (setCell (some p) i c) s Q E := by
  obtain ⟨m, h1, h2⟩ := hr
  unfold wp setCell
  simp only [h1]
  rw [if_pos (by omega)]
  exact h

theorem wp_get {s : St α} {p i : Nat} {a : α} {Q : α → St α → Prop} {E : Exc → St α → Prop}
    (hr : Room s p (i + 1)) (ha : s.mem p i = some a) (h : Q a s) : wp (get (some p) i) s Q E := by
  unfold get
  rw [wp_bind]
  refine wp_cell hr ?_
  rw [ha]
  exact h

/-- The source has the value `a`. -/
def Reads (s : St α) : Src α → α → Prop
  | .val b, a => b = a
  | .ref p i, a => ∃ q, p = some q ∧ Room s q (i + 1) ∧ s.mem q i = some a

theorem wp_fetch {s : St α} {src : Src α} {a : α} {Q : α → St α → Prop} {E : Exc → St α → Prop}
    (ha : Reads s src a) (h : Q a s) : wp (fetch src) s Q E := by
  cases src with
  | val b => cases ha; exact h
  | ref p i =>
    obtain ⟨q, rfl, hr, hm⟩ := ha
    exact wp_get hr hm h

theorem wp_may {s : St α} {b : Bool} {Q : Unit → St α → Prop} {E : Exc → St α → Prop}
    (h : ∀ s', Upd s s' s.mem → Q () s') (he : ∀ s', b = true → Upd s s' s.mem → E .failed s') :
    wp (may b) s Q E := by
  unfold wp may
  cases b with
  | false => exact h s Upd.rfl'
  | true =>
    simp only [if_true]
    cases s.luck 0 with
    | false => exact h _ ⟨rfl, rfl, rfl, rfl⟩
    | true => exact he _ rfl ⟨rfl, rfl, rfl, rfl⟩

theorem Reads.congr {s s' : St α} {src : Src α} {a : α} (h : Reads s src a) (hm : s'.mem = s.mem)
    (hl : s'.len = s.len) : Reads s' src a := by
  cases src with
  | val b => exact h
  | ref p i =>
    obtain ⟨q, h1, h2, h3⟩ := h
    exact ⟨q, h1, h2.congr hl, by rw [hm]; exact h3⟩

theorem wp_place {t : Traits α} {s : St α} {p i : Nat} {a : α} {Q : Unit → St α → Prop} {E : Exc → St α → Prop}
    (hr : Room s p (i + 1)) (hc : t.bits = false → s.mem p i = none)
    (h : Q () { s with mem := update s.mem p i (some a) }) : wp (place t (some p) i a) s Q E := by
  unfold place
  rw [wp_bind]
  refine wp_cell hr ?_
  have : ((s.mem p i).isNone || t.bits) = true := by
    cases hb : t.bits with
    | true => simp
    | false => simp [hc hb]
  rw [if_pos this]
  exact wp_setCell hr h

theorem wp_build {t : Traits α} {s : St α} {p i : Nat} {src : Src α} {a : α}
    {Q : Unit → St α → Prop} {E : Exc → St α → Prop}
    (ha : Reads s src a) (hr : Room s p (i + 1)) (hc : t.bits = false → s.mem p i = none)
    (h : ∀ s', Upd s s' (update s.mem p i (some a)) → Q () s')
    (he : ∀ s', t.bits = false → Upd s s' s.mem → E .failed s') : wp (build t (some p) i src) s Q E := by
  unfold build
  rw [wp_bind]
  refine wp_fetch ha ?_
  rw [wp_bind]
  refine wp_may (fun s1 h1 => ?_) (fun s1 hb h1 => he s1 (by simpa using hb) h1)
  refine wp_place (hr.congr h1.2.1) (fun hb => by rw [h1.1]; exact hc hb) (h _ ?_)
  exact ⟨by simp only [h1.1], h1.2.1, h1.2.2.1, h1.2.2.2⟩

theorem wp_buildMove {t : Traits α} {s : St α} {p i q j : Nat} {a : α}
    {Q : Unit → St α → Prop} {E : Exc → St α → Prop}
    (hq : Room s q (j + 1)) (ha : s.mem q j = some a) (hr : Room s p (i + 1)) (hc : s.mem p i = none)
    (h : ∀ s', Upd s s' (update (update s.mem q j (some (t.husk a))) p i (some a)) → Q () s')
    (he : ∀ s', t.nothrow = false → Upd s s' (update s.mem q j (some (t.husk a))) → E .failed s') :
    wp (buildMove t (some p) i (some q) j) s Q E := by
  unfold buildMove
  rw [wp_bind]
  refine wp_get hq ha ?_
  rw [wp_bind, wp_guarded]
  refine wp_may (fun s1 h1 => ?_) (fun s1 hb h1 => ?_)
  · rw [wp_bind]
    refine wp_setCell (hq.congr h1.2.1) ?_
    refine wp_place (Room.congr hr h1.2.1) (fun _ => ?_) (h _ ?_)
    · simp only [h1.1, update]
      rw [if_neg]
      · exact hc
      · rintro ⟨rfl, rfl⟩; rw [hc] at ha; cases ha
    · exact ⟨by simp only [h1.1], h1.2.1, h1.2.2.1, h1.2.2.2⟩
  · refine wp_setCell (hq.congr h1.2.1) (he _ (by simpa using hb) ?_)
    exact ⟨by simp only [h1.1], h1.2.1, h1.2.2.1, h1.2.2.2⟩

theorem wp_destroy {t : Traits α} {s : St α} {p i : Nat} {Q : Unit → St α → Prop} {E : Exc → St α → Prop}
    (hr : Room s p (i + 1)) (hc : t.bits = false → (s.mem p i).isSome)
    (h : Q () { s with mem := if t.bits then s.mem else clr s.mem p i 1 }) : wp (destroy t (some p) i) s Q E := by
  unfold destroy
  cases hb : t.bits with
  | true =>
    simp only [hb, if_true] at h ⊢
    rw [wp_bind]
    exact wp_cell hr h
  | false =>
    simp only [hb, if_false, Bool.false_eq_true] at h ⊢
    obtain ⟨a, ha⟩ := Option.isSome_iff_exists.mp (hc hb)
    rw [wp_bind]
    refine wp_get hr ha (wp_setCell hr ?_)
    have : update s.mem p i none = clr s.mem p i 1 := by
      funext q k; simp only [update, clr]
      by_cases h : q = p ∧ k = i
      · rw [if_pos h, if_pos (by omega)]
      · rw [if_neg h, if_neg (by omega)]
    rw [this]; exact h

/-- What destroying `n` objects leaves. -/
def gone (t : Traits α) (mem : Nat → Nat → Option α) (p d n : Nat) : Nat → Nat → Option α :=
  if t.bits then mem else clr mem p d n

theorem wp_destroyN {t : Traits α} {p : Nat} {Q : Unit → St α → Prop} {E : Exc → St α → Prop} (n : Nat) :
    ∀ (lo : Nat) (s : St α), Room s p (lo + n) →
      (t.bits = false → ∀ i, lo ≤ i → i < lo + n → (s.mem p i).isSome) →
      Q () { s with mem := gone t s.mem p lo n } → wp (destroyN t (some p) lo n) s Q E := by
  induction n with
  | zero =>
    intro lo s _ _ h
    have : gone t s.mem p lo 0 = s.mem := by unfold gone; rw [clr_zero]; simp
    rw [this] at h; exact h
  | succ n ih =>
    intro lo s hr hc h
    unfold destroyN
    rw [wp_bind]
    refine wp_destroy (hr.mono (by omega)) (fun hb => hc hb lo (by omega) (by omega)) ?_
    refine ih (lo + 1) _ (Room.congr (hr.mono (by omega)) rfl) (fun hb i h1 h2 => ?_) ?_
    · simp only [hb, Bool.false_eq_true, if_false, clr]
      rw [if_neg (by omega)]
      exact hc hb i (by omega) (by omega)
    · have : gone t (if t.bits then s.mem else clr s.mem p lo 1) p (lo + 1) n = gone t s.mem p lo (n + 1) := by
        unfold gone
        cases t.bits with
        | true => rfl
        | false =>
          simp only [Bool.false_eq_true, if_false]
          funext q k; simp only [clr]
          by_cases h : q = p ∧ lo ≤ k ∧ k < lo + (n + 1)
          · rw [if_pos h]
            by_cases h2 : q = p ∧ lo + 1 ≤ k ∧ k < lo + 1 + n
            · rw [if_pos h2]
            · rw [if_neg h2, if_pos (by omega)]
          · rw [if_neg h, if_neg (by omega), if_neg (by omega)]
      simp only [this]
      exact h

theorem wp_destroyRange {t : Traits α} {s : St α} {p lo hi : Nat} {Q : Unit → St α → Prop} {E : Exc → St α → Prop}
    (hle : lo ≤ hi) (hr : Room s p hi)
    (hc : t.bits = false → ∀ i, lo ≤ i → i < hi → (s.mem p i).isSome)
    (h : Q () { s with mem := gone t s.mem p lo (hi - lo) }) : wp (destroyRange t (some p) lo hi) s Q E := by
  unfold destroyRange
  rw [if_pos hle]
  refine wp_destroyN _ _ _ ?_ ?_ h
  · have : lo + (hi - lo) = hi := by omega
    rw [this]; exact hr
  · intro hb i h1 h2; exact hc hb i h1 (by omega)

/-- Nothing is destroyed in an empty range, of any block. -/
theorem wp_destroyRange_nil {t : Traits α} {s : St α} {p : Option Nat} {lo : Nat}
    {Q : Unit → St α → Prop} {E : Exc → St α → Prop} (h : Q () s) : wp (destroyRange t p lo lo) s Q E := by
  unfold destroyRange
  rw [if_pos (Nat.le_refl _), Nat.sub_self]
  exact h

/-! ### Loops that build objects -/

theorem Reads.blit {s s' : St α} {p d : Nat} {src : Src α} {a : α} (h : Reads s src a) (as : List α)
    (hout : ∀ q i, src = .ref (some q) i → ¬ (q = p ∧ d ≤ i ∧ i < d + as.length))
    (hm : s'.mem = blit s.mem p d as) (hl : s'.len = s.len) : Reads s' src a := by
  cases src with
  | val b => exact h
  | ref q i =>
    obtain ⟨q', rfl, h2, h3⟩ := h
    refine ⟨q', rfl, h2.congr hl, ?_⟩
    rw [hm]; unfold Vec.blit
    rw [if_neg (hout q' i rfl)]; exact h3

theorem wp_buildLoop_aux {t : Traits α} {p d : Nat} {Q : Unit → St α → Prop} {E : Exc → St α → Prop} {s : St α}
    (xs : List (Src α)) : ∀ (done as : List α) (s1 : St α), Upd s s1 (blit s.mem p d done) →
      List.Forall₂ (fun x a => Reads s x a ∧
        ∀ q i, x = .ref (some q) i → ¬ (q = p ∧ d ≤ i ∧ i < d + (done.length + xs.length))) xs as →
      Room s p (d + (done.length + xs.length)) →
      (t.bits = false → ∀ i, d ≤ i → i < d + (done.length + xs.length) → s.mem p i = none) →
      (∀ s', Upd s s' (blit s.mem p d (done ++ as)) → Q () s') →
      (∀ s', t.bits = false → Upd s s' s.mem → E .failed s') →
      wp (buildLoop t (some p) d done.length xs) s1 Q E := by
  induction xs with
  | nil =>
    intro done as s1 h1 hf _ _ hQ _
    cases hf
    rw [List.append_nil] at hQ
    exact hQ _ h1
  | cons x xs ih =>
    intro done as s1 h1 hf hr hc hQ hE
    cases hf with
    | cons hx hf =>
    rename_i a as
    obtain ⟨hx1, hx2⟩ := hx
    simp only [List.length_cons] at hr hc hx2 hf
    unfold buildLoop
    rw [wp_bind, wp_guarded]
    refine wp_build (hx1.blit done (fun q i hq h => hx2 q i hq ⟨h.1, h.2.1, by omega⟩) h1.1 h1.2.1)
      (Room.congr (hr.mono (by omega)) h1.2.1) (fun hb => ?_) (fun s2 h2 => ?_) (fun s2 hb h2 => ?_)
    · rw [h1.1]; unfold blit
      rw [if_neg (by omega)]
      exact hc hb _ (by omega) (by omega)
    · have h3 : Upd s s2 (blit s.mem p d (done ++ [a])) := by
        refine ⟨?_, h2.2.1.trans h1.2.1, h2.2.2.1.trans h1.2.2.1, h2.2.2.2.trans h1.2.2.2⟩
        rw [h2.1, h1.1, blit_snoc]
      have hl : (done ++ [a]).length = done.length + 1 := by simp
      rw [← hl]
      refine ih (done ++ [a]) as s2 h3 (hf.imp fun x a h => ⟨h.1, fun q i hq hh => h.2 q i hq ⟨hh.1, hh.2.1, by
        have := hh.2.2
        simp only [List.length_append, List.length_cons, List.length_nil] at this
        omega⟩⟩) ?_ ?_ ?_ hE
      · refine hr.mono ?_; simp only [List.length_append, List.length_cons, List.length_nil]; omega
      · intro hb i h1 h2
        refine hc hb i h1 ?_
        simp only [List.length_append, List.length_cons, List.length_nil] at h2; omega
      · intro s' hs'
        refine hQ s' ?_
        simpa using hs'
    · refine wp_destroyRange (by omega) (Room.congr (hr.mono (by omega)) (h2.2.1.trans h1.2.1)) (fun _ i hi1 hi2 => ?_) ?_
      · rw [h2.1, h1.1]; unfold blit
        rw [if_pos ⟨rfl, hi1, hi2⟩]
        have : i - d < done.length := by omega
        rw [List.getElem?_eq_getElem this]; rfl
      · refine hE _ hb ⟨?_, h2.2.1.trans h1.2.1, h2.2.2.1.trans h1.2.2.1, h2.2.2.2.trans h1.2.2.2⟩
        simp only [h2.1, h1.1, gone, hb, Bool.false_eq_true, if_false]
        funext q i; unfold clr blit
        have he : d + done.length - d = done.length := by omega
        simp only [he]
        by_cases h : q = p ∧ d ≤ i ∧ i < d + done.length
        · rw [if_pos h, h.1, hc hb i h.2.1 (by omega)]
        · rw [if_neg h]; simp [h]

/-- `S_uninitialized_copy`, `S_uninitialized_fill_n`: all objects or, after an exception, none. -/
theorem wp_buildLoop {t : Traits α} {p d : Nat} {Q : Unit → St α → Prop} {E : Exc → St α → Prop} {s : St α}
    {xs : List (Src α)} {as : List α}
    (hf : List.Forall₂ (fun x a => Reads s x a ∧
        ∀ q i, x = .ref (some q) i → ¬ (q = p ∧ d ≤ i ∧ i < d + xs.length)) xs as)
    (hr : Room s p (d + xs.length))
    (hc : t.bits = false → ∀ i, d ≤ i → i < d + xs.length → s.mem p i = none)
    (hQ : ∀ s', Upd s s' (blit s.mem p d as) → Q () s')
    (hE : ∀ s', t.bits = false → Upd s s' s.mem → E .failed s') : wp (buildLoop t (some p) d 0 xs) s Q E := by
  have := wp_buildLoop_aux (t := t) (p := p) (d := d) (Q := Q) (E := E) (s := s) xs [] as s
    (by rw [blit_nil]; exact Upd.rfl') (by simpa using hf) (by simpa using hr) (by simpa using hc)
    (by simpa using hQ) hE
  exact this

theorem wp_moveLoop_aux {t : Traits α} {p d q j : Nat} {Q : Unit → St α → Prop} {E : Exc → St α → Prop} {s : St α}
    (rest : List α) : ∀ (done : List α) (s1 : St α),
      Upd s s1 (blit (blit s.mem q j (done.map t.husk)) p d done) →
      Has s q j (done ++ rest) → t.bits = false →
      Room s q (j + (done.length + rest.length)) → Room s p (d + (done.length + rest.length)) →
      (∀ i, d ≤ i → i < d + (done.length + rest.length) → s.mem p i = none) →
      (∀ s', Upd s s' (blit (blit s.mem q j ((done ++ rest).map t.husk)) p d (done ++ rest)) → Q () s') →
      (∀ s' as, t.nothrow = false → as.length = (done ++ rest).length → Upd s s' (blit s.mem q j as) → E .failed s') →
      wp (moveLoop t (some p) d (some q) j done.length rest.length) s1 Q E := by
  induction rest with
  | nil =>
    intro done s1 h1 _ _ _ _ _ hQ _
    rw [List.append_nil] at hQ
    exact hQ _ h1
  | cons a rest ih =>
    intro done s1 h1 hh hb hq hp hc hQ hE
    simp only [List.length_cons] at hq hp hc
    -- the two ranges do not meet
    have hdis : ∀ i, j ≤ i → i < j + (done.length + (rest.length + 1)) → q = p →
        ¬ (d ≤ i ∧ i < d + (done.length + (rest.length + 1))) := by
      rintro i h2 h3 rfl ⟨h4, h5⟩
      have e1 := hh (i - j) (by simp; omega)
      have e2 := hc i h4 h5
      have : j + (i - j) = i := by omega
      rw [this, e2] at e1
      have hl : i - j < (done ++ a :: rest).length := by simp; omega
      rw [List.getElem?_eq_getElem hl] at e1
      cases e1
    have hsrc : s1.mem q (j + done.length) = some a := by
      rw [h1.1]; unfold blit
      rw [if_neg, if_neg]
      · rw [hh done.length (by simp)]; simp
      · simp
      · rintro ⟨e, h2, h3⟩
        exact hdis (j + done.length) (by omega) (by omega) e ⟨h2, by omega⟩
    rw [List.length_cons]
    unfold moveLoop
    rw [wp_bind, wp_guarded]
    refine wp_buildMove (a := a) (Room.congr (hq.mono (by omega)) h1.2.1) hsrc
      (Room.congr (hp.mono (by omega)) h1.2.1) ?_ (fun s2 h2 => ?_) (fun s2 hn h2 => ?_)
    · rw [h1.1]; unfold blit
      rw [if_neg (by omega), if_neg]
      · exact hc _ (by omega) (by omega)
      · rintro ⟨e, h2, h3⟩
        simp only [List.length_map] at h3
        exact hdis (d + done.length) (by omega) (by omega) e.symm ⟨by omega, by omega⟩
    · have hl : (done ++ [a]).length = done.length + 1 := by simp
      have hla : done ++ [a] ++ rest = done ++ a :: rest := by simp
      have h3 : Upd s s2 (blit (blit s.mem q j ((done ++ [a]).map t.husk)) p d (done ++ [a])) := by
        refine ⟨?_, h2.2.1.trans h1.2.1, h2.2.2.1.trans h1.2.2.1, h2.2.2.2.trans h1.2.2.2⟩
        rw [h2.1, h1.1, ← blit_snoc, List.map_append, List.map_cons, List.map_nil, ← blit_snoc, List.length_map]
        congr 1
        funext r i
        simp only [update, blit, List.length_map]
        by_cases e1 : r = q ∧ i = j + done.length
        · rw [if_pos e1, if_neg, if_pos e1]
          rintro ⟨e2, e3, e4⟩
          exact hdis i (by omega) (by omega) (e1.1.symm.trans e2) ⟨e3, by omega⟩
        · rw [if_neg e1, if_neg e1]
      rw [← hl]
      refine ih (done ++ [a]) s2 h3 (by rw [hla]; exact hh) hb ?_ ?_ ?_ ?_ ?_
      · refine hq.mono ?_; rw [hl]; omega
      · refine hp.mono ?_; rw [hl]; omega
      · intro i h4 h5; exact hc i h4 (by rw [hl] at h5; omega)
      · rw [hla]; exact hQ
      · rw [hla]; exact hE
    · refine wp_destroyRange (by omega) (Room.congr (hp.mono (by omega)) (h2.2.1.trans h1.2.1)) (fun _ i hi1 hi2 => ?_) ?_
      · rw [h2.1, h1.1]; unfold update blit
        split
        · rfl
        · rw [if_pos ⟨rfl, hi1, hi2⟩]
          have : i - d < done.length := by omega
          rw [List.getElem?_eq_getElem this]; rfl
      · refine hE _ (done.map t.husk ++ t.husk a :: rest) hn (by simp)
          ⟨?_, h2.2.1.trans h1.2.1, h2.2.2.1.trans h1.2.2.1, h2.2.2.2.trans h1.2.2.2⟩
        simp only [h2.1, h1.1, gone, hb, Bool.false_eq_true, if_false]
        have he : d + done.length - d = done.length := by omega
        rw [he]
        funext r i
        unfold clr blit update
        simp only [List.length_append, List.length_map, List.length_cons]
        by_cases e1 : r = p ∧ d ≤ i ∧ i < d + done.length
        · rw [if_pos e1, if_neg, e1.1, hc i e1.2.1 (by omega)]
          rintro ⟨e2, e3, e4⟩
          exact hdis i e3 (by omega) (e2.symm.trans e1.1) ⟨e1.2.1, by omega⟩
        · rw [if_neg e1]
          by_cases e2 : r = q ∧ j ≤ i ∧ i < j + (done.length + (rest.length + 1))
          · rw [if_pos e2]
            by_cases e3 : i = j + done.length
            · rw [if_pos ⟨e2.1, e3⟩, List.getElem?_append_right (by simp; omega)]
              have : i - j - (done.map t.husk).length = 0 := by simp; omega
              rw [this]; rfl
            · rw [if_neg (by tauto), if_neg e1]
              by_cases e4 : i < j + done.length
              · rw [if_pos ⟨e2.1, e2.2.1, e4⟩, List.getElem?_append_left (by simp; omega)]
              · rw [if_neg (by omega), List.getElem?_append_right (by simp; omega)]
                have h5 := hh (i - j) (by simp; omega)
                have h6 : j + (i - j) = i := by omega
                rw [h6] at h5
                rw [e2.1, h5, List.getElem?_append_right (by omega)]
                obtain ⟨k, hk⟩ : ∃ k, i - j - done.length = k + 1 := ⟨i - j - done.length - 1, by omega⟩
                rw [List.length_map, hk]; simp
          · rw [if_neg e2, if_neg (by omega), if_neg e1, if_neg (by omega)]

/-- `D_uninitialized_move_a` element by element: all objects are moved or, after an exception, none is
in the new place and the sources are in some state. -/
theorem wp_moveLoop {t : Traits α} {p d q j : Nat} {as : List α}
    {Q : Unit → St α → Prop} {E : Exc → St α → Prop} {s : St α}
    (hh : Has s q j as) (hb : t.bits = false) (hq : Room s q (j + as.length)) (hp : Room s p (d + as.length))
    (hc : ∀ i, d ≤ i → i < d + as.length → s.mem p i = none)
    (hQ : ∀ s', Upd s s' (blit (blit s.mem q j (as.map t.husk)) p d as) → Q () s')
    (hE : ∀ s' bs, t.nothrow = false → bs.length = as.length → Upd s s' (blit s.mem q j bs) → E .failed s') :
    wp (moveLoop t (some p) d (some q) j 0 as.length) s Q E := by
  have := wp_moveLoop_aux (t := t) (p := p) (d := d) (q := q) (j := j) (Q := Q) (E := E) (s := s) as [] s
    (by simp only [List.map_nil, blit_nil]; exact Upd.rfl') (by simpa using hh) hb (by simpa using hq)
    (by simpa using hp) (by simpa using hc) (by simpa using hQ) (by simpa using hE)
  exact this

/-! ### Trivial types -/

theorem wp_memmove {s : St α} {p d q j : Nat} {as : List α} {Q : Unit → St α → Prop} {E : Exc → St α → Prop}
    (hh : Has s q j as) (hq : Room s q (j + as.length)) (hp : Room s p (d + as.length))
    (h : Q () { s with mem := blit s.mem p d as }) : wp (memmove (some p) d (some q) j as.length) s Q E := by
  unfold wp memmove
  obtain ⟨np, e1, e2⟩ := hp
  obtain ⟨nq, e3, e4⟩ := hq
  by_cases h0 : as.length = 0
  · rw [if_pos h0]
    have : as = [] := List.length_eq_zero_iff.mp h0
    subst this
    rw [blit_nil] at h; exact h
  · rw [if_neg h0]
    simp only [e1, e3]
    rw [if_pos ⟨e2, e4⟩]
    have : (fun r i => if r = p ∧ d ≤ i ∧ i < d + as.length then s.mem q (j + (i - d)) else s.mem r i)
        = blit s.mem p d as := by
      funext r i; unfold blit
      split
      · rename_i hc; exact hh _ (by omega)
      · rfl
    rw [this]; exact h

theorem wp_memcpy {s : St α} {p d q j : Nat} {as : List α} {Q : Unit → St α → Prop} {E : Exc → St α → Prop}
    (hh : Has s q j as) (hq : Room s q (j + as.length)) (hp : Room s p (d + as.length))
    (hd : p = q → d + as.length ≤ j ∨ j + as.length ≤ d ∨ as.length = 0)
    (h : Q () { s with mem := blit s.mem p d as }) : wp (memcpy (some p) d (some q) j as.length) s Q E := by
  unfold memcpy
  rw [if_neg]
  · exact wp_memmove hh hq hp h
  · rintro ⟨e, h1, h2, h3⟩
    have := hd (by injection e)
    omega

/-! ### Relocation -/

theorem refs_length (q : Option Nat) (j n : Nat) : (refs q j n : List (Src α)).length = n := by
  simp [refs]

theorem refs_reads {s : St α} {q p d n : Nat} (as : List α) : ∀ (j : Nat), Has s q j as → Room s q (j + as.length) →
    (∀ i, j ≤ i → i < j + as.length → ¬ (q = p ∧ d ≤ i ∧ i < d + n)) →
    List.Forall₂ (fun x a => Reads s x a ∧
        ∀ q' i, x = .ref (some q') i → ¬ (q' = p ∧ d ≤ i ∧ i < d + n)) (refs (some q) j as.length) as := by
  induction as with
  | nil => intros; exact .nil
  | cons a as ih =>
    intro j hh hr hd
    unfold refs
    rw [List.length_cons, List.range'_succ, List.map_cons]
    refine .cons ⟨⟨q, rfl, hr.mono (by simp), ?_⟩, ?_⟩ ?_
    · have := hh 0 (by simp); simpa using this
    · rintro q' i h
      injection h with h1 h2
      injection h1 with h1
      subst h1; subst h2
      exact hd j (by omega) (by simp)
    · refine ih (j + 1) (fun i hi => ?_) (hr.mono (by simp; omega)) (fun i h1 h2 => hd i (by omega) (by simp; omega))
      have := hh (i + 1) (by simp; omega)
      rw [show j + 1 + i = j + (i + 1) by omega, this]; simp

/-- After a failed relocation the elements are as before. -/
def Safe (t : Traits α) : Prop := t.bits = true ∨ t.nothrow = true ∨ t.nocopy = false

theorem wp_uninitCopy {t : Traits α} {s : St α} {p d q j : Nat} {as : List α}
    {Q : Unit → St α → Prop} {E : Exc → St α → Prop}
    (hh : Has s q j as) (hq : Room s q (j + as.length)) (hp : Room s p (d + as.length))
    (hc : t.bits = false → ∀ i, d ≤ i → i < d + as.length → s.mem p i = none)
    (hd : p = q → d + as.length ≤ j ∨ j + as.length ≤ d ∨ as.length = 0)
    (hQ : ∀ s', Upd s s' (blit s.mem p d as) → Q () s')
    (hE : ∀ s', t.bits = false → Upd s s' s.mem → E .failed s') :
    wp (uninitCopy t (some p) d (some q) j as.length) s Q E := by
  unfold uninitCopy
  cases hb : t.bits with
  | true =>
    rw [if_pos rfl]
    exact wp_memcpy hh hq hp hd (hQ _ ⟨rfl, rfl, rfl, rfl⟩)
  | false =>
    rw [if_neg (by simp)]
    refine wp_buildLoop (as := as) ?_ (by rw [refs_length]; exact hp) ?_ hQ (fun s' _ h => hE s' hb h)
    · rw [refs_length]
      refine refs_reads as j hh hq ?_
      rintro i h1 h2 ⟨e, h3, h4⟩
      have := hd e.symm
      omega
    · rw [refs_length]; exact hc

theorem wp_uninitMove {t : Traits α} {s : St α} {p d q j : Nat} {as : List α}
    {Q : Unit → St α → Prop} {E : Exc → St α → Prop}
    (hh : Has s q j as) (hq : Room s q (j + as.length)) (hp : Room s p (d + as.length))
    (hc : t.bits = false → ∀ i, d ≤ i → i < d + as.length → s.mem p i = none)
    (hd : p = q → d + as.length ≤ j ∨ j + as.length ≤ d ∨ as.length = 0)
    (hQ : ∀ s' bs, bs.length = as.length → Upd s s' (blit (blit s.mem q j bs) p d as) → Q () s')
    (hE : ∀ s' bs, t.bits = false → t.nothrow = false → bs.length = as.length →
      Upd s s' (blit s.mem q j bs) → E .failed s') :
    wp (uninitMove t (some p) d (some q) j as.length) s Q E := by
  unfold uninitMove
  cases hb : t.bits with
  | true =>
    rw [if_pos rfl]
    exact wp_memcpy hh hq hp hd (hQ _ as rfl (by rw [blit_self hh]; exact ⟨rfl, rfl, rfl, rfl⟩))
  | false =>
    rw [if_neg (by simp)]
    exact wp_moveLoop hh hb hq hp (hc hb) (fun s' h => hQ s' _ (by simp) h) (fun s' bs => hE s' bs hb)

theorem wp_relocateMove {t : Traits α} {s : St α} {p d q j : Nat} {as : List α}
    {Q : Unit → St α → Prop} {E : Exc → St α → Prop}
    (hh : Has s q j as) (hq : Room s q (j + as.length)) (hp : Room s p (d + as.length))
    (hc : t.bits = false → ∀ i, d ≤ i → i < d + as.length → s.mem p i = none)
    (hd : p = q → d + as.length ≤ j ∨ j + as.length ≤ d ∨ as.length = 0)
    (hQ : ∀ s' bs, bs.length = as.length → (t.bits = true → bs = as) →
      (t.nothrow = false → t.nocopy = false → bs = as) →
      Upd s s' (blit (blit s.mem q j bs) p d as) → Q () s')
    (hE : ∀ s' bs, t.bits = false → t.nothrow = false → bs.length = as.length → (t.nocopy = false → bs = as) →
      Upd s s' (blit s.mem q j bs) → E .failed s') :
    wp (relocateMove t (some p) d (some q) j as.length) s Q E := by
  unfold relocateMove
  cases hb : t.bits with
  | true =>
    rw [if_pos rfl]
    exact wp_memcpy hh hq hp hd
      (hQ _ as rfl (fun _ => rfl) (fun _ _ => rfl) (by rw [blit_self hh]; exact ⟨rfl, rfl, rfl, rfl⟩))
  | false =>
    rw [if_neg (by simp)]
    split
    · rename_i hm
      refine wp_uninitMove hh hq hp hc hd
        (fun s' bs h1 h2 => hQ s' bs h1 (fun h => by rw [hb] at h; cases h) (fun h3 h4 => ?_) h2)
        (fun s' bs _ h1 h2 h3 => hE s' bs hb h1 h2 (fun h4 => ?_) h3)
      · simp [h3, h4] at hm
      · simp [h1, h4] at hm
    · rename_i hm
      simp only [Bool.or_eq_true, not_or, Bool.not_eq_true] at hm
      refine wp_uninitCopy hh hq hp hc hd (fun s' h => hQ s' as rfl (fun _ => rfl) (fun _ _ => rfl) ?_)
        (fun s' _ h => hE s' as hb hm.1 rfl (fun _ => rfl) ?_)
      · rw [blit_self hh]; exact h
      · rw [blit_self hh]; exact h

theorem memcpy_zero (p q : Option Nat) (d j : Nat) : (memcpy p d q j 0 : M α Unit) = Pure.pure () := by
  unfold memcpy
  rw [if_neg (by omega)]
  rfl

theorem wp_relocateMove_zero {t : Traits α} {s : St α} {p q : Option Nat} {d j : Nat}
    {Q : Unit → St α → Prop} {E : Exc → St α → Prop} (h : Q () s) : wp (relocateMove t p d q j 0) s Q E := by
  unfold relocateMove uninitMove uninitCopy refs
  cases t.bits with
  | true =>
    simp only [if_true]
    rw [memcpy_zero]
    exact h
  | false =>
    simp only [if_false, Bool.false_eq_true]
    split <;> exact h

theorem wp_relocateDone {t : Traits α} {s : St α} {q j n : Nat} {Q : Unit → St α → Prop} {E : Exc → St α → Prop}
    (hr : Room s q (j + n)) (hc : t.bits = false → ∀ i, j ≤ i → i < j + n → (s.mem q i).isSome)
    (h : Q () { s with mem := gone t s.mem q j n }) : wp (relocateDone t (some q) j n) s Q E := by
  unfold relocateDone
  cases hb : t.bits with
  | true =>
    rw [if_pos rfl]
    unfold gone at h
    rw [hb] at h
    exact h
  | false =>
    rw [if_neg (by simp)]
    refine wp_destroyRange (by omega) hr hc ?_
    have : j + n - j = n := by omega
    rw [this]; exact h

theorem wp_relocateDone_zero {t : Traits α} {s : St α} {q : Option Nat} {j : Nat}
    {Q : Unit → St α → Prop} {E : Exc → St α → Prop} (h : Q () s) : wp (relocateDone t q j 0) s Q E := by
  unfold relocateDone
  split
  · exact h
  · exact wp_destroyRange_nil h

/-! ### Allocation -/

/-- A request for `n` elements that fits in the address space with the product computed in `size_t`. -/
theorem capOf_eq {t : Traits α} {n : Nat} (hs : 0 < t.size) (h : n * t.size < 2 ^ 64) : capOf t n = n := by
  unfold capOf
  rw [Nat.mod_eq_of_lt h, Nat.mul_div_cancel _ hs]

theorem wp_alloc {t : Traits α} {s : St α} {n : Nat} {Q : Nat → St α → Prop} {E : Exc → St α → Prop}
    (hs : 0 < t.size) (hn : n * t.size < 2 ^ 64)
    (hQ : ∀ s', n * t.size < 2 ^ 63 → s'.next = s.next + 1 → s'.vec = s.vec →
      (∀ q, s'.len q = if q = s.next then some n else s.len q) →
      (∀ q i, s'.mem q i = if q = s.next then none else s.mem q i) → Q s.next s')
    (hE : ∀ s' x, (x = .huge → 2 ^ 63 ≤ n * t.size) → x ≠ .range → Upd s s' s.mem → E x s') : wp (alloc t n) s Q E := by
  unfold alloc
  rw [Nat.mod_eq_of_lt hn]
  split
  · rename_i h
    exact hE s .huge (fun _ => h) (by simp) Upd.rfl'
  · rw [wp_bind]
    refine wp_may (fun s1 h1 => ?_) (fun s1 _ h1 => hE s1 .failed (by simp) (by simp) h1)
    show Q _ _
    rw [h1.2.2.1]
    refine hQ _ (by omega) rfl h1.2.2.2 (fun q => ?_) (fun q i => ?_)
    · simp only [h1.2.1, capOf_eq hs hn]
    · simp only [h1.1]

theorem allRaw_of {mem : Nat → Nat → Option α} {p : Nat} (n : Nat) (h : ∀ i, i < n → mem p i = none) :
    allRaw mem p n = true := by
  induction n with
  | zero => rfl
  | succ n ih =>
    simp only [allRaw, h n (by omega), Option.isNone_none, Bool.true_and]
    exact ih fun i hi => h i (by omega)

theorem wp_dealloc {t : Traits α} {s : St α} {p n : Nat} {Q : Unit → St α → Prop} {E : Exc → St α → Prop}
    (hl : s.len p = some n) (hc : t.bits = false → ∀ i, i < n → s.mem p i = none)
    (h : Q () { s with len := fun q => if q = p then none else s.len q }) : wp (dealloc t (some p) n) s Q E := by
  unfold wp dealloc
  have : s.len p = some n ∧ (t.bits || allRaw s.mem p n) = true := by
    refine ⟨hl, ?_⟩
    cases hb : t.bits with
    | true => simp
    | false => simp [allRaw_of n (hc hb)]
  simp only [this, and_self, if_true]
  exact h

end Gtl.Vec
