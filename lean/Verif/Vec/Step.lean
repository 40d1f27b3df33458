import Verif.Vec.WorldInv
/-
Every operation of every vector does what the specification says.
-/
namespace Gtl.Vec
open M Gtl.Spec.Seq

variable {α β : Type}

theorem src_eq {w : World α} {x : Arg α} {y : Src α} (h : w.src x = some y) (f : Src α → Out (World α) (Ans α)) :
    w.arg x f = f y := by unfold World.arg; rw [h]

theorem srcs_eq {w : World α} {xs : List (Arg α)} {ys : List (Src α)} (h : w.srcs xs = some ys)
    (f : List (Src α) → Out (World α) (Ans α)) : w.args xs f = f ys := by unfold World.args; rw [h]

theorem other_eq {w : World α} {j : Nat} {v : Vec} (h : w.vecs j = some v) (f : Vec → Out (World α) (Ans α)) :
    w.other j f = f v := by unfold World.other; rw [h]

theorem wp_quiet {m : M α β} {s : St α} {Q : Ans α → St α → Prop} {E : Exc → St α → Prop}
    (h : wp m s (fun _ s' => Q .unit s') E) : wp (quiet m) s Q E := by
  unfold quiet
  rw [wp_bind]; exact h

theorem wp_placed {m : M α Nat} {s : St α} {Q : Ans α → St α → Prop} {E : Exc → St α → Prop}
    (h : wp m s (fun n s' => Q (.num n) s') E) : wp (place_ m) s Q E := by
  unfold place_
  rw [wp_bind]; exact h

theorem wp_value {m : M α α} {s : St α} {Q : Ans α → St α → Prop} {E : Exc → St α → Prop}
    (h : wp m s (fun a s' => Q (.val a) s') E) : wp (value m) s Q E := by
  unfold value
  rw [wp_bind]; exact h

theorem Semi.refl {t : Traits α} {l : List α} : Semi t l l := ⟨rfl, fun _ => rfl⟩

/-- From nothing to a new vector. -/
theorem make_some {σ σ' : Env α} {i : Nat} {l : List α} {a : Ans α} (h : make σ i l = some (σ', a)) : σ i = none := by
  unfold make at h
  split at h
  · cases h
  · rename_i hc; simpa using hc

theorem make_isSome {σ : Env α} {i : Nat} {l : List α} (h : (make σ i l).isSome = true) :
    σ i = none ∧ make σ i l = some (put σ i (some l), .unit) := by
  unfold make at *
  split at h
  · cases h
  · rename_i hc
    rw [if_neg hc]
    exact ⟨by simpa using hc, rfl⟩

variable {t : Traits α} {w : World α} {σ : Env α}

/-- A constructor that gives the elements `l`. -/
theorem make_step {op : Op α} {m : M α Unit} {i : Nat} {l : List α} {B : Prop} (h : Inv t w σ) (hi : target op = i)
    (hl : σ i = none) (he : effect (initial t) σ op = some (put σ i (some l), .unit)) (hB : B → Big t (extent σ op))
    (hr : outOfRange σ op = false) (hn : noexcept op = false)
    (hm : Good t (w.state ⟨none, 0, 0⟩) [] → wp m (w.state ⟨none, 0, 0⟩)
      (fun _ s' => Good t s' l ∧ Rel (w.state ⟨none, 0, 0⟩) s')
      (fun x s' => Bad t (w.state ⟨none, 0, 0⟩) B (fun l => l = []) x s' ∧ s'.vec = ⟨none, 0, 0⟩)) :
    Outcome t σ op (w.make i (quiet m)) := by
  refine make_outcome h i hi hl (fun g => wp_quiet (wp_mono (hm g) ?_ ?_))
  · rintro _ s' ⟨h1, h2⟩
    exact ⟨h2, l, h1, he⟩
  · rintro x s' ⟨h1, h2⟩
    exact ⟨h1.failed hB hr hn (fun l' e _ => by subst e; exact Semi.refl), h2⟩

/-- A member function that gives the elements `l'`. -/
theorem on_step {op : Op α} {m : M α Unit} {i : Nat} {l l' : List α} {B : Prop} {P : List α → Prop} (h : Inv t w σ)
    (hi : target op = i)
    (hl : σ i = some l) (he : effect (initial t) σ op = some (put σ i (some l'), .unit)) (hB : B → Big t (extent σ op))
    (hr : outOfRange σ op = false) (hn : noexcept op = false)
    (hP : ∀ l', P l' → strong σ op = true → Semi t l l')
    (hm : ∀ v, w.vecs i = some v → Good t (w.state v) l → wp m (w.state v)
      (fun _ s' => Good t s' l' ∧ Rel (w.state v) s') (Bad t (w.state v) B P)) :
    Outcome t σ op (w.on i (quiet m)) := by
  refine on_outcome h i hi hl (fun v hv g => wp_quiet (wp_mono (hm v hv g) ?_ ?_))
  · rintro _ s' ⟨h1, h2⟩
    exact ⟨h2, l', h1, he⟩
  · intro x s' h1
    exact h1.failed hB hr hn hP

/-- A member function that cannot throw. -/
theorem on_noexcept {op : Op α} {m : M α Unit} {i : Nat} {l l' : List α} (h : Inv t w σ) (hi : target op = i)
    (hl : σ i = some l) (he : effect (initial t) σ op = some (put σ i (some l'), .unit))
    (hm : ∀ v, w.vecs i = some v → Good t (w.state v) l → wp m (w.state v)
      (fun _ s' => Good t s' l' ∧ Rel (w.state v) s') (fun _ _ => False)) :
    Outcome t σ op (w.on i (quiet m)) := by
  refine on_outcome h i hi hl (fun v hv g => wp_quiet (wp_mono (hm v hv g) ?_ ?_))
  · rintro _ s' ⟨h1, h2⟩
    exact ⟨h2, l', h1, he⟩
  · intro x s' h1
    exact h1.elim

/-- A member function that returns a position. -/
theorem on_place {op : Op α} {m : M α Nat} {i n : Nat} {l l' : List α} {B : Prop} {P : Vec → List α → Prop} (h : Inv t w σ)
    (hi : target op = i)
    (hl : σ i = some l) (he : effect (initial t) σ op = some (put σ i (some l'), .num n)) (hB : B → Big t (extent σ op))
    (hr : outOfRange σ op = false) (hn : noexcept op = false)
    (hP : ∀ v l', P v l' → strong σ op = true → Semi t l l')
    (hm : ∀ v, w.vecs i = some v → Good t (w.state v) l → wp m (w.state v)
      (fun r s' => r = n ∧ Good t s' l' ∧ Rel (w.state v) s') (Bad t (w.state v) B (P v))) :
    Outcome t σ op (w.on i (place_ m)) := by
  refine on_outcome h i hi hl (fun v hv g => wp_placed (wp_mono (hm v hv g) ?_ ?_))
  · rintro _ s' ⟨rfl, h1, h2⟩
    exact ⟨h2, l', h1, he⟩
  · intro x s' h1
    exact h1.failed hB hr hn (hP v)

/-- A member function that changes nothing. -/
theorem on_read {op : Op α} {m : M α (Ans α)} {i : Nat} {l : List α} {a : Ans α} (h : Inv t w σ)
    (hi : target op = i) (hl : σ i = some l) (he : effect (initial t) σ op = some (σ, a))
    (hm : ∀ v, w.vecs i = some v → Good t (w.state v) l → wp m (w.state v)
      (fun b s' => b = a ∧ s' = w.state v) (fun _ _ => False)) :
    Outcome t σ op (w.on i m) := by
  refine on_outcome h i hi hl (fun v hv g => wp_mono (hm v hv g) ?_ ?_)
  · rintro _ s' ⟨rfl, rfl⟩
    exact ⟨Rel.refl' g, l, g, by rw [put_same hl]; exact he⟩
  · intro x s' h1
    exact h1.elim

theorem Inserted.out {s s' : St α} {l as : List α} {pos r : Nat} (h : Inserted t s l as pos r s') :
    r = pos ∧ Good t s' (insertAt l pos as) ∧ Rel s s' := ⟨h.1, h.2.1, h.2.2.1⟩

theorem grow_big {m n : Nat} (h : m ≤ n) : Big t m → Big t n := fun hb => hb.mono h

/-- One operation. -/
theorem step_ok (hs : 0 < t.size) (hs' : t.size < 2 ^ 63) (h : Inv t w σ) (op : Op α) (ha : Allowed (initial t) σ op)
    (hb : count op * t.size < 2 ^ 63) (hsup : Supported t σ op) : Outcome t σ op (step t w op) := by
  have hin : outOfRange σ op = false → (effect (initial t) σ op).isSome = true := fun hr => by
    rcases ha with h | h
    · exact h
    · rw [hr] at h; cases h
  cases op with
  | create i =>
    obtain ⟨h1, h2⟩ := make_isSome (hin rfl)
    exact make_outcome (op := .create i) h i rfl h1 (fun g => (wp_pure ..).mpr ⟨Rel.refl' g, [], g, h2⟩)
  | createSized i n =>
    obtain ⟨h1, h2⟩ := make_isSome (hin rfl)
    refine make_step h rfl h1 h2 (B := Big t n) (grow_big (by simp [extent, count, target])) rfl rfl (fun g => ?_)
    exact wp_mono (newSized_ok g rfl hs (by simp only [count] at hb; omega)) (fun _ s' h => ⟨h.1, h.2.1⟩) (fun _ _ h => h)
  | createFill i n x =>
    have := hin rfl
    simp only [effect] at this
    cases hx : x.value σ with
    | none => simp [hx] at this
    | some a =>
      simp only [hx, Option.bind_some] at this
      obtain ⟨h1, h2⟩ := make_isSome this
      obtain ⟨y, e1, e2, _⟩ := h.arg hx i ⟨none, 0, 0⟩ (.inr ⟨h.absent h1, rfl⟩)
      simp only [step]
      rw [src_eq e1]
      refine make_step h rfl h1 (by simp only [effect, hx, Option.bind_some]; exact h2) (B := Big t n) (grow_big (by simp [extent, count, target])) rfl rfl (fun g => ?_)
      exact wp_mono (newFill_ok g rfl hs (by simp only [count] at hb; omega) e2.1) (fun _ s' h => ⟨h.1, h.2.1⟩) (fun _ _ h => h)
  | createRange i xs input =>
    have := hin rfl
    simp only [effect] at this
    cases hx : values σ xs with
    | none => simp [hx] at this
    | some as =>
      simp only [hx, Option.bind_some] at this
      obtain ⟨h1, h2⟩ := make_isSome this
      obtain ⟨ys, e1, e2, _⟩ := h.args hx i ⟨none, 0, 0⟩ (.inr ⟨h.absent h1, rfl⟩)
      have hlen : ys.length = xs.length := by rw [e2.length_eq, values_length hx]
      simp only [step]
      rw [srcs_eq e1]
      refine make_step h rfl h1 (by simp only [effect, hx, Option.bind_some]; exact h2) (B := Big t ys.length)
        (grow_big (by simp [extent, count, target]; omega)) rfl rfl (fun g => ?_)
      have hr := e2.imp fun _ _ h => h.1
      cases input with
      | true => exact newInput_ok g rfl hs hs' hr
      | false =>
        exact wp_mono (newForward_ok g rfl hs (by simp only [count] at hb; rw [hlen]; omega) hr) (fun _ s' h => ⟨h.1, h.2.1⟩) (fun _ _ h => h)
  | createCopy i j =>
    have := hin rfl
    simp only [effect] at this
    cases hx : σ j with
    | none => simp [hx] at this
    | some m =>
      simp only [hx, Option.bind_some] at this
      obtain ⟨h1, h2⟩ := make_isSome this
      obtain ⟨o, ho, go⟩ := h.vec hx
      simp only [step]
      rw [other_eq ho]
      refine make_step h rfl h1 (by simp only [effect, hx, Option.bind_some]; exact h2) (B := Big t m.length)
        (grow_big (by simp [extent, hx, target])) rfl rfl (fun g => ?_)
      exact wp_mono (newCopy_ok g rfl hs go) (fun _ s' h => ⟨h.1, h.2.1⟩) (fun _ _ h => h)
  | createMove i j =>
    have := hin rfl
    simp only [effect] at this
    cases hx : σ j with
    | none => simp [hx] at this
    | some m =>
      simp only [hx, Option.bind_some, Option.isSome_map] at this
      obtain ⟨h1, h2⟩ := make_isSome this
      obtain ⟨o, ho, go⟩ := h.vec hx
      have hij : i ≠ j := fun e => by rw [e, hx] at h1; cases h1
      have hv := h.absent h1
      simp only [step, World.moveTo, hv, ho]
      refine ⟨put (put σ i (some m)) j (some []), by simp only [effect, hx, Option.bind_some, h2, Option.map_some], h.fresh, fun k v hk => ?_, fun k hk => ?_,
        fun k k' u v q hkk hk hk' hq => ?_, fun p n hp => ?_⟩
      · dsimp only at hk
        by_cases c1 : k = j
        · rw [if_pos c1] at hk
          injection hk with hk
          subst hk
          exact ⟨[], by simp [put, c1], ⟨h.fresh, .inl ⟨rfl, rfl⟩⟩⟩
        · rw [if_neg c1] at hk
          by_cases c2 : k = i
          · rw [if_pos c2] at hk
            injection hk with hk
            subst hk
            exact ⟨m, by simp [put, c2, hij], go⟩
          · rw [if_neg c2] at hk
            obtain ⟨l, e1, e2⟩ := h.good k v hk
            exact ⟨l, by simp [put, c1, c2, e1], e2⟩
      · dsimp only at hk
        by_cases c1 : k = j
        · rw [if_pos c1] at hk; cases hk
        · rw [if_neg c1] at hk
          by_cases c2 : k = i
          · rw [if_pos c2] at hk; cases hk
          · rw [if_neg c2] at hk
            simp [put, c1, c2, h.nil k hk]
      · dsimp only at hk hk'
        by_cases c1 : k = j
        · rw [if_pos c1] at hk
          injection hk with hk
          subst hk
          cases hq
        · rw [if_neg c1] at hk
          by_cases c2 : k' = j
          · rw [if_pos c2] at hk'
            injection hk' with hk'
            subst hk'
            simp
          · rw [if_neg c2] at hk'
            by_cases c3 : k = i
            · rw [if_pos c3] at hk
              injection hk with hk
              subst hk
              rw [if_neg (by omega)] at hk'
              exact h.apart j k' o v q (by omega) ho hk' hq
            · rw [if_neg c3] at hk
              by_cases c4 : k' = i
              · rw [if_pos c4] at hk'
                injection hk' with hk'
                subst hk'
                exact h.apart k j u o q c1 hk ho hq
              · rw [if_neg c4] at hk'
                exact h.apart k k' u v q hkk hk hk' hq
      · obtain ⟨k, v, e1, e2⟩ := h.owned p n hp
        by_cases c1 : k = j
        · subst c1
          rw [ho] at e1
          injection e1 with e1
          subst e1
          exact ⟨i, o, by simp [hij], e2⟩
        · have c2 : k ≠ i := fun e => by rw [e, hv] at e1; cases e1
          exact ⟨k, v, by simp [c1, c2, e1], e2⟩
  | drop i =>
    have := hin rfl
    simp only [effect, Option.isSome_map] at this
    obtain ⟨l, hl⟩ := Option.isSome_iff_exists.mp this
    obtain ⟨v, hv, g⟩ := h.vec hl
    simp only [step, World.destruct, hv]
    have hd := destroyAll_ok (E := fun _ _ => False) (Q := fun _ s' => Good t { s' with vec := ⟨none, 0, 0⟩ } [] ∧ Rel (w.state v) { s' with vec := ⟨none, 0, 0⟩ }) g
      (fun s' _ h2 h3 h4 => null_good g rfl h2 h3 h4)
    unfold wp at hd
    split at hd
    · rename_i s' e
      rw [e]
      refine ⟨put σ i none, by simp [effect, hl], ?_⟩
      exact h.after (s' := { s' with vec := ⟨none, 0, 0⟩ }) (.inl hv) hd.2 hd.1 none none (.inr ⟨rfl, rfl, rfl⟩)
    · exact hd.elim
    · exact hd.elim
  | copyAssign i j =>
    have := hin rfl
    simp only [effect] at this
    cases hl : σ i with
    | none => simp [hl] at this
    | some l =>
      cases hx : σ j with
      | none => simp [hx, hl] at this
      | some m =>
        obtain ⟨o, ho, go⟩ := h.vec hx
        simp only [step]
        rw [other_eq ho]
        by_cases hij : i = j
        · subst hij
          rw [if_pos rfl]
          rw [hl] at hx
          injection hx with hx
          subst hx
          exact on_read h rfl hl (by simp [effect, hl, put_same hl]) (fun v hv g => ⟨rfl, rfl⟩)
        · rw [if_neg hij]
          refine on_step h rfl hl (l' := m) (by simp [effect, hl, hx]) (B := Big t m.length) (P := Any)
            (grow_big (by simp [extent, hx, target])) rfl rfl (fun _ _ e => by cases e) (fun v hv g => ?_)
          exact copyAssign_ok g hs go (fun q hq => h.apart j i o v q (fun e => hij e.symm) ho hv hq)
  | moveAssign i j | swap i j =>
    all_goals
      have := hin rfl
      simp only [effect] at this
      cases hl : σ i with
      | none => simp [hl] at this
      | some l =>
        cases hx : σ j with
        | none => simp [hx, hl] at this
        | some m =>
          obtain ⟨u, hu, gu⟩ := h.vec hl
          obtain ⟨o, ho, go⟩ := h.vec hx
          simp only [step, World.exchange, hu, ho]
          refine ⟨put (put σ j (some l)) i (some m), by simp only [effect, hl, hx, Option.bind_some, Option.map_some], h.fresh, fun k v hk => ?_, fun k hk => ?_,
            fun k k' v v' q hkk hk hk' hq => ?_, fun p n hp => ?_⟩
          · dsimp only at hk
            by_cases c1 : k = i
            · rw [if_pos c1] at hk
              injection hk with hk
              subst hk
              exact ⟨m, by simp [put, c1], go⟩
            · rw [if_neg c1] at hk
              by_cases c2 : k = j
              · rw [if_pos c2] at hk
                injection hk with hk
                subst hk
                exact ⟨l, by simp [put, c2, c2 ▸ c1], gu⟩
              · rw [if_neg c2] at hk
                obtain ⟨l, e1, e2⟩ := h.good k v hk
                exact ⟨l, by simp [put, c1, c2, e1], e2⟩
          · dsimp only at hk
            by_cases c1 : k = i
            · rw [if_pos c1] at hk; cases hk
            · rw [if_neg c1] at hk
              by_cases c2 : k = j
              · rw [if_pos c2] at hk; cases hk
              · rw [if_neg c2] at hk
                simp [put, c1, c2, h.nil k hk]
          · dsimp only at hk hk'
            have hown : ∀ k v, (if k = i then some o else if k = j then some u else w.vecs k) = some v →
                w.vecs (if k = i then j else if k = j then i else k) = some v := by
              intro k v hk
              by_cases c1 : k = i
              · rw [if_pos c1] at hk ⊢; rw [← hk]; exact ho
              · rw [if_neg c1] at hk ⊢
                by_cases c2 : k = j
                · rw [if_pos c2] at hk ⊢; rw [← hk]; exact hu
                · rw [if_neg c2] at hk ⊢; exact hk
            refine h.apart _ _ v v' q ?_ (hown k v hk) (hown k' v' hk') hq
            split <;> split <;> (try split) <;> (try split) <;> omega
          · obtain ⟨k, v, e1, e2⟩ := h.owned p n hp
            refine ⟨if k = i then j else if k = j then i else k, v, ?_, e2⟩
            dsimp only
            by_cases c1 : k = i
            · subst c1
              rw [if_pos rfl]
              rw [hu] at e1
              by_cases c2 : j = k
              · rw [if_pos c2]
                rw [c2, hu] at ho
                rw [← ho, e1]
              · rw [if_neg c2, if_pos rfl, e1]
            · rw [if_neg c1]
              by_cases c2 : k = j
              · subst c2
                rw [if_pos rfl, if_pos rfl, ← ho, e1]
              · rw [if_neg c2, if_neg c1, if_neg c2, e1]
  | pushBack i x =>
    have := hin rfl
    simp only [effect] at this
    cases hl : σ i with
    | none => simp [hl] at this
    | some l =>
      cases hx : x.value σ with
      | none => simp [hx, hl] at this
      | some a =>
        obtain ⟨v, hv, g⟩ := h.vec hl
        obtain ⟨y, e1, _⟩ := h.arg hx i v (.inl hv)
        simp only [step]
        rw [src_eq e1]
        refine on_step h rfl hl (l' := l ++ [a]) (by simp [effect, hl, hx]) (B := Big t (l.length + 1)) (P := Semi t l)
          (grow_big (by simp [extent, hl, count, target])) rfl rfl (fun _ h _ => h) (fun v hv g => ?_)
        obtain ⟨y', e1', e2, _⟩ := h.arg hx i v (.inl hv)
        rw [e1] at e1'
        injection e1' with e1'
        subst e1'
        refine wp_mono (pushBack_ok g e2 hs hs' (B := Big t (l.length + 1)) (fun h1 h2 => Big.of h2 ?_)) (fun _ s' h => ⟨h.1, h.2.1⟩) (fun _ _ h => h.1)
        have := pushCap_le' t (w.state v).vec.z
        rw [← h1, g.size] at this
        rw [← h1, g.size]; omega
  | popBack i =>
    have := hin rfl
    simp only [effect] at this
    cases hl : σ i with
    | none => simp [hl] at this
    | some l =>
      have hne : l ≠ [] := fun e => by simp [hl, e] at this
      refine on_noexcept h rfl hl (l' := l.dropLast) (by simp [effect, hl, hne]) (fun v hv g => ?_)
      exact wp_mono (popBack_ok g hne) (fun _ s' h => ⟨h.1, h.2.1⟩) (fun _ _ h => h)
  | clear i =>
    have := hin rfl
    simp only [effect, Option.isSome_map] at this
    obtain ⟨l, hl⟩ := Option.isSome_iff_exists.mp this
    refine on_noexcept h rfl hl (l' := []) (by simp [effect, hl]) (fun v hv g => ?_)
    exact wp_mono (clear_ok g) (fun _ s' h => ⟨h.1, h.2.1⟩) (fun _ _ h => h)
  | reserve i n =>
    have := hin rfl
    simp only [effect, Option.isSome_map] at this
    obtain ⟨l, hl⟩ := Option.isSome_iff_exists.mp this
    simp only [count] at hb
    refine on_step h rfl hl (l' := l) (by simp [effect, hl, put_same hl]) (B := Big t n) (P := Semi t l)
      (grow_big (by simp [extent, hl, count, target])) rfl rfl (fun _ h _ => h) (fun v hv g => ?_)
    exact wp_mono (reserve_ok g hs (by omega) (fun h => Big.of h (by omega))) (fun _ s' h => ⟨h.1, h.2.1⟩) (fun _ _ h => h.1)
  | shrinkToFit i =>
    have := hin rfl
    simp only [effect, Option.isSome_map] at this
    obtain ⟨l, hl⟩ := Option.isSome_iff_exists.mp this
    refine on_noexcept h rfl hl (l' := l) (by simp [effect, hl, put_same hl]) (fun v hv g => ?_)
    refine wp_mono (shrinkToFit_ok g hs) ?_ (fun _ _ h => h)
    rintro _ s' ⟨h1, _, l', h2, h3⟩
    rw [h2.2 hsup] at h3
    exact ⟨h3, h1⟩
  | resize i n =>
    have := hin rfl
    simp only [effect, Option.isSome_map] at this
    obtain ⟨l, hl⟩ := Option.isSome_iff_exists.mp this
    simp only [count] at hb
    refine on_step h rfl hl (l' := resized l n (initial t)) (by simp [effect, hl, resized]) (B := Big t n) (P := Semi t l)
      (grow_big (by simp [extent, hl, count, target])) rfl rfl (fun _ h _ => h) (fun v hv g => ?_)
    exact wp_mono (resize_ok g hs (by omega) rfl) (fun _ s' h => ⟨h.1, h.2.1⟩) (fun _ _ h => h)
  | resizeWith i n x =>
    have := hin rfl
    simp only [effect] at this
    cases hl : σ i with
    | none => simp [hl] at this
    | some l =>
      cases hx : x.value σ with
      | none => simp [hx, hl] at this
      | some a =>
        simp only [count] at hb
        obtain ⟨v, hv, g⟩ := h.vec hl
        obtain ⟨y, e1, _⟩ := h.arg hx i v (.inl hv)
        simp only [step]
        rw [src_eq e1]
        refine on_step h rfl hl (l' := resized l n a) (by simp [effect, hl, hx, resized]) (B := Big t n) (P := Semi t l)
          (grow_big (by simp [extent, hl, count, target])) rfl rfl (fun _ h _ => h) (fun v hv g => ?_)
        obtain ⟨y', e1', e2, _⟩ := h.arg hx i v (.inl hv)
        rw [e1] at e1'
        injection e1' with e1'
        subst e1'
        exact wp_mono (resizeWith_ok g hs (by omega) e2) (fun _ s' h => ⟨h.1, h.2.1⟩) (fun _ _ h => h)
  | assignFill i n x =>
    have := hin rfl
    simp only [effect] at this
    cases hl : σ i with
    | none => simp [hl] at this
    | some l =>
      cases hx : x.value σ with
      | none => simp [hx, hl] at this
      | some a =>
        simp only [count] at hb
        obtain ⟨v, hv, g⟩ := h.vec hl
        obtain ⟨y, e1, _⟩ := h.arg hx i v (.inl hv)
        simp only [step]
        rw [src_eq e1]
        refine on_step h rfl hl (l' := List.replicate n a) (by simp [effect, hl, hx]) (B := Big t n) (P := Any)
          (grow_big (by simp [extent, hl, count, target])) rfl rfl (fun _ _ e => by cases e) (fun v hv g => ?_)
        obtain ⟨y', e1', e2, _⟩ := h.arg hx i v (.inl hv)
        rw [e1] at e1'
        injection e1' with e1'
        subst e1'
        exact assignFill_ok g hs (by omega) e2
  | assignRange i xs input =>
    have := hin rfl
    simp only [effect] at this
    cases hl : σ i with
    | none => simp [hl] at this
    | some l =>
      cases hx : values σ xs with
      | none => simp [hx, hl] at this
      | some as =>
        have hout : xs.any (Arg.inside i) = false := by
          cases hc : xs.any (Arg.inside i) with
          | false => rfl
          | true => simp [hl, hc] at this
        simp only [count] at hb
        obtain ⟨v, hv, g⟩ := h.vec hl
        obtain ⟨ys, e1, e0, _⟩ := h.args hx i v (.inl hv)
        have hlen : ys.length = xs.length := by rw [e0.length_eq, values_length hx]
        simp only [step]
        rw [srcs_eq e1]
        refine on_step h rfl hl (l' := as) (by simp [effect, hl, hx, hout]) (B := Big t (l.length + ys.length)) (P := Any)
          (grow_big (by simp [extent, hl, count, target]; omega)) rfl rfl (fun _ _ e => by cases e) (fun v hv g => ?_)
        obtain ⟨y', e1', _, e2⟩ := h.args hx i v (.inl hv)
        rw [e1] at e1'
        injection e1' with e1'
        subst e1'
        cases input with
        | true => exact assignInput_ok g hs hs' (e2 hout)
        | false =>
          exact wp_mono (assignForward_ok g hs (by rw [hlen]; omega) (e2 hout)) (fun _ s' h => h)
            (fun _ _ h => h.mono (grow_big (by omega)) fun _ h => h)
  | insert i pos x =>
    have := hin rfl
    simp only [effect] at this
    cases hl : σ i with
    | none => simp [hl] at this
    | some l =>
      cases hx : x.value σ with
      | none => simp [hx, hl] at this
      | some a =>
        have hpos : pos ≤ l.length := by
          by_contra hc; simp [hl, hx, hc] at this
        obtain ⟨v, hv, g⟩ := h.vec hl
        obtain ⟨y, e1, _⟩ := h.arg hx i v (.inl hv)
        simp only [step]
        rw [src_eq e1]
        refine on_place h rfl hl (l' := insertAt l pos [a]) (n := pos) (by simp [effect, hl, hx, hpos]) (B := Big t (l.length + 1))
          (P := fun v => Kept t (w.state v) l pos 1)
          (grow_big (by simp [extent, hl, count, target])) rfl rfl (fun v l' hk hst => hk.1 (.inl (by simp only [strong, hl, Option.map_some, beq_iff_eq, Option.some.injEq] at hst; exact hst.symm))) (fun v hv g => ?_)
        obtain ⟨y', e1', e2, _⟩ := h.arg hx i v (.inl hv)
        rw [e1] at e1'
        injection e1' with e1'
        subst e1'
        exact wp_mono (insertOne_ok g hs hs' hpos e2) (fun _ s' h => h.out) (fun _ _ h => h)
  | emplace i pos x =>
    have := hin rfl
    simp only [effect] at this
    cases hl : σ i with
    | none => simp [hl] at this
    | some l =>
      cases hx : x.value σ with
      | none => simp [hx, hl] at this
      | some a =>
        have hpos : pos ≤ l.length := by
          by_contra hc; simp [hl, hx, hc] at this
        obtain ⟨v, hv, g⟩ := h.vec hl
        obtain ⟨y, e1, _⟩ := h.arg hx i v (.inl hv)
        simp only [step]
        rw [src_eq e1]
        refine on_place h rfl hl (l' := insertAt l pos [a]) (n := pos) (by simp [effect, hl, hx, hpos]) (B := Big t (l.length + 1))
          (P := fun v => Kept t (w.state v) l pos 1)
          (grow_big (by simp [extent, hl, count, target])) rfl rfl (fun v l' hk hst => hk.1 (.inl (by simp only [strong, hl, Option.map_some, beq_iff_eq, Option.some.injEq] at hst; exact hst.symm))) (fun v hv g => ?_)
        obtain ⟨y', e1', e2, e3⟩ := h.arg hx i v (.inl hv)
        rw [e1] at e1'
        injection e1' with e1'
        subst e1'
        refine wp_mono (emplace_ok g hs hs' hpos e2 ?_) (fun _ s' h => h.out) (fun _ _ h => h)
        rcases hsup with hc | hc
        · right; right
          have hout := e3 hc
          cases y with
          | val b => rfl
          | ref p k =>
            obtain ⟨⟨q, rfl, _⟩, hq⟩ := hout
            have : (some q == (w.state v).vec.b) = false := by
              rw [beq_eq_false_iff_ne]
              exact fun e => hq q k rfl e.symm
            simp [isInternal, this]
        · left
          simp only [hl, Option.map_some, Option.some.injEq] at hc
          exact hc.symm
  | insertFill i pos n x =>
    have := hin rfl
    simp only [effect] at this
    cases hl : σ i with
    | none => simp [hl] at this
    | some l =>
      cases hx : x.value σ with
      | none => simp [hx, hl] at this
      | some a =>
        have hpos : pos ≤ l.length := by
          by_contra hc; simp [hl, hx, hc] at this
        simp only [count] at hb
        obtain ⟨v, hv, g⟩ := h.vec hl
        obtain ⟨y, e1, _⟩ := h.arg hx i v (.inl hv)
        simp only [step]
        rw [src_eq e1]
        refine on_place h rfl hl (l' := insertAt l pos (List.replicate n a)) (n := pos) (by simp [effect, hl, hx, hpos]) (B := Big t (l.length + n))
          (P := fun v => Kept t (w.state v) l pos n)
          (grow_big (by simp [extent, hl, count, target])) rfl rfl (fun v l' hk hst => hk.1 (.inl (by simp only [strong, hl, Option.map_some, beq_iff_eq, Option.some.injEq] at hst; exact hst.symm))) (fun v hv g => ?_)
        obtain ⟨y', e1', e2, _⟩ := h.arg hx i v (.inl hv)
        rw [e1] at e1'
        injection e1' with e1'
        subst e1'
        exact wp_mono (insertFill_ok g hs hs' hpos hb e2) (fun _ s' h => h.out) (fun _ _ h => h)
  | insertRange i pos xs input =>
    have := hin rfl
    simp only [effect] at this
    cases hl : σ i with
    | none => simp [hl] at this
    | some l =>
      have hout : xs.any (Arg.inside i) = false := by
        cases hc : xs.any (Arg.inside i) with
        | false => rfl
        | true => simp [hl, hc] at this
      cases hx : values σ xs with
      | none => simp [hx, hl] at this
      | some as =>
        have hpos : pos ≤ l.length := by
          by_contra hc; simp [hl, hx, hc] at this
        simp only [count] at hb
        obtain ⟨v, hv, g⟩ := h.vec hl
        obtain ⟨ys, e1, e0, _⟩ := h.args hx i v (.inl hv)
        have hlen : ys.length = xs.length := by rw [e0.length_eq, values_length hx]
        have hlen' : as.length = xs.length := values_length hx
        simp only [step]
        rw [srcs_eq e1]
        cases input with
        | true =>
          refine on_place h rfl hl (l' := insertAt l pos as) (n := pos) (by simp [effect, hl, hx, hpos, hout]) (B := Big t (l.length + as.length))
            (P := fun v => Any)
            (grow_big (by simp [extent, hl, count, target]; omega)) rfl rfl (fun v l' _ hst => by cases hst) (fun v hv g => ?_)
          obtain ⟨y', e1', _, e2⟩ := h.args hx i v (.inl hv)
          rw [e1] at e1'
          injection e1' with e1'
          subst e1'
          exact insertInput_ok g hs hs' hpos (e2 hout)
        | false =>
          refine on_place h rfl hl (l' := insertAt l pos as) (n := pos) (by simp [effect, hl, hx, hpos, hout]) (B := Big t (l.length + as.length))
            (P := fun v => Kept t (w.state v) l pos as.length)
            (grow_big (by simp [extent, hl, count, target]; omega)) rfl rfl (fun v l' hk hst => hk.1 (.inl (by simp only [strong, hl, Option.map_some, beq_iff_eq, Option.some.injEq] at hst; exact hst.symm))) (fun v hv g => ?_)
          obtain ⟨y', e1', _, e2⟩ := h.args hx i v (.inl hv)
          rw [e1] at e1'
          injection e1' with e1'
          subst e1'
          exact wp_mono (insertForward_ok g hs hs' hpos (by rw [hlen]; exact hb) (e2 hout)) (fun _ s' h => h.out) (fun _ _ h => h)
  | erase i first last =>
    have := hin rfl
    simp only [effect] at this
    cases hl : σ i with
    | none => simp [hl] at this
    | some l =>
      have hpos : first ≤ last ∧ last ≤ l.length := by
        by_contra hc
        rw [hl, Option.bind_some, if_neg hc] at this; cases this
      refine on_place h rfl hl (l' := l.take first ++ l.drop last) (n := first) (by simp [effect, hl, hpos]) (B := False)
        (P := fun v => Prefix l first) False.elim rfl rfl (fun v l' hk hst => by cases hst) (fun v hv g => ?_)
      exact wp_mono (erase_ok g hpos.1 hpos.2) (fun _ s' h => ⟨h.1, h.2.1, h.2.2.1⟩) (fun _ _ h => h)
  | eraseIf i p =>
    have := hin rfl
    simp only [effect, Option.isSome_map] at this
    obtain ⟨l, hl⟩ := Option.isSome_iff_exists.mp this
    refine on_step h rfl hl (l' := l.filter fun a => !p a) (by simp [effect, hl]) (B := False) (P := fun l' => l'.length = l.length)
      False.elim rfl rfl (fun l' hk hst => by cases hst) (fun v hv g => ?_)
    exact wp_mono (eraseIf_ok g) (fun _ s' h => ⟨h.1, h.2.1⟩) (fun _ _ h => h)
  | write i k x =>
    have := hin rfl
    simp only [effect] at this
    cases hl : σ i with
    | none => simp [hl] at this
    | some l =>
      cases hx : x.value σ with
      | none => simp [hx, hl] at this
      | some a =>
        have hpos : k < l.length := by
          by_contra hc; simp [hl, hx, hc] at this
        obtain ⟨v, hv, g⟩ := h.vec hl
        obtain ⟨y, e1, _⟩ := h.arg hx i v (.inl hv)
        simp only [step]
        rw [src_eq e1]
        refine on_outcome h i rfl hl (fun v hv g => ?_)
        obtain ⟨y', e1', e2, _⟩ := h.arg hx i v (.inl hv)
        rw [e1] at e1'
        injection e1' with e1'
        subst e1'
        rw [wp_bind, wp_self, wp_bind]
        refine assignAt_ok g hpos e2.1 (fun s' n => ?_) (fun s' b n => ?_)
        · exact ⟨n.rel, _, n.good, by simp [effect, hl, hx, hpos]⟩
        · exact ⟨n.rel, by simp [outOfRange], fun e => (by cases e), rfl, _, n.good, fun e => (by cases e)⟩
  | size i =>
    have := hin rfl
    simp only [effect, Option.isSome_map] at this
    obtain ⟨l, hl⟩ := Option.isSome_iff_exists.mp this
    simp only [step]
    refine on_read (op := .size i) (i := i) h rfl hl (a := .num l.length) (by simp [effect, hl]) (fun v hv g => ?_)
    rw [wp_bind, wp_self, wp_pure, g.size]
    exact ⟨rfl, rfl⟩
  | index i k =>
    have := hin rfl
    simp only [effect] at this
    cases hl : σ i with
    | none => simp [hl] at this
    | some l =>
      cases hk : l[k]? with
      | none => simp [hl, hk] at this
      | some a =>
        refine on_read h rfl hl (a := .val a) (by simp [effect, hl, hk]) (fun v hv g => wp_value (index_ok g hk ⟨rfl, rfl⟩))
  | at_ i k =>
    have hex : ∃ l, σ i = some l := by
      cases hl : σ i with
      | some l => exact ⟨l, rfl⟩
      | none => rcases ha with h | h <;> simp [effect, outOfRange, hl] at h
    obtain ⟨l, hl⟩ := hex
    refine on_outcome h i rfl hl (fun v hv g => wp_value (wp_mono (at_ok g) ?_ ?_))
    · rintro a s' ⟨h1, rfl⟩
      exact ⟨Rel.refl' g, l, g, by simp [effect, hl, h1, put_same hl]⟩
    · rintro x s' ⟨rfl, h1, rfl⟩
      exact ⟨Rel.refl' g, by simp [outOfRange, hl, h1], fun e => (by cases e), rfl, l, g, fun _ => Semi.refl⟩
  | front i =>
    have := hin rfl
    simp only [effect] at this
    cases hl : σ i with
    | none => simp [hl] at this
    | some l =>
      cases hk : l.head? with
      | none => simp [hl, hk] at this
      | some a =>
        refine on_read h rfl hl (a := .val a) (by simp [effect, hl, hk]) (fun v hv g => wp_value (front_ok g hk ⟨rfl, rfl⟩))
  | back i =>
    have := hin rfl
    simp only [effect] at this
    cases hl : σ i with
    | none => simp [hl] at this
    | some l =>
      cases hk : l.getLast? with
      | none => simp [hl, hk] at this
      | some a =>
        refine on_read h rfl hl (a := .val a) (by simp [effect, hl, hk]) (fun v hv g => wp_value (back_ok g hk ⟨rfl, rfl⟩))
  | equal i j eq =>
    have := hin rfl
    simp only [effect] at this
    cases hl : σ i with
    | none => simp [hl] at this
    | some l =>
      cases hx : σ j with
      | none => simp [hx, hl] at this
      | some m =>
        obtain ⟨o, ho, go⟩ := h.vec hx
        simp only [step]
        rw [other_eq ho]
        refine on_read h rfl hl (a := .bool (all2 eq l m)) (by simp [effect, hl, hx]) (fun v hv g => ?_)
        rw [wp_bind]
        refine wp_mono (equal_ok g go) ?_ (fun _ _ h => h)
        rintro b s' ⟨rfl, rfl⟩
        exact ⟨rfl, rfl⟩
  | less i j lt =>
    have := hin rfl
    simp only [effect] at this
    cases hl : σ i with
    | none => simp [hl] at this
    | some l =>
      cases hx : σ j with
      | none => simp [hx, hl] at this
      | some m =>
        obtain ⟨o, ho, go⟩ := h.vec hx
        simp only [step]
        rw [other_eq ho]
        refine on_read h rfl hl (a := .bool (lexLess lt l m)) (by simp [effect, hl, hx]) (fun v hv g => ?_)
        rw [wp_bind]
        refine wp_mono (less_ok g go) ?_ (fun _ _ h => h)
        rintro b s' ⟨rfl, rfl⟩
        exact ⟨rfl, rfl⟩

end Gtl.Vec
