import Verif.Vec.Pres
/-
Operations that need no more than the capacity keep the buffer.
-/
namespace Gtl.Vec
open M Gtl.Spec.Seq

variable {α β γ : Type}

/-- `Q` if `m` ends normally, `E` if it throws, anything if it is undefined. -/
def wlp (m : M α β) (s : St α) (Q : β → St α → Prop) (E : St α → Prop) : Prop :=
  match m s with
  | .ok b s' => Q b s'
  | .thrown _ s' => E s'
  | .ub => True

theorem wlp_bind {m : M α β} {f : β → M α γ} {s : St α} {Q : γ → St α → Prop} {E : St α → Prop}
    (h : wlp m s (fun b s' => wlp (f b) s' Q E) E) : wlp (m >>= f) s Q E := by
  show match M.bind m f s with | .ok _ s' => _ | .thrown x s' => _ | .ub => _
  unfold M.bind
  unfold wlp at h
  cases e : m s <;> rw [e] at h <;> exact h

theorem wlp_mono {m : M α β} {s : St α} {Q Q' : β → St α → Prop} {E E' : St α → Prop} (h : wlp m s Q E)
    (hq : ∀ b s', Q b s' → Q' b s') (he : ∀ s', E s' → E' s') : wlp m s Q' E' := by
  unfold wlp at *
  cases e : m s <;> rw [e] at h
  · exact hq _ _ h
  · exact he _ h
  · trivial

theorem wlp_guarded {m : M α β} {r : M α Unit} {s : St α} {Q : β → St α → Prop} {E E' : St α → Prop}
    (h : wlp m s Q E') (hr : ∀ s', E' s' → wlp r s' (fun _ s'' => E s'') (fun _ => True)) : wlp (guarded m r) s Q E := by
  unfold wlp guarded at *
  cases e : m s with
  | ok b s' => rw [e] at h; exact h
  | ub => trivial
  | thrown x s' =>
    rw [e] at h
    have := hr s' h
    dsimp only
    cases e' : r s' with
    | ok b s'' => rw [e'] at this; exact this
    | thrown _ _ => trivial
    | ub => trivial

/-- Buffer and capacity are `u`'s. -/
def Keep (u : Vec) (v : Vec) : Prop := v.b = u.b ∧ v.z = u.z

theorem keep_stab (u : Vec) : Stab (fun _ => Keep u) (fun _ => True) :=
  ⟨fun _ _ h _ => h, fun _ _ h _ => ⟨trivial, h⟩, trivial, trivial⟩

theorem keep_inner (u : Vec) : Inner (fun _ => Keep u) := fun _ _ _ _ _ h _ hb hz => ⟨hb.trans h.1, hz.trans h.2⟩

theorem same_stab (u : Vec) : Stab (fun _ v => v = u) (fun _ => True) :=
  ⟨fun _ _ h _ => h, fun _ _ h _ => ⟨trivial, h⟩, trivial, trivial⟩

theorem wlp_keep {m : M α β} {s : St α} {u : Vec} (h : Pres (fun _ => Keep u) (fun _ => True) m) (hs : Keep u s.vec) :
    wlp m s (fun _ s' => Keep u s'.vec) (fun s' => Keep u s'.vec) := by
  have := h s hs
  unfold wlp
  cases e : m s <;> rw [e] at this
  · exact this
  · exact this.2
  · trivial

theorem wlp_same {m : M α β} {s : St α} {u : Vec} (h : Pres (fun _ v => v = u) (fun _ => True) m) (hs : s.vec = u) :
    wlp m s (fun _ s' => s'.vec = u) (fun s' => s'.vec = u) := by
  have := h s hs
  unfold wlp
  cases e : m s <;> rw [e] at this
  · exact this
  · exact this.2
  · trivial

/-- The buffer stays. -/
abbrev Stays (m : M α β) (s : St α) : Prop := wlp m s (fun _ s' => Keep s.vec s'.vec) (fun s' => Keep s.vec s'.vec)

theorem Keep.refl (u : Vec) : Keep u u := ⟨rfl, rfl⟩

theorem Keep.trans {u v w : Vec} (h : Keep u v) (h' : Keep v w) : Keep u w := ⟨h'.1.trans h.1, h'.2.trans h.2⟩

theorem stays_of {m : M α β} {s : St α} (h : Pres (fun _ => Keep s.vec) (fun _ => True) m) : Stays m s := wlp_keep h (Keep.refl _)

variable {t : Traits α} {s : St α}

theorem pres_reserve_keep {u : Vec} {n : Nat} (hn : n ≤ u.z) : Pres (fun _ => Keep u) (fun _ => True) (reserve t n) :=
  pres_self fun v _ hv => pres_ite (fun _ => pres_pure) fun hc => absurd (by rw [hv.2]; exact hn) hc

theorem reserve_stays {n : Nat} (hn : n ≤ s.vec.z) : Stays (reserve t n) s := stays_of (pres_reserve_keep hn)

theorem resize_stays {n : Nat} (hn : n ≤ s.vec.z) : Stays (resize t n) s :=
  have c := keep_stab s.vec
  stays_of (pres_self fun _ _ _ => pres_ite (fun _ => pres_destroyRangeE c (keep_inner _)) fun _ =>
    pres_bind (pres_reserve_keep hn) fun _ => pres_appendE c (keep_inner _))

theorem resizeWith_stays {n : Nat} {x : Src α} (hn : n ≤ s.vec.z) : Stays (resizeWith t n x) s :=
  have c := keep_stab s.vec
  stays_of (pres_bind (pres_asVT c) fun _ => pres_self fun v _ hv => pres_ite (fun _ => pres_destroyRangeE c (keep_inner _)) fun _ =>
    pres_ite (fun h => absurd h (by
        have := hv.2
        simp only [Bool.and_eq_true, decide_eq_true_eq, not_and, Nat.not_lt]
        intro; omega))
      fun _ => pres_bind (pres_reserve_keep hn) fun _ => pres_appendE c (keep_inner _))

theorem assignFill_stays {n : Nat} {x : Src α} (hn : n ≤ s.vec.z) : Stays (assignFill t n x) s :=
  have c := keep_stab s.vec
  stays_of (pres_bind (pres_asVT c) fun _ => pres_self fun v _ hv => pres_ite (fun h => absurd h (by have := hv.2; omega))
    fun _ => pres_ite (fun _ => pres_bind (pres_assignLoop c) fun _ => pres_destroyRangeE c (keep_inner _))
      fun _ => pres_bind (pres_assignLoop c) fun _ => pres_appendE c (keep_inner _))

theorem assignForward_stays {xs : List (Src α)} (hn : xs.length ≤ s.vec.z) : Stays (assignForward t xs) s :=
  have c := keep_stab s.vec
  stays_of (pres_self fun v _ hv => pres_ite (fun h => absurd h (by have := hv.2; omega))
    fun _ => pres_ite (fun _ => pres_bind (pres_assignLoop c) fun _ => pres_destroyRangeE c (keep_inner _))
      fun _ => pres_bind (pres_assignLoop c) fun _ => pres_appendE c (keep_inner _))

theorem copyAssign_stays {o : Vec} (hn : o.e ≤ s.vec.z) : Stays (copyAssign t o) s :=
  have c := keep_stab s.vec
  stays_of (pres_self fun v _ hv => pres_ite (fun h => absurd h (by have := hv.2; omega))
    fun _ => pres_ite (fun _ => pres_bind (pres_assignLoop c) fun _ => pres_destroyRangeE c (keep_inner _))
      fun _ => pres_bind (pres_assignLoop c) fun _ => pres_appendCopyE c (keep_inner _))

/-- Within the capacity one element is added to the same buffer. -/
theorem pushBack_next {x : Src α} (h : s.vec.e < s.vec.z) :
    wlp (pushBack t x) s (fun _ s' => s'.vec = { s.vec with e := s.vec.e + 1 }) (fun s' => s'.vec = s.vec) := by
  unfold pushBack
  apply wlp_bind
  show wlp (if s.vec.e ≠ s.vec.z then _ else _) s _ _
  rw [if_pos (by omega)]
  apply wlp_bind
  refine wlp_mono (wlp_same (pres_build (same_stab s.vec)) rfl) (fun _ s' h => ?_) (fun _ h => h)
  exact rfl

theorem pushAll_next : ∀ {xs : List (Src α)} {s : St α}, s.vec.e + xs.length ≤ s.vec.z →
    wlp (pushAll t xs) s (fun _ s' => s'.vec = { s.vec with e := s.vec.e + xs.length }) (fun s' => Keep s.vec s'.vec)
  | [], s, _ => rfl
  | x :: xs, s, h => by
    rw [List.length_cons] at h
    unfold pushAll
    apply wlp_bind
    refine wlp_mono (pushBack_next (by omega)) (fun _ s' h' => ?_) (fun _ h => by rw [h]; exact Keep.refl _)
    refine wlp_mono (pushAll_next (by rw [h']; dsimp only; omega)) (fun _ s'' h'' => ?_) (fun s'' h'' => ?_)
    · rw [h'', h', List.length_cons, Nat.add_comm xs.length 1, ← Nat.add_assoc]
    · rw [h'] at h''; exact h''

theorem assignInput_stays {xs : List (Src α)} (hn : xs.length ≤ s.vec.z) : Stays (assignInput t xs) s := by
  have c := keep_stab s.vec
  have key : ∀ (xs : List (Src α)) (i : Nat) (p : Option Nat) (s' : St α), i ≤ s.vec.e → i + xs.length ≤ s.vec.z → s'.vec = s.vec →
      wlp (assignSome t p s.vec.e i xs) s' (fun r s'' => s''.vec = s.vec ∧ (r.1 = s.vec.e → r.1 + r.2.length ≤ s.vec.z))
        (fun s'' => s''.vec = s.vec) := by
    intro xs
    induction xs with
    | nil => exact fun i p s' _ _ hs => ⟨hs, fun e => by show i + 0 ≤ _; have e : i = _ := e; omega⟩
    | cons x xs ih =>
      intro i p s' hi hx hs
      rw [List.length_cons] at hx
      unfold assignSome
      by_cases hc : i ≠ s.vec.e
      · rw [if_pos hc]
        apply wlp_bind
        refine wlp_mono (wlp_same (pres_assignAt (same_stab s.vec)) hs) (fun _ s'' h'' => ?_) (fun _ h => h)
        exact ih (i + 1) p s'' (by omega) (by omega) h''
      · rw [if_neg hc]
        exact ⟨hs, fun _ => hx⟩
  unfold Stays assignInput
  apply wlp_bind
  show wlp (assignSome t s.vec.b s.vec.e 0 xs >>= _) s _ _
  apply wlp_bind
  refine wlp_mono (key xs 0 s.vec.b s (by omega) (by omega) rfl) (fun r s' h => ?_) (fun s' h => by rw [h]; exact Keep.refl _)
  obtain ⟨p, rest⟩ := r
  obtain ⟨h1, h2⟩ := h
  dsimp only at *
  by_cases hc : p ≠ s.vec.e
  · rw [if_pos hc]
    exact wlp_keep (pres_destroyRangeE c (keep_inner _)) (by rw [h1]; exact Keep.refl _)
  · rw [if_neg hc]
    have h3 := h2 (by omega)
    refine wlp_mono (pushAll_next (by rw [h1]; omega)) (fun _ s'' h'' => ?_) (fun s'' h'' => ?_)
    · rw [h'', h1]; exact ⟨rfl, rfl⟩
    · rw [h1] at h''; exact h''

theorem doRealInsert_stays {pos n : Nat} {b : Bool} {m : M α Nat} {c d : Option Nat → Nat → M α Unit}
    (hn : s.vec.e + n ≤ s.vec.z) (hm : b = true → Stays m s)
    (hc : ∀ p i, Pres (fun _ => Keep s.vec) (fun _ => True) (c p i)) : Stays (doRealInsert t pos n b m c d) s := by
  have k := keep_stab s.vec
  have ki := keep_inner s.vec
  unfold Stays doRealInsert
  apply wlp_bind
  show wlp (if n = 0 then _ else _) s _ _
  by_cases h0 : n = 0
  · rw [if_pos h0]; exact Keep.refl _
  rw [if_neg h0]
  dsimp only
  have hfresh : decide (s.vec.z < s.vec.e + n) = false := by simp; omega
  rw [hfresh]
  by_cases hi : (!(pos == s.vec.e) && (!false && b)) = true
  · rw [if_pos hi]
    exact hm (by simp only [Bool.and_eq_true] at hi; exact hi.2.2)
  rw [if_neg hi]
  by_cases hp : s.vec.e < pos
  · rw [if_pos hp]; trivial
  rw [if_neg hp, if_neg (by simp)]
  have hset : ∀ e, Pres (α := α) (fun _ => Keep s.vec) (fun _ => True) (setVec { s.vec with e := e }) :=
    fun _ => pres_setE k ki (f := s.luck) (Keep.refl _) rfl rfl
  refine stays_of ?_
  have hg : Pres (fun _ => Keep s.vec) (fun _ => True) (guarded (c s.vec.b pos) (if !(pos == s.vec.e) then undoWindow t pos n
         else do
          let w ← self
          setVec { w with e := w.e - n })) := pres_guarded (hc _ _) (pres_ite (fun _ => pres_undoWindow k ki)
            fun _ => pres_self fun _ f hv => pres_setE k ki (f := f) hv rfl rfl)
  exact pres_ite (fun _ => pres_bind (pres_makeWindow k ki) fun _ => pres_bind hg fun _ => pres_pure)
      fun _ => pres_bind (hset _) fun _ => pres_bind hg fun _ => pres_pure

theorem emplace_stays {pos : Nat} {x : Src α} (hn : s.vec.e + 1 ≤ s.vec.z) : Stays (emplace t pos x) s :=
  doRealInsert_stays hn (fun e => by cases e) (fun _ _ => pres_build (keep_stab _))

theorem insertForward_stays {pos : Nat} {xs : List (Src α)} (hn : s.vec.e + xs.length ≤ s.vec.z) : Stays (insertForward t pos xs) s :=
  doRealInsert_stays hn (fun e => by cases e) (fun _ _ => pres_buildLoop (keep_stab _))

theorem insertOne_stays {pos : Nat} {x : Src α} (hn : s.vec.e + 1 ≤ s.vec.z) : Stays (insertOne t pos x) s := by
  unfold Stays insertOne
  apply wlp_bind
  refine doRealInsert_stays hn (fun _ => ?_) (fun _ _ => pres_build (keep_stab _))
  apply wlp_bind
  refine wlp_mono (wlp_same (pres_copyOf (same_stab s.vec)) rfl) (fun temp s' h => ?_) (fun _ h => by rw [h]; exact Keep.refl _)
  rw [← h]
  refine doRealInsert_stays (by rw [h]; exact hn) (fun e => by cases e) (fun _ _ => pres_build (keep_stab _))

theorem insertFill_stays {pos n : Nat} {x : Src α} (hn : s.vec.e + n ≤ s.vec.z) : Stays (insertFill t pos n x) s := by
  unfold Stays insertFill
  apply wlp_bind
  refine wlp_mono (wlp_same (pres_asVT (same_stab s.vec)) rfl) (fun src s' h => ?_) (fun _ h => by rw [h]; exact Keep.refl _)
  rw [← h] at hn ⊢
  apply wlp_bind
  refine doRealInsert_stays hn (fun _ => ?_) (fun _ _ => pres_buildLoop (keep_stab _))
  apply wlp_bind
  refine wlp_mono (wlp_same (pres_copyOf (same_stab s'.vec)) rfl) (fun temp s'' h => ?_) (fun _ h => by rw [h]; exact Keep.refl _)
  rw [← h] at hn ⊢
  refine doRealInsert_stays hn (fun e => by cases e) (fun _ _ => pres_buildLoop (keep_stab _))

theorem insertInput_stays {pos : Nat} {xs : List (Src α)} (hn : s.vec.e + xs.length ≤ s.vec.z) : Stays (insertInput t pos xs) s := by
  have k := same_stab s.vec
  have kr : ∀ s' : St α, s'.vec = s.vec → Keep s.vec s'.vec := fun s' h => by rw [h]; exact Keep.refl _
  unfold Stays insertInput
  apply wlp_bind
  show wlp (if s.vec.e < pos then _ else _) s _ _
  by_cases hp : s.vec.e < pos
  · rw [if_pos hp]; trivial
  rw [if_neg hp]
  have hd : ∀ s' : St α, s'.vec = s.vec →
      wlp (destroyRangeE t pos) s' (fun _ s'' => s''.vec = { s.vec with e := pos }) (fun s'' => s''.vec = s.vec) := by
    intro s' hs
    unfold destroyRangeE
    apply wlp_bind
    show wlp (destroyRange t s'.vec.b pos s'.vec.e >>= _) s' _ _
    apply wlp_bind
    refine wlp_mono (wlp_same (pres_destroyRange k) hs) (fun _ s'' h => ?_) (fun _ h => h)
    show _ = _
    rw [hs]
  dsimp only
  by_cases h0 : s.vec.e - pos = 0
  · rw [if_pos h0]
    apply wlp_bind
    refine wlp_mono (hd s rfl) (fun _ s' h => ?_) kr
    apply wlp_bind
    refine wlp_mono (pushAll_next (by rw [h]; dsimp only; omega)) (fun _ s'' h'' => ?_) (fun _ h'' => ?_)
    · show Keep _ _
      rw [h'', h]; exact ⟨rfl, rfl⟩
    · rw [h] at h''; exact h''
  rw [if_neg h0]
  apply wlp_bind
  refine wlp_mono (wlp_same (pres_alloc k) rfl) (fun q s1 h1 => ?_) kr
  apply wlp_bind
  refine wlp_mono (wlp_same (pres_guarded (pres_uninitMove k) pres_dealloc) h1) (fun _ s2 h2 => ?_) kr
  apply wlp_bind
  have hfin : ∀ s' : St α, Keep s.vec s'.vec → wlp (do
          destroyRange t (some q) 0 (s.vec.e - pos)
          dealloc t (some q) (capOf t (s.vec.e - pos))) s' (fun _ s'' => Keep s.vec s''.vec) (fun s'' => Keep s.vec s''.vec) :=
    fun s' h => wlp_keep (pres_bind (pres_destroyRange (keep_stab _)) fun _ => pres_dealloc) h
  unfold finally_
  apply wlp_bind
  refine wlp_mono (Q := fun _ s' => Keep s.vec s'.vec) (wlp_guarded (E := fun s' => Keep s.vec s'.vec) (E' := fun s' => Keep s.vec s'.vec) ?_ (fun s' h => wlp_mono (hfin s' h) (fun _ _ h => h) (fun _ _ => trivial)))
    (fun _ s3 h3 => ?_) (fun _ h => h)
  · apply wlp_bind
    refine wlp_mono (hd s2 h2) (fun _ s3 h3 => ?_) kr
    apply wlp_bind
    refine wlp_mono (pushAll_next (by rw [h3]; dsimp only; omega)) (fun _ s4 h4 => ?_) (fun _ h'' => by rw [h3] at h''; exact h'')
    rw [h3] at h4
    dsimp only at h4
    apply wlp_bind
    show wlp (insertMoved t s4.vec.e (some q) (s.vec.e - pos) >>= _) s4 _ _
    apply wlp_bind
    have hk : Keep s.vec s4.vec := by rw [h4]; exact ⟨rfl, rfl⟩
    refine wlp_mono (doRealInsert_stays (s := s4) (by rw [h4]; dsimp only; omega) (fun e => by cases e) (fun _ _ => pres_uninitMove (keep_stab _)))
      (fun _ s5 h5 => hk.trans h5) (fun s5 h5 => hk.trans h5)
  · apply wlp_bind
    exact wlp_mono (hfin s3 h3) (fun _ _ h => h) (fun _ h => h)

/-! ### The step -/

/-- `op` needs no more memory than vector `v` has. `sizes` are the sizes of the vectors. -/
def Fits (sizes : Nat → Nat) (v : Vec) : Op α → Prop
  | .pushBack _ _ | .insert _ _ _ | .emplace _ _ _ => v.e + 1 ≤ v.z
  | .insertFill _ _ n _ => v.e + n ≤ v.z
  | .insertRange _ _ xs _ => v.e + xs.length ≤ v.z
  | .reserve _ n | .resize _ n | .resizeWith _ n _ | .assignFill _ n _ => n ≤ v.z
  | .assignRange _ xs _ => xs.length ≤ v.z
  | .copyAssign _ j => sizes j ≤ v.z
  | .popBack _ | .clear _ | .erase _ _ _ | .eraseIf _ _ | .write _ _ _ | .size _ | .index _ _ | .at_ _ _ | .front _ | .back _
  | .equal _ _ _ | .less _ _ _ => True
  | .create _ | .createSized _ _ | .createFill _ _ _ | .createRange _ _ _ | .createCopy _ _ | .createMove _ _ | .drop _
  | .moveAssign _ _ | .swap _ _ | .shrinkToFit _ => False

/-- Vector `i` has kept its buffer and capacity. -/
def KeptBuffer (i : Nat) (v : Vec) : Out (World α) (Ans α) → Prop
  | .ok _ w' | .thrown _ w' => ∃ v', w'.vecs i = some v' ∧ Keep v v'
  | .ub => True

theorem on_kept {w : World α} {i : Nat} {v : Vec} {m : M α (Ans α)} (hv : w.vecs i = some v) (h : Stays m (w.state v)) :
    KeptBuffer i v (w.on i m) := by
  unfold World.on
  rw [hv]
  dsimp only
  unfold Stays wlp at h
  cases e : m (w.state v) <;> rw [e] at h
  · exact ⟨_, by simp [World.after], h⟩
  · exact ⟨_, by simp [World.after], h⟩
  · trivial

theorem quiet_stays {m : M α β} (h : Stays m s) : Stays (quiet m) s := wlp_bind (wlp_mono h (fun _ _ h => h) fun _ h => h)

theorem place_stays {m : M α Nat} (h : Stays m s) : Stays (place_ m) s := wlp_bind (wlp_mono h (fun _ _ h => h) fun _ h => h)

theorem arg_kept {w : World α} {i : Nat} {v : Vec} {x : Arg α} {f : Src α → Out (World α) (Ans α)} (h : ∀ y, KeptBuffer i v (f y)) :
    KeptBuffer i v (w.arg x f) := by
  unfold World.arg
  cases w.src x with
  | none => trivial
  | some y => exact h y

theorem srcs_length {w : World α} : ∀ {xs : List (Arg α)} {ys : List (Src α)}, w.srcs xs = some ys → ys.length = xs.length
  | [], ys, h => by injection h with h; subst h; rfl
  | x :: xs, ys, h => by
    unfold World.srcs at h
    cases hx : w.src x with
    | none => rw [hx] at h; cases h
    | some y =>
      rw [hx, Option.bind_some] at h
      cases hxs : w.srcs xs with
      | none => rw [hxs] at h; cases h
      | some zs =>
        rw [hxs] at h
        injection h with h
        subst h
        simp [srcs_length hxs]

theorem args_kept {w : World α} {i : Nat} {v : Vec} {xs : List (Arg α)} {f : List (Src α) → Out (World α) (Ans α)}
    (h : ∀ ys, ys.length = xs.length → KeptBuffer i v (f ys)) : KeptBuffer i v (w.args xs f) := by
  unfold World.args
  cases hx : w.srcs xs with
  | none => trivial
  | some y => exact h y (srcs_length hx)

theorem step_kept (t : Traits α) {w : World α} {op : Op α} {v : Vec} (hv : w.vecs (target op) = some v)
    (hf : Fits (fun j => ((w.vecs j).map Vec.e).getD 0) v op) : KeptBuffer (target op) v (step t w op) := by
  have c := keep_stab (w.state v).vec
  have ci := keep_inner (w.state v).vec
  cases op with
  | create | createSized | createFill | createRange | createCopy | createMove | drop | moveAssign | swap | shrinkToFit => exact hf.elim
  | copyAssign i j =>
    simp only [step, World.other]
    cases hj : w.vecs j with
    | none => trivial
    | some o =>
      dsimp only
      simp only [Fits, hj, Option.map_some, Option.getD_some] at hf
      refine on_kept hv ?_
      by_cases hij : i = j
      · rw [if_pos hij]; exact Keep.refl _
      · rw [if_neg hij]; exact quiet_stays (copyAssign_stays hf)
  | pushBack i x =>
    refine arg_kept fun y => on_kept hv (quiet_stays (wlp_mono (pushBack_next hf) (fun _ s' h => ?_) (fun s' h => ?_)))
    · rw [h]; exact ⟨rfl, rfl⟩
    · rw [h]; exact Keep.refl _
  | popBack i => exact on_kept hv (quiet_stays (stays_of (pres_popBack c ci)))
  | clear i => exact on_kept hv (quiet_stays (stays_of (pres_clear c ci)))
  | reserve i n => exact on_kept hv (quiet_stays (reserve_stays hf))
  | resize i n => exact on_kept hv (quiet_stays (resize_stays hf))
  | resizeWith i n x => exact arg_kept fun _ => on_kept hv (quiet_stays (resizeWith_stays hf))
  | assignFill i n x => exact arg_kept fun _ => on_kept hv (quiet_stays (assignFill_stays hf))
  | assignRange i xs input =>
    refine args_kept fun ys hy => on_kept hv (quiet_stays ?_)
    simp only [Fits] at hf
    cases input with
    | true => exact assignInput_stays (by rw [hy]; exact hf)
    | false => exact assignForward_stays (by rw [hy]; exact hf)
  | insert i pos x => exact arg_kept fun _ => on_kept hv (place_stays (insertOne_stays hf))
  | emplace i pos x => exact arg_kept fun _ => on_kept hv (place_stays (emplace_stays hf))
  | insertFill i pos n x => exact arg_kept fun _ => on_kept hv (place_stays (insertFill_stays hf))
  | insertRange i pos xs input =>
    refine args_kept fun ys hy => on_kept hv (place_stays ?_)
    simp only [Fits] at hf
    cases input with
    | true => exact insertInput_stays (by rw [hy]; exact hf)
    | false => exact insertForward_stays (by rw [hy]; exact hf)
  | erase i a b => exact on_kept hv (place_stays (stays_of (pres_erase c ci)))
  | eraseIf i p => exact on_kept hv (quiet_stays (stays_of (pres_eraseIf c ci)))
  | write i k x => exact arg_kept fun _ => on_kept hv (stays_of (pres_self fun _ _ _ => pres_bind (pres_assignAt c) fun _ => pres_pure))
  | size i =>
    simp only [step]
    exact on_kept hv (stays_of (pres_self fun _ _ _ => pres_pure))
  | index i k => exact on_kept hv (stays_of (pres_value c (pres_index c)))
  | at_ i k => exact on_kept hv (stays_of (pres_value c (pres_at c)))
  | front i => exact on_kept hv (stays_of (pres_value c (pres_front c)))
  | back i => exact on_kept hv (stays_of (pres_value c (pres_back c)))
  | equal i j eq =>
    simp only [step, World.other]
    cases hj : w.vecs j with
    | none => trivial
    | some o => exact on_kept hv (stays_of (pres_bind (pres_equal c) fun _ => pres_pure))
  | less i j lt =>
    simp only [step, World.other]
    cases hj : w.vecs j with
    | none => trivial
    | some o => exact on_kept hv (stays_of (pres_bind (pres_less c) fun _ => pres_pure))

/-! ### Other vectors -/

/-- Vector `j` is as it was. -/
def Untouched (w : World α) (j : Nat) : Out (World α) (Ans α) → Prop
  | .ok _ w' | .thrown _ w' => w'.vecs j = w.vecs j
  | .ub => True

theorem untouched_on {w : World α} {i j : Nat} {m : M α (Ans α)} (h : j ≠ i) : Untouched w j (w.on i m) := by
  unfold World.on
  cases w.vecs i with
  | none => trivial
  | some v =>
    dsimp only
    cases m (w.state v) <;> simp [Untouched, World.after, h]

theorem untouched_make {w : World α} {i j : Nat} {m : M α (Ans α)} (h : j ≠ i) : Untouched w j (w.make i m) := by
  unfold World.make
  cases w.vecs i with
  | some _ => trivial
  | none =>
    dsimp only
    cases m (w.state ⟨none, 0, 0⟩) <;> simp [Untouched, World.after, h]

theorem untouched_arg {w : World α} {j : Nat} {x : Arg α} {f : Src α → Out (World α) (Ans α)} (h : ∀ y, Untouched w j (f y)) :
    Untouched w j (w.arg x f) := by
  unfold World.arg
  cases w.src x with
  | none => trivial
  | some y => exact h y

theorem untouched_args {w : World α} {j : Nat} {x : List (Arg α)} {f : List (Src α) → Out (World α) (Ans α)} (h : ∀ y, Untouched w j (f y)) :
    Untouched w j (w.args x f) := by
  unfold World.args
  cases w.srcs x with
  | none => trivial
  | some y => exact h y

theorem untouched_other {w : World α} {j k : Nat} {f : Vec → Out (World α) (Ans α)} (h : ∀ y, Untouched w j (f y)) :
    Untouched w j (w.other k f) := by
  unfold World.other
  cases w.vecs k with
  | none => trivial
  | some y => exact h y

theorem step_others (t : Traits α) {w : World α} {op : Op α}
    (h1 : ∀ i j, op ≠ .swap i j ∧ op ≠ .moveAssign i j ∧ op ≠ .createMove i j) {j : Nat} (hj : j ≠ target op) :
    Untouched w j (step t w op) := by
  cases op with
  | swap i k => exact absurd rfl (h1 i k).1
  | moveAssign i k => exact absurd rfl (h1 i k).2.1
  | createMove i k => exact absurd rfl (h1 i k).2.2
  | drop i =>
    simp only [step, World.destruct]
    cases w.vecs i with
    | none => trivial
    | some v =>
      dsimp only
      have hj : j ≠ i := hj
      cases destroyAll t (w.state v) <;> simp [Untouched, World.after, hj]
  | _ =>
    simp only [step]
    first
      | exact untouched_on hj
      | exact untouched_make hj
      | exact untouched_arg fun _ => untouched_on hj
      | exact untouched_arg fun _ => untouched_make hj
      | exact untouched_args fun _ => untouched_on hj
      | exact untouched_args fun _ => untouched_make hj
      | exact untouched_other fun _ => untouched_on hj
      | exact untouched_other fun _ => untouched_make hj

end Gtl.Vec
