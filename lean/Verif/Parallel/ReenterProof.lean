import Verif.Parallel.Reenter
/-!
# Proofs about callbacks that call back
-/

namespace Gtl.Parallel

open Gtl.Swiss
open Gtl.Spec (POp Op Resp Prog Held)

variable {α κ : Type}

/-! ### Containers in which some submaps are replaced -/

/-- The container with other submaps where `m` says so. -/
def over (m : Nat → Option (Tbl α)) (p : PTbl α) : PTbl α := { sets := p.sets.mapIdx fun i t => (m i).getD t }

theorem over_get (m : Nat → Option (Tbl α)) (p : PTbl α) (i : Nat) :
    (over m p).sets[i]? = p.sets[i]?.map fun t => (m i).getD t := by
  unfold over; rw [List.getElem?_mapIdx]

theorem over_none {m : Nat → Option (Tbl α)} (h : ∀ i, m i = none) (p : PTbl α) : over m p = p := by
  cases p with
  | mk s =>
    unfold over
    congr 1
    apply List.ext_getElem?
    intro i
    rw [List.getElem?_mapIdx, h i]
    cases s[i]? <;> rfl

theorem over_set {m : Nat → Option (Tbl α)} {j : Nat} (h : m j = none) (p : PTbl α) (t : Tbl α) :
    over m { sets := p.sets.set j t } = { sets := (over m p).sets.set j t } := by
  unfold over
  congr 1
  apply List.ext_getElem?
  intro i
  rw [List.getElem?_mapIdx, List.getElem?_set, List.getElem?_set]
  dsimp only
  rw [List.length_mapIdx, List.getElem?_mapIdx]
  by_cases hij : j = i
  · subst hij
    rw [if_pos rfl, if_pos rfl, h]
    split <;> rfl
  · rw [if_neg hij, if_neg hij]

theorem over_put {m : Nat → Option (Tbl α)} {j : Nat} (h : m j = none) (p : PTbl α) (t : Tbl α) :
    ({ sets := (over m p).sets.set j t } : PTbl α) = over (fun i => if i = j then some t else m i) p := by
  unfold over
  congr 1
  apply List.ext_getElem?
  intro i
  dsimp only
  rw [List.getElem?_set, List.length_mapIdx, List.getElem?_mapIdx, List.getElem?_mapIdx]
  by_cases hij : j = i
  · subst hij
    rw [if_pos rfl, if_pos rfl]
    split
    · rename_i hl
      rw [List.getElem?_eq_getElem hl]; rfl
    · rename_i hl
      rw [List.getElem?_eq_none (by omega)]; rfl
  · rw [if_neg hij, if_neg (fun e => hij e.symm)]

theorem over_sub {m : Nat → Option (Tbl α)} {j : Nat} (h : m j = none) (p : PTbl α) : (over m p).sub j = p.sub j := by
  unfold PTbl.sub
  rw [over_get, h]
  cases p.sets[j]? <;> rfl

theorem over_withSub {β : Type} {m : Nat → Option (Tbl α)} {j : Nat} (h : m j = none) {p p' : PTbl α} {r : β}
    {F : Tbl α → Res (Tbl α × β)} (e : p.withSub j F = .ok (p', r)) : (over m p).withSub j F = .ok (over m p', r) := by
  unfold PTbl.withSub at e ⊢
  rw [over_sub h]
  obtain ⟨t, h1, e⟩ := Res.bind_eq_ok.1 e
  obtain ⟨⟨t', r'⟩, h2, e⟩ := Res.bind_eq_ok.1 e
  rw [h1, Res.ok_bind, h2, Res.ok_bind]
  simp only [Res.ok.injEq, Prod.mk.injEq] at e ⊢
  obtain ⟨rfl, rfl⟩ := e
  exact ⟨(over_set h p t').symm, rfl⟩

theorem withSub_frame {β : Type} {j : Nat} {p p' : PTbl α} {r : β} {F : Tbl α → Res (Tbl α × β)}
    (e : p.withSub j F = .ok (p', r)) {i : Nat} (hi : i ≠ j) : p'.sets[i]? = p.sets[i]? := by
  unfold PTbl.withSub at e
  obtain ⟨t, h1, e⟩ := Res.bind_eq_ok.1 e
  obtain ⟨⟨t', r'⟩, h2, e⟩ := Res.bind_eq_ok.1 e
  simp only [Res.ok.injEq, Prod.mk.injEq] at e
  obtain ⟨rfl, rfl⟩ := e
  exact List.getElem?_set_ne (Ne.symm hi)

theorem withSub_same {β : Type} {j : Nat} {p p' : PTbl α} {r : β} {F : Tbl α → Res (Tbl α × β)}
    (hF : ∀ t t' r, F t = .ok (t', r) → t' = t) (e : p.withSub j F = .ok (p', r)) : p' = p := by
  unfold PTbl.withSub PTbl.sub at e
  obtain ⟨t, h1, e⟩ := Res.bind_eq_ok.1 e
  obtain ⟨⟨t', r'⟩, h2, e⟩ := Res.bind_eq_ok.1 e
  simp only [Res.ok.injEq, Prod.mk.injEq] at e
  obtain ⟨rfl, rfl⟩ := e
  have := hF _ _ _ h2
  subst this
  cases hg : p.sets[j]? with
  | none => rw [hg] at h1; cases h1
  | some u =>
    rw [hg] at h1
    injection h1 with h1
    subst h1
    cases p with
    | mk s =>
      congr 1
      apply List.ext_getElem?
      intro i
      rw [List.getElem?_set]
      split
      · rename_i h; subst h; dsimp only at hg ⊢; rw [hg]; have := (List.getElem?_eq_some_iff.1 hg).1; rw [if_pos this]
      · rfl

/-- The step that `insertRange` repeats. -/
def insStep (P : PCfg α κ) (p : PTbl α) (v : α) : Res (PTbl α) := do
  let (p, _) ← p.withSub (subidx P.N (P.C.hash (P.C.key v))) (fun t => t.step P.C (.insert v))
  Res.ok p

theorem insAll_over {P : PCfg α κ} {m : Nat → Option (Tbl α)} : ∀ (vs : List α) {p p' : PTbl α},
    (∀ v ∈ vs, m (subidx P.N (P.C.hash (P.C.key v))) = none) → vs.foldlM (insStep P) p = .ok p' →
    vs.foldlM (insStep P) (over m p) = .ok (over m p')
  | [], p, p', _, e => by
    simp only [List.foldlM_nil] at e ⊢
    injection e with e
    subst e; rfl
  | v :: vs, p, p', hm, e => by
    rw [List.foldlM_cons] at e ⊢
    obtain ⟨q, h1, e⟩ := Res.bind_eq_ok.1 e
    have h2 : insStep P (over m p) v = .ok (over m q) := by
      unfold insStep at h1 ⊢
      obtain ⟨⟨q', r⟩, h3, h4⟩ := Res.bind_eq_ok.1 h1
      injection h4 with h4
      subst h4
      rw [over_withSub (hm v List.mem_cons_self) h3]; rfl
    rw [h2, Res.ok_bind]
    exact insAll_over vs (fun w hw => hm w (List.mem_cons_of_mem _ hw)) e

theorem insAll_frame {P : PCfg α κ} {i : Nat} : ∀ (vs : List α) {p p' : PTbl α},
    (∀ v ∈ vs, i ≠ subidx P.N (P.C.hash (P.C.key v))) → vs.foldlM (insStep P) p = .ok p' → p'.sets[i]? = p.sets[i]?
  | [], p, p', _, e => by
    simp only [List.foldlM_nil] at e
    injection e with e
    subst e; rfl
  | v :: vs, p, p', hm, e => by
    rw [List.foldlM_cons] at e
    obtain ⟨q, h1, e⟩ := Res.bind_eq_ok.1 e
    rw [insAll_frame vs (fun w hw => hm w (List.mem_cons_of_mem _ hw)) e]
    unfold insStep at h1
    obtain ⟨⟨q', r⟩, h3, h4⟩ := Res.bind_eq_ok.1 h1
    injection h4 with h4
    subst h4
    exact withSub_frame h3 (hm v List.mem_cons_self)

/-- The submap of a key. -/
abbrev subOf (P : PCfg α κ) (k : κ) : Nat := subidx P.N (P.C.hash k)

theorem pstep_shape (P : PCfg α κ) (op : POp α κ) :
    (op.reach P.C.key (subOf P) = none) ∨ (∃ j F, op.reach P.C.key (subOf P) = some [j] ∧
      ∀ p : PTbl α, p.pstep P op = p.withSub j F) ∨
    (∃ vs, op = .base (.insertRange vs)) ∨ op = .base (.insertNode none) := by
  cases op with
  | base op =>
    cases op with
    | insertNode n => cases n with
      | none => exact .inr (.inr (.inr rfl))
      | some a => exact .inr (.inl ⟨_, _, rfl, fun p => rfl⟩)
    | insertRange vs => exact .inr (.inr (.inl ⟨vs, rfl⟩))
    | size => exact .inl rfl
    | clear => exact .inl rfl
    | reserve n => exact .inl rfl
    | rehash n => exact .inl rfl
    | eraseIf pr => exact .inl rfl
    | _ => exact .inr (.inl ⟨_, _, rfl, fun p => rfl⟩)
  | forEachM f => exact .inl rfl
  | _ => exact .inr (.inl ⟨_, _, rfl, fun p => rfl⟩)

theorem pstep_over {P : PCfg α κ} {op : POp α κ} {m : Nat → Option (Tbl α)} {p p' : PTbl α} {r : Resp α}
    (hm : ∀ i, m i ≠ none → ¬ op.Touches P.C.key (subOf P) i) (e : p.pstep P op = .ok (p', r)) :
    (over m p).pstep P op = .ok (over m p', r) := by
  rcases pstep_shape P op with h | ⟨j, F, h1, h2⟩ | ⟨vs, rfl⟩ | rfl
  · have hn : ∀ i, m i = none := by
      intro i
      by_contra hc
      exact hm i hc (by unfold POp.Touches; rw [h]; trivial)
    rw [over_none hn, over_none hn, e]
  · rw [h2] at e ⊢
    refine over_withSub ?_ e
    by_contra hc
    exact hm j hc (by unfold POp.Touches; rw [h1]; exact List.mem_singleton.2 rfl)
  · have e' : (do let p ← vs.foldlM (insStep P) p; Res.ok (p, Resp.unit)) = Res.ok (p', r) := e
    obtain ⟨q, h1, h2⟩ := Res.bind_eq_ok.1 e'
    injection h2 with h2
    simp only [Prod.mk.injEq] at h2
    obtain ⟨rfl, rfl⟩ := h2
    have := insAll_over vs (m := m) (fun v hv => by
      by_contra hc
      exact hm _ hc (List.mem_map.2 ⟨v, hv, rfl⟩)) h1
    show (do let p ← vs.foldlM (insStep P) (over m p); Res.ok (p, Resp.unit)) = _
    rw [this]; rfl
  · injection e with e
    simp only [Prod.mk.injEq] at e
    obtain ⟨rfl, rfl⟩ := e
    rfl

theorem look_same {C : Cfg α κ} {op : Op α κ} {t t' : Tbl α} {r : Resp α}
    (ho : (∃ k, op = .at k) ∨ (∃ k, op = .find k) ∨ ∃ k, op = .contains k) (e : t.step C op = .ok (t', r)) : t' = t := by
  rcases ho with ⟨k, rfl⟩ | ⟨k, rfl⟩ | ⟨k, rfl⟩ <;> unfold Tbl.step at e <;> dsimp only at e <;>
    obtain ⟨x, h1, e⟩ := Res.bind_eq_ok.1 e
  · simp only [Res.ok.injEq, Prod.mk.injEq] at e; exact e.1.symm
  · cases x with
    | none => simp only [Res.ok.injEq, Prod.mk.injEq] at e; exact e.1.symm
    | some i =>
      obtain ⟨y, h2, e⟩ := Res.bind_eq_ok.1 e
      simp only [Res.ok.injEq, Prod.mk.injEq] at e; exact e.1.symm
  · simp only [Res.ok.injEq, Prod.mk.injEq] at e; exact e.1.symm

theorem pstep_frame {P : PCfg α κ} {op : POp α κ} {p p' : PTbl α} {r : Resp α} {i : Nat}
    (hm : op.Touches P.C.key (subOf P) i → op.looks = true) (e : p.pstep P op = .ok (p', r)) :
    p'.sets[i]? = p.sets[i]? := by
  by_cases hl : op.looks = true
  · have : p' = p := by
      unfold POp.looks at hl
      split at hl
      · injection e with e
        simp only [Prod.mk.injEq] at e
        exact e.1.symm
      · exact withSub_same (fun t t' r h => look_same (.inl ⟨_, rfl⟩) h) e
      · exact withSub_same (fun t t' r h => look_same (.inr (.inl ⟨_, rfl⟩)) h) e
      · exact withSub_same (fun t t' r h => look_same (.inr (.inr ⟨_, rfl⟩)) h) e
      · refine withSub_same (fun t t' r h => ?_) e
        obtain ⟨x, h1, e⟩ := Res.bind_eq_ok.1 h
        simp only [Res.ok.injEq, Prod.mk.injEq] at e; exact e.1.symm
      · cases hl
    rw [this]
  · have hm : ¬ op.Touches P.C.key (subOf P) i := fun h => hl (hm h)
    rcases pstep_shape P op with h | ⟨j, F, h1, h2⟩ | ⟨vs, rfl⟩ | rfl
    · exact absurd (show op.Touches P.C.key (subOf P) i by unfold POp.Touches; rw [h]; trivial) hm
    · rw [h2] at e
      refine withSub_frame e fun h => hm ?_
      unfold POp.Touches; rw [h1, h]; exact List.mem_singleton.2 rfl
    · have e' : (do let p ← vs.foldlM (insStep P) p; Res.ok (p, Resp.unit)) = Res.ok (p', r) := e
      obtain ⟨q, h1, h2⟩ := Res.bind_eq_ok.1 e'
      injection h2 with h2
      simp only [Prod.mk.injEq] at h2
      obtain ⟨rfl, rfl⟩ := h2
      exact insAll_frame vs (fun v hv h => hm (List.mem_map.2 ⟨v, hv, h.symm⟩)) h1
    · injection e with e
      simp only [Prod.mk.injEq] at e
      obtain ⟨rfl, rfl⟩ := e
      rfl

/-- Whether there are real mutexes. -/
abbrev realMtx (P : PCfg α κ) : Bool := P.mtx != .null

theorem clash_of_fits {P : PCfg α κ} {H : List (Nat × Held)} {op : POp α κ}
    (h : op.Fits P.C.key (subOf P) (realMtx P) H) : PTbl.clash P (H.map Prod.fst) op = false := by
  unfold PTbl.clash
  by_cases hr : realMtx P = true
  · have hr' : (P.mtx != .null) = true := hr
    rw [hr', Bool.true_and]
    have hl : ∀ x ∈ H, ¬ op.Locks P.C.key (subOf P) x.1 := by
      intro x hx
      have := h x hx
      split at this
      · exact this hr
      · exact this.1 hr
      · intro hL
        apply this
        unfold POp.Locks at hL
        unfold POp.Touches
        split at hL
        · exact hL
        · trivial
    cases he : op.reach P.C.key (subOf P) with
    | some js =>
      dsimp only
      rw [List.any_eq_false]
      intro j hj
      simp only [List.contains_eq_mem, List.mem_map, decide_eq_true_eq, not_exists, not_and]
      intro x hx e
      refine hl x hx ?_
      unfold POp.Locks
      rw [he, e]; exact hj
    | none =>
      dsimp only
      cases H with
      | nil => simp
      | cons x H =>
        have := hl x List.mem_cons_self
        unfold POp.Locks at this
        rw [he] at this
        simp only [Bool.not_eq_false] at this
        rw [this]; rfl
  · have hr' : (P.mtx != .null) = false := by simpa using hr
    rw [hr', Bool.false_and]

theorem fits_over {P : PCfg α κ} {H : List (Nat × Held)} {op : POp α κ} (h : op.Fits P.C.key (subOf P) (realMtx P) H)
    {m : Nat → Option (Tbl α)} (hm : ∀ i, m i ≠ none → (i, Held.raw) ∈ H) :
    ∀ i, m i ≠ none → ¬ op.Touches P.C.key (subOf P) i := fun i hi => h _ (hm i hi)

theorem fits_frame {P : PCfg α κ} {H : List (Nat × Held)} {op : POp α κ} (h : op.Fits P.C.key (subOf P) (realMtx P) H)
    {i : Nat} (hi : (i, Held.pinned) ∈ H ∨ (i, Held.raw) ∈ H) : op.Touches P.C.key (subOf P) i → op.looks = true := by
  rcases hi with hi | hi
  · exact (h _ hi).2
  · exact fun h' => absurd h' (h _ hi)

theorem sub_sim {P : PCfg α κ} {p : PTbl α} {l : List α} (h : PSim P p l) (i : Nat) (hi : i < 2 ^ P.N) :
    ∃ t, p.sub i = .ok t ∧ Sim P.C t (part P l i) := by
  have hl : i < p.sets.length := by rw [h.len]; exact hi
  refine ⟨p.sets[i], ?_, h.sim i _ (List.getElem?_eq_getElem hl)⟩
  unfold PTbl.sub
  rw [List.getElem?_eq_getElem hl]
  rfl

/-! ### The programs -/

/-- What is proved of a program: from a container that simulates `l` it reaches one that simulates what the specification
says, with the same answers; the pinned submaps stay as they are, and what is in the submaps that must not be touched does
not matter. -/
def Good (P : PCfg α κ) (x : Prog α κ) (H : List (Nat × Held)) (p : PTbl α) (l : List α) : Prop :=
  ∃ p', PSim P p' (Spec.nrun P.C.key P.C.eqv x l).1 ∧
    (∀ i, (i, Held.pinned) ∈ H ∨ (i, Held.raw) ∈ H → p'.sets[i]? = p.sets[i]?) ∧
    ∀ m : Nat → Option (Tbl α), (∀ i, m i ≠ none → (i, Held.raw) ∈ H) →
      PTbl.nrun P x (H.map Prod.fst) (over m p) = .ok (over m p', (Spec.nrun P.C.key P.C.eqv x l).2)

theorem nrun_good {P : PCfg α κ} (hC : CfgOk P.C) : ∀ (x : Prog α κ) (H : List (Nat × Held)) {p : PTbl α} {l : List α},
    PSim P p l → x.Valid P.C.key (2 ^ P.N) → x.Apart P.C.key P.C.eqv (subOf P) (realMtx P) H l → Good P x H p l := by
  intro x
  induction x with
  | done =>
    intro H p l hs _ _
    exact ⟨p, hs, fun _ _ => rfl, fun m _ => rfl⟩
  | call op rest ih =>
    intro H p l hs hv ha
    obtain ⟨p1, e1, s1⟩ := pstep_sim hC hs op hv.1
    obtain ⟨p2, s2, f2, r2⟩ := ih _ H s1 (hv.2 _) ha.2
    refine ⟨p2, s2, fun i hi => by rw [f2 i hi, pstep_frame (fits_frame ha.1 hi) e1], fun m hm => ?_⟩
    simp only [PTbl.nrun, Spec.nrun]
    rw [clash_of_fits ha.1, pstep_over (fits_over ha.1 hm) e1]
    simp only [Bool.false_eq_true, if_false, Res.ok_bind]
    rw [r2 m hm]
    rfl
  | modifyIf k f inner rest ih1 ih2 =>
    intro H p l hs hv ha
    obtain ⟨p1, e1, s1⟩ := pstep_sim hC hs (.modifyIf k f) hv.1
    simp only [Prog.Apart] at ha
    obtain ⟨ha1, ha⟩ := ha
    simp only [Spec.pstep] at e1 s1
    unfold Good
    simp only [PTbl.nrun, Spec.nrun]
    cases hl : Spec.lookup P.C.key P.C.eqv l k with
    | none =>
      rw [hl] at ha e1
      have s1' : PSim P p1 l := by
        have : Spec.modify P.C.key P.C.eqv l k f = l := by
          unfold Spec.modify
          conv_rhs => rw [← List.map_id l]
          apply List.map_congr_left
          intro a h
          have := lookup_none.1 hl a h
          simp [this]
        rwa [this] at s1
      obtain ⟨p2, s2, f2, r2⟩ := ih2 false H s1' (hv.2.2 _) ha
      refine ⟨p2, s2, fun i hi => by rw [f2 i hi, pstep_frame (fits_frame ha1 hi) e1], fun m hm => ?_⟩
      rw [clash_of_fits ha1, pstep_over (fits_over ha1 hm) e1]
      simp only [Bool.false_eq_true, if_false, Res.ok_bind]
      rw [r2 m hm]
      rfl
    | some b =>
      rw [hl] at ha e1
      obtain ⟨p2, s2, f2, r2⟩ := ih1 b ((subOf P k, .locked) :: H) s1 (hv.2.1 _) ha.1
      obtain ⟨p3, s3, f3, r3⟩ := ih2 true H s2 (hv.2.2 _) ha.2
      refine ⟨p3, s3, fun i hi => ?_, fun m hm => ?_⟩
      · rw [f3 i hi, f2 i (hi.imp (List.mem_cons_of_mem _) (List.mem_cons_of_mem _)), pstep_frame (fits_frame ha1 hi) e1]
      · rw [clash_of_fits ha1, pstep_over (fits_over ha1 hm) e1]
        simp only [Bool.false_eq_true, if_false, Res.ok_bind]
        have := r2 m (fun i hi => List.mem_cons_of_mem _ (hm i hi))
        rw [List.map_cons] at this
        rw [this]
        simp only [Res.ok_bind]
        rw [r3 m hm]
        rfl
  | emplaceL a f inner rest ih1 ih2 =>
    intro H p l hs hv ha
    obtain ⟨p1, e1, s1⟩ := pstep_sim hC hs (.emplaceL a f) hv.1
    simp only [Prog.Apart] at ha
    obtain ⟨ha1, ha⟩ := ha
    simp only [Spec.pstep] at e1 s1
    unfold Good
    simp only [PTbl.nrun, Spec.nrun]
    cases hl : Spec.lookup P.C.key P.C.eqv l (P.C.key a) with
    | none =>
      rw [hl] at ha e1 s1
      obtain ⟨p2, s2, f2, r2⟩ := ih2 true H s1 (hv.2.2 _) ha
      refine ⟨p2, s2, fun i hi => by rw [f2 i hi, pstep_frame (fits_frame ha1 hi) e1], fun m hm => ?_⟩
      rw [clash_of_fits ha1, pstep_over (fits_over ha1 hm) e1]
      simp only [Bool.false_eq_true, if_false, Res.ok_bind]
      rw [r2 m hm]
      rfl
    | some b =>
      rw [hl] at ha e1 s1
      obtain ⟨p2, s2, f2, r2⟩ := ih1 b ((subOf P (P.C.key a), .locked) :: H) s1 (hv.2.1 _) ha.1
      obtain ⟨p3, s3, f3, r3⟩ := ih2 false H s2 (hv.2.2 _) ha.2
      refine ⟨p3, s3, fun i hi => ?_, fun m hm => ?_⟩
      · rw [f3 i hi, f2 i (hi.imp (List.mem_cons_of_mem _) (List.mem_cons_of_mem _)), pstep_frame (fits_frame ha1 hi) e1]
      · rw [clash_of_fits ha1, pstep_over (fits_over ha1 hm) e1]
        simp only [Bool.false_eq_true, if_false, Res.ok_bind]
        have := r2 m (fun i hi => List.mem_cons_of_mem _ (hm i hi))
        rw [List.map_cons] at this
        rw [this]
        simp only [Res.ok_bind]
        rw [r3 m hm]
        rfl
  | eraseIf k pr inner rest ih1 ih2 =>
    intro H p l hs hv ha
    simp only [Prog.Apart] at ha
    obtain ⟨ha1, ha⟩ := ha
    have hm0 : ∀ m : Nat → Option (Tbl α), (∀ i, m i ≠ none → (i, Held.raw) ∈ H) → m (subOf P k) = none := by
      intro m hm
      by_contra hc
      exact fits_over ha1 hm _ hc (List.mem_singleton.2 rfl)
    obtain ⟨t, g1, g2⟩ := sub_sim hs (subOf P k) (subidx_lt _ _)
    unfold Good
    simp only [PTbl.nrun, Spec.nrun]
    rcases find_sim hC g2 k with ⟨off, b, h1, h2, h3, h4, h5⟩ | ⟨h1, h2, h3⟩
    · replace h5 := (lookup_part hC l _).symm.trans h5
      rw [h5] at ha ⊢
      dsimp only at ha ⊢
      have seek : PTbl.eraseSeek P t k = .ok (.inl off) := by
        unfold PTbl.eraseSeek
        rw [h1]
        simp only [Res.ok_bind, ite_self]
      obtain ⟨p2, s2, f2, r2⟩ := ih1 b ((subOf P k, .pinned) :: H) hs (hv.1 _) ha.1
      have g3 : p2.sub (subOf P k) = .ok t := by
        unfold PTbl.sub at g1 ⊢
        rw [f2 _ (.inl List.mem_cons_self)]
        exact g1
      cases hp : pr b with
      | false =>
        rw [hp] at ha
        obtain ⟨p3, s3, f3, r3⟩ := ih2 false H s2 (hv.2 _) ha.2
        refine ⟨p3, s3, fun i hi => ?_, fun m hm => ?_⟩
        · rw [f3 i hi, f2 i (hi.imp (List.mem_cons_of_mem _) (List.mem_cons_of_mem _))]
        · rw [clash_of_fits ha1, over_sub (hm0 m hm), g1]
          simp only [Bool.false_eq_true, if_false, Res.ok_bind]
          rw [seek]
          simp only [Res.ok_bind]
          rw [readSlot_ok' h2]
          simp only [Res.ok_bind]
          have := r2 m (fun i hi => List.mem_cons_of_mem _ (hm i hi))
          rw [List.map_cons] at this
          rw [this]
          simp only [Res.ok_bind, hp, Bool.false_eq_true, if_false]
          rw [r3 m hm]
          rfl
      | true =>
        rw [hp] at ha
        simp only [if_true] at ha ⊢
        obtain ⟨q, e4, s4⟩ := pstep_sim hC s2 (.eraseIfKey k fun _ => true) trivial
        have e5 : (Spec.pstep P.C.key P.C.eqv (Spec.nrun P.C.key P.C.eqv (inner b) l).1 (.eraseIfKey k fun _ => true)).1 =
            Spec.erase P.C.key P.C.eqv (Spec.nrun P.C.key P.C.eqv (inner b) l).1 k := by
          simp only [Spec.pstep]
          cases hl : Spec.lookup P.C.key P.C.eqv (Spec.nrun P.C.key P.C.eqv (inner b) l).1 k with
          | some _ => rfl
          | none =>
            symm
            unfold Spec.erase
            rw [List.filter_eq_self]
            intro a h
            simp [lookup_none.1 hl a h]
        rw [e5] at s4
        obtain ⟨t', q1, -⟩ := eraseAt_sim hC g2 h2 h4
        have eq : q = { sets := p2.sets.set (subOf P k) t' } := by
          have : p2.pstep P (.eraseIfKey k fun _ => true) =
              .ok ({ sets := p2.sets.set (subOf P k) t' }, .bool true) := by
            simp only [PTbl.pstep, PTbl.withSub]
            rw [g3]
            simp only [Res.ok_bind, PTbl.eraseKeyIf]
            rw [h1]
            simp only [Res.ok_bind, ite_self]
            rw [readSlot_ok' h2]
            simp only [Res.ok_bind, if_true]
            rw [q1]
            rfl
          rw [this] at e4
          simp only [Res.ok.injEq, Prod.mk.injEq] at e4
          exact e4.1.symm
        subst eq
        obtain ⟨p3, s3, f3, r3⟩ := ih2 true H s4 (hv.2 _) ha.2
        refine ⟨p3, s3, fun i hi => ?_, fun m hm => ?_⟩
        · rw [f3 i hi]
          rw [← f2 i (hi.imp (List.mem_cons_of_mem _) (List.mem_cons_of_mem _))]
          refine List.getElem?_set_ne fun h => ?_
          have := fits_frame ha1 hi (List.mem_singleton.2 h.symm)
          cases this
        · rw [clash_of_fits ha1, over_sub (hm0 m hm), g1]
          simp only [Bool.false_eq_true, if_false, Res.ok_bind]
          rw [seek]
          simp only [Res.ok_bind]
          rw [readSlot_ok' h2]
          simp only [Res.ok_bind]
          have := r2 m (fun i hi => List.mem_cons_of_mem _ (hm i hi))
          rw [List.map_cons] at this
          rw [this]
          simp only [Res.ok_bind, hp, if_true]
          rw [over_sub (hm0 m hm), g3]
          simp only [Res.ok_bind, ne_eq, not_true_eq_false, if_false]
          rw [q1]
          simp only [Res.ok_bind]
          rw [← over_set (hm0 m hm), r3 m hm]
          rfl
    · replace h3 := (lookup_part hC l _).symm.trans h3
      rw [h3] at ha ⊢
      have seek : PTbl.eraseSeek P t k = .ok (.inr false) := by
        unfold PTbl.eraseSeek
        rw [h1]
        rfl
      obtain ⟨p2, s2, f2, r2⟩ := ih2 false H hs (hv.2 _) ha
      refine ⟨p2, s2, f2, fun m hm => ?_⟩
      rw [clash_of_fits ha1, over_sub (hm0 m hm), g1]
      simp only [Bool.false_eq_true, if_false, Res.ok_bind]
      rw [seek]
      simp only [Res.ok_bind]
      rw [r2 m hm]
      rfl
  | create a inner rest ih1 ih2 =>
    intro H p l hs hv ha
    simp only [Prog.Apart] at ha
    obtain ⟨ha1, ha⟩ := ha
    have hm0 : ∀ m : Nat → Option (Tbl α), (∀ i, m i ≠ none → (i, Held.raw) ∈ H) → m (subOf P (P.C.key a)) = none := by
      intro m hm
      by_contra hc
      exact fits_over ha1 hm _ hc (List.mem_singleton.2 rfl)
    obtain ⟨t, g1, g2⟩ := sub_sim hs (subOf P (P.C.key a)) (subidx_lt _ _)
    unfold Good
    simp only [PTbl.nrun, Spec.nrun]
    rcases find_sim hC g2 (P.C.key a) with ⟨off, b, h1, h2, h3, h4, h5⟩ | ⟨h1, h2, h3⟩
    · replace h5 := (lookup_part hC l _).symm.trans h5
      rw [h5] at ha ⊢
      dsimp only at ha ⊢
      unfold Tbl.find at h1
      obtain ⟨p2, s2, f2, r2⟩ := ih2 false H hs (hv.2 _) ha
      refine ⟨p2, s2, f2, fun m hm => ?_⟩
      rw [clash_of_fits ha1, over_sub (hm0 m hm), g1]
      simp only [Bool.false_eq_true, if_false, Res.ok_bind]
      rw [h1]
      simp only [Res.ok_bind]
      rw [r2 m hm]
      rfl
    · have h3' := h3
      replace h3 := (lookup_part hC l _).symm.trans h3
      rw [h3] at ha ⊢
      dsimp only at ha ⊢
      unfold Tbl.find at h1
      have hem := emplaceL_sim hC g2 a (f := id) (fun _ => rfl)
      rw [h3'] at hem
      obtain ⟨t3, k1, -⟩ := hem
      have k0 := k1
      unfold PTbl.emplaceL at k1
      dsimp only at k1
      rw [h1] at k1
      simp only [Res.ok_bind] at k1
      obtain ⟨⟨t1, off⟩, k2, k1⟩ := Res.bind_eq_ok.1 k1
      dsimp only at k1
      obtain ⟨t2, k3, k1⟩ := Res.bind_eq_ok.1 k1
      obtain ⟨t3', k4, k1⟩ := Res.bind_eq_ok.1 k1
      simp only [Res.ok.injEq, Prod.mk.injEq, and_true] at k1
      subst k1
      obtain ⟨p2, s2, f2, r2⟩ := ih1 ((subOf P (P.C.key a), .raw) :: H) hs hv.1 ha.1
      have g3 : p2.sub (subOf P (P.C.key a)) = .ok t := by
        unfold PTbl.sub at g1 ⊢
        rw [f2 _ (.inr List.mem_cons_self)]
        exact g1
      obtain ⟨q, e4, s4⟩ := pstep_sim hC s2 (.emplaceL a id) (fun _ => rfl)
      have hl2 : Spec.lookup P.C.key P.C.eqv (Spec.nrun P.C.key P.C.eqv inner l).1 (P.C.key a) = none := by
        obtain ⟨u, u1, u2⟩ := sub_sim s2 (subOf P (P.C.key a)) (subidx_lt _ _)
        rw [g3] at u1
        injection u1 with u1
        subst u1
        rcases find_sim hC u2 (P.C.key a) with ⟨o, b, x1, _⟩ | ⟨_, _, x3⟩
        · unfold Tbl.find at x1
          rw [h1] at x1; cases x1
        · exact (lookup_part hC _ _).symm.trans x3
      simp only [Spec.pstep, hl2] at s4 e4
      have eq : q = { sets := p2.sets.set (subOf P (P.C.key a)) t3' } := by
        have : p2.pstep P (.emplaceL a id) = .ok ({ sets := p2.sets.set (subOf P (P.C.key a)) t3' }, .ins a true) := by
          simp only [PTbl.pstep, PTbl.withSub]
          rw [g3]
          simp only [Res.ok_bind]
          rw [k0]
          rfl
        rw [this] at e4
        simp only [Res.ok.injEq, Prod.mk.injEq] at e4
        exact e4.1.symm
      subst eq
      obtain ⟨p3, s3, f3, r3⟩ := ih2 true H s4 (hv.2 _) ha.2
      refine ⟨p3, s3, fun i hi => ?_, fun m hm => ?_⟩
      · rw [f3 i hi]
        rw [← f2 i (hi.imp (List.mem_cons_of_mem _) (List.mem_cons_of_mem _))]
        refine List.getElem?_set_ne fun h => ?_
        have := fits_frame ha1 hi (List.mem_singleton.2 h.symm)
        cases this
      · rw [clash_of_fits ha1, over_sub (hm0 m hm), g1]
        simp only [Bool.false_eq_true, if_false, Res.ok_bind]
        rw [h1]
        simp only [Res.ok_bind]
        rw [k2]
        simp only [Res.ok_bind]
        rw [over_put (hm0 m hm)]
        have := r2 (fun i => if i = subOf P (P.C.key a) then some t1 else m i) (fun i hi => by
          by_cases hc : i = subOf P (P.C.key a)
          · subst hc; exact List.mem_cons_self
          · rw [if_neg hc] at hi; exact List.mem_cons_of_mem _ (hm i hi))
        rw [List.map_cons] at this
        rw [this]
        simp only [Res.ok_bind]
        have hsub : (over (fun i => if i = subOf P (P.C.key a) then some t1 else m i) p2).sub (subOf P (P.C.key a)) = .ok t1 := by
          unfold PTbl.sub at g3 ⊢
          rw [over_get]
          cases hg : p2.sets[subOf P (P.C.key a)]? with
          | none => rw [hg] at g3; cases g3
          | some u => simp
        rw [hsub]
        simp only [Res.ok_bind, ne_eq, not_true_eq_false, if_false]
        rw [k3]
        simp only [Res.ok_bind]
        rw [k4]
        simp only [Res.ok_bind]
        rw [← over_put (hm0 m hm), List.set_set, ← over_set (hm0 m hm), r3 m hm]
        rfl

/-! ### Locking twice -/

theorem clash_of_not_fits {P : PCfg α κ} {H : List (Nat × Held)} (hH : ∀ h ∈ H, h.2 = .locked) {op : POp α κ}
    (h : ¬ op.Fits P.C.key (subOf P) (realMtx P) H) : PTbl.clash P (H.map Prod.fst) op = true := by
  unfold POp.Fits at h
  push Not at h
  obtain ⟨x, hx, h⟩ := h
  rw [hH x hx] at h
  dsimp only at h
  rw [Classical.not_imp, not_not] at h
  obtain ⟨hr, hL⟩ := h
  unfold PTbl.clash
  have hr' : (P.mtx != .null) = true := hr
  rw [hr', Bool.true_and]
  unfold POp.Locks at hL
  cases he : op.reach P.C.key (subOf P) with
  | some js =>
    rw [he] at hL
    dsimp only at hL ⊢
    rw [List.any_eq_true]
    refine ⟨x.1, hL, ?_⟩
    rw [List.contains_eq_mem, decide_eq_true_eq]
    exact List.mem_map.2 ⟨x, hx, rfl⟩
  | none =>
    rw [he] at hL
    dsimp only at hL ⊢
    rw [hL]
    cases H with
    | nil => cases hx
    | cons y H => rfl

theorem nrun_relock {P : PCfg α κ} (hC : CfgOk P.C) : ∀ (x : Prog α κ) (H : List (Nat × Held)) {p : PTbl α} {l : List α},
    x.Simple → (∀ h ∈ H, h.2 = .locked) → PSim P p l → x.Valid P.C.key (2 ^ P.N) →
    ¬ x.Apart P.C.key P.C.eqv (subOf P) (realMtx P) H l → PTbl.nrun P x (H.map Prod.fst) p = .ub := by
  intro x
  induction x with
  | done =>
    intro H p l _ _ _ _ ha
    exact absurd trivial ha
  | call op rest ih =>
    intro H p l hS hH hs hv ha
    simp only [PTbl.nrun]
    by_cases hf : op.Fits P.C.key (subOf P) (realMtx P) H
    · obtain ⟨p1, e1, s1⟩ := pstep_sim hC hs op hv.1
      rw [clash_of_fits hf, e1]
      simp only [Bool.false_eq_true, if_false, Res.ok_bind]
      rw [ih _ H (hS _) hH s1 (hv.2 _) (fun h => ha ⟨hf, h⟩)]
      rfl
    · rw [clash_of_not_fits hH hf]; rfl
  | modifyIf k f inner rest ih1 ih2 =>
    intro H p l hS hH hs hv ha
    simp only [PTbl.nrun]
    by_cases hf : (POp.modifyIf k f : POp α κ).Fits P.C.key (subOf P) (realMtx P) H
    · obtain ⟨p1, e1, s1⟩ := pstep_sim hC hs (.modifyIf k f) hv.1
      simp only [Prog.Apart, hf, true_and] at ha
      rw [clash_of_fits hf, e1]
      simp only [Bool.false_eq_true, if_false, Res.ok_bind, Spec.pstep] at s1 ⊢
      cases hl : Spec.lookup P.C.key P.C.eqv l k with
      | none =>
        rw [hl] at ha
        have s1' : PSim P p1 l := by rwa [modify_other (lookup_none.1 hl)] at s1
        dsimp only
        rw [ih2 false H (hS.2 _) hH s1' (hv.2.2 _) ha]
        rfl
      | some b =>
        rw [hl] at ha
        dsimp only at ha ⊢
        by_cases hi : (inner b).Apart P.C.key P.C.eqv (subOf P) (realMtx P) ((subOf P k, .locked) :: H)
            (Spec.modify P.C.key P.C.eqv l k f)
        · obtain ⟨p2, s2, -, r2⟩ := nrun_good hC (inner b) ((subOf P k, .locked) :: H) s1 (hv.2.1 _) hi
          have := r2 (fun _ => none) (fun i hi => absurd rfl hi)
          rw [over_none (fun _ => rfl), over_none (fun _ => rfl), List.map_cons] at this
          rw [this]
          simp only [Res.ok_bind]
          rw [ih2 true H (hS.2 _) hH s2 (hv.2.2 _) (fun h => ha ⟨hi, h⟩)]
          rfl
        · have := ih1 b ((subOf P k, .locked) :: H) (hS.1 _) (fun h hh => by
            rcases List.mem_cons.1 hh with rfl | hh
            · rfl
            · exact hH h hh) s1 (hv.2.1 _) hi
          rw [List.map_cons] at this
          rw [this]
          rfl
    · rw [clash_of_not_fits hH hf]; rfl
  | emplaceL a f inner rest ih1 ih2 =>
    intro H p l hS hH hs hv ha
    simp only [PTbl.nrun]
    by_cases hf : (POp.emplaceL a f : POp α κ).Fits P.C.key (subOf P) (realMtx P) H
    · obtain ⟨p1, e1, s1⟩ := pstep_sim hC hs (.emplaceL a f) hv.1
      simp only [Prog.Apart, hf, true_and] at ha
      rw [clash_of_fits hf, e1]
      simp only [Bool.false_eq_true, if_false, Res.ok_bind, Spec.pstep] at s1 ⊢
      cases hl : Spec.lookup P.C.key P.C.eqv l (P.C.key a) with
      | none =>
        rw [hl] at ha s1
        dsimp only at ha s1 ⊢
        rw [ih2 true H (hS.2 _) hH s1 (hv.2.2 _) ha]
        rfl
      | some b =>
        rw [hl] at ha s1
        dsimp only at ha s1 ⊢
        by_cases hi : (inner b).Apart P.C.key P.C.eqv (subOf P) (realMtx P) ((subOf P (P.C.key a), .locked) :: H)
            (Spec.modify P.C.key P.C.eqv l (P.C.key a) f)
        · obtain ⟨p2, s2, -, r2⟩ := nrun_good hC (inner b) ((subOf P (P.C.key a), .locked) :: H) s1 (hv.2.1 _) hi
          have := r2 (fun _ => none) (fun i hi => absurd rfl hi)
          rw [over_none (fun _ => rfl), over_none (fun _ => rfl), List.map_cons] at this
          rw [this]
          simp only [Res.ok_bind]
          rw [ih2 false H (hS.2 _) hH s2 (hv.2.2 _) (fun h => ha ⟨hi, h⟩)]
          rfl
        · have := ih1 b ((subOf P (P.C.key a), .locked) :: H) (hS.1 _) (fun h hh => by
            rcases List.mem_cons.1 hh with rfl | hh
            · rfl
            · exact hH h hh) s1 (hv.2.1 _) hi
          rw [List.map_cons] at this
          rw [this]
          rfl
    · rw [clash_of_not_fits hH hf]; rfl
  | eraseIf k pr inner rest ih1 ih2 => intro H p l hS; exact hS.elim
  | create a inner rest ih1 ih2 => intro H p l hS; exact hS.elim

/-- Without mutexes nothing can be locked twice. -/
theorem apart_null {key : α → κ} {eqv : κ → κ → Bool} {sub : κ → Nat} : ∀ (x : Prog α κ) (H : List (Nat × Held)) (l : List α),
    x.Simple → (∀ h ∈ H, h.2 = .locked) → x.Apart key eqv sub false H l := by
  have hfits : ∀ (op : POp α κ) (H : List (Nat × Held)), (∀ h ∈ H, h.2 = .locked) → op.Fits key sub false H := by
    intro op H hH h hh
    rw [hH h hh]
    intro e; cases e
  have hcons : ∀ (i : Nat) (H : List (Nat × Held)), (∀ h ∈ H, h.2 = .locked) → ∀ h ∈ (i, Held.locked) :: H, h.2 = .locked := by
    intro i H hH h hh
    rcases List.mem_cons.1 hh with rfl | hh
    · rfl
    · exact hH h hh
  intro x
  induction x with
  | done => intro H l _ _; trivial
  | call op rest ih => intro H l hS hH; exact ⟨hfits _ _ hH, ih _ H _ (hS _) hH⟩
  | modifyIf k f inner rest ih1 ih2 =>
    intro H l hS hH
    simp only [Prog.Apart]
    refine ⟨hfits _ _ hH, ?_⟩
    split
    · exact ih2 _ H _ (hS.2 _) hH
    · exact ⟨ih1 _ _ _ (hS.1 _) (hcons _ _ hH), ih2 _ H _ (hS.2 _) hH⟩
  | emplaceL a f inner rest ih1 ih2 =>
    intro H l hS hH
    simp only [Prog.Apart]
    refine ⟨hfits _ _ hH, ?_⟩
    split
    · exact ih2 _ H _ (hS.2 _) hH
    · exact ⟨ih1 _ _ _ (hS.1 _) (hcons _ _ hH), ih2 _ H _ (hS.2 _) hH⟩
  | eraseIf k pr inner rest ih1 ih2 => intro H l hS; exact hS.elim
  | create a inner rest ih1 ih2 => intro H l hS; exact hS.elim

end Gtl.Parallel
