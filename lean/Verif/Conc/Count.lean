import Verif.Conc.Refine
/-!
# Counting answers
-/

namespace Gtl.Conc

open Gtl.Swiss Gtl.Parallel
open Gtl.Spec

variable {op ρ S σ α κ : Type}

def phaseOp : Phase op ρ → Option op
  | .idle => none
  | .pending o => some o
  | .done o _ => some o

/-- In a history in which every call has returned, the answers are those given at the instants of effect. -/
theorem answers_perm : ∀ (E : List (LEvent op ρ)) (ph : Nat → Phase op ρ) (D : List (Nat × op × ρ)),
    (∀ t, Phase.Path (ph t) (E.filter (fun e => e.tid == t)) .idle) →
    (D.map Prod.fst).Nodup → (∀ t o r, (t, o, r) ∈ D ↔ ph t = .done o r) →
    (answers (fun t => phaseOp (ph t)) (E.filterMap LEvent.vis)).Perm (D.map Prod.snd ++ E.filterMap LEvent.eff)
  | [], ph, D, hp, hn, hD => by
    have : D = [] := by
      cases D with
      | nil => rfl
      | cons x D =>
        have h1 := (hD x.1 x.2.1 x.2.2).1 List.mem_cons_self
        have h2 := hp x.1
        rw [h1] at h2
        cases h2
    subst this
    exact .refl _
  | e :: E, ph, D, hp, hn, hD => by
    have ht := hp e.tid
    rw [List.filter_cons, if_pos (by simp)] at ht
    have hother : ∀ u, u ≠ e.tid → Phase.Path (ph u) (E.filter (fun e => e.tid == u)) .idle := by
      intro u hu
      have := hp u
      rwa [List.filter_cons, if_neg (by simpa using fun h => hu h.symm)] at this
    cases ht with
    | cons hnext hrest =>
      rename_i q
      have hp' : ∀ u, Phase.Path (upd ph e.tid q u) (E.filter (fun e => e.tid == u)) .idle := by
        intro u
        by_cases hu : u = e.tid
        · subst hu; rw [upd_same]; exact hrest
        · rw [upd_ne _ _ hu]; exact hother u hu
      have hops : (fun t => phaseOp (upd ph e.tid q t)) = upd (fun t => phaseOp (ph t)) e.tid (phaseOp q) := by
        funext u
        by_cases hu : u = e.tid
        · subst hu; rw [upd_same, upd_same]
        · rw [upd_ne _ _ hu, upd_ne _ _ hu]
      generalize hph : ph e.tid = p0 at hnext
      cases hnext with
      | inv =>
        rename_i t o
        have ih := answers_perm E (upd ph t (.pending o)) D hp' hn (by
          intro u o' r'
          by_cases hu : u = t
          · subst hu; rw [upd_same, hD]; simp only [LEvent.tid] at hph; rw [hph]; simp
          · rw [upd_ne _ _ hu, hD])
        simp only [LEvent.tid] at hops
        rw [hops] at ih
        exact ih
      | lin =>
        rename_i t o r
        simp only [LEvent.tid] at hph hops
        have hnot : ∀ o' r', (t, o', r') ∉ D := by
          intro o' r' h
          rw [hD, hph] at h; cases h
        have ih := answers_perm E (upd ph t (.done o r)) ((t, o, r) :: D) hp' (by
            rw [List.map_cons, List.nodup_cons]
            refine ⟨?_, hn⟩
            simp only [List.mem_map, not_exists, not_and]
            rintro ⟨t', o', r'⟩ h rfl
            exact hnot o' r' h) (by
          intro u o' r'
          by_cases hu : u = t
          · subst hu
            rw [upd_same, List.mem_cons]
            simp only [Prod.mk.injEq, true_and, Phase.done.injEq]
            constructor
            · rintro (⟨rfl, rfl⟩ | h)
              · exact ⟨rfl, rfl⟩
              · exact absurd h (hnot o' r')
            · rintro ⟨rfl, rfl⟩; exact .inl ⟨rfl, rfl⟩
          · rw [upd_ne _ _ hu, List.mem_cons, hD]
            simp only [Prod.mk.injEq, hu, false_and, false_or])
        rw [hops] at ih
        have hsame : upd (fun t => phaseOp (ph t)) t (phaseOp (.done o r : Phase op ρ)) = fun t => phaseOp (ph t) := by
          funext u
          by_cases hu : u = t
          · subst hu; rw [upd_same, hph]; rfl
          · rw [upd_ne _ _ hu]
        rw [hsame] at ih
        refine ih.trans ?_
        simp only [List.map_cons, List.filterMap_cons, LEvent.eff]
        exact List.perm_middle.symm
      | ret =>
        rename_i t o r
        simp only [LEvent.tid] at hph hops
        have hmem : (t, o, r) ∈ D := (hD _ _ _).2 hph
        obtain ⟨D1, D2, rfl⟩ := List.append_of_mem hmem
        have hn' := hn
        rw [List.map_append, List.map_cons, List.nodup_middle, List.nodup_cons, ← List.map_append] at hn'
        have ih := answers_perm E (upd ph t .idle) (D1 ++ D2) hp' hn'.2 (by
          intro u o' r'
          by_cases hu : u = t
          · subst hu
            rw [upd_same]
            constructor
            · intro h
              exact absurd (List.mem_map.2 ⟨_, h, rfl⟩) hn'.1
            · intro h; cases h
          · rw [upd_ne _ _ hu, ← hD]
            simp only [List.mem_append, List.mem_cons, Prod.mk.injEq, hu, false_and, false_or])
        rw [hops] at ih
        simp only [List.filterMap_cons, LEvent.vis, LEvent.eff, answers]
        have : phaseOp (ph t) = some o := by rw [hph]; rfl
        rw [this]
        simp only [List.map_append, List.map_cons]
        refine (ih.cons (o, r)).trans ?_
        rw [List.map_append, List.append_assoc, List.append_assoc, List.cons_append]
        exact List.perm_middle.symm

/-- The answers given so far are among those of the instants of effect. -/
theorem answers_sub : ∀ (E : List (LEvent op ρ)) (ph : Nat → Phase op ρ) (D : List (Nat × op × ρ)),
    (∀ t, ∃ p, Phase.Path (ph t) (E.filter (fun e => e.tid == t)) p) →
    (D.map Prod.fst).Nodup → (∀ t o r, (t, o, r) ∈ D ↔ ph t = .done o r) →
    ∃ X, (answers (fun t => phaseOp (ph t)) (E.filterMap LEvent.vis) ++ X).Perm (D.map Prod.snd ++ E.filterMap LEvent.eff)
  | [], ph, D, hp, hn, hD => ⟨D.map Prod.snd, by simp [answers]⟩
  | e :: E, ph, D, hp, hn, hD => by
    obtain ⟨pe, ht⟩ := hp e.tid
    rw [List.filter_cons, if_pos (by simp)] at ht
    have hother : ∀ u, u ≠ e.tid → ∃ p, Phase.Path (ph u) (E.filter (fun e => e.tid == u)) p := by
      intro u hu
      have := hp u
      rwa [List.filter_cons, if_neg (by simpa using fun h => hu h.symm)] at this
    cases ht with
    | cons hnext hrest =>
      rename_i q
      have hp' : ∀ u, ∃ p, Phase.Path (upd ph e.tid q u) (E.filter (fun e => e.tid == u)) p := by
        intro u
        by_cases hu : u = e.tid
        · subst hu; rw [upd_same]; exact ⟨_, hrest⟩
        · rw [upd_ne _ _ hu]; exact hother u hu
      have hops : (fun t => phaseOp (upd ph e.tid q t)) = upd (fun t => phaseOp (ph t)) e.tid (phaseOp q) := by
        funext u
        by_cases hu : u = e.tid
        · subst hu; rw [upd_same, upd_same]
        · rw [upd_ne _ _ hu, upd_ne _ _ hu]
      generalize hph : ph e.tid = p0 at hnext
      cases hnext with
      | inv =>
        rename_i t o
        obtain ⟨X, ih⟩ := answers_sub E (upd ph t (.pending o)) D hp' hn (by
          intro u o' r'
          by_cases hu : u = t
          · subst hu; rw [upd_same, hD]; simp only [LEvent.tid] at hph; rw [hph]; simp
          · rw [upd_ne _ _ hu, hD])
        simp only [LEvent.tid] at hops
        rw [hops] at ih
        exact ⟨X, ih⟩
      | lin =>
        rename_i t o r
        simp only [LEvent.tid] at hph hops
        have hnot : ∀ o' r', (t, o', r') ∉ D := by
          intro o' r' h
          rw [hD, hph] at h; cases h
        obtain ⟨X, ih⟩ := answers_sub E (upd ph t (.done o r)) ((t, o, r) :: D) hp' (by
            rw [List.map_cons, List.nodup_cons]
            refine ⟨?_, hn⟩
            simp only [List.mem_map, not_exists, not_and]
            rintro ⟨t', o', r'⟩ h rfl
            exact hnot o' r' h) (by
          intro u o' r'
          by_cases hu : u = t
          · subst hu
            rw [upd_same, List.mem_cons]
            simp only [Prod.mk.injEq, true_and, Phase.done.injEq]
            constructor
            · rintro (⟨rfl, rfl⟩ | h)
              · exact ⟨rfl, rfl⟩
              · exact absurd h (hnot o' r')
            · rintro ⟨rfl, rfl⟩; exact .inl ⟨rfl, rfl⟩
          · rw [upd_ne _ _ hu, List.mem_cons, hD]
            simp only [Prod.mk.injEq, hu, false_and, false_or])
        rw [hops] at ih
        have hsame : upd (fun t => phaseOp (ph t)) t (phaseOp (.done o r : Phase op ρ)) = fun t => phaseOp (ph t) := by
          funext u
          by_cases hu : u = t
          · subst hu; rw [upd_same, hph]; rfl
          · rw [upd_ne _ _ hu]
        rw [hsame] at ih
        refine ⟨X, ih.trans ?_⟩
        simp only [List.map_cons, List.filterMap_cons, LEvent.eff]
        exact List.perm_middle.symm
      | ret =>
        rename_i t o r
        simp only [LEvent.tid] at hph hops
        have hmem : (t, o, r) ∈ D := (hD _ _ _).2 hph
        obtain ⟨D1, D2, rfl⟩ := List.append_of_mem hmem
        have hn' := hn
        rw [List.map_append, List.map_cons, List.nodup_middle, List.nodup_cons, ← List.map_append] at hn'
        obtain ⟨X, ih⟩ := answers_sub E (upd ph t .idle) (D1 ++ D2) hp' hn'.2 (by
          intro u o' r'
          by_cases hu : u = t
          · subst hu
            rw [upd_same]
            constructor
            · intro h
              exact absurd (List.mem_map.2 ⟨_, h, rfl⟩) hn'.1
            · intro h; cases h
          · rw [upd_ne _ _ hu, ← hD]
            simp only [List.mem_append, List.mem_cons, Prod.mk.injEq, hu, false_and, false_or])
        rw [hops] at ih
        simp only [List.filterMap_cons, LEvent.vis, LEvent.eff, answers]
        have : phaseOp (ph t) = some o := by rw [hph]; rfl
        rw [this]
        simp only [List.map_append, List.map_cons]
        refine ⟨X, (ih.cons (o, r)).trans ?_⟩
        rw [List.map_append, List.append_assoc, List.append_assoc, List.cons_append]
        exact List.perm_middle.symm

theorem explained_answers {sem : S → op → S → ρ → Prop} {s s' : S} {H} {E : List (LEvent op ρ)} (h : Explains sem s H E s') :
    ∃ X, (answers (fun _ => none) H ++ X).Perm (E.filterMap LEvent.eff) := by
  have := answers_sub E (fun _ => .idle) [] h.threads List.nodup_nil (by simp)
  rw [h.vis] at this
  exact this

theorem legal_mem {sem : S → op → S → ρ → Prop} {s s' : S} {l : List (op × ρ)} (h : Legal sem s l s') :
    ∀ x ∈ l, ∃ a b, sem a x.1 b x.2 := by
  induction h with
  | nil => intro x hx; cases hx
  | cons h1 _ ih =>
    intro x hx
    rcases List.mem_cons.1 hx with rfl | hx
    · exact ⟨_, _, h1⟩
    · exact ih x hx

/-- Every answer is one that the specification allows in some state. -/
theorem answers_sem {sem : S → op → S → ρ → Prop} {s : S} {H} (h : Linearizable sem s H) :
    ∀ x ∈ answers (fun _ => none) H, ∃ a b, sem a x.1 b x.2 := by
  obtain ⟨E, s', he⟩ := h
  obtain ⟨X, hX⟩ := explained_answers he
  intro x hx
  exact legal_mem he.legal x (hX.mem_iff.1 (List.mem_append_left _ hx))

theorem Good.succ {Abs : (Nat → σ) → S → Prop} {sem : S → op → S → ρ → Prop} {o : op} :
    ∀ {n : Nat} {c : Code σ ρ}, Good Abs sem o n c → Good Abs sem o (n + 1) c
  | 0, _, h => h.elim
  | n + 1, c, ⟨β, i, m, b, k, h1, h2, h3, h4⟩ => by
    refine ⟨β, i, m, b, k, h1, h2, h3, fun A s h => ?_⟩
    obtain ⟨a', x, h5, h6⟩ := h4 A s h
    refine ⟨a', x, h5, ?_⟩
    rcases h6 with h6 | ⟨h7, h8⟩
    · exact .inl h6
    · exact .inr ⟨h7, Good.succ h8⟩

theorem Good.mono {Abs : (Nat → σ) → S → Prop} {sem : S → op → S → ρ → Prop} {o : op} {n m : Nat} (hnm : n ≤ m)
    {c : Code σ ρ} (h : Good Abs sem o n c) : Good Abs sem o m c := by
  induction hnm with
  | refl => exact h
  | step _ ih => exact ih.succ

/-- A specification may be strengthened by what the abstraction relation says about the states. -/
theorem Good.strengthen {Abs : (Nat → σ) → S → Prop} {sem : S → op → S → ρ → Prop} {D : S → Prop}
    (hD : ∀ A s, Abs A s → D s) {o : op} : ∀ {n : Nat} {c : Code σ ρ}, Good Abs sem o n c →
      Good Abs (fun s o s' r => sem s o s' r ∧ D s) o n c
  | 0, _, h => h.elim
  | n + 1, c, ⟨β, i, m, b, k, h1, h2, h3, h4⟩ => by
    refine ⟨β, i, m, b, k, h1, h2, h3, fun A s h => ?_⟩
    obtain ⟨a', x, h5, h6⟩ := h4 A s h
    refine ⟨a', x, h5, ?_⟩
    rcases h6 with ⟨r, s', h7, h8, h9⟩ | ⟨h7, h8⟩
    · exact .inl ⟨r, s', h7, ⟨h8, hD A s h⟩, h9⟩
    · exact .inr ⟨h7, h8.strengthen hD⟩

theorem explains_mono {sem sem' : S → op → S → ρ → Prop} (h : ∀ s o s' r, sem s o s' r → sem' s o s' r) {s s' H} {E : List (LEvent op ρ)}
    (he : Explains sem s H E s') : Explains sem' s H E s' := by
  refine ⟨he.vis, ?_, he.threads⟩
  have := he.legal
  clear he
  generalize E.filterMap LEvent.eff = l at this
  induction this with
  | nil => exact .nil
  | cons h1 _ ih => exact .cons (h _ _ _ _ h1) ih

/-- One call: the length changes by what the answer says. -/
theorem sem_count {P : PCfg α κ} (hC : CfgOk P.C) {o : POp α κ} (hc : Concurrent o) (ht : ∀ a, o ≠ .base (.toggle a)) {l : List α}
    (hd : Distinct P.C l) :
    (Spec.pstep P.C.key P.C.eqv l o).1.length + (saysErased o (Spec.pstep P.C.key P.C.eqv l o).2).toNat =
      l.length + (saysAdded o (Spec.pstep P.C.key P.C.eqv l o).2).toNat := by
  have herase : ∀ k a, Spec.lookup P.C.key P.C.eqv l k = some a → (Spec.erase P.C.key P.C.eqv l k).length + 1 = l.length := by
    intro k a hl
    have hm : a ∈ l := List.mem_of_find?_eq_some hl
    have he : P.C.eqv (P.C.key a) k = true := by simpa using List.find?_some hl
    obtain ⟨l1, l2, rfl⟩ := List.append_of_mem hm
    have := (erase_some hC hd List.perm_middle he).length_eq
    rw [this, List.length_append, List.length_append, List.length_cons]; omega
  have hmod : ∀ k f, (Spec.modify P.C.key P.C.eqv l k f).length = l.length := fun k f => List.length_map _
  cases o with
  | base op =>
    cases op with
    | insert a =>
      simp only [Spec.pstep, Spec.step]
      split <;> simp [saysErased, saysAdded]
    | insertOrAssign a f =>
      simp only [Spec.pstep, Spec.step]
      split <;> simp [saysErased, saysAdded, hmod]
    | toggle a => exact absurd rfl (ht a)
    | insertNode n =>
      cases n with
      | none => exact hc.elim
      | some a =>
        simp only [Spec.pstep, Spec.step]
        split <;> simp [saysErased, saysAdded]
    | contains k => simp [Spec.pstep, Spec.step, saysErased, saysAdded]
    | count k => simp [Spec.pstep, Spec.step, saysErased, saysAdded]
    | erase k =>
      simp only [Spec.pstep, Spec.step, saysErased, saysAdded]
      cases hl : Spec.lookup P.C.key P.C.eqv l k with
      | none =>
        have hno : ∀ a ∈ l, P.C.eqv (P.C.key a) k = false := lookup_none.1 hl
        rw [erase_none hno, countP_none hno]; simp
      | some a =>
        have hm : a ∈ l := List.mem_of_find?_eq_some hl
        have he : P.C.eqv (P.C.key a) k = true := by simpa using List.find?_some hl
        rw [countP_key hC hd hm he]
        simpa using herase k a hl
    | subscript | «at» | find | eraseIf | extract | insertRange | size | clear | reserve | rehash => exact hc.elim
  | ifContains k => simp [Spec.pstep, saysErased, saysAdded]
  | modifyIf k f => simp [Spec.pstep, saysErased, saysAdded, hmod]
  | eraseIfKey k pr =>
    simp only [Spec.pstep]
    split
    · simp [saysErased, saysAdded]
    · rename_i b hl
      split
      · simpa [saysErased, saysAdded] using herase k b hl
      · simp [saysErased, saysAdded]
  | emplaceL a f =>
    simp only [Spec.pstep]
    split <;> simp [saysErased, saysAdded, hmod]
  | forEachM => exact hc.elim

theorem legal_count {P : PCfg α κ} (hC : CfgOk P.C) {Q : POp α κ → Prop} (hQ : ∀ o, Q o → Concurrent o)
    (ht : ∀ a, ¬ Q (.base (.toggle a))) {l l' : List α} {es : List ({o // Q o} × Resp α)}
    (h : Legal (fun s o s' r => sem P s o s' r ∧ Distinct P.C s) l es l') :
    l'.length + es.countP (fun x => saysErased x.1.1 x.2) = l.length + es.countP (fun x => saysAdded x.1.1 x.2) := by
  induction h with
  | nil => rfl
  | cons h1 hrest ih =>
    rename_i s s' s'' o r es
    have hs := h1.1
    unfold sem at hs
    have := sem_count hC (hQ o.1 o.2) (fun a h => ht a (h ▸ o.2)) h1.2
    rw [← hs] at this
    rw [List.countP_cons, List.countP_cons]
    cases h2 : saysErased o.1 r <;> cases h3 : saysAdded o.1 r <;> simp [h2, h3] at this ⊢ <;> omega

theorem legal_count_weak {P : PCfg α κ} (hC : CfgOk P.C) {Q : POp α κ → Prop} (hQ : ∀ o, Q o → Concurrent o)
    (ht : ∀ a, ¬ Q (.base (.toggle a))) {l l' : List α} {es : List ({o // Q o} × Resp α)}
    (h : Legal (fun s o s' r => semWeak P s o s' r ∧ Distinct P.C s) l es l') :
    l.length + es.countP (fun x => saysAdded x.1.1 x.2) ≤ l'.length + es.countP (fun x => saysErased x.1.1 x.2) := by
  induction h with
  | nil => exact Nat.le_refl _
  | cons h1 hrest ih =>
    rename_i s s' s'' o r es
    rw [List.countP_cons, List.countP_cons]
    rcases h1.1 with hs | ⟨k, pr, rep, h2, h3, rfl, rfl⟩
    · unfold sem at hs
      have := sem_count hC (hQ o.1 o.2) (fun a h => ht a (h ▸ o.2)) h1.2
      rw [← hs] at this
      cases h2 : saysErased o.1 r <;> cases h3 : saysAdded o.1 r <;> simp [h2, h3] at this ⊢ <;> omega
    · have ha : saysAdded o.1 (rep 1) = false := by
        unfold eraseArgs at h2
        split at h2
        · rename_i ho; cases h2; rw [ho]; rfl
        · rename_i ho; cases h2; rw [ho]; rfl
        · cases h2
      rw [ha]
      simp only [Bool.false_eq_true, if_false]
      omega

end Gtl.Conc
