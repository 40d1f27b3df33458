import Verif.Conc.ShareTrace
/-!
# Traversals that are divided among several threads
-/

namespace Gtl.Spec.Share

open Gtl.Spec

variable {α κ op : Type} {key : α → κ} {eqv : κ → κ → Bool} {sub : κ → Nat} {weak : Bool}

section
variable {plan : op → Plan (Atom α κ) (Ans α) (Ans α)} {w w' : Nat → List α} {H : List (Event op (Ans α))}
  {E E1 E2 : List (SEvent op (Atom α κ) (Ans α) (Ans α))} {n : Nat} {o : Nat → op} {r : Nat → Ans α}
  (h : Stepwise plan (sem key eqv sub weak) w H E w') (hs : Spread E n o r E1 E2)
include h hs

/-- The step of each of the calls answers for some instant, and leads to one. -/
theorem spread_step {f : Nat → Atom α κ} (ho : ∀ i, i < n → plan (o i) = .step (f i) .ret) {i : Nat} (hi : i < n) :
    ∃ m, Instant key eqv sub w E1 E2 m ∧ Answers key eqv sub weak m (f i) (r i) ∧
      Instant key eqv sub w E1 E2 (next key eqv sub m (f i)) := by
  obtain ⟨t, A, B, C, h1, h2⟩ := hs.work i hi
  obtain ⟨p, hp⟩ := h.threads t
  have hpath := during_path h2 hp
  rw [ho i hi] at hpath
  have hmem : .eff t (f i) (r i) ∈ B := by
    have hsw : (.step (f i) .ret : Plan (Atom α κ) (Ans α) (Ans α)) =
        sweep (fun _ => f i) (fun xs => xs.head?.getD (.one .unit)) 1 0 [] := rfl
    rw [hsw] at hpath
    obtain ⟨ys, g1, g2, g3⟩ := sweep_trace B h2.own _ _ _ hpath
    match ys, g1 with
    | [y], _ =>
      have := g3 0 y rfl
      rw [g2]
      exact this
  obtain ⟨m, hm, ha, hm'⟩ := step_instant h h2 hmem
  have grow : ∀ m, Instant key eqv sub w (E1 ++ A) B m → Instant key eqv sub w E1 E2 m := by
    rintro m ⟨F, G, hFG, rfl⟩
    refine ⟨A ++ .inv t (o i) :: F, G ++ .ret t (r i) :: C, by rw [h1, hFG]; simp, ?_⟩
    unfold after
    congr 1
    simp [List.filterMap_append, List.filterMap_cons, SEvent.step]
  exact ⟨m, grow _ hm, ha, grow _ hm'⟩

omit h hs in
theorem inside_perm (hsub : ∀ k, sub k < n) (l : List α) : ((List.range n).flatMap (inside key sub l)).Perm l := by
  have : ∀ m, ((List.range m).flatMap (inside key sub l)).Perm (l.filter fun a => decide (sub (key a) < m)) := by
    intro m
    induction m with
    | zero => simp
    | succ m ih =>
      rw [List.range_succ, List.flatMap_append, List.flatMap_singleton]
      refine (ih.append_right _).trans ?_
      unfold inside
      have e1 : l.filter (fun a => decide (sub (key a) < m)) =
          (l.filter fun a => decide (sub (key a) < m + 1)).filter fun a => decide (sub (key a) < m) := by
        rw [List.filter_filter]
        apply List.filter_congr
        intro a _
        rw [Bool.eq_iff_iff]
        simp only [decide_eq_true_eq, Bool.and_eq_true]
        omega
      have e2 : l.filter (fun a => sub (key a) == m) =
          (l.filter fun a => decide (sub (key a) < m + 1)).filter fun a => !decide (sub (key a) < m) := by
        rw [List.filter_filter]
        apply List.filter_congr
        intro a _
        rw [Bool.eq_iff_iff]
        simp only [decide_eq_true_eq, Bool.and_eq_true, beq_iff_eq, Bool.not_eq_true', decide_eq_false_iff_not]
        omega
      rw [e1, e2]
      exact filter_split _ _
  have h2 := this n
  rwa [List.filter_eq_self.2 (fun a _ => by simpa using hsub (key a))] at h2

/-- `for_each` with a policy. -/
theorem spread_seen (hsub : ∀ k, sub k < n) (heq : ∀ k k', eqv k k' = true → sub k = sub k') {c : Nat}
    (ho : ∀ i, i < n → plan (o i) = .step (.visit c i) .ret) :
    ∃ ls : Nat → List α, (∀ i, i < n → r i = .elems (ls i)) ∧
      ((List.range n).flatMap ls).Pairwise (fun a b => eqv (key a) (key b) = false) ∧
      (∀ a ∈ (List.range n).flatMap ls, ∃ m, Instant key eqv sub w E1 E2 m ∧ a ∈ m c) ∧
      (∀ a, (∀ m, Instant key eqv sub w E1 E2 m → a ∈ m c) → a ∈ (List.range n).flatMap ls) ∧
      ∀ l, (∀ m, Instant key eqv sub w E1 E2 m → m c = l) → ((List.range n).flatMap ls).Perm l := by
  have hex : ∀ i, ∃ l, i < n → r i = .elems l ∧ l.Pairwise (fun a b => eqv (key a) (key b) = false) ∧
      ∃ m, Instant key eqv sub w E1 E2 m ∧ l.Perm (inside key sub (m c) i) := by
    intro i
    by_cases hi : i < n
    · obtain ⟨m, hm, ⟨l, h4, h5, h6⟩, -⟩ := spread_step h hs ho hi
      exact ⟨l, fun _ => ⟨h4, h6, m, hm, h5⟩⟩
    · exact ⟨[], fun hi' => absurd hi' hi⟩
  obtain ⟨ls, hls⟩ := Classical.axiomOfChoice hex
  refine ⟨ls, fun i hi => (hls i hi).1, ?_, fun a ha => ?_, fun a ha => ?_, fun l hl => ?_⟩
  · rw [List.flatMap_def, List.pairwise_flatten]
    constructor
    · intro l hl
      obtain ⟨i, hi, rfl⟩ := List.mem_map.1 hl
      exact (hls i (List.mem_range.1 hi)).2.1
    · rw [List.pairwise_map]
      refine List.Pairwise.imp_of_mem ?_ (List.pairwise_lt_range (n := n))
      intro i j hi hj hij a ha b hb
      obtain ⟨-, -, m, -, h4⟩ := hls i (List.mem_range.1 hi)
      obtain ⟨-, -, m', -, h5⟩ := hls j (List.mem_range.1 hj)
      have e1 := (mem_inside.1 (h4.mem_iff.1 ha)).2
      have e2 := (mem_inside.1 (h5.mem_iff.1 hb)).2
      cases he : eqv (key a) (key b) with
      | false => rfl
      | true => have := heq _ _ he; omega
  · obtain ⟨i, hi, hal⟩ := List.mem_flatMap.1 ha
    obtain ⟨-, -, m, hm, h4⟩ := hls i (List.mem_range.1 hi)
    exact ⟨m, hm, (mem_inside.1 (h4.mem_iff.1 hal)).1⟩
  · obtain ⟨-, -, m, hm, h4⟩ := hls _ (hsub (key a))
    exact List.mem_flatMap.2 ⟨_, List.mem_range.2 (hsub (key a)), h4.mem_iff.2 (mem_inside.2 ⟨ha m hm, rfl⟩)⟩
  · refine .trans (List.Perm.flatMap_left _ fun i hi => ?_) (inside_perm (key := key) hsub l)
    obtain ⟨-, -, m, hm, h4⟩ := hls i (List.mem_range.1 hi)
    rw [hl m hm] at h4
    exact h4

/-- `for_each_m` with a policy. -/
theorem spread_changed (hsub : ∀ k, sub k < n) {c : Nat} {f : α → α}
    (ho : ∀ i, i < n → plan (o i) = .step (.change c i f) .ret) (a : α) :
    (∃ m, Instant key eqv sub w E1 E2 m ∧ a ∉ m c) ∨ ∃ m b, Instant key eqv sub w E1 E2 m ∧ b ∈ m c ∧ a = f b := by
  obtain ⟨m, hm, -, hm'⟩ := spread_step h hs ho (hsub (key a))
  by_cases ha : a ∈ next key eqv sub m (.change c (sub (key a)) f) c
  · simp only [next, put, if_true, List.mem_map] at ha
    obtain ⟨b, hb, hba⟩ := ha
    split at hba
    · exact .inr ⟨m, b, hm, hb, hba.symm⟩
    · subst hba; rename_i hne; exact absurd rfl hne
  · exact .inl ⟨_, hm', ha⟩

end

/-! ## Nobody else -/

section
variable {st ρ' ρ : Type}

/-- What holds for the events of each thread holds for all events. -/
theorem by_threads {β : Type} (p q : SEvent op st ρ' ρ → Option β) : ∀ (k : Nat) (E : List (SEvent op st ρ' ρ)), E.length ≤ k →
    (∀ t, ((E.filter fun e => e.tid == t).filterMap p).Perm ((E.filter fun e => e.tid == t).filterMap q)) →
    (E.filterMap p).Perm (E.filterMap q)
  | _, [], _, _ => .nil
  | k + 1, e :: E, hk, h => by
    have hsplit := filter_split (e :: E) (fun x => x.tid == e.tid)
    refine (hsplit.symm.filterMap p).trans (.trans ?_ (hsplit.filterMap q))
    rw [List.filterMap_append, List.filterMap_append]
    refine (h e.tid).append (by_threads p q k _ ?_ fun t => ?_)
    · have : ((e :: E).filter fun x => !(x.tid == e.tid)) = E.filter fun x => !(x.tid == e.tid) := by
        rw [List.filter_cons, if_neg (by simp)]
      rw [this]
      have := List.length_filter_le (fun x : SEvent op st ρ' ρ => !(x.tid == e.tid)) E
      simp only [List.length_cons] at hk
      omega
    · rw [List.filter_filter]
      by_cases ht : t = e.tid
      · rw [List.filter_eq_nil_iff.2 (fun x _ => by rw [ht]; simp)]
        exact .nil
      · have : ((e :: E).filter fun x => x.tid == t && !(x.tid == e.tid)) = (e :: E).filter fun x => x.tid == t := by
          apply List.filter_congr
          intro x _
          rw [Bool.eq_iff_iff]
          simp only [Bool.and_eq_true, beq_iff_eq, Bool.not_eq_true', beq_eq_false_iff_ne, ne_eq,
            and_iff_left_iff_imp]
          intro hx hx'
          exact ht (hx.symm.trans hx')
        rw [this]
        exact h t

/-- The steps of one thread are those of the calls it made. -/
theorem path_steps {plan : op → Plan st ρ' ρ} {g : op → st} {j : ρ' → ρ} (hp : ∀ o, plan o = .step (g o) (fun x => .ret (j x))) :
    ∀ (E : List (SEvent op st ρ' ρ)),
    (SPhase.Path plan .idle E .idle → E.filterMap (fun e => e.step.map Prod.fst) = (E.filterMap fun e => e.vis.bind invoked).map g) ∧
    (∀ o, SPhase.Path plan (.left (plan o)) E .idle →
      E.filterMap (fun e => e.step.map Prod.fst) = g o :: (E.filterMap fun e => e.vis.bind invoked).map g) ∧
    (∀ r, SPhase.Path plan (.left (.ret r)) E .idle →
      E.filterMap (fun e => e.step.map Prod.fst) = (E.filterMap fun e => e.vis.bind invoked).map g)
  | [] => ⟨fun _ => rfl, fun o h => by (generalize plan o = q at h; cases h), fun r h => by cases h⟩
  | e :: E => by
    obtain ⟨h1, h2, h3⟩ := path_steps hp E
    refine ⟨fun h => ?_, fun o h => ?_, fun r h => ?_⟩
    · cases h with
      | cons hn h => cases hn with | inv => simpa [SEvent.step, SEvent.vis, invoked, List.filterMap_cons] using h2 _ h
    · rw [hp o] at h
      cases h with
      | cons hn h => cases hn with | eff => simpa [SEvent.step, SEvent.vis, invoked, List.filterMap_cons] using h3 _ h
    · cases h with
      | cons hn h => cases hn with | ret => simpa [SEvent.step, SEvent.vis, invoked, List.filterMap_cons] using h1 h

theorem all_steps {plan : op → Plan st ρ' ρ} {g : op → st} {j : ρ' → ρ} (hp : ∀ o, plan o = .step (g o) (fun x => .ret (j x)))
    {E : List (SEvent op st ρ' ρ)} (h : ∀ t, SPhase.Path plan .idle (E.filter fun e => e.tid == t) .idle) :
    ((E.filterMap SEvent.step).map Prod.fst).Perm (((E.filterMap SEvent.vis).filterMap invoked).map g) := by
  rw [List.map_filterMap, List.filterMap_filterMap, List.map_filterMap]
  refine by_threads _ _ _ E (Nat.le_refl _) fun t => ?_
  rw [(path_steps hp _).1 (h t), List.map_filterMap]

end

/-- The part that a step changes. -/
def partOf : Atom α κ → Nat
  | .change _ i _ => i
  | _ => 0

/-- The part that a step looks at. -/
def visited : Atom α κ → Nat
  | .visit _ i => i
  | _ => 0

/-- Changing different parts one after the other. -/
theorem changes {c : Nat} {f : α → α} (hf : ∀ a, key (f a) = key a) : ∀ (l : List (Atom α κ)) (w : Nat → List α),
    (∀ s ∈ l, ∃ i, s = .change c i f) → (l.map partOf).Nodup →
    l.foldl (fun w s => next key eqv sub w s) w = put w c ((w c).map fun a => if sub (key a) ∈ l.map partOf then f a else a)
  | [], w, _, _ => by
    funext i
    simp only [List.foldl_nil, List.map_nil, List.not_mem_nil, if_false, List.map_id', put]
    split
    · rename_i hi; rw [hi]
    · rfl
  | s :: l, w, hl, hn => by
    obtain ⟨i, rfl⟩ := hl s List.mem_cons_self
    rw [List.map_cons, List.nodup_cons] at hn
    rw [List.foldl_cons, changes hf l _ (fun s hs => hl s (List.mem_cons_of_mem _ hs)) hn.2]
    funext j
    simp only [next, put]
    split
    · rw [if_pos trivial, List.map_map]
      apply List.map_congr_left
      intro a _
      simp only [Function.comp_apply, List.map_cons, partOf, List.mem_cons]
      by_cases h1 : sub (key a) = i
      · have h2 : i ∉ l.map partOf := hn.1
        rw [if_pos h1, hf, if_neg (by rw [h1]; exact h2), if_pos (Or.inl h1)]
      · rw [if_neg h1]
        by_cases h2 : sub (key a) ∈ l.map partOf
        · rw [if_pos h2, if_pos (.inr h2)]
        · rw [if_neg h2, if_neg (by rintro (h3 | h3); exacts [h1 h3, h2 h3])]
    · rfl

theorem after_changes {plan : op → Plan (Atom α κ) (Ans α) (Ans α)} {w w' : Nat → List α} {H : List (Event op (Ans α))}
    {E : List (SEvent op (Atom α κ) (Ans α) (Ans α))} {n c : Nat} {f : α → α} (hf : ∀ a, key (f a) = key a)
    (hsub : ∀ k, sub k < n) {g : op → Atom α κ} (hp : ∀ o, plan o = .step (g o) .ret)
    (h : Stepwise plan (sem key eqv sub weak) w H E w') (ht : ∀ t, SPhase.Path plan .idle (E.filter fun e => e.tid == t) .idle)
    (hH : ((H.filterMap invoked).map g).Perm ((List.range n).map fun i => .change c i f)) :
    w' = put w c ((w c).map f) := by
  have h1 := all_steps (j := id) hp ht
  rw [h.vis] at h1
  have h2 := h1.trans hH
  rw [stepwise_after h]
  unfold after
  have h3 : ∀ (l : List (Atom α κ × Ans α)) (w : Nat → List α), l.foldl (fun w s => next key eqv sub w s.1) w =
      (l.map Prod.fst).foldl (fun w s => next key eqv sub w s) w := by
    intro l w
    rw [List.foldl_map]
  have h4 := h2.map partOf
  have e : ((List.range n).map fun i => (Atom.change c i f : Atom α κ)).map partOf = List.range n := by
    rw [List.map_map]
    exact List.map_id _
  rw [e] at h4
  rw [h3, changes hf _ _ (fun s hs => ?_) (h4.nodup_iff.2 List.nodup_range)]
  · congr 1
    apply List.map_congr_left
    intro a _
    rw [if_pos (h4.mem_iff.2 (List.mem_range.2 (hsub _)))]
  · obtain ⟨i, -, hi⟩ := List.mem_map.1 (h2.mem_iff.1 hs)
    exact ⟨i, hi.symm⟩

/-- The answers of one thread are those of its steps. -/
theorem path_answers {st ρ : Type} {plan : op → Plan st ρ ρ} {g : op → st} (hp : ∀ o, plan o = .step (g o) .ret) :
    ∀ (E : List (SEvent op st ρ ρ)),
    (SPhase.Path plan .idle E .idle → E.filterMap (fun e => e.vis.bind answered) = E.filterMap fun e => e.step.map Prod.snd) ∧
    (∀ o, SPhase.Path plan (.left (plan o)) E .idle →
      E.filterMap (fun e => e.vis.bind answered) = E.filterMap fun e => e.step.map Prod.snd) ∧
    (∀ r, SPhase.Path plan (.left (.ret r)) E .idle →
      E.filterMap (fun e => e.vis.bind answered) = r :: E.filterMap fun e => e.step.map Prod.snd)
  | [] => ⟨fun _ => rfl, fun o h => by (generalize plan o = q at h; cases h), fun r h => by cases h⟩
  | e :: E => by
    obtain ⟨h1, h2, h3⟩ := path_answers hp E
    refine ⟨fun h => ?_, fun o h => ?_, fun r h => ?_⟩
    · cases h with
      | cons hn h => cases hn with | inv => simpa [SEvent.step, SEvent.vis, answered, List.filterMap_cons] using h2 _ h
    · rw [hp o] at h
      cases h with
      | cons hn h => cases hn with | eff => simpa [SEvent.step, SEvent.vis, answered, List.filterMap_cons] using h3 _ h
    · cases h with
      | cons hn h => cases hn with | ret => simpa [SEvent.step, SEvent.vis, answered, List.filterMap_cons] using h1 h

theorem all_answers {st ρ : Type} {plan : op → Plan st ρ ρ} {g : op → st} (hp : ∀ o, plan o = .step (g o) .ret)
    {E : List (SEvent op st ρ ρ)} (h : ∀ t, SPhase.Path plan .idle (E.filter fun e => e.tid == t) .idle) :
    ((E.filterMap SEvent.vis).filterMap answered).Perm ((E.filterMap SEvent.step).map Prod.snd) := by
  rw [List.map_filterMap, List.filterMap_filterMap]
  refine by_threads _ _ _ E (Nat.le_refl _) fun t => ?_
  rw [(path_answers hp _).1 (h t)]

theorem visits_answer {c : Nat} {w w' : Nat → List α} : ∀ {l : List (Atom α κ × Ans α)}, Legal (sem key eqv sub weak) w l w' →
    (∀ s ∈ l, ∃ i, s.1 = .visit c i) → w' = w ∧
    ((l.map Prod.snd).flatMap shown).Perm ((l.map Prod.fst).flatMap fun s => inside key sub (w c) (visited s))
  | [], h, _ => by cases h; exact ⟨rfl, .nil⟩
  | s :: l, h, hl => by
    cases h with
    | @cons _ _ _ a x _ hs h =>
      obtain ⟨i, hi⟩ := hl _ List.mem_cons_self
      dsimp only at hi
      subst hi
      obtain ⟨rfl, y, rfl, h2, -⟩ := hs
      obtain ⟨g1, g2⟩ := visits_answer h (fun s hs => hl s (List.mem_cons_of_mem _ hs))
      refine ⟨g1, ?_⟩
      simp only [List.map_cons, List.flatMap_cons]
      exact h2.append g2

theorem after_visits {plan : op → Plan (Atom α κ) (Ans α) (Ans α)} {w w' : Nat → List α} {H : List (Event op (Ans α))}
    {E : List (SEvent op (Atom α κ) (Ans α) (Ans α))} {n c : Nat} (hsub : ∀ k, sub k < n) {g : op → Atom α κ}
    (hp : ∀ o, plan o = .step (g o) .ret) (h : Stepwise plan (sem key eqv sub weak) w H E w')
    (ht : ∀ t, SPhase.Path plan .idle (E.filter fun e => e.tid == t) .idle)
    (hH : ((H.filterMap invoked).map g).Perm ((List.range n).map fun i => .visit c i)) :
    w' = w ∧ ((H.filterMap answered).flatMap shown).Perm (w c) := by
  have h1 := all_steps (j := id) hp ht
  have h5 := all_answers hp ht
  rw [h.vis] at h1 h5
  have h2 := h1.trans hH
  obtain ⟨h3, h4⟩ := visits_answer (c := c) h.legal (fun s hs => by
    obtain ⟨i, -, hi⟩ := List.mem_map.1 (h2.mem_iff.1 (List.mem_map_of_mem hs))
    exact ⟨i, hi.symm⟩)
  refine ⟨h3, (h5.flatMap_right _).trans (h4.trans ((h2.flatMap_right _).trans ?_))⟩
  rw [List.flatMap_map]
  exact inside_perm hsub (w c)

end Gtl.Spec.Share
