import Verif.Conc.ShareTrace
import Verif.Conc.WalkSim
/-!
# What a stepwise explanation says about a traversal whose callback throws
-/

namespace Gtl.Spec.Walk

open Gtl.Spec
open Gtl.Spec.Share (path_append)
open Gtl.Conc.Multi (assigned_cons_eq assigned_cons_ne)

variable {α κ op st ρ' ρ : Type}

/-- The steps of a thread between call and return follow the plan of the call. -/
theorem during_path {plan : op → Plan st ρ' ρ} {E : List (SEvent op st ρ' ρ)} {t o r E1 E2}
    (hd : During E t o r E1 E2) {p} (hp : SPhase.Path plan .idle (E.filter (fun e => e.tid == t)) p) :
    SPhase.Path plan (.left (plan o)) (E2.filter (fun e => e.tid == t)) (.left (.ret r)) := by
  obtain ⟨⟨E3, hE⟩, -⟩ := hd
  subst hE
  rw [List.filter_append, List.filter_cons, List.filter_append, List.filter_cons] at hp
  simp only [SEvent.tid, beq_self_eq_true, if_true] at hp
  obtain ⟨q, -, h2⟩ := path_append hp
  cases h2 with
  | cons hn h2 =>
    cases hn with
    | inv =>
      obtain ⟨q, h3, h4⟩ := path_append h2
      cases h4 with
      | cons hn h4 =>
        cases hn with
        | ret => exact h3

section
variable {key : α → κ} {eqv : κ → κ → Bool} {sub : κ → Nat} {weak : Bool}

theorem after_append (w : Nat → List α) (E F : List (SEvent op (Atom α κ) (Ans α) (Ans α))) :
    after key eqv sub w (E ++ F) = after key eqv sub (after key eqv sub w E) F := by
  unfold after
  rw [List.filterMap_append, List.foldl_append]

theorem legal_after {w w' : Nat → List α} : ∀ {l : List (Atom α κ × Ans α)}, Legal (sem key eqv sub weak) w l w' →
    w' = l.foldl (fun w s => next key eqv sub w s.1 s.2) w ∧
    ∀ l1 s x l2, l = l1 ++ (s, x) :: l2 → Answers key eqv sub weak (l1.foldl (fun w s => next key eqv sub w s.1 s.2) w) s x := by
  intro l h
  induction h with
  | nil => exact ⟨rfl, fun l1 s x l2 h => by simp at h⟩
  | cons hs _ ih =>
    rename_i s0 o r s1 l s2 _
    obtain ⟨h1, h2⟩ := hs
    subst h1
    refine ⟨by rw [ih.1, List.foldl_cons], fun l1 s x l2 he => ?_⟩
    cases l1 with
    | nil =>
      simp only [List.nil_append, List.cons.injEq, Prod.mk.injEq] at he
      obtain ⟨⟨rfl, rfl⟩, -⟩ := he
      exact h2
    | cons y l1 =>
      simp only [List.cons_append, List.cons.injEq] at he
      obtain ⟨rfl, he⟩ := he
      exact ih.2 l1 s x l2 he

variable {plan : op → Plan (Atom α κ) (Ans α) (Ans α)} {w w' : Nat → List α} {H : List (Event op (Ans α))}
  {E E1 E2 : List (SEvent op (Atom α κ) (Ans α) (Ans α))} {t : Nat} {o : op} {r : Ans α}

/-- A step taken during a call answers for what the containers hold at that instant. -/
theorem step_answers (h : Stepwise plan (sem key eqv sub weak) w H E w') (hd : During E t o r E1 E2) {u : Nat} {s : Atom α κ}
    {x : Ans α} {F G} (hFG : E2 = F ++ .eff u s x :: G) :
    Answers key eqv sub weak (after key eqv sub w (E1 ++ F)) s x ∧
      after key eqv sub w (E1 ++ (F ++ [.eff u s x])) = next key eqv sub (after key eqv sub w (E1 ++ F)) s x := by
  obtain ⟨⟨E3, hE⟩, -⟩ := hd
  constructor
  · have := (legal_after h.legal).2 ((E1 ++ F).filterMap SEvent.step) s x ((G ++ .ret t r :: E3).filterMap SEvent.step) (by
      rw [hE, hFG]; simp [List.filterMap_append, List.filterMap_cons, SEvent.step])
    exact this
  · rw [← List.append_assoc, after_append]
    simp [after, SEvent.step]

theorem step_instant (h : Stepwise plan (sem key eqv sub weak) w H E w') (hd : During E t o r E1 E2) {u : Nat} {s : Atom α κ}
    {x : Ans α} (he : .eff u s x ∈ E2) :
    ∃ m, Instant key eqv sub w E1 E2 m ∧ Answers key eqv sub weak m s x ∧ Instant key eqv sub w E1 E2 (next key eqv sub m s x) := by
  obtain ⟨F, G, hFG⟩ := List.append_of_mem he
  obtain ⟨h1, h2⟩ := step_answers h hd hFG
  exact ⟨_, ⟨F, _, hFG, rfl⟩, h1, F ++ [.eff u s x], G, by simp [hFG], h2.symm⟩

/-! ## The steps of a traversal -/

/-- The steps that a traversal takes, up to the end or an exception. -/
inductive Walked (t : Nat) (f : Nat → List α → Atom α κ) (own : Bool) : Nat → Nat → List (α × α) →
    List (SEvent op (Atom α κ) (Ans α) (Ans α)) → List (α × α) → Bool → Prop
  | done {i ps} : Walked t f own 0 i ps [] ps false
  | threw {n i ps x} : x.threw = true → Walked t f own (n + 1) i ps [.eff t (f i (knows own ps)) x] (ps ++ x.pairs) true
  | next {n i ps x l qs b} : x.threw = false → Walked t f own n (i + 1) (ps ++ x.pairs) l qs b →
      Walked t f own (n + 1) i ps (.eff t (f i (knows own ps)) x :: l) qs b

theorem ret_path {r r' : Ans α} : ∀ {l : List (SEvent op (Atom α κ) (Ans α) (Ans α))}, (∀ e ∈ l, ∃ s x, e = .eff t s x) →
    SPhase.Path plan (.left (.ret r)) l (.left (.ret r')) → l = [] ∧ r = r' := by
  intro l hl h
  cases h with
  | nil => exact ⟨rfl, rfl⟩
  | cons hn _ =>
    obtain ⟨s, x, rfl⟩ := hl _ List.mem_cons_self
    cases hn

theorem walk_path {f : Nat → List α → Atom α κ} {own : Bool} :
    ∀ (l : List (SEvent op (Atom α κ) (Ans α) (Ans α))), (∀ e ∈ l, ∃ s x, e = .eff t s x) → ∀ n i ps,
    SPhase.Path plan (.left (walk f own n i ps)) l (.left (.ret r)) →
    ∃ qs b, r = .shown qs b ∧ Walked t f own n i ps l qs b := by
  intro l
  induction l with
  | nil =>
    intro _ n i ps h
    cases n with
    | zero => cases h; exact ⟨_, _, rfl, .done⟩
    | succ n => cases h
  | cons e l ih =>
    intro hl n i ps h
    obtain ⟨s, x, rfl⟩ := hl e List.mem_cons_self
    have hl' := fun e he => hl e (List.mem_cons_of_mem _ he)
    cases n with
    | zero => cases h with | cons hn h => cases hn
    | succ n =>
      cases h with
      | cons hn h =>
        cases hn with
        | eff =>
          dsimp only at h
          cases hx : x.threw with
          | true =>
            rw [hx, if_pos rfl] at h
            obtain ⟨rfl, rfl⟩ := ret_path hl' h
            exact ⟨_, _, rfl, .threw hx⟩
          | false =>
            rw [hx, if_neg (by simp)] at h
            obtain ⟨qs, b, h1, h2⟩ := ih hl' _ _ _ h
            exact ⟨qs, b, h1, .next hx h2⟩

/-! ## What a callback is shown -/

theorem tell_spec {run : List α → α → α × Bool} : ∀ (l before : List α),
    (tell run before l).1.map (·.1) <+: l ∧ ((tell run before l).2 = false → (tell run before l).1.map (·.1) = l) ∧
    ((tell run before l).2 = true → (tell run before l).1 ≠ []) ∧
    ∀ X a b Y, (tell run before l).1 = X ++ (a, b) :: Y → b = (run (before ++ X.map (·.1)) a).1 ∧
      ((run (before ++ X.map (·.1)) a).2 = true ↔ Y = [] ∧ (tell run before l).2 = true) := by
  intro l
  induction l with
  | nil => intro before; exact ⟨by simp [tell], fun _ => rfl, by simp [tell], fun X a b Y h => by simp [tell] at h⟩
  | cons a l ih =>
    intro before
    unfold tell
    split
    · rename_i ht
      refine ⟨by simp, by simp, by simp, fun X a' b Y h => ?_⟩
      cases X with
      | nil =>
        simp only [List.nil_append, List.cons.injEq, Prod.mk.injEq] at h
        obtain ⟨⟨rfl, rfl⟩, rfl⟩ := h
        simp [ht]
      | cons x X => simp at h
    · rename_i ht
      obtain ⟨h1, h2, h3, h4⟩ := ih (before ++ [a])
      refine ⟨by simpa using h1, fun h => by simpa using h2 h, by simp, fun X a' b Y h => ?_⟩
      cases X with
      | nil =>
        simp only [List.nil_append, List.cons.injEq, Prod.mk.injEq] at h
        obtain ⟨⟨rfl, rfl⟩, rfl⟩ := h
        refine ⟨by simp, ?_⟩
        simp only [List.map_nil, List.append_nil]
        exact ⟨fun h => absurd h ht, fun h => absurd h.1 (h3 h.2)⟩
      | cons x X =>
        simp only [List.cons_append, List.cons.injEq] at h
        obtain ⟨rfl, h⟩ := h
        have := h4 X a' b Y h
        simpa using this

theorem assigned_append {ps qs : List (α × α)} {a : α} :
    assigned key eqv (ps ++ qs) a = if (ps.find? fun p => eqv (key p.1) (key a)).isSome then assigned key eqv ps a else assigned key eqv qs a := by
  unfold assigned
  rw [List.find?_append]
  cases h : ps.find? fun p => eqv (key p.1) (key a) <;> simp

theorem assigned_none {ps : List (α × α)} {a : α} (h : ∀ p ∈ ps, eqv (key p.1) (key a) = false) : assigned key eqv ps a = a := by
  unfold assigned
  rw [List.find?_eq_none.2 (fun p hp => by simp [h p hp])]

theorem assigned_mem (hr : ∀ k, eqv k k = true) : ∀ {ps : List (α × α)}, (ps.map (·.1)).Pairwise (fun a b => eqv (key a) (key b) = false) →
    ∀ p ∈ ps, assigned key eqv ps p.1 = p.2 := by
  intro ps
  induction ps with
  | nil => intro _ p hp; simp at hp
  | cons q ps ih =>
    intro hd p hp
    obtain ⟨h1, h2⟩ := List.pairwise_cons.1 hd
    rcases List.mem_cons.1 hp with rfl | hp
    · exact assigned_cons_eq (hr _)
    · rw [assigned_cons_ne (h1 _ (List.mem_map_of_mem hp))]
      exact ih h2 p hp

/-- What holds of the pairs shown so far, when the next part is `i`. -/
structure Sofar (key : α → κ) (eqv : κ → κ → Bool) (sub : κ → Nat) (at_ : (Nat → List α) → Prop) (c : Nat) (cb : Cb α) (i : Nat)
    (ps : List (α × α)) : Prop where
  distinct : (ps.map (·.1)).Pairwise fun a b => eqv (key a) (key b) = false
  below : ∀ p ∈ ps, sub (key p.1) < i
  there : ∀ p ∈ ps, (∃ m, at_ m ∧ p.1 ∈ m c) ∧ ∃ m, at_ m ∧ p.2 ∈ m c
  served : ∀ X a b Y, ps = X ++ (a, b) :: Y → b = (cb.run (since key sub cb.own (X.map (·.1)) a) a).1 ∧
    (cb.run (since key sub cb.own (X.map (·.1)) a) a).2 = false
  all : ∀ a, (∀ m, at_ m → a ∈ m c) → sub (key a) < i → a ∈ ps.map (·.1)

/-- What holds at the end. -/
structure Atend (key : α → κ) (eqv : κ → κ → Bool) (sub : κ → Nat) (at_ : (Nat → List α) → Prop) (c : Nat) (cb : Cb α)
    (ps : List (α × α)) (b : Bool) : Prop where
  distinct : (ps.map (·.1)).Pairwise fun a b => eqv (key a) (key b) = false
  there : ∀ p ∈ ps, (∃ m, at_ m ∧ p.1 ∈ m c) ∧ ∃ m, at_ m ∧ p.2 ∈ m c
  served : Served key sub cb ps b
  all : b = false → ∀ a, (∀ m, at_ m → a ∈ m c) → a ∈ ps.map (·.1)

section
variable {at_ : (Nat → List α) → Prop} {c : Nat} {cb : Cb α}

theorem since_knows {i : Nat} {ps X : List (α × α)} {a : α} (hps : ∀ p ∈ ps, sub (key p.1) < i) (hX : ∀ p ∈ X, sub (key p.1) = i)
    (ha : sub (key a) = i) : since key sub cb.own ((ps ++ X).map (·.1)) a = knows cb.own ps ++ X.map (·.1) := by
  unfold since knows
  split
  · rw [List.map_append, List.filter_append]
    have e1 : (ps.map (·.1)).filter (fun b => sub (key b) == sub (key a)) = [] := by
      rw [List.filter_eq_nil_iff]
      intro b hb
      obtain ⟨p, hp, rfl⟩ := List.mem_map.1 hb
      have := hps p hp
      simp; omega
    have e2 : (X.map (·.1)).filter (fun b => sub (key b) == sub (key a)) = X.map (·.1) := by
      rw [List.filter_eq_self]
      intro b hb
      obtain ⟨p, hp, rfl⟩ := List.mem_map.1 hb
      have := hX p hp
      simp; omega
    rw [e1, e2]
  · simp

/-- One more part. -/
theorem Sofar.step {i : Nat} {ps : List (α × α)} (hs : Sofar key eqv sub at_ c cb i ps)
    (heq : ∀ k k', eqv k k' = true → sub k = sub k') {l : List α} {m : Nat → List α} (hm : at_ m)
    (hl : l.Perm (Share.inside key sub (m c) i)) (hd : l.Pairwise fun a b => eqv (key a) (key b) = false)
    (hnew : ∀ p ∈ (tell cb.run (knows cb.own ps) l).1, ∃ m, at_ m ∧ p.2 ∈ m c) :
    ((tell cb.run (knows cb.own ps) l).2 = false → Sofar key eqv sub at_ c cb (i + 1) (ps ++ (tell cb.run (knows cb.own ps) l).1)) ∧
    ((tell cb.run (knows cb.own ps) l).2 = true → Atend key eqv sub at_ c cb (ps ++ (tell cb.run (knows cb.own ps) l).1) true) := by
  obtain ⟨t1, t2, t3, t4⟩ := tell_spec (run := cb.run) l (knows cb.own ps)
  have hin : ∀ p ∈ (tell cb.run (knows cb.own ps) l).1, p.1 ∈ m c ∧ sub (key p.1) = i := fun p hp =>
    Share.mem_inside.1 (hl.mem_iff.1 (t1.subset (List.mem_map_of_mem hp)))
  have hdis : ((ps ++ (tell cb.run (knows cb.own ps) l).1).map (·.1)).Pairwise fun a b => eqv (key a) (key b) = false := by
    rw [List.map_append, List.pairwise_append]
    refine ⟨hs.distinct, hd.sublist t1.sublist, fun a ha b hb => ?_⟩
    obtain ⟨p, hp, rfl⟩ := List.mem_map.1 ha
    obtain ⟨q, hq, rfl⟩ := List.mem_map.1 hb
    have h1 := hs.below p hp
    have h2 := (hin q hq).2
    cases he : eqv (key p.1) (key q.1) with
    | false => rfl
    | true => have := heq _ _ he; omega
  have hth : ∀ p ∈ ps ++ (tell cb.run (knows cb.own ps) l).1, (∃ m, at_ m ∧ p.1 ∈ m c) ∧ ∃ m, at_ m ∧ p.2 ∈ m c := by
    intro p hp
    rcases List.mem_append.1 hp with hp | hp
    · exact hs.there p hp
    · exact ⟨⟨m, hm, (hin p hp).1⟩, hnew p hp⟩
  have hserved : ∀ X a b Y, ps ++ (tell cb.run (knows cb.own ps) l).1 = X ++ (a, b) :: Y →
      b = (cb.run (since key sub cb.own (X.map (·.1)) a) a).1 ∧
      ((cb.run (since key sub cb.own (X.map (·.1)) a) a).2 = true ↔ Y = [] ∧ (tell cb.run (knows cb.own ps) l).2 = true) := by
    intro X a b Y h
    rcases List.append_eq_append_iff.1 h with ⟨X', h1, h2⟩ | ⟨Y', h1, h2⟩
    · -- the element is in the new part
      subst h1
      have hX : ∀ p ∈ X', sub (key p.1) = i := fun p hp => (hin p (by rw [h2]; simp [hp])).2
      have ha : sub (key a) = i := (hin (a, b) (by rw [h2]; simp)).2
      rw [since_knows hs.below hX ha]
      exact t4 X' a b Y h2
    · -- in an earlier one
      cases Y' with
      | nil =>
        simp only [List.nil_append] at h2
        simp only [List.append_nil] at h1
        subst h1
        have ha : sub (key a) = i := (hin (a, b) (by rw [← h2]; simp)).2
        have := since_knows (cb := cb) (X := []) hs.below (by simp) ha
        rw [List.append_nil] at this
        rw [this]
        exact t4 [] a b Y h2.symm
      | cons y Y' =>
        simp only [List.cons_append, List.cons.injEq] at h2
        obtain ⟨rfl, h2⟩ := h2
        obtain ⟨e1, e2⟩ := hs.served X a b Y' h1
        refine ⟨e1, ⟨fun h => (by rw [e2] at h; cases h), fun ⟨h3, h4⟩ => ?_⟩⟩
        rw [h2] at h3
        exact absurd (List.append_eq_nil_iff.1 h3).2 (t3 h4)
  constructor
  · intro hf
    refine ⟨hdis, fun p hp => ?_, hth, fun X a b Y h => ?_, fun a ha hai => ?_⟩
    · rcases List.mem_append.1 hp with hp | hp
      · have := hs.below p hp; omega
      · have := (hin p hp).2; omega
    · obtain ⟨e1, e2⟩ := hserved X a b Y h
      refine ⟨e1, ?_⟩
      cases hx : (cb.run (since key sub cb.own (X.map (·.1)) a) a).2 with
      | false => rfl
      | true => have := (e2.1 hx).2; rw [hf] at this; cases this
    · rw [List.map_append, List.mem_append]
      by_cases hai' : sub (key a) < i
      · exact .inl (hs.all a ha hai')
      · right
        rw [t2 hf, hl.mem_iff]
        exact Share.mem_inside.2 ⟨ha m hm, by omega⟩
  · intro ht
    refine ⟨hdis, hth, ⟨fun _ h => ?_, fun X a b Y h => ?_⟩, fun h => by cases h⟩
    · exact t3 ht (List.append_eq_nil_iff.1 h).2
    · obtain ⟨e1, e2⟩ := hserved X a b Y h
      exact ⟨e1, by rw [e2, ht]⟩

/-- A whole traversal. -/
theorem Walked.atend {f : Nat → List α → Atom α κ} (heq : ∀ k k', eqv k k' = true → sub k = sub k') {N : Nat}
    (hsub : ∀ k, sub k < N) {F : List (SEvent op (Atom α κ) (Ans α) (Ans α))}
    (hF : ∀ i before x, .eff t (f i before) x ∈ F → ∃ m l, at_ m ∧ l.Perm (Share.inside key sub (m c) i) ∧
      l.Pairwise (fun a b => eqv (key a) (key b) = false) ∧ x = .shown (tell cb.run before l).1 (tell cb.run before l).2 ∧
      ∀ p ∈ (tell cb.run before l).1, ∃ m, at_ m ∧ p.2 ∈ m c) :
    ∀ {n i ps l qs b}, Walked t f cb.own n i ps l qs b → (∀ e ∈ l, e ∈ F) → i + n = N → Sofar key eqv sub at_ c cb i ps →
    Atend key eqv sub at_ c cb qs b := by
  intro n i ps l qs b hw
  induction hw with
  | done =>
    intro _ hN hs
    refine ⟨hs.distinct, hs.there, ⟨fun h => (by cases h), fun X a b Y h => ?_⟩, fun _ a ha => hs.all a ha ?_⟩
    · obtain ⟨e1, e2⟩ := hs.served X a b Y h
      exact ⟨e1, by rw [e2]; simp⟩
    · have := hsub (key a); omega
  | threw hx =>
    intro hl hN hs
    obtain ⟨m, ll, h1, h2, h3, h4, h5⟩ := hF _ _ _ (hl _ List.mem_cons_self)
    subst h4
    exact (hs.step heq h1 h2 h3 h5).2 hx
  | next hx _ ih =>
    intro hl hN hs
    obtain ⟨m, ll, h1, h2, h3, h4, h5⟩ := hF _ _ _ (hl _ List.mem_cons_self)
    subst h4
    exact ih (fun e he => hl e (List.mem_cons_of_mem _ he)) (by omega) ((hs.step heq h1 h2 h3 h5).1 hx)

end

/-- `for_each`. -/
theorem visit_end (h : Stepwise plan (sem key eqv sub weak) w H E w') (hd : During E t o r E1 E2) {n : Nat} (hsub : ∀ k, sub k < n)
    (heq : ∀ k k', eqv k k' = true → sub k = sub k') {c : Nat} {cb : Cb α} (hv : ∀ h a, (cb.run h a).1 = a)
    (ho : plan o = Walk.plan n (.visit c cb)) :
    ∃ ps b, r = .shown ps b ∧ Atend key eqv sub (Instant key eqv sub w E1 E2) c cb ps b := by
  obtain ⟨p, hp⟩ := h.threads t
  have hpath := during_path hd hp
  rw [ho] at hpath
  have hown : ∀ e ∈ E2.filter (fun e => e.tid == t), ∃ s x, e = .eff t s x := fun e he =>
    hd.own e (List.mem_filter.1 he).1 (by simpa using (List.mem_filter.1 he).2)
  obtain ⟨ps, b, hr, hw⟩ := walk_path _ hown _ _ _ hpath
  refine ⟨ps, b, hr, hw.atend (F := E2) heq hsub (fun i before x he => ?_) (fun e he => (List.mem_filter.1 he).1) (by omega)
    ⟨.nil, by simp, by simp, fun X a b Y h => (by simp at h), fun a _ h => (by omega)⟩⟩
  obtain ⟨m, h1, ⟨l, h2, h3, h4⟩, -⟩ := step_instant h hd he
  refine ⟨m, l, h1, h2, h3, h4, fun p hp => ⟨m, h1, ?_⟩⟩
  obtain ⟨t1, t2, t3, t4⟩ := tell_spec (run := cb.run) l before
  obtain ⟨X, Y, hXY⟩ := List.append_of_mem hp
  have := (t4 X p.1 p.2 Y hXY).1
  rw [this, hv]
  exact (Share.mem_inside.1 (h2.mem_iff.1 (t1.subset (List.mem_map_of_mem hp)))).1

/-- `for_each_m`. -/
theorem alter_end (h : Stepwise plan (sem key eqv sub weak) w H E w') (hd : During E t o r E1 E2) (hr : ∀ k, eqv k k = true) {n : Nat}
    (hsub : ∀ k, sub k < n) (heq : ∀ k k', eqv k k' = true → sub k = sub k') {c : Nat} {cb : Cb α}
    (ho : plan o = Walk.plan n (.alter c cb)) :
    ∃ ps b, r = .shown ps b ∧ Atend key eqv sub (Instant key eqv sub w E1 E2) c cb ps b := by
  obtain ⟨p, hp⟩ := h.threads t
  have hpath := during_path hd hp
  rw [ho] at hpath
  have hown : ∀ e ∈ E2.filter (fun e => e.tid == t), ∃ s x, e = .eff t s x := fun e he =>
    hd.own e (List.mem_filter.1 he).1 (by simpa using (List.mem_filter.1 he).2)
  obtain ⟨ps, b, hres, hw⟩ := walk_path _ hown _ _ _ hpath
  refine ⟨ps, b, hres, hw.atend (F := E2) heq hsub (fun i before x he => ?_) (fun e he => (List.mem_filter.1 he).1) (by omega)
    ⟨.nil, by simp, by simp, fun X a b Y h => (by simp at h), fun a _ h => (by omega)⟩⟩
  obtain ⟨m, h1, ⟨l, h2, h3, h4⟩, h5⟩ := step_instant h hd he
  refine ⟨m, l, h1, h2, h3, h4, fun p hp => ⟨_, h5, ?_⟩⟩
  obtain ⟨t1, t2, t3, t4⟩ := tell_spec (run := cb.run) l before
  subst h4
  simp only [next, Spec.put, if_true, Ans.pairs]
  refine List.mem_map.2 ⟨p.1, (Share.mem_inside.1 (h2.mem_iff.1 (t1.subset (List.mem_map_of_mem hp)))).1, ?_⟩
  exact assigned_mem hr (h3.sublist t1.sublist) p hp

/-- A call of one step. -/
theorem single_end (h : Stepwise plan (sem key eqv sub weak) w H E w') (hd : During E t o r E1 E2) {s : Atom α κ}
    {k : Ans α → Plan (Atom α κ) (Ans α) (Ans α)} (ho : plan o = .step s k) :
    ∃ x m, Instant key eqv sub w E1 E2 m ∧ Answers key eqv sub weak m s x ∧
      Instant key eqv sub w E1 E2 (next key eqv sub m s x) ∧ ∀ r', k x = .ret r' → r = r' := by
  obtain ⟨p, hp⟩ := h.threads t
  have hpath := during_path hd hp
  rw [ho] at hpath
  generalize hl : E2.filter (fun e => e.tid == t) = l at hpath
  cases hpath with
  | cons hn hr =>
    cases hn with
    | eff =>
      rename_i u x
      have he : SEvent.eff u s x ∈ E2 := (List.mem_filter.1 (hl ▸ List.mem_cons_self)).1
      obtain ⟨m, h1, h2, h3⟩ := step_instant h hd he
      refine ⟨x, m, h1, h2, h3, fun r' hr' => ?_⟩
      rw [hr'] at hr
      refine (ret_path (t := t) (fun e he => ?_) hr).2.symm
      have := List.mem_filter.1 (hl ▸ List.mem_cons_of_mem _ he : e ∈ E2.filter (fun e => e.tid == t))
      exact hd.own e this.1 (by simpa using this.2)

/-! ## A traversal without interference -/

theorem walked_alone {cb : Cb α} {c : Nat} (heq : ∀ k k', eqv k k' = true → sub k = sub k')
    (hv : ∀ h a, key (cb.run h a).1 = key a) {N : Nat} (hsub : ∀ k, sub k < N) {m0 : Nat → List α} :
    ∀ {n i ps l qs b}, Walked (op := op) t (fun i before => Atom.alter c i before cb.run) cb.own n i ps l qs b → i + n = N →
    ∀ m : Nat → List α, (∀ F u s x G, l = F ++ .eff u s x :: G → Answers key eqv sub weak (after key eqv sub m F) s x) →
    m c = (m0 c).map (assigned key eqv ps) → (∀ d, d ≠ c → m d = m0 d) →
    (∀ p ∈ ps, sub (key p.1) < i ∧ key p.2 = key p.1) → (∀ a ∈ m0 c, sub (key a) < i → a ∈ ps.map (·.1)) →
    after key eqv sub m l c = (m0 c).map (assigned key eqv qs) ∧ (∀ d, d ≠ c → after key eqv sub m l d = m0 d) ∧
      (b = false → ∀ a ∈ m0 c, a ∈ qs.map (·.1)) := by
  -- one step
  have key1 : ∀ (i : Nat) (ps : List (α × α)) (x : Ans α) (m : Nat → List α), Answers key eqv sub weak m (.alter c i (knows cb.own ps) cb.run) x →
      m c = (m0 c).map (assigned key eqv ps) → (∀ d, d ≠ c → m d = m0 d) →
      (∀ p ∈ ps, sub (key p.1) < i ∧ key p.2 = key p.1) → (∀ a ∈ m0 c, sub (key a) < i → a ∈ ps.map (·.1)) →
      ∀ m', m' = next key eqv sub m (.alter c i (knows cb.own ps) cb.run) x →
      m' c = (m0 c).map (assigned key eqv (ps ++ x.pairs)) ∧ (∀ d, d ≠ c → m' d = m0 d) ∧
      (∀ p ∈ ps ++ x.pairs, sub (key p.1) < i + 1 ∧ key p.2 = key p.1) ∧
      (x.threw = false → ∀ a ∈ m0 c, sub (key a) < i + 1 → a ∈ (ps ++ x.pairs).map (·.1)) := by
    rintro i ps x m ⟨l, h1, h2, rfl⟩ hm hd hp ha _ rfl
    obtain ⟨t1, t2, t3, t4⟩ := tell_spec (run := cb.run) l (knows cb.own ps)
    simp only [Ans.pairs, Ans.threw, next]
    have hin : ∀ p ∈ (tell cb.run (knows cb.own ps) l).1, sub (key p.1) = i ∧ key p.2 = key p.1 := by
      intro p hp
      refine ⟨(Share.mem_inside.1 (h1.mem_iff.1 (t1.subset (List.mem_map_of_mem hp)))).2, ?_⟩
      obtain ⟨X, Y, hXY⟩ := List.append_of_mem hp
      rw [(t4 X p.1 p.2 Y hXY).1, hv]
    have hcomp : ∀ a, assigned key eqv (tell cb.run (knows cb.own ps) l).1 (assigned key eqv ps a) =
        assigned key eqv (ps ++ (tell cb.run (knows cb.own ps) l).1) a := by
      intro a
      rw [assigned_append]
      cases hf : ps.find? fun p => eqv (key p.1) (key a) with
      | none =>
        rw [if_neg (by simp)]
        have : assigned key eqv ps a = a := by unfold assigned; rw [hf]
        rw [this]
      | some p =>
        rw [if_pos (by simp)]
        have hpm := hp p (List.mem_of_find?_eq_some hf)
        have e : assigned key eqv ps a = p.2 := by unfold assigned; rw [hf]
        rw [e]
        refine assigned_none fun q hq => ?_
        cases he : eqv (key q.1) (key p.2) with
        | false => rfl
        | true =>
          have e1 := heq _ _ he
          rw [hpm.2, (hin q hq).1] at e1
          omega
    refine ⟨?_, fun d hd' => ?_, fun p hp' => ?_, fun hf a ham hai => ?_⟩
    · simp only [Spec.put, if_true]
      rw [hm, List.map_map]
      apply List.map_congr_left
      intro a _
      exact hcomp a
    · simp only [Spec.put, if_neg hd']
      exact hd d hd'
    · rcases List.mem_append.1 hp' with hp' | hp'
      · have := hp p hp'; exact ⟨by omega, this.2⟩
      · have := hin p hp'; exact ⟨by omega, this.2⟩
    · rw [List.map_append, List.mem_append]
      by_cases hai' : sub (key a) < i
      · exact .inl (ha a ham hai')
      · right
        rw [t2 hf, h1.mem_iff]
        refine Share.mem_inside.2 ⟨?_, by omega⟩
        rw [hm]
        refine List.mem_map.2 ⟨a, ham, assigned_none fun p hpp => ?_⟩
        cases he : eqv (key p.1) (key a) with
        | false => rfl
        | true =>
          have e1 := heq _ _ he
          have := (hp p hpp).1
          omega
  intro n i ps l qs b hw
  induction hw with
  | done =>
    intro hN m _ hm hd hp ha
    refine ⟨hm, hd, fun _ a ham => ha a ham ?_⟩
    have := hsub (key a); omega
  | threw hx =>
    intro hN m hans hm hd hp ha
    have h1 := hans [] _ _ _ [] rfl
    obtain ⟨g1, g2, -, -⟩ := key1 _ _ _ m h1 hm hd hp ha _ rfl
    exact ⟨g1, g2, fun h => by cases h⟩
  | next hx _ ih =>
    rename_i n i ps x l qs b _
    intro hN m hans hm hd hp ha
    have h1 := hans [] _ _ _ l rfl
    obtain ⟨g1, g2, g3, g4⟩ := key1 _ _ _ m h1 hm hd hp ha _ rfl
    refine ih (by omega) _ (fun F u s y G hl => ?_) g1 g2 g3 (g4 hx)
    exact hans (.eff t (.alter c i (knows cb.own ps) cb.run) x :: F) u s y G (by rw [hl]; rfl)

/-- `for_each_m` while no other thread does anything. -/
theorem alter_alone (h : Stepwise plan (sem key eqv sub weak) w H E w') (hd : During E t o r E1 E2) {n : Nat}
    (hsub : ∀ k, sub k < n) (heq : ∀ k k', eqv k k' = true → sub k = sub k') {c : Nat} {cb : Cb α}
    (hv : ∀ h a, key (cb.run h a).1 = key a)
    (ho : plan o = Walk.plan n (.alter c cb)) (hq : ∀ e ∈ E2, e.tid = t) :
    ∃ ps b, r = .shown ps b ∧
      after key eqv sub w (E1 ++ E2) c = (after key eqv sub w E1 c).map (assigned key eqv ps) ∧
      (∀ d, d ≠ c → after key eqv sub w (E1 ++ E2) d = after key eqv sub w E1 d) ∧
      (b = false → ∀ a ∈ after key eqv sub w E1 c, a ∈ ps.map (·.1)) := by
  obtain ⟨p, hp⟩ := h.threads t
  have hpath := during_path hd hp
  rw [ho, List.filter_eq_self.2 (fun e he => by simp [hq e he])] at hpath
  obtain ⟨ps, b, hr, hw⟩ := walk_path E2 (fun e he => hd.own e he (hq e he)) _ _ _ hpath
  have hmap : (after key eqv sub w E1 c).map (assigned key eqv []) = after key eqv sub w E1 c := by
    conv_rhs => rw [← List.map_id (after key eqv sub w E1 c)]
    rfl
  have := walked_alone (weak := weak) (m0 := after key eqv sub w E1) heq hv hsub hw (by omega) (after key eqv sub w E1) (fun F u s x G hl => ?_)
    hmap.symm (fun _ _ => rfl) (by simp) (fun a _ h => (by omega))
  · rw [after_append]
    exact ⟨ps, b, hr, this⟩
  · have := (step_answers h hd hl).1
    rwa [after_append] at this

end

end Gtl.Spec.Walk
