import Verif.Spec.Share
import Verif.Conc.Container
import Mathlib.Data.List.Basic
import Mathlib.Data.List.Perm.Basic
import Mathlib.Data.List.Pairwise
/-!
# What a stepwise explanation says about a single call on a whole container
-/

namespace Gtl.Spec.Share

open Gtl.Spec

variable {α κ op st ρ' ρ : Type}

/-! ## Paths -/

theorem path_append {plan : op → Plan st ρ' ρ} : ∀ {l1 l2 : List (SEvent op st ρ' ρ)} {p r},
    SPhase.Path plan p (l1 ++ l2) r → ∃ q, SPhase.Path plan p l1 q ∧ SPhase.Path plan q l2 r
  | [], _, p, _, h => ⟨p, .nil, h⟩
  | _ :: _, _, _, _, .cons hn h => by
    obtain ⟨q, h1, h2⟩ := path_append h
    exact ⟨q, .cons hn h1, h2⟩

/-- The steps of a thread between call and return follow the plan of the call. -/
theorem during_path {plan : op → Plan (Atom α κ) (Ans α) (Ans α)} {E : List (SEvent op (Atom α κ) (Ans α) (Ans α))} {t o r E1 E2}
    (hd : During E t o r E1 E2) {p} (hp : SPhase.Path plan .idle (E.filter (fun e => e.tid == t)) p) :
    SPhase.Path plan (.left (plan o)) (E2.filter (fun e => e.tid == t)) (.left (.ret r)) := by
  obtain ⟨⟨E3, hE⟩, -⟩ := hd
  subst hE
  rw [List.filter_append, List.filter_cons, List.filter_append, List.filter_cons] at hp
  simp only [SEvent.tid, beq_self_eq_true, if_true] at hp
  obtain ⟨q, -, h2⟩ := path_append hp
  cases h2 with
  | cons hn h2 =>
    cases hn with
    | inv =>
      obtain ⟨q, h3, h4⟩ := path_append h2
      cases h4 with
      | cons hn h4 =>
        cases hn with
        | ret => exact h3

/-- All steps of a plan have a property. -/
inductive All (φ : st → Prop) : Plan st ρ' ρ → Prop
  | ret {r} : All φ (.ret r)
  | step {s k} : φ s → (∀ x, All φ (k x)) → All φ (.step s k)

theorem path_all {plan : op → Plan st ρ' ρ} {φ : st → Prop} (hφ : ∀ o, All φ (plan o)) :
    ∀ {l : List (SEvent op st ρ' ρ)} {p q : SPhase st ρ' ρ}, SPhase.Path plan p l q → (∀ x, p = .left x → All φ x) →
    ∀ s x, (s, x) ∈ l.filterMap SEvent.step → φ s
  | _, _, _, .nil, _ => by simp
  | _, _, _, .cons hn h, h0 => by
    intro s x hm
    cases hn with
    | inv => exact path_all hφ h (fun x hx => by cases hx; exact hφ _) s x hm
    | ret => exact path_all hφ h (fun x hx => by cases hx) s x hm
    | eff =>
      cases h0 _ rfl with
      | step h1 h2 =>
        simp only [List.filterMap_cons, SEvent.step, List.mem_cons, Prod.mk.injEq] at hm
        rcases hm with ⟨rfl, -⟩ | hm
        · exact h1
        · exact path_all hφ h (fun x hx => by cases hx; exact h2 _) s x hm

theorem stepwise_all {S : Type} {plan : op → Plan st ρ' ρ} {φ : st → Prop} (hφ : ∀ o, All φ (plan o)) {sem : S → st → S → ρ' → Prop}
    {s H E s'} (h : Stepwise plan sem s H E s') : ∀ a x, (a, x) ∈ E.filterMap SEvent.step → φ a := by
  intro a x hm
  obtain ⟨e, he, hs⟩ := List.mem_filterMap.1 hm
  obtain ⟨p, hp⟩ := h.threads e.tid
  refine path_all hφ hp (fun x hx => by cases hx) a x (List.mem_filterMap.2 ⟨e, ?_, hs⟩)
  exact List.mem_filter.2 ⟨he, by simp⟩

theorem sweep_all {φ : Atom α κ → Prop} {f : Nat → Atom α κ} {done : List (Ans α) → Ans α} (h : ∀ i, φ (f i)) :
    ∀ n i xs, All φ (sweep f done n i xs) := by
  intro n
  induction n with
  | zero => intro i xs; exact .ret
  | succ n ih => intro i xs; exact .step (h i) fun x => ih _ _

theorem compare_all {φ : Atom α κ → Prop} {c d : Nat} (h : ∀ i, φ (.equal c d i)) :
    ∀ n i, All φ (compare c d n i : Plan (Atom α κ) (Ans α) (Ans α)) := by
  intro n
  induction n with
  | zero => intro i; exact .ret
  | succ n ih =>
    intro i
    refine .step (h i) fun x => ?_
    split
    · exact ih _
    · exact .ret

/-! ## Instants -/

section
variable {key : α → κ} {eqv : κ → κ → Bool} {sub : κ → Nat} {weak : Bool}

theorem after_append (w : Nat → List α) (E F : List (SEvent op (Atom α κ) (Ans α) (Ans α))) :
    after key eqv sub w (E ++ F) = after key eqv sub (after key eqv sub w E) F := by
  unfold after
  rw [List.filterMap_append, List.foldl_append]

theorem legal_after {w w' : Nat → List α} : ∀ {l : List (Atom α κ × Ans α)}, Legal (sem key eqv sub weak) w l w' →
    w' = l.foldl (fun w s => next key eqv sub w s.1) w ∧
    ∀ l1 s x l2, l = l1 ++ (s, x) :: l2 → Answers key eqv sub weak (l1.foldl (fun w s => next key eqv sub w s.1) w) s x := by
  intro l h
  induction h with
  | nil => exact ⟨rfl, fun l1 s x l2 h => by simp at h⟩
  | cons hs _ ih =>
    rename_i s0 o r s1 l s2 _
    obtain ⟨h1, h2⟩ := hs
    subst h1
    refine ⟨by rw [ih.1, List.foldl_cons], fun l1 s x l2 he => ?_⟩
    cases l1 with
    | nil =>
      simp only [List.nil_append, List.cons.injEq, Prod.mk.injEq] at he
      obtain ⟨⟨rfl, rfl⟩, -⟩ := he
      exact h2
    | cons y l1 =>
      simp only [List.cons_append, List.cons.injEq] at he
      obtain ⟨rfl, he⟩ := he
      exact ih.2 l1 s x l2 he

variable {plan : op → Plan (Atom α κ) (Ans α) (Ans α)} {w w' : Nat → List α} {H : List (Event op (Ans α))}
  {E E1 E2 : List (SEvent op (Atom α κ) (Ans α) (Ans α))} {t : Nat} {o : op} {r : Ans α}

theorem stepwise_after (h : Stepwise plan (sem key eqv sub weak) w H E w') : w' = after key eqv sub w E := (legal_after h.legal).1

/-- A step taken during a call answers for some instant of the call, and what it leads to is an instant, too. -/
theorem step_instant (h : Stepwise plan (sem key eqv sub weak) w H E w') (hd : During E t o r E1 E2) {u : Nat} {s : Atom α κ}
    {x : Ans α} (he : .eff u s x ∈ E2) :
    ∃ m, Instant key eqv sub w E1 E2 m ∧ Answers key eqv sub weak m s x ∧ Instant key eqv sub w E1 E2 (next key eqv sub m s) := by
  obtain ⟨F, G, hFG⟩ := List.append_of_mem he
  obtain ⟨⟨E3, hE⟩, -⟩ := hd
  refine ⟨after key eqv sub w (E1 ++ F), ⟨F, _, hFG, rfl⟩, ?_, F ++ [.eff u s x], G, by simp [hFG], ?_⟩
  · have := (legal_after h.legal).2 ((E1 ++ F).filterMap SEvent.step) s x ((G ++ .ret t r :: E3).filterMap SEvent.step) (by
      rw [hE, hFG]; simp [List.filterMap_append, List.filterMap_cons, SEvent.step])
    exact this
  · rw [← List.append_assoc, after_append]
    simp [after, SEvent.step]

/-- The steps of a sweep. -/
theorem sweep_trace {f : Nat → Atom α κ} {done : List (Ans α) → Ans α} :
    ∀ (F : List (SEvent op (Atom α κ) (Ans α) (Ans α))), (∀ e ∈ F, e.tid = t → ∃ s x, e = .eff t s x) → ∀ n i xs,
    SPhase.Path plan (.left (sweep f done n i xs)) (F.filter (fun e => e.tid == t)) (.left (.ret r)) →
    ∃ ys : List (Ans α), ys.length = n ∧ r = done (xs ++ ys) ∧ ∀ (k : Nat) y, ys[k]? = some y → .eff t (f (i + k)) y ∈ F := by
  intro F
  induction F with
  | nil =>
    intro _ n i xs h
    cases n with
    | zero => cases h; exact ⟨[], rfl, by simp, fun k y hk => by simp at hk⟩
    | succ n => cases h
  | cons e F ih =>
    intro hown n i xs h
    rw [List.filter_cons] at h
    split at h
    · rename_i ht
      obtain ⟨s, x, rfl⟩ := hown e (by simp) (by simpa using ht)
      cases n with
      | zero => cases h with | cons hn h => cases hn
      | succ n =>
        cases h with
        | cons hn h =>
          cases hn with
          | eff =>
            obtain ⟨ys, h1, h2, h3⟩ := ih (fun e he => hown e (List.mem_cons_of_mem _ he)) _ _ _ h
            refine ⟨x :: ys, by simp [h1], by rw [h2]; simp, fun k y hk => ?_⟩
            cases k with
            | zero => simp only [List.getElem?_cons_zero, Option.some.injEq] at hk; subst hk; simp
            | succ k =>
              rw [List.getElem?_cons_succ] at hk
              have := h3 k y hk
              rw [show i + 1 + k = i + (k + 1) by omega] at this
              exact List.mem_cons_of_mem _ this
    · obtain ⟨ys, h1, h2, h3⟩ := ih (fun e he => hown e (List.mem_cons_of_mem _ he)) _ _ _ h
      exact ⟨ys, h1, h2, fun k y hk => List.mem_cons_of_mem _ (h3 k y hk)⟩

theorem compare_trace {c d : Nat} :
    ∀ (F : List (SEvent op (Atom α κ) (Ans α) (Ans α))), (∀ e ∈ F, e.tid = t → ∃ s x, e = .eff t s x) → ∀ n i,
    SPhase.Path plan (.left (compare c d n i)) (F.filter (fun e => e.tid == t)) (.left (.ret r)) →
    r = .one (.bool true) ∧ (∀ k, k < n → .eff t (.equal c d (i + k)) (.one (.bool true)) ∈ F) ∨
    r = .one (.bool false) ∧ ∃ k x, k < n ∧ .eff t (.equal c d (i + k)) x ∈ F ∧ x ≠ .one (.bool true) := by
  intro F
  induction F with
  | nil =>
    intro _ n i h
    cases n with
    | zero => cases h; exact .inl ⟨rfl, fun k hk => absurd hk (by omega)⟩
    | succ n => cases h
  | cons e F ih =>
    intro hown n i h
    have hown' := fun e he => hown e (List.mem_cons_of_mem _ he)
    rw [List.filter_cons] at h
    split at h
    · rename_i ht
      obtain ⟨s, x, rfl⟩ := hown e (by simp) (by simpa using ht)
      cases n with
      | zero => cases h with | cons hn h => cases hn
      | succ n =>
        cases h with
        | cons hn h =>
          cases hn with
          | eff =>
            by_cases hx : x = .one (.bool true)
            · subst hx
              rcases ih hown' _ _ h with ⟨h1, h2⟩ | ⟨h1, k, x, h2, h3, h4⟩
              · refine .inl ⟨h1, fun k hk => ?_⟩
                cases k with
                | zero => simp
                | succ k =>
                  have := h2 k (by omega)
                  rw [show i + 1 + k = i + (k + 1) by omega] at this
                  exact List.mem_cons_of_mem _ this
              · refine .inr ⟨h1, k + 1, x, by omega, ?_, h4⟩
                rw [show i + 1 + k = i + (k + 1) by omega] at h3
                exact List.mem_cons_of_mem _ h3
            · have hr : SPhase.Path plan (.left (.ret (.one (.bool false)))) (F.filter (fun e => e.tid == t)) (.left (.ret r)) := by
                cases x with
                | one y =>
                  cases y with
                  | bool b =>
                    cases b with
                    | false => exact h
                    | true => exact absurd rfl hx
                  | _ => exact h
                | _ => exact h
              have : r = .one (.bool false) := by
                generalize hl : F.filter (fun e => e.tid == t) = l at hr
                have hall : ∀ e ∈ l, ∃ s x, e = .eff t s x := by
                  intro e he
                  rw [← hl, List.mem_filter] at he
                  exact hown' e he.1 (by simpa using he.2)
                cases hr with
                | nil => rfl
                | cons hn _ =>
                  obtain ⟨s, x, rfl⟩ := hall _ (List.mem_cons_self)
                  cases hn
              exact .inr ⟨this, 0, x, by omega, by simp, hx⟩
    · rcases ih hown' _ _ h with ⟨h1, h2⟩ | ⟨h1, k, x, h2, h3, h4⟩
      · exact .inl ⟨h1, fun k hk => List.mem_cons_of_mem _ (h2 k hk)⟩
      · exact .inr ⟨h1, k, x, h2, List.mem_cons_of_mem _ h3, h4⟩

/-! ## The guarantees -/

theorem mem_inside {l : List α} {i : Nat} {a : α} : a ∈ inside key sub l i ↔ a ∈ l ∧ sub (key a) = i := by
  unfold inside; rw [List.mem_filter]; simp

variable {n : Nat} (h : Stepwise plan (sem key eqv sub weak) w H E w') (hd : During E t o r E1 E2)
include h hd

theorem seen_flatten : ∀ (ys : List (Ans α)) (ls : List (List α)), ys = ls.map .elems →
    seen ys = .elems ls.flatten := by
  intro ys ls hy
  subst hy
  unfold seen
  rw [List.flatMap_map]
  simp [List.flatMap_def]

/-- `for_each`. -/
theorem forEach_seen (hsub : ∀ k, sub k < n) (heq : ∀ k k', eqv k k' = true → sub k = sub k') {c : Nat}
    (ho : plan o = Share.plan n (.forEach c)) :
    ∃ L, r = .elems L ∧ L.Pairwise (fun a b => eqv (key a) (key b) = false) ∧
      (∀ a ∈ L, ∃ m, Instant key eqv sub w E1 E2 m ∧ a ∈ m c) ∧
      (∀ a, (∀ m, Instant key eqv sub w E1 E2 m → a ∈ m c) → a ∈ L) := by
  obtain ⟨p, hp⟩ := h.threads t
  have hpath := during_path hd hp
  rw [ho] at hpath
  obtain ⟨ys, h1, h2, h3⟩ := sweep_trace E2 hd.own _ _ _ hpath
  simp only [List.nil_append, Nat.zero_add] at h2 h3
  have hex : ∀ (k : Nat) y, ys[k]? = some y → ∃ l, y = .elems l ∧ l.Pairwise (fun a b => eqv (key a) (key b) = false) ∧
      ∃ m, Instant key eqv sub w E1 E2 m ∧ l.Perm (inside key sub (m c) k) := by
    intro k y hk
    obtain ⟨m, hm, ⟨l, h4, h5, h6⟩, -⟩ := step_instant h hd (h3 k y hk)
    exact ⟨l, h4, h6, m, hm, h5⟩
  have hls : ∃ ls : List (List α), ys = ls.map .elems := by
    have : ∀ y ∈ ys, ∃ l : List α, y = .elems l := by
      intro y hy
      obtain ⟨k, hk⟩ := List.getElem?_of_mem hy
      obtain ⟨l, h4, -⟩ := hex k y hk
      exact ⟨l, h4⟩
    clear hex h1 h2 h3
    induction ys with
    | nil => exact ⟨[], rfl⟩
    | cons y ys ih =>
      obtain ⟨ls, hl⟩ := ih fun y hy => this y (List.mem_cons_of_mem _ hy)
      obtain ⟨l, hy⟩ := this y (by simp)
      exact ⟨l :: ls, by rw [hl, hy]; rfl⟩
  obtain ⟨ls, hls⟩ := hls
  have hex' : ∀ (k : Nat) l, ls[k]? = some l → l.Pairwise (fun a b => eqv (key a) (key b) = false) ∧
      ∃ m, Instant key eqv sub w E1 E2 m ∧ l.Perm (inside key sub (m c) k) := by
    intro k l hk
    obtain ⟨l', h4, h5⟩ := hex k (.elems l) (by rw [hls, List.getElem?_map, hk]; rfl)
    cases h4; exact h5
  refine ⟨ls.flatten, by rw [h2]; exact seen_flatten h hd ys ls hls, ?_, fun a ha => ?_, fun a ha => ?_⟩
  · rw [List.pairwise_flatten]
    constructor
    · intro l hl
      obtain ⟨k, hk⟩ := List.getElem?_of_mem hl
      exact (hex' k l hk).1
    · rw [List.pairwise_iff_getElem]
      intro k j hk hj hkj a ha b hb
      obtain ⟨-, m, -, h4⟩ := hex' k _ (List.getElem?_eq_getElem hk)
      obtain ⟨-, m', -, h5⟩ := hex' j _ (List.getElem?_eq_getElem hj)
      have e1 := (mem_inside.1 (h4.mem_iff.1 ha)).2
      have e2 := (mem_inside.1 (h5.mem_iff.1 hb)).2
      cases he : eqv (key a) (key b) with
      | false => rfl
      | true => have := heq _ _ he; omega
  · obtain ⟨l, hl, hal⟩ := List.mem_flatten.1 ha
    obtain ⟨k, hk⟩ := List.getElem?_of_mem hl
    obtain ⟨-, m, hm, h4⟩ := hex' k l hk
    exact ⟨m, hm, (mem_inside.1 (h4.mem_iff.1 hal)).1⟩
  · have hlen : ls.length = n := by rw [← h1, hls, List.length_map]
    have hk : sub (key a) < ls.length := by rw [hlen]; exact hsub _
    obtain ⟨-, m, hm, h4⟩ := hex' _ _ (List.getElem?_eq_getElem hk)
    exact List.mem_flatten.2 ⟨_, List.getElem_mem hk, h4.mem_iff.2 (mem_inside.2 ⟨ha m hm, rfl⟩)⟩

omit h in
theorem sweep_events {f : Nat → Atom α κ} {done : List (Ans α) → Ans α} (ho : plan o = sweep f done n 0 [])
    {p} (hp : SPhase.Path plan .idle (E.filter (fun e => e.tid == t)) p) {i : Nat} (hi : i < n) :
    ∃ y, .eff t (f i) y ∈ E2 := by
  have hpath := during_path hd hp
  rw [ho] at hpath
  obtain ⟨ys, h1, h2, h3⟩ := sweep_trace E2 hd.own _ _ _ hpath
  have := h3 i (ys[i]'(by omega)) (List.getElem?_eq_getElem (by omega))
  rw [Nat.zero_add] at this
  exact ⟨_, this⟩

/-- `clear`. -/
theorem clear_gone (hsub : ∀ k, sub k < n) {c : Nat} (ho : plan o = Share.plan n (.clear c)) (a : α) :
    ∃ m, Instant key eqv sub w E1 E2 m ∧ a ∉ m c := by
  obtain ⟨p, hp⟩ := h.threads t
  obtain ⟨y, hy⟩ := sweep_events hd ho hp (hsub (key a))
  obtain ⟨m, -, -, hm⟩ := step_instant h hd hy
  refine ⟨_, hm, ?_⟩
  simp [next, put, outside]

/-- `for_each_m`. -/
theorem forEachM_changed (hsub : ∀ k, sub k < n) {c : Nat} {f : α → α} (hf : ∀ a, key (f a) = key a)
    (ho : plan o = Share.plan n (.forEachM c f)) (a : α) :
    (∃ m, Instant key eqv sub w E1 E2 m ∧ a ∉ m c) ∨ ∃ m b, Instant key eqv sub w E1 E2 m ∧ b ∈ m c ∧ a = f b := by
  obtain ⟨p, hp⟩ := h.threads t
  obtain ⟨y, hy⟩ := sweep_events hd ho hp (hsub (key a))
  obtain ⟨m, hm, -, hm'⟩ := step_instant h hd hy
  by_cases ha : a ∈ next key eqv sub m (.change c (sub (key a)) f) c
  · simp only [next, put, if_true, List.mem_map] at ha
    obtain ⟨b, hb, hba⟩ := ha
    split at hba
    · exact .inr ⟨m, b, hm, hb, hba.symm⟩
    · subst hba; rename_i hne; exact absurd rfl hne
  · exact .inl ⟨_, hm', ha⟩

/-- `merge`. -/
theorem merge_gone (hsub : ∀ k, sub k < n) {c d : Nat} (hcd : c ≠ d) (ho : plan o = Share.plan n (.merge c d)) (a : α) :
    (∃ m, Instant key eqv sub w E1 E2 m ∧ a ∉ m d) ∨ ∃ m, Instant key eqv sub w E1 E2 m ∧ has key eqv (m c) a = true := by
  obtain ⟨p, hp⟩ := h.threads t
  obtain ⟨y, hy⟩ := sweep_events hd ho hp (hsub (key a))
  obtain ⟨m, hm, -, hm'⟩ := step_instant h hd hy
  by_cases hh : has key eqv (m c) a = true
  · exact .inr ⟨m, hm, hh⟩
  · refine .inl ⟨_, hm', ?_⟩
    simp [next, put, hh]

/-- `==`. -/
theorem equal_says (hsub : ∀ k, sub k < n) {c d : Nat} (ho : plan o = Share.plan n (.equal c d)) :
    ∃ b, r = .one (.bool b) ∧ (b = false → ∃ m, Instant key eqv sub w E1 E2 m ∧ ¬ (m c).Perm (m d)) ∧
      (b = true → ∀ a, ∃ m, Instant key eqv sub w E1 E2 m ∧ (a ∈ m c ↔ a ∈ m d)) := by
  obtain ⟨p, hp⟩ := h.threads t
  have hpath := during_path hd hp
  rw [ho] at hpath
  rcases compare_trace E2 hd.own _ _ hpath with ⟨h1, h2⟩ | ⟨h1, k, x, h2, h3, h4⟩
  · refine ⟨true, h1, (fun h => absurd h (by simp)), fun _ a => ?_⟩
    obtain ⟨m, hm, ⟨b, h5, h6⟩, -⟩ := step_instant h hd (h2 _ (hsub (key a)))
    cases h5
    refine ⟨m, hm, ?_⟩
    have := (h6.1 rfl).mem_iff (a := a)
    rw [mem_inside, mem_inside, Nat.zero_add] at this
    simpa using this
  · refine ⟨false, h1, fun _ => ?_, fun h => absurd h (by simp)⟩
    obtain ⟨m, hm, ⟨b, h5, h6⟩, -⟩ := step_instant h hd h3
    refine ⟨m, hm, fun hp => ?_⟩
    apply h4
    have : b = true := h6.2 (hp.filter _)
    rw [h5, this]

end

/-! ## Conservation -/

/-- Nothing in, nothing out: calls and steps that only move elements between the containers below `n`. -/
def Moves (n : Nat) : Atom α κ → Prop
  | .on _ o => Conc.isConst o = true
  | .visit _ _ => True
  | .tidy _ _ => True
  | .merge c d _ => c ≠ d ∧ c < n ∧ d < n
  | .swap c d _ => c ≠ d ∧ c < n ∧ d < n
  | .equal _ _ _ => True
  | _ => False

section
variable {key : α → κ} {eqv : κ → κ → Bool} {sub : κ → Nat} {weak : Bool}

theorem put_two {w : Nat → List α} {c d n : Nat} (hcd : c ≠ d) (hc : c < n) (hd : d < n) {A B : List α}
    (h : (A ++ B).Perm (w c ++ w d)) :
    ((List.range n).flatMap (put (put w c A) d B)).Perm ((List.range n).flatMap w) := by
  have hn : (List.range n).Nodup := List.nodup_range
  have h1 : c ∈ List.range n := List.mem_range.2 hc
  have hp1 := List.perm_cons_erase h1
  have hn1 : (c :: (List.range n).erase c).Nodup := hp1.nodup_iff.1 hn
  have h2 : d ∈ (List.range n).erase c := (List.mem_erase_of_ne (Ne.symm hcd)).2 (List.mem_range.2 hd)
  have hp2 := List.perm_cons_erase h2
  have hp : (List.range n).Perm (c :: d :: ((List.range n).erase c).erase d) := hp1.trans (.cons _ hp2)
  have hn2 := hp.nodup_iff.1 hn
  generalize ((List.range n).erase c).erase d = rest at hp hn2
  simp only [List.nodup_cons, List.mem_cons, not_or] at hn2
  have e : rest.flatMap (put (put w c A) d B) = rest.flatMap w := by
    apply List.flatMap_congr
    intro x hx
    have h3 : x ≠ c := fun h => hn2.1.2 (h ▸ hx)
    have h4 : x ≠ d := fun h => hn2.2.1 (h ▸ hx)
    simp [put, h3, h4]
  refine (hp.flatMap_right _).trans (.trans ?_ (hp.flatMap_right _).symm)
  simp only [List.flatMap_cons, e]
  rw [← List.append_assoc, ← List.append_assoc]
  refine List.Perm.append_right _ ?_
  have : put (put w c A) d B c = A := by simp [put, hcd]
  rw [this]
  have : put (put w c A) d B d = B := by simp [put]
  rw [this]
  exact h

theorem filter_split (l : List α) (p : α → Bool) : (l.filter p ++ l.filter fun a => !p a).Perm l := by
  exact List.filter_append_perm p l

theorem next_moves {n : Nat} {w : Nat → List α} {s : Atom α κ} (hs : Moves n s) :
    ((List.range n).flatMap (next key eqv sub w s)).Perm ((List.range n).flatMap w) := by
  cases s with
  | on c o =>
    have : next key eqv sub w (.on c o) = w := by
      have : (pstep key eqv (w c) o).1 = w c := by
        cases o with
        | base op => cases op <;> first | rfl | cases hs
        | ifContains k => rfl
        | _ => cases hs
      simp only [next, this]
      funext x
      simp only [put]
      split
      · rename_i hx; rw [hx]
      · rfl
    rw [this]
  | visit c i => exact .refl _
  | tidy c i => exact .refl _
  | equal c d i => exact .refl _
  | merge c d i =>
    obtain ⟨h1, h2, h3⟩ := hs
    refine put_two h1 h2 h3 ?_
    rw [List.append_assoc]
    refine List.Perm.append_left _ ?_
    unfold inside
    rw [List.filter_filter]
    refine .trans ?_ (List.filter_append_perm (fun a => (!has key eqv (w c) a) && (sub (key a) == i)) (w d))
    refine List.Perm.append_left _ (.of_eq ?_)
    apply List.filter_congr
    intro a _
    cases has key eqv (w c) a <;> cases sub (key a) == i <;> rfl
  | swap c d i =>
    obtain ⟨h1, h2, h3⟩ := hs
    refine put_two h1 h2 h3 ?_
    have e1 : (inside key sub (w c) i ++ outside key sub (w c) i).Perm (w c) := List.filter_append_perm _ _
    have e2 : (inside key sub (w d) i ++ outside key sub (w d) i).Perm (w d) := List.filter_append_perm _ _
    refine .trans ?_ (e1.append e2)
    generalize inside key sub (w d) i = x
    generalize outside key sub (w d) i = y
    generalize inside key sub (w c) i = z
    generalize outside key sub (w c) i = u
    rw [List.append_assoc, List.append_assoc]
    refine .trans (List.Perm.append_left x (List.perm_append_comm_assoc u z y)) ?_
    refine .trans (List.perm_append_comm_assoc x z (u ++ y)) (List.Perm.append_left z ?_)
    exact List.perm_append_comm_assoc x u y
  | _ => cases hs

theorem legal_moves {n : Nat} {w w' : Nat → List α} {l : List (Atom α κ × Ans α)} (h : Legal (sem key eqv sub weak) w l w')
    (hl : ∀ s x, (s, x) ∈ l → Moves n s) : ((List.range n).flatMap w').Perm ((List.range n).flatMap w) := by
  induction h with
  | nil => exact .refl _
  | cons hs _ ih =>
    refine (ih fun s x hm => hl s x (List.mem_cons_of_mem _ hm)).trans ?_
    rw [hs.1]
    exact next_moves (hl _ _ (List.mem_cons_self))

end
end Gtl.Spec.Share
