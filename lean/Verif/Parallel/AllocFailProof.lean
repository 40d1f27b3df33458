import Mathlib.Data.List.Perm.Basic
import Verif.Parallel.AllocFail
/-!
# Parallel containers whose allocator may fail: lemmas
-/

namespace Gtl.Parallel

open Gtl.Swiss
open Gtl.Spec (Op POp PWOp Resp put Out)

variable {α κ : Type}

/-! ### Loops -/

theorem mapTried_spec {β : Type} {f : Nat → β → Res (Tried β β)} : ∀ (ts : List β) (R : Nat → β → Prop),
    (∀ (i : Nat) t, ts[i]? = some t → R i t) →
    (∀ (i : Nat) t, R i t → ∀ b, (∃ t' left, f b t = .ok (.done t' left) ∧ b ≤ left + 1 ∧ R i t') ∨
      (b = 0 ∧ ∃ t', f b t = .ok (.failed t') ∧ R i t')) → ∀ b,
    (∃ ts' left, mapTried f b ts = .ok (.done ts' left) ∧ b ≤ left + ts.length ∧ ts'.length = ts.length ∧
      ∀ (i : Nat) t, ts'[i]? = some t → R i t) ∨
    (b < ts.length ∧ ∃ ts', mapTried f b ts = .ok (.failed ts') ∧ ts'.length = ts.length ∧
      ∀ (i : Nat) t, ts'[i]? = some t → R i t) := by
  intro ts
  induction ts with
  | nil => intro R _ _ b; exact .inl ⟨[], b, rfl, by omega, rfl, fun i t h => by simp at h⟩
  | cons t ts ih =>
    intro R h0 hf b
    have cons_R : ∀ {t' : β} {ts' : List β}, R 0 t' → (∀ (i : Nat) t, ts'[i]? = some t → R (i + 1) t) →
        ∀ (i : Nat) t, (t' :: ts')[i]? = some t → R i t := by
      intro t' ts' h1 h2 i x hx
      cases i with
      | zero => simp only [List.getElem?_cons_zero, Option.some.injEq] at hx; subst hx; exact h1
      | succ i => exact h2 i x (by simpa using hx)
    have htl : ∀ (i : Nat) x, ts[i]? = some x → R (i + 1) x := fun i x hx => h0 (i + 1) x (by simpa using hx)
    unfold mapTried
    rcases hf 0 t (h0 0 t rfl) b with ⟨t', left, h1, h2, h3⟩ | ⟨hb, t', h1, h3⟩
    · rw [h1]
      simp only [Res.ok_bind]
      rcases ih (fun i => R (i + 1)) htl (fun i t ht => hf (i + 1) t ht) left with
        ⟨ts', left2, r1, r2, r3, r4⟩ | ⟨r0, ts', r1, r3, r4⟩
      · rw [r1]
        exact .inl ⟨t' :: ts', left2, rfl, by simp only [List.length_cons]; omega, by simp [r3], cons_R h3 r4⟩
      · rw [r1]
        exact .inr ⟨by simp only [List.length_cons]; omega, t' :: ts', rfl, by simp [r3], cons_R h3 r4⟩
    · rw [h1]
      exact .inr ⟨by simp only [List.length_cons]; omega, t' :: ts, rfl, rfl, cons_R h3 htl⟩

/-- What a loop over two arrays leaves: the submaps before `k` are done, `k` is as the exception left it, the others are
untouched. -/
theorem zipTried_spec {β : Type} {f : Nat → β → β → Res (Tried (β × β) (β × β))} : ∀ (ts us : List β)
    (D F : Nat → β × β → Prop), ts.length = us.length →
    (∀ (i : Nat) t u, ts[i]? = some t → us[i]? = some u → ∃ need : Nat, ∀ b,
      (∃ x left, f b t u = .ok (.done x left) ∧ b ≤ left + need ∧ D i x) ∨
      (b < need ∧ ∃ x, f b t u = .ok (.failed x) ∧ F i x)) →
    ∃ need : Nat, ∀ b,
    (∃ ts' us' left, zipTried f b ts us = .ok (.done (ts', us') left) ∧ b ≤ left + need ∧ ts'.length = ts.length ∧
      us'.length = ts.length ∧ ∀ (i : Nat) t u, ts'[i]? = some t → us'[i]? = some u → D i (t, u)) ∨
    (b < need ∧ ∃ ts' us' k, zipTried f b ts us = .ok (.failed (ts', us')) ∧ k < ts.length ∧ ts'.length = ts.length ∧
      us'.length = ts.length ∧ ∀ (i : Nat) t u, ts'[i]? = some t → us'[i]? = some u →
        (i < k → D i (t, u)) ∧ (i = k → F i (t, u)) ∧ (k < i → ts[i]? = some t ∧ us[i]? = some u)) := by
  intro ts
  induction ts with
  | nil =>
    intro us D F hl _
    cases us with
    | cons u us => simp at hl
    | nil =>
      exact ⟨0, fun b => .inl ⟨[], [], b, by unfold zipTried; rfl, by omega, rfl, rfl, fun i t u h => by simp at h⟩⟩
  | cons t ts ih =>
    intro us D F hl hf
    cases us with
    | nil => simp at hl
    | cons u us =>
      obtain ⟨n1, hn1⟩ := hf 0 t u rfl rfl
      obtain ⟨n2, hn2⟩ := ih us (fun i => D (i + 1)) (fun i => F (i + 1)) (by simpa using hl)
        (fun i x y hx hy => hf (i + 1) x y (by simpa using hx) (by simpa using hy))
      refine ⟨n1 + n2, fun b => ?_⟩
      unfold zipTried
      rcases hn1 b with ⟨⟨t', u'⟩, left, h1, h2, h3⟩ | ⟨h0, ⟨t', u'⟩, h1, h3⟩
      · rw [h1]
        simp only [Res.ok_bind]
        rcases hn2 left with ⟨ts', us', left2, r1, r2, r3, r4, r5⟩ | ⟨r0, ts', us', k, r1, r2, r3, r4, r5⟩
        · rw [r1]
          refine .inl ⟨t' :: ts', u' :: us', left2, rfl, by omega, by simp [r3], by simp [r4], ?_⟩
          intro i x y hx hy
          cases i with
          | zero =>
            simp only [List.getElem?_cons_zero, Option.some.injEq] at hx hy
            subst hx; subst hy; exact h3
          | succ i => exact r5 i x y (by simpa using hx) (by simpa using hy)
        · rw [r1]
          refine .inr ⟨by omega, t' :: ts', u' :: us', k + 1, rfl, by simp only [List.length_cons]; omega, by simp [r3],
            by simp [r4], ?_⟩
          intro i x y hx hy
          cases i with
          | zero =>
            simp only [List.getElem?_cons_zero, Option.some.injEq] at hx hy
            subst hx; subst hy
            exact ⟨fun _ => h3, fun h => by omega, fun h => by omega⟩
          | succ i =>
            obtain ⟨q1, q2, q3⟩ := r5 i x y (by simpa using hx) (by simpa using hy)
            exact ⟨fun h => q1 (by omega), fun h => q2 (by omega), fun h => by simpa using q3 (by omega)⟩
      · rw [h1]
        refine .inr ⟨by omega, t' :: ts, u' :: us, 0, rfl, by simp, rfl, by simpa using hl.symm, ?_⟩
        intro i x y hx hy
        cases i with
        | zero =>
          simp only [List.getElem?_cons_zero, Option.some.injEq] at hx hy
          subst hx; subst hy
          exact ⟨fun h => by omega, fun _ => h3, fun h => by omega⟩
        | succ i => exact ⟨fun h => by omega, fun h => by omega, fun _ => ⟨by simpa using hx, by simpa using hy⟩⟩

/-! ### Calls on one key -/

theorem withSubA_ok {P : PCfg α κ} {p : PTbl α} {l l' : List α} (h : PSim P p l) {β : Type} {i : Nat} (hi : i < 2 ^ P.N)
    {b : Nat} {fA : Tbl α → Res (Tried (Tbl α) (Tbl α × β))} {f : Tbl α → Res (Tbl α × β)} {r : β} {Q : Prop}
    (hA : ∀ t, Sim P.C t (part P l i) → Follows b t Q (fA t) (f t))
    (hf : ∀ t, Sim P.C t (part P l i) → ∃ t', f t = .ok (t', r) ∧ Sim P.C t' (part P l' i))
    (ho : ∀ j, j ≠ i → part P l' j = part P l j) :
    (∃ p' left, p.withSubA i fA = .ok (.done (p', r) left) ∧ b ≤ left + 1 ∧ PSim P p' l') ∨
    (b = 0 ∧ p.withSubA i fA = .ok (.failed p) ∧ Q) := by
  obtain ⟨t, h1, h2⟩ := h.get hi
  unfold PTbl.withSubA PTbl.sub
  rw [h1]
  simp only [Res.ofOption_some, Res.ok_bind]
  rcases hA t h2 with ⟨left, hl1, hl2, he⟩ | ⟨hb, he, hq⟩
  · obtain ⟨t', h3, h4⟩ := hf t h2
    refine .inl ⟨_, left, ?_, hl2, h.set h4 ho⟩
    rw [he, h3]; rfl
  · refine .inr ⟨hb, ?_, hq⟩
    rw [he]
    simp only [Res.ok_bind]
    have : p.sets.set i t = p.sets := by
      apply List.ext_getElem?
      intro j
      rw [List.getElem?_set]
      split
      · rename_i hij; subst hij
        split
        · exact h1.symm
        · rename_i hlt
          rw [List.getElem?_eq_none (by omega)]
      · rfl
    rw [this]

/-- The calls on one key that may allocate. -/
def adds : Op α κ → Bool
  | .insert _ | .insertOrAssign _ _ | .subscript _ _ | .toggle _ | .insertNode (some _) => true
  | _ => false

theorem keyedA_ok {P : PCfg α κ} (hC : CfgOk P.C) {p : PTbl α} {l : List α} (h : PSim P p l) (b : Nat) (op : Op α κ)
    (hv : op.Valid P.C.key) (ha : adds op = true) {k : κ} (hk : keyOf P op = some k) :
    (∃ p' left, p.withSubA (kidx P k) (fun t => t.stepA P.C b op) =
      .ok (.done (p', (Spec.step P.C.key P.C.eqv l op).2) left) ∧ b ≤ left + 1 ∧
      PSim P p' (Spec.step P.C.key P.C.eqv l op).1) ∨
    (b = 0 ∧ p.withSubA (kidx P k) (fun t => t.stepA P.C b op) = .ok (.failed p) ∧
      Spec.lookup P.C.key P.C.eqv l k = none) := by
  obtain ⟨e1, e2, e3⟩ := step_part hC l op hv hk
  refine withSubA_ok h (subidx_lt _ _) (f := fun t => t.step P.C op) ?_ ?_ e3
  · intro t ht
    have hr : op.isRange = false := by cases op <;> first | rfl | cases ha
    refine (stepA_follows (C := P.C) b t op hr).mono fun hq => ?_
    rw [← lookup_part hC]
    cases op <;> first
      | (cases hk; exact find_none_sim hC ht hq)
      | (obtain ⟨a, rfl, hq⟩ := hq; cases hk; exact find_none_sim hC ht hq)
      | cases ha
  · intro t ht
    obtain ⟨t', h1, h2⟩ := step_sim hC ht op hv
    exact ⟨t', h1.trans (congrArg (fun r => Res.ok (t', r)) e1), by rw [show subidx P.N (P.C.hash k) = kidx P k from rfl] at h2 ⊢; rw [← e2]; exact h2⟩

theorem emplaceLA_follows {P : PCfg α κ} (b : Nat) (t : Tbl α) (a : α) (f : α → α) :
    Follows b t (t.find P.C (P.C.key a) = .ok none) (PTbl.emplaceLA P b t a f) (do
      let (t, x, ins) ← PTbl.emplaceL P t a f
      .ok (t, Resp.ins x ins)) := by
  unfold PTbl.emplaceLA PTbl.emplaceL
  dsimp only
  rw [bind_assoc]
  refine .after _ fun o ho => ?_
  cases o with
  | some off =>
    dsimp only
    simp only [bind_assoc, Res.ok_bind]
    exact .plain b t _ _
  | none =>
    dsimp only
    have := ((prepareInsertA_follows (C := P.C) b t (P.C.hash (P.C.key a))).rest (fun (t, off) => do
      let t ← t.constructSlot off a
      let t ← t.setCtrl P.C.G.W off (H2 (P.C.hash (P.C.key a)))
      Res.ok (t, Resp.ins a true))).mono (fun _ => ho)
    simp only [bind_assoc, Res.ok_bind]
    exact this

theorem insertAllA_psim {P : PCfg α κ} (hC : CfgOk P.C) : ∀ (vs : List α) (b : Nat) (p : PTbl α) (l : List α), PSim P p l →
    (∃ p' left, PTbl.insertAllA P b p vs = .ok (.done p' left) ∧ PSim P p' (vs.foldl (Spec.insert P.C.key P.C.eqv) l)) ∨
    (b < vs.length ∧ ∃ p' before a after, PTbl.insertAllA P b p vs = .ok (.failed p') ∧ vs = before ++ a :: after ∧
      PSim P p' (before.foldl (Spec.insert P.C.key P.C.eqv) l) ∧
      Spec.lookup P.C.key P.C.eqv (before.foldl (Spec.insert P.C.key P.C.eqv) l) (P.C.key a) = none)
  | [], b, p, l, h => .inl ⟨p, b, rfl, h⟩
  | v :: vs, b, p, l, h => by
    have e : (Spec.step P.C.key P.C.eqv l (.insert v)).1 = Spec.insert P.C.key P.C.eqv l v := by
      unfold Spec.step Spec.insert
      dsimp only
      cases Spec.lookup P.C.key P.C.eqv l (P.C.key v) <;> rfl
    unfold PTbl.insertAllA
    rcases keyedA_ok hC h b (.insert v) trivial rfl rfl with ⟨p1, left, h1, h2, h3⟩ | ⟨hb, h1, h2⟩
    · unfold kidx at h1
      rw [h1]
      rw [e] at h3
      simp only [Res.ok_bind]
      rcases insertAllA_psim hC vs left p1 _ h3 with ⟨p2, left2, r1, r2⟩ | ⟨r0, p2, before, a, after, r1, r2, r3, r4⟩
      · exact .inl ⟨p2, left2, r1, r2⟩
      · exact .inr ⟨by simp only [List.length_cons]; omega, p2, v :: before, a, after, r1, by rw [r2]; rfl, r3, r4⟩
    · unfold kidx at h1
      rw [h1]
      exact .inr ⟨by simp only [List.length_cons]; omega, p, [], v, vs, rfl, rfl, h, h2⟩

/-! ### `rehash` and `reserve` -/

theorem rehashA_psim {P : PCfg α κ} (hC : CfgOk P.C) {p : PTbl α} {l : List α} (h : PSim P p l) {n : Nat}
    (hn : 2 ^ P.N ≤ n) (b : Nat) :
    (∃ p' left, p.rehashA P b n = .ok (.done p' left) ∧ PSim P p' l) ∨
    (b < 2 ^ P.N ∧ ∃ p', p.rehashA P b n = .ok (.failed p') ∧ PSim P p' l) := by
  have h0 : n / 2 ^ P.N ≠ 0 := by
    have := Nat.div_pos hn (Nat.two_pow_pos P.N)
    omega
  unfold PTbl.rehashA
  rcases mapTried_spec (f := fun b t => t.rehashA P.C b (n / 2 ^ P.N)) p.sets (fun i t => Sim P.C t (part P l i)) h.sim
    (fun i t ht b => by
      rcases rehashA_follows (C := P.C) b t (n / 2 ^ P.N) with ⟨left, _, hl, he⟩ | ⟨hb, he, _⟩
      · obtain ⟨t', g1, g2⟩ := step_sim hC ht (.rehash (n / 2 ^ P.N)) h0
        unfold Tbl.step at g1
        rw [Res.bind_eq_ok] at g1
        obtain ⟨t1, g3, g4⟩ := g1
        simp only [Res.ok.injEq, Prod.mk.injEq] at g4
        rw [← g4.1] at g2
        exact .inl ⟨t1, left, by rw [he, g3]; rfl, hl, g2⟩
      · exact .inr ⟨hb, t, he, ht⟩) b with ⟨ts', left, r1, _, r3, r4⟩ | ⟨r0, ts', r1, r3, r4⟩
  · rw [r1]
    exact .inl ⟨_, left, rfl, r3.trans h.len, r4⟩
  · rw [r1]
    rw [h.len] at r0
    exact .inr ⟨r0, _, rfl, r3.trans h.len, r4⟩

theorem reserveA_psim {P : PCfg α κ} (hC : CfgOk P.C) {p : PTbl α} {l : List α} (h : PSim P p l) (n b : Nat) :
    (∃ p' left, p.reserveA P b n = .ok (.done p' left) ∧ PSim P p' l) ∨
    (b < 2 ^ P.N ∧ ∃ p', p.reserveA P b n = .ok (.failed p') ∧ PSim P p' l) := by
  unfold PTbl.reserveA
  dsimp only
  have h1 : 2 ^ P.N ≤ 2 ^ P.N * normalizeCapacity (n / 2 ^ P.N) := Nat.le_mul_of_pos_right _ (normalizeCapacity_pos _)
  apply rehashA_psim hC h
  split <;> omega

/-! ### One container -/

/-- How many allocations a call on one container of `subs` submaps needs at most. -/
def pneed (subs : Nat) : POp α κ → Nat
  | .base (.insertRange vs) => vs.length
  | .base (.reserve _) | .base (.rehash _) => subs
  | _ => 1

/-- Does the call work on one key? -/
def oneKey : POp α κ → Bool
  | .base (.insertRange _) | .base (.reserve _) | .base (.rehash _) => false
  | _ => true

theorem pstepA_ok {P : PCfg α κ} (hC : CfgOk P.C) {p : PTbl α} {l : List α} (h : PSim P p l) (b : Nat) (op : POp α κ)
    (hv : op.Valid P.C.key (2 ^ P.N)) :
    (∃ p' left, p.pstepA P b op = .ok (.done (p', (Spec.pstep P.C.key P.C.eqv l op).2) left) ∧
      PSim P p' (Spec.pstep P.C.key P.C.eqv l op).1) ∨
    (b < pneed (2 ^ P.N) op ∧ ∃ p' l', p.pstepA P b op = .ok (.failed p') ∧ Spec.PFails P.C.key P.C.eqv l op l' ∧
      PSim P p' l' ∧ (oneKey op = true → p' = p)) := by
  have plain : ∀ op : POp α κ, op.Valid P.C.key (2 ^ P.N) → p.pstepA P b op = Res.plain b (p.pstep P op) →
      ∃ p' left, p.pstepA P b op = .ok (.done (p', (Spec.pstep P.C.key P.C.eqv l op).2) left) ∧
        PSim P p' (Spec.pstep P.C.key P.C.eqv l op).1 := by
    intro op hv he
    obtain ⟨p', h1, h2⟩ := pstep_sim hC h op hv
    exact ⟨p', b, by rw [he, h1]; rfl, h2⟩
  cases op with
  | base op =>
    cases op with
    | insert a =>
      rcases keyedA_ok hC h b (.insert a) hv rfl rfl with ⟨p', left, h1, _, h2⟩ | ⟨hb, h1, h2⟩
      · exact .inl ⟨p', left, h1, h2⟩
      · exact .inr ⟨by rw [hb]; exact Nat.one_pos, p, l, h1, ⟨h2, rfl⟩, h, fun _ => rfl⟩
    | insertOrAssign a f =>
      rcases keyedA_ok hC h b (.insertOrAssign a f) hv rfl rfl with ⟨p', left, h1, _, h2⟩ | ⟨hb, h1, h2⟩
      · exact .inl ⟨p', left, h1, h2⟩
      · exact .inr ⟨by rw [hb]; exact Nat.one_pos, p, l, h1, ⟨h2, rfl⟩, h, fun _ => rfl⟩
    | subscript a f =>
      rcases keyedA_ok hC h b (.subscript a f) hv rfl rfl with ⟨p', left, h1, _, h2⟩ | ⟨hb, h1, h2⟩
      · exact .inl ⟨p', left, h1, h2⟩
      · exact .inr ⟨by rw [hb]; exact Nat.one_pos, p, l, h1, ⟨h2, rfl⟩, h, fun _ => rfl⟩
    | toggle a =>
      rcases keyedA_ok hC h b (.toggle a) hv rfl rfl with ⟨p', left, h1, _, h2⟩ | ⟨hb, h1, h2⟩
      · exact .inl ⟨p', left, h1, h2⟩
      · exact .inr ⟨by rw [hb]; exact Nat.one_pos, p, l, h1, ⟨h2, rfl⟩, h, fun _ => rfl⟩
    | insertNode n =>
      cases n with
      | none => exact .inl (plain _ hv rfl)
      | some a =>
        rcases keyedA_ok hC h b (.insertNode (some a)) hv rfl rfl with ⟨p', left, h1, _, h2⟩ | ⟨hb, h1, h2⟩
        · exact .inl ⟨p', left, h1, h2⟩
        · exact .inr ⟨by rw [hb]; exact Nat.one_pos, p, l, h1, ⟨a, rfl, h2, rfl⟩, h, fun _ => rfl⟩
    | insertRange vs =>
      simp only [PTbl.pstepA]
      rcases insertAllA_psim hC vs b p l h with ⟨p', left, h1, h2⟩ | ⟨h0, p', before, a, after, h1, h2, h3, h4⟩
      · exact .inl ⟨p', left, by rw [h1]; rfl, h2⟩
      · exact .inr ⟨h0, p', _, by rw [h1]; rfl, ⟨before, a, after, h2, rfl, h4⟩, h3, fun h => by cases h⟩
    | reserve n =>
      simp only [PTbl.pstepA]
      rcases reserveA_psim hC h n b with ⟨p', left, h1, h2⟩ | ⟨h0, p', h1, h2⟩
      · exact .inl ⟨p', left, by rw [h1]; rfl, h2⟩
      · exact .inr ⟨h0, p', l, by rw [h1]; rfl, rfl, h2, fun h => by cases h⟩
    | rehash n =>
      simp only [PTbl.pstepA]
      rcases rehashA_psim hC h hv b with ⟨p', left, h1, h2⟩ | ⟨h0, p', h1, h2⟩
      · exact .inl ⟨p', left, by rw [h1]; rfl, h2⟩
      · exact .inr ⟨h0, p', l, by rw [h1]; rfl, rfl, h2, fun h => by cases h⟩
    | «at» k => exact .inl (plain _ hv rfl)
    | find k => exact .inl (plain _ hv rfl)
    | contains k => exact .inl (plain _ hv rfl)
    | count k => exact .inl (plain _ hv rfl)
    | erase k => exact .inl (plain _ hv rfl)
    | eraseIf k => exact .inl (plain _ hv rfl)
    | extract k => exact .inl (plain _ hv rfl)
    | size => exact .inl (plain _ hv rfl)
    | clear => exact .inl (plain _ hv rfl)
  | ifContains k => exact .inl (plain _ hv rfl)
  | modifyIf k f => exact .inl (plain _ hv rfl)
  | eraseIfKey k f => exact .inl (plain _ hv rfl)
  | forEachM f => exact .inl (plain _ hv rfl)
  | emplaceL a f =>
    have ho : ∀ j, j ≠ kidx P (P.C.key a) →
        part P (Spec.pstep P.C.key P.C.eqv l (.emplaceL a f)).1 j = part P l j := by
      intro j hj
      simp only [Spec.pstep]
      cases Spec.lookup P.C.key P.C.eqv l (P.C.key a) with
      | none => exact part_cons_other l hj
      | some b => exact modify_part_other hC l _ hv hj
    have key := withSubA_ok (l' := (Spec.pstep P.C.key P.C.eqv l (.emplaceL a f)).1)
      (r := (Spec.pstep P.C.key P.C.eqv l (.emplaceL a f)).2) (Q := Spec.lookup P.C.key P.C.eqv l (P.C.key a) = none)
      h (i := kidx P (P.C.key a)) (subidx_lt _ _) (b := b) (fA := fun t => PTbl.emplaceLA P b t a f)
      (f := fun t => do
        let (t, x, ins) ← PTbl.emplaceL P t a f
        .ok (t, Resp.ins x ins))
      (fun t ht => (emplaceLA_follows b t a f).mono fun hq => by
        rw [← lookup_part hC]; exact find_none_sim hC ht hq)
      (fun t ht => by
        have := emplaceL_sim hC ht a (f := f) hv
        rw [lookup_part hC] at this
        simp only [Spec.pstep]
        cases hl : Spec.lookup P.C.key P.C.eqv l (P.C.key a) with
        | none =>
          rw [hl] at this
          obtain ⟨t', r1, r2⟩ := this
          refine ⟨t', by rw [r1]; rfl, ?_⟩
          dsimp only
          have e : part P (a :: l) (kidx P (P.C.key a)) = a :: part P l (kidx P (P.C.key a)) := part_cons_same l a
          rw [e]
          exact r2
        | some b =>
          rw [hl] at this
          obtain ⟨t', r1, r2⟩ := this
          refine ⟨t', by rw [r1]; rfl, ?_⟩
          dsimp only
          rw [modify_part P l _ hv]
          exact r2) ho
    rcases key with ⟨p', left, h1, _, h2⟩ | ⟨hb, h1, h2⟩
    · exact .inl ⟨p', left, h1, h2⟩
    · exact .inr ⟨by rw [hb]; exact Nat.one_pos, p, l, h1, ⟨h2, rfl⟩, h, fun _ => rfl⟩

/-! ### Several containers -/

theorem createA_ok {P : PCfg α κ} (hC : CfgOk P.C) (b n : Nat) :
    (∃ p left, PTbl.createA P b n = .ok (.done p left) ∧ PSim P p []) ∨
    (b < 2 ^ P.N ∧ n ≠ 0 ∧ ∃ p, PTbl.createA P b n = .ok (.failed p) ∧ PSim P p []) := by
  have h := empty_psim (P := P) hC.group
  unfold PTbl.createA
  by_cases hn : n = 0
  · have key : ∀ (ts : List (Tbl α)), mapTried (PTbl.createSub P n) b ts = .ok (.done (ts.map fun _ => Tbl.empty) b) := by
      intro ts
      induction ts with
      | nil => rfl
      | cons t ts ih =>
        unfold mapTried PTbl.createSub
        have e : Tbl.withBucketsA P.C b n = .done Tbl.empty b := by unfold Tbl.withBucketsA; rw [if_pos hn]
        rw [e]
        dsimp only
        simp only [Res.ok_bind]
        have ih' := ih
        unfold PTbl.createSub at ih'
        rw [ih']; rfl
    rw [key]
    refine .inl ⟨_, b, rfl, by simp [PTbl.empty], fun i t ht => ?_⟩
    simp only [List.getElem?_map, Option.map_eq_some_iff] at ht
    obtain ⟨x, _, rfl⟩ := ht
    exact sim_empty hC.group
  · rcases mapTried_spec (f := PTbl.createSub P n) (PTbl.empty P).sets (fun i t => Sim P.C t (part P [] i)) h.sim
      (fun i t ht b => by
        unfold PTbl.createSub Tbl.withBucketsA
        rw [if_neg hn]
        cases b with
        | zero => exact .inr ⟨rfl, t, rfl, ht⟩
        | succ b =>
          obtain ⟨c, h1, h2⟩ := withBuckets_inv (C := P.C) hC.group n
          exact .inl ⟨_, b, rfl, by omega, ⟨c, h1⟩, by rw [h2]; exact List.Perm.refl _⟩) b with
      ⟨ts', left, r1, _, r3, r4⟩ | ⟨r0, ts', r1, r3, r4⟩
    · rw [r1]
      exact .inl ⟨_, left, rfl, r3.trans h.len, r4⟩
    · rw [r1]
      rw [h.len] at r0
      exact .inr ⟨r0, hn, _, rfl, r3.trans h.len, r4⟩

/-- Elements of the submaps before `k`. -/
def below (P : PCfg α κ) (k : Nat) (κ' : κ) : Bool := decide (kidx P κ' < k)

theorem part_below (P : PCfg α κ) (l m : List α) (k i : Nat) :
    part P (m.filter (fun a => below P k (P.C.key a)) ++ l.filter (fun a => !below P k (P.C.key a))) i =
      if i < k then part P m i else part P l i := by
  have e1 : ∀ (l : List α) (q : α → Bool), (∀ a, idx P a = i → q a = true) → part P (l.filter q) i = part P l i := by
    intro l q h
    rw [part_filter, List.filter_eq_self]
    exact fun a ha => h a (mem_part.1 ha).2
  have e2 : ∀ (l : List α) (q : α → Bool), (∀ a, idx P a = i → q a = false) → part P (l.filter q) i = [] := by
    intro l q h
    rw [part_filter, List.filter_eq_nil_iff]
    exact fun a ha => by rw [h a (mem_part.1 ha).2]; exact Bool.false_ne_true
  have hb : ∀ a, idx P a = i → below P k (P.C.key a) = decide (i < k) := by
    intro a ha
    unfold below
    have : kidx P (P.C.key a) = i := ha
    rw [this]
  rw [part_append]
  split
  · rename_i hlt
    rw [e1 m _ (fun a ha => by rw [hb a ha, decide_eq_true hlt]), e2 l _ (fun a ha => by rw [hb a ha, decide_eq_true hlt]; rfl),
      List.append_nil]
  · rename_i hlt
    rw [e2 m _ (fun a ha => by rw [hb a ha, decide_eq_false hlt]), e1 l _ (fun a ha => by rw [hb a ha, decide_eq_false hlt]; rfl),
      List.nil_append]

theorem copyAssignA_psim {P : PCfg α κ} (hC : CfgOk P.C) {p q : PTbl α} {l m : List α} (hp : PSim P p l) (hq : PSim P q m) :
    ∃ need : Nat, ∀ b,
    (∃ p' left, PTbl.copyAssignA P b p q = .ok (.done p' left) ∧ PSim P p' m) ∨
    (b < need ∧ ∃ p' k, PTbl.copyAssignA P b p q = .ok (.failed p') ∧
      PSim P p' (m.filter (fun a => below P k (P.C.key a)) ++ l.filter (fun a => !below P k (P.C.key a)))) := by
  obtain ⟨need, hN⟩ := zipTried_spec (f := PTbl.copySub P) p.sets q.sets (fun i x => Sim P.C x.1 (part P m i))
    (fun i x => Sim P.C x.1 (part P l i)) (hp.len.trans hq.len.symm) (fun i t u ht hu => by
      refine ⟨1, fun b => ?_⟩
      unfold PTbl.copySub Tbl.copyAssignA
      obtain ⟨d, hd⟩ := destroySlots_sim hC (hp.sim i t ht)
      obtain ⟨⟨c, hi⟩, hperm⟩ := hq.sim i u hu
      obtain ⟨t', c', g1, g2, g3, _⟩ := copy_spec hC hi
      rcases copyA_follows (C := P.C) b u with ⟨left, _, hl, he⟩ | ⟨hb, he, _⟩
      · refine .inl ⟨(t', u), left, ?_, hl, ⟨c', g2⟩, g3.trans hperm⟩
        rw [he, g1]
        simp only [Res.plain, Res.ok_bind, Tbl.swap, hd]
      · refine .inr ⟨by omega, (t, u), ?_, hp.sim i t ht⟩
        have e : (Tbl.empty : Tbl α).destroySlots = .ok Tbl.empty := rfl
        rw [he]
        simp only [Res.ok_bind, e])
  refine ⟨need, fun b => ?_⟩
  unfold PTbl.copyAssignA
  rcases hN b with ⟨ts', us', left, r1, _, r3, r4, r5⟩ | ⟨r0, ts', us', k, r1, _, r3, r4, r5⟩
  · rw [r1]
    refine .inl ⟨_, left, rfl, r3.trans hp.len, fun i t ht => ?_⟩
    replace ht : ts'[i]? = some t := ht
    obtain ⟨hi, _⟩ := List.getElem?_eq_some_iff.1 ht
    exact r5 i t us'[i] ht (List.getElem?_eq_getElem (by omega))
  · rw [r1]
    refine .inr ⟨r0, _, k, rfl, r3.trans hp.len, fun i t ht => ?_⟩
    replace ht : ts'[i]? = some t := ht
    obtain ⟨hi, _⟩ := List.getElem?_eq_some_iff.1 ht
    obtain ⟨q1, q2, q3⟩ := r5 i t us'[i] ht (List.getElem?_eq_getElem (by omega))
    rw [part_below]
    split
    · exact q1 (by assumption)
    · by_cases hk : i = k
      · exact q2 hk
      · exact hp.sim i t (q3 (by omega)).1

/-- One submap of `merge`. -/
theorem mergeA_sim {C : Cfg α κ} (hC : CfgOk C) {t u : Tbl α} {l m : List α} (ht : Sim C t l) (hu : Sim C u m) :
    ∃ need : Nat, ∀ b,
    (∃ t' u' left, t.mergeA C b u = .ok (.done (t', u') left) ∧ b ≤ left + need ∧
      Sim C t' (l ++ m.filter (fun a => !l.any (fun b => C.eqv (C.key b) (C.key a)))) ∧
      Sim C u' (m.filter (fun a => l.any (fun b => C.eqv (C.key b) (C.key a))))) ∨
    (b < need ∧ ∃ t' u' mv rs, t.mergeA C b u = .ok (.failed (t', u')) ∧ m.Perm (mv ++ rs) ∧
      (∀ a ∈ mv, Spec.lookup C.key C.eqv l (C.key a) = none) ∧ (∃ a ∈ rs, Spec.lookup C.key C.eqv l (C.key a) = none) ∧
      Sim C t' (l ++ mv) ∧ Sim C u' rs) := by
  obtain ⟨t', u', g1, g2, g3⟩ := merge_sim hC ht hu
  obtain ⟨⟨c, hi⟩, hp⟩ := id ht
  obtain ⟨⟨d, hj⟩, hq⟩ := id hu
  obtain ⟨q, b1, b2, b3, b4⟩ := begin_spec hC.group hj.core
  refine ⟨u.fuel, fun b => ?_⟩
  unfold Tbl.mergeA
  unfold Tbl.merge at g1
  rw [b1] at g1 ⊢
  simp only [Res.ok_bind] at g1 ⊢
  rcases mergeLoopA_ok hC u.fuel b t u c d q hi hj b2 (by unfold Tbl.fuel; omega) b4 with
    ⟨left, hl, r⟩ | ⟨r0, dst2, src2, cd2, cs2, moved, r1, r2, r3, r4, r5, r6, y, r7, r8⟩
  · exact .inl ⟨t', u', left, by rw [r, g1]; rfl, hl, g2, g3⟩
  · refine .inr ⟨r0, dst2, src2, moved, elems src2, r1, hq.symm.trans r4, ?_, ⟨y, r7, ?_⟩,
      ⟨⟨cd2, r2⟩, r5.trans (hp.append_right _)⟩, ⟨⟨cs2, r3⟩, List.Perm.refl _⟩⟩
    · exact fun a ha => lookup_none.2 fun x hx => r6 a ha x (hp.mem_iff.2 hx)
    · exact lookup_none.2 fun x hx => r8 x (hp.mem_iff.2 hx)

theorem part_flatMap {P : PCfg α κ} {g : Nat → List α} (n : Nat) (hg : ∀ i, i < n → ∀ a ∈ g i, idx P a = i) (i : Nat) :
    part P ((List.range n).flatMap g) i = if i < n then g i else [] := by
  induction n with
  | zero => rfl
  | succ n ih =>
    rw [List.range_succ, List.flatMap_append, part_append, ih (fun i hi => hg i (by omega)), List.flatMap_cons,
      List.flatMap_nil, List.append_nil]
    by_cases h : i = n
    · subst h
      rw [if_neg (by omega), if_pos (by omega), List.nil_append]
      unfold part
      rw [List.filter_eq_self]
      exact fun a ha => by rw [beq_iff_eq]; exact hg i (by omega) a ha
    · have : part P (g n) i = [] := by
        unfold part
        rw [List.filter_eq_nil_iff]
        intro a ha
        rw [beq_iff_eq, hg n (by omega) a ha]
        exact fun e => h e.symm
      rw [this, List.append_nil]
      by_cases h2 : i < n
      · rw [if_pos h2, if_pos (by omega)]
      · rw [if_neg h2, if_neg (by omega)]

theorem mergeA_psim {P : PCfg α κ} (hC : CfgOk P.C) {p q : PTbl α} {l m : List α} (hp : PSim P p l) (hq : PSim P q m) :
    ∃ need : Nat, ∀ b,
    (∃ p' q' left, PTbl.mergeA P b p q = .ok (.done (p', q') left) ∧
      PSim P p' (l ++ m.filter (fun a => !l.any (fun b => P.C.eqv (P.C.key b) (P.C.key a)))) ∧
      PSim P q' (m.filter (fun a => l.any (fun b => P.C.eqv (P.C.key b) (P.C.key a))))) ∨
    (b < need ∧ ∃ p' q' moved rest, PTbl.mergeA P b p q = .ok (.failed (p', q')) ∧ m.Perm (moved ++ rest) ∧
      (∀ a ∈ moved, Spec.lookup P.C.key P.C.eqv l (P.C.key a) = none) ∧
      (∃ a ∈ rest, Spec.lookup P.C.key P.C.eqv l (P.C.key a) = none) ∧
      PSim P p' (l ++ moved) ∧ PSim P q' rest) := by
  have hany : ∀ i, ∀ a ∈ part P m i, (part P l i).any (fun b => P.C.eqv (P.C.key b) (P.C.key a)) =
      l.any (fun b => P.C.eqv (P.C.key b) (P.C.key a)) := by
    intro i a ha
    have hi := (mem_part.1 ha).2
    subst hi
    exact any_part hC l (P.C.key a)
  have hlook : ∀ i, ∀ a, idx P a = i → Spec.lookup P.C.key P.C.eqv (part P l i) (P.C.key a) =
      Spec.lookup P.C.key P.C.eqv l (P.C.key a) := by
    intro i a ha
    subst ha
    exact lookup_part hC l (P.C.key a)
  -- what one submap looks like when the loop is left
  let G (i : Nat) (t u : Tbl α) (mv rs : List α) : Prop := (part P m i).Perm (mv ++ rs) ∧
    (∀ a ∈ mv, Spec.lookup P.C.key P.C.eqv l (P.C.key a) = none) ∧ Sim P.C t (part P l i ++ mv) ∧ Sim P.C u rs
  obtain ⟨need, hN⟩ := zipTried_spec (f := fun b t u => Tbl.mergeA P.C b t u) p.sets q.sets
    (fun i x => Sim P.C x.1 (part P (l ++ m.filter (fun a => !l.any (fun b => P.C.eqv (P.C.key b) (P.C.key a)))) i) ∧
      Sim P.C x.2 (part P (m.filter (fun a => l.any (fun b => P.C.eqv (P.C.key b) (P.C.key a)))) i))
    (fun i x => ∃ mv rs, G i x.1 x.2 mv rs ∧ ∃ a ∈ rs, Spec.lookup P.C.key P.C.eqv l (P.C.key a) = none)
    (hp.len.trans hq.len.symm) (fun i t u ht hu => by
      obtain ⟨need, hN⟩ := mergeA_sim hC (hp.sim i t ht) (hq.sim i u hu)
      refine ⟨need, fun b => ?_⟩
      rcases hN b with ⟨t', u', left, g1, g2, g3, g4⟩ | ⟨h0, t', u', mv, rs, g1, g2, g3, ⟨y, g4, g5⟩, g6, g7⟩
      · refine .inl ⟨(t', u'), left, g1, g2, ?_, ?_⟩
        · rw [part_append, part_filter]
          rw [List.filter_congr (fun a ha => by rw [hany i a ha])] at g3
          exact g3
        · rw [part_filter]
          rw [List.filter_congr (fun a ha => by rw [hany i a ha])] at g4
          exact g4
      · have hidx : ∀ a, a ∈ mv ++ rs → idx P a = i := fun a ha => (mem_part.1 (g2.mem_iff.2 ha)).2
        refine .inr ⟨h0, (t', u'), g1, mv, rs, ⟨g2, ?_, g6, g7⟩, y, g4, ?_⟩
        · exact fun a ha => by rw [← hlook i a (hidx a (List.mem_append_left _ ha))]; exact g3 a ha
        · rw [← hlook i y (hidx y (List.mem_append_right _ g4))]; exact g5)
  refine ⟨need, fun b => ?_⟩
  unfold PTbl.mergeA
  rcases hN b with ⟨ts', us', left, r1, _, r3, r4, r5⟩ | ⟨r0, ts', us', k, r1, hk, r3, r4, r5⟩
  · rw [r1]
    refine .inl ⟨_, _, left, rfl, ⟨r3.trans hp.len, fun i t ht => ?_⟩, ⟨r4.trans hp.len, fun i u hu => ?_⟩⟩
    · replace ht : ts'[i]? = some t := ht
      obtain ⟨hi, _⟩ := List.getElem?_eq_some_iff.1 ht
      exact (r5 i t us'[i] ht (List.getElem?_eq_getElem (by omega))).1
    · replace hu : us'[i]? = some u := hu
      obtain ⟨hi, _⟩ := List.getElem?_eq_some_iff.1 hu
      exact (r5 i ts'[i] u (List.getElem?_eq_getElem (by omega)) hu).2
  · rw [r1]
    have hlen := hp.len
    have each : ∀ i, ∃ mv rs, i < 2 ^ P.N → ∃ t u, ts'[i]? = some t ∧ us'[i]? = some u ∧ G i t u mv rs ∧
        (i = k → ∃ a ∈ rs, Spec.lookup P.C.key P.C.eqv l (P.C.key a) = none) := by
      intro i
      by_cases hi : i < 2 ^ P.N
      · have ht : ts'[i]? = some ts'[i] := List.getElem?_eq_getElem (by omega)
        have hu : us'[i]? = some us'[i] := List.getElem?_eq_getElem (by omega)
        obtain ⟨q1, q2, q3⟩ := r5 i _ _ ht hu
        rcases Nat.lt_trichotomy i k with hik | hik | hik
        · obtain ⟨s1, s2⟩ := q1 hik
          refine ⟨_, _, fun _ => ⟨_, _, ht, hu, ⟨?_, ?_, by rw [part_append] at s1; exact s1, s2⟩, fun h => by omega⟩⟩
          · rw [part_filter, part_filter]
            have := (List.filter_append_perm (fun a => !l.any (fun b => P.C.eqv (P.C.key b) (P.C.key a))) (part P m i)).symm
            simpa using this
          · intro a ha
            have := (List.mem_filter.1 (mem_part.1 ha).1).2
            rw [lookup_none]
            simpa using this
        · obtain ⟨mv, rs, s1, s2⟩ := q2 hik
          exact ⟨mv, rs, fun _ => ⟨_, _, ht, hu, s1, fun _ => s2⟩⟩
        · obtain ⟨s1, s2⟩ := q3 hik
          exact ⟨[], part P m i, fun _ => ⟨_, _, ht, hu, ⟨List.Perm.refl _, by simp, by
            rw [List.append_nil]; exact hp.sim i _ s1, hq.sim i _ s2⟩, fun h => by omega⟩⟩
      · exact ⟨[], [], fun h => absurd h hi⟩
    choose mv rs hG using each
    have hidx : ∀ i, i < 2 ^ P.N → ∀ a ∈ mv i ++ rs i, idx P a = i := by
      intro i hi a ha
      obtain ⟨t, u, _, _, g, _⟩ := hG i hi
      exact (mem_part.1 (g.1.mem_iff.2 ha)).2
    have hmv := fun i => part_flatMap (P := P) (g := mv) (2 ^ P.N) (fun i hi a ha => hidx i hi a (List.mem_append_left _ ha)) i
    have hrs := fun i => part_flatMap (P := P) (g := rs) (2 ^ P.N) (fun i hi a ha => hidx i hi a (List.mem_append_right _ ha)) i
    refine .inr ⟨r0, _, _, (List.range (2 ^ P.N)).flatMap mv, (List.range (2 ^ P.N)).flatMap rs, rfl, ?_, ?_, ?_,
      ⟨r3.trans hp.len, fun i t ht => ?_⟩, ⟨r4.trans hp.len, fun i u hu => ?_⟩⟩
    · refine (parts_perm P m).symm.trans (List.Perm.trans ?_ (List.flatMap_append_perm _ mv rs).symm)
      apply List.Perm.flatMap_left
      intro i hi
      obtain ⟨t, u, _, _, g, _⟩ := hG i (List.mem_range.1 hi)
      exact g.1
    · intro a ha
      obtain ⟨i, hi, ha⟩ := List.mem_flatMap.1 ha
      obtain ⟨t, u, _, _, g, _⟩ := hG i (List.mem_range.1 hi)
      exact g.2.1 a ha
    · obtain ⟨t, u, _, _, _, g⟩ := hG k (by omega)
      obtain ⟨a, ha, e⟩ := g rfl
      exact ⟨a, List.mem_flatMap.2 ⟨k, List.mem_range.2 (by omega), ha⟩, e⟩
    · replace ht : ts'[i]? = some t := ht
      obtain ⟨hi, _⟩ := List.getElem?_eq_some_iff.1 ht
      obtain ⟨t1, u1, e1, _, g, _⟩ := hG i (by omega)
      rw [ht] at e1
      cases e1
      rw [part_append, hmv, if_pos (by omega)]
      exact g.2.2.1
    · replace hu : us'[i]? = some u := hu
      obtain ⟨hi, _⟩ := List.getElem?_eq_some_iff.1 hu
      obtain ⟨t1, u1, _, e1, g, _⟩ := hG i (by omega)
      rw [hu] at e1
      cases e1
      rw [hrs, if_pos (by omega)]
      exact g.2.2.2

/-- One call on a family of containers. -/
theorem pwstepA_ok [BEq α] [LawfulBEq α] {P : PCfg α κ} (hC : CfgOk P.C) {w : Nat → PTbl α} {m : Nat → List α}
    (h : PWSim P w m) (op : PWOp α κ) (hv : op.Valid P.C.key (2 ^ P.N) (locks P)) : ∃ need : Nat, ∀ b,
    (∃ w' left, PTbl.wstepA P b w op = .ok (.done (w', (Spec.pwstep P.C.key P.C.eqv m op).2) left) ∧
      PWSim P w' (Spec.pwstep P.C.key P.C.eqv m op).1) ∨
    (b < need ∧ ∃ w' m', PTbl.wstepA P b w op = .ok (.failed w') ∧ Spec.PWFails P.C.key P.C.eqv m op m' ∧ PWSim P w' m') := by
  cases op with
  | on i op =>
    refine ⟨pneed (2 ^ P.N) op, fun b => ?_⟩
    rcases pstepA_ok hC (h i) b op hv with ⟨p', left, h1, h2⟩ | ⟨h0, p', l', h1, h2, h3, _⟩
    · refine .inl ⟨put w i p', left, ?_, h.put i h2⟩
      simp only [PTbl.wstepA, h1, Res.ok_bind]; rfl
    · refine .inr ⟨h0, put w i p', put m i l', ?_, ⟨l', h2, rfl⟩, h.put i h3⟩
      simp only [PTbl.wstepA, h1, Res.ok_bind]
  | create i n =>
    refine ⟨2 ^ P.N, fun b => ?_⟩
    rcases createA_ok hC b n with ⟨p, left, h1, h2⟩ | ⟨h0, hn, p, h1, h2⟩
    · obtain ⟨p', q', g1, g2, _⟩ := moveAssign_psim hC (h i) h2
      refine .inl ⟨put w i p', left, ?_, h.put i g2⟩
      simp only [PTbl.wstepA, h1, g1, Res.ok_bind]; rfl
    · obtain ⟨ts, g1, _⟩ := mapRes_spec (f := Tbl.destroySlots) p.sets (fun _ _ => True) (fun i t ht => by
        obtain ⟨d, hd⟩ := destroySlots_sim hC (h2.sim i t ht)
        exact ⟨d, hd, trivial⟩)
      refine .inr ⟨h0, w, m, ?_, ⟨hn, rfl⟩, h⟩
      simp only [PTbl.wstepA, h1, g1, Res.ok_bind]
  | copy i j =>
    obtain ⟨need, hN⟩ := copyAssignA_psim hC (h i) (h j)
    refine ⟨need, fun b => ?_⟩
    rcases hN b with ⟨p', left, h1, h2⟩ | ⟨h0, p', k, h1, h2⟩
    · refine .inl ⟨put w i p', left, ?_, h.put i h2⟩
      simp only [PTbl.wstepA, h1, Res.ok_bind]; rfl
    · refine .inr ⟨h0, put w i p', _, ?_, ⟨below P k, ?_, rfl⟩, h.put i h2⟩
      · simp only [PTbl.wstepA, h1, Res.ok_bind]
      · intro x y e
        unfold below kidx
        rw [hC.hash_congr _ _ e]
  | merge i j =>
    obtain ⟨need, hN⟩ := mergeA_psim hC (h i) (h j)
    refine ⟨need, fun b => ?_⟩
    have hij : ¬ i = j := hv
    rcases hN b with ⟨p', q', left, h1, h2, h3⟩ | ⟨h0, p', q', moved, rest, h1, h2, h3, h4, h5, h6⟩
    · refine .inl ⟨put (put w i p') j q', left, ?_, (h.put i h2).put j h3⟩
      simp only [PTbl.wstepA, if_neg hij, h1, Res.ok_bind]; rfl
    · refine .inr ⟨h0, put (put w i p') j q', _, ?_, ⟨moved, rest, h2, h3, h4, rfl⟩, (h.put i h5).put j h6⟩
      simp only [PTbl.wstepA, if_neg hij, h1, Res.ok_bind]
  | move i j =>
    obtain ⟨w', h1, h2⟩ := pwstep_sim hC h (.move i j) hv
    exact ⟨0, fun b => .inl ⟨w', b, by simp only [PTbl.wstepA, Res.plain, h1, Res.ok_bind], h2⟩⟩
  | swap i j =>
    obtain ⟨w', h1, h2⟩ := pwstep_sim hC h (.swap i j) hv
    exact ⟨0, fun b => .inl ⟨w', b, by simp only [PTbl.wstepA, Res.plain, h1, Res.ok_bind], h2⟩⟩
  | equal i j =>
    obtain ⟨w', h1, h2⟩ := pwstep_sim hC h (.equal i j) hv
    exact ⟨0, fun b => .inl ⟨w', b, by simp only [PTbl.wstepA, Res.plain, h1, Res.ok_bind], h2⟩⟩

/-- A whole history. -/
theorem pwrunA_ok [BEq α] [LawfulBEq α] {P : PCfg α κ} (hC : CfgOk P.C) : ∀ (calls : List (PWOp α κ × Nat))
    {w : Nat → PTbl α} {m : Nat → List α}, PWSim P w m → (∀ c ∈ calls, c.1.Valid P.C.key (2 ^ P.N) (locks P)) →
    ∃ w' os m', PTbl.wrunA P w calls = .ok (w', os) ∧ Spec.PWRunA P.C.key P.C.eqv m (calls.map Prod.fst) os m' ∧
      PWSim P w' m'
  | [], w, m, h, _ => ⟨w, [], m, rfl, rfl, h⟩
  | (op, b) :: calls, w, m, h, hv => by
    obtain ⟨N, hN⟩ := pwstepA_ok hC h op (hv _ List.mem_cons_self)
    rcases hN b with ⟨w1, left, h1, h2⟩ | ⟨_, w1, m1, h1, h2, h3⟩
    · obtain ⟨w2, os, m2, r1, r2, r3⟩ := pwrunA_ok hC calls h2 (fun c hc => hv c (List.mem_cons_of_mem _ hc))
      refine ⟨w2, .ok (Spec.pwstep P.C.key P.C.eqv m op).2 :: os, m2, ?_, ⟨_, ⟨rfl, rfl⟩, r2⟩, r3⟩
      unfold PTbl.wrunA
      simp only [h1, r1, Res.ok_bind]
    · obtain ⟨w2, os, m2, r1, r2, r3⟩ := pwrunA_ok hC calls h3 (fun c hc => hv c (List.mem_cons_of_mem _ hc))
      refine ⟨w2, .badAlloc :: os, m2, ?_, ⟨m1, h2, r2⟩, r3⟩
      unfold PTbl.wrunA
      simp only [h1, r1, Res.ok_bind]

end Gtl.Parallel
