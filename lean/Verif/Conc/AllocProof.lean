import Verif.Conc.Alloc
/-!
# Calls that run out of memory meet the specification
-/

namespace Gtl.Conc

open Gtl.Swiss Gtl.Parallel
open Gtl.Spec (Op POp Resp Event LEvent End CbOp MemOp Ended)

variable {α κ : Type}

/-- The specification as a relation. -/
def semM (P : PCfg α κ) {Q : MemOp α κ → Prop} (l : List α) (o : { o : MemOp α κ // Q o }) (l' : List α) (r : Ended (Resp α)) : Prop :=
  Spec.MemStep P.C.key P.C.eqv l o.1 l' r

/-- The specification of calls that do not run out of memory. -/
def semEnough (P : PCfg α κ) {Q : MemOp α κ → Prop} (l : List α) (o : { o : MemOp α κ // Q o }) (l' : List α) (r : Ended (Resp α)) : Prop :=
  l' = (Spec.cbStep P.C.key P.C.eqv l o.1.cb).1 ∧ r = .of (Spec.cbStep P.C.key P.C.eqv l o.1.cb).2

/-- With a shared mutex an `erase` that finds nothing may claim that it erased (C23). -/
def semMWeak (P : PCfg α κ) {Q : MemOp α κ → Prop} (l : List α) (o : { o : MemOp α κ // Q o }) (l' : List α) (r : Ended (Resp α)) : Prop :=
  semM P l o l' r ∨ ∃ k pr rep, eraseArgs o.1.cb.call = some (k, pr, rep) ∧ Spec.lookup P.C.key P.C.eqv l k = none ∧ l' = l ∧ r = .ret (rep 1)

theorem scopeM_sec {σ β ρ : Type} (i : Nat) (m : Mode) (b : Code σ (Ended β)) (k : β → Code σ (Ended ρ)) :
    Code.scopeM i m b k = .sec i m b (fun x => match x with | .ret y => k y | .threw => .ret .threw | .badAlloc => .ret .badAlloc) := by
  unfold Code.scopeM Code.sec
  congr 2
  funext x
  cases x <;> rfl

theorem code_bind_assoc {σ β γ δ : Type} (c : Code σ β) (f : β → Code σ γ) (g : γ → Code σ δ) :
    (c.bind f).bind g = c.bind fun x => (f x).bind g := by
  induction c with
  | ret => rfl
  | ub => rfl
  | act i w k ih => simp only [Code.bind, ih]
  | lock i m k ih => simp only [Code.bind, ih]
  | unlock i m k ih => simp only [Code.bind, ih]

/-- Answers may be renamed. -/
theorem Good.rename {op op' σ ρ ρ' S : Type} {Abs : (Nat → σ) → S → Prop} {sem : S → op → S → ρ → Prop}
    {sem' : S → op' → S → ρ' → Prop} {o : op} {o' : op'} (g : ρ → ρ') (hS : ∀ s s' r, sem s o s' r → sem' s o' s' (g r)) :
    ∀ {n : Nat} {c : Code σ ρ}, Good Abs sem o n c → Good Abs sem' o' n (c.bind fun r => .ret (g r)) := by
  intro n
  induction n with
  | zero => intro c h; exact h
  | succ n ih =>
    intro c h
    obtain ⟨β, i, m, b, k, hc, h1, h2, h3⟩ := h
    refine ⟨β, i, m, b, fun x => (k x).bind fun r => .ret (g r), ?_, h1, h2, fun A s hA => ?_⟩
    · rw [hc]
      simp only [Code.sec, Code.bind, code_bind_assoc]
    · obtain ⟨a', x, e1, e2⟩ := h3 A s hA
      refine ⟨a', x, e1, ?_⟩
      rcases e2 with ⟨r, s', e2, e3, e4⟩ | ⟨e2, e3⟩
      · exact .inl ⟨g r, s', by dsimp only; rw [e2]; rfl, hS _ _ _ e3, e4⟩
      · exact .inr ⟨e2, ih e3⟩

/-- An insertion with a budget. -/
theorem tried_abs {P : PCfg α κ} {A : Nat → Tbl α} {l : List α} (h : Abs P A l) {c : POp α κ} {th : α → Bool} {mem : Nat} {Q : Prop}
    {xA : Res (Tried (Tbl α) (Tbl α × Resp α))} {x : Res (Tbl α × Resp α)}
    (hf : Follows mem (A (submap P c)) Q xA x) (hQ : Q → Spec.Adds P.C.key P.C.eqv l c)
    (hx : ∃ t', x = .ok (t', (Spec.pstep P.C.key P.C.eqv l c).2) ∧ Abs P (upd A (submap P c) t') (Spec.pstep P.C.key P.C.eqv l c).1)
    (hn : Spec.cbElem P.C.key P.C.eqv l c = none) :
    ∃ t' l' r, tried xA = .ok (t', r) ∧ Spec.MemStep P.C.key P.C.eqv l ⟨⟨c, th⟩, mem⟩ l' r ∧ Abs P (upd A (submap P c) t') l' := by
  rcases hf with ⟨left, -, -, e⟩ | ⟨hb, e, hq⟩
  · obtain ⟨t', h1, h2⟩ := hx
    refine ⟨t', _, .ret (Spec.pstep P.C.key P.C.eqv l c).2, ?_, .inl ⟨rfl, ?_⟩, ?_⟩
    · rw [e, h1]; rfl
    · rw [shown_none (o := ⟨c, th⟩) hn]; rfl
    · rw [shown_none (o := ⟨c, th⟩) hn]; exact h2
  · refine ⟨_, l, .badAlloc, by rw [e]; rfl, .inr ⟨hb, hQ hq, rfl, rfl⟩, ?_⟩
    rw [upd_self]; exact h

theorem find_none_abs {P : PCfg α κ} (hC : CfgOk P.C) {A : Nat → Tbl α} {l : List α} (h : Abs P A l) {k : κ}
    (hf : (A (kidx P k)).find P.C k = .ok none) : Spec.lookup P.C.key P.C.eqv l k = none := by
  rcases find_abs hC h k with ⟨i, a, h1, -, -⟩ | ⟨-, h1⟩
  · rw [hf] at h1; cases h1
  · exact h1

theorem emplaceLM_abs {P : PCfg α κ} (hC : CfgOk P.C) {A : Nat → Tbl α} {l : List α} (h : Abs P A l) {a : α} {f : α → α}
    (th : α → Bool) (mem : Nat) (hv : (POp.emplaceL a f : POp α κ).Valid P.C.key (2 ^ P.N)) :
    ∃ t' l' r, emplaceLM P th mem (A (kidx P (P.C.key a))) a f = .ok (t', r) ∧
      Spec.MemStep P.C.key P.C.eqv l ⟨⟨.emplaceL a f, th⟩, mem⟩ l' r ∧ Abs P (upd A (kidx P (P.C.key a)) t') l' := by
  obtain ⟨t', h1, h2⟩ := emplaceLT_abs hC h th hv
  rcases find_abs hC h (P.C.key a) with ⟨i, b, hf, hr, hk⟩ | ⟨hf, hk⟩
  · refine ⟨t', _, _, ?_, .inl ⟨rfl, rfl⟩, h2⟩
    unfold Tbl.find at hf
    simp only [emplaceLT, hf, hr, Res.ok_bind, Res.bind_eq_ok] at h1
    obtain ⟨u, hu, h1⟩ := h1
    simp only [emplaceLM, hf, hr, Res.ok_bind, hu]
    by_cases ht : th b = true
    · rw [if_pos ht] at h1 ⊢
      cases h1' : (Spec.cbStep P.C.key P.C.eqv l ⟨.emplaceL a f, th⟩).2 with
      | ret r => rw [h1'] at h1; cases h1
      | threw => rw [h1'] at h1; cases h1; rfl
    · rw [if_neg ht] at h1 ⊢
      cases h1' : (Spec.cbStep P.C.key P.C.eqv l ⟨.emplaceL a f, th⟩).2 with
      | ret r => rw [h1'] at h1; cases h1; rfl
      | threw => rw [h1'] at h1; cases h1
  · have hf' := hf
    unfold Tbl.find at hf
    simp only [emplaceLT, hf, Res.ok_bind, Res.bind_eq_ok] at h1
    obtain ⟨⟨v, off⟩, hp, w, hw, x, hx, hq⟩ := h1
    dsimp only at hw hx
    rcases prepareInsertA_follows (C := P.C) mem (A (kidx P (P.C.key a))) (P.C.hash (P.C.key a)) with ⟨left, -, -, e⟩ | ⟨hb, e, -⟩
    · refine ⟨t', _, _, ?_, .inl ⟨rfl, rfl⟩, h2⟩
      simp only [emplaceLM, hf, Res.ok_bind, e, hp, Res.plain, hw, hx]
      simp only [Res.ok.injEq, Prod.mk.injEq] at hq
      rw [hq.1, ← hq.2]; rfl
    · refine ⟨_, l, .badAlloc, ?_, .inr ⟨hb, hk, rfl, rfl⟩, by rw [upd_self]; exact h⟩
      simp only [emplaceLM, hf, Res.ok_bind, e]

/-- Calls that do not allocate. -/
theorem plain_abs {P : PCfg α κ} (hC : CfgOk P.C) {A : Nat → Tbl α} {l : List α} (h : Abs P A l) {o : MemOp α κ}
    (hc : Concurrent o.cb.call) (hv : o.cb.call.Valid P.C.key (2 ^ P.N))
    (he : bodyM P o (A (submap P o.cb.call)) = (do let (t, r) ← bodyT P o.cb (A (submap P o.cb.call)); .ok (t, .of r))) :
    ∃ t' l' r, bodyM P o (A (submap P o.cb.call)) = .ok (t', r) ∧
      Spec.MemStep P.C.key P.C.eqv l o l' r ∧ Abs P (upd A (submap P o.cb.call) t') l' := by
  obtain ⟨t', h1, h2⟩ := bodyT_abs hC h hc hv
  exact ⟨t', _, _, by rw [he, h1]; rfl, .inl ⟨rfl, rfl⟩, h2⟩

/-- Executed alone, a section does what the specification says. -/
theorem bodyM_abs {P : PCfg α κ} (hC : CfgOk P.C) {A : Nat → Tbl α} {l : List α} (h : Abs P A l) {o : MemOp α κ}
    (hc : Concurrent o.cb.call) (hv : o.cb.call.Valid P.C.key (2 ^ P.N)) :
    ∃ t' l' r, bodyM P o (A (submap P o.cb.call)) = .ok (t', r) ∧
      Spec.MemStep P.C.key P.C.eqv l o l' r ∧ Abs P (upd A (submap P o.cb.call) t') l' := by
  obtain ⟨⟨c, th⟩, mem⟩ := o
  dsimp only at hc hv
  cases c with
  | base op =>
    cases op with
    | insert a =>
      exact tried_abs h (stepA_follows mem _ (.insert a) rfl) (fun hf => find_none_abs hC h hf)
        (body_abs hC h (o := .base (.insert a)) hc hv) rfl
    | insertOrAssign a f =>
      exact tried_abs h (stepA_follows mem _ (.insertOrAssign a f) rfl) (fun hf => find_none_abs hC h hf)
        (body_abs hC h (o := .base (.insertOrAssign a f)) hc hv) rfl
    | toggle a =>
      exact tried_abs h (stepA_follows mem _ (.toggle a) rfl) (fun hf => find_none_abs hC h hf)
        (body_abs hC h (o := .base (.toggle a)) hc hv) rfl
    | insertNode n =>
      cases n with
      | none => exact plain_abs hC h hc hv rfl
      | some a =>
        refine tried_abs h (stepA_follows mem _ (.insertNode (some a)) rfl) (fun hf => ?_)
          (body_abs hC h (o := .base (.insertNode (some a))) hc hv) rfl
        obtain ⟨b, hb, hf⟩ := hf
        cases hb
        exact find_none_abs hC h hf
    | contains | count | erase => exact plain_abs hC h hc hv rfl
    | subscript | «at» | find | eraseIf | extract | insertRange | size | clear | reserve | rehash => exact hc.elim
  | forEachM f => exact hc.elim
  | ifContains | modifyIf | eraseIfKey => exact plain_abs hC h hc hv rfl
  | emplaceL a f => exact emplaceLM_abs hC h th mem hv

theorem good_oneM {P : PCfg α κ} (hC : CfgOk P.C) {Q : MemOp α κ → Prop}
    (hQ : ∀ o, Q o → Concurrent o.cb.call ∧ o.cb.call.Valid P.C.key (2 ^ P.N)) {S : List α → {o // Q o} → List α → Ended (Resp α) → Prop}
    (hS : ∀ l o l' r, semM P l o l' r → S l o l' r) (o : {o // Q o}) {b : Code (Tbl α) (Ended (Resp α))}
    (hb : Does (submap P o.1.cb.call) (isConst o.1.cb.call) (bodyM P o.1) b) (n : Nat) :
    Good (Abs P) S o (n + 1) (.scopeM (submap P o.1.cb.call) (lockMode P o.1.cb.call) b (fun r => .ret (.ret r))) := by
  rw [scopeM_sec]
  refine ⟨Ended (Resp α), _, _, b, _, rfl, hb.1, fun hm => hb.2.1 (lockMode_const hm), fun A l h => ?_⟩
  obtain ⟨t', l', r, h1, h2, h3⟩ := bodyM_abs hC h (hQ o.1 o.2).1 (hQ o.1 o.2).2
  refine ⟨t', _, hb.2.2 _ _ h1, .inl ⟨r, l', ?_, hS _ _ _ _ h2, h3⟩⟩
  cases r <;> rfl

theorem good_exactM {P : PCfg α κ} (hC : CfgOk P.C) {Q : MemOp α κ → Prop}
    (hQ : ∀ o, Q o → Concurrent o.cb.call ∧ o.cb.call.Valid P.C.key (2 ^ P.N))
    (hm : P.mtx ≠ .shared ∨ ∀ o, Q o → ¬ Erases o.cb.call) {S : List α → {o // Q o} → List α → Ended (Resp α) → Prop}
    (hS : ∀ l o l' r, semM P l o l' r → S l o l' r) {code : {o // Q o} → Code (Tbl α) (Ended (Resp α))}
    (hcode : ∀ o, RunsM P o.1 (code o)) (o : {o // Q o}) : Good (Abs P) S o 2 (code o) := by
  have hr := hcode o
  unfold RunsM at hr
  split at hr
  · rename_i x hms he
    exfalso
    rcases hm with hm | hm
    · exact hm hms
    · have := hm o.1 o.2
      unfold eraseArgs at he
      split at he
      · rename_i ho; rw [ho] at this; exact this trivial
      · rename_i ho; rw [ho] at this; exact this trivial
      · cases he
  · obtain ⟨b, hb, hc⟩ := hr
    rw [hc]
    exact good_oneM hC hQ hS o hb 1

theorem good_weakM {P : PCfg α κ} (hC : CfgOk P.C) {Q : MemOp α κ → Prop}
    (hQ : ∀ o, Q o → Concurrent o.cb.call ∧ o.cb.call.Valid P.C.key (2 ^ P.N)) {code : {o // Q o} → Code (Tbl α) (Ended (Resp α))}
    (hcode : ∀ o, RunsM P o.1 (code o)) (o : {o // Q o}) : Good (Abs P) (semMWeak P) o 2 (code o) := by
  have hr := hcode o
  unfold RunsM at hr
  split at hr
  · obtain ⟨c', h1, hc⟩ := hr
    rw [hc]
    have hg := good_weakT hC (Q := fun c => c = o.1.cb) (fun c hc => by cases hc; exact hQ o.1 o.2)
      (code := fun _ => c') (fun c => by have := c.2; rw [this]; exact h1) ⟨o.1.cb, rfl⟩
    refine hg.rename Ended.of fun l l' r hr => ?_
    rcases hr with hr | ⟨k, pr, rep, e1, e2, e3, e4⟩
    · refine .inl (.inl ?_)
      unfold semT at hr
      rw [← hr]; exact ⟨rfl, rfl⟩
    · exact .inr ⟨k, pr, rep, e1, e2, e3, by rw [e4]; rfl⟩
  · obtain ⟨b, hb, hc⟩ := hr
    rw [hc]
    exact good_oneM hC hQ (fun _ _ _ _ h => .inl h) o hb 1

/-! ## The concrete cutting is one -/

theorem emplaceStepsM_does (P : PCfg α κ) (i : Nat) (th : α → Bool) (mem : Nat) (a : α) (f : α → α) :
    Does i false (fun t => emplaceLM P th mem t a f) (emplaceStepsM P i th mem a f) := by
  refine ⟨?_, (fun h => by cases h), fun t r h => ?_⟩
  · unfold emplaceStepsM
    refine look_body fun b => ?_
    cases b with
    | none =>
      refine prim_body fun b => ?_
      cases b with
      | none => trivial
      | some off => exact prim_body fun _ => prim_body fun _ => trivial
    | some off =>
      refine look_body fun a => prim_body fun _ => ?_
      by_cases ha : th a = true
      · rw [if_pos ha]; trivial
      · rw [if_neg ha]; trivial
  · simp only [emplaceLM] at h
    unfold emplaceStepsM
    apply look_solo
    rw [Res.bind_eq_ok] at h
    obtain ⟨o, h1, h2⟩ := h
    rw [h1, Res.ok_bind]
    cases o with
    | none =>
      dsimp only at h2 ⊢
      obtain ⟨x, h3, h2⟩ := Res.bind_eq_ok.1 h2
      apply prim_solo
      rw [h3]
      cases x with
      | failed t' => exact h2
      | done x left =>
        obtain ⟨t1, off⟩ := x
        dsimp only at h2
        obtain ⟨t2, h4, h2⟩ := Res.bind_eq_ok.1 h2
        obtain ⟨t3, h5, h2⟩ := Res.bind_eq_ok.1 h2
        simp only [Res.ok_bind]
        apply prim_solo
        simp only [h4, Res.ok_bind]
        apply prim_solo
        simp only [h5, Res.ok_bind]
        exact h2
    | some off =>
      dsimp only at h2 ⊢
      obtain ⟨b, h3, h2⟩ := Res.bind_eq_ok.1 h2
      obtain ⟨t', h4, h2⟩ := Res.bind_eq_ok.1 h2
      apply look_solo
      rw [h3, Res.ok_bind]
      apply prim_solo
      simp only [h4, Res.ok_bind]
      by_cases ha : th b = true
      · rw [if_pos ha] at h2 ⊢; exact h2
      · rw [if_neg ha] at h2 ⊢; exact h2

/-- Renaming the answers of a section. -/
theorem does_rename {i : Nat} {cst : Bool} {β γ : Type} {f : Tbl α → Res (Tbl α × β)} {b : Code (Tbl α) β} (g : β → γ) (h : Does i cst f b) :
    Does i cst (fun t => do let (t, r) ← f t; .ok (t, g r)) (b.bind fun r => .ret (g r)) := by
  refine ⟨bind_body (f := fun x => Code.ret (g x)) (fun _ => trivial) h.1, fun hm => bind_ro (f := fun x => Code.ret (g x)) (fun _ => trivial) h.1 (h.2.1 hm), fun s r hr => ?_⟩
  rw [bind_solo h.1]
  simp only [Res.bind_eq_ok] at hr
  obtain ⟨⟨s', x⟩, h1, h2⟩ := hr
  rw [h.2.2 _ _ h1]; exact h2

theorem wholeM_does (P : PCfg α κ) {o : MemOp α κ} (hc : Concurrent o.cb.call) (i : Nat) :
    Does i (isConst o.cb.call) (bodyM P o) (wholeM P i o) := by
  obtain ⟨⟨c, th⟩, mem⟩ := o
  dsimp only at hc
  cases c with
  | base op =>
    cases op with
    | contains k => exact does_rename Ended.of (wholeT_does P (o := ⟨.base (.contains k), th⟩) hc i)
    | count k => exact does_rename Ended.of (wholeT_does P (o := ⟨.base (.count k), th⟩) hc i)
    | erase k => exact does_rename Ended.of (wholeT_does P (o := ⟨.base (.erase k), th⟩) hc i)
    | insert | insertOrAssign | toggle | insertNode => exact primT_does
    | subscript | «at» | find | eraseIf | extract | insertRange | size | clear | reserve | rehash => exact hc.elim
  | ifContains k => exact does_rename Ended.of (wholeT_does P (o := ⟨.ifContains k, th⟩) hc i)
  | modifyIf k f => exact does_rename Ended.of (wholeT_does P (o := ⟨.modifyIf k f, th⟩) hc i)
  | eraseIfKey k pr => exact does_rename Ended.of (wholeT_does P (o := ⟨.eraseIfKey k pr, th⟩) hc i)
  | emplaceL a f => exact emplaceStepsM_does P i th mem a f
  | forEachM => exact hc.elim

theorem stepsM_runs (P : PCfg α κ) {o : MemOp α κ} (hc : Concurrent o.cb.call) : RunsM P o (stepsM P o) := by
  unfold RunsM stepsM
  split
  · exact ⟨_, stepsT_runs P hc, rfl⟩
  · rename_i hn
    refine ⟨_, wholeM_does P hc _, ?_⟩
    split
    · rename_i h1 h2
      exact (hn _ h1 h2).elim
    · rfl

end Gtl.Conc
