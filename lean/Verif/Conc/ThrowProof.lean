import Verif.Conc.Throw
import Verif.Conc.Refine
/-!
# Sections whose callbacks throw meet the specification
-/

namespace Gtl.Conc

open Gtl.Swiss Gtl.Parallel
open Gtl.Spec (Op POp Resp Event LEvent End CbOp)

variable {α κ : Type}

/-- The specification as a relation. -/
def semT (P : PCfg α κ) {Q : CbOp α κ → Prop} (l : List α) (o : { o : CbOp α κ // Q o }) (l' : List α) (r : End (Resp α)) : Prop :=
  (l', r) = Spec.cbStep P.C.key P.C.eqv l o.1

/-- With a shared mutex an `erase` that finds nothing may claim that it erased (C23). -/
def semTWeak (P : PCfg α κ) {Q : CbOp α κ → Prop} (l : List α) (o : { o : CbOp α κ // Q o }) (l' : List α) (r : End (Resp α)) : Prop :=
  semT P l o l' r ∨ ∃ k pr rep, eraseArgs o.1.call = some (k, pr, rep) ∧ Spec.lookup P.C.key P.C.eqv l k = none ∧ l' = l ∧ r = .ret (rep 1)

theorem scope_sec {σ β ρ : Type} (i : Nat) (m : Mode) (b : Code σ (End β)) (k : β → Code σ (End ρ)) :
    Code.scope i m b k = .sec i m b (fun x => match x with | .ret y => k y | .threw => .ret .threw) := by
  unfold Code.scope Code.sec
  congr 2
  funext x
  cases x <;> rfl

/-- `find` in related states, with the element found. -/
theorem find_abs {P : PCfg α κ} (hC : CfgOk P.C) {A : Nat → Tbl α} {l : List α} (h : Abs P A l) (k : κ) :
    (∃ i a, (A (kidx P k)).find P.C k = .ok (some i) ∧ (A (kidx P k)).readSlot i = .ok a ∧
      Spec.lookup P.C.key P.C.eqv l k = some a) ∨
    ((A (kidx P k)).find P.C k = .ok none ∧ Spec.lookup P.C.key P.C.eqv l k = none) := by
  have hk : kidx P k < 2 ^ P.N := subidx_lt _ _
  obtain ⟨t, h1, h2⟩ := h.get hk
  simp only [ofObjects, List.getElem?_map, List.getElem?_range hk, Option.map_some, Option.some.injEq] at h1
  subst h1
  have hl := lookup_part hC l k
  rcases find_sim hC h2 k with ⟨i, a, h1, h3, h4, h5, h6⟩ | ⟨h1, _, h3⟩
  · exact .inl ⟨i, a, h1, readSlot_ok' h3, by rw [← hl]; exact h6⟩
  · exact .inr ⟨h1, by rw [← hl]; exact h3⟩

theorem shown_none {P : PCfg α κ} {l : List α} {o : CbOp α κ} (h : Spec.cbElem P.C.key P.C.eqv l o.call = none) :
    Spec.cbStep P.C.key P.C.eqv l o = ((Spec.pstep P.C.key P.C.eqv l o.call).1, .ret (Spec.pstep P.C.key P.C.eqv l o.call).2) := by
  unfold Spec.cbStep; rw [h]; simp

theorem shown_some {P : PCfg α κ} {l : List α} {o : CbOp α κ} {a : α} (h : Spec.cbElem P.C.key P.C.eqv l o.call = some a) :
    Spec.cbStep P.C.key P.C.eqv l o = if o.throws a then (Spec.cbLeft P.C.key P.C.eqv l o.call, .threw) else
      ((Spec.pstep P.C.key P.C.eqv l o.call).1, .ret (Spec.pstep P.C.key P.C.eqv l o.call).2) := by
  unfold Spec.cbStep; rw [h]; simp

theorem modifyT_abs {P : PCfg α κ} (hC : CfgOk P.C) {A : Nat → Tbl α} {l : List α} (h : Abs P A l) {k : κ} {f : α → α}
    {c : POp α κ} (th : α → Bool) (hc : Concurrent c) (hv : c.Valid P.C.key (2 ^ P.N)) (hs : submap P c = kidx P k)
    (hb : ∀ t, body P c t = (do let (t, o) ← PTbl.modifyKeyIf P t k f; .ok (t, .elem o)))
    (hsh : Spec.cbElem P.C.key P.C.eqv l c = Spec.lookup P.C.key P.C.eqv l k)
    (hl : ∀ a, Spec.lookup P.C.key P.C.eqv l k = some a → Spec.cbLeft P.C.key P.C.eqv l c = (Spec.pstep P.C.key P.C.eqv l c).1) :
    ∃ t', modifyT P th (A (submap P c)) k f = .ok (t', (Spec.cbStep P.C.key P.C.eqv l ⟨c, th⟩).2) ∧
      Abs P (upd A (submap P c) t') (Spec.cbStep P.C.key P.C.eqv l ⟨c, th⟩).1 := by
  obtain ⟨t', h1, h2⟩ := body_abs hC h hc hv
  rw [hb] at h1
  rw [hs] at h1 h2 ⊢
  rcases find_abs hC h k with ⟨i, a, hf, hr, hk⟩ | ⟨hf, hk⟩
  · rw [shown_some (o := ⟨c, th⟩) (hsh.trans hk)]
    simp only [PTbl.modifyKeyIf, hf, hr, Res.ok_bind, Res.bind_eq_ok] at h1
    obtain ⟨⟨u, q⟩, ⟨v, hv, hq⟩, h1⟩ := h1
    cases hq
    simp only [Res.ok.injEq, Prod.mk.injEq] at h1
    obtain ⟨rfl, h1⟩ := h1
    simp only [modifyT, hf, hr, Res.ok_bind, hv]
    by_cases ht : th a = true
    · rw [if_pos ht, if_pos ht]; exact ⟨_, rfl, by rw [hl a hk]; exact h2⟩
    · rw [if_neg ht, if_neg ht]; exact ⟨_, by rw [← h1], h2⟩
  · rw [shown_none (o := ⟨c, th⟩) (hsh.trans hk)]
    simp only [PTbl.modifyKeyIf, hf, Res.ok_bind, Res.ok.injEq, Prod.mk.injEq] at h1
    obtain ⟨rfl, h1⟩ := h1
    simp only [modifyT, hf, Res.ok_bind]
    exact ⟨_, by rw [← h1], h2⟩

theorem emplaceLT_abs {P : PCfg α κ} (hC : CfgOk P.C) {A : Nat → Tbl α} {l : List α} (h : Abs P A l) {a : α} {f : α → α}
    (th : α → Bool) (hv : (POp.emplaceL a f : POp α κ).Valid P.C.key (2 ^ P.N)) :
    ∃ t', emplaceLT P th (A (kidx P (P.C.key a))) a f = .ok (t', (Spec.cbStep P.C.key P.C.eqv l ⟨.emplaceL a f, th⟩).2) ∧
      Abs P (upd A (kidx P (P.C.key a)) t') (Spec.cbStep P.C.key P.C.eqv l ⟨.emplaceL a f, th⟩).1 := by
  obtain ⟨t', h1, h2⟩ := body_abs hC h (o := .emplaceL a f) trivial hv
  have hs : submap P (.emplaceL a f) = kidx P (P.C.key a) := rfl
  rw [hs] at h1 h2
  simp only [body] at h1
  rcases find_abs hC h (P.C.key a) with ⟨i, b, hf, hr, hk⟩ | ⟨hf, hk⟩
  · rw [shown_some (o := ⟨.emplaceL a f, th⟩) hk]
    unfold Tbl.find at hf
    simp only [PTbl.emplaceL, hf, hr, Res.ok_bind, Res.bind_eq_ok] at h1
    obtain ⟨⟨u, q⟩, ⟨v, hv, hq⟩, h1⟩ := h1
    cases hq
    simp only [Res.ok.injEq, Prod.mk.injEq] at h1
    obtain ⟨rfl, h1⟩ := h1
    simp only [emplaceLT, hf, hr, Res.ok_bind, hv]
    by_cases ht : th b = true
    · rw [if_pos ht, if_pos ht]
      refine ⟨_, rfl, ?_⟩
      have : (Spec.pstep P.C.key P.C.eqv l (.emplaceL a f)).1 = Spec.cbLeft P.C.key P.C.eqv l (.emplaceL a f) := by
        simp only [Spec.pstep, hk, Spec.cbLeft]
      dsimp only
      rw [← this]; exact h2
    · rw [if_neg ht, if_neg ht]; exact ⟨_, by rw [← h1], h2⟩
  · rw [shown_none (o := ⟨.emplaceL a f, th⟩) hk]
    unfold Tbl.find at hf
    simp only [PTbl.emplaceL, hf, Res.ok_bind, Res.bind_eq_ok] at h1
    obtain ⟨⟨u, q⟩, ⟨⟨v, off⟩, hp, w, hw, x, hx, hq⟩, h1⟩ := h1
    cases hq
    simp only [Res.ok.injEq, Prod.mk.injEq] at h1
    obtain ⟨rfl, h1⟩ := h1
    dsimp only at hw
    simp only [emplaceLT, hf, hp, hw, hx, Res.ok_bind]
    exact ⟨_, by rw [← h1], h2⟩

/-- The last part of an erase, in a state in which the key is there or the answer for a missing key is 0. -/
theorem eraseAskT_abs {P : PCfg α κ} (hC : CfgOk P.C) {A : Nat → Tbl α} {l : List α} (h : Abs P A l) {o : CbOp α κ} {k pr rep}
    (he : eraseArgs o.call = some (k, pr, rep)) (hv : o.call.Valid P.C.key (2 ^ P.N)) (gone : Nat)
    (hg : gone = 0 ∨ Spec.lookup P.C.key P.C.eqv l k ≠ none) :
    ∃ t' r, eraseAskT P (eraseThrows o) k pr gone (A (submap P o.call)) = .ok (t', r) ∧
      (match r with | .ret n => End.ret (rep n) | .threw => .threw) = (Spec.cbStep P.C.key P.C.eqv l o).2 ∧
      Abs P (upd A (submap P o.call) t') (Spec.cbStep P.C.key P.C.eqv l o).1 := by
  obtain ⟨hsub, hbody⟩ := eraseArgs_body (P := P) he
  have hc : Concurrent o.call := by
    unfold eraseArgs at he; split at he
    · rename_i ho; rw [ho]; trivial
    · rename_i ho; rw [ho]; trivial
    · cases he
  obtain ⟨t', h1, h2⟩ := body_abs hC h hc hv
  rw [hbody] at h1
  rw [hsub] at h1 h2 ⊢
  rcases find_abs hC h k with ⟨i, a, hf, hr, hk⟩ | ⟨hf, hk⟩
  · by_cases ht : eraseThrows o a = true
    · refine ⟨A (kidx P k), .threw, ?_, ?_⟩
      · simp only [eraseAskT, hf, hr, Res.ok_bind, if_pos ht]
      · cases o with
        | mk c th =>
          unfold eraseArgs at he
          split at he
          · rename_i k' hcc
            dsimp only at hcc
            subst hcc
            cases ht
          · rename_i k' pr' hcc
            dsimp only at hcc
            subst hcc
            simp only [Option.some.injEq, Prod.mk.injEq] at he
            obtain ⟨rfl, rfl, rfl⟩ := he
            rw [shown_some (o := ⟨.eraseIfKey k' pr', th⟩) hk]
            dsimp only
            rw [if_pos (show th a = true from ht)]
            exact ⟨rfl, by rw [upd_self]; exact h⟩
          · cases he
    · have e : Spec.cbStep P.C.key P.C.eqv l o = ((Spec.pstep P.C.key P.C.eqv l o.call).1, .ret (Spec.pstep P.C.key P.C.eqv l o.call).2) := by
        cases o with
        | mk c th =>
          unfold eraseArgs at he
          split at he
          · rename_i k' hcc
            dsimp only at hcc
            subst hcc
            exact shown_none rfl
          · rename_i k' pr' hcc
            dsimp only at hcc
            subst hcc
            simp only [Option.some.injEq, Prod.mk.injEq] at he
            obtain ⟨rfl, rfl, rfl⟩ := he
            rw [shown_some (o := ⟨.eraseIfKey k' pr', th⟩) hk]
            exact if_neg ht
          · cases he
      rw [e]
      rw [eraseKeyIf_some hf] at h1
      simp only [eraseAgain, hf, hr, Res.ok_bind, Res.bind_eq_ok] at h1
      obtain ⟨⟨u, n⟩, h1, h3⟩ := h1
      simp only [Res.ok.injEq, Prod.mk.injEq] at h3
      obtain ⟨rfl, h3⟩ := h3
      refine ⟨u, .ret n, ?_, by dsimp only; rw [h3], h2⟩
      simp only [eraseAskT, hf, hr, Res.ok_bind, if_neg ht]
      by_cases hp : pr a = true
      · rw [if_pos hp] at h1 ⊢
        obtain ⟨v, hv, h1⟩ := Res.bind_eq_ok.1 h1
        cases h1
        rw [hv]; rfl
      · rw [if_neg hp] at h1 ⊢
        cases h1; rfl
  · have hg0 : gone = 0 := by
      rcases hg with hg | hg
      · exact hg
      · exact absurd hk hg
    subst hg0
    have e : Spec.cbStep P.C.key P.C.eqv l o = ((Spec.pstep P.C.key P.C.eqv l o.call).1, .ret (Spec.pstep P.C.key P.C.eqv l o.call).2) := by
      cases o with
      | mk c th =>
        unfold eraseArgs at he
        split at he
        · rename_i k' hcc
          dsimp only at hcc
          subst hcc
          exact shown_none rfl
        · rename_i k' pr' hcc
          dsimp only at hcc
          subst hcc
          simp only [Option.some.injEq, Prod.mk.injEq] at he
          obtain ⟨rfl, rfl, rfl⟩ := he
          exact shown_none (o := ⟨.eraseIfKey k' pr', th⟩) hk
        · cases he
    rw [e]
    rw [eraseKeyIf_none hf, Res.ok_bind] at h1
    simp only [Res.ok.injEq, Prod.mk.injEq] at h1
    obtain ⟨rfl, h1⟩ := h1
    refine ⟨_, .ret 0, ?_, by dsimp only; rw [h1], h2⟩
    simp only [eraseAskT, hf, Res.ok_bind]

/-- Executed alone, a section does what the specification says. -/
theorem bodyT_abs {P : PCfg α κ} (hC : CfgOk P.C) {A : Nat → Tbl α} {l : List α} (h : Abs P A l) {o : CbOp α κ}
    (hc : Concurrent o.call) (hv : o.call.Valid P.C.key (2 ^ P.N)) :
    ∃ t', bodyT P o (A (submap P o.call)) = .ok (t', (Spec.cbStep P.C.key P.C.eqv l o).2) ∧
      Abs P (upd A (submap P o.call) t') (Spec.cbStep P.C.key P.C.eqv l o).1 := by
  cases o with
  | mk c th =>
    dsimp only at hc hv ⊢
    cases c with
    | base b =>
      obtain ⟨t', h1, h2⟩ := body_abs hC h hc hv
      rw [shown_none rfl]
      exact ⟨t', by simp only [bodyT, h1, Res.ok_bind], h2⟩
    | forEachM f => exact hc.elim
    | ifContains k =>
      exact modifyT_abs hC h th hc hv rfl (fun _ => rfl) rfl (fun _ _ => rfl)
    | modifyIf k f =>
      exact modifyT_abs hC h th hc hv rfl (fun _ => rfl) rfl (fun _ _ => rfl)
    | emplaceL a f => exact emplaceLT_abs hC h th hv
    | eraseIfKey k pr =>
      obtain ⟨t', r, h1, h2, h3⟩ := eraseAskT_abs (o := ⟨.eraseIfKey k pr, th⟩) hC h rfl hv 0 (.inl rfl)
      refine ⟨t', ?_, h3⟩
      have h1' : eraseAskT P th k pr 0 (A (submap P (.eraseIfKey k pr))) = .ok (t', r) := h1
      simp only [bodyT, h1', Res.ok_bind, ← h2]
      cases r <;> rfl

theorem good_oneT {P : PCfg α κ} (hC : CfgOk P.C) {Q : CbOp α κ → Prop}
    (hQ : ∀ o, Q o → Concurrent o.call ∧ o.call.Valid P.C.key (2 ^ P.N)) {S : List α → {o // Q o} → List α → End (Resp α) → Prop}
    (hS : ∀ l o l' r, semT P l o l' r → S l o l' r) (o : {o // Q o}) {b : Code (Tbl α) (End (Resp α))}
    (hb : Does (submap P o.1.call) (isConst o.1.call) (bodyT P o.1) b) (n : Nat) :
    Good (Abs P) S o (n + 1) (.scope (submap P o.1.call) (lockMode P o.1.call) b (fun r => .ret (.ret r))) := by
  rw [scope_sec]
  refine ⟨End (Resp α), _, _, b, _, rfl, hb.1, fun hm => hb.2.1 (lockMode_const hm), fun A l h => ?_⟩
  obtain ⟨t', h1, h2⟩ := bodyT_abs hC h (hQ o.1 o.2).1 (hQ o.1 o.2).2
  refine ⟨t', _, hb.2.2 _ _ h1, .inl ⟨(Spec.cbStep P.C.key P.C.eqv l o.1).2, _, ?_, hS _ _ _ _ rfl, h2⟩⟩
  generalize (Spec.cbStep P.C.key P.C.eqv l o.1).2 = r
  cases r <;> rfl

theorem good_exactT {P : PCfg α κ} (hC : CfgOk P.C) {Q : CbOp α κ → Prop}
    (hQ : ∀ o, Q o → Concurrent o.call ∧ o.call.Valid P.C.key (2 ^ P.N))
    (hm : P.mtx ≠ .shared ∨ ∀ o, Q o → ¬ Erases o.call) {code : {o // Q o} → Code (Tbl α) (End (Resp α))}
    (hcode : ∀ o, RunsT P o.1 (code o)) (o : {o // Q o}) : Good (Abs P) (semT P) o 2 (code o) := by
  have hr := hcode o
  unfold RunsT at hr
  split at hr
  · rename_i k pr rep hms he
    exfalso
    rcases hm with hm | hm
    · exact hm hms
    · have := hm o.1 o.2
      unfold eraseArgs at he
      split at he
      · rename_i ho; rw [ho] at this; exact this trivial
      · rename_i ho; rw [ho] at this; exact this trivial
      · cases he
  · obtain ⟨b, hb, hc⟩ := hr
    rw [hc]
    exact good_oneT hC hQ (fun _ _ _ _ h => h) o hb 1

theorem good_weakT {P : PCfg α κ} (hC : CfgOk P.C) {Q : CbOp α κ → Prop}
    (hQ : ∀ o, Q o → Concurrent o.call ∧ o.call.Valid P.C.key (2 ^ P.N)) {code : {o // Q o} → Code (Tbl α) (End (Resp α))}
    (hcode : ∀ o, RunsT P o.1 (code o)) (o : {o // Q o}) : Good (Abs P) (semTWeak P) o 2 (code o) := by
  have hr := hcode o
  unfold RunsT at hr
  split at hr
  · rename_i k pr rep hms he
    obtain ⟨look, again, h1, h2, hc⟩ := hr
    obtain ⟨hsub, -⟩ := eraseArgs_body (P := P) he
    rw [scope_sec] at hc
    refine ⟨End Bool, submap P o.1.call, .shared, look, _, hc, h1.1, (fun _ => h1.2.1 rfl), fun A l h => ?_⟩
    rcases find_abs hC h k with ⟨i, a, hf, -, -⟩ | ⟨hf, hl⟩
    · rw [← hsub] at hf
      refine ⟨A (submap P o.1.call), .ret true, h1.2.2 _ _ (by simp only [eraseLook, hf, Res.ok_bind]; rfl),
        .inr ⟨by rw [upd_self]; exact h, ?_⟩⟩
      dsimp only
      rw [if_pos rfl, scope_sec]
      refine ⟨End Nat, submap P o.1.call, .excl, again, _, rfl, h2.1, (fun hm => by cases hm), fun A l h => ?_⟩
      by_cases hl : Spec.lookup P.C.key P.C.eqv l k = none
      · have hf : (A (kidx P k)).find P.C k = .ok none := by
          rcases find_abs hC h k with ⟨i, a, -, -, hk⟩ | ⟨hf, -⟩
          · rw [hl] at hk; cases hk
          · exact hf
        rw [← hsub] at hf
        refine ⟨A (submap P o.1.call), .ret 1, h2.2.2 _ _ (by simp only [eraseAskT, hf, Res.ok_bind]),
          .inl ⟨_, l, rfl, .inr ⟨k, pr, rep, he, hl, rfl, rfl⟩, by rw [upd_self]; exact h⟩⟩
      · obtain ⟨t', r, e1, e2, e3⟩ := eraseAskT_abs hC h he (hQ o.1 o.2).2 1 (.inr hl)
        refine ⟨t', r, h2.2.2 _ _ e1, .inl ⟨(Spec.cbStep P.C.key P.C.eqv l o.1).2, _, ?_, .inl rfl, e3⟩⟩
        rw [← e2]
        cases r <;> rfl
    · obtain ⟨t', r, e1, e2, e3⟩ := eraseAskT_abs hC h he (hQ o.1 o.2).2 0 (.inl rfl)
      rw [← hsub] at hf
      simp only [eraseAskT, hf, Res.ok_bind, Res.ok.injEq, Prod.mk.injEq] at e1
      obtain ⟨rfl, rfl⟩ := e1
      refine ⟨_, .ret false, h1.2.2 _ _ (by simp only [eraseLook, hf, Res.ok_bind]; rfl),
        .inl ⟨(Spec.cbStep P.C.key P.C.eqv l o.1).2, _, ?_, .inl rfl, e3⟩⟩
      rw [← e2]
      rfl
  · obtain ⟨b, hb, hc⟩ := hr
    rw [hc]
    exact good_oneT hC hQ (fun _ _ _ _ h => .inl h) o hb 1

/-- Who is not in a call holds no lock. -/
theorem idle_free {op σ ρ S : Type} {Abs : (Nat → σ) → S → Prop} {sem : S → op → S → ρ → Prop} {code : op → Code σ ρ} {N : op → Nat}
    (hcode : ∀ o, Good Abs sem o (N o) (code o)) {A : Nat → σ} {s : S}
    (h0 : Abs A s) {W H} (he : Exec code (start A) H W) {t : Nat} (ht : W.th t = .idle) (i : Nat) : W.hold i t = none := by
  obtain ⟨E, A', s', ph, hI, -⟩ := exec_inv hcode h0 he
  have := hI.th t
  rw [ht] at this
  generalize hp : ph t = p at this
  cases this with
  | idle h => exact h i

/-! ## The concrete cutting is one -/

theorem modifyStepsT_does (P : PCfg α κ) (i : Nat) (th : α → Bool) (k : κ) (f : α → α) :
    Does i false (fun t => modifyT P th t k f) (modifyStepsT P i th k f) := by
  refine ⟨?_, (fun h => by cases h), fun t r h => ?_⟩
  · unfold modifyStepsT
    refine look_body fun b => ?_
    cases b with
    | none => trivial
    | some off =>
      refine look_body fun a => prim_body fun _ => ?_
      by_cases ha : th a = true
      · rw [if_pos ha]; trivial
      · rw [if_neg ha]; trivial
  · simp only [modifyT] at h
    unfold modifyStepsT
    apply look_solo
    rw [Res.bind_eq_ok] at h
    obtain ⟨o, h1, h2⟩ := h
    rw [h1, Res.ok_bind]
    cases o with
    | none => exact h2
    | some off =>
      dsimp only at h2 ⊢
      obtain ⟨a, h3, h2⟩ := Res.bind_eq_ok.1 h2
      obtain ⟨t', h4, h2⟩ := Res.bind_eq_ok.1 h2
      apply look_solo
      rw [h3, Res.ok_bind]
      apply prim_solo
      simp only [h4, Res.ok_bind]
      by_cases ha : th a = true
      · rw [if_pos ha] at h2 ⊢; exact h2
      · rw [if_neg ha] at h2 ⊢; exact h2

theorem ifContainsStepsT_does (P : PCfg α κ) (i : Nat) (th : α → Bool) (k : κ) :
    Does i true (fun t => modifyT P th t k id) (ifContainsStepsT P i th k) := by
  refine ⟨?_, fun _ => ?_, fun t r h => ?_⟩
  · unfold ifContainsStepsT
    refine look_body fun b => ?_
    cases b with
    | none => trivial
    | some off =>
      refine look_body fun a => ?_
      by_cases ha : th a = true
      · rw [if_pos ha]; trivial
      · rw [if_neg ha]; trivial
  · unfold ifContainsStepsT
    refine look_ro fun b => ?_
    cases b with
    | none => trivial
    | some off =>
      refine look_ro fun a => ?_
      by_cases ha : th a = true
      · rw [if_pos ha]; trivial
      · rw [if_neg ha]; trivial
  · simp only [modifyT] at h
    unfold ifContainsStepsT
    apply look_solo
    rw [Res.bind_eq_ok] at h
    obtain ⟨o, h1, h2⟩ := h
    rw [h1, Res.ok_bind]
    cases o with
    | none => exact h2
    | some off =>
      dsimp only at h2 ⊢
      obtain ⟨a, h3, h2⟩ := Res.bind_eq_ok.1 h2
      obtain ⟨t', h4, h2⟩ := Res.bind_eq_ok.1 h2
      rw [assignAt_id h4] at h2
      apply look_solo
      rw [h3, Res.ok_bind]
      by_cases ha : th a = true
      · rw [if_pos ha] at h2 ⊢; exact h2
      · rw [if_neg ha] at h2 ⊢; exact h2

theorem primT_does {i : Nat} {β : Type} {f : Tbl α → Res (Tbl α × β)} : Does i false f (prim i f .ret) := by
  refine ⟨prim_body fun _ => trivial, (fun h => by cases h), fun s r h => prim_solo ?_⟩
  rw [h]; rfl

theorem wholeT_does (P : PCfg α κ) {o : CbOp α κ} (hc : Concurrent o.call) (i : Nat) :
    Does i (isConst o.call) (bodyT P o) (wholeT P i o) := by
  cases o with
  | mk c th =>
    cases c with
    | base op =>
      cases op with
      | contains k =>
        refine ⟨look_body fun _ => trivial, fun _ => look_ro fun _ => trivial, fun s r h => look_solo ?_⟩
        simp only [bodyT, body, Tbl.step, Res.bind_eq_ok] at h
        obtain ⟨⟨t', x⟩, ⟨b, h1, h2⟩, h3⟩ := h
        rw [h1]; cases h2; exact h3
      | count k =>
        refine ⟨look_body fun _ => trivial, fun _ => look_ro fun _ => trivial, fun s r h => look_solo ?_⟩
        simp only [bodyT, body, Res.bind_eq_ok] at h
        obtain ⟨⟨t', x⟩, ⟨b, h1, h2⟩, h3⟩ := h
        rw [h1]; cases h2; exact h3
      | insert | insertOrAssign | toggle | insertNode | erase => exact primT_does
      | subscript | «at» | find | eraseIf | extract | insertRange | size | clear | reserve | rehash => exact hc.elim
    | ifContains k => exact ifContainsStepsT_does P i th k
    | modifyIf k f => exact modifyStepsT_does P i th k f
    | eraseIfKey k pr => exact primT_does
    | emplaceL a f => exact primT_does
    | forEachM => exact hc.elim

theorem stepsT_runs (P : PCfg α κ) {o : CbOp α κ} (hc : Concurrent o.call) : RunsT P o (stepsT P o) := by
  unfold RunsT stepsT
  dsimp only
  split
  · refine ⟨_, _, ?_, primT_does, rfl⟩
    refine ⟨look_body fun _ => trivial, fun _ => look_ro fun _ => trivial, fun s r h => look_solo ?_⟩
    simp only [eraseLook, Res.bind_eq_ok] at h
    obtain ⟨⟨t', x⟩, ⟨b, h1, h2⟩, h3⟩ := h
    rw [h1]; cases h2; exact h3
  · rename_i hn
    refine ⟨_, wholeT_does P hc _, ?_⟩
    split
    · rename_i h1 h2
      exact (hn _ _ _ h1 h2).elim
    · rfl

end Gtl.Conc
