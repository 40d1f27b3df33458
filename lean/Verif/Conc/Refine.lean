import Verif.Props.ConcDefs
import Verif.Conc.Reduction
import Verif.Parallel.Bulk
/-!
# The critical sections of the parallel containers meet the sequential specification
-/

namespace Gtl.Conc

open Gtl.Swiss Gtl.Parallel
open Gtl.Spec (Op POp Resp Event LEvent)

variable {α κ : Type}

/-- Submap `i` holds the elements of the abstract container that belong to it. -/
def Abs (P : PCfg α κ) (A : Nat → Tbl α) (l : List α) : Prop := PSim P (ofObjects P A) l

theorem abs_objects {P : PCfg α κ} {p : PTbl α} {l : List α} (h : PSim P p l) : Abs P (objects p) l := by
  have : ofObjects P (objects p) = p := by
    cases p with
    | mk sets =>
      simp only [ofObjects, PTbl.mk.injEq]
      apply List.ext_getElem?
      intro i
      have hl := h.len
      simp only at hl
      by_cases hi : i < 2 ^ P.N
      · rw [List.getElem?_map, List.getElem?_range hi, Option.map_some,
          List.getElem?_eq_getElem (by rw [hl]; exact hi)]
        simp only [objects, List.getElem?_eq_getElem (show i < sets.length by rw [hl]; exact hi), Option.getD_some]
      · rw [List.getElem?_eq_none (by simpa using hi), List.getElem?_eq_none (by rw [hl]; omega)]
  unfold Abs
  rw [this]; exact h

theorem ofObjects_upd (P : PCfg α κ) (A : Nat → Tbl α) (i : Nat) (t : Tbl α) :
    ofObjects P (upd A i t) = { sets := (ofObjects P A).sets.set i t } := by
  simp only [ofObjects, PTbl.mk.injEq]
  apply List.ext_getElem?
  intro j
  rw [List.getElem?_set]
  by_cases hj : j < 2 ^ P.N
  · by_cases hij : i = j
    · subst hij
      rw [if_pos rfl, if_pos (by simpa using hj), List.getElem?_map, List.getElem?_range hj, Option.map_some, upd_same]
    · rw [if_neg hij, List.getElem?_map, List.getElem?_map, List.getElem?_range hj, Option.map_some, Option.map_some,
        upd_ne _ _ (fun h => hij h.symm)]
  · split
    · rw [if_neg (by simpa using (by omega : ¬ i < 2 ^ P.N)), List.getElem?_eq_none (by simpa using hj)]
    · rw [List.getElem?_eq_none (by simpa using hj), List.getElem?_eq_none (by simpa using hj)]

theorem pstep_eq (P : PCfg α κ) (p : PTbl α) {o : POp α κ} (hc : Concurrent o) :
    p.pstep P o = p.withSub (submap P o) (body P o) := by
  unfold Concurrent at hc
  split at hc <;> first | rfl | exact hc.elim

theorem submap_lt (P : PCfg α κ) (o : POp α κ) : submap P o < 2 ^ P.N := by
  unfold submap
  split <;> first | exact subidx_lt _ _ | exact Nat.two_pow_pos _

/-- Executed alone, a section does what the specification says. -/
theorem body_abs {P : PCfg α κ} (hC : CfgOk P.C) {A : Nat → Tbl α} {l : List α} (h : Abs P A l) {o : POp α κ}
    (hc : Concurrent o) (hv : o.Valid P.C.key (2 ^ P.N)) :
    ∃ t', body P o (A (submap P o)) = .ok (t', (Spec.pstep P.C.key P.C.eqv l o).2) ∧
      Abs P (upd A (submap P o) t') (Spec.pstep P.C.key P.C.eqv l o).1 := by
  obtain ⟨p', h1, h2⟩ := pstep_sim hC h o hv
  rw [pstep_eq P _ hc] at h1
  have hs : (ofObjects P A).sub (submap P o) = .ok (A (submap P o)) := by
    simp only [PTbl.sub, ofObjects, List.getElem?_map, List.getElem?_range (submap_lt P o), Option.map_some, Res.ofOption_some]
  simp only [PTbl.withSub, hs, Res.ok_bind, Res.bind_eq_ok] at h1
  obtain ⟨⟨t', r⟩, h3, h4⟩ := h1
  simp only [Res.ok.injEq, Prod.mk.injEq] at h4
  obtain ⟨rfl, rfl⟩ := h4
  refine ⟨t', h3, ?_⟩
  unfold Abs
  rw [ofObjects_upd]; exact h2

/-- Who takes the shared lock only reads. -/
theorem lockMode_const {P : PCfg α κ} {o : POp α κ} (h : lockMode P o = .shared) : isConst o = true := by
  unfold lockMode at h
  split at h <;> first | rfl | cases h

theorem good_one {P : PCfg α κ} (hC : CfgOk P.C) {Q : POp α κ → Prop}
    (hQ : ∀ o, Q o → Concurrent o ∧ o.Valid P.C.key (2 ^ P.N)) {S : List α → {o // Q o} → List α → Resp α → Prop}
    (hS : ∀ l o l' r, sem P l o l' r → S l o l' r) (o : {o // Q o}) {b : Code (Tbl α) (Resp α)}
    (hb : Does (submap P o.1) (isConst o.1) (body P o.1) b) (n : Nat) :
    Good (Abs P) S o (n + 1) (.sec (submap P o.1) (lockMode P o.1) b .ret) := by
  refine ⟨Resp α, _, _, b, _, rfl, hb.1, fun hm => hb.2.1 (lockMode_const hm), fun A l h => ?_⟩
  obtain ⟨t', h1, h2⟩ := body_abs hC h (hQ o.1 o.2).1 (hQ o.1 o.2).2
  exact ⟨t', _, hb.2.2 _ _ h1, .inl ⟨_, _, rfl, hS _ _ _ _ rfl, h2⟩⟩

theorem good_exact {P : PCfg α κ} (hC : CfgOk P.C) {Q : POp α κ → Prop}
    (hQ : ∀ o, Q o → Concurrent o ∧ o.Valid P.C.key (2 ^ P.N))
    (hm : P.mtx ≠ .shared ∨ ∀ o, Q o → ¬ Erases o) {code : {o // Q o} → Code (Tbl α) (Resp α)}
    (hcode : ∀ o, Runs P o.1 (code o)) (o : {o // Q o}) : Good (Abs P) (sem P) o 2 (code o) := by
  have hr := hcode o
  unfold Runs at hr
  split at hr
  · rename_i k pr rep hms he
    exfalso
    rcases hm with hm | hm
    · exact hm hms
    · have := hm o.1 o.2
      unfold eraseArgs at he
      split at he
      · rename_i ho; rw [ho] at this; exact this trivial
      · rename_i ho; rw [ho] at this; exact this trivial
      · cases he
  · obtain ⟨b, hb, hc⟩ := hr
    rw [hc]
    exact good_one hC hQ (fun _ _ _ _ h => h) o hb 1

/-- `find` in related states. -/
theorem look_abs {P : PCfg α κ} (hC : CfgOk P.C) {A : Nat → Tbl α} {l : List α} (h : Abs P A l) (k : κ) :
    (∃ i, (A (kidx P k)).find P.C k = .ok (some i)) ∨
    ((A (kidx P k)).find P.C k = .ok none ∧ Spec.lookup P.C.key P.C.eqv l k = none) := by
  have hk : kidx P k < 2 ^ P.N := subidx_lt _ _
  obtain ⟨t, h1, h2⟩ := h.get hk
  simp only [ofObjects, List.getElem?_map, List.getElem?_range hk, Option.map_some, Option.some.injEq] at h1
  subst h1
  have hl := lookup_part hC l k
  rcases find_sim hC h2 k with ⟨i, a, h1, _⟩ | ⟨h1, _, h3⟩
  · exact .inl ⟨i, h1⟩
  · exact .inr ⟨h1, by rw [← hl]; exact h3⟩

theorem eraseKeyIf_some {P : PCfg α κ} {t : Tbl α} {k : κ} {i : Nat} (h : t.find P.C k = .ok (some i)) (pr : α → Bool) :
    PTbl.eraseKeyIf P t k pr = eraseAgain P k pr t := by
  unfold PTbl.eraseKeyIf eraseAgain
  simp only [h, Res.ok_bind, ite_self]

theorem eraseKeyIf_none {P : PCfg α κ} {t : Tbl α} {k : κ} (h : t.find P.C k = .ok none) (pr : α → Bool) :
    PTbl.eraseKeyIf P t k pr = .ok (t, 0) := by
  unfold PTbl.eraseKeyIf
  simp only [h, Res.ok_bind]

theorem eraseArgs_body {P : PCfg α κ} {o : POp α κ} {k pr rep} (h : eraseArgs o = some (k, pr, rep)) :
    submap P o = kidx P k ∧ ∀ t, body P o t = (do let (t, n) ← PTbl.eraseKeyIf P t k pr; .ok (t, rep n)) := by
  unfold eraseArgs at h
  split at h
  · cases h; exact ⟨rfl, fun t => rfl⟩
  · cases h; exact ⟨rfl, fun t => rfl⟩
  · cases h

theorem good_weak {P : PCfg α κ} (hC : CfgOk P.C) {Q : POp α κ → Prop}
    (hQ : ∀ o, Q o → Concurrent o ∧ o.Valid P.C.key (2 ^ P.N)) {code : {o // Q o} → Code (Tbl α) (Resp α)}
    (hcode : ∀ o, Runs P o.1 (code o)) (o : {o // Q o}) : Good (Abs P) (semWeak P) o 2 (code o) := by
  have hr := hcode o
  unfold Runs at hr
  split at hr
  · rename_i k pr rep hms he
    obtain ⟨look, again, h1, h2, hc⟩ := hr
    obtain ⟨hsub, hbody⟩ := eraseArgs_body (P := P) he
    refine ⟨Bool, submap P o.1, .shared, look, _, hc, h1.1, (fun _ => h1.2.1 rfl), fun A l h => ?_⟩
    obtain ⟨t', hb, ha⟩ := body_abs hC h (hQ o.1 o.2).1 (hQ o.1 o.2).2
    rw [hbody] at hb
    rcases look_abs hC h k with ⟨i, hf⟩ | ⟨hf, hl⟩
    · rw [← hsub] at hf
      refine ⟨A (submap P o.1), true, h1.2.2 _ _ (by simp only [eraseLook, hf, Res.ok_bind]; rfl), .inr ⟨by rw [upd_self]; exact h, ?_⟩⟩
      rw [if_pos rfl]
      refine ⟨Nat, submap P o.1, .excl, again, _, rfl, h2.1, (fun hm => by cases hm), fun A l h => ?_⟩
      obtain ⟨t', hb, ha⟩ := body_abs hC h (hQ o.1 o.2).1 (hQ o.1 o.2).2
      rw [hbody] at hb
      rcases look_abs hC h k with ⟨i, hf⟩ | ⟨hf, hl⟩
      · rw [← hsub] at hf
        rw [eraseKeyIf_some hf, Res.bind_eq_ok] at hb
        obtain ⟨⟨t2, n⟩, hb1, hb2⟩ := hb
        simp only [Res.ok.injEq, Prod.mk.injEq] at hb2
        obtain ⟨rfl, hb2⟩ := hb2
        refine ⟨t2, n, h2.2.2 _ _ hb1, .inl ⟨_, _, rfl, .inl ?_, ha⟩⟩
        unfold sem; rw [hb2]
      · rw [← hsub] at hf
        refine ⟨A (submap P o.1), 1, h2.2.2 _ _ (by simp only [eraseAgain, hf, Res.ok_bind]), .inl ⟨_, l, rfl, .inr ?_, ?_⟩⟩
        · exact ⟨k, pr, rep, he, hl, rfl, rfl⟩
        · rw [upd_self]; exact h
    · rw [← hsub] at hf
      rw [eraseKeyIf_none hf, Res.ok_bind] at hb
      simp only [Res.ok.injEq, Prod.mk.injEq] at hb
      obtain ⟨rfl, hb2⟩ := hb
      refine ⟨_, false, h1.2.2 _ _ (by simp only [eraseLook, hf, Res.ok_bind]; rfl), .inl ⟨_, _, rfl, .inl ?_, ha⟩⟩
      unfold sem; rw [hb2]
  · obtain ⟨b, hb, hc⟩ := hr
    rw [hc]
    exact good_one hC hQ (fun _ _ _ _ h => .inl h) o hb 1

/-! ## The concrete cutting is one of those covered -/

variable {σ β ρ : Type}

theorem bind_body {i : Nat} {ρ' : Type} {f : ρ → Code σ ρ'} (hf : ∀ r, (f r).Body i) :
    ∀ {c : Code σ ρ}, c.Body i → (c.bind f).Body i := by
  intro c
  induction c with
  | ret r => intro _; exact hf r
  | ub => intro _; trivial
  | act j w k ih => intro h; rw [Code.Body] at h; rw [Code.bind, Code.Body]; exact ⟨h.1, fun s => ih s (h.2 s)⟩
  | lock => intro h; exact h.elim
  | unlock => intro h; exact h.elim

theorem bind_ro {ρ' : Type} {f : ρ → Code σ ρ'} (hf : ∀ r, (f r).ReadOnly) :
    ∀ {c : Code σ ρ} {i : Nat}, c.Body i → c.ReadOnly → (c.bind f).ReadOnly := by
  intro c
  induction c with
  | ret r => intro _ _ _; exact hf r
  | ub => intro _ _ _; trivial
  | act j w k ih =>
    intro i hb h
    rw [Code.Body] at hb; rw [Code.ReadOnly] at h; rw [Code.bind, Code.ReadOnly]
    exact ⟨h.1, fun s => ih s (hb.2 s) (h.2 s)⟩
  | lock => intro _ h; exact h.elim
  | unlock => intro _ h; exact h.elim

theorem bind_solo {ρ' : Type} {f : ρ → Code σ ρ'} : ∀ {c : Code σ ρ} {i : Nat} {s : σ}, c.Body i →
    (c.bind f).solo s = (do let (s, r) ← c.solo s; (f r).solo s) := by
  intro c
  induction c with
  | ret r => intro i s _; rfl
  | ub => intro i s _; rfl
  | act j w k ih =>
    intro i s h
    rw [Code.Body] at h
    simp only [Code.bind, Code.solo]
    exact ih s (h.2 s)
  | lock => intro _ _ h; exact h.elim
  | unlock => intro _ _ h; exact h.elim

theorem prim_body {i : Nat} {f : σ → Res (σ × β)} {k : β → Code σ ρ} (h : ∀ b, (k b).Body i) : (prim i f k).Body i := by
  unfold prim
  rw [Code.Body]
  refine ⟨rfl, fun s => ?_⟩
  split
  · exact h _
  · trivial

theorem prim_solo {i : Nat} {f : σ → Res (σ × β)} {k : β → Code σ ρ} {s r} (h : (f s >>= fun x => (k x.2).solo x.1) = .ok r) :
    (prim i f k).solo s = .ok r := by
  rw [Res.bind_eq_ok] at h
  obtain ⟨⟨s', b⟩, h1, h2⟩ := h
  unfold prim
  rw [Code.solo]
  simp only [h1]; exact h2

theorem look_body {i : Nat} {f : σ → Res β} {k : β → Code σ ρ} (h : ∀ b, (k b).Body i) : (look i f k).Body i := by
  unfold look
  rw [Code.Body]
  refine ⟨rfl, fun s => ?_⟩
  split
  · exact h _
  · trivial

theorem look_ro {i : Nat} {f : σ → Res β} {k : β → Code σ ρ} (h : ∀ b, (k b).ReadOnly) : (look i f k).ReadOnly := by
  unfold look
  rw [Code.ReadOnly]
  refine ⟨fun _ => rfl, fun s => ?_⟩
  split
  · exact h _
  · trivial

theorem look_solo {i : Nat} {f : σ → Res β} {k : β → Code σ ρ} {s r} (h : (f s >>= fun x => (k x).solo s) = .ok r) :
    (look i f k).solo s = .ok r := by
  rw [Res.bind_eq_ok] at h
  obtain ⟨b, h1, h2⟩ := h
  unfold look
  rw [Code.solo]
  simp only [h1]; exact h2

theorem modifySteps_body (P : PCfg α κ) (i : Nat) (k : κ) (f : α → α) : (modifySteps P i k f).Body i := by
  unfold modifySteps
  refine look_body fun r => ?_
  cases r with
  | none => trivial
  | some off => exact look_body fun a => prim_body fun _ => trivial

theorem modifySteps_solo (P : PCfg α κ) (i : Nat) (k : κ) (f : α → α) {t : Tbl α} {r} (h : PTbl.modifyKeyIf P t k f = .ok r) :
    (modifySteps P i k f).solo t = .ok r := by
  unfold PTbl.modifyKeyIf at h
  unfold modifySteps
  apply look_solo
  rw [Res.bind_eq_ok] at h
  obtain ⟨o, h1, h2⟩ := h
  rw [h1, Res.ok_bind]
  cases o with
  | none => exact h2
  | some off =>
    simp only at h2 ⊢
    apply look_solo
    rw [Res.bind_eq_ok] at h2
    obtain ⟨a, h3, h4⟩ := h2
    rw [h3, Res.ok_bind]
    apply prim_solo
    rw [Res.bind_eq_ok] at h4
    obtain ⟨t', h5, h6⟩ := h4
    rw [h5]; exact h6

theorem ifContainsSteps_body (P : PCfg α κ) (i : Nat) (k : κ) : (ifContainsSteps P i k).Body i := by
  unfold ifContainsSteps
  refine look_body fun r => ?_
  cases r with
  | none => trivial
  | some off => exact look_body fun a => trivial

theorem ifContainsSteps_ro (P : PCfg α κ) (i : Nat) (k : κ) : (ifContainsSteps P i k).ReadOnly := by
  unfold ifContainsSteps
  refine look_ro fun r => ?_
  cases r with
  | none => trivial
  | some off => exact look_ro fun a => trivial

theorem assignAt_id {t t' : Tbl α} {off : Nat} (h : t.assignAt off id = .ok t') : t' = t := by
  unfold Tbl.assignAt at h
  rw [Res.bind_eq_ok] at h
  obtain ⟨a, h1, h2⟩ := h
  have hs : t.slots[off]? = some (some a) := by
    unfold Tbl.readSlot at h1
    split at h1
    · cases h1; assumption
    · cases h1
  cases h2
  have : t.slots.set off (some (id a)) = t.slots := by
    apply List.ext_getElem?
    intro j
    rw [List.getElem?_set]
    split
    · rename_i hj; subst hj
      rw [hs, if_pos (List.getElem?_eq_some_iff.1 hs).1]; rfl
    · rfl
  rw [this]

theorem ifContainsSteps_solo (P : PCfg α κ) (i : Nat) (k : κ) {t : Tbl α} {r} (h : PTbl.modifyKeyIf P t k id = .ok r) :
    (ifContainsSteps P i k).solo t = .ok r := by
  unfold PTbl.modifyKeyIf at h
  unfold ifContainsSteps
  apply look_solo
  rw [Res.bind_eq_ok] at h
  obtain ⟨o, h1, h2⟩ := h
  rw [h1, Res.ok_bind]
  cases o with
  | none => exact h2
  | some off =>
    simp only at h2 ⊢
    apply look_solo
    rw [Res.bind_eq_ok] at h2
    obtain ⟨a, h3, h4⟩ := h2
    rw [h3, Res.ok_bind]
    rw [Res.bind_eq_ok] at h4
    obtain ⟨t', h5, h6⟩ := h4
    rw [assignAt_id h5] at h6
    exact h6

theorem emplaceSteps_body (P : PCfg α κ) (i : Nat) (a : α) (f : α → α) : (emplaceSteps P i a f).Body i := by
  unfold emplaceSteps
  refine look_body fun r => ?_
  cases r with
  | none => exact prim_body fun _ => prim_body fun _ => prim_body fun _ => trivial
  | some off => exact look_body fun a => prim_body fun _ => trivial

theorem emplaceSteps_solo (P : PCfg α κ) (i : Nat) (a : α) (f : α → α) {t : Tbl α} {r} (h : PTbl.emplaceL P t a f = .ok r) :
    (emplaceSteps P i a f).solo t = .ok r := by
  unfold PTbl.emplaceL at h
  simp only at h
  unfold emplaceSteps
  apply look_solo
  rw [Res.bind_eq_ok] at h
  obtain ⟨o, h1, h2⟩ := h
  rw [h1, Res.ok_bind]
  cases o with
  | none =>
    simp only at h2 ⊢
    rw [Res.bind_eq_ok] at h2
    obtain ⟨⟨t1, off⟩, h3, h4⟩ := h2
    apply prim_solo
    rw [h3, Res.ok_bind]
    simp only at h4 ⊢
    rw [Res.bind_eq_ok] at h4
    obtain ⟨t2, h5, h6⟩ := h4
    apply prim_solo
    rw [h5, Res.ok_bind, Res.ok_bind]
    rw [Res.bind_eq_ok] at h6
    obtain ⟨t3, h7, h8⟩ := h6
    apply prim_solo
    simp only
    rw [h7]
    exact h8
  | some off =>
    simp only at h2 ⊢
    rw [Res.bind_eq_ok] at h2
    obtain ⟨b, h3, h4⟩ := h2
    apply look_solo
    rw [h3, Res.ok_bind]
    rw [Res.bind_eq_ok] at h4
    obtain ⟨t', h5, h6⟩ := h4
    apply prim_solo
    rw [h5]; exact h6

theorem eraseSteps_body (P : PCfg α κ) (i : Nat) (k : κ) (pr : α → Bool) (g : Nat) : (eraseSteps P i k pr g).Body i := by
  unfold eraseSteps
  refine look_body fun r => ?_
  cases r with
  | none => trivial
  | some off =>
    refine look_body fun a => ?_
    split
    · exact prim_body fun _ => trivial
    · trivial

theorem eraseSteps_solo (P : PCfg α κ) (i : Nat) (k : κ) (pr : α → Bool) {t : Tbl α} {r} (h : eraseAgain P k pr t = .ok r) :
    (eraseSteps P i k pr 1).solo t = .ok r := by
  unfold eraseAgain at h
  unfold eraseSteps
  apply look_solo
  rw [Res.bind_eq_ok] at h
  obtain ⟨o, h1, h2⟩ := h
  rw [h1, Res.ok_bind]
  cases o with
  | none => exact h2
  | some off =>
    simp only at h2 ⊢
    rw [Res.bind_eq_ok] at h2
    obtain ⟨a, h3, h4⟩ := h2
    apply look_solo
    rw [h3, Res.ok_bind]
    split
    · rename_i hp
      rw [if_pos hp] at h4
      rw [Res.bind_eq_ok] at h4
      obtain ⟨t', h5, h6⟩ := h4
      apply prim_solo
      rw [h5]; exact h6
    · rename_i hp
      rw [if_neg hp] at h4
      exact h4

theorem eraseSteps_solo' (P : PCfg α κ) (hm : P.mtx ≠ .shared) (i : Nat) (k : κ) (pr : α → Bool) {t : Tbl α} {r}
    (h : PTbl.eraseKeyIf P t k pr = .ok r) : (eraseSteps P i k pr 0).solo t = .ok r := by
  unfold PTbl.eraseKeyIf at h
  unfold eraseSteps
  apply look_solo
  rw [Res.bind_eq_ok] at h
  obtain ⟨o, h1, h2⟩ := h
  rw [h1, Res.ok_bind]
  cases o with
  | none => exact h2
  | some off =>
    simp only [if_neg hm, Res.ok_bind] at h2 ⊢
    rw [Res.bind_eq_ok] at h2
    obtain ⟨a, h3, h4⟩ := h2
    apply look_solo
    rw [h3, Res.ok_bind]
    split
    · rename_i hp
      rw [if_pos hp] at h4
      rw [Res.bind_eq_ok] at h4
      obtain ⟨t', h5, h6⟩ := h4
      apply prim_solo
      rw [h5]; exact h6
    · rename_i hp
      rw [if_neg hp] at h4
      exact h4

theorem whole_runs {P : PCfg α κ} {o : POp α κ} {b : Code (Tbl α) (Resp α)} (hm : P.mtx ≠ .shared ∨ eraseArgs o = none)
    (hb : Does (submap P o) (isConst o) (body P o) b) : Runs P o (.sec (submap P o) (lockMode P o) b .ret) := by
  unfold Runs
  split
  · rename_i h1 h2
    rcases hm with hm | hm
    · exact absurd h1 hm
    · rw [hm] at h2; cases h2
  · exact ⟨b, hb, rfl⟩

theorem prim_does {P : PCfg α κ} {o : POp α κ} (hm : isConst o = false) :
    Does (submap P o) (isConst o) (body P o) (prim (submap P o) (body P o) .ret) := by
  refine ⟨prim_body fun _ => trivial, ?_, fun s r h => prim_solo ?_⟩
  · intro h; rw [hm] at h; cases h
  · rw [h]; rfl

theorem does_bind {i : Nat} {m : Bool} {f : σ → Res (σ × β)} {b : Code σ β} (h : Does i m f b) (g : β → ρ) :
    Does i m (fun s => do let (s, x) ← f s; .ok (s, g x)) (b.bind fun x => .ret (g x)) := by
  refine ⟨bind_body (f := fun x => Code.ret (g x)) (fun _ => trivial) h.1,
    fun hm => bind_ro (f := fun x => Code.ret (g x)) (fun _ => trivial) h.1 (h.2.1 hm), fun s r hr => ?_⟩
  rw [bind_solo h.1]
  simp only [Res.bind_eq_ok] at hr
  obtain ⟨⟨s', x⟩, h1, h2⟩ := hr
  rw [h.2.2 _ _ h1]; exact h2

theorem look_does {i : Nat} {m : Bool} {f : σ → Res β} {g : β → ρ} :
    Does i m (fun s => do let x ← f s; .ok (s, g x)) (look i f fun x => .ret (g x)) := by
  refine ⟨look_body fun _ => trivial, fun _ => look_ro fun _ => trivial, fun s r hr => look_solo ?_⟩
  exact hr

theorem steps_runs (P : PCfg α κ) {o : POp α κ} (hc : Concurrent o) : Runs P o (steps P o) := by
  have herase : ∀ k pr rep, eraseArgs o = some (k, pr, rep) → isConst o = false →
      Runs P o (if P.mtx = .shared then
        .sec (submap P o) .shared (look (submap P o) (fun t => t.find P.C k) fun r => .ret r.isSome) fun found =>
          if found then .sec (submap P o) .excl (eraseSteps P (submap P o) k pr 1) (fun n => .ret (rep n)) else .ret (rep 0)
      else Code.sec (submap P o) (lockMode P o) ((eraseSteps P (submap P o) k pr 0).bind fun n => .ret (rep n)) .ret) := by
    intro k pr rep he hl
    split
    · rename_i hm
      unfold Runs
      rw [hm, he]
      exact ⟨_, _, look_does, ⟨eraseSteps_body _ _ _ _ _, (fun h => by cases h), fun s r h => eraseSteps_solo _ _ _ _ h⟩, rfl⟩
    · rename_i hm
      refine whole_runs (.inl hm) ?_
      have := does_bind (g := rep) (i := submap P o) (m := isConst o) (f := fun t => PTbl.eraseKeyIf P t k pr)
        (b := eraseSteps P (submap P o) k pr 0)
        ⟨eraseSteps_body _ _ _ _ _, (fun h => by rw [hl] at h; cases h), fun s r h => eraseSteps_solo' _ hm _ _ _ h⟩
      rwa [show body P o = _ from funext (eraseArgs_body (P := P) he).2]
  cases o with
  | base op =>
    cases op with
    | insert a => exact whole_runs (.inr rfl) (prim_does rfl)
    | insertOrAssign a f => exact whole_runs (.inr rfl) (prim_does rfl)
    | toggle a => exact whole_runs (.inr rfl) (prim_does rfl)
    | insertNode n =>
      cases n with
      | none => exact hc.elim
      | some a => exact whole_runs (.inr rfl) (prim_does rfl)
    | contains k => exact whole_runs (.inr rfl) look_does
    | count k => exact whole_runs (.inr rfl) look_does
    | erase k => exact herase _ _ _ rfl rfl
    | subscript | «at» | find | eraseIf | extract | insertRange | size | clear | reserve | rehash => exact hc.elim
  | ifContains k =>
    exact whole_runs (.inr rfl) (does_bind (m := true) (f := fun t => PTbl.modifyKeyIf P t k id) (g := Resp.elem)
      ⟨ifContainsSteps_body _ _ _, fun _ => ifContainsSteps_ro _ _ _, fun s r h => ifContainsSteps_solo _ _ _ h⟩)
  | modifyIf k f =>
    exact whole_runs (.inr rfl) (does_bind (m := false) (f := fun t => PTbl.modifyKeyIf P t k f) (g := Resp.elem)
      ⟨modifySteps_body _ _ _ _, (fun h => by cases h), fun s r h => modifySteps_solo _ _ _ _ h⟩)
  | eraseIfKey k pr => exact herase _ _ _ rfl rfl
  | emplaceL a f =>
    exact whole_runs (.inr rfl) (does_bind (m := false) (f := fun t => PTbl.emplaceL P t a f) (g := fun x => Resp.ins x.1 x.2)
      ⟨emplaceSteps_body _ _ _ _, (fun h => by cases h), fun s r h => emplaceSteps_solo _ _ _ _ h⟩)
  | forEachM => exact hc.elim

/-! ## Schedules are executions -/

theorem exec_trans {op : Type} {code : op → Code σ ρ} {W W' W'' : World op σ ρ} {H H'} (h : Exec code W H W') (h' : Exec code W' H' W'') :
    Exec code W (H ++ H') W'' := by
  induction h' with
  | refl => simpa using h
  | tail _ hs ih => rw [← List.append_assoc]; exact .tail ih hs

theorem move_step {op : Type} {code : op → Code σ ρ} {n : Nat} {W W' : World op σ ρ} {t o e} (hn : ∀ i u, n ≤ u → W.hold i u = none)
    (h : move code n W t o = some (e, W')) : Step code W e W' ∧ ∀ i u, n ≤ u → W'.hold i u = none := by
  unfold move at h
  split at h
  · cases h
  · rename_i hnt
    have hfree : ∀ i m, freeFor n W i m = true → Free W i m := by
      intro i m hf
      cases m with
      | excl =>
        intro u
        by_cases hu : u < n
        · simp only [freeFor, List.all_eq_true, List.mem_range] at hf
          simpa using hf u hu
        · exact hn i u (by omega)
      | shared =>
        intro u
        by_cases hu : u < n
        · simp only [freeFor, List.all_eq_true, List.mem_range] at hf
          simpa using hf u hu
        · rw [hn i u (by omega)]; simp
    have hupd : ∀ i (x : Option Mode) j u, n ≤ u → upd W.hold i (upd (W.hold i) t x) j u = none := by
      intro i x j u hu
      by_cases hj : j = i
      · subst hj; rw [upd_same, upd_ne _ _ (by omega)]; exact hn j u hu
      · rw [upd_ne _ _ hj]; exact hn j u hu
    split at h
    · rename_i ht
      cases o with
      | none => cases h
      | some o => cases h; exact ⟨.call ht, hn⟩
    · rename_i o' c ht
      split at h
      · cases h; exact ⟨.ret ht, hn⟩
      · cases h
      · cases h; exact ⟨.act ht, hn⟩
      · split at h
        · rename_i hf; cases h; exact ⟨.lock ht (hfree _ _ hf), hupd _ _⟩
        · cases h
      · split at h
        · rename_i hf; cases h; exact ⟨.unlock ht hf, hupd _ _⟩
        · rename_i hf; cases h; exact ⟨.unlockBad ht hf, hn⟩

theorem move_other {op : Type} {code : op → Code σ ρ} {n : Nat} {W W' : World op σ ρ} {t o e}
    (h : move code n W t o = some (e, W')) (u : Nat) (hu : n ≤ u) : W'.th u = W.th u := by
  unfold move at h
  split at h
  · cases h
  · have hne : u ≠ t := by omega
    split at h
    · cases o with
      | none => cases h
      | some o => cases h; exact upd_ne _ _ hne
    · split at h
      · cases h; exact upd_ne _ _ hne
      · cases h
      · cases h; exact upd_ne _ _ hne
      · split at h
        · cases h; exact upd_ne _ _ hne
        · cases h
      · split at h
        · cases h; exact upd_ne _ _ hne
        · cases h; exact upd_ne _ _ hne

theorem play_other {op : Type} {code : op → Code σ ρ} {n : Nat} : ∀ (es : List (Nat × Option op)) {W W' : World op σ ρ} {H},
    play code n W es = some (H, W') → ∀ u, n ≤ u → W'.th u = W.th u
  | [], W, W', H, h, u, _ => by simp only [play] at h; cases h; rfl
  | (t, o) :: es, W, W', H, h, u, hu => by
    simp only [play, Option.bind_eq_bind, Option.bind_eq_some_iff] at h
    obtain ⟨⟨e, W1⟩, h1, ⟨H2, W2⟩, h2, h3⟩ := h
    cases h3
    rw [play_other es h2 u hu, move_other h1 u hu]

theorem play_exec {op : Type} {code : op → Code σ ρ} {n : Nat} : ∀ (es : List (Nat × Option op)) {W W' : World op σ ρ} {H},
    (∀ i u, n ≤ u → W.hold i u = none) → play code n W es = some (H, W') → Exec code W H W'
  | [], W, W', H, hn, h => by simp only [play] at h; cases h; exact .refl
  | (t, o) :: es, W, W', H, hn, h => by
    simp only [play, Option.bind_eq_bind, Option.bind_eq_some_iff] at h
    obtain ⟨⟨e, W1⟩, h1, ⟨H2, W2⟩, h2, h3⟩ := h
    cases h3
    obtain ⟨hs, hn'⟩ := move_step hn h1
    have := exec_trans (.tail (.refl (code := code) (W := W)) hs) (play_exec es hn' h2)
    simpa using this

end Gtl.Conc
