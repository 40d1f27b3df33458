import Verif.Conc.NestRed
import Verif.Conc.Nested
import Verif.Conc.Refine
import Verif.Conc.SharePlay
import Verif.Conc.ShareLocks
/-!
# The code of nested calls carries out its plan
-/

namespace Gtl.Conc.Multi.Nest

open Gtl.Swiss Gtl.Parallel
open Gtl.Spec (Op POp Resp Plan)
open Gtl.Spec.Nest (Prog seen)
open Gtl.Conc (upd_same upd_ne upd_self Abs)

variable {α κ : Type}

/-- The specification of the steps; with a shared mutex, `erase` may say that it erased though the key had gone (see C23).
-/
def stepSem (P : PCfg α κ) (l : List α) (op : POp α κ) (l' : List α) (r : Resp α) : Prop :=
  (l', r) = Spec.pstep P.C.key P.C.eqv l op ∨
    P.mtx = .shared ∧ ∃ k pr rep, eraseArgs op = some (k, pr, rep) ∧ Spec.lookup P.C.key P.C.eqv l k = none ∧ l' = l ∧ r = rep 1

theorem reach_submap (P : PCfg α κ) {op : POp α κ} (hc : Concurrent op) :
    op.reach P.C.key (kidx P) = some [submap P op] := by
  unfold Concurrent at hc
  split at hc <;> first | rfl | exact hc.elim

/-- What a call must meet. -/
def CallOk (P : PCfg α κ) (op : POp α κ) : Prop := Concurrent op ∧ op.Valid P.C.key (2 ^ P.N)

theorem body_meets {P : PCfg α κ} (hC : CfgOk P.C) {K : Cutting α κ} (hK : K.Ok P) {op : POp α κ} (ho : CallOk P op) :
    Meets (Abs P) (stepSem P) op (K.body op) some := by
  intro A l h
  obtain ⟨t', h1, h2⟩ := body_abs hC h ho.1 ho.2
  refine ⟨_, _, (hK.1 op).2 A _ (by unfold at1; rw [h1]; rfl), _, .inl rfl, h2⟩

theorem callCode_good {P : PCfg α κ} (hC : CfgOk P.C) {K : Cutting α κ} (hK : K.Ok P) {R : List (Nat × Mode) → Nat → Prop}
    {ρ : Type} {op : POp α κ} (ho : CallOk P op) {ls : List (Nat × Mode)} (hn : submap P op ∉ ls.map Prod.fst) (hR : R ls (submap P op))
    {kp : Resp α → Plan (POp α κ) (Resp α) ρ} {k : Resp α → Code (Tbl α) ρ} (hk : ∀ r, NGood (Abs P) (stepSem P) R ls (kp r) (k r)) :
    NGood (Abs P) (stepSem P) R ls (.step op kp) (callCode P K op k) := by
  unfold callCode
  split
  · rename_i key pr rep hms he
    obtain ⟨hsub, hbody⟩ := eraseArgs_body (P := P) he
    have hlook := hK.2.1 key
    have hagain := hK.2.2 key pr
    rw [show subidx P.N (P.C.hash key) = submap P op from hsub.symm] at hlook hagain
    refine .sec (ans := fun found => if found then none else some (rep 0)) hlook.1 hn hR (fun A l h => ?_) fun found => ?_
    · obtain ⟨t', hb, ha⟩ := body_abs hC h ho.1 ho.2
      rw [hbody] at hb
      rcases look_abs hC h key with ⟨i, hf⟩ | ⟨hf, hl⟩
      · rw [← hsub] at hf
        refine ⟨A, true, hlook.2 _ _ ?_, h⟩
        unfold at1
        simp only [eraseLook, hf, Res.ok_bind, Option.isSome_some, upd_self]
      · rw [← hsub] at hf
        rw [eraseKeyIf_none hf, Res.ok_bind] at hb
        simp only [Res.ok.injEq, Prod.mk.injEq] at hb
        obtain ⟨rfl, hb2⟩ := hb
        refine ⟨A, false, hlook.2 _ _ ?_, _, .inl ?_, by rw [upd_self] at ha; exact ha⟩
        · unfold at1
          simp only [eraseLook, hf, Res.ok_bind, Option.isSome_none, upd_self]
        · rw [hb2]
    · refine .unlock ?_
      cases found with
      | false => exact hk _
      | true =>
        refine .sec (ans := fun n => some (rep n)) hagain.1 hn hR (fun A l h => ?_) fun n => .unlock (hk _)
        obtain ⟨t', hb, ha⟩ := body_abs hC h ho.1 ho.2
        rw [hbody] at hb
        rcases look_abs hC h key with ⟨i, hf⟩ | ⟨hf, hl⟩
        · rw [← hsub] at hf
          rw [eraseKeyIf_some hf, Res.bind_eq_ok] at hb
          obtain ⟨⟨t2, n⟩, hb1, hb2⟩ := hb
          simp only [Res.ok.injEq, Prod.mk.injEq] at hb2
          obtain ⟨rfl, hb2⟩ := hb2
          refine ⟨_, n, hagain.2 _ (_, n) (by unfold at1; rw [hb1]; rfl), _, .inl ?_, ha⟩
          rw [hb2]
        · rw [← hsub] at hf
          refine ⟨A, 1, hagain.2 _ _ ?_, l, .inr ⟨hms, key, pr, rep, he, hl, rfl, rfl⟩, h⟩
          unfold at1
          simp only [eraseAgain, hf, Res.ok_bind, upd_self]
  · exact .sec (ans := some) (hK.1 op).1 hn hR (body_meets hC hK ho) fun r => .unlock (hk r)

theorem progCode_good {P : PCfg α κ} (hC : CfgOk P.C) {K : Cutting α κ} (hK : K.Ok P) {ok : List Nat → Nat → Prop}
    (hok : ∀ held i, ok held i → i ∉ held) {ρ : Type} : ∀ (p : Prog α κ) (ls : List (Nat × Mode))
    {kp : List (Resp α) → Plan (POp α κ) (Resp α) ρ} {k : List (Resp α) → Code (Tbl α) ρ}, p.All (CallOk P) →
    p.Nests P.C.key (kidx P) ok (ls.map Prod.fst) →
    (∀ rs, NGood (Abs P) (stepSem P) (fun ls i => ok (ls.map Prod.fst) i) ls (kp rs) (k rs)) →
    NGood (Abs P) (stepSem P) (fun ls i => ok (ls.map Prod.fst) i) ls (Spec.Nest.steps p kp) (progCode P K p k) := by
  intro p
  induction p with
  | done => intro ls kp k _ _ hk; exact hk []
  | call op rest ih =>
    intro ls kp k ha hf hk
    simp only [Prog.All] at ha
    simp only [Prog.Nests] at hf
    obtain ⟨⟨i, hi, ho⟩, hf⟩ := hf
    rw [reach_submap P ha.1.1] at hi
    simp only [Option.some.injEq, List.cons.injEq, and_true] at hi
    subst hi
    exact callCode_good hC hK ha.1 (hok _ _ ho) ho fun r => ih r ls (ha.2 r) (hf r) fun rs => hk _
  | visit op inner rest ih1 ih2 =>
    intro ls kp k ha hf hk
    simp only [Prog.All] at ha
    simp only [Prog.Nests] at hf
    obtain ⟨⟨i, hi, ho, hin⟩, hf⟩ := hf
    rw [reach_submap P ha.1.1.1] at hi
    simp only [Option.some.injEq, List.cons.injEq, and_true] at hi
    subst hi
    rw [Spec.Nest.steps, progCode]
    refine .sec (R := fun ls i => ok (ls.map Prod.fst) i) (ans := some) (hK.1 op).1 (hok _ _ ho) ho (body_meets hC hK ha.1.1) fun r => ?_
    show NGood _ _ _ _ (match seen r with
      | some b => Spec.Nest.steps (inner b) fun rs => Spec.Nest.steps (rest r) fun qs => kp (rs ++ r :: qs)
      | none => Spec.Nest.steps (rest r) fun qs => kp (r :: qs)) _
    cases seen r with
    | none => exact .unlock (ih2 r ls (ha.2.2 r) (hf r) fun qs => hk _)
    | some b =>
      exact ih1 b ((submap P op, lockMode P op) :: ls) (ha.2.1 b) (hin b) fun rs =>
        .unlock (ih2 r ls (ha.2.2 r) (hf r) fun qs => hk _)

theorem code_good {P : PCfg α κ} (hC : CfgOk P.C) {K : Cutting α κ} (hK : K.Ok P) {ok : List Nat → Nat → Prop}
    (hok : ∀ held i, ok held i → i ∉ held) {p : Prog α κ} (ha : p.All (CallOk P)) (hf : p.Nests P.C.key (kidx P) ok []) :
    NGood (Abs P) (stepSem P) (fun ls i => ok (ls.map Prod.fst) i) [] (Spec.Nest.plan p) (code P K p) :=
  progCode_good hC hK hok p [] ha hf fun _ => .ret

/-- The plan carried out without interruption is the program run alone. -/
theorem alone_steps (key : α → κ) (eqv : κ → κ → Bool) {ρ : Type} : ∀ (p : Prog α κ) (k : List (Resp α) → Plan (POp α κ) (Resp α) ρ)
    (l : List α), Spec.Nest.alone key eqv (Spec.Nest.steps p k) l =
      Spec.Nest.alone key eqv (k (Spec.Nest.run key eqv p l).2) (Spec.Nest.run key eqv p l).1 := by
  intro p
  induction p with
  | done => intro k l; rfl
  | call op rest ih => intro k l; simp only [Spec.Nest.steps, Spec.Nest.alone, Spec.Nest.run]; rw [ih]
  | visit op inner rest ih1 ih2 =>
    intro k l
    simp only [Spec.Nest.steps, Spec.Nest.alone, Spec.Nest.run]
    cases seen (Spec.pstep key eqv l op).2 with
    | none => dsimp only; rw [ih2]
    | some b => dsimp only; rw [ih1, ih2]

/-! ## A cutting -/

/-- Every section in one action. -/
def wholes (P : PCfg α κ) : Cutting α κ where
  body o := if isConst o then Multi.look (at1 (submap P o) (Conc.body P o)) else Multi.prim (at1 (submap P o) (Conc.body P o))
  look k := Multi.look (at1 (subidx P.N (P.C.hash k)) (eraseLook P k))
  again k pr := Multi.prim (at1 (subidx P.N (P.C.hash k)) (eraseAgain P k pr))

theorem wholes_ok (P : PCfg α κ) : (wholes P).Ok P := by
  refine ⟨fun o => ?_, fun k => look1_does _ _ _ fun _ _ => eraseLook_const, fun k pr => prim1_does _ _⟩
  unfold wholes
  dsimp only
  cases hc : isConst o with
  | true => exact look1_does _ _ _ fun _ _ => body_const hc
  | false =>
    have : lockMode P o = .excl := by
      cases o with
      | base op => cases op <;> first | rfl | cases hc
      | _ => first | rfl | cases hc
    rw [this]
    exact prim1_does _ _

/-! ## Threads that wait for each other -/

/-- Two threads that each hold a lock the other one wants, after one action under the first lock. -/
theorem cross_act {op σ ρ : Type} {code : op → Code σ ρ} {A : Nat → σ} {o o' : op} {i j : Nat} {k k' : Code σ ρ} {w w' q q'}
    (hij : i ≠ j) {m m' : Mode} (h : code o = .lock [(i, .excl)] (.act w q)) (h' : code o' = .lock [(j, .excl)] (.act w' q'))
    (hq : q A = .lock [(j, m)] k) (hq' : q' (w A) = .lock [(i, m')] k') :
    ∃ W, Exec code (start A) [.inv 0 o, .inv 1 o'] W ∧ Deadlock W := by
  let W1 : World op σ ρ := { (start A : World op σ ρ) with th := upd (start A : World op σ ρ).th 0 (.run o (code o)) }
  let W2 : World op σ ρ := { W1 with th := upd W1.th 1 (.run o' (code o')) }
  let W3 : World op σ ρ := { W2 with hold := grant W2.hold 0 [(i, .excl)], th := upd W2.th 0 (.run o (.act w q)) }
  let W4 : World op σ ρ := { W3 with hold := grant W3.hold 1 [(j, .excl)], th := upd W3.th 1 (.run o' (.act w' q')) }
  let W5 : World op σ ρ := { W4 with obj := w W4.obj, th := upd W4.th 0 (.run o (q W4.obj)) }
  let W6 : World op σ ρ := { W5 with obj := w' W5.obj, th := upd W5.th 1 (.run o' (q' W5.obj)) }
  have e1 : Step code (start A) (some (.inv 0 o)) W1 := .call rfl
  have e2 : Step code W1 (some (.inv 1 o')) W2 := .call (by simp [W1, start, upd])
  have hW2 : ∀ x t, W2.hold x t = none := fun _ _ => rfl
  have e3 : Step code W2 none W3 := by
    refine .lock (by simp [W2, W1, upd, h]) ⟨by simp, fun l hl => ?_⟩
    simp only [List.mem_singleton] at hl
    subst hl
    exact hW2 _
  have hW3 : ∀ t, W3.hold j t = none := by
    intro t
    show upd W2.hold i _ j t = none
    rw [upd_ne _ _ (Ne.symm hij)]; exact hW2 _ _
  have e4 : Step code W3 none W4 := by
    refine .lock (by simp [W3, W2, upd, h']) ⟨by simp, fun l hl => ?_⟩
    simp only [List.mem_singleton] at hl
    subst hl
    exact hW3
  have e5 : Step code W4 none W5 := .act (by simp [W4, W3, upd])
  have e6 : Step code W5 none W6 := .act (by simp [W5, W4, upd])
  have hx := Exec.tail (.tail (.tail (.tail (.tail (.tail (.refl (code := code)) e1) e2) e3) e4) e5) e6
  refine ⟨W6, by simpa using hx, ⟨0, by simp [W6, W5, upd]⟩, fun t ht => ?_⟩
  have hold0 : W6.hold i 0 = some .excl := by
    simp [W6, W5, W4, W3, grant, upd, hij]
  have hold1 : W6.hold j 1 = some .excl := by
    simp [W6, W5, W4, grant, upd]
  have hnf : ∀ {x u : Nat} {n : Mode}, W6.hold x u = some .excl → ¬ Free W6 x n := by
    intro x u n hh hf
    cases n with
    | excl => have := hf u; rw [hh] at this; cases this
    | shared => exact hf u hh
  by_cases ht0 : t = 0
  · subst ht0
    refine ⟨o, [(j, m)], k, ?_, fun hc => hnf hold1 (hc.2 (j, m) (by simp))⟩
    have : W6.th 0 = .run o (q A) := by simp [W6, W5, W4, W3, W2, W1, start, upd]
    rw [this, hq]
  · by_cases ht1 : t = 1
    · subst ht1
      refine ⟨o', [(i, m')], k', ?_, fun hc => hnf hold0 (hc.2 (i, m') (by simp))⟩
      have : W6.th 1 = .run o' (q' (w A)) := by simp [W6, W5, W4, W3, W2, W1, start, upd]
      rw [this, hq']
    · exact absurd (by simp [W6, W5, W4, W3, W2, W1, start, upd, ht0, ht1]) ht

/-- A thread that wants a lock it holds, after one action. -/
theorem self_act {op σ ρ : Type} {code : op → Code σ ρ} {A : Nat → σ} {o : op} {i : Nat} {k : Code σ ρ} {w q} {m : Mode}
    (h : code o = .lock [(i, .excl)] (.act w q)) (hq : q A = .lock [(i, m)] k) :
    ∃ W, Exec code (start A) [.inv 0 o] W ∧ Deadlock W := by
  let W1 : World op σ ρ := { (start A : World op σ ρ) with th := upd (start A : World op σ ρ).th 0 (.run o (code o)) }
  let W3 : World op σ ρ := { W1 with hold := grant W1.hold 0 [(i, .excl)], th := upd W1.th 0 (.run o (.act w q)) }
  let W5 : World op σ ρ := { W3 with obj := w W3.obj, th := upd W3.th 0 (.run o (q W3.obj)) }
  have e1 : Step code (start A) (some (.inv 0 o)) W1 := .call rfl
  have e3 : Step code W1 none W3 := by
    refine .lock (by simp [W1, upd, h]) ⟨by simp, fun l hl => ?_⟩
    simp only [List.mem_singleton] at hl
    subst hl
    intro t; rfl
  have e5 : Step code W3 none W5 := .act (by simp [W3, upd])
  have hx := Exec.tail (.tail (.tail (.refl (code := code)) e1) e3) e5
  refine ⟨W5, by simpa using hx, ⟨0, by simp [W5, upd]⟩, fun t ht => ?_⟩
  have hold0 : W5.hold i 0 = some .excl := by simp [W5, W3, grant, upd]
  by_cases ht0 : t = 0
  · subst ht0
    refine ⟨o, [(i, m)], k, ?_, fun hc => ?_⟩
    · have : W5.th 0 = .run o (q A) := by simp [W5, W3, W1, start, upd]
      rw [this, hq]
    · have hf := hc.2 (i, m) (by simp)
      cases m with
      | excl => have := hf 0; rw [hold0] at this; cases this
      | shared => exact hf 0 hold0
  · exact absurd (by simp [W5, W3, W1, start, upd, ht0]) ht

end Gtl.Conc.Multi.Nest
