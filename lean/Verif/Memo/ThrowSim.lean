import Verif.Memo.Throw
import Verif.Memo.Sim
/-!
# A memoized function that throws keeps the values it has
-/

namespace Gtl.Memo

open Gtl.Swiss Gtl.Parallel
open Gtl.Spec.Memo (Prog TOp TResp Value eval)

variable {κ ν : Type} {M : MCfg κ} {body : κ → Prog κ ν}

/-- What a call may do. -/
def GoodT (M : MCfg κ) (body : κ → Prog κ ν)
    (rec : PTbl (κ × ν) → Option Nat → κ → Res (PTbl (κ × ν) × Out ν × List κ)) : Prop :=
  ∀ p D j k, Inv M body p D → rec p j k = .hang ∨
    ∃ p' o tr, rec p j k = .ok (p', o, tr) ∧ Inv M body p' (D ++ tr) ∧
      (∀ d, eval body d k ≠ none → ∀ k' ∈ tr, eval body d k' ≠ none) ∧
      (D.any (fun k' => M.eqv k' k) = true → tr = [] ∧ o ≠ .threw) ∧
      ((o = .threw ∧ j ≠ none) ∨ ∃ v left, o = .val v left ∧ (j = none → left = none) ∧ Value body k v ∧
        (D ++ tr).any (fun k' => M.eqv k' k) = true)

theorem execT_good {rec : PTbl (κ × ν) → Option Nat → κ → Res (PTbl (κ × ν) × Out ν × List κ)} (hr : GoodT M body rec) :
    ∀ (c : Prog κ ν) (p : PTbl (κ × ν)) (D : List κ) (j : Option Nat), Inv M body p D → execT rec c p j = .hang ∨
    ∃ p' o tr, execT rec c p j = .ok (p', o, tr) ∧ Inv M body p' (D ++ tr) ∧
      (∀ d, c.run (eval body d) ≠ none → ∀ k' ∈ tr, eval body d k' ≠ none) ∧
      ((o = .threw ∧ j ≠ none) ∨ ∃ v left, o = .val v left ∧ (j = none → left = none) ∧
        ∃ n, c.run (eval body n) = some v)
  | .ret v, p, D, j, h => by
    right
    by_cases hj : j = some 0
    · subst hj
      exact ⟨p, .threw, [], rfl, by rw [List.append_nil]; exact h, fun d _ k' hk => (by cases hk), .inl ⟨rfl, by simp⟩⟩
    · refine ⟨p, .val v (j.map Nat.pred), [], ?_, by rw [List.append_nil]; exact h, fun d _ k' hk => (by cases hk),
        .inr ⟨v, _, rfl, fun e => by rw [e]; rfl, 0, rfl⟩⟩
      unfold execT
      split
      · exact absurd rfl hj
      · rfl
  | .call k next, p, D, j, h => by
    by_cases hj : j = some 0
    · subst hj
      exact .inr ⟨p, .threw, [], rfl, by rw [List.append_nil]; exact h, fun d _ k' hk => (by cases hk), .inl ⟨rfl, by simp⟩⟩
    · have hx : execT rec (.call k next) p j = (do
          let (p, o, tr) ← rec p (j.map Nat.pred) k
          match o with
          | .threw => .ok (p, .threw, tr)
          | .val v j => do
            let (p, o, tr') ← execT rec (next v) p j
            .ok (p, o, tr ++ tr')) := by
        conv => lhs; unfold execT
        split
        · exact absurd rfl hj
        · rfl
      rw [hx]
      have hjn : ∀ {x : Option Nat}, x = j → x.map Nat.pred ≠ none → j ≠ none := by
        intro x hx h1 h2; rw [hx, h2] at h1; exact h1 rfl
      rcases hr p D (j.map Nat.pred) k h with e | ⟨p1, o, tr, e, h1, h2, _, h4⟩
      · rw [e]; exact .inl rfl
      · rw [e]
        simp only [Res.ok_bind]
        rcases h4 with ⟨rfl, h4⟩ | ⟨w, left, rfl, h4, h5, _⟩
        · refine .inr ⟨p1, .threw, tr, rfl, h1, ?_, .inl ⟨rfl, hjn rfl h4⟩⟩
          intro d hd k' hk'
          unfold Prog.run at hd
          cases hdk : eval body d k with
          | none => rw [hdk] at hd; exact absurd rfl hd
          | some w => exact h2 d (by rw [hdk]; simp) k' hk'
        · dsimp only
          rcases execT_good hr (next w) p1 (D ++ tr) left h1 with e | ⟨p2, o, tr', e, g1, g2, g3⟩
          · rw [e]; exact .inl rfl
          · rw [e]
            refine .inr ⟨p2, o, tr ++ tr', rfl, by rw [← List.append_assoc]; exact g1, ?_, ?_⟩
            · intro d hd k' hk'
              unfold Prog.run at hd
              cases hdk : eval body d k with
              | none => rw [hdk] at hd; exact absurd rfl hd
              | some w' =>
                rw [hdk] at hd
                have : w' = w := value_unique ⟨d, hdk⟩ h5
                subst this
                rcases List.mem_append.1 hk' with hk' | hk'
                · exact h2 d (by rw [hdk]; simp) k' hk'
                · exact g2 d hd k' hk'
            · rcases g3 with ⟨rfl, g3⟩ | ⟨v, left', rfl, g3, n, g4⟩
              · refine .inl ⟨rfl, fun e => g3 (h4 (by rw [e]; rfl))⟩
              · obtain ⟨m, hm⟩ := h5
                refine .inr ⟨v, left', rfl, fun e => g3 (h4 (by rw [e]; rfl)), max n m, ?_⟩
                unfold Prog.run
                rw [eval_mono (Nat.le_max_right n m) hm]
                exact prog_mono (fun k v hk => eval_mono (Nat.le_max_left n m) hk) _ g4

theorem callT_good (hC : CfgOk (M.P (ν := ν)).C) (hb : Respects M.eqv body) : ∀ n, GoodT M body (callT M body n)
  | 0 => fun p D j k h => .inl rfl
  | n + 1 => fun p D j k h => by
    obtain ⟨p1, h1, ⟨e, g1, g2, g3⟩ | ⟨g1, g3⟩⟩ := lookup_inv hC hb h k
    · right
      refine ⟨p1, .val e.2 j, [], ?_, by rw [List.append_nil]; exact h1, fun d _ k' hk => (by cases hk),
        fun _ => ⟨rfl, by simp⟩, .inr ⟨e.2, j, rfl, id, g2, by rw [List.append_nil]; exact g3⟩⟩
      unfold callT
      rw [g1]; rfl
    · unfold callT
      rw [g1]
      simp only [Res.ok_bind]
      have lift : ∀ tr : List κ, (∀ d, (body k).run (eval body d) ≠ none → ∀ k' ∈ tr, eval body d k' ≠ none) →
          ∀ d, eval body d k ≠ none → ∀ k' ∈ tr, eval body d k' ≠ none := by
        intro tr a3 d hd k' hk'
        cases d with
        | zero => exact absurd rfl hd
        | succ d =>
          have := a3 d hd k' hk'
          cases hdk : eval body d k' with
          | none => exact absurd hdk this
          | some w => rw [eval_succ d hdk]; simp
      rcases execT_good (callT_good hC hb n) (body k) p1 D j h1 with e | ⟨p2, o, tr, e, a1, a3, a4⟩
      · rw [e]; exact .inl rfl
      · rw [e]
        simp only [Res.ok_bind]
        rcases a4 with ⟨rfl, a4⟩ | ⟨v, left, rfl, a4, m, a2⟩
        · exact .inr ⟨p2, .threw, tr, rfl, a1, lift tr a3, (fun ht => by rw [ht] at g3; cases g3), .inl ⟨rfl, a4⟩⟩
        · dsimp only
          have hv : Value body k v := ⟨m + 1, a2⟩
          -- the smallest depth at which the value is found
          have hmin : ∃ d, (body k).run (eval body d) ≠ none ∧ eval body d k = none := by
            have : ∀ j, eval body j k = none ∨ ∃ d, (body k).run (eval body d) ≠ none ∧ eval body d k = none := by
              intro j
              induction j with
              | zero => exact .inl rfl
              | succ j ih =>
                rcases ih with ih | ih
                · by_cases hj : (body k).run (eval body j) = none
                  · exact .inl hj
                  · exact .inr ⟨j, hj, ih⟩
                · exact .inr ih
            rcases this (m + 1) with hno | hd
            · exact absurd (show eval body (m + 1) k = some v from a2) (by rw [hno]; simp)
            · exact hd
          have hnew : (D ++ tr).any (fun k' => M.eqv k' k) = false := by
            rw [List.any_append, g3, Bool.false_or, List.any_eq_false]
            intro k' hk' he
            obtain ⟨d, hd1, hd2⟩ := hmin
            have := a3 d hd1 k' hk'
            rw [eval_eqv hb he] at this
            exact this hd2
          obtain ⟨p3, r, b1, b2⟩ := insert_inv hC a1 hnew hv
          rw [b1]
          refine .inr ⟨p3, .val v left, tr ++ [k], rfl, by rw [← List.append_assoc]; exact b2, ?_, ?_,
            .inr ⟨v, left, rfl, a4, hv, ?_⟩⟩
          · intro d hd k' hk'
            rcases List.mem_append.1 hk' with hk' | hk'
            · exact lift tr a3 d hd k' hk'
            · rw [List.mem_singleton] at hk'
              subst hk'
              exact hd
          · intro ht; rw [ht] at g3; cases g3
          · simp [show M.eqv k k = true from hC.refl k]

/-- With enough depth a call returns. -/
theorem execT_ends {rec : PTbl (κ × ν) → Option Nat → κ → Res (PTbl (κ × ν) × Out ν × List κ)} (hr : GoodT M body rec) {d : Nat}
    (hd : ∀ p D j k, Inv M body p D → eval body d k ≠ none → rec p j k ≠ .hang) :
    ∀ (c : Prog κ ν) (p : PTbl (κ × ν)) (D : List κ) (j : Option Nat), Inv M body p D → c.run (eval body d) ≠ none →
      execT rec c p j ≠ .hang
  | .ret v, p, D, j, h, hc => by unfold execT; split <;> simp
  | .call k next, p, D, j, h, hc => by
    unfold Prog.run at hc
    cases hdk : eval body d k with
    | none => rw [hdk] at hc; exact absurd rfl hc
    | some w' =>
      rw [hdk] at hc
      unfold execT
      split
      · simp
      · rename_i hj
        rcases hr p D (j.map Nat.pred) k h with e | ⟨p1, o, tr, e, h1, _, _, h4⟩
        · exact absurd e (hd p D _ k h (by rw [hdk]; simp))
        · rw [e]
          simp only [Res.ok_bind]
          rcases h4 with ⟨rfl, h4⟩ | ⟨w, left, rfl, h4, h5, _⟩
          · simp
          · have : w' = w := value_unique ⟨d, hdk⟩ h5
            subst this
            dsimp only
            intro hh
            have := execT_ends hr hd (next w') p1 _ left h1 hc
            cases hx : execT rec (next w') p1 left with
            | ok a => rw [hx] at hh; cases hh
            | ub => rw [hx] at hh; cases hh
            | hang => exact this hx

theorem callT_ends (hC : CfgOk (M.P (ν := ν)).C) (hb : Respects M.eqv body) :
    ∀ (d n : Nat), d ≤ n → ∀ p D j k, Inv M body p D → eval body d k ≠ none → callT M body n p j k ≠ .hang
  | 0, n, _, p, D, j, k, h, hd => absurd rfl hd
  | d + 1, 0, hn, p, D, j, k, h, hd => absurd hn (by omega)
  | d + 1, n + 1, hn, p, D, j, k, h, hd => by
    intro hh
    rcases callT_good hC hb (n + 1) p D j k h with _ | ⟨p', o, tr, e, _⟩
    · unfold callT at hh
      obtain ⟨p1, h1, ⟨e, g1, g2, g3⟩ | ⟨g1, g3⟩⟩ := lookup_inv hC hb h k
      · rw [g1] at hh; cases hh
      · rw [g1] at hh
        simp only [Res.ok_bind] at hh
        have he := execT_ends (callT_good hC hb n)
          (fun p D j k h1 h2 => callT_ends hC hb d n (by omega) p D j k h1 h2) (body k) p1 D j h1 hd
        rcases execT_good (callT_good hC hb n) (body k) p1 D j h1 with e | ⟨p2, o, tr, e, ⟨l, l1, -⟩, -⟩
        · exact he e
        · rw [e] at hh
          simp only [Res.ok_bind] at hh
          cases o with
          | threw => cases hh
          | val v left =>
            obtain ⟨p3, q1, -⟩ := pstep_sim hC l1 (.base (.insert (k, v))) trivial
            dsimp only at hh
            rw [q1] at hh; cases hh
    · rw [e] at hh; cases hh

/-- More depth does not change the result. -/
theorem execT_mono {rec rec' : PTbl (κ × ν) → Option Nat → κ → Res (PTbl (κ × ν) × Out ν × List κ)}
    (h : ∀ p j k r, rec p j k = .ok r → rec' p j k = .ok r) :
    ∀ (c : Prog κ ν) (p : PTbl (κ × ν)) j r, execT rec c p j = .ok r → execT rec' c p j = .ok r
  | .ret v, p, j, r, e => e
  | .call k next, p, j, r, e => by
    unfold execT at e ⊢
    split at e
    · exact e
    · rw [Res.bind_eq_ok] at e
      obtain ⟨⟨p1, o, tr⟩, e1, e2⟩ := e
      rw [h _ _ _ _ e1]
      simp only [Res.ok_bind]
      dsimp only at e2
      split at e2
      · exact e2
      · rw [Res.bind_eq_ok] at e2
        obtain ⟨b, e3, e4⟩ := e2
        rw [execT_mono h _ _ _ b e3]
        exact e4

theorem callT_succ : ∀ (n : Nat) (p : PTbl (κ × ν)) j k r, callT M body n p j k = .ok r → callT M body (n + 1) p j k = .ok r
  | 0, p, j, k, r, e => by cases e
  | n + 1, p, j, k, r, e => by
    unfold callT at e ⊢
    rw [Res.bind_eq_ok] at e
    obtain ⟨⟨p1, a⟩, e1, e2⟩ := e
    rw [e1]
    simp only [Res.ok_bind]
    dsimp only at e2
    split at e2
    · exact e2
    · rw [Res.bind_eq_ok] at e2
      obtain ⟨b, e3, e4⟩ := e2
      rw [execT_mono (callT_succ n) _ _ _ b e3]
      exact e4
    · cases e2

theorem callT_mono {n m : Nat} (h : n ≤ m) {p : PTbl (κ × ν)} {j k r} (e : callT M body n p j k = .ok r) :
    callT M body m p j k = .ok r := by
  induction h with
  | refl => exact e
  | step _ ih => exact callT_succ _ _ _ _ _ ih

/-! ## Histories -/

/-- The answer to an operation is right; `D` are the arguments evaluated since the last `clear`, before the operation. -/
def RightT (M : MCfg κ) (body : κ → Prog κ ν) (D : List κ) : TOp κ → TResp ν × List κ → Prop
  | .call k fail, r => ((r.1 = .threw ∧ fail ≠ none) ∨ ∃ v, r.1 = .val v ∧ Value body k v ∧
      (D ++ r.2).any (fun k' => M.eqv k' k) = true) ∧
      (D.any (fun k' => M.eqv k' k) = true → r.2 = [] ∧ r.1 ≠ .threw)
  | .contains k, r => r.2 = [] ∧ ∃ o, r.1 = .opt o ∧ o.isSome = D.any (fun k' => M.eqv k' k) ∧ ∀ v, o = some v → Value body k v
  | .clear, r => r = (.unit, [])
  | .reserve _, r => r = (.unit, [])
  | .size, r => r = (.nat D.length, [])

/-- The arguments evaluated since the last `clear`, after the operation. -/
def afterT (D : List κ) (op : TOp κ) (tr : List κ) : List κ :=
  match op with
  | .clear => []
  | _ => D ++ tr

theorem stepT_inv (hC : CfgOk (M.P (ν := ν)).C) (hb : Respects M.eqv body) {p : PTbl (κ × ν)} {D : List κ} (h : Inv M body p D)
    (n : Nat) (op : TOp κ) :
    (stepT M body n p op = .hang ∧ ∃ k j, op = .call k j ∧ callT M body n p j k = .hang) ∨
    ∃ p' r, stepT M body n p op = .ok (p', r) ∧ Inv M body p' (afterT D op r.2) ∧ RightT M body D op r := by
  cases op with
  | call k j =>
    unfold stepT
    dsimp only
    rcases callT_good hC hb n p D j k h with e | ⟨p', o, tr, e, h1, _, h3, h4⟩
    · rw [e]; exact .inl ⟨rfl, k, j, rfl, e⟩
    · rw [e]
      right
      rcases h4 with ⟨rfl, h4⟩ | ⟨v, left, rfl, _, h4, h5⟩
      · exact ⟨p', (.threw, tr), rfl, h1, .inl ⟨rfl, h4⟩, fun ht => absurd rfl (h3 ht).2⟩
      · exact ⟨p', (.val v, tr), rfl, h1, .inr ⟨v, rfl, h4, h5⟩, fun ht => ⟨(h3 ht).1, by simp⟩⟩
  | contains k =>
    right
    unfold stepT restT
    dsimp only
    obtain ⟨p1, h1, ⟨e, g1, g2, g3⟩ | ⟨g1, g3⟩⟩ := lookup_inv hC hb h k
    · rw [g1]
      refine ⟨p1, (.opt (some e.2), []), rfl, by simpa [afterT] using h1, rfl, _, rfl, g3.symm, ?_⟩
      intro v hv; injection hv with hv; rw [← hv]; exact g2
    · rw [g1]
      refine ⟨p1, (.opt none, []), rfl, by simpa [afterT] using h1, rfl, _, rfl, g3.symm, ?_⟩
      intro v hv; cases hv
  | clear =>
    right
    obtain ⟨l, h1, h2, h3⟩ := h
    obtain ⟨p', e1, e2⟩ := pstep_sim hC h1 (.base .clear) trivial
    unfold stepT restT
    dsimp only
    rw [e1]
    exact ⟨p', (.unit, []), rfl, ⟨[], e2, rfl, fun e he => by cases he⟩, rfl⟩
  | reserve m =>
    right
    obtain ⟨l, h1, h2, h3⟩ := h
    obtain ⟨p', e1, e2⟩ := pstep_sim hC h1 (.base (.reserve m)) trivial
    unfold stepT restT
    dsimp only
    rw [e1]
    exact ⟨p', (.unit, []), rfl, ⟨l, e2, by simpa [afterT] using h2, h3⟩, rfl⟩
  | size =>
    right
    refine ⟨p, (.nat p.size, []), rfl, by simpa [afterT] using h, ?_⟩
    obtain ⟨l, h1, h2, h3⟩ := h
    show (_, _) = (_, _)
    rw [h1.size, ← List.length_reverse (as := D), ← h2, List.length_map]

/-- Every answer is right, given what was evaluated before. -/
def RightAllT (M : MCfg κ) (body : κ → Prog κ ν) : List κ → List (TOp κ) → List (TResp ν × List κ) → Prop
  | _, [], [] => True
  | D, op :: ops, r :: rs => RightT M body D op r ∧ RightAllT M body (afterT D op r.2) ops rs
  | _, _, _ => False

/-- What was evaluated since the last `clear`, after a history. -/
def afterAllT : List κ → List (TOp κ) → List (TResp ν × List κ) → List κ
  | D, op :: ops, r :: rs => afterAllT (afterT D op r.2) ops rs
  | D, _, _ => D

theorem runT_inv (hC : CfgOk (M.P (ν := ν)).C) (hb : Respects M.eqv body) (n : Nat) :
    ∀ (ops : List (TOp κ)) (p : PTbl (κ × ν)) (D : List κ), Inv M body p D →
    (runT M body n p ops = .hang ∧ ∃ k j, TOp.call k j ∈ ops ∧ ∃ p D, Inv M body p D ∧ callT M body n p j k = .hang) ∨
    ∃ p' rs, runT M body n p ops = .ok (p', rs) ∧ Inv M body p' (afterAllT D ops rs) ∧ RightAllT M body D ops rs
  | [], p, D, h => .inr ⟨p, [], rfl, h, trivial⟩
  | op :: ops, p, D, h => by
    unfold runT
    rcases stepT_inv hC hb h n op with ⟨e, k, j, rfl, hk⟩ | ⟨p1, r, e, h1, h2⟩
    · rw [e]; exact .inl ⟨rfl, k, j, List.mem_cons_self, p, D, h, hk⟩
    · rw [e]
      simp only [Res.ok_bind]
      rcases runT_inv hC hb n ops p1 _ h1 with ⟨e, k, j, hk, hh⟩ | ⟨p2, rs, e, g1, g2⟩
      · rw [e]; exact .inl ⟨rfl, k, j, List.mem_cons_of_mem _ hk, hh⟩
      · rw [e]
        exact .inr ⟨p2, r :: rs, rfl, g1, h2, g2⟩

theorem runT_mono {n m : Nat} (h : n ≤ m) : ∀ (ops : List (TOp κ)) (p : PTbl (κ × ν)) r,
    runT M body n p ops = .ok r → runT M body m p ops = .ok r
  | [], p, r, e => e
  | op :: ops, p, r, e => by
    unfold runT at e ⊢
    rw [Res.bind_eq_ok] at e
    obtain ⟨a, e1, e2⟩ := e
    rw [Res.bind_eq_ok] at e2
    obtain ⟨b, e3, e4⟩ := e2
    have : stepT M body m p op = .ok a := by
      cases op with
      | call k j =>
        unfold stepT at e1 ⊢
        dsimp only at e1 ⊢
        rw [Res.bind_eq_ok] at e1
        obtain ⟨c, e5, e6⟩ := e1
        rw [callT_mono h e5]
        exact e6
      | _ => exact e1
    rw [this]
    simp only [Res.ok_bind]
    rw [runT_mono h ops a.1 b e3]
    exact e4

theorem afterAllT_eq : ∀ (ops : List (TOp κ)) (rs : List (TResp ν × List κ)) (D : List κ),
    afterAllT D ops rs = (ops.zip rs).foldl (fun d e => match e.1 with
      | .clear => []
      | _ => d ++ e.2.2) D
  | [], rs, D => by cases rs <;> rfl
  | op :: ops, [], D => rfl
  | op :: ops, r :: rs, D => by
    unfold afterAllT
    rw [afterAllT_eq ops rs, List.zip_cons_cons, List.foldl_cons]
    unfold afterT
    cases op <;> rfl

theorem RightAllT.length : ∀ {ops : List (TOp κ)} {rs : List (TResp ν × List κ)} {D : List κ}, RightAllT M body D ops rs →
    rs.length = ops.length
  | [], [], _, _ => rfl
  | _ :: _, [], _, h => h.elim
  | [], _ :: _, _, h => h.elim
  | op :: ops, r :: rs, D, h => by rw [List.length_cons, List.length_cons, RightAllT.length h.2]

theorem RightAllT.get : ∀ {ops : List (TOp κ)} {rs : List (TResp ν × List κ)} {D : List κ}, RightAllT M body D ops rs →
    ∀ (i : Nat) op r, ops[i]? = some op → rs[i]? = some r →
      RightT M body (afterAllT D (ops.take i) (rs.take i)) op r
  | [], [], _, _, i, op, r, ho, _ => by simp at ho
  | _ :: _, [], _, h, _, _, _, _, _ => h.elim
  | [], _ :: _, _, h, _, _, _, _, _ => h.elim
  | op :: ops, r :: rs, D, h, 0, op', r', ho, hr => by
    simp only [List.getElem?_cons_zero, Option.some.injEq] at ho hr
    subst ho hr
    exact h.1
  | op :: ops, r :: rs, D, h, i + 1, op', r', ho, hr => by
    rw [List.getElem?_cons_succ] at ho hr
    rw [List.take_succ_cons, List.take_succ_cons]
    exact h.2.get i op' r' ho hr

end Gtl.Memo
