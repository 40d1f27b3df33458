import Verif.Props.MemoDefs
import Verif.Parallel.Bulk
/-!
# A memoized function has the values of the function
-/

namespace Gtl.Memo

open Gtl.Swiss Gtl.Parallel
open Gtl.Spec.Memo (Prog Op Resp Value eval sinceClear)

variable {κ ν : Type} {M : MCfg κ} {body : κ → Prog κ ν}

/-! ## The function itself -/

theorem prog_mono {f g : κ → Option ν} (h : ∀ k v, f k = some v → g k = some v) :
    ∀ (c : Prog κ ν) {v}, c.run f = some v → c.run g = some v
  | .ret w, v, e => e
  | .call k next, v, e => by
    unfold Prog.run at e ⊢
    cases hk : f k with
    | none => rw [hk] at e; cases e
    | some w =>
      rw [hk] at e
      rw [h k w hk]
      exact prog_mono h (next w) e

theorem eval_succ : ∀ (n : Nat) {k : κ} {v : ν}, eval body n k = some v → eval body (n + 1) k = some v
  | 0, _, _, e => by cases e
  | n + 1, k, v, e => by
    unfold eval at e ⊢
    exact prog_mono (fun k v h => eval_succ n h) _ e

theorem eval_mono {n m : Nat} (h : n ≤ m) {k : κ} {v : ν} (e : eval body n k = some v) : eval body m k = some v := by
  induction h with
  | refl => exact e
  | step _ ih => exact eval_succ _ ih

theorem value_unique {k : κ} {v w : ν} (h : Value body k v) (h' : Value body k w) : v = w := by
  obtain ⟨n, h⟩ := h
  obtain ⟨m, h'⟩ := h'
  have h1 := eval_mono (Nat.le_max_left n m) h
  have h2 := eval_mono (Nat.le_max_right n m) h'
  rw [h1] at h2
  injection h2

theorem eval_eqv (hb : Respects M.eqv body) {k l : κ} (h : M.eqv k l = true) (n : Nat) : eval body n k = eval body n l := by
  cases n with
  | zero => rfl
  | succ n => unfold eval; rw [hb k l h]

theorem value_eqv (hb : Respects M.eqv body) {k l : κ} (h : M.eqv k l = true) {v : ν} (hv : Value body k v) : Value body l v := by
  obtain ⟨n, hn⟩ := hv
  exact ⟨n, by rw [← eval_eqv hb h]; exact hn⟩

/-! ## The cache -/

/-- The map has an entry for each argument in `D`, with the right value. -/
def Inv (M : MCfg κ) (body : κ → Prog κ ν) (p : PTbl (κ × ν)) (D : List κ) : Prop :=
  ∃ l, PSim M.P p l ∧ l.map Prod.fst = D.reverse ∧ ∀ e ∈ l, Value body e.1 e.2

theorem any_of_map {l : List (κ × ν)} {D : List κ} (h : l.map Prod.fst = D.reverse) (k : κ) :
    (Spec.lookup Prod.fst M.eqv l k).isSome = D.any (fun k' => M.eqv k' k) := by
  have : D = (l.map Prod.fst).reverse := by rw [h, List.reverse_reverse]
  rw [this]
  unfold Spec.lookup
  rw [List.any_reverse, List.any_map, Bool.eq_iff_iff]
  simp [List.find?_isSome]

/-- Looking an argument up. -/
theorem lookup_inv (hC : CfgOk (M.P (ν := ν)).C) (hb : Respects M.eqv body) {p : PTbl (κ × ν)} {D : List κ} (h : Inv M body p D) (k : κ) :
    ∃ p', Inv M body p' D ∧
      ((∃ e, p.pstep M.P (.ifContains k) = .ok (p', .elem (some e)) ∧ Value body k e.2 ∧ D.any (fun k' => M.eqv k' k) = true) ∨
       (p.pstep M.P (.ifContains k) = .ok (p', .elem none) ∧ D.any (fun k' => M.eqv k' k) = false)) := by
  obtain ⟨l, h1, h2, h3⟩ := h
  obtain ⟨p', e1, e2⟩ := pstep_sim hC h1 (.ifContains k) trivial
  refine ⟨p', ⟨l, e2, h2, h3⟩, ?_⟩
  have ha := any_of_map (M := M) h2 k
  rw [show (Spec.pstep (M.P (ν := ν)).C.key M.P.C.eqv l (.ifContains k)).2 = .elem (Spec.lookup Prod.fst M.eqv l k) from rfl] at e1
  cases hl : Spec.lookup Prod.fst M.eqv l k with
  | none =>
    rw [hl] at e1 ha
    exact .inr ⟨e1, ha.symm⟩
  | some e =>
    rw [hl] at e1 ha
    refine .inl ⟨e, e1, ?_, ha.symm⟩
    have he : M.eqv e.1 k = true := by
      have := List.find?_some hl
      simpa using this
    exact value_eqv hb he (h3 e (List.mem_of_find?_eq_some hl))

/-- Storing a new value. -/
theorem insert_inv (hC : CfgOk (M.P (ν := ν)).C) {p : PTbl (κ × ν)} {D : List κ} (h : Inv M body p D) {k : κ} {v : ν}
    (hk : D.any (fun k' => M.eqv k' k) = false) (hv : Value body k v) :
    ∃ p' r, p.pstep M.P (.base (.insert (k, v))) = .ok (p', r) ∧ Inv M body p' (D ++ [k]) := by
  obtain ⟨l, h1, h2, h3⟩ := h
  obtain ⟨p', e1, e2⟩ := pstep_sim hC h1 (.base (.insert (k, v))) trivial
  refine ⟨p', _, e1, (k, v) :: l, ?_, ?_, ?_⟩
  · have ha := any_of_map (M := M) h2 k
    rw [hk, Option.isSome_eq_false_iff, Option.isNone_iff_eq_none] at ha
    simp only [Spec.pstep, Spec.step] at e2
    rw [show Spec.lookup (M.P (ν := ν)).C.key M.P.C.eqv l ((M.P (ν := ν)).C.key (k, v)) = Spec.lookup Prod.fst M.eqv l k from rfl, ha] at e2
    exact e2
  · rw [List.map_cons, h2, List.reverse_append]; rfl
  · intro e he
    rcases List.mem_cons.1 he with rfl | he
    · exact hv
    · exact h3 e he

/-- What a call may do. -/
def Good (M : MCfg κ) (body : κ → Prog κ ν) (rec : PTbl (κ × ν) → κ → Res (PTbl (κ × ν) × ν × List κ)) : Prop :=
  ∀ p D k, Inv M body p D → rec p k = .hang ∨
    ∃ p' v tr, rec p k = .ok (p', v, tr) ∧ Inv M body p' (D ++ tr) ∧ Value body k v ∧
      (∀ d, eval body d k ≠ none → ∀ k' ∈ tr, eval body d k' ≠ none) ∧ (D ++ tr).any (fun k' => M.eqv k' k) = true ∧
      (D.any (fun k' => M.eqv k' k) = true → tr = [])

theorem exec_good {rec : PTbl (κ × ν) → κ → Res (PTbl (κ × ν) × ν × List κ)} (hr : Good M body rec) :
    ∀ (c : Prog κ ν) (p : PTbl (κ × ν)) (D : List κ), Inv M body p D → exec rec p c = .hang ∨
    ∃ p' v tr, exec rec p c = .ok (p', v, tr) ∧ Inv M body p' (D ++ tr) ∧ (∃ n, c.run (eval body n) = some v) ∧
      (∀ d, c.run (eval body d) ≠ none → ∀ k' ∈ tr, eval body d k' ≠ none)
  | .ret v, p, D, h => .inr ⟨p, v, [], rfl, by rw [List.append_nil]; exact h, ⟨0, rfl⟩, fun d _ k' hk => by cases hk⟩
  | .call k next, p, D, h => by
    unfold exec
    rcases hr p D k h with e | ⟨p1, w, tr, e, h1, h2, h3, _⟩
    · rw [e]; exact .inl rfl
    · rw [e]
      simp only [Res.ok_bind]
      rcases exec_good hr (next w) p1 (D ++ tr) h1 with e | ⟨p2, v, tr', e, g1, ⟨n, g2⟩, g3⟩
      · rw [e]; exact .inl rfl
      · rw [e]
        refine .inr ⟨p2, v, tr ++ tr', rfl, by rw [← List.append_assoc]; exact g1, ?_, ?_⟩
        · obtain ⟨m, hm⟩ := h2
          refine ⟨max n m, ?_⟩
          unfold Prog.run
          rw [eval_mono (Nat.le_max_right n m) hm]
          exact prog_mono (fun k v hk => eval_mono (Nat.le_max_left n m) hk) _ g2
        · intro d hd k' hk'
          unfold Prog.run at hd
          cases hdk : eval body d k with
          | none => rw [hdk] at hd; exact absurd rfl hd
          | some w' =>
            rw [hdk] at hd
            have : w' = w := value_unique ⟨d, hdk⟩ h2
            subst this
            rcases List.mem_append.1 hk' with hk' | hk'
            · exact h3 d (by rw [hdk]; simp) k' hk'
            · exact g3 d hd k' hk'

theorem call_good (hC : CfgOk (M.P (ν := ν)).C) (hb : Respects M.eqv body) : ∀ n, Good M body (call M body n)
  | 0 => fun p D k h => .inl rfl
  | n + 1 => fun p D k h => by
    obtain ⟨p1, h1, ⟨e, g1, g2, g3⟩ | ⟨g1, g3⟩⟩ := lookup_inv hC hb h k
    · right
      refine ⟨p1, e.2, [], ?_, by rw [List.append_nil]; exact h1, g2, fun d _ k' hk => (by cases hk), by rw [List.append_nil]; exact g3, fun _ => rfl⟩
      unfold call
      rw [g1]; rfl
    · unfold call
      rw [g1]
      simp only [Res.ok_bind]
      rcases exec_good (call_good hC hb n) (body k) p1 D h1 with e | ⟨p2, v, tr, e, a1, ⟨m, a2⟩, a3⟩
      · rw [e]; exact .inl rfl
      · rw [e]
        simp only [Res.ok_bind]
        have hv : Value body k v := ⟨m + 1, a2⟩
        -- the smallest depth at which the value is found
        have hmin : ∃ d, (body k).run (eval body d) ≠ none ∧ eval body d k = none := by
          have : ∀ j, eval body j k = none ∨ ∃ d, (body k).run (eval body d) ≠ none ∧ eval body d k = none := by
            intro j
            induction j with
            | zero => exact .inl rfl
            | succ j ih =>
              rcases ih with ih | ih
              · by_cases hj : (body k).run (eval body j) = none
                · exact .inl hj
                · exact .inr ⟨j, hj, ih⟩
              · exact .inr ih
          rcases this (m + 1) with hno | hd
          · exact absurd (show eval body (m + 1) k = some v from a2) (by rw [hno]; simp)
          · exact hd
        have hnew : (D ++ tr).any (fun k' => M.eqv k' k) = false := by
          rw [List.any_append, g3, Bool.false_or, List.any_eq_false]
          intro k' hk' he
          obtain ⟨d, hd1, hd2⟩ := hmin
          have := a3 d hd1 k' hk'
          rw [eval_eqv hb he] at this
          exact this hd2
        obtain ⟨p3, r, b1, b2⟩ := insert_inv hC a1 hnew hv
        rw [b1]
        refine .inr ⟨p3, v, tr ++ [k], rfl, by rw [← List.append_assoc]; exact b2, hv, ?_, ?_, ?_⟩
        · intro d hd k' hk'
          rcases List.mem_append.1 hk' with hk' | hk'
          · cases d with
            | zero => exact absurd rfl hd
            | succ d =>
              have := a3 d hd k' hk'
              cases hdk : eval body d k' with
              | none => exact absurd hdk this
              | some w => rw [eval_succ d hdk]; simp
          · rw [List.mem_singleton] at hk'
            subst hk'
            exact hd
        · simp [show M.eqv k k = true from hC.refl k]
        · intro ht; rw [ht] at g3; cases g3

/-- With enough depth a call returns. -/
theorem exec_ends {rec : PTbl (κ × ν) → κ → Res (PTbl (κ × ν) × ν × List κ)} (hr : Good M body rec) {d : Nat}
    (hd : ∀ p D k, Inv M body p D → eval body d k ≠ none → rec p k ≠ .hang) :
    ∀ (c : Prog κ ν) (p : PTbl (κ × ν)) (D : List κ), Inv M body p D → c.run (eval body d) ≠ none → exec rec p c ≠ .hang
  | .ret v, p, D, h, hc => by unfold exec; simp
  | .call k next, p, D, h, hc => by
    unfold Prog.run at hc
    cases hdk : eval body d k with
    | none => rw [hdk] at hc; exact absurd rfl hc
    | some w' =>
      rw [hdk] at hc
      unfold exec
      rcases hr p D k h with e | ⟨p1, w, tr, e, h1, h2, -⟩
      · exact absurd e (hd p D k h (by rw [hdk]; simp))
      · have : w' = w := value_unique ⟨d, hdk⟩ h2
        subst this
        rw [e]
        simp only [Res.ok_bind]
        intro hh
        have := exec_ends hr hd (next w') p1 _ h1 hc
        cases hx : exec rec p1 (next w') with
        | ok a => rw [hx] at hh; cases hh
        | ub => rw [hx] at hh; cases hh
        | hang => exact this hx

theorem call_ends (hC : CfgOk (M.P (ν := ν)).C) (hb : Respects M.eqv body) :
    ∀ (d n : Nat), d ≤ n → ∀ p D k, Inv M body p D → eval body d k ≠ none → call M body n p k ≠ .hang
  | 0, n, _, p, D, k, h, hd => absurd rfl hd
  | d + 1, 0, hn, p, D, k, h, hd => absurd hn (by omega)
  | d + 1, n + 1, hn, p, D, k, h, hd => by
    obtain ⟨p1, h1, ⟨e, g1, g2, g3⟩ | ⟨g1, g3⟩⟩ := lookup_inv hC hb h k
    · unfold call
      rw [g1]; simp
    · unfold call
      rw [g1]
      simp only [Res.ok_bind]
      have he := exec_ends (call_good hC hb n) (fun p D k h1 h2 => call_ends hC hb d n (by omega) p D k h1 h2) (body k) p1 D h1 hd
      cases hx : exec (call M body n) p1 (body k) with
      | hang => exact absurd hx he
      | ub => simp
      | ok a =>
        simp only [Res.ok_bind]
        rcases exec_good (call_good hC hb n) (body k) p1 D h1 with e | ⟨p2, v, tr, e, ⟨l, l1, -⟩, -⟩
        · exact absurd e he
        · rw [e] at hx
          injection hx with hx
          subst hx
          obtain ⟨p3, q1, -⟩ := pstep_sim hC l1 (.base (.insert (k, v))) trivial
          dsimp only
          rw [q1]; simp

/-- More depth does not change the result. -/
theorem exec_mono {rec rec' : PTbl (κ × ν) → κ → Res (PTbl (κ × ν) × ν × List κ)}
    (h : ∀ p k r, rec p k = .ok r → rec' p k = .ok r) :
    ∀ (c : Prog κ ν) (p : PTbl (κ × ν)) r, exec rec p c = .ok r → exec rec' p c = .ok r
  | .ret v, p, r, e => e
  | .call k next, p, r, e => by
    unfold exec at e ⊢
    rw [Res.bind_eq_ok] at e
    obtain ⟨a, e1, e2⟩ := e
    rw [h p k a e1]
    simp only [Res.ok_bind]
    rw [Res.bind_eq_ok] at e2
    obtain ⟨b, e3, e4⟩ := e2
    rw [exec_mono h (next a.2.1) a.1 b e3]
    exact e4

theorem call_succ : ∀ (n : Nat) (p : PTbl (κ × ν)) k r, call M body n p k = .ok r → call M body (n + 1) p k = .ok r
  | 0, p, k, r, e => by cases e
  | n + 1, p, k, r, e => by
    unfold call at e ⊢
    rw [Res.bind_eq_ok] at e
    obtain ⟨⟨p1, a⟩, e1, e2⟩ := e
    rw [e1]
    simp only [Res.ok_bind]
    dsimp only at e2
    split at e2
    · exact e2
    · rw [Res.bind_eq_ok] at e2
      obtain ⟨b, e3, e4⟩ := e2
      rw [exec_mono (call_succ n) _ _ b e3]
      exact e4
    · cases e2

theorem call_mono {n m : Nat} (h : n ≤ m) {p : PTbl (κ × ν)} {k r} (e : call M body n p k = .ok r) : call M body m p k = .ok r := by
  induction h with
  | refl => exact e
  | step _ ih => exact call_succ _ _ _ _ ih

/-! ## Histories -/

/-- The answer to an operation is right; `D` are the arguments evaluated since the last `clear`, before the operation. -/
def Right (M : MCfg κ) (body : κ → Prog κ ν) (D : List κ) : Op κ → Resp ν × List κ → Prop
  | .call k, r => ∃ v, r.1 = .val v ∧ Value body k v ∧ (D ++ r.2).any (fun k' => M.eqv k' k) = true ∧
      (D.any (fun k' => M.eqv k' k) = true → r.2 = [])
  | .contains k, r => r.2 = [] ∧ ∃ o, r.1 = .opt o ∧ o.isSome = D.any (fun k' => M.eqv k' k) ∧ ∀ v, o = some v → Value body k v
  | .clear, r => r = (.unit, [])
  | .reserve _, r => r = (.unit, [])
  | .size, r => r = (.nat D.length, [])

/-- The arguments evaluated since the last `clear`, after the operation. -/
def after (D : List κ) (op : Op κ) (tr : List κ) : List κ :=
  match op with
  | .clear => []
  | _ => D ++ tr

theorem step_inv (hC : CfgOk (M.P (ν := ν)).C) (hb : Respects M.eqv body) {p : PTbl (κ × ν)} {D : List κ} (h : Inv M body p D)
    (n : Nat) (op : Op κ) :
    (step M body n p op = .hang ∧ ∃ k, op = .call k ∧ call M body n p k = .hang) ∨
    ∃ p' r, step M body n p op = .ok (p', r) ∧ Inv M body p' (after D op r.2) ∧ Right M body D op r := by
  cases op with
  | call k =>
    unfold step
    dsimp only
    rcases call_good hC hb n p D k h with e | ⟨p', v, tr, e, h1, h2, _, h3, h4⟩
    · rw [e]; exact .inl ⟨rfl, k, rfl, e⟩
    · rw [e]
      exact .inr ⟨p', (.val v, tr), rfl, h1, v, rfl, h2, h3, h4⟩
  | contains k =>
    right
    unfold step
    dsimp only
    obtain ⟨p1, h1, ⟨e, g1, g2, g3⟩ | ⟨g1, g3⟩⟩ := lookup_inv hC hb h k
    · rw [g1]
      refine ⟨p1, (.opt (some e.2), []), rfl, by simpa [after] using h1, rfl, _, rfl, g3.symm, ?_⟩
      intro v hv; injection hv with hv; rw [← hv]; exact g2
    · rw [g1]
      refine ⟨p1, (.opt none, []), rfl, by simpa [after] using h1, rfl, _, rfl, g3.symm, ?_⟩
      intro v hv; cases hv
  | clear =>
    right
    obtain ⟨l, h1, h2, h3⟩ := h
    obtain ⟨p', e1, e2⟩ := pstep_sim hC h1 (.base .clear) trivial
    unfold step
    dsimp only
    rw [e1]
    exact ⟨p', (.unit, []), rfl, ⟨[], e2, rfl, fun e he => by cases he⟩, rfl⟩
  | reserve m =>
    right
    obtain ⟨l, h1, h2, h3⟩ := h
    obtain ⟨p', e1, e2⟩ := pstep_sim hC h1 (.base (.reserve m)) trivial
    unfold step
    dsimp only
    rw [e1]
    exact ⟨p', (.unit, []), rfl, ⟨l, e2, by simpa [after] using h2, h3⟩, rfl⟩
  | size =>
    right
    refine ⟨p, (.nat p.size, []), rfl, by simpa [after] using h, ?_⟩
    obtain ⟨l, h1, h2, h3⟩ := h
    show (_, _) = (_, _)
    rw [h1.size, ← List.length_reverse (as := D), ← h2, List.length_map]

/-- Every answer is right, given what was evaluated before. -/
def RightAll (M : MCfg κ) (body : κ → Prog κ ν) : List κ → List (Op κ) → List (Resp ν × List κ) → Prop
  | _, [], [] => True
  | D, op :: ops, r :: rs => Right M body D op r ∧ RightAll M body (after D op r.2) ops rs
  | _, _, _ => False

/-- What was evaluated since the last `clear`, after a history. -/
def afterAll : List κ → List (Op κ) → List (Resp ν × List κ) → List κ
  | D, op :: ops, r :: rs => afterAll (after D op r.2) ops rs
  | D, _, _ => D

theorem run_inv (hC : CfgOk (M.P (ν := ν)).C) (hb : Respects M.eqv body) (n : Nat) :
    ∀ (ops : List (Op κ)) (p : PTbl (κ × ν)) (D : List κ), Inv M body p D →
    (run M body n p ops = .hang ∧ ∃ k, Op.call k ∈ ops ∧ ∃ p D, Inv M body p D ∧ call M body n p k = .hang) ∨
    ∃ p' rs, run M body n p ops = .ok (p', rs) ∧ Inv M body p' (afterAll D ops rs) ∧ RightAll M body D ops rs
  | [], p, D, h => .inr ⟨p, [], rfl, h, trivial⟩
  | op :: ops, p, D, h => by
    unfold run
    rcases step_inv hC hb h n op with ⟨e, k, rfl, hk⟩ | ⟨p1, r, e, h1, h2⟩
    · rw [e]; exact .inl ⟨rfl, k, List.mem_cons_self, p, D, h, hk⟩
    · rw [e]
      simp only [Res.ok_bind]
      rcases run_inv hC hb n ops p1 _ h1 with ⟨e, k, hk, hh⟩ | ⟨p2, rs, e, g1, g2⟩
      · rw [e]; exact .inl ⟨rfl, k, List.mem_cons_of_mem _ hk, hh⟩
      · rw [e]
        exact .inr ⟨p2, r :: rs, rfl, g1, h2, g2⟩

theorem run_mono {n m : Nat} (h : n ≤ m) : ∀ (ops : List (Op κ)) (p : PTbl (κ × ν)) r, run M body n p ops = .ok r → run M body m p ops = .ok r
  | [], p, r, e => e
  | op :: ops, p, r, e => by
    unfold run at e ⊢
    rw [Res.bind_eq_ok] at e
    obtain ⟨a, e1, e2⟩ := e
    rw [Res.bind_eq_ok] at e2
    obtain ⟨b, e3, e4⟩ := e2
    have : step M body m p op = .ok a := by
      cases op with
      | call k =>
        unfold step at e1 ⊢
        dsimp only at e1 ⊢
        rw [Res.bind_eq_ok] at e1
        obtain ⟨c, e5, e6⟩ := e1
        rw [call_mono h e5]
        exact e6
      | _ => exact e1
    rw [this]
    simp only [Res.ok_bind]
    rw [run_mono h ops a.1 b e3]
    exact e4

theorem afterAll_eq : ∀ (ops : List (Op κ)) (rs : List (Resp ν × List κ)) (D : List κ),
    afterAll D ops rs = (ops.zip rs).foldl (fun d e => match e.1 with
      | .clear => []
      | _ => d ++ e.2.2) D
  | [], rs, D => by cases rs <;> rfl
  | op :: ops, [], D => rfl
  | op :: ops, r :: rs, D => by
    unfold afterAll
    rw [afterAll_eq ops rs, List.zip_cons_cons, List.foldl_cons]
    unfold after
    cases op <;> rfl

theorem RightAll.length : ∀ {ops : List (Op κ)} {rs : List (Resp ν × List κ)} {D : List κ}, RightAll M body D ops rs → rs.length = ops.length
  | [], [], _, _ => rfl
  | _ :: _, [], _, h => h.elim
  | [], _ :: _, _, h => h.elim
  | op :: ops, r :: rs, D, h => by rw [List.length_cons, List.length_cons, RightAll.length h.2]

theorem RightAll.get : ∀ {ops : List (Op κ)} {rs : List (Resp ν × List κ)} {D : List κ}, RightAll M body D ops rs →
    ∀ (i : Nat) op r, ops[i]? = some op → rs[i]? = some r →
      Right M body (afterAll D (ops.take i) (rs.take i)) op r
  | [], [], _, _, i, op, r, ho, _ => by simp at ho
  | _ :: _, [], _, h, _, _, _, _, _ => h.elim
  | [], _ :: _, _, h, _, _, _, _, _ => h.elim
  | op :: ops, r :: rs, D, h, 0, op', r', ho, hr => by
    simp only [List.getElem?_cons_zero, Option.some.injEq] at ho hr
    subst ho hr
    exact h.1
  | op :: ops, r :: rs, D, h, i + 1, op', r', ho, hr => by
    rw [List.getElem?_cons_succ] at ho hr
    rw [List.take_succ_cons, List.take_succ_cons]
    exact h.2.get i op' r' ho hr

theorem Inv.apart (hC : CfgOk (M.P (ν := ν)).C) {p : PTbl (κ × ν)} {D : List κ} (h : Inv M body p D) :
    D.Pairwise (fun a b => M.eqv a b = false) := by
  obtain ⟨l, h1, h2, h3⟩ := h
  have hd := h1.distinct hC
  have : (D.reverse).Pairwise (fun a b => M.eqv a b = false) := by
    rw [← h2, List.pairwise_map]
    exact hd
  rw [List.pairwise_reverse] at this
  exact this.imp (fun {a b} hab => hC.symm_false (show (M.P (ν := ν)).C.eqv b a = false from hab))

theorem run_append {n : Nat} : ∀ {ops ops' : List (Op κ)} {p : PTbl (κ × ν)} {r}, run M body n p (ops ++ ops') = .ok r →
    ∃ p1 rs1 rs2, run M body n p ops = .ok (p1, rs1) ∧ run M body n p1 ops' = .ok (r.1, rs2) ∧ r.2 = rs1 ++ rs2
  | [], ops', p, r, e => ⟨p, [], r.2, rfl, e, rfl⟩
  | op :: ops, ops', p, r, e => by
    rw [List.cons_append] at e
    unfold run at e
    rw [Res.bind_eq_ok] at e
    obtain ⟨a, e1, e2⟩ := e
    rw [Res.bind_eq_ok] at e2
    obtain ⟨b, e3, e4⟩ := e2
    injection e4 with e4
    subst e4
    obtain ⟨p1, rs1, rs2, h1, h2, h3⟩ := run_append e3
    refine ⟨p1, a.2 :: rs1, rs2, ?_, h2, by rw [h3]; rfl⟩
    unfold run
    rw [e1]
    simp only [Res.ok_bind]
    rw [h1]; rfl

theorem inv_empty (hC : CfgOk (M.P (ν := ν)).C) : Inv M body (PTbl.empty M.P) [] :=
  ⟨[], empty_psim hC.group, rfl, fun e he => by cases he⟩

end Gtl.Memo
