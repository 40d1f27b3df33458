import Verif.Props.MemoDefs
import Verif.Memo.Sim
import Verif.Conc.Count
/-!
# A memoized function used from many threads
-/

namespace Gtl.Memo

open Gtl.Swiss Gtl.Parallel Gtl.Conc
open Gtl.Spec.Memo (Prog Op Resp Value eval)
open Gtl.Spec (Legal)

variable {κ ν : Type} {M : MCfg κ} {body : κ → Prog κ ν} {X : Cut κ ν}

/-! ## Recursive functions: all values are right -/

/-- Every submap holds right values. -/
def Cached (M : MCfg κ) (body : κ → Prog κ ν) (A : Nat → Tbl (κ × ν)) (_ : Unit) : Prop :=
  ∀ i, ∃ l, Sim (M.P (ν := ν)).C (A i) l ∧ ∀ e ∈ l, Value body e.1 e.2

theorem cached_upd {A : Nat → Tbl (κ × ν)} (h : Cached M body A ()) {i : Nat} {t : Tbl (κ × ν)} {l : List (κ × ν)}
    (hs : Sim (M.P (ν := ν)).C t l) (hl : ∀ e ∈ l, Value body e.1 e.2) : Cached M body (upd A i t) () := by
  intro j
  by_cases hj : j = i
  · subst hj; rw [upd_same]; exact ⟨l, hs, hl⟩
  · rw [upd_ne _ _ hj]; exact h j

theorem look_cached (hC : CfgOk (M.P (ν := ν)).C) (hb : Respects M.eqv body) {A : Nat → Tbl (κ × ν)} (h : Cached M body A ()) (k : κ) :
    ∃ t' o, lookSec M k (A (M.sub k)) = .ok (t', o) ∧ Cached M body (upd A (M.sub k) t') () ∧ ∀ v, o = some v → Value body k v := by
  obtain ⟨l, h1, h2⟩ := h (M.sub k)
  unfold lookSec PTbl.modifyKeyIf
  rcases find_sim hC h1 k with ⟨i, a, e1, e2, e3, e4, e5⟩ | ⟨e1, -, -⟩
  · rw [e1]
    simp only [Res.ok_bind]
    rw [readSlot_ok' e2]
    simp only [Res.ok_bind]
    obtain ⟨t', g1, -, g2⟩ := assignAt_sim hC h1 e2 e4 (f := id) (fun _ => rfl)
    rw [g1]
    refine ⟨t', some a.2, rfl, cached_upd h (l := l) ?_ h2, ?_⟩
    · refine g2.perm ?_
      unfold Spec.modify
      simp
    · intro v hv
      injection hv with hv
      rw [← hv]
      exact value_eqv (M := M) hb e4 (h2 a e3)
  · rw [e1]
    refine ⟨_, none, rfl, ?_, fun v hv => (by cases hv)⟩
    rw [upd_self]; exact h

theorem put_cached (hC : CfgOk (M.P (ν := ν)).C) {A : Nat → Tbl (κ × ν)} (h : Cached M body A ()) {k : κ} {v : ν}
    (hv : Value body k v) : ∃ t', putSec M k v (A (M.sub k)) = .ok (t', ()) ∧ Cached M body (upd A (M.sub k) t') () := by
  obtain ⟨l, h1, h2⟩ := h (M.sub k)
  obtain ⟨t', e1, e2⟩ := step_sim hC h1 (.insert (k, v)) trivial
  unfold putSec
  rw [e1]
  refine ⟨t', rfl, cached_upd h e2 ?_⟩
  intro e he
  simp only [Spec.step] at he
  split at he
  · exact h2 e he
  · rcases List.mem_cons.1 he with rfl | he
    · exact hv
    · exact h2 e he

theorem clear_cached (hC : CfgOk (M.P (ν := ν)).C) {A : Nat → Tbl (κ × ν)} (h : Cached M body A ()) (i : Nat) :
    ∃ t', clearSec M (A i) = .ok (t', ()) ∧ Cached M body (upd A i t') () := by
  obtain ⟨l, h1, h2⟩ := h i
  obtain ⟨t', e1, e2⟩ := step_sim hC h1 .clear trivial
  unfold clearSec
  rw [e1]
  exact ⟨t', rfl, cached_upd h e2 (fun e he => by cases he)⟩

def semC (body : κ → Prog κ ν) (_ : Unit) (o : COp κ) (_ : Unit) (r : Resp ν) : Prop := RightC body o r

/-- A right answer, or sections that lead to one. -/
def Fine (M : MCfg κ) (body : κ → Prog κ ν) (o : COp κ) (n : Nat) (c : Code (Tbl (κ × ν)) (Resp ν)) : Prop :=
  (∃ r, c = .ret r ∧ RightC body o r) ∨ Conc.Good (Cached M body) (semC body) o n c

theorem Fine.mono {o : COp κ} {n m : Nat} (h : n ≤ m) {c : Code (Tbl (κ × ν)) (Resp ν)} (hc : Fine M body o n c) : Fine M body o m c :=
  hc.imp id (Good.mono h)

theorem Fine.last {o : COp κ} {n : Nat} {c : Code (Tbl (κ × ν)) (Resp ν)} (hc : Fine M body o n c) {A : Nat → Tbl (κ × ν)}
    (hA : Cached M body A ()) :
    (∃ r s', c = .ret r ∧ semC body () o s' r ∧ Cached M body A s') ∨ (Cached M body A () ∧ Conc.Good (Cached M body) (semC body) o n c) := by
  rcases hc with ⟨r, h1, h2⟩ | h
  · exact .inl ⟨r, (), h1, h2, hA⟩
  · exact .inr ⟨hA, h⟩

theorem readMode_look (hX : X.Ok M) (k : κ) : M.readMode = .shared → (X.look k).ReadOnly := fun _ => (hX.look k).2.1 rfl

theorem bodyCode_fine {o : COp κ} {rec : κ → (ν → Code (Tbl (κ × ν)) (Resp ν)) → Code (Tbl (κ × ν)) (Resp ν)} {d : Nat}
    (hr : ∀ k v K m, eval body d k = some v → Fine M body o m (K v) → ∃ N, Fine M body o N (rec k K)) :
    ∀ (c : Prog κ ν) (v : ν) K m, c.run (eval body d) = some v → Fine M body o m (K v) → ∃ N, Fine M body o N (bodyCode rec c K)
  | .ret w, v, K, m, hv, hK => by
    unfold Prog.run at hv
    injection hv with hv
    exact ⟨m, by unfold bodyCode; rw [hv]; exact hK⟩
  | .call k next, v, K, m, hv, hK => by
    unfold Prog.run at hv
    cases hd : eval body d k with
    | none => rw [hd] at hv; cases hv
    | some w =>
      rw [hd] at hv
      obtain ⟨N, hN⟩ := bodyCode_fine hr (next w) v K m hv hK
      unfold bodyCode
      exact hr k w (fun v => bodyCode rec (next v) K) N hd hN

theorem callCode_fine (hC : CfgOk (M.P (ν := ν)).C) (hb : Respects M.eqv body) (hX : X.Ok M) (o : COp κ) :
    ∀ (n d : Nat), d ≤ n → ∀ k v K m, eval body d k = some v → Fine M body o m (K v) →
      ∃ N, Conc.Good (Cached M body) (semC body) o N (callCode M X body n k K)
  | n, 0, _, k, v, K, m, hv, _ => by cases hv
  | 0, d + 1, hn, k, v, K, m, hv, _ => absurd hn (by omega)
  | n + 1, d + 1, hn, k, v, K, m, hv, hK => by
    obtain ⟨N, hN⟩ := bodyCode_fine (o := o) (rec := callCode M X body n) (d := d) (fun k v K m h1 h2 => by
      obtain ⟨N, h⟩ := callCode_fine hC hb hX o n d (by omega) k v K m h1 h2
      exact ⟨N, .inr h⟩) (body k) v (fun v => .sec (M.sub k) .excl (X.put k v) fun _ => K v) (m + 1) hv (by
        right
        refine ⟨Unit, M.sub k, .excl, X.put k v, _, rfl, (hX.put k v).1, fun h => (by cases h), fun A s hA => ?_⟩
        obtain ⟨t', p1, p2⟩ := put_cached hC (show Cached M body A () from hA) (show Value body k v from ⟨d + 1, hv⟩)
        exact ⟨t', (), (hX.put k v).2.2 _ _ p1, hK.last p2⟩)
    refine ⟨max m N + 1, Option ν, M.sub k, M.readMode, X.look k, _, rfl, (hX.look k).1, readMode_look hX k, fun A s hA => ?_⟩
    obtain ⟨t', r, e1, e2, e3⟩ := look_cached hC hb (show Cached M body A () from hA) k
    refine ⟨t', r, (hX.look k).2.2 _ _ e1, ?_⟩
    cases r with
    | some w =>
      have : w = v := value_unique (e3 w rfl) ⟨d + 1, hv⟩
      subst this
      exact (hK.mono (Nat.le_max_left m N)).last e2
    | none => exact (hN.mono (Nat.le_max_right m N)).last e2

theorem clearCode_fine (hC : CfgOk (M.P (ν := ν)).C) (hX : X.Ok M) : ∀ is : List Nat, Fine M body .clear is.length (clearCode X is)
  | [] => .inl ⟨.unit, rfl, rfl⟩
  | i :: is => by
    right
    refine ⟨Unit, i, .excl, X.clear i, _, rfl, (hX.clear i).1, fun h => (by cases h), fun A s hA => ?_⟩
    obtain ⟨t', p1, p2⟩ := clear_cached hC (show Cached M body A () from hA) i
    exact ⟨t', (), (hX.clear i).2.2 _ _ p1, (clearCode_fine hC hX is).last p2⟩

def semC' (body : κ → Prog κ ν) (_ : Unit) (o : { o // Ends body o }) (_ : Unit) (r : Resp ν) : Prop := RightC body o.1 r

theorem good_lift {n : Nat} (o : { o // Ends body o }) : ∀ {c : Code (Tbl (κ × ν)) (Resp ν)}, Conc.Good (Cached M body) (semC body) o.1 n c →
    Conc.Good (Cached M body) (semC' body) o n c := by
  induction n with
  | zero => intro c h; exact h.elim
  | succ n ih =>
    rintro c ⟨β, i, m, b, k, h1, h2, h3, h4⟩
    refine ⟨β, i, m, b, k, h1, h2, h3, fun A s h => ?_⟩
    obtain ⟨a', x, h5, h6⟩ := h4 A s h
    refine ⟨a', x, h5, ?_⟩
    rcases h6 with h6 | ⟨h7, h8⟩
    · exact .inl h6
    · exact .inr ⟨h7, ih h8⟩

theorem codeC_good (hC : CfgOk (M.P (ν := ν)).C) (hb : Respects M.eqv body) (hX : X.Ok M) {depth : κ → Nat}
    (hd : ∀ k v, Value body k v → eval body (depth k) k = some v) (o : { o // Ends body o }) :
    ∃ N, Conc.Good (Cached M body) (semC' body) o N (codeC M X body depth o) := by
  suffices h : ∃ N, Conc.Good (Cached M body) (semC body) o.1 N (codeC M X body depth o) by
    obtain ⟨N, h⟩ := h
    exact ⟨N, good_lift o h⟩
  obtain ⟨o, ho⟩ := o
  unfold codeC
  cases o with
  | call k =>
    obtain ⟨v, hv⟩ := ho
    exact callCode_fine hC hb hX (.call k) (depth k) (depth k) (Nat.le_refl _) k v _ 0 (hd k v hv)
      (.inl ⟨.val v, rfl, v, rfl, hv⟩)
  | contains k =>
    refine ⟨1, Option ν, M.sub k, M.readMode, X.look k, _, rfl, (hX.look k).1, readMode_look hX k, fun A s hA => ?_⟩
    obtain ⟨t', r, e1, e2, e3⟩ := look_cached hC hb (show Cached M body A () from hA) k
    exact ⟨t', r, (hX.look k).2.2 _ _ e1, .inl ⟨_, (), rfl, ⟨r, rfl, e3⟩, e2⟩⟩
  | clear =>
    refine ⟨(List.range (2 ^ M.N)).length, ?_⟩
    rcases clearCode_fine hC hX (List.range (2 ^ M.N)) with ⟨r, h, _⟩ | h
    · exfalso
      have : List.range (2 ^ M.N) ≠ [] := by
        intro h
        have := congrArg List.length h
        rw [List.length_range] at this
        exact absurd this (Nat.ne_of_gt (Nat.two_pow_pos _))
      cases hl : List.range (2 ^ M.N) with
      | nil => exact this hl
      | cons i is => rw [hl] at h; unfold clearCode Code.sec at h; cases h
    · exact h

/-! ## Functions that are not recursive: each argument is evaluated once -/

/-- The map holds the arguments in `D`, with right values. -/
def Holds (M : MCfg κ) (f : κ → ν) (A : Nat → Tbl (κ × ν)) (D : List κ) : Prop :=
  ∃ l, Conc.Abs M.P A l ∧ l.map Prod.fst = D ∧ ∀ e ∈ l, e.2 = f e.1

theorem any_lookup {l : List (κ × ν)} {D : List κ} (h : l.map Prod.fst = D) (k : κ) :
    (Spec.lookup Prod.fst M.eqv l k).isSome = D.any (fun k' => M.eqv k' k) := by
  have := any_of_map (M := M) (l := l) (D := D.reverse) (by rw [h, List.reverse_reverse]) k
  rw [List.any_reverse] at this
  exact this

theorem onceCode_good (hC : CfgOk (M.P (ν := ν)).C) {f : κ → ν} (hf : ∀ k l, M.eqv k l = true → f k = f l) (hX : X.Ok M) (o : OOp κ) :
    Conc.Good (Holds M f) (semO M.eqv f) o 1 (onceCode M X f o) := by
  cases o with
  | call k =>
    refine ⟨ν × Bool, M.sub k, .excl, X.once k (f k), _, rfl, (hX.once k (f k)).1, fun h => (by cases h), fun A D hA => ?_⟩
    obtain ⟨l, h1, h2, h3⟩ := hA
    obtain ⟨t', e1, e2⟩ := body_abs hC h1 (o := .emplaceL (k, f k) id) trivial (fun b => rfl)
    have ha := any_lookup (M := M) h2 k
    simp only [body, Spec.pstep] at e1 e2
    rw [Res.bind_eq_ok] at e1
    obtain ⟨⟨t, b, ins⟩, e3, e4⟩ := e1
    simp only [Res.ok.injEq, Prod.mk.injEq] at e4
    obtain ⟨rfl, e4⟩ := e4
    have hsub : submap (M.P (ν := ν)) (.emplaceL (k, f k) id) = M.sub k := rfl
    rw [hsub] at e2 e3
    have honce : onceSec M k (f k) (A (M.sub k)) = .ok (t, b.2, ins) := by
      unfold onceSec
      rw [e3]; rfl
    refine ⟨t, (b.2, ins), (hX.once k (f k)).2.2 _ _ honce, ?_⟩
    rw [show Spec.lookup (M.P (ν := ν)).C.key M.P.C.eqv l ((M.P (ν := ν)).C.key (k, f k)) = Spec.lookup Prod.fst M.eqv l k from rfl] at e2 e4
    cases hl : Spec.lookup Prod.fst M.eqv l k with
    | some e =>
      rw [hl] at e2 e4 ha
      simp only [Spec.Resp.ins.injEq] at e4
      obtain ⟨rfl, rfl⟩ := e4
      refine .inl ⟨_, D, rfl, ?_, l, ?_, h2, h3⟩
      · unfold semO
        dsimp only
        rw [if_pos (by rw [← ha]; rfl)]
        refine ⟨rfl, ?_⟩
        have he : M.eqv b.1 k = true := by
          have := List.find?_some hl
          simpa using this
        rw [h3 b (List.mem_of_find?_eq_some hl), hf _ _ he]
      · have : Spec.modify (M.P (ν := ν)).C.key (M.P (ν := ν)).C.eqv l ((M.P (ν := ν)).C.key (k, f k)) id = l := by
          unfold Spec.modify; simp
        dsimp only at e2
        rw [this] at e2
        exact e2
    | none =>
      rw [hl] at e2 e4 ha
      simp only [Spec.Resp.ins.injEq] at e4
      obtain ⟨rfl, rfl⟩ := e4
      refine .inl ⟨_, k :: D, rfl, ?_, (k, f k) :: l, e2, ?_, ?_⟩
      · unfold semO
        dsimp only
        rw [if_neg (by rw [← ha]; simp)]
        exact ⟨rfl, rfl⟩
      · rw [List.map_cons, h2]
      · intro e he
        rcases List.mem_cons.1 he with rfl | he
        · rfl
        · exact h3 e he
  | contains k =>
    refine ⟨Option ν, M.sub k, M.readMode, X.look k, _, rfl, (hX.look k).1, readMode_look hX k, fun A D hA => ?_⟩
    obtain ⟨l, h1, h2, h3⟩ := hA
    obtain ⟨t', e1, e2⟩ := body_abs hC h1 (o := .ifContains k) trivial trivial
    have ha := any_lookup (M := M) h2 k
    simp only [body, Spec.pstep] at e1 e2
    rw [Res.bind_eq_ok] at e1
    obtain ⟨⟨t, o⟩, e3, e4⟩ := e1
    simp only [Res.ok.injEq, Prod.mk.injEq, Spec.Resp.elem.injEq] at e4
    obtain ⟨rfl, rfl⟩ := e4
    have hsub : submap (M.P (ν := ν)) (.ifContains k) = M.sub k := rfl
    rw [hsub] at e2 e3
    rw [show Spec.lookup (M.P (ν := ν)).C.key M.P.C.eqv l k = Spec.lookup Prod.fst M.eqv l k from rfl] at e3
    have hlook : lookSec M k (A (M.sub k)) = .ok (t, (Spec.lookup Prod.fst M.eqv l k).map Prod.snd) := by
      unfold lookSec
      rw [e3]; rfl
    refine ⟨t, _, (hX.look k).2.2 _ _ hlook, .inl ⟨_, D, rfl, ?_, l, e2, h2, h3⟩⟩
    unfold semO
    refine ⟨rfl, ?_⟩
    cases hl : Spec.lookup Prod.fst M.eqv l k with
    | some e =>
      rw [hl] at ha
      rw [if_pos (by rw [← ha]; rfl)]
      have he : M.eqv e.1 k = true := by
        have := List.find?_some hl
        simpa using this
      rw [Option.map_some, h3 e (List.mem_of_find?_eq_some hl), hf _ _ he]
    | none =>
      rw [hl] at ha
      rw [if_neg (by rw [← ha]; simp)]
      rfl

theorem legal_once (hs : ∀ a b c, M.eqv a b = true → M.eqv b c = true → M.eqv a c = true)
    (hsy : ∀ a b, M.eqv a b = true → M.eqv b a = true) {f : κ → ν} (k : κ) {D D' : List κ}
    {l : List (OOp κ × ORes ν)} (h : Legal (semO M.eqv f) D l D') :
    l.countP (ranFor M.eqv k) + (D.any (fun k' => M.eqv k' k)).toNat = (D'.any (fun k' => M.eqv k' k)).toNat ∧
    (l.any (callFor M.eqv k) = true → D'.any (fun k' => M.eqv k' k) = true) := by
  induction h with
  | nil => exact ⟨by simp, fun h => by cases h⟩
  | @cons D D1 D2 o r es h1 _ ih =>
    rw [List.countP_cons, List.any_cons]
    obtain ⟨ih1, ih2⟩ := ih
    have hmono : D1.any (fun k' => M.eqv k' k) = true → D2.any (fun k' => M.eqv k' k) = true := by
      intro h
      rw [h] at ih1
      cases h2 : D2.any (fun k' => M.eqv k' k) with
      | true => rfl
      | false => rw [h2] at ih1; simp at ih1
    cases o with
    | contains k' =>
      obtain ⟨rfl, rfl⟩ := h1
      refine ⟨by simpa [ranFor] using ih1, ?_⟩
      intro h
      rw [show callFor M.eqv k (OOp.contains k', _) = false from rfl, Bool.false_or] at h
      exact ih2 h
    | call k' =>
      unfold semO at h1
      dsimp only at h1
      split at h1
      · rename_i hk'
        obtain ⟨rfl, rfl⟩ := h1
        refine ⟨by simpa [ranFor] using ih1, ?_⟩
        intro h
        rw [Bool.or_eq_true] at h
        rcases h with h | h
        · apply hmono
          rw [List.any_eq_true] at hk' ⊢
          obtain ⟨a, ha, hak⟩ := hk'
          exact ⟨a, ha, hs _ _ _ hak h⟩
        · exact ih2 h
      · rename_i hk'
        obtain ⟨rfl, rfl⟩ := h1
        refine ⟨?_, ?_⟩
        · rw [show ranFor M.eqv k (OOp.call k', ORes.val (f k') true) = M.eqv k' k from rfl]
          rw [List.any_cons] at ih1
          cases hkk : M.eqv k' k with
          | false => rw [hkk] at ih1; simpa using ih1
          | true =>
            rw [hkk, Bool.true_or] at ih1
            have : D.any (fun k' => M.eqv k' k) = false := by
              cases hd : D.any (fun k' => M.eqv k' k) with
              | false => rfl
              | true =>
                exfalso
                apply hk'
                rw [List.any_eq_true] at hd ⊢
                obtain ⟨a, ha, hak⟩ := hd
                exact ⟨a, ha, hs _ _ _ hak (hsy _ _ hkk)⟩
            rw [this]
            simpa using ih1
        · intro h
          rw [Bool.or_eq_true] at h
          rcases h with h | h
          · apply hmono
            rw [List.any_cons, show M.eqv k' k = true from h]
            rfl
          · exact ih2 h

theorem holds_empty (hC : CfgOk (M.P (ν := ν)).C) (f : κ → ν) : Holds M f (objects (PTbl.empty M.P)) [] :=
  ⟨[], abs_objects (empty_psim hC.group), rfl, fun e he => by cases he⟩

theorem cached_empty (hC : CfgOk (M.P (ν := ν)).C) (body : κ → Prog κ ν) : Cached M body (objects (PTbl.empty M.P)) () := by
  intro i
  refine ⟨[], ?_, fun e he => by cases he⟩
  unfold objects PTbl.empty
  have : ((List.replicate (2 ^ (M.P (ν := ν)).N) Tbl.empty)[i]?).getD (Tbl.empty : Tbl (κ × ν)) = Tbl.empty := by
    rw [List.getElem?_replicate]
    split <;> rfl
  rw [this]
  exact sim_empty hC.group

end Gtl.Memo
