import Verif.Memo.ThrowSim
import Verif.Swiss.ThrowHist
/-!
# A memoized function that is not recursive and throws
-/

namespace Gtl.Memo

open Gtl.Swiss Gtl.Parallel
open Gtl.Spec.Memo (TOp TResp)

variable {α κ ν : Type}

/-- A parallel container with `e` exceptions behind it, from which nothing was erased. -/
def NSim (P : PCfg α κ) (p : PTbl α) (l : List α) (e : Nat) : Prop :=
  p.sets.length = 2 ^ P.N ∧ ∃ x : Nat → Nat, ((List.range (2 ^ P.N)).map x).sum = e ∧
    ∀ (i : Nat) t, p.sets[i]? = some t → Swiss.PSim P.C True t (part P l i) (x i) 0

theorem NSim.get {P : PCfg α κ} {p : PTbl α} {l : List α} {e : Nat} (h : NSim P p l e) (k : κ) :
    ∃ t x, p.sets[kidx P k]? = some t ∧ Swiss.PSim P.C True t (part P l (kidx P k)) x 0 := by
  obtain ⟨h1, x, h2, h3⟩ := h
  have hi' : kidx P k < p.sets.length := by rw [h1]; exact subidx_lt _ _
  exact ⟨_, _, List.getElem?_eq_getElem hi', h3 _ _ (List.getElem?_eq_getElem hi')⟩

theorem sum_bump (x : Nat → Nat) (i d : Nat) : ∀ n, i < n →
    ((List.range n).map (fun j => if j = i then x j + d else x j)).sum = ((List.range n).map x).sum + d
  | 0, h => by omega
  | n + 1, h => by
    rw [List.range_succ, List.map_append, List.map_append, List.sum_append, List.sum_append]
    simp only [List.map_cons, List.map_nil, List.sum_cons, List.sum_nil]
    by_cases hi : i = n
    · subst hi
      rw [if_pos rfl]
      have : (List.range i).map (fun j => if j = i then x j + d else x j) = (List.range i).map x := by
        apply List.map_congr_left
        intro j hj
        rw [if_neg (by have := List.mem_range.1 hj; omega)]
      rw [this]
      omega
    · rw [sum_bump x i d n (by omega), if_neg (fun h => hi h.symm)]
      omega

/-- Work on one submap. -/
theorem withSub_nsim {P : PCfg α κ} {p : PTbl α} {l l' : List α} {e d : Nat} (h : NSim P p l e) {β : Type} (k : κ)
    {f : Tbl α → Res (Tbl α × β)} {r : β}
    (hf : ∀ t x, Swiss.PSim P.C True t (part P l (kidx P k)) x 0 →
      ∃ t', f t = .ok (t', r) ∧ Swiss.PSim P.C True t' (part P l' (kidx P k)) (x + d) 0)
    (ho : ∀ j, j ≠ kidx P k → part P l' j = part P l j) :
    ∃ p', p.withSub (kidx P k) f = .ok (p', r) ∧ NSim P p' l' (e + d) := by
  obtain ⟨h1, x, h2, h3⟩ := h
  have hi : kidx P k < 2 ^ P.N := subidx_lt _ _
  have hi' : kidx P k < p.sets.length := by rw [h1]; exact hi
  have ht := List.getElem?_eq_getElem hi'
  obtain ⟨t', g1, g2⟩ := hf _ _ (h3 _ _ ht)
  refine ⟨{ sets := p.sets.set (kidx P k) t' }, ?_, by rw [List.length_set]; exact h1,
    fun j => if j = kidx P k then x j + d else x j, ?_, ?_⟩
  · unfold PTbl.withSub PTbl.sub
    rw [ht]
    simp only [Res.ofOption_some, Res.ok_bind]
    rw [g1]
    rfl
  · rw [sum_bump x _ d _ hi, h2]
  · intro j u hu
    rw [List.getElem?_set] at hu
    split at hu
    · rename_i hij
      subst hij
      cases hu
      dsimp only
      rw [if_pos rfl]
      exact g2
    · rename_i hij
      have hji : j ≠ kidx P k := fun e => hij e.symm
      dsimp only
      rw [if_neg hji, ho j hji]
      exact h3 j u hu

theorem NSim.size {P : PCfg α κ} {p : PTbl α} {l : List α} {e : Nat} (h : NSim P p l e) : p.size = l.length + e := by
  obtain ⟨h1, x, h2, h3⟩ := h
  have e1 : p.sets.map Tbl.size = (List.range (2 ^ P.N)).map (fun i => (part P l i).length + x i) := by
    apply List.ext_getElem?
    intro i
    rw [List.getElem?_map, List.getElem?_map]
    by_cases hi : i < 2 ^ P.N
    · have hi' : i < p.sets.length := by rw [h1]; exact hi
      have ht := List.getElem?_eq_getElem hi'
      rw [ht, List.getElem?_range hi]
      simp only [Option.map_some]
      rw [(h3 i _ ht).size]
    · rw [List.getElem?_eq_none (by rw [h1]; omega), List.getElem?_eq_none (by rw [List.length_range]; omega)]
      rfl
  have e2 : ∀ (f g : Nat → Nat) n, ((List.range n).map (fun i => f i + g i)).sum =
      ((List.range n).map f).sum + ((List.range n).map g).sum := by
    intro f g n
    induction n with
    | zero => rfl
    | succ n ih =>
      rw [List.range_succ, List.map_append, List.map_append, List.map_append, List.sum_append, List.sum_append,
        List.sum_append, ih]
      simp only [List.map_cons, List.map_nil, List.sum_cons, List.sum_nil]
      omega
  unfold PTbl.size
  rw [e1, e2, h2]
  have := (parts_perm P l).length_eq
  rw [List.length_flatMap] at this
  rw [this]

theorem NSim.empty {P : PCfg α κ} (hG : GroupSpec P.C.G) : NSim P (PTbl.empty P) [] 0 := by
  refine ⟨by simp [PTbl.empty], fun _ => 0, ?_, fun i t ht => ?_⟩
  · generalize 2 ^ P.N = n
    induction n with
    | zero => rfl
    | succ n ih => rw [List.range_succ, List.map_append, List.sum_append, ih]; rfl
  · obtain ⟨hi, e⟩ := List.getElem?_eq_some_iff.1 ht
    simp only [PTbl.empty, List.getElem_replicate] at e
    subst e
    exact Swiss.PSim.empty hG

theorem clear_nsim {P : PCfg α κ} (hC : CfgOk P.C) {p : PTbl α} {l : List α} {e : Nat} (h : NSim P p l e) :
    ∃ p', p.clear P = .ok p' ∧ NSim P p' [] 0 := by
  obtain ⟨h1, x, h2, h3⟩ := h
  obtain ⟨ts, g1, g2, g3⟩ := mapRes_spec (f := fun t => t.clear P.C) p.sets (fun i t => Swiss.PSim P.C True t [] 0 0)
    (fun i t ht => Swiss.clear_psim hC (h3 i t ht) 0)
  refine ⟨{ sets := ts }, by unfold PTbl.clear; rw [g1]; rfl, g2.trans h1, fun _ => 0, ?_, fun i t ht => g3 i t ht⟩
  generalize 2 ^ P.N = n
  induction n with
  | zero => rfl
  | succ n ih => rw [List.range_succ, List.map_append, List.sum_append, ih]; rfl

theorem reserve_nsim {P : PCfg α κ} (hC : CfgOk P.C) {p : PTbl α} {l : List α} {e : Nat} (h : NSim P p l e) (n : Nat) :
    ∃ p', p.reserve P n = .ok p' ∧ NSim P p' l e := by
  unfold PTbl.reserve
  dsimp only
  have hp : 2 ^ P.N ≤ 2 ^ P.N * normalizeCapacity (n / 2 ^ P.N) := Nat.le_mul_of_pos_right _ (normalizeCapacity_pos _)
  generalize hm : (if 2 ^ P.N * normalizeCapacity (n / 2 ^ P.N) > growthToLowerboundCapacity P.C.G.W n then
    2 ^ P.N * normalizeCapacity (n / 2 ^ P.N) else growthToLowerboundCapacity P.C.G.W n) = m
  have hn : 2 ^ P.N ≤ m := by rw [← hm]; split <;> omega
  have h0 : m / 2 ^ P.N ≠ 0 := by
    have := Nat.div_pos hn (Nat.two_pow_pos P.N)
    omega
  obtain ⟨h1, x, h2, h3⟩ := h
  obtain ⟨ts, g1, g2, g3⟩ := mapRes_spec (f := fun t => t.rehash P.C (m / 2 ^ P.N)) p.sets
    (fun i t => Swiss.PSim P.C True t (part P l i) (x i) 0)
    (fun i t ht => Swiss.rehash_psim hC (h3 i t ht) (by omega) (.inl h0))
  exact ⟨{ sets := ts }, by unfold PTbl.rehash; rw [g1]; rfl, g2.trans h1, x, h2, fun i t ht => g3 i t ht⟩

theorem ifContains_nsim {P : PCfg α κ} (hC : CfgOk P.C) {p : PTbl α} {l : List α} {e : Nat} (h : NSim P p l e) (k : κ) :
    ∃ p', p.pstep P (.ifContains k) = .ok (p', .elem (Spec.lookup P.C.key P.C.eqv l k)) ∧ NSim P p' l e := by
  refine withSub_nsim (d := 0) h k (fun t x ht => ?_) (fun _ _ => rfl)
  unfold PTbl.modifyKeyIf
  rw [← lookup_part hC l k]
  rcases find_psim hC ht k with ⟨i, a, h1, h2, h3, h4, h5⟩ | ⟨h1, h2, h3⟩
  · rw [h5, h1]
    simp only [Res.ok_bind]
    rw [readSlot_ok' h2]
    simp only [Res.ok_bind]
    obtain ⟨t', r1, _, r3⟩ := assignAt_psim hC ht h2 h4 (f := id) (fun _ => rfl)
    rw [r1]
    refine ⟨t', rfl, ?_⟩
    have : Spec.modify P.C.key P.C.eqv (part P l (kidx P k)) k id = part P l (kidx P k) := by
      unfold Spec.modify
      rw [List.map_congr_left (g := id) (fun a _ => by split <;> rfl), List.map_id]
    rw [this] at r3
    exact r3
  · rw [h3, h1]
    exact ⟨t, rfl, ht⟩

/-! ## The cache -/

variable {M : MCfg κ} {f : κ → ν}

/-- The entries for the arguments `D`. -/
def entries (f : κ → ν) (D : List κ) : List (κ × ν) := D.map (fun k => (k, f k))

theorem lookup_entries (hf : ∀ k l, M.eqv k l = true → f k = f l) (D : List κ) (k : κ) :
    (Spec.lookup Prod.fst M.eqv (entries f D) k).map Prod.snd = if D.any (fun k' => M.eqv k' k) then some (f k) else none := by
  induction D with
  | nil => rfl
  | cons d D ih =>
    unfold entries at ih ⊢
    unfold Spec.lookup at ih ⊢
    rw [List.map_cons, List.find?_cons, List.any_cons]
    cases hd : M.eqv d k with
    | true => simp [hf d k hd]
    | false => simpa using ih

theorem subCallN_none (hC : CfgOk (M.P (ν := ν)).C) {t : Tbl (κ × ν)} {l : List (κ × ν)} {x : Nat}
    (h : Swiss.PSim (M.P (ν := ν)).C True t l x 0) (k : κ) (v : ν) (hl : Spec.lookup Prod.fst M.eqv l k = none) :
    (∃ t', subCallN M t k none = .ok (t', .threw) ∧ Swiss.PSim (M.P (ν := ν)).C True t' l (x + 1) 0) ∧
    ∃ t', subCallN M t k (some v) = .ok (t', .val v) ∧ Swiss.PSim (M.P (ν := ν)).C True t' ((k, v) :: l) x 0 := by
  rcases find_psim hC h k with ⟨i, a, h1, h2, h3, h4, h5⟩ | ⟨h1, _, _⟩
  · rw [show Spec.lookup (M.P (ν := ν)).C.key (M.P (ν := ν)).C.eqv l k = none from hl] at h5; cases h5
  have h1' : t.findHash (M.P (ν := ν)).C k (M.hash k) = .ok none := h1
  constructor
  · rcases emplaceThrow_psim hC h (by omega) (k, v) with ⟨_, e2⟩ | ⟨t', e1, _, _, e3⟩
    · rw [show Spec.lookup (M.P (ν := ν)).C.key (M.P (ν := ν)).C.eqv l ((M.P (ν := ν)).C.key (k, v)) = none from hl] at e2; cases e2
    · refine ⟨t', ?_, e3 trivial⟩
      unfold Tbl.emplaceThrow at e1
      unfold subCallN
      dsimp only
      rw [show t.findHash (M.P (ν := ν)).C ((M.P (ν := ν)).C.key (k, v)) ((M.P (ν := ν)).C.hash ((M.P (ν := ν)).C.key (k, v))) = .ok none from h1] at e1
      rw [h1']
      simp only [Res.ok_bind] at e1 ⊢
      obtain ⟨⟨t1, off⟩, g1, g2⟩ := Res.bind_eq_ok.1 e1
      rw [show t.prepareInsert (M.P (ν := ν)).C (M.hash k) = .ok (t1, off) from g1]
      injection g2 with g2
      injection g2 with g2 _
      rw [← g2]
      rfl
  · rcases emplace_psim hC h (by omega) (k, v) with ⟨_, _, _, _, _, _, e2⟩ | ⟨t', i, e1, _, e3, _⟩
    · rw [show Spec.lookup (M.P (ν := ν)).C.key (M.P (ν := ν)).C.eqv l ((M.P (ν := ν)).C.key (k, v)) = none from hl] at e2; cases e2
    · refine ⟨t', ?_, e3⟩
      unfold Tbl.emplace Tbl.emplaceHash at e1
      unfold subCallN
      dsimp only
      rw [show t.findHash (M.P (ν := ν)).C ((M.P (ν := ν)).C.key (k, v)) ((M.P (ν := ν)).C.hash ((M.P (ν := ν)).C.key (k, v))) = .ok none from h1] at e1
      rw [h1']
      simp only [Res.ok_bind] at e1 ⊢
      obtain ⟨⟨t1, off⟩, g1, e1⟩ := Res.bind_eq_ok.1 e1
      rw [show t.prepareInsert (M.P (ν := ν)).C (M.hash k) = .ok (t1, off) from g1]
      simp only [Res.ok_bind] at e1 ⊢
      obtain ⟨t2, g2, e1⟩ := Res.bind_eq_ok.1 e1
      rw [g2]
      simp only [Res.ok_bind] at e1 ⊢
      obtain ⟨t3, g3, e1⟩ := Res.bind_eq_ok.1 e1
      rw [show t2.setCtrl M.G.W off (H2 (M.hash k)) = .ok t3 from g3]
      injection e1 with e1
      injection e1 with e1 _
      rw [← e1]
      rfl

theorem subCallN_some (hC : CfgOk (M.P (ν := ν)).C) {t : Tbl (κ × ν)} {l : List (κ × ν)} {x : Nat}
    (h : Swiss.PSim (M.P (ν := ν)).C True t l x 0) (k : κ) (v : Option ν) {a : κ × ν}
    (hl : Spec.lookup Prod.fst M.eqv l k = some a) : subCallN M t k v = .ok (t, .val a.2) := by
  rcases find_psim hC h k with ⟨i, b, h1, h2, h3, h4, h5⟩ | ⟨_, _, h1⟩
  · rw [show Spec.lookup (M.P (ν := ν)).C.key (M.P (ν := ν)).C.eqv l k = some a from hl] at h5
    cases h5
    unfold subCallN
    dsimp only
    rw [show t.findHash (M.P (ν := ν)).C k (M.hash k) = .ok (some i) from h1]
    simp only [Res.ok_bind]
    rw [readSlot_ok' h2]
    rfl
  · rw [show Spec.lookup (M.P (ν := ν)).C.key (M.P (ν := ν)).C.eqv l k = some a from hl] at h1; cases h1

/-- One call. -/
theorem stepN_sim (hC : CfgOk (M.P (ν := ν)).C) (hf : ∀ k l, M.eqv k l = true → f k = f l) {p : PTbl (κ × ν)} {D : List κ} {e : Nat}
    (h : NSim M.P p (entries f D) e) (op : TOp κ) :
    ∃ p', stepN M f p op = .ok (p', (Spec.Memo.nstep M.eqv f D e op).2.2) ∧
      NSim M.P p' (entries f (Spec.Memo.nstep M.eqv f D e op).1) (Spec.Memo.nstep M.eqv f D e op).2.1 := by
  cases op with
  | call k fail =>
    have hl := lookup_entries (M := M) hf D k
    have hp := lookup_part (P := M.P (ν := ν)) hC (entries f D) k
    change Spec.lookup Prod.fst M.eqv (part M.P (entries f D) (kidx M.P k)) k = Spec.lookup Prod.fst M.eqv (entries f D) k at hp
    simp only [stepN, Spec.Memo.nstep]
    cases hD : D.any (fun k' => M.eqv k' k) with
    | true =>
      rw [hD, if_pos rfl] at hl
      rw [if_pos rfl]
      obtain ⟨a, ha, hv⟩ := Option.map_eq_some_iff.1 hl
      refine withSub_nsim (d := 0) h k (fun t x ht => ⟨t, ?_, ht⟩) (fun _ _ => rfl)
      rw [subCallN_some hC ht k _ (hp.trans ha), hv]
    | false =>
      rw [hD, if_neg (by simp)] at hl
      rw [if_neg (by simp)]
      have hn : Spec.lookup Prod.fst M.eqv (entries f D) k = none := by
        cases hx : Spec.lookup Prod.fst M.eqv (entries f D) k with
        | none => rfl
        | some a => rw [hx] at hl; cases hl
      cases fail with
      | some j =>
        exact withSub_nsim (d := 1) h k (fun t x ht => (subCallN_none hC ht k (f k) (hp.trans hn)).1) (fun _ _ => rfl)
      | none =>
        refine withSub_nsim (d := 0) (l' := entries f (k :: D)) h k (fun t x ht => ?_) (fun j hj => ?_)
        · obtain ⟨t', g1, g2⟩ := (subCallN_none hC ht k (f k) (hp.trans hn)).2
          refine ⟨t', g1, ?_⟩
          rw [show part M.P (entries f (k :: D)) (kidx M.P k) = (k, f k) :: part M.P (entries f D) (kidx M.P k) from
            part_cons_same (P := M.P (ν := ν)) (entries f D) (k, f k)]
          exact g2
        · exact part_cons_other (P := M.P (ν := ν)) (entries f D) (a := (k, f k)) hj
  | contains k =>
    obtain ⟨p', g1, g2⟩ := ifContains_nsim (P := M.P (ν := ν)) hC h k
    have hl := lookup_entries (M := M) hf D k
    refine ⟨p', ?_, g2⟩
    simp only [stepN, restT, Spec.Memo.nstep, g1, Res.ok_bind]
    rw [← hl]
    change (match Spec.Resp.elem (Spec.lookup Prod.fst M.eqv (entries f D) k) with
      | .elem (some e) => Res.ok (p', TResp.opt (some e.2))
      | .elem none => Res.ok (p', TResp.opt none)
      | _ => Res.ub) = _
    cases Spec.lookup Prod.fst M.eqv (entries f D) k <;> rfl
  | clear =>
    obtain ⟨p', g1, g2⟩ := clear_nsim (P := M.P (ν := ν)) hC h
    refine ⟨p', ?_, g2⟩
    simp only [stepN, restT, PTbl.pstep, PTbl.step, g1, Res.ok_bind, Spec.Memo.nstep]
  | reserve m =>
    obtain ⟨p', g1, g2⟩ := reserve_nsim (P := M.P (ν := ν)) hC h m
    refine ⟨p', ?_, g2⟩
    simp only [stepN, restT, PTbl.pstep, PTbl.step, g1, Res.ok_bind, Spec.Memo.nstep]
  | size =>
    refine ⟨p, ?_, h⟩
    simp only [stepN, restT, Spec.Memo.nstep, h.size, entries, List.length_map]

theorem runN_sim (hC : CfgOk (M.P (ν := ν)).C) (hf : ∀ k l, M.eqv k l = true → f k = f l) :
    ∀ (ops : List (TOp κ)) (p : PTbl (κ × ν)) (D : List κ) (e : Nat), NSim M.P p (entries f D) e →
    ∃ p', runN M f p ops = .ok (p', Spec.Memo.nrun M.eqv f D e ops)
  | [], p, D, e, h => ⟨p, rfl⟩
  | op :: ops, p, D, e, h => by
    obtain ⟨p1, g1, g2⟩ := stepN_sim hC hf h op
    obtain ⟨p2, g3⟩ := runN_sim hC hf ops p1 _ _ g2
    refine ⟨p2, ?_⟩
    unfold runN Spec.Memo.nrun
    rw [g1]
    simp only [Res.ok_bind]
    rw [g3]
    rfl

end Gtl.Memo
