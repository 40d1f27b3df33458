import Verif.Parallel.Room
/-!
# Parallel containers from which nothing was erased

Without erased elements, the room left in a submap is exactly what its number of buckets allows, less its elements.
-/

namespace Gtl.Parallel

open Gtl.Swiss
open Gtl.Spec (Op POp Resp)

variable {α κ : Type}

/-- No submap has tombstones. -/
def PNoTomb (P : PCfg α κ) (p : PTbl α) : Prop := ∀ (i : Nat) t, p.sets[i]? = some t → NoTomb P.C t

/-- The calls that never leave a tombstone. -/
def PGrowing : POp α κ → Prop
  | .base op => Growing op
  | .eraseIfKey _ _ => False
  | _ => True

theorem withSub_noTomb {P : PCfg α κ} {p p' : PTbl α} {j : Nat} {β : Type} {f : Tbl α → Res (Tbl α × β)} {r : β}
    (hT : PNoTomb P p) (h : p.withSub j f = .ok (p', r))
    (hf : ∀ t t', p.sets[j]? = some t → f t = .ok (t', r) → NoTomb P.C t') : PNoTomb P p' := by
  intro i t' ht'
  by_cases hij : i = j
  · subst hij
    obtain ⟨u, u', h1, h2, rfl⟩ := withSub_inv h
    rw [show (p.sets.set i u')[i]? = some u' from List.getElem?_set_self (List.getElem?_eq_some_iff.1 h1).1] at ht'
    cases ht'
    exact hf u _ h1 h2
  · rw [withSub_other h hij] at ht'
    exact hT i t' ht'

theorem keyed_noTomb {P : PCfg α κ} (hC : CfgOk P.C) {p p' : PTbl α} {l : List α} (h : PSim P p l) (hT : PNoTomb P p)
    {op : Op α κ} (hv : op.Valid P.C.key) (hg : Growing op) {j : Nat} {r : Resp α}
    (hst : p.withSub j (fun t => t.step P.C op) = .ok (p', r)) : PNoTomb P p' :=
  withSub_noTomb hT hst (fun t _ ht h1 => step_noTomb hC (h.sim j t ht) (hT j t ht) op hv hg h1)

theorem insertAll_pnoTomb {P : PCfg α κ} (hC : CfgOk P.C) : ∀ (vs : List α) (p p' : PTbl α) (l : List α),
    PSim P p l → PNoTomb P p →
    vs.foldlM (fun p v => do
      let (p, _) ← p.withSub (subidx P.N (P.C.hash (P.C.key v))) (fun t => t.step P.C (.insert v))
      Res.ok p) p = .ok p' → PNoTomb P p'
  | [], p, p', l, _, hT, h => by cases h; exact hT
  | v :: vs, p, p', l, hsim, hT, h => by
    obtain ⟨p1, h1, h2⟩ := keyed_sim hC hsim (.insert v) trivial rfl
    rw [List.foldlM_cons] at h
    unfold kidx at h1
    rw [h1] at h
    exact insertAll_pnoTomb hC vs p1 p' _ h2 (keyed_noTomb hC hsim hT (op := .insert v) trivial trivial h1) h

theorem modifyKeyIf_noTomb {P : PCfg α κ} {t t' : Tbl α} {k : κ} {f : α → α} {o : Option α} (hT : NoTomb P.C t)
    (he : PTbl.modifyKeyIf P t k f = .ok (t', o)) : NoTomb P.C t' := by
  unfold PTbl.modifyKeyIf at he
  obtain ⟨x, _, he⟩ := Res.bind_eq_ok.1 he
  cases x with
  | none => cases he; exact hT
  | some off =>
    obtain ⟨a, _, he⟩ := Res.bind_eq_ok.1 he
    obtain ⟨t2, h2, he⟩ := Res.bind_eq_ok.1 he
    cases he
    exact assignAt_noTomb hT h2

theorem emplaceL_noTomb {P : PCfg α κ} (hC : CfgOk P.C) {t t' : Tbl α} {l : List α} (h : Sim P.C t l) (hT : NoTomb P.C t)
    {a : α} {f : α → α} {b : α} {ins : Bool} (he : PTbl.emplaceL P t a f = .ok (t', b, ins)) : NoTomb P.C t' := by
  unfold PTbl.emplaceL at he
  simp only at he
  obtain ⟨o, h1, he⟩ := Res.bind_eq_ok.1 he
  cases o with
  | some off =>
    obtain ⟨x, _, he⟩ := Res.bind_eq_ok.1 he
    obtain ⟨t2, g2, he⟩ := Res.bind_eq_ok.1 he
    cases he
    exact assignAt_noTomb hT g2
  | none =>
    obtain ⟨⟨t1, off⟩, g1, he⟩ := Res.bind_eq_ok.1 he
    obtain ⟨t2, g2, he⟩ := Res.bind_eq_ok.1 he
    obtain ⟨t3, g3, he⟩ := Res.bind_eq_ok.1 he
    cases he
    have : t.emplace P.C a = .ok (t', off, true) := by
      unfold Tbl.emplace Tbl.emplaceHash
      rw [h1]
      simp only [Res.ok_bind]
      rw [g1]
      simp only [Res.ok_bind]
      rw [g2]
      simp only [Res.ok_bind]
      rw [g3]
      rfl
    obtain ⟨t2, i2, ins2, l2, k1, _, k3, _⟩ := emplace_grow hC h hT a
    rw [this] at k1; cases k1; exact k3

theorem assignLoop_noTomb {P : PCfg α κ} {f : α → α} : ∀ (n : Nat) (t t' : Tbl α) (q : Nat), NoTomb P.C t →
    PTbl.assignLoop P f n t q = .ok t' → NoTomb P.C t'
  | 0, _, _, _, _, h => by cases h
  | n + 1, t, t', q, hT, h => by
    unfold PTbl.assignLoop at h
    split at h
    · cases h; exact hT
    · obtain ⟨t1, h1, h⟩ := Res.bind_eq_ok.1 h
      obtain ⟨r, _, h⟩ := Res.bind_eq_ok.1 h
      exact assignLoop_noTomb n t1 t' r (assignAt_noTomb hT h1) h

theorem mapRes_back {β γ : Type} {f : β → Res γ} : ∀ (l : List β) (cs : List γ), mapRes f l = .ok cs →
    ∀ (i : Nat) c, cs[i]? = some c → ∃ b, l[i]? = some b ∧ f b = .ok c
  | [], cs, h, i, c, hc => by
    unfold mapRes at h
    cases h
    simp at hc
  | x :: l, cs, h, i, c, hc => by
    unfold mapRes at h
    obtain ⟨d, h1, h⟩ := Res.bind_eq_ok.1 h
    obtain ⟨ds, h2, h⟩ := Res.bind_eq_ok.1 h
    cases h
    cases i with
    | zero =>
      simp only [List.getElem?_cons_zero, Option.some.injEq] at hc
      subst hc
      exact ⟨x, rfl, h1⟩
    | succ i =>
      rw [List.getElem?_cons_succ] at hc
      obtain ⟨b, g1, g2⟩ := mapRes_back l ds h2 i c hc
      exact ⟨b, by rw [List.getElem?_cons_succ]; exact g1, g2⟩

theorem rehash_noTomb {P : PCfg α κ} (hC : CfgOk P.C) {p p' : PTbl α} {l : List α} (h : PSim P p l) (hT : PNoTomb P p)
    {n : Nat} (hn : 2 ^ P.N ≤ n) (hst : p.rehash P n = .ok p') : PNoTomb P p' ∧
      ∀ (i : Nat) t', p'.sets[i]? = some t' → n / 2 ^ P.N ≤ t'.capacity := by
  unfold PTbl.rehash at hst
  obtain ⟨ts, h1, hst⟩ := Res.bind_eq_ok.1 hst
  cases hst
  have h0 : n / 2 ^ P.N ≠ 0 := by
    have := Nat.div_pos hn (Nat.two_pow_pos P.N)
    omega
  have key : ∀ (i : Nat) t', ts[i]? = some t' → NoTomb P.C t' ∧ n / 2 ^ P.N ≤ t'.capacity := by
    intro i t' ht'
    obtain ⟨t, g1, g2⟩ := mapRes_back _ _ h1 i t' ht'
    obtain ⟨⟨c, hi⟩, hp⟩ := h.sim i t g1
    obtain ⟨t3, c3, r1, r2, r3, r4, r5, r6⟩ := rehash_spec hC hi _ (.inl h0)
    rw [r1] at g2; cases g2
    exact ⟨r6 (hT i t g1), r4⟩
  exact ⟨fun i t' ht' => (key i t' ht').1, fun i t' ht' => (key i t' ht').2⟩

theorem reserve_le (N n g : Nat) : 2 ^ N ≤ if 2 ^ N * normalizeCapacity (n / 2 ^ N) > g then
    2 ^ N * normalizeCapacity (n / 2 ^ N) else g := by
  have h1 : 2 ^ N ≤ 2 ^ N * normalizeCapacity (n / 2 ^ N) := Nat.le_mul_of_pos_right _ (normalizeCapacity_pos _)
  split <;> omega

/-- A call that erases nothing leaves no tombstones. -/
theorem pstep_noTomb {P : PCfg α κ} (hC : CfgOk P.C) {p p' : PTbl α} {l : List α} (h : PSim P p l) (hT : PNoTomb P p)
    {op : POp α κ} (hv : op.Valid P.C.key (2 ^ P.N)) (hg : PGrowing op) {r : Resp α}
    (hst : p.pstep P op = .ok (p', r)) : PNoTomb P p' := by
  cases op with
  | base op =>
    cases op with
    | insert a => exact keyed_noTomb hC h hT (op := .insert a) trivial trivial hst
    | insertOrAssign a f => exact keyed_noTomb hC h hT (op := .insertOrAssign a f) hv trivial hst
    | subscript a f => exact keyed_noTomb hC h hT (op := .subscript a f) hv trivial hst
    | «at» k' => exact keyed_noTomb hC h hT (op := .at k') trivial trivial hst
    | find k' => exact keyed_noTomb hC h hT (op := .find k') trivial trivial hst
    | contains k' => exact keyed_noTomb hC h hT (op := .contains k') trivial trivial hst
    | count k' =>
      refine withSub_noTomb hT hst ?_
      intro t t' ht h1
      obtain ⟨b, _, h1⟩ := Res.bind_eq_ok.1 h1
      cases h1
      exact hT _ _ ht
    | erase k' => cases hg
    | eraseIf pr => cases hg
    | extract k' => cases hg
    | insertNode n =>
      cases n with
      | none => cases hst; exact hT
      | some a => exact keyed_noTomb hC h hT (op := .insertNode (some a)) trivial trivial hst
    | toggle a => cases hg
    | insertRange vs =>
      simp only [PTbl.pstep, PTbl.step] at hst
      obtain ⟨p1, h1, hst⟩ := Res.bind_eq_ok.1 hst
      cases hst
      exact insertAll_pnoTomb hC vs p p' l h hT h1
    | size => cases hst; exact hT
    | clear =>
      simp only [PTbl.pstep, PTbl.step, PTbl.clear] at hst
      obtain ⟨p1, h1, hst⟩ := Res.bind_eq_ok.1 hst
      cases hst
      obtain ⟨ts, h2, h1⟩ := Res.bind_eq_ok.1 h1
      cases h1
      intro i t' ht'
      obtain ⟨t, g1, g2⟩ := mapRes_back _ _ h2 i t' ht'
      obtain ⟨⟨c, hi⟩, hp⟩ := h.sim i t g1
      obtain ⟨t3, c3, r1, r2, r3, r4, r5, r6⟩ := clear_spec hC hi
      rw [r1] at g2; cases g2
      exact r6 (hT i t g1)
    | reserve n =>
      simp only [PTbl.pstep, PTbl.step, PTbl.reserve] at hst
      obtain ⟨p1, h1, hst⟩ := Res.bind_eq_ok.1 hst
      cases hst
      exact (rehash_noTomb hC h hT (reserve_le _ _ _) h1).1
    | rehash n =>
      simp only [PTbl.pstep, PTbl.step] at hst
      obtain ⟨p1, h1, hst⟩ := Res.bind_eq_ok.1 hst
      cases hst
      exact (rehash_noTomb hC h hT hv h1).1
  | ifContains k' =>
    refine withSub_noTomb hT hst ?_
    intro t t' ht h1
    obtain ⟨⟨t1, m⟩, h2, h1⟩ := Res.bind_eq_ok.1 h1
    cases h1
    exact modifyKeyIf_noTomb (hT _ _ ht) h2
  | modifyIf k' f =>
    refine withSub_noTomb hT hst ?_
    intro t t' ht h1
    obtain ⟨⟨t1, m⟩, h2, h1⟩ := Res.bind_eq_ok.1 h1
    cases h1
    exact modifyKeyIf_noTomb (hT _ _ ht) h2
  | eraseIfKey k' pr => cases hg
  | emplaceL a f =>
    refine withSub_noTomb hT hst ?_
    intro t t' ht h1
    obtain ⟨⟨t1, b, ins⟩, h2, h1⟩ := Res.bind_eq_ok.1 h1
    cases h1
    exact emplaceL_noTomb hC (h.sim _ _ ht) (hT _ _ ht) h2
  | forEachM f =>
    simp only [PTbl.pstep, PTbl.forEachM] at hst
    obtain ⟨p1, h1, hst⟩ := Res.bind_eq_ok.1 hst
    cases hst
    obtain ⟨ts, h2, h1⟩ := Res.bind_eq_ok.1 h1
    cases h1
    intro i t' ht'
    obtain ⟨t, g1, g2⟩ := mapRes_back _ _ h2 i t' ht'
    unfold PTbl.assignAll at g2
    obtain ⟨b, _, g2⟩ := Res.bind_eq_ok.1 g2
    exact assignLoop_noTomb _ _ _ _ (hT i t g1) g2

end Gtl.Parallel
