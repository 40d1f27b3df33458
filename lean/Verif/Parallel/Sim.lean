import Verif.Parallel.Table
import Verif.Swiss.History
/-!
# Simulation of the parallel containers

A parallel container simulates the list `l` when submap `i` simulates the part of `l` whose keys belong to `i`.
-/

namespace Gtl.Parallel

open Gtl.Swiss
open Gtl.Spec (Op POp PWOp Resp put)

variable {α κ : Type}

/-! ## Submap numbers and parts -/

theorem subidx_lt (N h : Nat) : subidx N h < 2 ^ N := by
  unfold subidx
  rw [Nat.and_two_pow_sub_one_eq_mod]
  exact Nat.mod_lt _ (Nat.two_pow_pos N)

/-- Number of the submap of an element. -/
def idx (P : PCfg α κ) (a : α) : Nat := subidx P.N (P.C.hash (P.C.key a))

def kidx (P : PCfg α κ) (k : κ) : Nat := subidx P.N (P.C.hash k)

def part (P : PCfg α κ) (l : List α) (i : Nat) : List α := l.filter (fun a => idx P a == i)

theorem mem_part {P : PCfg α κ} {l : List α} {i : Nat} {a : α} : a ∈ part P l i ↔ a ∈ l ∧ idx P a = i := by
  unfold part; rw [List.mem_filter, beq_iff_eq]

theorem part_perm {P : PCfg α κ} {l m : List α} (p : l.Perm m) (i : Nat) : (part P l i).Perm (part P m i) := p.filter _

theorem part_cons_same {P : PCfg α κ} (l : List α) (a : α) : part P (a :: l) (idx P a) = a :: part P l (idx P a) := by
  unfold part; rw [List.filter_cons, if_pos (beq_self_eq_true _)]

theorem part_cons_other {P : PCfg α κ} (l : List α) {a : α} {j : Nat} (h : j ≠ idx P a) : part P (a :: l) j = part P l j := by
  unfold part; rw [List.filter_cons, if_neg (by simpa using fun e => h e.symm)]

theorem part_filter {P : PCfg α κ} (l : List α) (q : α → Bool) (i : Nat) :
    part P (l.filter q) i = (part P l i).filter q := by
  unfold part; rw [List.filter_filter, List.filter_filter]; congr 1; funext a; exact Bool.and_comm _ _

theorem part_append {P : PCfg α κ} (l m : List α) (i : Nat) : part P (l ++ m) i = part P l i ++ part P m i := by
  unfold part; rw [List.filter_append]

theorem part_map {P : PCfg α κ} (l : List α) {f : α → α} (hf : ∀ a, P.C.key (f a) = P.C.key a) (i : Nat) :
    part P (l.map f) i = (part P l i).map f := by
  unfold part; rw [List.filter_map]; congr 2; funext a; simp only [Function.comp, idx, hf]

theorem key_idx {P : PCfg α κ} (hC : CfgOk P.C) {a : α} {k : κ} (h : P.C.eqv (P.C.key a) k = true) : idx P a = kidx P k := by
  unfold idx kidx; rw [hC.hash_congr _ _ h]

theorem lookup_part {P : PCfg α κ} (hC : CfgOk P.C) (l : List α) (k : κ) :
    Spec.lookup P.C.key P.C.eqv (part P l (kidx P k)) k = Spec.lookup P.C.key P.C.eqv l k := by
  unfold Spec.lookup part
  rw [List.find?_filter]
  congr 1; funext a
  cases h : P.C.eqv (P.C.key a) k with
  | false => simp
  | true => rw [key_idx hC h]; simp

theorem countP_part {P : PCfg α κ} (hC : CfgOk P.C) (l : List α) (k : κ) :
    (part P l (kidx P k)).countP (fun a => P.C.eqv (P.C.key a) k) = l.countP (fun a => P.C.eqv (P.C.key a) k) := by
  unfold part
  rw [List.countP_filter]
  apply List.countP_congr
  intro a _
  cases h : P.C.eqv (P.C.key a) k with
  | false => simp
  | true => rw [key_idx hC h]; simp

theorem any_part {P : PCfg α κ} (hC : CfgOk P.C) (l : List α) (k : κ) :
    (part P l (kidx P k)).any (fun a => P.C.eqv (P.C.key a) k) = l.any (fun a => P.C.eqv (P.C.key a) k) := by
  rw [Bool.eq_iff_iff, List.any_eq_true, List.any_eq_true]
  constructor
  · rintro ⟨a, h1, h2⟩; exact ⟨a, (mem_part.1 h1).1, h2⟩
  · rintro ⟨a, h1, h2⟩; exact ⟨a, mem_part.2 ⟨h1, key_idx hC h2⟩, h2⟩

theorem erase_part (P : PCfg α κ) (l : List α) (k : κ) (i : Nat) :
    part P (Spec.erase P.C.key P.C.eqv l k) i = Spec.erase P.C.key P.C.eqv (part P l i) k := part_filter _ _ _

theorem erase_other {P : PCfg α κ} (hC : CfgOk P.C) (l : List α) (k : κ) {j : Nat} (h : j ≠ kidx P k) :
    part P (Spec.erase P.C.key P.C.eqv l k) j = part P l j := by
  rw [erase_part]
  apply erase_none
  intro a ha
  cases he : P.C.eqv (P.C.key a) k with
  | false => rfl
  | true => exact absurd ((mem_part.1 ha).2.symm.trans (key_idx hC he)) h

theorem modify_part (P : PCfg α κ) (l : List α) (k : κ) {f : α → α} (hf : ∀ a, P.C.key (f a) = P.C.key a) (i : Nat) :
    part P (Spec.modify P.C.key P.C.eqv l k f) i = Spec.modify P.C.key P.C.eqv (part P l i) k f := by
  apply part_map
  intro a
  split
  · exact hf a
  · rfl

theorem modify_part_other {P : PCfg α κ} (hC : CfgOk P.C) (l : List α) (k : κ) {f : α → α} (hf : ∀ a, P.C.key (f a) = P.C.key a)
    {j : Nat} (h : j ≠ kidx P k) : part P (Spec.modify P.C.key P.C.eqv l k f) j = part P l j := by
  rw [modify_part P l k hf]
  apply modify_other
  intro a ha
  cases he : P.C.eqv (P.C.key a) k with
  | false => rfl
  | true => exact absurd ((mem_part.1 ha).2.symm.trans (key_idx hC he)) h

/-- The parts together are the whole. -/
theorem parts_perm (P : PCfg α κ) (l : List α) : ((List.range (2 ^ P.N)).flatMap (part P l)).Perm l := by
  have key : ∀ n, ((List.range n).flatMap (part P l)).Perm (l.filter (fun a => decide (idx P a < n))) := by
    intro n
    induction n with
    | zero => simp
    | succ n ih =>
      rw [List.range_succ, List.flatMap_append, List.flatMap_cons, List.flatMap_nil, List.append_nil]
      refine (ih.append_right _).trans ?_
      have h := List.filter_append_perm (fun a => decide (idx P a < n)) (l.filter (fun a => decide (idx P a < n + 1)))
      refine List.Perm.trans (List.Perm.of_eq ?_) h
      rw [List.filter_filter, List.filter_filter]
      unfold part
      congr 1
      · congr 1; funext a; rw [Bool.eq_iff_iff]; simp; omega
      · congr 1; funext a; rw [Bool.eq_iff_iff]; simp; omega
  refine (key _).trans (List.Perm.of_eq ?_)
  rw [List.filter_eq_self]
  intro a _
  exact decide_eq_true (subidx_lt _ _)

/-! ## Simulation -/

structure PSim (P : PCfg α κ) (p : PTbl α) (l : List α) : Prop where
  len : p.sets.length = 2 ^ P.N
  sim : ∀ (i : Nat) t, p.sets[i]? = some t → Sim P.C t (part P l i)

theorem PSim.perm {P : PCfg α κ} {p : PTbl α} {l m : List α} (h : PSim P p l) (hp : l.Perm m) : PSim P p m :=
  ⟨h.len, fun i t ht => (h.sim i t ht).perm (part_perm hp i)⟩

theorem PSim.get {P : PCfg α κ} {p : PTbl α} {l : List α} (h : PSim P p l) {i : Nat} (hi : i < 2 ^ P.N) :
    ∃ t, p.sets[i]? = some t ∧ Sim P.C t (part P l i) := by
  have hi' : i < p.sets.length := by rw [h.len]; exact hi
  exact ⟨_, List.getElem?_eq_getElem hi', h.sim i _ (List.getElem?_eq_getElem hi')⟩

theorem PSim.set {P : PCfg α κ} {p : PTbl α} {l l' : List α} (h : PSim P p l) {i : Nat} {t : Tbl α}
    (ht : Sim P.C t (part P l' i)) (ho : ∀ j, j ≠ i → part P l' j = part P l j) :
    PSim P { sets := p.sets.set i t } l' := by
  refine ⟨by rw [List.length_set]; exact h.len, fun j u hu => ?_⟩
  rw [List.getElem?_set] at hu
  split at hu
  · rename_i hij; subst hij
    split at hu
    · cases hu; exact ht
    · cases hu
  · rename_i hij
    rw [ho j (fun e => hij e.symm)]
    exact h.sim j u hu

theorem withSub_sim {P : PCfg α κ} {p : PTbl α} {l l' : List α} (h : PSim P p l) {β : Type} {i : Nat} (hi : i < 2 ^ P.N)
    {f : Tbl α → Res (Tbl α × β)} {r : β}
    (hf : ∀ t, Sim P.C t (part P l i) → ∃ t', f t = .ok (t', r) ∧ Sim P.C t' (part P l' i))
    (ho : ∀ j, j ≠ i → part P l' j = part P l j) :
    ∃ p', p.withSub i f = .ok (p', r) ∧ PSim P p' l' := by
  obtain ⟨t, h1, h2⟩ := h.get hi
  obtain ⟨t', h3, h4⟩ := hf t h2
  refine ⟨_, ?_, h.set h4 ho⟩
  unfold PTbl.withSub PTbl.sub
  rw [h1]
  simp only [Res.ofOption_some, Res.ok_bind]
  rw [h3]
  rfl

/-! ## Single-key operations -/

/-- The key of a single-key operation. -/
def keyOf (P : PCfg α κ) : Op α κ → Option κ
  | .insert a => some (P.C.key a)
  | .insertOrAssign a _ => some (P.C.key a)
  | .subscript a _ => some (P.C.key a)
  | .at k => some k
  | .find k => some k
  | .contains k => some k
  | .count k => some k
  | .erase k => some k
  | .extract k => some k
  | .insertNode (some a) => some (P.C.key a)
  | .toggle a => some (P.C.key a)
  | _ => none

/-- A single-key operation on the whole list is the same operation on the part of its key. -/
theorem step_part {P : PCfg α κ} (hC : CfgOk P.C) (l : List α) (op : Op α κ) (hv : op.Valid P.C.key) {k : κ}
    (hk : keyOf P op = some k) :
    (Spec.step P.C.key P.C.eqv (part P l (kidx P k)) op).2 = (Spec.step P.C.key P.C.eqv l op).2 ∧
    (Spec.step P.C.key P.C.eqv (part P l (kidx P k)) op).1 = part P (Spec.step P.C.key P.C.eqv l op).1 (kidx P k) ∧
    ∀ j, j ≠ kidx P k → part P (Spec.step P.C.key P.C.eqv l op).1 j = part P l j := by
  have hl := lookup_part hC l k
  have hcons : ∀ a, P.C.key a = k → a :: part P l (kidx P k) = part P (a :: l) (kidx P k) := by
    intro a ha; subst ha; exact (part_cons_same l a).symm
  have hconso : ∀ a, P.C.key a = k → ∀ j, j ≠ kidx P k → part P (a :: l) j = part P l j := by
    intro a ha j hj; subst ha; exact part_cons_other l hj
  cases op with
  | insert a =>
    cases hk
    simp only [Spec.step]
    rw [hl]
    cases Spec.lookup P.C.key P.C.eqv l (P.C.key a) with
    | some b => exact ⟨rfl, rfl, fun _ _ => rfl⟩
    | none => exact ⟨rfl, hcons a rfl, hconso a rfl⟩
  | insertOrAssign a f =>
    cases hk
    simp only [Spec.step]
    rw [hl]
    cases Spec.lookup P.C.key P.C.eqv l (P.C.key a) with
    | some b => exact ⟨rfl, (modify_part P l _ hv _).symm, fun j hj => modify_part_other hC l _ hv hj⟩
    | none => exact ⟨rfl, hcons a rfl, hconso a rfl⟩
  | subscript a f =>
    cases hk
    simp only [Spec.step]
    rw [hl]
    cases Spec.lookup P.C.key P.C.eqv l (P.C.key a) with
    | some b => exact ⟨rfl, (modify_part P l _ hv _).symm, fun j hj => modify_part_other hC l _ hv hj⟩
    | none => exact ⟨rfl, hcons (f a) (hv a), hconso (f a) (hv a)⟩
  | «at» k' => cases hk; exact ⟨by simp only [Spec.step, hl], rfl, fun _ _ => rfl⟩
  | find k' => cases hk; exact ⟨by simp only [Spec.step, hl], rfl, fun _ _ => rfl⟩
  | contains k' => cases hk; exact ⟨by simp only [Spec.step, any_part hC], rfl, fun _ _ => rfl⟩
  | count k' => cases hk; exact ⟨by simp only [Spec.step, countP_part hC], rfl, fun _ _ => rfl⟩
  | erase k' =>
    cases hk
    exact ⟨by simp only [Spec.step, countP_part hC], (erase_part P l _ _).symm, fun j hj => erase_other hC l _ hj⟩
  | eraseIf _ => cases hk
  | extract k' =>
    cases hk
    exact ⟨by simp only [Spec.step, hl], (erase_part P l _ _).symm, fun j hj => erase_other hC l _ hj⟩
  | insertNode n =>
    cases n with
    | none => cases hk
    | some a =>
      cases hk
      simp only [Spec.step]
      rw [hl]
      cases Spec.lookup P.C.key P.C.eqv l (P.C.key a) with
      | some b => exact ⟨rfl, rfl, fun _ _ => rfl⟩
      | none => exact ⟨rfl, hcons a rfl, hconso a rfl⟩
  | toggle a =>
    cases hk
    simp only [Spec.step]
    rw [hl]
    cases Spec.lookup P.C.key P.C.eqv l (P.C.key a) with
    | some b => exact ⟨rfl, (erase_part P l _ _).symm, fun j hj => erase_other hC l _ hj⟩
    | none => exact ⟨rfl, hcons a rfl, hconso a rfl⟩
  | insertRange _ => cases hk
  | size => cases hk
  | clear => cases hk
  | reserve _ => cases hk
  | rehash _ => cases hk

/-- Running a single-key operation in the submap of its key. -/
theorem keyed_sim {P : PCfg α κ} (hC : CfgOk P.C) {p : PTbl α} {l : List α} (h : PSim P p l) (op : Op α κ)
    (hv : op.Valid P.C.key) {k : κ} (hk : keyOf P op = some k) :
    ∃ p', p.withSub (kidx P k) (fun t => t.step P.C op) = .ok (p', (Spec.step P.C.key P.C.eqv l op).2) ∧
      PSim P p' (Spec.step P.C.key P.C.eqv l op).1 := by
  obtain ⟨e1, e2, e3⟩ := step_part hC l op hv hk
  refine withSub_sim h (i := kidx P k) (subidx_lt _ _) ?_ e3
  intro t ht
  obtain ⟨t', h1, h2⟩ := step_sim hC ht op hv
  rw [e1] at h1
  rw [e2] at h2
  exact ⟨t', h1, h2⟩

/-! ### Bodies with their own code -/

theorem contains_sim {C : Cfg α κ} (hC : CfgOk C) {t : Tbl α} {l : List α} (h : Sim C t l) (k : κ) :
    t.contains C k = .ok (l.any (fun a => C.eqv (C.key a) k)) := by
  obtain ⟨t', h1, _⟩ := step_sim hC h (.contains k) trivial
  unfold Tbl.step at h1
  rw [Res.bind_eq_ok] at h1
  obtain ⟨b, h2, h3⟩ := h1
  rw [h2]
  simp only [Spec.step, Res.ok.injEq, Prod.mk.injEq, Spec.Resp.bool.injEq] at h3
  rw [h3.2]

theorem eraseAt_sim {C : Cfg α κ} (hC : CfgOk C) {t : Tbl α} {l : List α} (h : Sim C t l) {i : Nat} {a : α}
    (hs : t.slots[i]? = some (some a)) {k : κ} (hk : C.eqv (C.key a) k = true) :
    ∃ t', t.eraseAt C i = .ok t' ∧ Sim C t' (Spec.erase C.key C.eqv l k) := by
  obtain ⟨⟨c, hi⟩, hp⟩ := id h
  obtain ⟨t', c', e1, e2, e3, e4, e5, e6⟩ := eraseAt_spec hC hi hs
  refine ⟨t', e1, ⟨c', e2⟩, ?_⟩
  exact (erase_some hC (h.distinct hC) (hp.symm.trans e3) hk).symm

theorem eraseKeyIf_sim {P : PCfg α κ} (hC : CfgOk P.C) {t : Tbl α} {l : List α} (h : Sim P.C t l) (k : κ) (pr : α → Bool) :
    match Spec.lookup P.C.key P.C.eqv l k with
    | none => PTbl.eraseKeyIf P t k pr = .ok (t, 0)
    | some a => if pr a then ∃ t', PTbl.eraseKeyIf P t k pr = .ok (t', 1) ∧ Sim P.C t' (Spec.erase P.C.key P.C.eqv l k)
        else PTbl.eraseKeyIf P t k pr = .ok (t, 0) := by
  unfold PTbl.eraseKeyIf
  rcases find_sim hC h k with ⟨i, a, h1, h2, h3, h4, h5⟩ | ⟨h1, h2, h3⟩
  · rw [h5, h1]
    simp only [Res.ok_bind]
    rw [readSlot_ok' h2]
    simp only [Res.ok_bind, ite_self]
    cases hpr : pr a with
    | false => simp
    | true =>
      obtain ⟨t', r1, r2⟩ := eraseAt_sim hC h h2 h4
      simp only [if_true]
      rw [r1]
      exact ⟨t', rfl, r2⟩
  · rw [h3, h1]
    rfl

theorem modifyKeyIf_sim {P : PCfg α κ} (hC : CfgOk P.C) {t : Tbl α} {l : List α} (h : Sim P.C t l) (k : κ) {f : α → α}
    (hf : ∀ a, P.C.key (f a) = P.C.key a) :
    ∃ t', PTbl.modifyKeyIf P t k f = .ok (t', Spec.lookup P.C.key P.C.eqv l k) ∧
      Sim P.C t' (Spec.modify P.C.key P.C.eqv l k f) := by
  unfold PTbl.modifyKeyIf
  rcases find_sim hC h k with ⟨i, a, h1, h2, h3, h4, h5⟩ | ⟨h1, h2, h3⟩
  · rw [h5, h1]
    simp only [Res.ok_bind]
    rw [readSlot_ok' h2]
    simp only [Res.ok_bind]
    obtain ⟨t', r1, _, r3⟩ := assignAt_sim hC h h2 h4 hf
    rw [r1]
    exact ⟨t', rfl, r3⟩
  · rw [h3, h1]
    exact ⟨t, rfl, by rw [modify_other h2]; exact h⟩

theorem emplaceL_sim {P : PCfg α κ} (hC : CfgOk P.C) {t : Tbl α} {l : List α} (h : Sim P.C t l) (a : α) {f : α → α}
    (hf : ∀ a, P.C.key (f a) = P.C.key a) :
    match Spec.lookup P.C.key P.C.eqv l (P.C.key a) with
    | some b => ∃ t', PTbl.emplaceL P t a f = .ok (t', b, false) ∧ Sim P.C t' (Spec.modify P.C.key P.C.eqv l (P.C.key a) f)
    | none => ∃ t', PTbl.emplaceL P t a f = .ok (t', a, true) ∧ Sim P.C t' (a :: l) := by
  rcases find_sim hC h (P.C.key a) with ⟨i, b, h1, h2, h3, h4, h5⟩ | ⟨h1, h2, h3⟩
  · rw [h5]
    unfold Tbl.find at h1
    unfold PTbl.emplaceL
    simp only
    rw [h1]
    simp only [Res.ok_bind]
    rw [readSlot_ok' h2]
    simp only [Res.ok_bind]
    obtain ⟨t', r1, _, r3⟩ := assignAt_sim hC h h2 h4 hf
    rw [r1]
    exact ⟨t', rfl, r3⟩
  · rw [h3]
    rcases emplace_sim hC h a with ⟨i, b, _, _, _, _, e5⟩ | ⟨t', i, e1, e2, e3, e4⟩
    · rw [h3] at e5; cases e5
    · refine ⟨t', ?_, e3⟩
      unfold Tbl.find at h1
      unfold Tbl.emplace Tbl.emplaceHash at e1
      unfold PTbl.emplaceL
      simp only
      rw [h1] at e1 ⊢
      simp only [Res.ok_bind] at e1 ⊢
      rw [Res.bind_eq_ok] at e1
      obtain ⟨⟨t1, off⟩, g1, e1⟩ := e1
      rw [g1]
      simp only [Res.ok_bind] at e1 ⊢
      rw [Res.bind_eq_ok] at e1
      obtain ⟨t2, g2, e1⟩ := e1
      rw [g2]
      simp only [Res.ok_bind] at e1 ⊢
      rw [Res.bind_eq_ok] at e1
      obtain ⟨t3, g3, e1⟩ := e1
      rw [g3]
      simp only [Res.ok.injEq, Prod.mk.injEq] at e1
      rw [← e1.1]
      rfl

end Gtl.Parallel
