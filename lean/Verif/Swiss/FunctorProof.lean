import Verif.Swiss.Functor
import Verif.Swiss.HashThrowProof
import Verif.Swiss.History
/-!
# Containers with different hash function objects: proofs
-/

namespace Gtl.Swiss

open Gtl.Spec (Op Resp FOp FResp put)
open Tbl

variable {α κ S : Type}

/-- The same template parameters with another hash function (a helper of the proofs). -/
def Cfg.using (C : Cfg α κ) (h : κ → Nat) : Cfg α κ := { C with hash := h }

/-! ### Iterating and erasing do not hash -/

theorem skip_using (C : Cfg α κ) (h : κ → Nat) (t : Tbl α) : ∀ n p, t.skip (C.using h) n p = t.skip C n p := by
  intro n
  induction n with
  | zero => intro p; rfl
  | succ n ih => intro p; unfold skip; simp only [ih]; rfl

theorem next_using (C : Cfg α κ) (h : κ → Nat) (t : Tbl α) (p : Nat) : t.next (C.using h) p = t.next C p :=
  skip_using C h t _ _

theorem begin_using (C : Cfg α κ) (h : κ → Nat) (t : Tbl α) : t.begin_ (C.using h) = t.begin_ C :=
  skip_using C h t _ _

theorem collect_using (C : Cfg α κ) (h : κ → Nat) (t : Tbl α) : ∀ n p, t.collect (C.using h) n p = t.collect C n p := by
  intro n
  induction n with
  | zero => intro p; rfl
  | succ n ih => intro p; unfold collect; simp only [ih, next_using]

theorem iterate_using (C : Cfg α κ) (h : κ → Nat) (t : Tbl α) : t.iterate (C.using h) = t.iterate C := by
  unfold iterate; simp only [begin_using, collect_using]

theorem eraseMetaOnly_using (C : Cfg α κ) (h : κ → Nat) (t : Tbl α) (p : Nat) :
    t.eraseMetaOnly (C.using h) p = t.eraseMetaOnly C p := rfl

/-- An empty table does not depend on the hash function. -/
theorem Inv.using {C : Cfg α κ} {t : Tbl α} {c : List Ctrl} (h : Inv C t c) (he : elems t = []) (f : κ → Nat) :
    Inv (C.using f) t c := by
  have hno : ∀ (i : Nat) (a : α), ¬ t.slots[i]? = some (some a) := by
    intro i a hs
    have := mem_elems.2 ⟨i, hs⟩
    rw [he] at this; cases this
  exact ⟨⟨h.core.raw, h.core.sync, fun i a hs => (hno i a hs).elim, fun i a hs => (hno i a hs).elim, h.core.distinct⟩,
    h.size_eq, h.growth, h.small⟩

theorem Sim.using {C : Cfg α κ} {t : Tbl α} (h : Sim C t []) (f : κ → Nat) : Sim (C.using f) t [] := by
  obtain ⟨⟨c, hi⟩, hp⟩ := h
  exact ⟨⟨c, hi.using hp.eq_nil f⟩, hp⟩

/-! ### merge between containers with different hash functions -/

theorem mergeLoop_spec2 {C : Cfg α κ} (hC : CfgOk C) {h' : κ → Nat} (hC' : CfgOk (C.using h')) (dst0 : List α) : ∀ fuel (dst src : Tbl α) (cd cs : List Ctrl) p,
    Inv C dst cd → Inv (C.using h') src cs →
    p ≤ src.capacity → src.capacity - p < fuel → (p < src.capacity → ∃ a, src.slots[p]? = some (some a)) →
    (∀ a ∈ (src.slots.drop p).filterMap id, ∀ b ∈ elems dst, C.eqv (C.key b) (C.key a) = true →
      ∃ b ∈ dst0, C.eqv (C.key b) (C.key a) = true) →
    (∀ b ∈ dst0, b ∈ elems dst) →
    ∃ dst' src' cd' cs', mergeLoop C fuel (dst, src) p = .ok (dst', src') ∧ Inv C dst' cd' ∧ Inv (C.using h') src' cs' ∧
      List.Perm (elems dst') (elems dst ++ ((src.slots.drop p).filterMap id).filter
        (fun a => !dst0.any (fun b => C.eqv (C.key b) (C.key a)))) ∧
      List.Perm (elems src') ((src.slots.take p).filterMap id ++ ((src.slots.drop p).filterMap id).filter
        (fun a => dst0.any (fun b => C.eqv (C.key b) (C.key a)))) := by
  intro fuel
  induction fuel with
  | zero => intro dst src cd cs p _ _ _ h; omega
  | succ fuel ih =>
    intro dst src cd cs p hd hs hp hf hfull hfresh hsub
    unfold mergeLoop
    by_cases hpc : p = src.capacity
    · rw [if_pos hpc, hpc, ← hs.core.sync.slen, List.drop_length, List.take_length]
      exact ⟨dst, src, cd, cs, rfl, hd, hs, by simp, by simp [elems]⟩
    rw [if_neg hpc]
    have hlt : p < src.capacity := by omega
    obtain ⟨a, ha⟩ := hfull hlt
    have hsl : p < src.slots.length := by rw [hs.core.sync.slen]; exact hlt
    rw [readSlot_ok ha]
    simp only [Res.ok_bind]
    have hdrop0 := drop_filterMap_some ha
    -- the rest of the source after p
    have hdist : Distinct (C.using h') (elems src) := hs.core.distinct
    have hafter : ∀ b ∈ (src.slots.drop (p + 1)).filterMap id, C.eqv (C.key a) (C.key b) = false := by
      intro b hb
      have h1 : elems src = (src.slots.take p).filterMap id ++ (a :: (src.slots.drop (p + 1)).filterMap id) := by
        rw [← hdrop0, ← List.filterMap_append, List.take_append_drop]; rfl
      unfold Distinct at hdist
      rw [h1, List.pairwise_append] at hdist
      exact (List.pairwise_cons.1 hdist.2.1).1 b hb
    have htake : ∀ (s : List (Option α)) q o, s[p]? = some o → p < q → (∀ j : Nat, p < j → j < q → s[j]? = some none) →
        (s.take q).filterMap id = (s.take p).filterMap id ++ [o].filterMap id := by
      intro s q o ho hpq hsn
      have e1 : s.take q = s.take (p + 1) ++ (s.drop (p + 1)).take (q - (p + 1)) := by
        rw [← List.take_add]; congr 1; omega
      have e2 : ((s.drop (p + 1)).take (q - (p + 1))).filterMap id = [] := by
        rw [List.filterMap_eq_nil_iff]
        intro x hx
        rw [List.mem_iff_getElem?] at hx
        obtain ⟨j, hj⟩ := hx
        have hjl : j < q - (p + 1) := by
          by_contra hcon
          rw [List.getElem?_take, if_neg hcon] at hj; cases hj
        rw [List.getElem?_take, if_pos hjl, List.getElem?_drop, hsn _ (by omega) (by omega)] at hj
        cases hj; rfl
      rw [e1, List.filterMap_append, e2, List.append_nil, List.take_add_one, ho, List.filterMap_append]
      rfl
    rcases emplaceHash_spec hC hd (C.key a) (fun _ => a) (hC.refl _) with ⟨i, b, m1, m2, m3⟩ | ⟨m0, dst', cd', i, m1, m2, m3, m4, _⟩
    · -- already in the destination: stays in the source
      rw [m1]
      simp only [Res.ok_bind, Bool.false_eq_true, if_false]
      obtain ⟨q, n1, n2, n3, n4, n5⟩ := next_spec hC'.group hs.core hlt
      rw [next_using] at n1
      rw [n1]
      simp only [Res.ok_bind]
      have hdq : (src.slots.drop (p + 1)).filterMap id = (src.slots.drop q).filterMap id :=
        drop_filterMap_none (by omega) (fun j h1 h2 => n4 j (by omega) h2)
      have hin : dst0.any (fun b => C.eqv (C.key b) (C.key a)) = true := by
        obtain ⟨b', hb', he'⟩ := hfresh a (by rw [hdrop0]; simp) b (mem_elems.2 ⟨i, m2⟩) m3
        rw [List.any_eq_true]; exact ⟨b', hb', he'⟩
      obtain ⟨dst2, src2, cd2, cs2, r1, r2, r3, r4, r5⟩ := ih dst src cd cs q hd hs n3 (by omega) n5
        (fun x hx => hfresh x (by rw [hdrop0, hdq]; exact List.mem_cons_of_mem _ hx)) hsub
      refine ⟨dst2, src2, cd2, cs2, r1, r2, r3, ?_, ?_⟩
      · rw [hdrop0, hdq, List.filter_cons, hin]
        simpa using r4
      · rw [hdrop0, hdq, List.filter_cons, hin]
        rw [htake src.slots q (some a) ha n2 n4] at r5
        simpa using r5
    · -- moves to the destination
      rw [m1]
      simp only [Res.ok_bind, if_true]
      rw [destroySlot_ok ha]
      simp only [Res.ok_bind]
      obtain ⟨src1, cs1, e1, e2, e3, e4, e5, e6⟩ := eraseMeta_spec hC' hs ha
      rw [eraseMetaOnly_using] at e1
      rw [e1]
      simp only [Res.ok_bind]
      obtain ⟨q, n1, n2, n3, n4, n5⟩ := next_spec hC'.group e2.core (show p < src1.capacity by omega)
      rw [next_using] at n1
      rw [n1]
      simp only [Res.ok_bind]
      have hd1 : src1.slots.drop (p + 1) = src.slots.drop (p + 1) := by rw [e5]; exact (set_take_drop hsl).2
      have hdq : (src.slots.drop (p + 1)).filterMap id = (src1.slots.drop q).filterMap id := by
        rw [← hd1]
        exact drop_filterMap_none (by omega) (fun j h1 h2 => n4 j (by omega) h2)
      have hin : dst0.any (fun b => C.eqv (C.key b) (C.key a)) = false := by
        rw [List.any_eq_false]
        intro b hb
        rw [m0 b (hsub b hb)]; simp
      obtain ⟨dst2, src2, cd2, cs2, r1, r2, r3, r4, r5⟩ := ih dst' src1 cd' cs1 q m2 e2 n3 (by omega) n5
        (by
          intro x hx b hb hbe
          rw [← hdq] at hx
          have hbm := m3.subset hb
          rcases List.mem_cons.1 hbm with rfl | hbm
          · rw [hafter x hx] at hbe; cases hbe
          · exact hfresh x (by rw [hdrop0]; exact List.mem_cons_of_mem _ hx) b hbm hbe)
        (fun b hb => m3.symm.subset (List.mem_cons_of_mem _ (hsub b hb)))
      refine ⟨dst2, src2, cd2, cs2, r1, r2, r3, ?_, ?_⟩
      · rw [hdrop0, hdq, List.filter_cons, hin]
        simp only [Bool.not_false, if_true]
        refine (r4.trans (m3.append_right _)).trans ?_
        exact List.perm_middle.symm
      · rw [hdrop0, hdq, List.filter_cons, hin]
        rw [htake src1.slots q none (by rw [e5, List.getElem?_set, if_pos rfl, if_pos hsl]) n2 n4, e5,
          (set_take_drop hsl).1, ← e5] at r5
        simpa using r5

theorem merge_spec2 {C : Cfg α κ} (hC : CfgOk C) {h' : κ → Nat} (hC' : CfgOk (C.using h')) {dst src : Tbl α} {cd cs : List Ctrl} (hd : Inv C dst cd) (hs : Inv (C.using h') src cs) :
    ∃ dst' src' cd' cs', dst.merge C src = .ok (dst', src') ∧ Inv C dst' cd' ∧ Inv (C.using h') src' cs' ∧
      List.Perm (elems dst') (elems dst ++ (elems src).filter (fun a => !(elems dst).any (fun b => C.eqv (C.key b) (C.key a)))) ∧
      List.Perm (elems src') ((elems src).filter (fun a => (elems dst).any (fun b => C.eqv (C.key b) (C.key a)))) := by
  obtain ⟨q, b1, b2, b3, b4⟩ := begin_spec hC'.group hs.core
  rw [begin_using] at b1
  have e1 : (src.slots.take q).filterMap id = [] := by
    rw [List.filterMap_eq_nil_iff]
    intro x hx
    rw [List.mem_iff_getElem?] at hx
    obtain ⟨j, hj⟩ := hx
    have hjl : j < q := by
      by_contra hcon
      rw [List.getElem?_take, if_neg hcon] at hj; cases hj
    rw [List.getElem?_take, if_pos hjl, b3 _ hjl] at hj
    cases hj; rfl
  have e2 : (src.slots.drop q).filterMap id = elems src := by
    have := drop_filterMap_none (s := src.slots) (p := 0) (q := q) (by omega) (fun j _ hj => b3 j hj)
    rw [← this]; rfl
  obtain ⟨dst', src', cd', cs', r1, r2, r3, r4, r5⟩ := mergeLoop_spec2 hC hC' (elems dst) src.fuel dst src cd cs q hd hs b2
    (by unfold fuel; omega) b4 (fun a _ b hb he => ⟨b, hb, he⟩) (fun b hb => hb)
  rw [e2] at r4 r5
  rw [e1, List.nil_append] at r5
  refine ⟨dst', src', cd', cs', ?_, r2, r3, r4, r5⟩
  unfold merge
  rw [b1]
  simp only [Res.ok_bind]
  exact r1

/-! ### A hash function that throws -/

theorem rehash_zero {C : Cfg α κ} (hC : CfgOk C) {t : Tbl α} (h : Sim C t []) (n : Nat) :
    ∃ t', t.rehash C n = .ok t' ∧ t.rehashH C n 0 = .ok (.done t' 0) ∧ Sim C t' [] := by
  obtain ⟨⟨c, hi⟩, hp⟩ := id h
  have he : elems t = [] := hp.eq_nil
  have hs : t.size = 0 := by rw [hi.size_eq, he]; rfl
  obtain ⟨t', c', r1, r2, r3, _⟩ := rehash_spec hC hi n (.inr (by omega))
  refine ⟨t', r1, ?_, ⟨c', r2⟩, r3.trans hp⟩
  unfold rehash at r1
  unfold rehashH
  by_cases h1 : n = 0 ∧ t.capacity = 0
  · rw [if_pos h1] at r1 ⊢; cases r1; rfl
  rw [if_neg h1] at r1 ⊢
  by_cases h2 : n = 0 ∧ t.size = 0
  · rw [if_pos h2] at r1 ⊢; exact Hashing.lift_ok r1 0
  rw [if_neg h2] at r1 ⊢
  simp only at r1 ⊢
  split
  · rename_i h3
    rw [if_pos h3] at r1
    obtain ⟨k, _, hk⟩ := normalizeCapacity_pow (max n t.size)
    obtain ⟨b, g1, g2⟩ := resizeH_exact hC hi.core ⟨k, hk⟩ (by rw [he]; exact Nat.zero_le _)
    rw [r1] at g1
    cases g1
    have := (g2 0).1 (by rw [he]; exact Nat.le_refl _)
    simpa [he] using this
  · rename_i h3
    rw [if_neg h3] at r1; cases r1; rfl

theorem step_nil (key : α → κ) (eqv : κ → κ → Bool) {op : Op α κ} (hn : op.needsHash = false) :
    (Spec.step key eqv [] op).1 = [] := by
  cases op with
  | insertNode n =>
    cases n with
    | none => rfl
    | some a => exact Bool.noConfusion hn
  | insertRange vs =>
    cases vs with
    | nil => rfl
    | cons v vs => exact Bool.noConfusion hn
  | eraseIf p => rfl
  | size => rfl
  | clear => rfl
  | reserve n => rfl
  | rehash n => rfl
  | _ => exact Bool.noConfusion hn

/-- A call on an empty container whose hash function throws. -/
theorem stepH_zero {C : Cfg α κ} (hC : CfgOk C) {t : Tbl α} (h : Sim C t []) (op : Op α κ) (hv : op.Valid C.key) :
    (op.needsHash = true → ∃ t' lost, t.stepH C op 0 = .ok (.threw t' lost) ∧ Sim C t' []) ∧
    (op.needsHash = false → ∃ t' k, t.stepH C op 0 = .ok (.done (t', (Spec.step C.key C.eqv [] op).2) k) ∧ Sim C t' []) := by
  obtain ⟨t', s1, s2⟩ := step_sim hC h op hv
  have lifted : op.needsHash = false → t.stepH C op = Hashing.lift (t.step C op) →
      ∃ t' k, t.stepH C op 0 = .ok (.done (t', (Spec.step C.key C.eqv [] op).2) k) ∧ Sim C t' [] := by
    intro hn he
    rw [step_nil C.key C.eqv hn] at s2
    exact ⟨t', 0, by rw [he]; exact Hashing.lift_ok s1 0, s2⟩
  have one : op.OneKey → ∃ t' lost, t.stepH C op 0 = .ok (.threw t' lost) ∧ Sim C t' [] :=
    fun ho => ⟨t, [], stepH_first ho, h⟩
  cases op with
  | insertNode n =>
    cases n with
    | none => exact ⟨fun hn => Bool.noConfusion hn, fun hn => lifted hn rfl⟩
    | some a => exact ⟨fun _ => one trivial, fun hn => Bool.noConfusion hn⟩
  | eraseIf p => exact ⟨fun hn => Bool.noConfusion hn, fun hn => lifted hn rfl⟩
  | size => exact ⟨fun hn => Bool.noConfusion hn, fun hn => lifted hn rfl⟩
  | clear => exact ⟨fun hn => Bool.noConfusion hn, fun hn => lifted hn rfl⟩
  | reserve n =>
    refine ⟨fun hn => Bool.noConfusion hn, fun _ => ?_⟩
    obtain ⟨u, _, u2, u3⟩ := rehash_zero hC h (growthToLowerboundCapacity C.G.W n)
    exact ⟨u, 0, (Hashing.bind_done (f := fun t => pure (t, Resp.unit)) u2).trans rfl, u3⟩
  | rehash n =>
    refine ⟨fun hn => Bool.noConfusion hn, fun _ => ?_⟩
    obtain ⟨u, _, u2, u3⟩ := rehash_zero hC h n
    exact ⟨u, 0, (Hashing.bind_done (f := fun t => pure (t, Resp.unit)) u2).trans rfl, u3⟩
  | insertRange vs =>
    obtain ⟨u, _, u2, u3⟩ := rehash_zero hC h (growthToLowerboundCapacity C.G.W (t.size + vs.length))
    cases vs with
    | nil =>
      refine ⟨fun hn => Bool.noConfusion hn, fun _ => ⟨u, 0, ?_, u3⟩⟩
      have : t.insertRangeH C [] 0 = .ok (.done u 0) := by
        unfold insertRangeH reserveH; rw [Hashing.bind_done u2]; rfl
      exact (Hashing.bind_done (f := fun t => pure (t, Resp.unit)) this).trans rfl
    | cons v vs =>
      refine ⟨fun _ => ⟨u, [], ?_, u3⟩, fun hn => Bool.noConfusion hn⟩
      have : t.insertRangeH C (v :: vs) 0 = .ok (.threw u []) := by
        unfold insertRangeH reserveH; rw [Hashing.bind_done u2]; rfl
      exact Hashing.bind_threw (f := fun t => pure (t, Resp.unit)) this
  | _ => exact ⟨fun _ => one trivial, fun hn => Bool.noConfusion hn⟩

/-! ### Comparison and merge -/

theorem begin_end {C : Cfg α κ} (hC : CfgOk C) {t : Tbl α} {l : List α} (h : Sim C t l) :
    ∃ p, t.begin_ C = .ok p ∧ (p = t.capacity ↔ l = []) := by
  obtain ⟨⟨c, hi⟩, hp⟩ := h
  obtain ⟨q, b1, b2, b3, b4⟩ := begin_spec hC.group hi.core
  refine ⟨q, b1, ?_⟩
  have hl : l = [] ↔ elems t = [] :=
    ⟨fun e => by rw [e] at hp; exact hp.eq_nil, fun e => by rw [e] at hp; exact hp.nil_eq.symm⟩
  rw [hl]
  constructor
  · intro hq
    rw [List.eq_nil_iff_forall_not_mem]
    intro a ha
    obtain ⟨i, hs⟩ := mem_elems.1 ha
    have hlt := hi.core.lt hs
    rw [b3 i (by omega)] at hs
    cases hs
  · intro he
    by_contra hne
    obtain ⟨a, ha⟩ := b4 (by omega)
    have := mem_elems.2 ⟨q, ha⟩
    rw [he] at this; cases this

theorem merge_sim2 {C : Cfg α κ} (hC : CfgOk C) {h' : κ → Nat} (hC' : CfgOk (C.using h')) {t u : Tbl α} {l m : List α}
    (ht : Sim C t l) (hu : Sim (C.using h') u m) :
    ∃ t' u', t.merge C u = .ok (t', u') ∧
      Sim C t' (l ++ m.filter (fun a => !l.any (fun b => C.eqv (C.key b) (C.key a)))) ∧
      Sim (C.using h') u' (m.filter (fun a => l.any (fun b => C.eqv (C.key b) (C.key a)))) := by
  obtain ⟨⟨c, hi⟩, hp⟩ := ht
  obtain ⟨⟨d, hj⟩, hq⟩ := hu
  obtain ⟨t', u', c', d', h1, h2, h3, h4, h5⟩ := merge_spec2 hC hC' hi hj
  have hany : ∀ a : α, (elems t).any (fun b => C.eqv (C.key b) (C.key a)) = l.any (fun b => C.eqv (C.key b) (C.key a)) := by
    intro a
    rw [Bool.eq_iff_iff]
    simp only [List.any_eq_true]
    constructor
    · rintro ⟨b, hb, e⟩; exact ⟨b, hp.mem_iff.1 hb, e⟩
    · rintro ⟨b, hb, e⟩; exact ⟨b, hp.mem_iff.2 hb, e⟩
  simp only [hany] at h4 h5
  exact ⟨t', u', h1, ⟨⟨c', h2⟩, h4.trans (hp.append (hq.filter _))⟩, ⟨d', h3⟩, h5.trans (hq.filter _)⟩

theorem iterate_sim {C : Cfg α κ} (hC : CfgOk C) {t : Tbl α} {l : List α} (h : Sim C t l) :
    ∃ vs, t.iterate C = .ok vs ∧ vs.Perm l := by
  obtain ⟨⟨c, hi⟩, hp⟩ := h
  exact ⟨_, iterate_spec hC.group hi.core, hp⟩

/-- The comparison loop when both containers have as many elements. -/
theorem allIn_perm [BEq α] [LawfulBEq α] {C : Cfg α κ} (hC : CfgOk C) {h' : κ → Nat} (hC' : CfgOk (C.using h')) {t u : Tbl α}
    {l m : List α} (ht : Sim C t l) (hu : Sim (C.using h') u m) (hs : t.size = u.size) {vs : List α} (hvs : vs.Perm m) :
    allIn C (· == ·) t vs = .ok (l.isPerm m) := by
  obtain ⟨⟨c, hi⟩, hp⟩ := id ht
  rw [allIn_spec hC hi]
  congr 1
  rw [Bool.eq_iff_iff, decide_eq_true_eq, List.isPerm_iff]
  have hl : l.length = m.length := by rw [← ht.size, ← hu.size, hs]
  have hnd : vs.Nodup := hvs.nodup_iff.2 ((hu.distinct hC').nodup hC')
  constructor
  · intro hsub
    have hsp : vs.Subperm l := List.subperm_of_subset hnd (fun a ha => hp.subset (hsub a ha))
    have := hsp.perm_of_length_le (by rw [hvs.length_eq]; omega)
    exact (this.symm.trans hvs)
  · intro hperm a ha
    exact hp.symm.subset (hperm.symm.subset (hvs.subset ha))

/-! ### The containers -/

namespace Box

/-- A container with hash function object `x.1` and elements `x.2`. -/
def FSim (C : Cfg α κ) (F : Fns S κ) (b : Box S α) (x : S × List α) : Prop :=
  b.fn = x.1 ∧ Sim (cfg C F x.1) b.tbl x.2 ∧ (F.call x.1 = none → x.2 = [])

variable {C : Cfg α κ} {F : Fns S κ}

theorem cfg_using (s : S) (h : κ → Nat) : (cfg C F s).using h = C.using h := rfl

theorem cfg_is (s : S) : ∃ h, cfg C F s = C.using h := ⟨_, rfl⟩

/-- What the hash functions must do. -/
def Good (C : Cfg α κ) (F : Fns S κ) : Prop := ∀ s, CfgOk (cfg C F s)

theorem step_fsim (hG : Good C F) {b : Box S α} {x : S × List α} (h : FSim C F b x) (op : Op α κ) (hv : op.Valid C.key) :
    if (F.call x.1).isSome || !op.needsHash then
      ∃ b', b.step C F op = .ok (b', .got (Spec.step C.key C.eqv x.2 op).2) ∧
        FSim C F b' (x.1, (Spec.step C.key C.eqv x.2 op).1)
    else ∃ b', b.step C F op = .ok (b', .threw) ∧ FSim C F b' x := by
  obtain ⟨h1, h2, h3⟩ := h
  unfold step
  rw [h1]
  cases hc : F.call x.1 with
  | some f =>
    obtain ⟨t', s1, s2⟩ := step_sim (hG x.1) h2 op hv
    rw [if_pos (by simp)]
    refine ⟨⟨x.1, t'⟩, ?_, rfl, s2, fun e => by rw [hc] at e; cases e⟩
    simp only [s1, Res.ok_bind]
    rfl
  | none =>
    have hx := h3 hc
    rw [hx] at h2 ⊢
    obtain ⟨z1, z2⟩ := stepH_zero (hG x.1) h2 op hv
    cases hn : op.needsHash with
    | true =>
      rw [if_neg (by simp)]
      obtain ⟨t', lost, y1, y2⟩ := z1 hn
      refine ⟨⟨x.1, t'⟩, ?_, rfl, by rw [hx]; exact y2, h3⟩
      simp only [y1, Res.ok_bind]
    | false =>
      rw [if_pos (by simp)]
      obtain ⟨t', k, y1, y2⟩ := z2 hn
      refine ⟨⟨x.1, t'⟩, ?_, rfl, ?_, fun _ => step_nil _ _ hn⟩
      · simp only [y1, Res.ok_bind]; rfl
      · rw [step_nil _ _ hn]; exact y2

theorem make_fsim (hG : Good C F) (s : S) (n : Nat) : FSim C F (make C s n : Box S α) (s, []) := by
  obtain ⟨c, h1, h2⟩ := withBuckets_inv (C := cfg C F s) (α := α) (hG s).group n
  exact ⟨rfl, ⟨⟨c, h1⟩, by show (elems (withBuckets (cfg C F s) n : Tbl α)).Perm []; rw [h2]⟩, fun _ => rfl⟩

theorem empty_fsim (hG : Good C F) (s : S) : FSim C F (⟨s, Tbl.empty⟩ : Box S α) (s, []) :=
  ⟨rfl, sim_empty (hG s).group, fun _ => rfl⟩

theorem destroy_fsim (hG : Good C F) {b : Box S α} {x : S × List α} (h : FSim C F b x) : ∃ u, b.tbl.destroySlots = .ok u :=
  destroySlots_sim (hG x.1) h.2.1

theorem copy_fsim (hG : Good C F) {b : Box S α} {x : S × List α} (h : FSim C F b x) :
    ∃ b', copy C F b = .ok (some b') ∧ FSim C F b' x := by
  obtain ⟨h1, h2, h3⟩ := h
  obtain ⟨vs, v1, v2⟩ := iterate_sim (hG x.1) h2
  obtain ⟨⟨c, hi⟩, hp⟩ := id h2
  obtain ⟨t', c', g1, g2, g3, _⟩ := copy_spec (hG x.1) hi
  have hcond : ((F.call x.1).isSome || vs.isEmpty) = true := by
    cases hc : F.call x.1 with
    | some f => rfl
    | none =>
      rw [h3 hc] at v2
      rw [v2.eq_nil]; rfl
  refine ⟨⟨x.1, t'⟩, ?_, rfl, ⟨⟨c', g2⟩, g3.trans hp⟩, h3⟩
  obtain ⟨f, hf⟩ := cfg_is (C := C) (F := F) x.1
  rw [hf, iterate_using] at v1
  unfold copy
  rw [v1]
  simp only [Res.ok_bind, h1]
  rw [if_pos hcond, g1]
  rfl

theorem merge_fsim (hG : Good C F) {a b : Box S α} {x y : S × List α} (ha : FSim C F a x) (hb : FSim C F b y) :
    if (F.call x.1).isSome || y.2.isEmpty then
      ∃ a' b', merge C F a b = .ok (some (a', b')) ∧
        FSim C F a' (x.1, x.2 ++ y.2.filter (fun a => !x.2.any (fun b => C.eqv (C.key b) (C.key a)))) ∧
        FSim C F b' (y.1, y.2.filter (fun a => x.2.any (fun b => C.eqv (C.key b) (C.key a))))
    else merge C F a b = .ok none := by
  obtain ⟨a1, a2, a3⟩ := ha
  obtain ⟨b1, b2, b3⟩ := hb
  unfold merge
  rw [a1]
  cases hc : F.call x.1 with
  | some f =>
    rw [if_pos (by simp)]
    obtain ⟨t', u', m1, m2, m3⟩ := merge_sim2 (h' := (F.call y.1).getD (fun _ => 0)) (hG x.1) (hG y.1) a2 b2
    refine ⟨⟨x.1, t'⟩, ⟨y.1, u'⟩, ?_, ⟨rfl, m2, fun e => by rw [hc] at e; cases e⟩, rfl, m3, fun e => by rw [b3 e]; rfl⟩
    simp only [m1, Res.ok_bind, b1]
  | none =>
    obtain ⟨p, p1, p2⟩ := begin_end (hG y.1) b2
    obtain ⟨f, hf⟩ := cfg_is (C := C) (F := F) y.1
    rw [hf, begin_using] at p1
    simp only [p1, Res.ok_bind, Option.isSome_none, Bool.false_or, List.isEmpty_iff]
    by_cases hy : y.2 = []
    · rw [if_pos hy, if_pos (p2.2 hy)]
      refine ⟨a, b, rfl, ⟨a1, ?_, fun e => ?_⟩, b1, ?_, fun e => ?_⟩
      · rw [hy]; simpa using a2
      · rw [hy, a3 e]; rfl
      · rw [hy] at b2 ⊢; simpa using b2
      · rw [hy]; rfl
    · rw [if_neg hy, if_neg (fun e => hy (p2.1 e))]

theorem equal_fsim [BEq α] [LawfulBEq α] (hG : Good C F) {a b : Box S α} {x y : S × List α} (ha : FSim C F a x)
    (hb : FSim C F b y) : equal C F a b = .ok (some (x.2.isPerm y.2)) := by
  obtain ⟨a1, a2, a3⟩ := ha
  obtain ⟨b1, b2, b3⟩ := hb
  unfold equal
  by_cases hs : a.tbl.size = b.tbl.size
  swap
  · rw [if_pos hs]
    congr 2
    symm
    rw [Bool.eq_false_iff, Ne, List.isPerm_iff]
    intro hp
    exact hs (by rw [a2.size, b2.size, hp.length_eq])
  rw [if_neg (by simpa using hs)]
  have key : ∀ (o i : Box S α) (u v : S × List α), o.fn = u.1 → Sim (cfg C F u.1) o.tbl u.2 → i.fn = v.1 →
      Sim (cfg C F v.1) i.tbl v.2 → (F.call v.1 = none → v.2 = []) → i.tbl.size = o.tbl.size →
      (do
        let vs ← o.tbl.iterate C
        match F.call i.fn with
        | some _ => do
          let r ← Tbl.allIn (cfg C F i.fn) (· == ·) i.tbl vs
          .ok (some r)
        | none => .ok (if vs.isEmpty then some true else none) : Res (Option Bool)) = .ok (some (v.2.isPerm u.2)) := by
    intro o i u v _ o2 i1 i2 i3 hsz
    obtain ⟨vs, v1, v2⟩ := iterate_sim (hG u.1) o2
    have v1' : o.tbl.iterate C = .ok vs := by
      obtain ⟨f, hf⟩ := cfg_is (C := C) (F := F) u.1
      rw [hf, iterate_using] at v1; exact v1
    rw [v1']
    simp only [Res.ok_bind, i1]
    cases hc : F.call v.1 with
    | some f =>
      rw [allIn_perm (h' := (F.call u.1).getD (fun _ => 0)) (hG v.1) (hG u.1) i2 o2 hsz v2]
      rfl
    | none =>
      have hv := i3 hc
      have hu : u.2 = [] := by
        have : u.2.length = 0 := by rw [← o2.size, ← hsz, i2.size, hv]; rfl
        exact List.length_eq_zero_iff.1 this
      rw [hu] at v2
      rw [v2.eq_nil, hv, hu]
      rfl
  have hcomm : x.2.isPerm y.2 = y.2.isPerm x.2 := by
    rw [Bool.eq_iff_iff, List.isPerm_iff, List.isPerm_iff]
    exact ⟨List.Perm.symm, List.Perm.symm⟩
  by_cases hcap : a.tbl.capacity > b.tbl.capacity
  · simp only [if_pos hcap]
    exact key b a y x b1 b2 a1 a2 a3 hs
  · simp only [if_neg hcap]
    rw [hcomm]
    exact key a b x y a1 a2 b1 b2 b3 hs.symm

/-! ### Histories -/

/-- All containers. -/
def WFSim (C : Cfg α κ) (F : Fns S κ) (w : Nat → Box S α) (m : Nat → S × List α) : Prop := ∀ i, FSim C F (w i) (m i)

theorem WFSim.put {w : Nat → Box S α} {m : Nat → S × List α} (h : WFSim C F w m) (i : Nat) {b : Box S α} {x : S × List α}
    (hb : FSim C F b x) : WFSim C F (put w i b) (put m i x) := by
  intro j
  unfold Spec.put
  by_cases hj : j = i
  · rw [if_pos hj, if_pos hj]; exact hb
  · rw [if_neg hj, if_neg hj]; exact h j

/-- The specification these containers follow. -/
abbrev spec [BEq α] (C : Cfg α κ) (F : Fns S κ) (m : Nat → S × List α) (op : FOp S (Op α κ)) :=
  Spec.fwstep C.key C.eqv (Spec.calls C.key C.eqv) (fun s => (F.call s).isSome) F.moved F.moved m op

theorem put_same {β : Type} (m : Nat → β) (i : Nat) (x : β) : Spec.put (Spec.put m i x) i = Spec.put m i := by
  funext y j
  unfold Spec.put
  by_cases hj : j = i <;> simp [hj]

theorem put_self {β : Type} (m : Nat → β) (i : Nat) : Spec.put m i (m i) = m := by
  funext j
  unfold Spec.put
  by_cases hj : j = i <;> simp [hj]

theorem wstep_fsim [BEq α] [LawfulBEq α] (hG : Good C F) {w : Nat → Box S α} {m : Nat → S × List α} (h : WFSim C F w m)
    (op : FOp S (Op α κ)) (hv : op.Valid (Op.Valid C.key) false) :
    ∃ w', wstep C F w op = .ok (w', (spec C F m op).2) ∧ WFSim C F w' (spec C F m op).1 := by
  cases op with
  | on i op =>
    have hs := step_fsim hG (h i) op hv
    split at hs
    · rename_i hc
      obtain ⟨b, b1, b2⟩ := hs
      have e : spec C F m (.on i op) = (put m i ((m i).1, (Spec.step C.key C.eqv (m i).2 op).1),
        .got (Spec.step C.key C.eqv (m i).2 op).2) := if_pos hc
      rw [e]
      exact ⟨put w i b, by simp only [wstep, b1, Res.ok_bind], h.put i b2⟩
    · rename_i hc
      obtain ⟨b, b1, b2⟩ := hs
      have e : spec C F m (.on i op) = (m, .threw) := if_neg hc
      rw [e]
      refine ⟨put w i b, by simp only [wstep, b1, Res.ok_bind], ?_⟩
      have := h.put i b2
      rwa [put_self] at this
  | create i s n =>
    obtain ⟨u, hu⟩ := destroy_fsim hG (h i)
    refine ⟨put w i (make C s n), ?_, h.put i (make_fsim hG s n)⟩
    unfold wstep moveAssign move swap
    simp only [Tbl.swap, Tbl.move, hu, Res.ok_bind]
    rfl
  | copy i j =>
    obtain ⟨u, hu⟩ := destroy_fsim hG (h i)
    obtain ⟨b, b1, b2⟩ := copy_fsim hG (h j)
    refine ⟨put w i b, ?_, h.put i b2⟩
    unfold wstep copyAssign swap
    simp only [b1, Tbl.swap, hu, Res.ok_bind]
    rfl
  | take i j =>
    have hw : WFSim C F (put w j ⟨F.moved (w j).fn, Tbl.empty⟩) (put m j (F.moved (m j).1, [])) := by
      refine h.put j ?_
      rw [(h j).1]; exact empty_fsim hG _
    obtain ⟨u, hu⟩ := destroy_fsim hG (hw i)
    refine ⟨put (put w j ⟨F.moved (w j).fn, Tbl.empty⟩) i (w j), ?_, hw.put i (h j)⟩
    unfold wstep moveAssign move swap
    simp only [Tbl.swap, Tbl.move, hu, Res.ok_bind]
    rfl
  | move i j =>
    obtain ⟨u, hu⟩ := destroy_fsim hG (h i)
    by_cases hij : i = j
    · subst hij
      refine ⟨put w i (w i), ?_, ?_⟩
      · have he : (Tbl.empty : Tbl α).destroySlots = .ok Tbl.empty := rfl
        unfold wstep moveSelf move swap
        simp only [Tbl.swap, Tbl.move, he, Res.ok_bind, if_true]
        rfl
      · unfold spec Spec.fwstep
        simp only [put_same]
        exact h.put i (h i)
    · refine ⟨put (put w j ⟨F.moved (w j).fn, Tbl.empty⟩) i (w j), ?_, (h.put j ?_).put i (h j)⟩
      · unfold wstep moveAssign move swap
        simp only [Tbl.swap, Tbl.move, hu, Res.ok_bind, if_neg hij]
        rfl
      · rw [(h j).1]; exact empty_fsim hG _
  | swap i j => exact ⟨_, rfl, (h.put i (h j)).put j (h i)⟩
  | merge i j =>
    have hs := merge_fsim hG (h i) (h j)
    unfold spec Spec.fwstep wstep
    simp only
    split at hs
    · rename_i hc
      obtain ⟨a, b, e1, e2, e3⟩ := hs
      rw [if_pos hc]
      exact ⟨put (put w i a) j b, by rw [e1]; rfl, (h.put i e2).put j e3⟩
    · rename_i hc
      rw [if_neg hc]
      exact ⟨w, by rw [hs]; rfl, h⟩
  | equal i j =>
    refine ⟨w, ?_, h⟩
    simp only [wstep, equal_fsim hG (h i) (h j), Res.ok_bind]
    rfl
  | fn i =>
    refine ⟨w, ?_, h⟩
    simp only [wstep, (h i).1]
    rfl

theorem wrun_fsim [BEq α] [LawfulBEq α] (hG : Good C F) : ∀ (ops : List (FOp S (Op α κ))) {w : Nat → Box S α}
    {m : Nat → S × List α}, WFSim C F w m → (∀ op ∈ ops, op.Valid (Op.Valid C.key) false) →
    let r := Spec.fwrun C.key C.eqv (Spec.calls C.key C.eqv) (fun s => (F.call s).isSome) F.moved F.moved m ops
    ∃ w', wrun C F w ops = .ok (w', r.2) ∧ WFSim C F w' r.1
  | [], w, m, h, _ => ⟨w, rfl, h⟩
  | op :: ops, w, m, h, hv => by
    obtain ⟨w1, h1, h2⟩ := wstep_fsim hG h op (hv op List.mem_cons_self)
    obtain ⟨w2, h3, h4⟩ := wrun_fsim hG ops h2 (fun o ho => hv o (List.mem_cons_of_mem _ ho))
    refine ⟨w2, ?_, h4⟩
    unfold wrun
    rw [h1]
    simp only [Res.ok_bind]
    rw [h3]
    rfl

end Box
end Gtl.Swiss
