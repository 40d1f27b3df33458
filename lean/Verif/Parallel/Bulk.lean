import Verif.Parallel.Iter
/-!
# Operations on all submaps, and histories
-/

namespace Gtl.Parallel

open Gtl.Swiss
open Gtl.Spec (Op POp PWOp Resp put)

variable {α κ : Type}

theorem mapRes_spec {β γ : Type} {f : β → Res γ} : ∀ (l : List β) (R : Nat → γ → Prop),
    (∀ (i : Nat) b, l[i]? = some b → ∃ c, f b = .ok c ∧ R i c) →
    ∃ cs, mapRes f l = .ok cs ∧ cs.length = l.length ∧ ∀ (i : Nat) c, cs[i]? = some c → R i c := by
  intro l
  induction l with
  | nil => intro R _; exact ⟨[], rfl, rfl, fun i c h => by simp at h⟩
  | cons b l ih =>
    intro R h
    obtain ⟨c, h1, h2⟩ := h 0 b rfl
    obtain ⟨cs, h3, h4, h5⟩ := ih (fun i => R (i + 1)) (fun i b' hb => h (i + 1) b' (by simpa using hb))
    refine ⟨c :: cs, by unfold mapRes; rw [h1]; simp only [Res.ok_bind]; rw [h3]; rfl, by simp [h4], ?_⟩
    intro i d hd
    cases i with
    | zero => simp only [List.getElem?_cons_zero, Option.some.injEq] at hd; subst hd; exact h2
    | succ i => exact h5 i d (by simpa using hd)

theorem zipRes_spec {β β' γ : Type} {f : β → β' → Res γ} : ∀ (l : List β) (l' : List β') (R : Nat → γ → Prop),
    l.length = l'.length → (∀ (i : Nat) b b', l[i]? = some b → l'[i]? = some b' → ∃ c, f b b' = .ok c ∧ R i c) →
    ∃ cs, zipRes f l l' = .ok cs ∧ cs.length = l.length ∧ ∀ (i : Nat) c, cs[i]? = some c → R i c := by
  intro l
  induction l with
  | nil => intro l' R _ _; exact ⟨[], by unfold zipRes; rfl, rfl, fun i c h => by simp at h⟩
  | cons b l ih =>
    intro l' R hl h
    cases l' with
    | nil => simp at hl
    | cons b' l' =>
      obtain ⟨c, h1, h2⟩ := h 0 b b' rfl rfl
      obtain ⟨cs, h3, h4, h5⟩ := ih l' (fun i => R (i + 1)) (by simpa using hl)
        (fun i x x' hx hx' => h (i + 1) x x' (by simpa using hx) (by simpa using hx'))
      refine ⟨c :: cs, by unfold zipRes; rw [h1]; simp only [Res.ok_bind]; rw [h3]; rfl, by simp [h4], ?_⟩
      intro i d hd
      cases i with
      | zero => simp only [List.getElem?_cons_zero, Option.some.injEq] at hd; subst hd; exact h2
      | succ i => exact h5 i d (by simpa using hd)

/-- Replacing every submap. -/
theorem map_psim {P : PCfg α κ} {p : PTbl α} {l l' : List α} (h : PSim P p l) {f : Tbl α → Res (Tbl α)}
    (hf : ∀ i t, Sim P.C t (part P l i) → ∃ t', f t = .ok t' ∧ Sim P.C t' (part P l' i)) :
    ∃ ts, mapRes f p.sets = .ok ts ∧ PSim P { sets := ts } l' := by
  obtain ⟨ts, h1, h2, h3⟩ := mapRes_spec (f := f) p.sets (fun i t' => Sim P.C t' (part P l' i))
    (fun i t ht => hf i t (h.sim i t ht))
  exact ⟨ts, h1, h2.trans h.len, h3⟩

theorem zip_psim {P : PCfg α κ} {p q : PTbl α} {l m l' m' : List α} (hp : PSim P p l) (hq : PSim P q m)
    {f : Tbl α → Tbl α → Res (Tbl α × Tbl α)}
    (hf : ∀ i t u, Sim P.C t (part P l i) → Sim P.C u (part P m i) →
      ∃ t' u', f t u = .ok (t', u') ∧ Sim P.C t' (part P l' i) ∧ Sim P.C u' (part P m' i)) :
    ∃ ts, zipRes f p.sets q.sets = .ok ts ∧ PSim P { sets := ts.map Prod.fst } l' ∧
      PSim P { sets := ts.map Prod.snd } m' := by
  obtain ⟨ts, h1, h2, h3⟩ := zipRes_spec (f := f) p.sets q.sets
    (fun i x => Sim P.C x.1 (part P l' i) ∧ Sim P.C x.2 (part P m' i)) (hp.len.trans hq.len.symm)
    (fun i t u ht hu => by
      obtain ⟨t', u', g1, g2, g3⟩ := hf i t u (hp.sim i t ht) (hq.sim i u hu)
      exact ⟨(t', u'), g1, g2, g3⟩)
  refine ⟨ts, h1, ⟨by show (ts.map Prod.fst).length = _; rw [List.length_map]; exact h2.trans hp.len, ?_⟩,
    ⟨by show (ts.map Prod.snd).length = _; rw [List.length_map]; exact h2.trans hp.len, ?_⟩⟩
  · intro i t ht
    replace ht : (ts.map Prod.fst)[i]? = some t := ht
    rw [List.getElem?_map, Option.map_eq_some_iff] at ht
    obtain ⟨x, hx, rfl⟩ := ht
    exact (h3 i x hx).1
  · intro i t ht
    replace ht : (ts.map Prod.snd)[i]? = some t := ht
    rw [List.getElem?_map, Option.map_eq_some_iff] at ht
    obtain ⟨x, hx, rfl⟩ := ht
    exact (h3 i x hx).2

theorem part_nil (P : PCfg α κ) (i : Nat) : part P [] i = [] := rfl

theorem empty_psim {P : PCfg α κ} (hG : GroupSpec P.C.G) : PSim P (PTbl.empty P) [] := by
  refine ⟨by simp [PTbl.empty], fun i t ht => ?_⟩
  obtain ⟨hi, e⟩ := List.getElem?_eq_some_iff.1 ht
  simp only [PTbl.empty, List.getElem_replicate] at e
  subst e
  exact sim_empty hG

theorem withBuckets_psim {P : PCfg α κ} (hG : GroupSpec P.C.G) (n : Nat) : PSim P (PTbl.withBuckets P n) [] := by
  refine ⟨by simp [PTbl.withBuckets], fun i t ht => ?_⟩
  obtain ⟨hi, e⟩ := List.getElem?_eq_some_iff.1 ht
  simp only [PTbl.withBuckets, List.getElem_replicate] at e
  subst e
  obtain ⟨c, h1, h2⟩ := withBuckets_inv (C := P.C) hG n
  exact ⟨⟨c, h1⟩, by rw [h2]; exact List.Perm.refl _⟩

/-! ## `for_each_m` -/

theorem take_filterMap_next {s : List (Option α)} {p q : Nat} (hpq : p < q)
    (hs : ∀ j : Nat, p < j → j < q → s[j]? = some none) {o : Option α} (ho : s[p]? = some o) :
    (s.take q).filterMap id = (s.take p).filterMap id ++ [o].filterMap id := by
  have e1 : s.take q = s.take (p + 1) ++ (s.drop (p + 1)).take (q - (p + 1)) := by
    rw [← List.take_add]; congr 1; omega
  have e2 : ((s.drop (p + 1)).take (q - (p + 1))).filterMap id = [] := by
    rw [List.filterMap_eq_nil_iff]
    intro x hx
    rw [List.mem_iff_getElem?] at hx
    obtain ⟨j, hj⟩ := hx
    have hjl : j < q - (p + 1) := by
      by_contra hcon
      rw [List.getElem?_take, if_neg hcon] at hj; cases hj
    rw [List.getElem?_take, if_pos hjl, List.getElem?_drop, hs _ (by omega) (by omega)] at hj
    cases hj; rfl
  rw [e1, List.filterMap_append, e2, List.append_nil, List.take_add_one, ho, List.filterMap_append]
  rfl

theorem assignLoop_spec {P : PCfg α κ} (hC : CfgOk P.C) {f : α → α} (hf : ∀ a, P.C.key (f a) = P.C.key a) :
    ∀ n (t : Tbl α) (c : List Ctrl) p, Inv P.C t c → p ≤ t.capacity → t.capacity - p < n →
    (p < t.capacity → ∃ a, t.slots[p]? = some (some a)) →
    ∃ t' c', PTbl.assignLoop P f n t p = .ok t' ∧ Inv P.C t' c' ∧
      elems t' = (t.slots.take p).filterMap id ++ ((t.slots.drop p).filterMap id).map f := by
  intro n
  induction n with
  | zero => intro t c p _ _ h; omega
  | succ n ih =>
    intro t c p h hp hn hfull
    unfold PTbl.assignLoop
    by_cases hpc : p = t.capacity
    · rw [if_pos hpc]
      refine ⟨t, c, rfl, h, ?_⟩
      rw [hpc, ← h.core.sync.slen, List.drop_length, List.take_length]
      simp [elems]
    · rw [if_neg hpc]
      have hlt : p < t.capacity := by omega
      obtain ⟨a, ha⟩ := hfull hlt
      have hsl : p < t.slots.length := by rw [h.core.sync.slen]; exact hlt
      have e1 : t.assignAt p f = .ok { t with slots := t.slots.set p (some (f a)) } := by
        unfold Tbl.assignAt; rw [readSlot_ok' ha]; rfl
      have h' := assign_inv h ha (hf a)
      rw [e1]
      simp only [Res.ok_bind]
      obtain ⟨q, n1, n2, n3, n4, n5⟩ := next_spec hC.group h'.core (p := p) hlt
      rw [n1]
      simp only [Res.ok_bind]
      obtain ⟨t', c', r1, r2, r3⟩ := ih _ c q h' n3 (by show t.capacity - q < n; omega) n5
      refine ⟨t', c', r1, r2, ?_⟩
      rw [r3]
      have ho : (t.slots.set p (some (f a)))[p]? = some (some (f a)) := by rw [List.getElem?_set_self hsl]
      rw [take_filterMap_next n2 n4 ho, ← drop_filterMap_none (Nat.succ_le_of_lt n2) (fun j h h' => n4 j h h')]
      dsimp only
      rw [(set_take_drop hsl).1, (set_take_drop hsl).2, drop_filterMap_some ha]
      simp

theorem assignAll_sim {P : PCfg α κ} (hC : CfgOk P.C) {f : α → α} (hf : ∀ a, P.C.key (f a) = P.C.key a) {t : Tbl α}
    {l : List α} (h : Sim P.C t l) : ∃ t', PTbl.assignAll P f t = .ok t' ∧ Sim P.C t' (l.map f) := by
  obtain ⟨⟨c, hc⟩, hp⟩ := h
  obtain ⟨q, b1, b2, b3, b4⟩ := begin_spec hC.group hc.core
  obtain ⟨t', c', r1, r2, r3⟩ := assignLoop_spec hC hf t.fuel t c q hc b2 (by unfold Tbl.fuel; omega) b4
  refine ⟨t', ?_, ⟨c', r2⟩, ?_⟩
  · unfold PTbl.assignAll; rw [b1]; exact r1
  · have e1 : (t.slots.take q).filterMap id = [] := by
      rw [List.filterMap_eq_nil_iff]
      intro x hx
      obtain ⟨j, hj⟩ := List.mem_iff_getElem?.1 hx
      have hjq : j < q := by
        by_contra hcon
        rw [List.getElem?_take, if_neg hcon] at hj; cases hj
      rw [List.getElem?_take, if_pos hjq, b3 j hjq] at hj
      cases hj; rfl
    rw [r3, e1, List.nil_append, ← drop_filterMap_none (Nat.zero_le q) (fun j _ h => b3 j h)]
    exact hp.map f

theorem forEachM_psim {P : PCfg α κ} (hC : CfgOk P.C) {f : α → α} (hf : ∀ a, P.C.key (f a) = P.C.key a) {p : PTbl α}
    {l : List α} (h : PSim P p l) : ∃ p', p.forEachM P f = .ok p' ∧ PSim P p' (l.map f) := by
  obtain ⟨ts, h1, h2⟩ := map_psim (f := PTbl.assignAll P f) (l' := l.map f) h (fun i t ht => by
    rw [part_map l hf]; exact assignAll_sim hC hf ht)
  exact ⟨_, by unfold PTbl.forEachM; rw [h1]; rfl, h2⟩

theorem forEach_psim {P : PCfg α κ} (hC : CfgOk P.C) {p : PTbl α} {l : List α} (h : PSim P p l) :
    p.forEach P = .ok (flat p) := by
  have : ∀ (ts : List (Tbl α)), (∀ t ∈ ts, ∃ c, Inv P.C t c) → mapRes (fun t => t.iterate P.C) ts = .ok (ts.map elems) := by
    intro ts
    induction ts with
    | nil => intro _; rfl
    | cons t ts ih =>
      intro h
      obtain ⟨c, hc⟩ := h t (List.mem_cons_self ..)
      unfold mapRes
      rw [iterate_spec hC.group hc.core]
      simp only [Res.ok_bind]
      rw [ih (fun t ht => h t (List.mem_cons_of_mem _ ht))]
      rfl
  unfold PTbl.forEach
  rw [this p.sets (fun t ht => by
    obtain ⟨i, hi⟩ := List.mem_iff_getElem?.1 ht
    exact h.wf.inv' i t hi)]
  simp only [Res.ok_bind]
  rw [flat, List.flatMap_def]

/-! ## `clear`, `rehash`, `reserve` -/

theorem clear_psim {P : PCfg α κ} (hC : CfgOk P.C) {p : PTbl α} {l : List α} (h : PSim P p l) :
    ∃ p', p.clear P = .ok p' ∧ PSim P p' [] := by
  obtain ⟨ts, h1, h2⟩ := map_psim (f := fun t => t.clear P.C) (l' := []) h (fun i t ht => by
    obtain ⟨t', g1, g2⟩ := step_sim hC ht .clear trivial
    unfold Tbl.step at g1
    rw [Res.bind_eq_ok] at g1
    obtain ⟨t1, g3, g4⟩ := g1
    simp only [Res.ok.injEq, Prod.mk.injEq] at g4
    rw [← g4.1] at g2
    exact ⟨t1, g3, g2⟩)
  exact ⟨_, by unfold PTbl.clear; rw [h1]; rfl, h2⟩

theorem rehash_psim {P : PCfg α κ} (hC : CfgOk P.C) {p : PTbl α} {l : List α} (h : PSim P p l) {n : Nat}
    (hn : 2 ^ P.N ≤ n) : ∃ p', p.rehash P n = .ok p' ∧ PSim P p' l := by
  have h0 : n / 2 ^ P.N ≠ 0 := by
    have := Nat.div_pos hn (Nat.two_pow_pos P.N)
    omega
  obtain ⟨ts, h1, h2⟩ := map_psim (f := fun t => t.rehash P.C (n / 2 ^ P.N)) (l' := l) h (fun i t ht => by
    obtain ⟨t', g1, g2⟩ := step_sim hC ht (.rehash (n / 2 ^ P.N)) h0
    unfold Tbl.step at g1
    rw [Res.bind_eq_ok] at g1
    obtain ⟨t1, g3, g4⟩ := g1
    simp only [Res.ok.injEq, Prod.mk.injEq] at g4
    rw [← g4.1] at g2
    exact ⟨t1, g3, g2⟩)
  exact ⟨_, by unfold PTbl.rehash; rw [h1]; rfl, h2⟩

theorem normalizeCapacity_pos (n : Nat) : 1 ≤ normalizeCapacity n := by
  unfold normalizeCapacity
  split
  · omega
  · have : 1 ≤ (2 : Nat) ^ (Nat.log2 n) := Nat.one_le_two_pow
    omega

theorem reserve_psim {P : PCfg α κ} (hC : CfgOk P.C) {p : PTbl α} {l : List α} (h : PSim P p l) (n : Nat) :
    ∃ p', p.reserve P n = .ok p' ∧ PSim P p' l := by
  unfold PTbl.reserve
  dsimp only
  have h1 : 2 ^ P.N ≤ 2 ^ P.N * normalizeCapacity (n / 2 ^ P.N) := Nat.le_mul_of_pos_right _ (normalizeCapacity_pos _)
  apply rehash_psim hC h
  split <;> omega

/-! ## One operation -/

theorem insertAll_psim {P : PCfg α κ} (hC : CfgOk P.C) : ∀ (vs : List α) (p : PTbl α) (l : List α), PSim P p l →
    ∃ p', vs.foldlM (fun p v => do
      let (p, _) ← p.withSub (subidx P.N (P.C.hash (P.C.key v))) (fun t => t.step P.C (.insert v))
      Res.ok p) p = .ok p' ∧ PSim P p' (vs.foldl (Spec.insert P.C.key P.C.eqv) l)
  | [], p, l, h => ⟨p, rfl, h⟩
  | v :: vs, p, l, h => by
    obtain ⟨p1, h1, h2⟩ := keyed_sim hC h (.insert v) trivial rfl
    have e : (Spec.step P.C.key P.C.eqv l (.insert v)).1 = Spec.insert P.C.key P.C.eqv l v := by
      unfold Spec.step Spec.insert
      dsimp only
      cases Spec.lookup P.C.key P.C.eqv l (P.C.key v) <;> rfl
    rw [e] at h2
    obtain ⟨p2, h3, h4⟩ := insertAll_psim hC vs p1 _ h2
    refine ⟨p2, ?_, h4⟩
    rw [List.foldlM_cons]
    unfold kidx at h1
    rw [h1]
    exact h3

theorem count_any {C : Cfg α κ} (hC : CfgOk C) {l : List α} (hd : Distinct C l) (k : κ) :
    (if l.any (fun a => C.eqv (C.key a) k) then 1 else 0) = l.countP (fun a => C.eqv (C.key a) k) := by
  cases h : l.any (fun a => C.eqv (C.key a) k) with
  | true =>
    obtain ⟨a, h1, h2⟩ := List.any_eq_true.1 h
    rw [countP_key hC hd h1 h2]
    rfl
  | false =>
    rw [List.any_eq_false] at h
    rw [countP_none (fun a ha => by simpa using h a ha)]
    rfl

theorem lookup_count {C : Cfg α κ} (hC : CfgOk C) {l : List α} (hd : Distinct C l) (k : κ) :
    l.countP (fun a => C.eqv (C.key a) k) = (match Spec.lookup C.key C.eqv l k with
      | none => 0
      | some _ => 1) := by
  cases h : Spec.lookup C.key C.eqv l k with
  | none => exact countP_none (lookup_none.1 h)
  | some a => exact countP_key hC hd (lookup_some h).1 (lookup_some h).2

theorem pstep_base_sim {P : PCfg α κ} (hC : CfgOk P.C) {p : PTbl α} {l : List α} (h : PSim P p l) (op : Op α κ)
    (hv : (POp.base op).Valid P.C.key (2 ^ P.N)) :
    ∃ p', p.step P op = .ok (p', (Spec.step P.C.key P.C.eqv l op).2) ∧ PSim P p' (Spec.step P.C.key P.C.eqv l op).1 := by
  cases op with
  | insert a => exact keyed_sim hC h (.insert a) trivial rfl
  | insertOrAssign a f => exact keyed_sim hC h (.insertOrAssign a f) hv rfl
  | subscript a f => exact keyed_sim hC h (.subscript a f) hv rfl
  | «at» k => exact keyed_sim hC h (.at k) trivial rfl
  | find k => exact keyed_sim hC h (.find k) trivial rfl
  | contains k => exact keyed_sim hC h (.contains k) trivial rfl
  | count k =>
    refine withSub_sim h (i := kidx P k) (subidx_lt _ _) ?_ (fun _ _ => rfl)
    intro t ht
    refine ⟨t, ?_, ht⟩
    rw [contains_sim hC ht, any_part hC]
    simp only [Res.ok_bind, Spec.step]
    rw [← count_any hC (h.distinct hC)]
  | erase k =>
    refine withSub_sim h (i := kidx P k) (subidx_lt _ _) ?_ (fun j hj => erase_other hC l k hj)
    intro t ht
    have := eraseKeyIf_sim hC ht k (fun _ => true)
    simp only [Spec.step]
    rw [lookup_part hC] at this
    rw [lookup_count hC (h.distinct hC), erase_part]
    cases hl : Spec.lookup P.C.key P.C.eqv l k with
    | none =>
      rw [hl] at this
      dsimp only at this
      rw [this]
      refine ⟨t, rfl, ?_⟩
      rw [erase_none]
      · exact ht
      · intro a ha
        exact lookup_none.1 hl a (mem_part.1 ha).1
    | some a =>
      rw [hl] at this
      simp only [if_true] at this
      obtain ⟨t', r1, r2⟩ := this
      rw [r1]
      exact ⟨t', rfl, r2⟩
  | eraseIf pr =>
    obtain ⟨p', r1, r2⟩ := eraseIf_psim hC h pr
    exact ⟨p', by simp only [PTbl.step, Spec.step, r1, Res.ok_bind], r2⟩
  | extract k => exact keyed_sim hC h (.extract k) trivial rfl
  | insertNode n =>
    cases n with
    | none => exact ⟨p, rfl, h⟩
    | some a => exact keyed_sim hC h (.insertNode (some a)) trivial rfl
  | toggle a => exact keyed_sim hC h (.toggle a) trivial rfl
  | insertRange vs =>
    obtain ⟨p', r1, r2⟩ := insertAll_psim hC vs p l h
    exact ⟨p', by simp only [PTbl.step, Spec.step]; rw [r1]; rfl, r2⟩
  | size => exact ⟨p, by simp only [PTbl.step, Spec.step, h.size], h⟩
  | clear =>
    obtain ⟨p', r1, r2⟩ := clear_psim hC h
    exact ⟨p', by simp only [PTbl.step, Spec.step, r1, Res.ok_bind], r2⟩
  | reserve n =>
    obtain ⟨p', r1, r2⟩ := reserve_psim hC h n
    exact ⟨p', by simp only [PTbl.step, Spec.step, r1, Res.ok_bind], r2⟩
  | rehash n =>
    obtain ⟨p', r1, r2⟩ := rehash_psim hC h hv
    exact ⟨p', by simp only [PTbl.step, Spec.step, r1, Res.ok_bind], r2⟩

theorem modify_id (C : Cfg α κ) (l : List α) (k : κ) : Spec.modify C.key C.eqv l k id = l := by
  unfold Spec.modify
  conv => rhs; rw [← List.map_id l]
  apply List.map_congr_left
  intro a _
  split <;> rfl

theorem pstep_sim {P : PCfg α κ} (hC : CfgOk P.C) {p : PTbl α} {l : List α} (h : PSim P p l) (op : POp α κ)
    (hv : op.Valid P.C.key (2 ^ P.N)) :
    ∃ p', p.pstep P op = .ok (p', (Spec.pstep P.C.key P.C.eqv l op).2) ∧ PSim P p' (Spec.pstep P.C.key P.C.eqv l op).1 := by
  cases op with
  | base op => exact pstep_base_sim hC h op hv
  | ifContains k =>
    refine withSub_sim h (i := kidx P k) (subidx_lt _ _) ?_ (fun _ _ => rfl)
    intro t ht
    obtain ⟨t', r1, r2⟩ := modifyKeyIf_sim hC ht k (f := id) (fun _ => rfl)
    rw [lookup_part hC] at r1
    rw [modify_id] at r2
    exact ⟨t', by rw [r1]; rfl, r2⟩
  | modifyIf k f =>
    refine withSub_sim h (i := kidx P k) (subidx_lt _ _) ?_ (fun j hj => modify_part_other hC l k hv hj)
    intro t ht
    obtain ⟨t', r1, r2⟩ := modifyKeyIf_sim hC ht k (f := f) hv
    rw [lookup_part hC] at r1
    refine ⟨t', by rw [r1]; rfl, ?_⟩
    simp only [Spec.pstep]
    rw [modify_part P l k hv]
    exact r2
  | eraseIfKey k pr =>
    have ho : ∀ j, j ≠ kidx P k → part P (Spec.pstep P.C.key P.C.eqv l (.eraseIfKey k pr)).1 j = part P l j := by
      intro j hj
      simp only [Spec.pstep]
      cases Spec.lookup P.C.key P.C.eqv l k with
      | none => rfl
      | some b =>
        dsimp only
        split
        · exact erase_other hC l k hj
        · rfl
    refine withSub_sim h (i := kidx P k) (subidx_lt _ _) ?_ ho
    intro t ht
    have := eraseKeyIf_sim hC ht k pr
    rw [lookup_part hC] at this
    simp only [Spec.pstep]
    cases hl : Spec.lookup P.C.key P.C.eqv l k with
    | none =>
      rw [hl] at this
      dsimp only at this ⊢
      rw [this]
      exact ⟨t, rfl, ht⟩
    | some a =>
      rw [hl] at this
      dsimp only at this ⊢
      cases hp : pr a with
      | true =>
        rw [hp] at this
        simp only [if_true] at this ⊢
        obtain ⟨t', r1, r2⟩ := this
        rw [r1, erase_part]
        exact ⟨t', rfl, r2⟩
      | false =>
        rw [hp] at this
        simp only [Bool.false_eq_true, if_false] at this ⊢
        rw [this]
        exact ⟨t, rfl, ht⟩
  | emplaceL a f =>
    have ho : ∀ j, j ≠ kidx P (P.C.key a) →
        part P (Spec.pstep P.C.key P.C.eqv l (.emplaceL a f)).1 j = part P l j := by
      intro j hj
      simp only [Spec.pstep]
      cases Spec.lookup P.C.key P.C.eqv l (P.C.key a) with
      | none => exact part_cons_other l hj
      | some b => exact modify_part_other hC l _ hv hj
    refine withSub_sim h (i := kidx P (P.C.key a)) (subidx_lt _ _) ?_ ho
    intro t ht
    have := emplaceL_sim hC ht a (f := f) hv
    rw [lookup_part hC] at this
    simp only [Spec.pstep]
    cases hl : Spec.lookup P.C.key P.C.eqv l (P.C.key a) with
    | none =>
      rw [hl] at this
      obtain ⟨t', r1, r2⟩ := this
      refine ⟨t', by rw [r1]; rfl, ?_⟩
      dsimp only
      have e : part P (a :: l) (kidx P (P.C.key a)) = a :: part P l (kidx P (P.C.key a)) := part_cons_same l a
      rw [e]
      exact r2
    | some b =>
      rw [hl] at this
      obtain ⟨t', r1, r2⟩ := this
      refine ⟨t', by rw [r1]; rfl, ?_⟩
      dsimp only
      rw [modify_part P l _ hv]
      exact r2
  | forEachM f =>
    obtain ⟨p', r1, r2⟩ := forEachM_psim hC hv h
    exact ⟨p', by simp only [PTbl.pstep, Spec.pstep, r1, Res.ok_bind], r2⟩

/-! ## Several containers -/

def PWSim (P : PCfg α κ) (w : Nat → PTbl α) (m : Nat → List α) : Prop := ∀ i, PSim P (w i) (m i)

theorem PWSim.put {P : PCfg α κ} {w : Nat → PTbl α} {m : Nat → List α} (h : PWSim P w m) (i : Nat) {p : PTbl α}
    {l : List α} (hp : PSim P p l) : PWSim P (put w i p) (put m i l) := by
  intro j
  unfold Spec.put
  split
  · exact hp
  · exact h j

theorem copyAssign_psim {P : PCfg α κ} (hC : CfgOk P.C) {p q : PTbl α} {l m : List α} (hp : PSim P p l) (hq : PSim P q m) :
    ∃ p', PTbl.copyAssign P p q = .ok p' ∧ PSim P p' m := by
  obtain ⟨ts, h1, h2, h3⟩ := zipRes_spec (f := fun t u => Tbl.copyAssign P.C t u) p.sets q.sets
    (fun i t' => Sim P.C t' (part P m i)) (hp.len.trans hq.len.symm)
    (fun i t u ht hu => by
      obtain ⟨d, hd⟩ := destroySlots_sim hC (hp.sim i t ht)
      obtain ⟨⟨c, hi⟩, hperm⟩ := hq.sim i u hu
      obtain ⟨t', c', g1, g2, g3, _⟩ := copy_spec hC hi
      refine ⟨t', ?_, ⟨c', g2⟩, g3.trans hperm⟩
      simp only [Tbl.copyAssign, Tbl.swap, g1, hd, Res.ok_bind])
  exact ⟨_, by unfold PTbl.copyAssign; rw [h1]; rfl, ⟨h2.trans hp.len, h3⟩⟩

theorem moveAssign_psim {P : PCfg α κ} (hC : CfgOk P.C) {p q : PTbl α} {l m : List α} (hp : PSim P p l) (hq : PSim P q m) :
    ∃ p' q', PTbl.moveAssign p q = .ok (p', q') ∧ PSim P p' m ∧ PSim P q' [] := by
  obtain ⟨ts, h1, h2, h3⟩ := zip_psim (f := fun t u => Tbl.moveAssign t u) (l' := m) (m' := []) hp hq
    (fun i t u ht hu => by
      obtain ⟨d, hd⟩ := destroySlots_sim hC ht
      refine ⟨u, Tbl.empty, ?_, hu, sim_empty hC.group⟩
      simp only [Tbl.moveAssign, Tbl.move, Tbl.swap, hd, Res.ok_bind])
  exact ⟨_, _, by unfold PTbl.moveAssign; rw [h1]; rfl, h2, h3⟩

theorem swap_psim {P : PCfg α κ} {p q : PTbl α} {l m : List α} (hp : PSim P p l) (hq : PSim P q m) :
    ∃ p' q', PTbl.swap p q = .ok (p', q') ∧ PSim P p' m ∧ PSim P q' l := by
  obtain ⟨ts, h1, h2, h3⟩ := zip_psim (f := fun t u => Res.ok (Tbl.swap t u)) (l' := m) (m' := l) hp hq
    (fun i t u ht hu => ⟨u, t, rfl, hu, ht⟩)
  exact ⟨_, _, by unfold PTbl.swap; rw [h1]; rfl, h2, h3⟩

theorem merge_sim {C : Cfg α κ} (hC : CfgOk C) {t u : Tbl α} {l m : List α} (ht : Sim C t l) (hu : Sim C u m) :
    ∃ t' u', t.merge C u = .ok (t', u') ∧ Sim C t' (l ++ m.filter (fun a => !l.any (fun b => C.eqv (C.key b) (C.key a)))) ∧
      Sim C u' (m.filter (fun a => l.any (fun b => C.eqv (C.key b) (C.key a)))) := by
  obtain ⟨⟨c, hi⟩, hp⟩ := ht
  obtain ⟨⟨d, hj⟩, hq⟩ := hu
  obtain ⟨t', u', c', d', h1, h2, h3, h4, h5⟩ := merge_spec hC hi hj
  have hany : ∀ a : α, (elems t).any (fun b => C.eqv (C.key b) (C.key a)) =
      l.any (fun b => C.eqv (C.key b) (C.key a)) := by
    intro a
    rw [Bool.eq_iff_iff]
    simp only [List.any_eq_true]
    constructor
    · rintro ⟨b, hb, e⟩; exact ⟨b, hp.mem_iff.1 hb, e⟩
    · rintro ⟨b, hb, e⟩; exact ⟨b, hp.mem_iff.2 hb, e⟩
  simp only [hany] at h4 h5
  exact ⟨t', u', h1, ⟨⟨c', h2⟩, h4.trans (hp.append (hq.filter _))⟩, ⟨⟨d', h3⟩, h5.trans (hq.filter _)⟩⟩

theorem merge_psim {P : PCfg α κ} (hC : CfgOk P.C) {p q : PTbl α} {l m : List α} (hp : PSim P p l) (hq : PSim P q m) :
    ∃ p' q', PTbl.merge P p q = .ok (p', q') ∧
      PSim P p' (l ++ m.filter (fun a => !l.any (fun b => P.C.eqv (P.C.key b) (P.C.key a)))) ∧
      PSim P q' (m.filter (fun a => l.any (fun b => P.C.eqv (P.C.key b) (P.C.key a)))) := by
  have hany : ∀ i, ∀ a ∈ part P m i, (part P l i).any (fun b => P.C.eqv (P.C.key b) (P.C.key a)) =
      l.any (fun b => P.C.eqv (P.C.key b) (P.C.key a)) := by
    intro i a ha
    have hi := (mem_part.1 ha).2
    subst hi
    exact any_part hC l (P.C.key a)
  obtain ⟨ts, h1, h2, h3⟩ := zip_psim (f := fun t u => Tbl.merge P.C t u)
    (l' := l ++ m.filter (fun a => !l.any (fun b => P.C.eqv (P.C.key b) (P.C.key a))))
    (m' := m.filter (fun a => l.any (fun b => P.C.eqv (P.C.key b) (P.C.key a)))) hp hq
    (fun i t u ht hu => by
      obtain ⟨t', u', g1, g2, g3⟩ := merge_sim hC ht hu
      refine ⟨t', u', g1, ?_, ?_⟩
      · rw [part_append, part_filter]
        rw [List.filter_congr (fun a ha => by rw [hany i a ha])] at g2
        exact g2
      · rw [part_filter]
        rw [List.filter_congr (fun a ha => by rw [hany i a ha])] at g3
        exact g3)
  exact ⟨_, _, by unfold PTbl.merge; rw [h1]; rfl, h2, h3⟩

theorem beqSets_spec [BEq α] [LawfulBEq α] {P : PCfg α κ} (hC : CfgOk P.C) : ∀ (ts us : List (Tbl α)), ts.length = us.length →
    (∀ t ∈ ts, ∃ c, Inv P.C t c) → (∀ t ∈ us, ∃ c, Inv P.C t c) →
    ∃ b, PTbl.beqSets P ts us = .ok b ∧
      (b = true ↔ ∀ (i : Nat) t u, ts[i]? = some t → us[i]? = some u → (elems t).Perm (elems u)) := by
  intro ts
  induction ts with
  | nil => intro us _ _ _; exact ⟨true, by unfold PTbl.beqSets; rfl, by simp⟩
  | cons t ts ih =>
    intro us hl ht hu
    cases us with
    | nil => simp at hl
    | cons u us =>
      obtain ⟨c, hc⟩ := ht t (List.mem_cons_self ..)
      obtain ⟨d, hd⟩ := hu u (List.mem_cons_self ..)
      obtain ⟨b, h1, h2⟩ := beqTbl_spec hC hc hd
      obtain ⟨b', h3, h4⟩ := ih us (by simpa using hl) (fun t h => ht t (List.mem_cons_of_mem _ h))
        (fun t h => hu t (List.mem_cons_of_mem _ h))
      unfold PTbl.beqSets
      rw [h1]
      simp only [Res.ok_bind]
      cases b with
      | true =>
        simp only [if_true]
        refine ⟨b', h3, h4.trans ?_⟩
        constructor
        · intro h i x y hx hy
          cases i with
          | zero =>
            simp only [List.getElem?_cons_zero, Option.some.injEq] at hx hy
            subst hx; subst hy
            exact h2.1 rfl
          | succ i => exact h i x y (by simpa using hx) (by simpa using hy)
        · intro h i x y hx hy
          exact h (i + 1) x y (by simpa using hx) (by simpa using hy)
      | false =>
        simp only [Bool.false_eq_true, if_false]
        refine ⟨false, rfl, ⟨fun h => (Bool.false_ne_true h).elim, fun h => ?_⟩⟩
        exact absurd (h2.2 (h 0 t u rfl rfl)) (by simp)

theorem equal_psim [BEq α] [LawfulBEq α] {P : PCfg α κ} (hC : CfgOk P.C) {p q : PTbl α} {l m : List α} (hp : PSim P p l)
    (hq : PSim P q m) : PTbl.beqSets P p.sets q.sets = .ok (l.isPerm m) := by
  have hI : ∀ {p : PTbl α} {l}, PSim P p l → ∀ t ∈ p.sets, ∃ c, Inv P.C t c := by
    intro p l h t ht
    obtain ⟨i, hi⟩ := List.mem_iff_getElem?.1 ht
    exact h.wf.inv' i t hi
  obtain ⟨b, h1, h2⟩ := beqSets_spec hC p.sets q.sets (hp.len.trans hq.len.symm) (hI hp) (hI hq)
  rw [h1]
  congr 1
  rw [Bool.eq_iff_iff, h2, List.isPerm_iff]
  constructor
  · intro h
    have h3 : ∀ i, i < 2 ^ P.N → (part P l i).Perm (part P m i) := by
      intro i hi
      obtain ⟨t, t1, t2⟩ := hp.get hi
      obtain ⟨u, u1, u2⟩ := hq.get hi
      exact t2.2.symm.trans ((h i t u t1 u1).trans u2.2)
    have h4 : ((List.range (2 ^ P.N)).flatMap (part P l)).Perm ((List.range (2 ^ P.N)).flatMap (part P m)) := by
      apply List.Perm.flatMap_left
      intro i hi
      exact h3 i (List.mem_range.1 hi)
    exact (parts_perm P l).symm.trans (h4.trans (parts_perm P m))
  · intro h i t u ht hu
    exact ((hp.sim i t ht).2.trans (part_perm h i)).trans (hq.sim i u hu).2.symm

/-- Whether the mutexes are real. -/
def locks (P : PCfg α κ) : Bool := P.mtx != .null

theorem pwstep_sim [BEq α] [LawfulBEq α] {P : PCfg α κ} (hC : CfgOk P.C) {w : Nat → PTbl α} {m : Nat → List α}
    (h : PWSim P w m) (op : PWOp α κ) (hv : op.Valid P.C.key (2 ^ P.N) (locks P)) :
    ∃ w', PTbl.wstep P w op = .ok (w', (Spec.pwstep P.C.key P.C.eqv m op).2) ∧
      PWSim P w' (Spec.pwstep P.C.key P.C.eqv m op).1 := by
  have hlock : ∀ i j : Nat, (i = j → locks P = false) → ¬ (i = j ∧ P.mtx ≠ .null) := by
    rintro i j hl ⟨rfl, hne⟩
    have := hl rfl
    unfold locks at this
    exact hne (by simpa using this)
  cases op with
  | on i op =>
    obtain ⟨p', h1, h2⟩ := pstep_sim hC (h i) op hv
    exact ⟨put w i p', by simp only [PTbl.wstep, Spec.pwstep, h1, Res.ok_bind], h.put i h2⟩
  | create i n =>
    obtain ⟨p', q', h1, h2, _⟩ := moveAssign_psim hC (h i) (withBuckets_psim hC.group n)
    exact ⟨put w i p', by simp only [PTbl.wstep, Spec.pwstep, Spec.wstep, h1, Res.ok_bind], h.put i h2⟩
  | copy i j =>
    obtain ⟨p', h1, h2⟩ := copyAssign_psim hC (h i) (h j)
    exact ⟨put w i p', by simp only [PTbl.wstep, Spec.pwstep, Spec.wstep, h1, Res.ok_bind], h.put i h2⟩
  | move i j =>
    by_cases hij : i = j
    · subst hij
      have he : (Tbl.empty : Tbl α).destroySlots = .ok Tbl.empty := rfl
      obtain ⟨ts, h1, h2⟩ := map_psim (f := fun t => do
        let (tmp, t) := Tbl.move t
        let (t, tmp) := Tbl.swap t tmp
        let _ ← tmp.destroySlots
        Res.ok t) (l' := m i) (h i) (fun i t ht =>
          ⟨t, by simp only [Tbl.move, Tbl.swap, he, Res.ok_bind], ht⟩)
      refine ⟨put w i { sets := ts }, ?_, ?_⟩
      · simp only [PTbl.wstep, Spec.pwstep, Spec.wstep, if_true]
        rw [h1]; rfl
      · have : Spec.put (Spec.put m i []) i (m i) = Spec.put m i (m i) := by
          funext j; unfold Spec.put; by_cases hj : j = i <;> simp [hj]
        simp only [Spec.pwstep, Spec.wstep, this]
        exact h.put i h2
    · obtain ⟨p', q', h1, h2, h3⟩ := moveAssign_psim hC (h i) (h j)
      refine ⟨put (put w j q') i p', ?_, (h.put j h3).put i h2⟩
      simp only [PTbl.wstep, Spec.pwstep, Spec.wstep, if_neg hij, h1, Res.ok_bind]
  | swap i j =>
    obtain ⟨p', q', h1, h2, h3⟩ := swap_psim (h i) (h j)
    refine ⟨put (put w i p') j q', ?_, (h.put i h2).put j h3⟩
    simp only [PTbl.wstep, Spec.pwstep, Spec.wstep]
    rw [if_neg (hlock i j hv), h1]
    rfl
  | merge i j =>
    obtain ⟨p', q', h1, h2, h3⟩ := merge_psim hC (h i) (h j)
    refine ⟨put (put w i p') j q', ?_, (h.put i h2).put j h3⟩
    have hij : ¬ i = j := hv
    simp only [PTbl.wstep, Spec.pwstep, Spec.wstep, if_neg hij, h1, Res.ok_bind]
  | equal i j =>
    refine ⟨w, ?_, h⟩
    simp only [PTbl.wstep, Spec.pwstep, Spec.wstep]
    rw [if_neg (hlock i j hv), equal_psim hC (h i) (h j)]
    rfl

theorem pwrun_sim [BEq α] [LawfulBEq α] {P : PCfg α κ} (hC : CfgOk P.C) : ∀ (ops : List (PWOp α κ)) {w : Nat → PTbl α}
    {m : Nat → List α}, PWSim P w m → (∀ op ∈ ops, op.Valid P.C.key (2 ^ P.N) (locks P)) →
    ∃ w', PTbl.wrun P w ops = .ok (w', (Spec.pwrun P.C.key P.C.eqv m ops).2) ∧
      PWSim P w' (Spec.pwrun P.C.key P.C.eqv m ops).1
  | [], w, m, h, _ => ⟨w, rfl, h⟩
  | op :: ops, w, m, h, hv => by
    obtain ⟨w1, h1, h2⟩ := pwstep_sim hC h op (hv op List.mem_cons_self)
    obtain ⟨w2, h3, h4⟩ := pwrun_sim hC ops h2 (fun o ho => hv o (List.mem_cons_of_mem _ ho))
    refine ⟨w2, ?_, h4⟩
    simp only [PTbl.wrun, Spec.pwrun, h1, h3, Res.ok_bind]

end Gtl.Parallel
