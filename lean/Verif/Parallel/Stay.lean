import Verif.Parallel.Bulk
import Verif.Swiss.Stay
import Verif.Spec.ParStay
/-! Which operations on a parallel container leave the elements in their slots. -/

namespace Gtl.Parallel

open Gtl.Swiss
open Gtl.Spec (Op POp Resp Keeps PKeeps addsTo)

variable {α κ : Type}

/-- The submap and the position `find(k)` returns an iterator for, `none` for `end()` (phmap.hpp:4388-4394, with the
locks left out). -/
def PTbl.locate (P : PCfg α κ) (p : PTbl α) (k : κ) : Res PTbl.It := do
  let t ← p.sub (subidx P.N (P.C.hash k))
  let o ← t.find P.C k
  .ok (o.map (fun pos => (subidx P.N (P.C.hash k), pos)))

/-- The element with key `k` is in slot `pos`. -/
def Holds (C : Cfg α κ) (k : κ) (pos : Nat) (t : Tbl α) : Prop :=
  ∃ a, t.slots[pos]? = some (some a) ∧ C.eqv (C.key a) k = true

/-- `t'` is what became of `t`: the element is where it was, in an array of the same size, and at most `n` free slots
were used. -/
def Stay (C : Cfg α κ) (k : κ) (pos n : Nat) (t t' : Tbl α) : Prop :=
  Holds C k pos t' ∧ t'.capacity = t.capacity ∧ t.growthLeft ≤ t'.growthLeft + n

theorem Stay.refl {C : Cfg α κ} {k : κ} {pos : Nat} {t : Tbl α} (h : Holds C k pos t) (n : Nat) : Stay C k pos n t t :=
  ⟨h, rfl, by omega⟩

theorem Stay.trans {C : Cfg α κ} {k : κ} {pos n m : Nat} {t u v : Tbl α} (h : Stay C k pos n t u) (g : Stay C k pos m u v) :
    Stay C k pos (n + m) t v :=
  ⟨g.1, by rw [g.2.1, h.2.1], by have := h.2.2; have := g.2.2; omega⟩

/-! ## Bodies with their own code -/

theorem eraseKeyIf_stay {P : PCfg α κ} (hC : CfgOk P.C) {t t' : Tbl α} {l : List α} (h : Sim P.C t l) {k k' : κ} {pr : α → Bool}
    {pos n : Nat} (hs : Holds P.C k pos t) (hp : ∀ a, P.C.eqv (P.C.key a) k = true → P.C.eqv k k' = true → pr a = false)
    (he : PTbl.eraseKeyIf P t k' pr = .ok (t', n)) : Stay P.C k pos 0 t t' := by
  unfold PTbl.eraseKeyIf at he
  rcases find_sim hC h k' with ⟨i, b, f1, f2, f3, f4, f5⟩ | ⟨f1, f2, f3⟩
  · rw [f1] at he
    simp only [Res.ok_bind] at he
    rw [readSlot_ok' f2] at he
    simp only [Res.ok_bind, ite_self] at he
    split at he
    · rename_i hb
      obtain ⟨t2, h1, he⟩ := Res.bind_eq_ok.1 he
      cases he
      obtain ⟨e1, e2, e3⟩ := eraseAt_fields h1
      obtain ⟨a, ha, hak⟩ := hs
      refine ⟨⟨a, ?_, hak⟩, e2, by omega⟩
      rw [e1]
      refine set_none_other ?_ ha
      rintro rfl
      rw [ha] at f2; cases f2
      rw [hp _ hak (hC.trans _ _ _ (hC.symm _ _ hak) f4)] at hb
      cases hb
    · cases he; exact Stay.refl hs 0
  · rw [f1] at he
    cases he
    exact Stay.refl hs 0

theorem assignAt_stay' {C : Cfg α κ} {t t' : Tbl α} {pos j : Nat} {f : α → α} {k : κ} (hf : ∀ b, C.key (f b) = C.key b)
    (h : t.assignAt j f = .ok t') (hs : Holds C k pos t) : Stay C k pos 0 t t' := by
  obtain ⟨a, ha, hak⟩ := hs
  obtain ⟨e1, e2, e3⟩ := assignAt_stay hf h ha hak
  exact ⟨e1, e2, by omega⟩

theorem modifyKeyIf_stay {P : PCfg α κ} {t t' : Tbl α} {k k' : κ} {f : α → α} (hf : ∀ b, P.C.key (f b) = P.C.key b)
    {pos : Nat} {o : Option α} (hs : Holds P.C k pos t) (he : PTbl.modifyKeyIf P t k' f = .ok (t', o)) :
    Stay P.C k pos 0 t t' := by
  unfold PTbl.modifyKeyIf at he
  obtain ⟨x, _, he⟩ := Res.bind_eq_ok.1 he
  cases x with
  | none => cases he; exact Stay.refl hs 0
  | some off =>
    obtain ⟨a, _, he⟩ := Res.bind_eq_ok.1 he
    obtain ⟨t2, h2, he⟩ := Res.bind_eq_ok.1 he
    cases he
    exact assignAt_stay' hf h2 hs

theorem emplaceL_stay {P : PCfg α κ} (hC : CfgOk P.C) {t t' : Tbl α} {l : List α} (h : Sim P.C t l) {k : κ} {a : α}
    {f : α → α} (hf : ∀ b, P.C.key (f b) = P.C.key b) {pos : Nat} {b : α} {ins : Bool} (hs : Holds P.C k pos t)
    (hg : 1 ≤ t.growthLeft) (he : PTbl.emplaceL P t a f = .ok (t', b, ins)) : Stay P.C k pos 1 t t' := by
  rcases find_sim hC h (P.C.key a) with ⟨i, c, h1, h2, h3, h4, h5⟩ | ⟨h1, h2, h3⟩
  · unfold Tbl.find at h1
    unfold PTbl.emplaceL at he
    simp only at he
    rw [h1] at he
    simp only [Res.ok_bind] at he
    obtain ⟨x, _, he⟩ := Res.bind_eq_ok.1 he
    obtain ⟨t2, g2, he⟩ := Res.bind_eq_ok.1 he
    cases he
    obtain ⟨e1, e2, e3⟩ := assignAt_stay' hf g2 hs
    exact ⟨e1, e2, by omega⟩
  · have key : ∃ j, t.emplace P.C a = .ok (t', j, true) := by
      unfold Tbl.find at h1
      unfold PTbl.emplaceL at he
      simp only at he
      rw [h1] at he
      simp only [Res.ok_bind] at he
      obtain ⟨⟨t1, off⟩, g1, he⟩ := Res.bind_eq_ok.1 he
      obtain ⟨t2, g2, he⟩ := Res.bind_eq_ok.1 he
      obtain ⟨t3, g3, he⟩ := Res.bind_eq_ok.1 he
      cases he
      refine ⟨off, ?_⟩
      unfold Tbl.emplace Tbl.emplaceHash
      rw [h1]
      simp only [Res.ok_bind]
      rw [g1]
      simp only [Res.ok_bind]
      rw [g2]
      simp only [Res.ok_bind]
      rw [g3]
      rfl
    obtain ⟨j, he2⟩ := key
    obtain ⟨c, hc, hck⟩ := hs
    obtain ⟨⟨e1, e2⟩, e3⟩ := emplace_stay hC h a (by omega) he2
    exact ⟨⟨c, e2 pos c hc, hck⟩, e1, e3⟩

theorem assignLoop_stay {P : PCfg α κ} {f : α → α} (hf : ∀ b, P.C.key (f b) = P.C.key b) {k : κ} {pos : Nat} :
    ∀ (n : Nat) (t t' : Tbl α) (q : Nat), Holds P.C k pos t → PTbl.assignLoop P f n t q = .ok t' → Stay P.C k pos 0 t t'
  | 0, _, _, _, _, h => by cases h
  | n + 1, t, t', q, hs, h => by
    unfold PTbl.assignLoop at h
    split at h
    · cases h; exact Stay.refl hs 0
    · obtain ⟨t1, h1, h⟩ := Res.bind_eq_ok.1 h
      obtain ⟨r, _, h⟩ := Res.bind_eq_ok.1 h
      have s1 := assignAt_stay' hf h1 hs
      have s2 := assignLoop_stay hf n t1 t' r s1.1 h
      exact s1.trans s2

/-! ## Submaps -/

theorem withSub_inv {p p' : PTbl α} {i : Nat} {β : Type} {f : Tbl α → Res (Tbl α × β)} {r : β}
    (h : p.withSub i f = .ok (p', r)) :
    ∃ t t', p.sets[i]? = some t ∧ f t = .ok (t', r) ∧ p' = { sets := p.sets.set i t' } := by
  unfold PTbl.withSub PTbl.sub at h
  cases ht : p.sets[i]? with
  | none => rw [ht] at h; cases h
  | some t =>
    rw [ht] at h
    simp only [Res.ofOption_some, Res.ok_bind] at h
    obtain ⟨⟨t', b⟩, h1, h⟩ := Res.bind_eq_ok.1 h
    cases h
    exact ⟨t, t', rfl, h1, rfl⟩

theorem withSub_other {p p' : PTbl α} {i j : Nat} {β : Type} {f : Tbl α → Res (Tbl α × β)} {r : β}
    (h : p.withSub i f = .ok (p', r)) (hij : j ≠ i) : p'.sets[j]? = p.sets[j]? := by
  obtain ⟨t, t', _, _, rfl⟩ := withSub_inv h
  exact List.getElem?_set_ne (fun e => hij e.symm)

/-- What happens to submap `i` when an operation runs on submap `j`. -/
theorem withSub_stay {C : Cfg α κ} {p p' : PTbl α} {i j : Nat} {β : Type} {f : Tbl α → Res (Tbl α × β)} {r : β} {k : κ}
    {pos n : Nat} {t : Tbl α} (h : p.withSub j f = .ok (p', r)) (ht : p.sets[i]? = some t) (hs : Holds C k pos t)
    (hf : j = i → ∀ t', f t = .ok (t', r) → Stay C k pos n t t') :
    ∃ t', p'.sets[i]? = some t' ∧ Stay C k pos n t t' := by
  by_cases hij : j = i
  · subst hij
    obtain ⟨u, u', h1, h2, rfl⟩ := withSub_inv h
    rw [ht] at h1; cases h1
    exact ⟨u', List.getElem?_set_self (List.getElem?_eq_some_iff.1 ht).1, hf rfl u' h2⟩
  · exact ⟨t, by rw [withSub_other h (fun e => hij e.symm)]; exact ht, Stay.refl hs n⟩

theorem eraseIfLoop_pstay {P : PCfg α κ} {pred : α → Bool} {i pos : Nat} {k : κ}
    (hp : ∀ a, P.C.eqv (P.C.key a) k = true → pred a = false) :
    ∀ (n : Nat) (p p' : PTbl α) (it : PTbl.It) (t : Tbl α), PTbl.eraseIfLoop P pred n p it = .ok p' → p.sets[i]? = some t →
      Holds P.C k pos t → ∃ t', p'.sets[i]? = some t' ∧ Stay P.C k pos 0 t t'
  | 0, _, _, _, _, h, _, _ => by cases h
  | n + 1, p, p', none, t, h, ht, hs => by cases h; exact ⟨t, ht, Stay.refl hs 0⟩
  | n + 1, p, p', some it, t, h, ht, hs => by
    unfold PTbl.eraseIfLoop at h
    obtain ⟨a, h1, h⟩ := Res.bind_eq_ok.1 h
    split at h
    · rename_i hpa
      obtain ⟨nxt, _, h⟩ := Res.bind_eq_ok.1 h
      obtain ⟨p1, h2, h⟩ := Res.bind_eq_ok.1 h
      unfold PTbl.eraseAt PTbl.sub at h2
      unfold PTbl.deref PTbl.sub at h1
      cases hu : p.sets[it.1]? with
      | none => rw [hu] at h2; cases h2
      | some u =>
        rw [hu] at h1 h2
        simp only [Res.ofOption_some, Res.ok_bind] at h1 h2
        obtain ⟨u', h3, h2⟩ := Res.bind_eq_ok.1 h2
        cases h2
        obtain ⟨e1, e2, e3⟩ := eraseAt_fields h3
        have key : ∃ t1, (p.sets.set it.1 u')[i]? = some t1 ∧ Stay P.C k pos 0 t t1 := by
          by_cases hi : it.1 = i
          · rw [hi] at hu
            rw [ht] at hu; cases hu
            refine ⟨u', by rw [hi]; exact List.getElem?_set_self (List.getElem?_eq_some_iff.1 ht).1, ?_, e2, by omega⟩
            obtain ⟨b, hb, hbk⟩ := hs
            refine ⟨b, ?_, hbk⟩
            rw [e1]
            refine set_none_other ?_ hb
            intro e
            have := readSlot_inv h1
            rw [e, hb] at this; cases this
            rw [hp _ hbk] at hpa; cases hpa
          · exact ⟨t, by rw [List.getElem?_set_ne hi]; exact ht, Stay.refl hs 0⟩
        obtain ⟨t1, k1, k2⟩ := key
        obtain ⟨t2, k3, k4⟩ := eraseIfLoop_pstay hp n _ p' nxt t1 h k1 k2.1
        exact ⟨t2, k3, k2.trans k4⟩
    · obtain ⟨nxt, _, h⟩ := Res.bind_eq_ok.1 h
      exact eraseIfLoop_pstay hp n p p' nxt t h ht hs

theorem mapRes_get {β γ : Type} {f : β → Res γ} : ∀ (l : List β) (cs : List γ), mapRes f l = .ok cs →
    ∀ (i : Nat) b, l[i]? = some b → ∃ c, cs[i]? = some c ∧ f b = .ok c
  | [], _, _, i, b, hb => by simp at hb
  | x :: l, cs, h, i, b, hb => by
    unfold mapRes at h
    obtain ⟨c, h1, h⟩ := Res.bind_eq_ok.1 h
    obtain ⟨ds, h2, h⟩ := Res.bind_eq_ok.1 h
    cases h
    cases i with
    | zero =>
      simp only [List.getElem?_cons_zero, Option.some.injEq] at hb
      subst hb
      exact ⟨c, rfl, h1⟩
    | succ i =>
      rw [List.getElem?_cons_succ] at hb
      obtain ⟨d, g1, g2⟩ := mapRes_get l ds h2 i b hb
      exact ⟨d, by rw [List.getElem?_cons_succ]; exact g1, g2⟩

/-! ## Operations -/

theorem addsTo_cons (key : α → κ) (sub : κ → Nat) (i : Nat) (op : POp α κ) (ops : List (POp α κ)) :
    addsTo key sub i (op :: ops) = addsTo key sub i [op] + addsTo key sub i ops := by
  unfold addsTo
  rw [List.flatMap_cons, List.countP_append, List.flatMap_cons, List.flatMap_nil, List.append_nil]

/-- A single-key operation on the submap of its key. -/
theorem keyed_stay {P : PCfg α κ} (hC : CfgOk P.C) {p p' : PTbl α} {l : List α} (h : PSim P p l) {op : Op α κ}
    (hv : op.Valid P.C.key) {k : κ} (hk : Keeps P.C.key P.C.eqv k op) (hr : ¬ op.Resizes) {i j pos n : Nat} {t : Tbl α}
    (ht : p.sets[i]? = some t) (hs : Holds P.C k pos t) {r : Resp α}
    (hst : p.withSub j (fun t => t.step P.C op) = .ok (p', r)) (hn : j = i → op.inserts ≤ n) (hg : n ≤ t.growthLeft) :
    ∃ t', p'.sets[i]? = some t' ∧ Stay P.C k pos n t t' := by
  refine withSub_stay hst ht hs ?_
  intro hij t' h1
  obtain ⟨a, ha, hak⟩ := hs
  obtain ⟨e1, e2, e3⟩ := step_stay hC (h.sim i t ht) op hv hk hr (by have := hn hij; omega) ha hak h1
  exact ⟨e1, e2, by have := hn hij; omega⟩

theorem insertAll_stay {P : PCfg α κ} (hC : CfgOk P.C) {k : κ} {i pos : Nat} : ∀ (vs : List α) (p p' : PTbl α) (l : List α) (t : Tbl α),
    PSim P p l → p.sets[i]? = some t → Holds P.C k pos t →
    (vs.map P.C.key).countP (fun k => kidx P k == i) ≤ t.growthLeft →
    vs.foldlM (fun p v => do
      let (p, _) ← p.withSub (subidx P.N (P.C.hash (P.C.key v))) (fun t => t.step P.C (.insert v))
      Res.ok p) p = .ok p' →
    ∃ t', p'.sets[i]? = some t' ∧ Stay P.C k pos ((vs.map P.C.key).countP (fun k => kidx P k == i)) t t'
  | [], p, p', l, t, _, ht, hs, _, h => by cases h; exact ⟨t, ht, Stay.refl hs _⟩
  | v :: vs, p, p', l, t, hsim, ht, hs, hg, h => by
    obtain ⟨p1, h1, h2⟩ := keyed_sim hC hsim (.insert v) trivial rfl
    rw [List.foldlM_cons] at h
    unfold kidx at h1
    rw [h1] at h
    rw [List.map_cons, List.countP_cons] at hg
    obtain ⟨t1, g1, g2⟩ := keyed_stay hC hsim (op := .insert v) trivial (k := k) trivial (fun h => h) ht hs h1
      (n := if (kidx P (P.C.key v) == i) = true then 1 else 0)
      (by intro hij; unfold kidx; rw [hij]; simp [Op.inserts]) (by omega)
    have := g2.2.2
    obtain ⟨t2, g3, g4⟩ := insertAll_stay hC vs p1 p' _ t1 h2 g1 g2.1 (by omega) h
    refine ⟨t2, g3, ?_⟩
    rw [List.map_cons, List.countP_cons, Nat.add_comm]
    exact g2.trans g4

/-- One operation leaves the element with key `k` in its slot of submap `i` if it does not remove it and that submap has
room for what the operation adds to it. -/
theorem pstep_stay {P : PCfg α κ} (hC : CfgOk P.C) {p p' : PTbl α} {l : List α} (h : PSim P p l) {op : POp α κ}
    (hv : op.Valid P.C.key (2 ^ P.N)) {k : κ} (hk : PKeeps P.C.key P.C.eqv k op) (hr : ¬ op.Resizes) {i pos : Nat}
    {t : Tbl α} (ht : p.sets[i]? = some t) (hs : Holds P.C k pos t)
    (hg : addsTo P.C.key (kidx P) i [op] ≤ t.growthLeft) {r : Resp α} (hst : p.pstep P op = .ok (p', r)) :
    ∃ t', p'.sets[i]? = some t' ∧ Stay P.C k pos (addsTo P.C.key (kidx P) i [op]) t t' := by
  have one : ∀ {j : Nat} {k' : κ}, kidx P k' = j → j = i → 1 ≤ [k'].countP (fun k => kidx P k == i) := by
    intro j k' h1 h2
    rw [List.countP_cons, h1, h2]; simp
  have zero : ∀ {t' : Tbl α} (n : Nat), Stay P.C k pos 0 t t' → Stay P.C k pos n t t' :=
    fun n h => ⟨h.1, h.2.1, by have := h.2.2; omega⟩
  cases op with
  | base op =>
    cases op with
    | insert a => exact keyed_stay hC h (op := .insert a) hv hk (fun h => h) ht hs hst (fun e => one rfl e) hg
    | insertOrAssign a f => exact keyed_stay hC h (op := .insertOrAssign a f) hv hk (fun h => h) ht hs hst (fun e => one rfl e) hg
    | subscript a f => exact keyed_stay hC h (op := .subscript a f) hv hk (fun h => h) ht hs hst (fun e => one rfl e) hg
    | «at» k' => exact keyed_stay hC h (op := .at k') trivial hk (fun h => h) ht hs hst (fun _ => Nat.zero_le _) hg
    | find k' => exact keyed_stay hC h (op := .find k') trivial hk (fun h => h) ht hs hst (fun _ => Nat.zero_le _) hg
    | contains k' => exact keyed_stay hC h (op := .contains k') trivial hk (fun h => h) ht hs hst (fun _ => Nat.zero_le _) hg
    | count k' =>
      refine withSub_stay hst ht hs ?_
      intro _ t' h1
      obtain ⟨b, _, h1⟩ := Res.bind_eq_ok.1 h1
      cases h1
      exact Stay.refl hs _
    | erase k' =>
      refine withSub_stay hst ht hs ?_
      intro _ t' h1
      obtain ⟨⟨t1, m⟩, h2, h1⟩ := Res.bind_eq_ok.1 h1
      cases h1
      refine zero _ (eraseKeyIf_stay hC (h.sim i t ht) hs ?_ h2)
      intro a _ he
      have hk' : P.C.eqv k k' = false := hk
      rw [hk'] at he; cases he
    | eraseIf pr =>
      simp only [PTbl.pstep, PTbl.step, PTbl.eraseIf] at hst
      obtain ⟨⟨p1, m⟩, h1, hst⟩ := Res.bind_eq_ok.1 hst
      cases hst
      obtain ⟨b, _, h1⟩ := Res.bind_eq_ok.1 h1
      obtain ⟨p2, h2, h1⟩ := Res.bind_eq_ok.1 h1
      cases h1
      obtain ⟨t1, g1, g2⟩ := eraseIfLoop_pstay hk _ _ _ _ t h2 ht hs
      exact ⟨t1, g1, zero _ g2⟩
    | extract k' => exact keyed_stay hC h (op := .extract k') trivial hk (fun h => h) ht hs hst (fun _ => Nat.zero_le _) hg
    | insertNode n =>
      cases n with
      | none => cases hst; exact ⟨t, ht, Stay.refl hs _⟩
      | some a => exact keyed_stay hC h (op := .insertNode (some a)) trivial hk (fun h => h) ht hs hst (fun e => one rfl e) hg
    | toggle a => exact keyed_stay hC h (op := .toggle a) trivial hk (fun h => h) ht hs hst (fun e => one rfl e) hg
    | insertRange vs =>
      simp only [PTbl.pstep, PTbl.step] at hst
      obtain ⟨p1, h1, hst⟩ := Res.bind_eq_ok.1 hst
      cases hst
      have e : addsTo P.C.key (kidx P) i [POp.base (.insertRange vs)] =
          (vs.map P.C.key).countP (fun k => kidx P k == i) := by
        unfold addsTo
        rw [List.flatMap_cons, List.flatMap_nil, List.append_nil]; rfl
      rw [e] at hg ⊢
      exact insertAll_stay hC vs p p' l t h ht hs hg h1
    | size => cases hst; exact ⟨t, ht, Stay.refl hs _⟩
    | clear => exact absurd hk (fun h => h)
    | reserve n => exact absurd trivial hr
    | rehash n => exact absurd trivial hr
  | ifContains k' =>
    refine withSub_stay hst ht hs ?_
    intro _ t' h1
    obtain ⟨⟨t1, m⟩, h2, h1⟩ := Res.bind_eq_ok.1 h1
    cases h1
    exact zero _ (modifyKeyIf_stay (fun _ => rfl) hs h2)
  | modifyIf k' f =>
    refine withSub_stay hst ht hs ?_
    intro _ t' h1
    obtain ⟨⟨t1, m⟩, h2, h1⟩ := Res.bind_eq_ok.1 h1
    cases h1
    exact zero _ (modifyKeyIf_stay hv hs h2)
  | eraseIfKey k' pr =>
    refine withSub_stay hst ht hs ?_
    intro _ t' h1
    obtain ⟨⟨t1, m⟩, h2, h1⟩ := Res.bind_eq_ok.1 h1
    cases h1
    exact zero _ (eraseKeyIf_stay hC (h.sim i t ht) hs hk h2)
  | emplaceL a f =>
    refine withSub_stay hst ht hs ?_
    intro hij t' h1
    obtain ⟨⟨t1, b, ins⟩, h2, h1⟩ := Res.bind_eq_ok.1 h1
    cases h1
    have e : addsTo P.C.key (kidx P) i [POp.emplaceL a f] = 1 := by
      unfold addsTo
      rw [List.flatMap_cons, List.flatMap_nil, List.append_nil]
      show [P.C.key a].countP _ = 1
      rw [List.countP_cons]
      have : kidx P (P.C.key a) = i := hij
      rw [this]; simp
    rw [e] at hg ⊢
    exact emplaceL_stay hC (h.sim i t ht) hv hs hg h2
  | forEachM f =>
    simp only [PTbl.pstep, PTbl.forEachM] at hst
    obtain ⟨p1, h1, hst⟩ := Res.bind_eq_ok.1 hst
    cases hst
    obtain ⟨ts, h2, h1⟩ := Res.bind_eq_ok.1 h1
    cases h1
    obtain ⟨t', g1, g2⟩ := mapRes_get _ _ h2 i t ht
    refine ⟨t', g1, zero _ ?_⟩
    unfold PTbl.assignAll at g2
    obtain ⟨b, _, g2⟩ := Res.bind_eq_ok.1 g2
    exact assignLoop_stay hv _ _ _ _ hs g2

/-- `find(k)` returns the slot that holds the element. -/
theorem locate_of_holds {P : PCfg α κ} (hC : CfgOk P.C) {p : PTbl α} {l : List α} (h : PSim P p l) {k : κ} {pos : Nat}
    {t : Tbl α} (ht : p.sets[kidx P k]? = some t) (hs : Holds P.C k pos t) : p.locate P k = .ok (some (kidx P k, pos)) := by
  obtain ⟨a, ha, hak⟩ := hs
  unfold PTbl.locate PTbl.sub
  unfold kidx at ht
  rw [ht]
  simp only [Res.ofOption_some, Res.ok_bind]
  rw [find_of_slot hC (h.sim _ t ht) ha hak]
  rfl

theorem locate_inv {P : PCfg α κ} (hC : CfgOk P.C) {p : PTbl α} {l : List α} (h : PSim P p l) {k : κ} {i pos : Nat}
    (hl : p.locate P k = .ok (some (i, pos))) :
    i = kidx P k ∧ ∃ t, p.sets[i]? = some t ∧ Holds P.C k pos t := by
  unfold PTbl.locate PTbl.sub at hl
  obtain ⟨t, h1, hl⟩ := Res.bind_eq_ok.1 hl
  obtain ⟨o, h2, hl⟩ := Res.bind_eq_ok.1 hl
  cases o with
  | none => cases hl
  | some q =>
    cases hl
    have ht : p.sets[subidx P.N (P.C.hash k)]? = some t := by
      cases hx : p.sets[subidx P.N (P.C.hash k)]? with
      | none => rw [hx] at h1; cases h1
      | some u => rw [hx] at h1; cases h1; rfl
    refine ⟨rfl, t, ht, ?_⟩
    rcases find_sim hC (h.sim _ t ht) k with ⟨j, b, f1, f2, f3, f4, f5⟩ | ⟨f1, _⟩
    · rw [h2] at f1; cases f1; exact ⟨b, f2, f4⟩
    · rw [h2] at f1; cases f1

end Gtl.Parallel
