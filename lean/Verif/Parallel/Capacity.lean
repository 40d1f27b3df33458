import Verif.Parallel.Room
import Verif.Swiss.Capacity
import Verif.Spec.ParRoom
/-!
# The number of buckets of parallel hash containers
-/

namespace Gtl.Parallel

open Gtl.Swiss Gtl.Swiss.Tbl
open Gtl.Spec (Op POp PWOp Resp InsertsOne PutsNothing PInsertsOne PPutsNothing paskedEach)

variable {α κ : Type}

/-- `bucket_count()` (phmap.hpp:4250-4257), with `bucket_count()` of a submap (2451). -/
def PTbl.bucketCount (p : PTbl α) : Nat := p.sets.foldl (fun sz t => sz + t.capacity) 0

/-- `load_factor()` (phmap.hpp:4259-4262) before the rounding to a floating point number, as numerator and
denominator; `(0, 1)` for the branch without buckets. -/
def PTbl.loadFactor (p : PTbl α) : Nat × Nat :=
  let capacity := p.bucketCount
  if capacity ≠ 0 then (p.size, capacity) else (0, 1)

theorem bucketCount_sum (p : PTbl α) : p.bucketCount = (p.sets.map Tbl.capacity).sum := by
  have key : ∀ (l : List (Tbl α)) n, l.foldl (fun sz t => sz + t.capacity) n = n + (l.map Tbl.capacity).sum := by
    intro l
    induction l with
    | nil => intro n; rfl
    | cons t l ih => intro n; rw [List.foldl_cons, ih, List.map_cons, List.sum_cons, Nat.add_assoc]
  unfold PTbl.bucketCount
  rw [key, Nat.zero_add]

/-- What a call that inserts may do to the number of buckets of a submap. -/
def Fit (t t' : Tbl α) : Prop :=
  t.capacity ≤ t'.capacity ∧ (t'.capacity = t.capacity ∨ 7 * t'.capacity ≤ 32 * t'.size)

theorem Fit.refl (t : Tbl α) : Fit t t := ⟨le_refl _, .inl rfl⟩

theorem Fit.of_eq {t t' : Tbl α} (h : t'.capacity = t.capacity) : Fit t t' := ⟨h.ge, .inl h⟩

theorem Fit.of_grow {C : Cfg α κ} {t t' : Tbl α}
    (h : t'.capacity = t.capacity ∨ (t'.size = t.size + 1 ∧ Grow C t t')) : Fit t t' := by
  rcases h with h | ⟨h1, h2⟩
  · exact .of_eq h
  · by_cases hc : t'.capacity = t.capacity
    · exact .of_eq hc
    · exact ⟨h2.le, .inr (h2.bound h1 hc)⟩

/-- What happens to submap `i` when an operation runs on submap `j`. -/
theorem withSub_rel {R : Tbl α → Tbl α → Prop} (hR : ∀ t, R t t) {p p' : PTbl α} {i j : Nat} {β : Type}
    {f : Tbl α → Res (Tbl α × β)} {r : β} {t : Tbl α} (h : p.withSub j f = .ok (p', r)) (ht : p.sets[i]? = some t)
    (hf : ∀ t', f t = .ok (t', r) → R t t') : ∃ t', p'.sets[i]? = some t' ∧ R t t' := by
  by_cases hij : j = i
  · subst hij
    obtain ⟨u, u', h1, h2, rfl⟩ := withSub_inv h
    rw [ht] at h1; cases h1
    exact ⟨u', List.getElem?_set_self (List.getElem?_eq_some_iff.1 ht).1, hf u' h2⟩
  · exact ⟨t, by rw [withSub_other h (fun e => hij e.symm)]; exact ht, hR t⟩

theorem emplaceL_grow {P : PCfg α κ} {t t' : Tbl α} {a : α} {f : α → α} {b : α} {ins : Bool}
    (he : PTbl.emplaceL P t a f = .ok (t', b, ins)) :
    t'.capacity = t.capacity ∨ (t'.size = t.size + 1 ∧ Grow P.C t t') := by
  unfold PTbl.emplaceL at he
  dsimp only at he
  obtain ⟨o, _, h1⟩ := Res.bind_eq_ok.1 he
  cases o with
  | some off =>
    dsimp only at h1
    obtain ⟨x, _, h2⟩ := Res.bind_eq_ok.1 h1
    obtain ⟨t1, h3, h4⟩ := Res.bind_eq_ok.1 h2
    cases h4
    exact .inl (assignAt_cap h3).1
  | none =>
    dsimp only at h1
    obtain ⟨⟨t1, off⟩, h2, h3⟩ := Res.bind_eq_ok.1 h1
    obtain ⟨t2, h4, h5⟩ := Res.bind_eq_ok.1 h3
    obtain ⟨t3, h6, h7⟩ := Res.bind_eq_ok.1 h5
    cases h7
    have e1 := prepareInsert_cap h2
    have e2 := construct_frame h4
    have e3 := set_frame h6
    refine .inr ⟨by rw [e3.2.2, e2.2.2.2, e1.1], ?_⟩
    unfold Grow
    rw [e3.1, e2.2.1]; exact e1.2

/-- The loop of `insert(first, last)`. -/
theorem insertAll_fit {P : PCfg α κ} {i : Nat} : ∀ (vs : List α) (p p' : PTbl α) (t : Tbl α), p.sets[i]? = some t →
    vs.foldlM (fun p v => do
      let (p, _) ← p.withSub (subidx P.N (P.C.hash (P.C.key v))) (fun t => t.step P.C (.insert v))
      Res.ok p) p = .ok p' → ∃ t', p'.sets[i]? = some t' ∧ Fit t t' ∧ t.size ≤ t'.size
  | [], p, p', t, ht, h => by cases h; exact ⟨t, ht, .refl t, le_refl _⟩
  | v :: vs, p, p', t, ht, h => by
    rw [List.foldlM_cons] at h
    obtain ⟨p1, h1, h⟩ := Res.bind_eq_ok.1 h
    obtain ⟨⟨p2, r⟩, h2, h1⟩ := Res.bind_eq_ok.1 h1
    cases h1
    obtain ⟨t1, k1, k2, k3⟩ := withSub_rel (R := fun t t' => Fit t t' ∧ t.size ≤ t'.size) (fun t => ⟨.refl t, le_refl _⟩)
      h2 ht (fun t' g => by
        simp only [Tbl.step] at g
        obtain ⟨⟨t1, i, ins⟩, g1, g2⟩ := Res.bind_eq_ok.1 g
        obtain ⟨b, _, g3⟩ := Res.bind_eq_ok.1 g2
        cases g3
        have := emplace_cap g1
        exact ⟨.of_grow this.2, this.1⟩)
    obtain ⟨t2, k4, k5, k6⟩ := insertAll_fit vs p1 p' t1 k1 h
    refine ⟨t2, k4, ⟨k2.1.trans k5.1, ?_⟩, k3.trans k6⟩
    rcases k5.2 with e | e
    · rcases k2.2 with e' | e'
      · exact .inl (e.trans e')
      · right; omega
    · exact .inr e

/-- What a call does to the buckets of one submap. -/
def Effect (P : PCfg α κ) (op : POp α κ) (t t' : Tbl α) : Prop :=
  (PPutsNothing op → t'.capacity = t.capacity) ∧
  (PInsertsOne op → t'.capacity = t.capacity ∨ (t'.size = t.size + 1 ∧ Grow P.C t t')) ∧
  (¬ op.Resizes → Fit t t') ∧
  (∀ n, op = .base (.rehash n) → t.rehash P.C (n / 2 ^ P.N) = .ok t') ∧
  (∀ n, op = .base (.reserve n) → t.rehash P.C ((if 2 ^ P.N * normalizeCapacity (n / 2 ^ P.N) >
      growthToLowerboundCapacity P.C.G.W n then 2 ^ P.N * normalizeCapacity (n / 2 ^ P.N)
      else growthToLowerboundCapacity P.C.G.W n) / 2 ^ P.N) = .ok t')

theorem pstep_effect {P : PCfg α κ} {p p' : PTbl α} {op : POp α κ} {i : Nat} {t : Tbl α} (ht : p.sets[i]? = some t)
    {r : Resp α} (hst : p.pstep P op = .ok (p', r)) : ∃ t', p'.sets[i]? = some t' ∧ Effect P op t t' := by
  have same : ∀ {op : POp α κ} {t t' : Tbl α}, (∀ n, op ≠ .base (.rehash n)) → (∀ n, op ≠ .base (.reserve n)) →
      t'.capacity = t.capacity → Effect P op t t' := fun h1 h2 h =>
    ⟨fun _ => h, fun _ => .inl h, fun _ => .of_eq h, fun n e => absurd e (h1 n), fun n e => absurd e (h2 n)⟩
  have grow : ∀ {op : POp α κ} {t t' : Tbl α}, ¬ PPutsNothing op → (∀ n, op ≠ .base (.rehash n)) →
      (∀ n, op ≠ .base (.reserve n)) → (t'.capacity = t.capacity ∨ (t'.size = t.size + 1 ∧ Grow P.C t t')) →
      Effect P op t t' := fun h0 h1 h2 h =>
    ⟨fun g => absurd g h0, fun _ => h, fun _ => .of_grow h, fun n e => absurd e (h1 n), fun n e => absurd e (h2 n)⟩
  have one : ∀ {op : Op α κ} {j : Nat}, InsertsOne op → p.withSub j (fun t => t.step P.C op) = .ok (p', r) →
      ∃ t', p'.sets[i]? = some t' ∧ (t'.capacity = t.capacity ∨ (t'.size = t.size + 1 ∧ Grow P.C t t')) := by
    intro op j ho h
    exact withSub_rel (R := fun t t' => t'.capacity = t.capacity ∨ (t'.size = t.size + 1 ∧ Grow P.C t t'))
      (fun _ => .inl rfl) h ht (fun t' g => step_one ho g)
  have none : ∀ {op : Op α κ} {j : Nat}, PutsNothing op → p.withSub j (fun t => t.step P.C op) = .ok (p', r) →
      ∃ t', p'.sets[i]? = some t' ∧ t'.capacity = t.capacity := by
    intro op j ho h
    exact withSub_rel (R := fun t t' => t'.capacity = t.capacity) (fun _ => rfl) h ht (fun t' g => step_none ho g)
  have noneW : ∀ {j : Nat} {f : Tbl α → Res (Tbl α × Resp α)}, p.withSub j f = .ok (p', r) →
      (∀ t', f t = .ok (t', r) → t'.capacity = t.capacity) → ∃ t', p'.sets[i]? = some t' ∧ t'.capacity = t.capacity := by
    intro j f h hf
    exact withSub_rel (R := fun t t' => t'.capacity = t.capacity) (fun _ => rfl) h ht hf
  have fin : ∀ {op : POp α κ}, (∀ n, op ≠ .base (.rehash n)) → (∀ n, op ≠ .base (.reserve n)) →
      (∃ t', p'.sets[i]? = some t' ∧ t'.capacity = t.capacity) → ∃ t', p'.sets[i]? = some t' ∧ Effect P op t t' := by
    rintro op h1 h2 ⟨t', g1, g2⟩
    exact ⟨t', g1, same h1 h2 g2⟩
  have fin1 : ∀ {op : POp α κ}, ¬ PPutsNothing op → (∀ n, op ≠ .base (.rehash n)) → (∀ n, op ≠ .base (.reserve n)) →
      (∃ t', p'.sets[i]? = some t' ∧ (t'.capacity = t.capacity ∨ (t'.size = t.size + 1 ∧ Grow P.C t t'))) →
      ∃ t', p'.sets[i]? = some t' ∧ Effect P op t t' := by
    rintro op h0 h1 h2 ⟨t', g1, g2⟩
    exact ⟨t', g1, grow h0 h1 h2 g2⟩
  have ne1 : ∀ {op : Op α κ}, (∀ n, op ≠ .rehash n) → ∀ n, POp.base op ≠ .base (.rehash n) :=
    fun h n e => h n (by cases e; rfl)
  have ne2 : ∀ {op : Op α κ}, (∀ n, op ≠ .reserve n) → ∀ n, POp.base op ≠ .base (.reserve n) :=
    fun h n e => h n (by cases e; rfl)
  cases op with
  | base op =>
    cases op with
    | insert a => exact fin1 (fun h => h) (by intro n e; cases e) (by intro n e; cases e) (one (op := .insert a) trivial hst)
    | insertOrAssign a f =>
      exact fin1 (fun h => h) (by intro n e; cases e) (by intro n e; cases e) (one (op := .insertOrAssign a f) trivial hst)
    | subscript a f =>
      exact fin1 (fun h => h) (by intro n e; cases e) (by intro n e; cases e) (one (op := .subscript a f) trivial hst)
    | «at» k' => exact fin (by intro n e; cases e) (by intro n e; cases e) (none (op := .at k') trivial hst)
    | find k' => exact fin (by intro n e; cases e) (by intro n e; cases e) (none (op := .find k') trivial hst)
    | contains k' => exact fin (by intro n e; cases e) (by intro n e; cases e) (none (op := .contains k') trivial hst)
    | count k' =>
      refine fin (by intro n e; cases e) (by intro n e; cases e) (noneW hst ?_)
      intro t' h1
      obtain ⟨b, _, h1⟩ := Res.bind_eq_ok.1 h1
      cases h1
      rfl
    | erase k' =>
      refine fin (by intro n e; cases e) (by intro n e; cases e) (noneW hst ?_)
      intro t' h1
      obtain ⟨⟨t1, m⟩, h2, h1⟩ := Res.bind_eq_ok.1 h1
      cases h1
      exact (eraseKeyIf_room h2).1
    | eraseIf pr =>
      simp only [PTbl.pstep, PTbl.step, PTbl.eraseIf] at hst
      obtain ⟨⟨p1, m⟩, h1, hst⟩ := Res.bind_eq_ok.1 hst
      cases hst
      obtain ⟨b, _, h1⟩ := Res.bind_eq_ok.1 h1
      obtain ⟨p2, h2, h1⟩ := Res.bind_eq_ok.1 h1
      cases h1
      obtain ⟨t1, g1, g2⟩ := eraseIfLoop_proom _ _ _ _ t h2 ht
      exact ⟨t1, g1, same (by intro n e; cases e) (by intro n e; cases e) g2.1⟩
    | extract k' => exact fin (by intro n e; cases e) (by intro n e; cases e) (none (op := .extract k') trivial hst)
    | insertNode n =>
      cases n with
      | none => cases hst; exact ⟨t, ht, same (by intro n e; cases e) (by intro n e; cases e) rfl⟩
      | some a =>
        exact fin1 (fun h => h) (by intro n e; cases e) (by intro n e; cases e)
          (one (op := .insertNode (some a)) trivial hst)
    | toggle a => exact fin1 (fun h => h) (by intro n e; cases e) (by intro n e; cases e) (one (op := .toggle a) trivial hst)
    | insertRange vs =>
      simp only [PTbl.pstep, PTbl.step] at hst
      obtain ⟨p1, h1, hst⟩ := Res.bind_eq_ok.1 hst
      cases hst
      obtain ⟨t', g1, g2, _⟩ := insertAll_fit vs p p' t ht h1
      exact ⟨t', g1, fun h => h.elim, fun h => h.elim, fun _ => g2, (by intro n e; cases e), (by intro n e; cases e)⟩
    | size => cases hst; exact ⟨t, ht, same (by intro n e; cases e) (by intro n e; cases e) rfl⟩
    | clear =>
      simp only [PTbl.pstep, PTbl.step, PTbl.clear] at hst
      obtain ⟨p1, h1, hst⟩ := Res.bind_eq_ok.1 hst
      cases hst
      obtain ⟨ts, h2, h1⟩ := Res.bind_eq_ok.1 h1
      cases h1
      obtain ⟨t', g1, g2⟩ := mapRes_get _ _ h2 i t ht
      exact ⟨t', g1, same (by intro n e; cases e) (by intro n e; cases e) (clear_cap g2)⟩
    | reserve n =>
      simp only [PTbl.pstep, PTbl.step, PTbl.reserve, PTbl.rehash] at hst
      obtain ⟨p1, h1, hst⟩ := Res.bind_eq_ok.1 hst
      cases hst
      obtain ⟨ts, h2, h1⟩ := Res.bind_eq_ok.1 h1
      cases h1
      obtain ⟨t', g1, g2⟩ := mapRes_get _ _ h2 i t ht
      refine ⟨t', g1, fun h => h.elim, fun h => h.elim, fun h => absurd trivial h, (by intro n e; cases e), ?_⟩
      intro m e
      cases e
      exact g2
    | rehash n =>
      simp only [PTbl.pstep, PTbl.step, PTbl.rehash] at hst
      obtain ⟨p1, h1, hst⟩ := Res.bind_eq_ok.1 hst
      cases hst
      obtain ⟨ts, h2, h1⟩ := Res.bind_eq_ok.1 h1
      cases h1
      obtain ⟨t', g1, g2⟩ := mapRes_get _ _ h2 i t ht
      refine ⟨t', g1, fun h => h.elim, fun h => h.elim, fun h => absurd trivial h, ?_, (by intro n e; cases e)⟩
      intro m e
      cases e
      exact g2
  | ifContains k' =>
    refine fin (by intro n e; cases e) (by intro n e; cases e) (noneW hst ?_)
    intro t' h1
    obtain ⟨⟨t1, m⟩, h2, h1⟩ := Res.bind_eq_ok.1 h1
    cases h1
    exact (modifyKeyIf_room h2).1
  | modifyIf k' f =>
    refine fin (by intro n e; cases e) (by intro n e; cases e) (noneW hst ?_)
    intro t' h1
    obtain ⟨⟨t1, m⟩, h2, h1⟩ := Res.bind_eq_ok.1 h1
    cases h1
    exact (modifyKeyIf_room h2).1
  | eraseIfKey k' pr =>
    refine fin (by intro n e; cases e) (by intro n e; cases e) (noneW hst ?_)
    intro t' h1
    obtain ⟨⟨t1, m⟩, h2, h1⟩ := Res.bind_eq_ok.1 h1
    cases h1
    exact (eraseKeyIf_room h2).1
  | emplaceL a f =>
    refine fin1 (fun h => h) (by intro n e; cases e) (by intro n e; cases e) ?_
    refine withSub_rel (R := fun t t' => t'.capacity = t.capacity ∨ (t'.size = t.size + 1 ∧ Grow P.C t t'))
      (fun _ => .inl rfl) hst ht ?_
    intro t' h1
    obtain ⟨⟨t1, b, ins⟩, h2, h1⟩ := Res.bind_eq_ok.1 h1
    cases h1
    exact emplaceL_grow h2
  | forEachM f =>
    simp only [PTbl.pstep, PTbl.forEachM] at hst
    obtain ⟨p1, h1, hst⟩ := Res.bind_eq_ok.1 hst
    cases hst
    obtain ⟨ts, h2, h1⟩ := Res.bind_eq_ok.1 h1
    cases h1
    obtain ⟨t', g1, g2⟩ := mapRes_get _ _ h2 i t ht
    refine ⟨t', g1, same (by intro n e; cases e) (by intro n e; cases e) ?_⟩
    unfold PTbl.assignAll at g2
    obtain ⟨b, _, g2⟩ := Res.bind_eq_ok.1 g2
    exact (assignLoop_room _ _ _ _ g2).1

/-- A call leaves the submaps it does not work on as they are. -/
theorem pstep_others {P : PCfg α κ} {p p' : PTbl α} {op : POp α κ} (ho : PInsertsOne op) {r : Resp α}
    (hst : p.pstep P op = .ok (p', r)) : p' = p ∨ ∃ j t', p'.sets = p.sets.set j t' := by
  have key : ∀ {j : Nat} {f : Tbl α → Res (Tbl α × Resp α)}, p.withSub j f = .ok (p', r) →
      p' = p ∨ ∃ j t', p'.sets = p.sets.set j t' := by
    intro j f h
    obtain ⟨t, t', _, _, e⟩ := withSub_inv h
    exact .inr ⟨j, t', by rw [e]⟩
  cases op with
  | base op =>
    cases op with
    | insert a => exact key hst
    | insertOrAssign a f => exact key hst
    | subscript a f => exact key hst
    | toggle a => exact key hst
    | insertNode n =>
      cases n with
      | none => cases hst; exact .inl rfl
      | some a => exact key hst
    | _ => exact ho.elim
  | emplaceL a f => exact key hst
  | _ => exact ho.elim

/-! ## The bound -/

/-- Every submap has at most `32/7 * M` buckets. -/
def Bd (M : Nat) (p : PTbl α) : Prop := ∀ t ∈ p.sets, 7 * t.capacity ≤ 32 * M

/-- Every submap has at most `M` elements. -/
def Sz (M : Nat) (p : PTbl α) : Prop := ∀ t ∈ p.sets, t.size ≤ M

/-- What `reserve(n)` asks of each submap. -/
theorem reserve_each {W n d : Nat} (hd : 0 < d) :
    7 * ((if d * normalizeCapacity (n / d) > growthToLowerboundCapacity W n then d * normalizeCapacity (n / d)
      else growthToLowerboundCapacity W n) / d) ≤ 14 * max 1 ((n + (d - 1)) / d) := by
  have hlb : 7 * growthToLowerboundCapacity W n ≤ 8 * n := by
    unfold growthToLowerboundCapacity
    split <;> omega
  have hc : n ≤ d * ((n + (d - 1)) / d) := by
    have := Nat.lt_mul_div_succ (n + (d - 1)) hd
    rw [Nat.mul_add] at this
    omega
  have hm : n / d ≤ (n + (d - 1)) / d := Nat.div_le_div_right (by omega)
  generalize (n + (d - 1)) / d = c at *
  split
  · rw [Nat.mul_div_cancel_left _ hd]
    have := normalizeCapacity_lt (n / d)
    by_cases h0 : n / d = 0
    · rw [h0] at this ⊢
      have := this.1
      omega
    · have := this.2 h0
      omega
  · have h1 : growthToLowerboundCapacity W n / d * d ≤ growthToLowerboundCapacity W n := Nat.div_mul_le_self _ _
    have h2 : 7 * (growthToLowerboundCapacity W n / d) * d ≤ 8 * c * d := by
      calc 7 * (growthToLowerboundCapacity W n / d) * d = 7 * (growthToLowerboundCapacity W n / d * d) := by ring
        _ ≤ 7 * growthToLowerboundCapacity W n := by omega
        _ ≤ 8 * n := hlb
        _ ≤ 8 * (d * c) := by omega
        _ = 8 * c * d := by ring
    have := Nat.le_of_mul_le_mul_right h2 hd
    omega

theorem rehash_bd {C : Cfg α κ} {t t' : Tbl α} {n M : Nat} (h : t.rehash C n = .ok t') (hb : 7 * t.capacity ≤ 32 * M)
    (hs : t.size ≤ M) (hn : 7 * n ≤ 14 * M) : 7 * t'.capacity ≤ 32 * M := by
  rcases rehash_cap h with e | e | e
  · rw [e]; exact hb
  · omega
  · omega

theorem pstep_len {P : PCfg α κ} (hC : CfgOk P.C) {p p' : PTbl α} {l : List α} (h : PSim P p l) {op : POp α κ}
    (hv : op.Valid P.C.key (2 ^ P.N)) {r : Resp α} (hst : p.pstep P op = .ok (p', r)) : p'.sets.length = p.sets.length := by
  obtain ⟨p1, h1, h2⟩ := pstep_sim hC h op hv
  rw [hst] at h1
  cases h1
  rw [h.len, h2.len]

theorem pstep_bd {P : PCfg α κ} {M : Nat} {p p' : PTbl α} (hlen : p'.sets.length = p.sets.length) (i : Nat) {op : POp α κ}
    {r : Resp α} (hst : p.pstep P op = .ok (p', r)) (hb : Bd M p) (hz : Sz M p) (hz' : Sz M p')
    (ha : paskedEach (2 ^ P.N) (.on i op) ≤ M) : Bd M p' := by
  intro t' ht'
  obtain ⟨k, hk, e⟩ := List.mem_iff_getElem.1 ht'
  have hk1 : k < p.sets.length := by omega
  have g0 := List.getElem?_eq_getElem hk1
  have hm := List.getElem_mem hk1
  obtain ⟨u, g1, g2⟩ := pstep_effect g0 hst
  rw [List.getElem?_eq_getElem hk, e] at g1
  cases g1
  have hb0 := hb _ hm
  have hz0 := hz _ hm
  have hz1 := hz' _ ht'
  by_cases hr : op.Resizes
  · cases op with
    | base op =>
      cases op with
      | reserve n =>
        have := reserve_each (W := P.C.G.W) (n := n) (Nat.two_pow_pos P.N)
        have ha' : max 1 ((n + (2 ^ P.N - 1)) / 2 ^ P.N) ≤ M := ha
        exact rehash_bd (g2.2.2.2.2 n rfl) hb0 hz0 (by omega)
      | rehash n =>
        have ha' : n / 2 ^ P.N ≤ M := ha
        exact rehash_bd (g2.2.2.2.1 n rfl) hb0 hz0 (by omega)
      | _ => exact hr.elim
    | _ => exact hr.elim
  · rcases (g2.2.2.1 hr).2 with e | e
    · omega
    · omega

theorem zipRes_mem {β β' γ : Type} {f : β → β' → Res γ} : ∀ (l : List β) (l' : List β') (cs : List γ),
    zipRes f l l' = .ok cs → ∀ c ∈ cs, ∃ b ∈ l, ∃ b' ∈ l', f b b' = .ok c
  | [], l', cs, h, c, hc => by unfold zipRes at h; cases h; cases hc
  | b :: l, [], cs, h, c, hc => by unfold zipRes at h; cases h
  | b :: l, b' :: l', cs, h, c, hc => by
    unfold zipRes at h
    obtain ⟨c1, h1, h⟩ := Res.bind_eq_ok.1 h
    obtain ⟨cs1, h2, h⟩ := Res.bind_eq_ok.1 h
    cases h
    rcases List.mem_cons.1 hc with rfl | hc
    · exact ⟨b, List.mem_cons_self, b', List.mem_cons_self, h1⟩
    · obtain ⟨x, hx, x', hx', e⟩ := zipRes_mem l l' cs1 h2 c hc
      exact ⟨x, List.mem_cons_of_mem _ hx, x', List.mem_cons_of_mem _ hx', e⟩

theorem mapRes_mem {β γ : Type} {f : β → Res γ} : ∀ (l : List β) (cs : List γ),
    mapRes f l = .ok cs → ∀ c ∈ cs, ∃ b ∈ l, f b = .ok c
  | [], cs, h, c, hc => by unfold mapRes at h; cases h; cases hc
  | b :: l, cs, h, c, hc => by
    unfold mapRes at h
    obtain ⟨c1, h1, h⟩ := Res.bind_eq_ok.1 h
    obtain ⟨cs1, h2, h⟩ := Res.bind_eq_ok.1 h
    cases h
    rcases List.mem_cons.1 hc with rfl | hc
    · exact ⟨b, List.mem_cons_self, h1⟩
    · obtain ⟨x, hx, e⟩ := mapRes_mem l cs1 h2 c hc
      exact ⟨x, List.mem_cons_of_mem _ hx, e⟩

theorem moveAssign_eq {t u : Tbl α} {x : Tbl α × Tbl α} (h : Tbl.moveAssign t u = .ok x) :
    x.1.capacity = u.capacity ∧ x.2.capacity = 0 := by
  simp only [Tbl.moveAssign, Tbl.move, Tbl.swap] at h
  obtain ⟨v, _, h3⟩ := Res.bind_eq_ok.1 h
  cases h3
  exact ⟨rfl, rfl⟩

theorem emplace_fit {C : Cfg α κ} {t t' : Tbl α} {a : α} {i : Nat} {ins : Bool}
    (h : t.emplace C a = .ok (t', i, ins)) : t'.capacity = t.capacity ∨ 7 * t'.capacity ≤ 32 * t'.size :=
  (Fit.of_grow (emplace_cap h).2).2

theorem wstep_bd [BEq α] {P : PCfg α κ} (hC : CfgOk P.C) {M : Nat} {w w' : Nat → PTbl α} {m : Nat → List α}
    (hs : PWSim P w m) (op : PWOp α κ) (hv : op.Valid P.C.key (2 ^ P.N) lk) {r : Resp α}
    (h : PTbl.wstep P w op = .ok (w', r))
    (hb : ∀ i, Bd M (w i)) (hz : ∀ i, Sz M (w i)) (hz' : ∀ i, Sz M (w' i)) (ha : paskedEach (2 ^ P.N) op ≤ M) :
    ∀ i, Bd M (w' i) := by
  have put2 : ∀ (v : Nat → PTbl α) (i : Nat) (p : PTbl α), (∀ k, Bd M (v k)) →
      Bd M p → ∀ k, Bd M (Spec.put v i p k) := by
    intro v i t hv ht k
    unfold Spec.put
    split
    · exact ht
    · exact hv k
  have putself : ∀ (v : Nat → PTbl α) (i : Nat) (p : PTbl α), Spec.put v i p i = p := by
    intro v i p; simp [Spec.put]
  cases op with
  | on i op =>
    simp only [PTbl.wstep] at h
    obtain ⟨⟨p, r'⟩, h1, h2⟩ := Res.bind_eq_ok.1 h
    cases h2
    refine put2 _ _ _ hb ?_
    have e := hz' i
    rw [putself] at e
    exact pstep_bd (pstep_len hC (hs i) hv h1) i h1 (hb i) (hz i) e ha
  | create i n =>
    simp only [PTbl.wstep, PTbl.moveAssign] at h
    obtain ⟨⟨p, q⟩, h1, h2⟩ := Res.bind_eq_ok.1 h
    cases h2
    obtain ⟨ts, h3, h4⟩ := Res.bind_eq_ok.1 h1
    cases h4
    refine put2 _ _ _ hb ?_
    intro t ht
    obtain ⟨x, hx, rfl⟩ := List.mem_map.1 ht
    obtain ⟨b, _, b', hb', e⟩ := zipRes_mem _ _ _ h3 x hx
    rw [(moveAssign_eq e).1]
    have : b' = Tbl.withBuckets P.C n := List.eq_of_mem_replicate hb'
    rw [this]
    have hn : n ≤ M := ha
    unfold Tbl.withBuckets
    split
    · simp [Tbl.empty]
    · rename_i h0
      have := (normalizeCapacity_lt n).2 h0
      simp only [initializeSlots]
      omega
  | copy i j =>
    simp only [PTbl.wstep, PTbl.copyAssign] at h
    obtain ⟨p, h1, h2⟩ := Res.bind_eq_ok.1 h
    cases h2
    obtain ⟨ts, h3, h4⟩ := Res.bind_eq_ok.1 h1
    cases h4
    refine put2 _ _ _ hb ?_
    intro t ht
    obtain ⟨b, _, b', hb', e⟩ := zipRes_mem _ _ _ h3 t ht
    simp only [Tbl.copyAssign, Tbl.swap] at e
    obtain ⟨tmp, e1, e2⟩ := Res.bind_eq_ok.1 e
    obtain ⟨v, _, e3⟩ := Res.bind_eq_ok.1 e2
    cases e3
    obtain ⟨k, hk, ek⟩ := List.mem_iff_getElem.1 hb'
    obtain ⟨⟨c, hi⟩, _⟩ := (hs j).sim k b' (by rw [List.getElem?_eq_getElem hk, ek])
    obtain ⟨t', c', g1, _, _, g2⟩ := copy_spec hC hi
    rw [e1] at g1
    cases g1
    rw [g2]
    exact hb j _ hb'
  | move i j =>
    simp only [PTbl.wstep] at h
    split at h
    · obtain ⟨ts, h3, h4⟩ := Res.bind_eq_ok.1 h
      cases h4
      refine put2 _ _ _ hb ?_
      intro t ht
      obtain ⟨b, hb', e⟩ := mapRes_mem _ _ h3 t ht
      simp only [Tbl.move, Tbl.swap] at e
      obtain ⟨v, _, e3⟩ := Res.bind_eq_ok.1 e
      cases e3
      exact hb i _ hb'
    · simp only [PTbl.moveAssign] at h
      obtain ⟨⟨p, q⟩, h1, h2⟩ := Res.bind_eq_ok.1 h
      cases h2
      obtain ⟨ts, h3, h4⟩ := Res.bind_eq_ok.1 h1
      cases h4
      refine put2 _ _ _ (put2 _ _ _ hb ?_) ?_
      · intro t ht
        obtain ⟨x, hx, rfl⟩ := List.mem_map.1 ht
        obtain ⟨b, _, b', hb', e⟩ := zipRes_mem _ _ _ h3 x hx
        rw [(moveAssign_eq e).2]
        omega
      · intro t ht
        obtain ⟨x, hx, rfl⟩ := List.mem_map.1 ht
        obtain ⟨b, _, b', hb', e⟩ := zipRes_mem _ _ _ h3 x hx
        rw [(moveAssign_eq e).1]
        exact hb j _ hb'
  | swap i j =>
    simp only [PTbl.wstep] at h
    split at h
    · cases h
    · simp only [PTbl.swap] at h
      obtain ⟨⟨p, q⟩, h1, h2⟩ := Res.bind_eq_ok.1 h
      cases h2
      obtain ⟨ts, h3, h4⟩ := Res.bind_eq_ok.1 h1
      cases h4
      refine put2 _ _ _ (put2 _ _ _ hb ?_) ?_
      · intro t ht
        obtain ⟨x, hx, rfl⟩ := List.mem_map.1 ht
        obtain ⟨b, _, b', hb', e⟩ := zipRes_mem _ _ _ h3 x hx
        cases e
        exact hb j _ hb'
      · intro t ht
        obtain ⟨x, hx, rfl⟩ := List.mem_map.1 ht
        obtain ⟨b, hb0, b', hb', e⟩ := zipRes_mem _ _ _ h3 x hx
        cases e
        exact hb i _ hb0
  | merge i j =>
    simp only [PTbl.wstep] at h
    split at h
    · cases h; exact hb
    · rename_i hij
      simp only [PTbl.merge] at h
      obtain ⟨⟨p, q⟩, h1, h2⟩ := Res.bind_eq_ok.1 h
      cases h2
      obtain ⟨ts, h3, h4⟩ := Res.bind_eq_ok.1 h1
      cases h4
      have e0 := hz' i
      have e3 : ∀ (a b : PTbl α), Spec.put (Spec.put w i a) j b i = a := by intro a b; simp [Spec.put, hij]
      rw [e3] at e0
      refine put2 _ _ _ (put2 _ _ _ hb ?_) ?_
      · intro t ht
        have hsz := e0 t ht
        obtain ⟨x, hx, rfl⟩ := List.mem_map.1 ht
        obtain ⟨b, hb0, b', hb', e⟩ := zipRes_mem _ _ _ h3 x hx
        simp only [Tbl.merge] at e
        obtain ⟨bb, _, e1⟩ := Res.bind_eq_ok.1 e
        exact (mergeLoop_cap (C := P.C) 32 M (fun _ _ _ _ _ h => emplace_fit h) _ _ e1 (hb i _ hb0) hsz).1
      · intro t ht
        obtain ⟨x, hx, rfl⟩ := List.mem_map.1 ht
        have hsz := e0 x.1 (List.mem_map.2 ⟨x, hx, rfl⟩)
        obtain ⟨b, hb0, b', hb', e⟩ := zipRes_mem _ _ _ h3 x hx
        simp only [Tbl.merge] at e
        obtain ⟨bb, _, e1⟩ := Res.bind_eq_ok.1 e
        rw [(mergeLoop_cap (C := P.C) 32 M (fun _ _ _ _ _ h => emplace_fit h) _ _ e1 (hb i _ hb0) hsz).2.1]
        exact hb j _ hb'
  | equal i j =>
    simp only [PTbl.wstep] at h
    split at h
    · cases h
    · obtain ⟨b, _, h2⟩ := Res.bind_eq_ok.1 h
      cases h2
      exact hb

end Gtl.Parallel
