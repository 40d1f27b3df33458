import Verif.Props.HashTable
import Verif.Swiss.Capacity
/-!
# Property theorems C99: the number of buckets and the load factor of hash containers
-/

namespace Gtl.Props.Hash

open Gtl.Swiss Gtl.Swiss.Tbl
open Gtl.Spec (Op WOp Resp InsertsOne PutsNothing Within Within1 asked wasked)

variable {α κ : Type}

theorem bound_one (K P : Nat) {t t' : Tbl α}
    (h : t'.capacity = t.capacity ∨ 7 * t'.capacity ≤ K * t'.size) (hb : 7 * t.capacity ≤ K * P) (hP : t'.size ≤ P) :
    7 * t'.capacity ≤ K * P := by
  rcases h with h | h
  · rw [h]; exact hb
  · exact h.trans (Nat.mul_le_mul_left _ hP)

/-- One call. `K` is 32, or 16 when nothing was ever erased. -/
theorem step_bound {C : Cfg α κ} (Q : Tbl α → Prop) {K P : Nat} (hK : 16 ≤ K)
    (hQ : ∀ t a t' i ins, Q t → t.emplace C a = .ok (t', i, ins) →
      Q t' ∧ (t'.capacity = t.capacity ∨ 7 * t'.capacity ≤ K * t'.size))
    {t t' : Tbl α} {l : List α} {op : Op α κ} {r : Resp α} (hl : t.size = l.length)
    (hone : InsertsOne op → t'.capacity = t.capacity ∨ 7 * t'.capacity ≤ K * t'.size)
    (hres : ∀ n t1, t.reserve C n = .ok t1 → n = t.size ∨ t.size < n → Q t1)
    (h : t.step C op = .ok (t', r)) (hb : 7 * t.capacity ≤ K * P) (hP : t.size ≤ P) (hP' : t'.size ≤ P)
    (ha : asked l op ≤ P) : 7 * t'.capacity ≤ K * P := by
  have res : ∀ n t1, n ≤ P → t.reserve C n = .ok t1 → 7 * t1.capacity ≤ K * P := by
    intro n t1 hn h1
    rcases reserve_cap h1 with e | e
    · rw [e]; exact hb
    · exact e.trans (Nat.mul_le_mul hK (by omega))
  by_cases h1 : InsertsOne op
  · exact bound_one K P (hone h1) hb hP'
  by_cases h2 : PutsNothing op
  · rw [step_none h2 h]; exact hb
  cases op with
  | insertRange vs =>
    simp only [Tbl.step] at h
    obtain ⟨t1, g1, g2⟩ := Res.bind_eq_ok.1 h
    cases g2
    unfold insertRange at g1
    obtain ⟨t2, g3, g4⟩ := Res.bind_eq_ok.1 g1
    have hq := hres _ _ g3 (by omega)
    have hb2 := res _ _ (by rw [hl]; exact ha) g3
    exact (insertAll_cap Q K P hQ vs hq hb2 hP' g4).1
  | reserve n =>
    simp only [Tbl.step] at h
    obtain ⟨t1, g1, g2⟩ := Res.bind_eq_ok.1 h
    cases g2
    exact res _ _ ha g1
  | rehash n =>
    simp only [Tbl.step] at h
    obtain ⟨t1, g1, g2⟩ := Res.bind_eq_ok.1 h
    cases g2
    have : n ≤ P := ha
    rcases rehash_cap g1 with e | e | e
    · rw [e]; exact hb
    · rw [e]; omega
    · have : 16 * P ≤ K * P := Nat.mul_le_mul_right _ hK
      omega
  | _ => first | exact absurd trivial h1 | exact absurd trivial h2

theorem emplace_32 {C : Cfg α κ} {t t' : Tbl α} {a : α} {i : Nat} {ins : Bool}
    (h : t.emplace C a = .ok (t', i, ins)) : t'.capacity = t.capacity ∨ 7 * t'.capacity ≤ 32 * t'.size := by
  rcases (emplace_cap h).2 with e | ⟨e1, e2⟩
  · exact .inl e
  · by_cases hc : t'.capacity = t.capacity
    · exact .inl hc
    · exact .inr (e2.bound e1 hc)

theorem wstep_bound [BEq α] [LawfulBEq α] {C : Cfg α κ} (hC : CfgOk C) {P : Nat} {w w' : Nat → Tbl α}
    {m m' : Nat → List α} (hs : WSim C w m) (hs' : WSim C w' m') (op : WOp α κ) {r : Resp α}
    (h : wstep C w op = .ok (w', r)) (hb : ∀ i, 7 * (w i).capacity ≤ 32 * P) (hP : ∀ i, (m i).length ≤ P)
    (hP' : ∀ i, (m' i).length ≤ P) (ha : wasked m op ≤ P) : ∀ i, 7 * (w' i).capacity ≤ 32 * P := by
  have put2 : ∀ (v : Nat → Tbl α) (i : Nat) (t : Tbl α), (∀ k, 7 * (v k).capacity ≤ 32 * P) →
      7 * t.capacity ≤ 32 * P → ∀ k, 7 * (Spec.put v i t k).capacity ≤ 32 * P := by
    intro v i t hv ht k
    unfold Spec.put
    split
    · exact ht
    · exact hv k
  cases op with
  | on i op =>
    simp only [Tbl.wstep] at h
    obtain ⟨⟨t, r'⟩, h1, h2⟩ := Res.bind_eq_ok.1 h
    cases h2
    refine put2 _ _ _ hb ?_
    have e1 := (hs i).size
    have e2 := (hs' i).size
    have e3 : Spec.put w i t i = t := by simp [Spec.put]
    rw [e3] at e2
    refine step_bound (fun _ => True) (by omega) (fun _ _ _ _ _ _ h => ⟨trivial, emplace_32 h⟩) e1 ?_
      (fun _ _ _ _ => trivial) h1 (hb i) (by rw [e1]; exact hP i) (by rw [e2]; exact hP' i) ha
    intro ho
    by_cases hc : t.capacity = (w i).capacity
    · exact .inl hc
    · rcases step_one ho h1 with g | ⟨g1, g2⟩
      · exact .inl g
      · exact .inr (g2.bound g1 hc)
  | create i n =>
    simp only [Tbl.wstep, Tbl.moveAssign, Tbl.move, Tbl.swap] at h
    obtain ⟨⟨t, u⟩, h1, h2⟩ := Res.bind_eq_ok.1 h
    cases h2
    obtain ⟨v, _, h3⟩ := Res.bind_eq_ok.1 h1
    cases h3
    refine put2 _ _ _ hb ?_
    have hn : n ≤ P := ha
    unfold withBuckets
    split
    · simp [Tbl.empty]
    · rename_i h0
      have := (normalizeCapacity_lt n).2 h0
      simp only [initializeSlots]
      omega
  | copy i j =>
    simp only [Tbl.wstep, Tbl.copyAssign, Tbl.swap] at h
    obtain ⟨t, h1, h2⟩ := Res.bind_eq_ok.1 h
    cases h2
    obtain ⟨tmp, h3, h4⟩ := Res.bind_eq_ok.1 h1
    obtain ⟨v, _, h5⟩ := Res.bind_eq_ok.1 h4
    cases h5
    obtain ⟨⟨c, hi⟩, _⟩ := hs j
    obtain ⟨t', c', g1, _, _, g2⟩ := copy_spec hC hi
    rw [h3] at g1
    cases g1
    exact put2 _ _ _ hb (by rw [g2]; exact hb j)
  | move i j =>
    simp only [Tbl.wstep] at h
    split at h
    · simp only [Tbl.move, Tbl.swap] at h
      obtain ⟨v, _, h5⟩ := Res.bind_eq_ok.1 h
      cases h5
      exact put2 _ _ _ hb (hb i)
    · simp only [Tbl.moveAssign, Tbl.move, Tbl.swap] at h
      obtain ⟨⟨t, u⟩, h1, h2⟩ := Res.bind_eq_ok.1 h
      cases h2
      obtain ⟨v, _, h3⟩ := Res.bind_eq_ok.1 h1
      cases h3
      exact put2 _ _ _ (put2 _ _ _ hb (by simp [Tbl.empty])) (hb j)
  | swap i j =>
    cases h
    exact put2 _ _ _ (put2 _ _ _ hb (hb j)) (hb i)
  | merge i j =>
    simp only [Tbl.wstep, Tbl.merge] at h
    obtain ⟨⟨t, u⟩, h1, h2⟩ := Res.bind_eq_ok.1 h
    cases h2
    obtain ⟨b, _, h3⟩ := Res.bind_eq_ok.1 h1
    have e1 := hs' i
    by_cases hij : i = j
    · subst hij
      have hu := mergeLoop_cap (C := C) 32 (max P t.size) (fun _ _ _ _ _ h => emplace_32 h) _ _ h3
        ((hb i).trans (Nat.mul_le_mul_left _ (le_max_left _ _))) (le_max_right _ _)
      refine fun k => ?_
      unfold Spec.put
      split
      · rw [hu.2.1]; exact hb i
      · exact hb k
    · have e2 := e1.size
      have e3 : Spec.put (Spec.put w i t) j u i = t := by simp [Spec.put, hij]
      rw [e3] at e2
      have hu := mergeLoop_cap (C := C) 32 P (fun _ _ _ _ _ h => emplace_32 h) _ _ h3 (hb i)
        (by rw [e2]; exact hP' i)
      exact put2 _ _ _ (put2 _ _ _ hb hu.1) (by rw [hu.2.1]; exact hb j)
  | equal i j =>
    simp only [Tbl.wstep] at h
    obtain ⟨b, _, h2⟩ := Res.bind_eq_ok.1 h
    cases h2
    exact hb

/-! ## C99 -/

/-- The load factor (`size / bucket_count`) never exceeds 7/8 of a table with one more bucket, and never 1. -/
theorem C99_load [BEq α] [LawfulBEq α] {C : Cfg α κ} (h : Contract C) {t : Tbl α} (hr : Reachable C t) :
    t.size ≤ t.capacity ∧ 8 * t.size ≤ 7 * (t.capacity + 1) := by
  obtain ⟨⟨c, hi⟩, _⟩ := hr.sim h
  have hg := hi.growth
  obtain ⟨k, hk⟩ := hi.core.raw.pow
  have hle := capacityToGrowth_le C.G.W t.capacity
  refine ⟨by omega, ?_⟩
  have h8 : t.capacity ≤ 6 ∨ 8 ∣ t.capacity + 1 := by
    rcases Nat.lt_or_ge k 3 with h3 | h3
    · left
      have : 2 ^ k ≤ 2 ^ 2 := Nat.pow_le_pow_right (by omega) (by omega)
      omega
    · right; rw [hk]; exact pow_dvd_pow 2 h3
  unfold capacityToGrowth at hg
  split at hg <;> omega

/-- **Memory is bounded by the peak**: over any history on any number of containers, if no container ever holds more
than `P` elements and no call asks for room for more than `P`, then no container ever has more than `32/7 * P`
buckets. Erasing and inserting forever does not make a table grow without limit. -/
theorem C99_memory [BEq α] [LawfulBEq α] {C : Cfg α κ} (h : Contract C) {ops : List (WOp α κ)}
    (hv : ∀ op ∈ ops, op.Valid C.key) {P : Nat} (hP : Within C.key C.eqv P (fun _ => []) ops) :
    ∃ w rs, wrun C (fun _ => (Tbl.empty : Tbl α)) ops = .ok (w, rs) ∧ ∀ i, 7 * (w i).capacity ≤ 32 * P := by
  have key : ∀ (ops : List (WOp α κ)) (w : Nat → Tbl α) (m : Nat → List α), WSim C w m →
      (∀ op ∈ ops, op.Valid C.key) → Within C.key C.eqv P m ops → (∀ i, 7 * (w i).capacity ≤ 32 * P) →
      ∃ w' rs, wrun C w ops = .ok (w', rs) ∧ ∀ i, 7 * (w' i).capacity ≤ 32 * P := by
    intro ops
    induction ops with
    | nil => intro w m _ _ _ hb; exact ⟨w, [], rfl, hb⟩
    | cons op ops ih =>
      intro w m hs hv hW hb
      obtain ⟨w1, h1, h2⟩ := wstep_sim h.cfgOk hs op (hv op List.mem_cons_self)
      obtain ⟨hW1, hW2, hW3⟩ := hW
      have hW4 : ∀ i, ((Spec.wstep C.key C.eqv m op).1 i).length ≤ P := by
        cases ops with
        | nil => exact hW3
        | cons o os => exact hW3.1
      have hb1 := wstep_bound h.cfgOk hs h2 op h1 hb hW1 hW4 hW2
      obtain ⟨w2, rs, h3, h4⟩ := ih w1 _ h2 (fun o ho => hv o (List.mem_cons_of_mem _ ho)) hW3 hb1
      exact ⟨w2, (Spec.wstep C.key C.eqv m op).2 :: rs, by simp only [Tbl.wrun, h1, h3, Res.ok_bind], h4⟩
  exact key ops _ _ (wsim_start h) hv hP (fun _ => by simp [Tbl.empty])

/-- **Memory without erasures**: a container from which nothing is ever erased never has more than `16/7 * P`
buckets, where `P` bounds its size and the amounts asked for. -/
theorem C99_memory_fresh {C : Cfg α κ} (h : Contract C) {n0 : Nat} {ops : List (Op α κ)}
    (hv : ∀ op ∈ ops, op.Valid C.key) (hne : ∀ op ∈ ops, NonErasing op) {P : Nat} (h0 : n0 ≤ P)
    (hP : Within1 C.key C.eqv P [] ops) :
    ∃ t rs, (withBuckets C n0 : Tbl α).run C ops = .ok (t, rs) ∧ 7 * t.capacity ≤ 16 * P := by
  have hC := h.cfgOk
  have key : ∀ (ops : List (Op α κ)) (t : Tbl α) (l : List α), Sim C t l → NoTomb C t →
      (∀ op ∈ ops, op.Valid C.key) → (∀ op ∈ ops, NonErasing op) → Within1 C.key C.eqv P l ops →
      7 * t.capacity ≤ 16 * P →
      ∃ t' rs, t.run C ops = .ok (t', rs) ∧ 7 * t'.capacity ≤ 16 * P := by
    intro ops
    induction ops with
    | nil => intro t l _ _ _ _ _ hb; exact ⟨t, [], rfl, hb⟩
    | cons op ops ih =>
      intro t l hs hT hv hne hW hb
      obtain ⟨t1, h1, h2⟩ := step_sim hC hs op (hv op List.mem_cons_self)
      obtain ⟨hW1, hW2, hW3⟩ := hW
      have hW4 : (Spec.step C.key C.eqv l op).1.length ≤ P := by
        cases ops with
        | nil => exact hW3
        | cons o os => exact hW3.1
      have hgr : Growing op := by
        have := hne op List.mem_cons_self
        cases op <;> first | exact trivial | exact this
      have hT1 := step_noTomb hC hs hT op (hv op List.mem_cons_self) hgr h1
      have hb1 : 7 * t1.capacity ≤ 16 * P := by
        refine step_bound (fun t => NoTomb C t ∧ ∃ l, Sim C t l) (le_refl 16) ?_ hs.size ?_ ?_ h1 hb
          (by rw [hs.size]; exact hW1) (by rw [h2.size]; exact hW4) hW2
        · rintro t a t' i ins ⟨q1, l', q2⟩ he
          obtain ⟨t2, i2, ins2, l2, g1, g2, g3, _⟩ := emplace_grow hC q2 q1 a
          rw [he] at g1
          cases g1
          refine ⟨⟨g3, l2, g2⟩, ?_⟩
          rcases (emplace_cap he).2 with e | ⟨e1, e2⟩
          · exact .inl e
          · by_cases hc : t'.capacity = t.capacity
            · exact .inl hc
            · exact .inr (e2.bound_fresh e1 q1 hc)
        · intro ho
          by_cases hc : t1.capacity = t.capacity
          · exact .inl hc
          · rcases step_one ho h1 with g | ⟨g1, g2⟩
            · exact .inl g
            · exact .inr (g2.bound_fresh g1 hT hc)
        · intro n t2 hr hn
          obtain ⟨⟨c, hi⟩, hp⟩ := id hs
          have hn : growthToLowerboundCapacity C.G.W n ≠ 0 ∨
              t.size ≤ capacityToGrowth C.G.W (normalizeCapacity t.size) := by
            by_cases hz : n = 0
            · right; omega
            · left; unfold growthToLowerboundCapacity; split <;> omega
          obtain ⟨t3, c3, r1, r2, r3, r4, r5, r6⟩ := rehash_spec hC hi _ hn
          unfold reserve at hr
          rw [r1] at hr
          cases hr
          exact ⟨r6 hT, l, ⟨c3, r2⟩, r3.trans hp⟩
      obtain ⟨t2, rs, h3, h4⟩ := ih t1 _ h2 hT1 (fun o ho => hv o (List.mem_cons_of_mem _ ho))
        (fun o ho => hne o (List.mem_cons_of_mem _ ho)) hW3 hb1
      exact ⟨t2, (Spec.step C.key C.eqv l op).2 :: rs, by simp only [Tbl.run, h1, h3, Res.ok_bind], h4⟩
  obtain ⟨c0, hi0, he0⟩ := withBuckets_inv (α := α) (κ := κ) hC.group n0
  refine key ops _ [] ⟨⟨c0, hi0⟩, by rw [he0]⟩ (withBuckets_noTomb n0) hv hne hP ?_
  unfold withBuckets
  split
  · simp [Tbl.empty]
  · rename_i hz
    have := (normalizeCapacity_lt n0).2 hz
    simp only [initializeSlots]
    omega

/-- **How an insertion grows a table**: a call that puts in at most one element leaves the number of buckets alone or
takes it from `c` to `2c + 1`, and when it grows the table is still at least 7/32 full. -/
theorem C99_grow [BEq α] [LawfulBEq α] {C : Cfg α κ} (h : Contract C) {t : Tbl α} (hr : Reachable C t) {op : Op α κ}
    (hv : op.Valid C.key) (ho : InsertsOne op) :
    ∃ t' r, t.step C op = .ok (t', r) ∧ (t'.capacity = t.capacity ∨
      (t'.size = t.size + 1 ∧ t'.capacity = 2 * t.capacity + 1 ∧ 7 * t'.capacity ≤ 32 * t'.size)) := by
  obtain ⟨t', h1, _⟩ := step_sim h.cfgOk (hr.sim h) op hv
  refine ⟨t', _, h1, ?_⟩
  by_cases hc : t'.capacity = t.capacity
  · exact .inl hc
  rcases step_one ho h1 with g | ⟨g1, g2⟩
  · exact .inl g
  · refine .inr ⟨g1, ?_, g2.bound g1 hc⟩
    rcases g2 with g | ⟨_, g3, g4⟩ | ⟨_, _, _, g4⟩
    · exact absurd g hc
    · omega
    · omega

/-- **How an insertion grows a table from which nothing was erased**: the load factor just after the growth is at least
7/16 = 0.4375. -/
theorem C99_grow_fresh {C : Cfg α κ} (h : Contract C) {n0 : Nat} {ops : List (Op α κ)}
    (hv : ∀ op ∈ ops, op.Valid C.key) (hne : ∀ op ∈ ops, NonErasing op) {t : Tbl α} {rs : List (Resp α)}
    (ht : (withBuckets C n0).run C ops = .ok (t, rs)) {op : Op α κ} (ho : InsertsOne op) {t' : Tbl α} {r : Resp α}
    (hs : t.step C op = .ok (t', r)) (hc : t'.capacity ≠ t.capacity) : 7 * t'.capacity ≤ 16 * t'.size := by
  have hC := h.cfgOk
  have key : ∀ (ops : List (Op α κ)) (t0 : Tbl α) (l : List α) (t : Tbl α) rs, Sim C t0 l → NoTomb C t0 →
      (∀ op ∈ ops, op.Valid C.key) → (∀ op ∈ ops, NonErasing op) → t0.run C ops = .ok (t, rs) → NoTomb C t := by
    intro ops
    induction ops with
    | nil => intro t0 l t rs h1 h2 _ _ h3; cases h3; exact h2
    | cons op ops ih =>
      intro t0 l t rs h1 h2 hv hne h3
      unfold Tbl.run at h3
      obtain ⟨⟨t1, r⟩, h4, h5⟩ := Res.bind_eq_ok.1 h3
      obtain ⟨⟨t2, rs'⟩, h6, h7⟩ := Res.bind_eq_ok.1 h5
      cases h7
      obtain ⟨t1', g1, g2⟩ := step_sim hC h1 op (hv op List.mem_cons_self)
      rw [h4] at g1
      cases g1
      have hgr : Growing op := by
        have := hne op List.mem_cons_self
        cases op <;> first | exact trivial | exact this
      exact ih t1 _ t rs' g2 (step_noTomb hC h1 h2 op (hv op List.mem_cons_self) hgr h4)
        (fun o ho => hv o (List.mem_cons_of_mem _ ho)) (fun o ho => hne o (List.mem_cons_of_mem _ ho)) h6
  obtain ⟨c0, hi0, he0⟩ := withBuckets_inv (α := α) (κ := κ) hC.group n0
  have hT := key ops _ [] t rs ⟨⟨c0, hi0⟩, by rw [he0]⟩ (withBuckets_noTomb n0) hv hne ht
  rcases step_one ho hs with g | ⟨g1, g2⟩
  · exact absurd g hc
  · exact g2.bound_fresh g1 hT hc

/-- **Buckets are never given back**: no call takes buckets away, except that inserting an empty range into an empty
container may (see `C99_range_refuted`); calls that insert nothing leave the number of buckets as it is. -/
theorem C99_keep_partial [BEq α] [LawfulBEq α] {C : Cfg α κ} (h : Contract C) {t : Tbl α} (hr : Reachable C t)
    {op : Op α κ} (hv : op.Valid C.key) (hx : ∀ vs, op = .insertRange vs → t.size + vs.length ≠ 0) :
    ∃ t' r, t.step C op = .ok (t', r) ∧ t.capacity ≤ t'.capacity ∧ (PutsNothing op → t'.capacity = t.capacity) := by
  have hC := h.cfgOk
  have hsim := hr.sim h
  obtain ⟨t', h1, _⟩ := step_sim hC hsim op hv
  refine ⟨t', _, h1, ?_, fun ho => step_none ho h1⟩
  by_cases ho : InsertsOne op
  · rcases step_one ho h1 with g | ⟨g1, g2⟩
    · omega
    · exact g2.le
  by_cases hp : PutsNothing op
  · rw [step_none hp h1]
  obtain ⟨⟨c, hi⟩, _⟩ := hsim
  have res : ∀ n t1, n ≠ 0 → t.reserve C n = .ok t1 → t.capacity ≤ t1.capacity := by
    intro n t1 hn h2
    have hn : growthToLowerboundCapacity C.G.W n ≠ 0 := by
      unfold growthToLowerboundCapacity; split <;> omega
    obtain ⟨t3, c3, r1, r2, r3, r4, r5, r6⟩ := rehash_spec hC hi _ (.inl hn)
    unfold reserve at h2
    rw [r1] at h2
    cases h2
    exact r5 hn
  cases op with
  | insertRange vs =>
    simp only [Tbl.step] at h1
    obtain ⟨t1, g1, g2⟩ := Res.bind_eq_ok.1 h1
    cases g2
    unfold insertRange at g1
    obtain ⟨t2, g3, g4⟩ := Res.bind_eq_ok.1 g1
    refine (res _ _ (hx vs rfl) g3).trans ?_
    refine foldlM_keeps (P := fun s : Tbl α => t2.capacity ≤ s.capacity) ?_ vs (le_refl _) g4
    intro s a s' hs he
    obtain ⟨⟨t3, i, ins⟩, h3, h4⟩ := Res.bind_eq_ok.1 he
    cases h4
    rcases (emplace_cap h3).2 with e | ⟨_, e⟩
    · omega
    · exact hs.trans e.le
  | reserve n =>
    simp only [Tbl.step] at h1
    obtain ⟨t1, g1, g2⟩ := Res.bind_eq_ok.1 h1
    cases g2
    exact res _ _ hv g1
  | rehash n =>
    simp only [Tbl.step] at h1
    obtain ⟨t1, g1, g2⟩ := Res.bind_eq_ok.1 h1
    cases g2
    obtain ⟨t3, c3, r1, r2, r3, r4, r5, r6⟩ := rehash_spec hC hi _ (.inl hv)
    rw [r1] at g1
    cases g1
    exact r5 hv
  | _ => first | exact absurd trivial ho | exact absurd trivial hp

/-! ### Concrete cases -/

/-- A set of numbers; key `k` starts probing at position `k`. -/
def rowCfg : Cfg Nat Nat where
  key := id
  hash k := k * 128
  eqv := (· == ·)
  G := groupSse2 true

theorem rowCfg_contract : Contract rowCfg where
  refl k := by simp [rowCfg]
  symm k l h := by simp only [rowCfg, beq_iff_eq] at *; exact h.symm
  trans k l m h1 h2 := by simp only [rowCfg, beq_iff_eq] at *; omega
  hash_congr k l h := by simp only [rowCfg, beq_iff_eq] at *; rw [h]
  group := .inl rfl

/-- Twenty-eight elements in a table of 31 buckets, thirteen of them erased again. -/
def rowOps : List (Op Nat Nat) :=
  .reserve 28 :: (List.range 28).map (fun i => .insert i) ++ (List.range 13).map (fun i => .erase i)

theorem rowOps_valid : ∀ op ∈ rowOps, Op.Valid rowCfg.key op := by
  intro op hop
  simp only [rowOps, List.cons_append, List.mem_cons, List.mem_append, List.mem_map] at hop
  rcases hop with rfl | ⟨i, _, rfl⟩ | ⟨i, _, rfl⟩ <;> simp [Op.Valid]

/-- Size and number of buckets at the end of a history on one container, and after one more insertion. -/
def shape (ops : List (Op Nat Nat)) (a : Nat) : Res ((Nat × Nat) × (Nat × Nat)) := do
  let (t, _) ← (Tbl.empty : Tbl Nat).run rowCfg ops
  let (u, _) ← t.step rowCfg (.insert a)
  .ok ((t.size, t.capacity), (u.size, u.capacity))

theorem row_shape : shape rowOps 28 = .ok ((15, 31), (16, 63)) := by decide +kernel

theorem run_wrun [BEq α] {C : Cfg α κ} : ∀ (ops : List (Op α κ)) {w : Nat → Tbl α} {t' : Tbl α} {rs : List (Resp α)},
    (w 0).run C ops = .ok (t', rs) → ∃ w', wrun C w (ops.map (WOp.on 0)) = .ok (w', rs) ∧ w' 0 = t'
  | [], w, t', rs, h => by cases h; exact ⟨w, rfl, rfl⟩
  | op :: ops, w, t', rs, h => by
    unfold Tbl.run at h
    obtain ⟨⟨t1, r⟩, h1, h2⟩ := Res.bind_eq_ok.1 h
    obtain ⟨⟨t2, rs'⟩, h3, h4⟩ := Res.bind_eq_ok.1 h2
    cases h4
    have e : Spec.put w 0 t1 0 = t1 := by simp [Spec.put]
    obtain ⟨w', g1, g2⟩ := run_wrun ops (w := Spec.put w 0 t1) (t' := t') (rs := rs') (by rw [e]; exact h3)
    exact ⟨w', by simp only [List.map_cons, Tbl.wrun, Tbl.wstep, h1, g1, Res.ok_bind], g2⟩

theorem shape_reach {ops : List (Op Nat Nat)} (hv : ∀ op ∈ ops, Op.Valid rowCfg.key op) {a n c n' c' : Nat}
    (h : shape ops a = .ok ((n, c), (n', c'))) : ∃ t t' r, Reachable rowCfg t ∧ t.size = n ∧ t.capacity = c ∧
      t.step rowCfg (.insert a) = .ok (t', r) ∧ t'.size = n' ∧ t'.capacity = c' := by
  unfold shape at h
  obtain ⟨⟨t, rs⟩, h1, h2⟩ := Res.bind_eq_ok.1 h
  obtain ⟨⟨u, r⟩, h3, h4⟩ := Res.bind_eq_ok.1 h2
  cases h4
  obtain ⟨w', g1, g2⟩ := run_wrun ops (w := fun _ => Tbl.empty) h1
  refine ⟨t, u, r, ⟨_, w', rs, 0, ?_, g1, g2⟩, rfl, rfl, h3, rfl, rfl⟩
  intro op hop
  obtain ⟨o, ho, rfl⟩ := List.mem_map.1 hop
  exact hv o ho

/-- The documentation says the load factor goes from 0.4375 just after a resize to 0.875 just before. Both figures can
be missed: a container with one element has load factor 1 just before it grows, and after erasures a table may grow to a
load factor of 16/63, about 0.25. -/
theorem C99_documented_refuted :
    (∃ t t' : Tbl Nat, ∃ r, Reachable rowCfg t ∧ t.size = 1 ∧ t.capacity = 1 ∧
      t.step rowCfg (.insert 6) = .ok (t', r) ∧ t'.capacity = 3) ∧
    (∃ t t' : Tbl Nat, ∃ r, Reachable rowCfg t ∧ t.capacity = 31 ∧ t.step rowCfg (.insert 28) = .ok (t', r) ∧
      t'.size = 16 ∧ t'.capacity = 63 ∧ 16 * t'.size < 7 * t'.capacity) := by
  constructor
  · obtain ⟨t, t', r, h1, h2, h3, h4, h5, h6⟩ := shape_reach (ops := [.insert 5]) (a := 6)
      (by intro op ho; rw [List.mem_singleton] at ho; subst ho; trivial)
      (show _ = Res.ok ((1, 1), (2, 3)) by decide +kernel)
    exact ⟨t, t', r, h1, h2, h3, h4, h6⟩
  · obtain ⟨t, t', r, h1, h2, h3, h4, h5, h6⟩ := shape_reach rowOps_valid row_shape
    exact ⟨t, t', r, h1, h3, h4, h5, h6, by omega⟩

/-- Inserting an empty range into an empty container gives back all its buckets, even when room was just reserved:
`s.reserve(1000); s.insert(v.begin(), v.begin());` leaves no buckets. -/
theorem C99_range_refuted {C : Cfg α κ} (h : Contract C) [BEq α] [LawfulBEq α] {t : Tbl α} (hr : Reachable C t)
    (h0 : t.size = 0) : ∃ t' r, t.step C (.insertRange []) = .ok (t', r) ∧ t'.capacity = 0 := by
  obtain ⟨t', h1, _⟩ := step_sim h.cfgOk (hr.sim h) (.insertRange []) trivial
  refine ⟨t', _, h1, ?_⟩
  simp only [Tbl.step] at h1
  obtain ⟨t1, g1, g2⟩ := Res.bind_eq_ok.1 h1
  cases g2
  unfold insertRange at g1
  obtain ⟨t2, g3, g4⟩ := Res.bind_eq_ok.1 g1
  cases g4
  have hz : growthToLowerboundCapacity C.G.W (t.size + ([] : List α).length) = 0 := by
    rw [h0]; simp [growthToLowerboundCapacity]
  unfold reserve at g3
  rw [hz] at g3
  unfold rehash at g3
  split at g3
  · rename_i hc
    cases g3; exact hc.2
  · rw [if_pos ⟨rfl, h0⟩] at g3
    exact destroySlots_cap g3

/-- Ten places are reserved (15 buckets) and lost again: the next insertion starts from one bucket. -/
example : shape [.reserve 10] 5 = .ok ((0, 15), (1, 15)) ∧
    shape [.reserve 10, .insertRange []] 5 = .ok ((0, 0), (1, 1)) := by decide +kernel

/-- The hypotheses of `C99_memory` on three containers: at most four elements, at most room for five. -/
example : ∃ w rs, wrun rowCfg (fun _ => (Tbl.empty : Tbl Nat))
    [.create 0 5, .on 0 (.insertRange [1, 2, 3]), .copy 1 0, .on 1 (.erase 2), .on 1 (.insert 7), .merge 0 1,
     .move 2 0] = .ok (w, rs) ∧ ∀ i, 7 * (w i).capacity ≤ 32 * 5 := by
  refine C99_memory rowCfg_contract ?_ ?_
  · intro op hop
    simp only [List.mem_cons, List.not_mem_nil, or_false] at hop
    rcases hop with rfl | rfl | rfl | rfl | rfl | rfl | rfl <;> simp [WOp.Valid, Op.Valid]
  · have two : ∀ (w : Nat → List Nat), (w 0).length ≤ 5 → (w 1).length ≤ 5 → (∀ i, (w (i + 2)).length ≤ 5) →
        ∀ i, (w i).length ≤ 5 := by
      intro w h0 h1 h2 i
      rcases i with _ | _ | i
      · exact h0
      · exact h1
      · exact h2 i
    refine ⟨?_, by decide, ?_, by decide, ?_, by decide, ?_, by decide, ?_, by decide, ?_, by decide, ?_, by decide, ?_⟩ <;>
      refine two _ (by decide) (by decide) ?_ <;>
      (intro i; rcases i with _ | i <;> simp [Spec.wstep, Spec.put, Spec.step] <;> decide)

/-- The hypotheses of `C99_memory_fresh`. -/
example : ∃ t rs, (withBuckets rowCfg 3 : Tbl Nat).run rowCfg [.insertRange [1, 2, 3], .insert 9, .reserve 6, .clear,
    .insert 4] = .ok (t, rs) ∧ 7 * t.capacity ≤ 16 * 6 := by
  refine C99_memory_fresh rowCfg_contract ?_ ?_ (by omega) ?_
  · intro op hop
    simp only [List.mem_cons, List.not_mem_nil, or_false] at hop
    rcases hop with rfl | rfl | rfl | rfl | rfl <;> simp [Op.Valid]
  · intro op hop
    simp only [List.mem_cons, List.not_mem_nil, or_false] at hop
    rcases hop with rfl | rfl | rfl | rfl | rfl <;> trivial
  · exact ⟨by decide, by decide, by decide, by decide, by decide, by decide, by decide, by decide, by decide, by decide,
      by show List.length _ ≤ 6; decide⟩

end Gtl.Props.Hash
