import Verif.Props.ParReserve
import Verif.Parallel.Capacity
/-!
# Property theorems C117: the number of buckets and the load factor of parallel hash containers
-/

namespace Gtl.Props.Parallel

open Gtl.Swiss Gtl.Swiss.Tbl Gtl.Parallel
open Gtl.Spec (Op POp WOp PWOp Resp PInsertsOne PPutsNothing PWithin)
open Gtl.Props.Hash (Contract exEqv exCfg exCfg_contract)

variable {α κ : Type}

/-! ## Glue -/

theorem sim_load {C : Cfg α κ} {t : Tbl α} {l : List α} (h : Sim C t l) :
    t.size ≤ t.capacity ∧ 8 * t.size ≤ 7 * (t.capacity + 1) := by
  obtain ⟨⟨c, hi⟩, _⟩ := h
  have hg := hi.growth
  obtain ⟨k, hk⟩ := hi.core.raw.pow
  have hle := capacityToGrowth_le C.G.W t.capacity
  refine ⟨by omega, ?_⟩
  have h8 : t.capacity ≤ 6 ∨ 8 ∣ t.capacity + 1 := by
    rcases Nat.lt_or_ge k 3 with h3 | h3
    · left
      have : 2 ^ k ≤ 2 ^ 2 := Nat.pow_le_pow_right (by omega) (by omega)
      omega
    · right; rw [hk]; exact pow_dvd_pow 2 h3
  unfold capacityToGrowth at hg
  split at hg <;> omega

theorem sum_load : ∀ (ts : List (Tbl α)), (∀ t ∈ ts, t.size ≤ t.capacity ∧ 8 * t.size ≤ 7 * (t.capacity + 1)) →
    (ts.map Tbl.size).sum ≤ (ts.map Tbl.capacity).sum ∧
      8 * (ts.map Tbl.size).sum ≤ 7 * ((ts.map Tbl.capacity).sum + ts.length)
  | [], _ => by simp
  | t :: ts, h => by
    have h1 := sum_load ts (fun u hu => h u (List.mem_cons_of_mem _ hu))
    have h2 := h t List.mem_cons_self
    simp only [List.map_cons, List.sum_cons, List.length_cons]
    omega

theorem sum_bd {M : Nat} : ∀ (ts : List (Tbl α)), (∀ t ∈ ts, 7 * t.capacity ≤ 32 * M) →
    7 * (ts.map Tbl.capacity).sum ≤ 32 * (ts.length * M)
  | [], _ => by simp
  | t :: ts, h => by
    have h1 := sum_bd ts (fun u hu => h u (List.mem_cons_of_mem _ hu))
    have h2 := h t List.mem_cons_self
    simp only [List.map_cons, List.sum_cons, List.length_cons, Nat.add_mul, Nat.one_mul]
    omega

theorem psim_each {P : PCfg α κ} {p : PTbl α} {l : List α} (hs : PSim P p l) {t : Tbl α} (ht : t ∈ p.sets) :
    ∃ i, Sim P.C t (part P l i) := by
  obtain ⟨k, hk, e⟩ := List.mem_iff_getElem.1 ht
  exact ⟨k, hs.sim k t (by rw [List.getElem?_eq_getElem hk, e])⟩

theorem psim_sz {P : PCfg α κ} {p : PTbl α} {l : List α} (hs : PSim P p l) {M : Nat}
    (h : ∀ j, l.countP (fun a => subOf P (P.C.key a) == j) ≤ M) : Sz M p := by
  intro t ht
  obtain ⟨i, hi⟩ := psim_each hs ht
  rw [hi.size]
  have := h i
  rw [List.countP_eq_length_filter] at this
  exact this

/-! ## C117 -/

/-- **The load factor**: there are at least as many buckets as elements, so `load_factor()` is never more than 1; up to
one bucket in each submap, it is never more than 7/8. -/
theorem C117_load [BEq α] [LawfulBEq α] {P : PCfg α κ} (h : Contract P.C) {p : PTbl α} (hr : PReachable P p) :
    p.size ≤ p.bucketCount ∧ 8 * p.size ≤ 7 * (p.bucketCount + 2 ^ P.N) ∧
      p.loadFactor.1 ≤ p.loadFactor.2 ∧ p.loadFactor.2 ≠ 0 ∧
      p.loadFactor.1 * p.bucketCount = p.size * p.loadFactor.2 := by
  have hs := hr.sim h
  have h1 := sum_load p.sets (fun t ht => by obtain ⟨i, hi⟩ := psim_each hs ht; exact sim_load hi)
  rw [hs.len, ← bucketCount_sum] at h1
  refine ⟨h1.1, h1.2, ?_⟩
  have h2 : p.size ≤ p.bucketCount := h1.1
  unfold PTbl.loadFactor
  dsimp only
  split
  · exact ⟨h2, by assumption, rfl⟩
  · rename_i h3
    refine ⟨by omega, by omega, ?_⟩
    have : p.size = 0 := by omega
    rw [this]; simp

/-- **Memory is bounded by the peak**: over any history on any number of parallel containers, if no submap ever holds
more than `M` elements and no call asks for room for more than `M` in a submap, then no submap ever has more than
`32/7 * M` buckets and no container more than `32/7 * M` times the number of submaps. Erasing and inserting for ever
does not make it grow without limit. -/
theorem C117_memory [BEq α] [LawfulBEq α] {P : PCfg α κ} (h : Contract P.C) {ops : List (PWOp α κ)}
    (hv : ValidHist P ops) {M : Nat}
    (hM : PWithin P.C.key P.C.eqv (fun a => subOf P (P.C.key a)) (2 ^ P.N) M (fun _ => []) ops) :
    ∃ w rs, PTbl.wrun P (fun _ => (PTbl.empty P : PTbl α)) ops = .ok (w, rs) ∧
      ∀ i, (∀ b ∈ buckets (w i), 7 * b ≤ 32 * M) ∧ 7 * (w i).bucketCount ≤ 32 * (2 ^ P.N * M) := by
  have key : ∀ (ops : List (PWOp α κ)) (w : Nat → PTbl α) (m : Nat → List α), PWSim P w m → ValidHist P ops →
      PWithin P.C.key P.C.eqv (fun a => subOf P (P.C.key a)) (2 ^ P.N) M m ops → (∀ i, Bd M (w i)) →
      ∃ w' rs, PTbl.wrun P w ops = .ok (w', rs) ∧ ∀ i, Bd M (w' i) ∧ (w' i).sets.length = 2 ^ P.N := by
    intro ops
    induction ops with
    | nil => intro w m hs _ _ hb; exact ⟨w, [], rfl, fun i => ⟨hb i, (hs i).len⟩⟩
    | cons op ops ih =>
      intro w m hs hv hW hb
      obtain ⟨w1, h1, h2⟩ := pwstep_sim h.cfgOk hs op (hv op List.mem_cons_self)
      obtain ⟨hW1, hW2, hW3⟩ := hW
      have hW4 : ∀ i j, ((Spec.pwstep P.C.key P.C.eqv m op).1 i).countP (fun a => subOf P (P.C.key a) == j) ≤ M := by
        cases ops with
        | nil => exact hW3
        | cons o os => exact hW3.1
      have hb1 := wstep_bd h.cfgOk hs op (hv op List.mem_cons_self) h1 hb (fun i => psim_sz (hs i) (hW1 i))
        (fun i => psim_sz (h2 i) (hW4 i)) hW2
      obtain ⟨w2, rs, h3, h4⟩ := ih w1 _ h2 (fun o ho => hv o (List.mem_cons_of_mem _ ho)) hW3 hb1
      exact ⟨w2, (Spec.pwstep P.C.key P.C.eqv m op).2 :: rs, by simp only [PTbl.wrun, h1, h3, Res.ok_bind], h4⟩
  obtain ⟨w, rs, h1, h2⟩ := key ops _ _ (pwsim_start h) hv hM (fun _ t ht => by
    have : t = Tbl.empty := List.eq_of_mem_replicate ht
    rw [this]; simp [Tbl.empty])
  refine ⟨w, rs, h1, fun i => ⟨?_, ?_⟩⟩
  · intro b hb
    obtain ⟨t, ht, rfl⟩ := List.mem_map.1 hb
    exact (h2 i).1 t ht
  · have := sum_bd (w i).sets (h2 i).1
    rw [(h2 i).2, ← bucketCount_sum] at this
    exact this

/-- **How an insertion grows a container**: a call that puts in at most one element leaves all the buckets alone or
takes those of one submap from `c` to `2c + 1`, and then that submap is still at least 7/32 full. -/
theorem C117_grow [BEq α] [LawfulBEq α] {P : PCfg α κ} (h : Contract P.C) {p : PTbl α} (hr : PReachable P p)
    {op : POp α κ} (hv : op.Valid P.C.key (2 ^ P.N)) (ho : PInsertsOne op) :
    ∃ p' r, p.pstep P op = .ok (p', r) ∧ (buckets p' = buckets p ∨
      ∃ j c, (buckets p)[j]? = some c ∧ buckets p' = (buckets p).set j (2 * c + 1) ∧ p'.size = p.size + 1 ∧
        p'.bucketCount = p.bucketCount + (c + 1) ∧
        ∃ l, p'.iterate P = .ok l ∧ 7 * (2 * c + 1) ≤ 32 * l.countP (fun a => subOf P (P.C.key a) == j)) := by
  have hs := hr.sim h
  obtain ⟨p', h1, h2⟩ := pstep_sim h.cfgOk hs op hv
  refine ⟨p', _, h1, ?_⟩
  rcases pstep_others ho h1 with rfl | ⟨j, t', e⟩
  · exact .inl rfl
  by_cases hj : j < p.sets.length
  · have hj' : j < p'.sets.length := by rw [e, List.length_set]; exact hj
    have g0 := List.getElem?_eq_getElem hj
    obtain ⟨u, g1, g2⟩ := pstep_effect g0 h1
    have hu : u = t' := by
      rw [e, List.getElem?_set_self hj] at g1
      cases g1; rfl
    subst hu
    generalize ht : p.sets[j] = t at *
    have hset : ∀ c, u.capacity = c → buckets p' = (buckets p).set j c := by
      intro c hc
      unfold buckets
      rw [e, List.map_set, hc]
    have hbj : (buckets p)[j]? = some t.capacity := by
      unfold buckets
      rw [List.getElem?_map, g0]; rfl
    by_cases hc : u.capacity = t.capacity
    · left
      rw [hset _ hc]
      obtain ⟨hb1, hb2⟩ := List.getElem?_eq_some_iff.1 hbj
      rw [← hb2]
      exact List.set_getElem_self hb1
    · right
      rcases g2.2.1 ho with g | ⟨g3, g4⟩
      · exact absurd g hc
      have hcc : u.capacity = 2 * t.capacity + 1 := by
        rcases g4 with g | ⟨_, g5, g6⟩ | ⟨_, _, _, g6⟩
        · exact absurd g hc
        · omega
        · omega
      have sumset : ∀ (f : Tbl α → Nat) (l : List (Tbl α)) (j : Nat) (t u : Tbl α), l[j]? = some t →
          ((l.set j u).map f).sum + f t = (l.map f).sum + f u := by
        intro f l
        induction l with
        | nil => intro j t u hj; simp at hj
        | cons x l ih =>
          intro j t u hj
          cases j with
          | zero =>
            simp only [List.getElem?_cons_zero, Option.some.injEq] at hj
            subst hj
            simp only [List.set_cons_zero, List.map_cons, List.sum_cons]
            omega
          | succ j =>
            have := ih j t u (by simpa using hj)
            simp only [List.set_cons_succ, List.map_cons, List.sum_cons]
            omega
      refine ⟨j, t.capacity, hbj, hset _ hcc, ?_, ?_, flat p', psim_iterate h h2, ?_⟩
      · have := sumset Tbl.size p.sets j t u g0
        unfold PTbl.size
        rw [e]; omega
      · have := sumset Tbl.capacity p.sets j t u g0
        rw [bucketCount_sum, bucketCount_sum, e]; omega
      · have hb := g4.bound g3 hc
        have hp' := h2.perm h2.flat.symm
        have := (hp'.sim j u g1).size
        rw [List.countP_eq_length_filter]
        unfold part at this
        rw [hcc, this] at hb
        exact hb
  · left
    unfold buckets
    rw [e, List.set_eq_of_length_le (by omega)]

/-- **Buckets are never given back**: no call takes buckets away from a submap; calls that insert nothing leave the
number of buckets of every submap as it is. -/
theorem C117_keep [BEq α] [LawfulBEq α] {P : PCfg α κ} (h : Contract P.C) {p : PTbl α} (hr : PReachable P p)
    {op : POp α κ} (hv : op.Valid P.C.key (2 ^ P.N)) :
    ∃ p' r, p.pstep P op = .ok (p', r) ∧ List.Forall₂ (· ≤ ·) (buckets p) (buckets p') ∧
      p.bucketCount ≤ p'.bucketCount ∧ (PPutsNothing op → buckets p' = buckets p) := by
  have hs := hr.sim h
  obtain ⟨p', h1, h2⟩ := pstep_sim h.cfgOk hs op hv
  have hlen := pstep_len h.cfgOk hs hv h1
  have each : ∀ (i : Nat) t, p.sets[i]? = some t → ∃ t', p'.sets[i]? = some t' ∧ t.capacity ≤ t'.capacity ∧
      (PPutsNothing op → t'.capacity = t.capacity) := by
    intro i t ht
    obtain ⟨t', g1, g2⟩ := pstep_effect ht h1
    refine ⟨t', g1, ?_, g2.1⟩
    obtain ⟨⟨c, hi⟩, _⟩ := hs.sim i t ht
    have res : ∀ n, n ≠ 0 → t.rehash P.C n = .ok t' → t.capacity ≤ t'.capacity := by
      intro n hn e
      obtain ⟨t3, c3, r1, r2, r3, r4, r5, r6⟩ := rehash_spec h.cfgOk hi n (.inl hn)
      rw [r1] at e
      cases e
      exact r5 hn
    by_cases hz : op.Resizes
    · cases op with
      | base op =>
        cases op with
        | reserve n =>
          refine res _ ?_ (g2.2.2.2.2 n rfl)
          have h1 : 2 ^ P.N ≤ 2 ^ P.N * normalizeCapacity (n / 2 ^ P.N) :=
            Nat.le_mul_of_pos_right _ (normalizeCapacity_pos _)
          have := Nat.div_pos (a := if 2 ^ P.N * normalizeCapacity (n / 2 ^ P.N) > growthToLowerboundCapacity P.C.G.W n
            then 2 ^ P.N * normalizeCapacity (n / 2 ^ P.N) else growthToLowerboundCapacity P.C.G.W n) (b := 2 ^ P.N)
            (by split <;> omega) (Nat.two_pow_pos _)
          omega
        | rehash n =>
          refine res _ ?_ (g2.2.2.2.1 n rfl)
          have := Nat.div_pos (show 2 ^ P.N ≤ n from hv) (Nat.two_pow_pos _)
          omega
        | _ => exact hz.elim
      | _ => exact hz.elim
    · exact (g2.2.2.1 hz).1
  have lists : ∀ (l l' : List (Tbl α)), l'.length = l.length → (∀ (i : Nat) t, l[i]? = some t → ∃ t', l'[i]? = some t' ∧
      t.capacity ≤ t'.capacity ∧ (PPutsNothing op → t'.capacity = t.capacity)) →
      List.Forall₂ (· ≤ ·) (l.map Tbl.capacity) (l'.map Tbl.capacity) ∧
      (l.map Tbl.capacity).sum ≤ (l'.map Tbl.capacity).sum ∧
      (PPutsNothing op → l'.map Tbl.capacity = l.map Tbl.capacity) := by
    intro l
    induction l with
    | nil =>
      intro l' hl _
      have : l' = [] := List.length_eq_zero_iff.1 hl
      subst this
      exact ⟨.nil, le_refl _, fun _ => rfl⟩
    | cons x l ih =>
      intro l' hl hE
      cases l' with
      | nil => simp at hl
      | cons x' l' =>
        obtain ⟨y, hy, h3, h4⟩ := hE 0 x rfl
        simp only [List.getElem?_cons_zero, Option.some.injEq] at hy
        subst hy
        obtain ⟨i1, i2, i3⟩ := ih l' (by simpa using hl) (fun i t ht => by
          obtain ⟨y, hy, h5⟩ := hE (i + 1) t (by simpa using ht)
          exact ⟨y, by simpa using hy, h5⟩)
        refine ⟨.cons h3 i1, ?_, fun hp => ?_⟩
        · simp only [List.map_cons, List.sum_cons]; omega
        · rw [List.map_cons, List.map_cons, h4 hp, i3 hp]
  obtain ⟨l1, l2, l3⟩ := lists p.sets p'.sets hlen each
  exact ⟨p', _, h1, l1, by rw [bucketCount_sum, bucketCount_sum]; exact l2, l3⟩

/-- **New containers**: the default constructor allocates no buckets. The constructor with a bucket count `n` gives
every submap at least `n` and fewer than `2n` buckets, so that there are at least `n` times as many as submaps. -/
theorem C117_create (P : PCfg α κ) :
    (PTbl.empty P : PTbl α).bucketCount = 0 ∧ (PTbl.empty P : PTbl α).loadFactor = (0, 1) ∧
    ∀ n, n ≠ 0 → 2 ^ P.N * n ≤ (PTbl.withBuckets P n : PTbl α).bucketCount ∧
      (PTbl.withBuckets P n : PTbl α).bucketCount + 2 ^ P.N ≤ 2 ^ P.N * (2 * n) := by
  have h0 : (PTbl.empty P : PTbl α).bucketCount = 0 := by
    rw [bucketCount_sum]
    simp [PTbl.empty, Tbl.empty]
  refine ⟨h0, by unfold PTbl.loadFactor; simp [h0], fun n hn => ?_⟩
  have h1 : (Tbl.withBuckets P.C n : Tbl α).capacity = normalizeCapacity n := by
    unfold Tbl.withBuckets
    rw [if_neg hn]
    rfl
  have h2 : (PTbl.withBuckets P n : PTbl α).bucketCount = 2 ^ P.N * normalizeCapacity n := by
    rw [bucketCount_sum]
    simp [PTbl.withBuckets, h1]
  rw [h2]
  have h3 := (normalizeCapacity_lt n).2 hn
  refine ⟨Nat.mul_le_mul_left _ ?_, ?_⟩
  · exact le_normalizeCapacity n
  · have := Nat.mul_le_mul_left (2 ^ P.N) h3
    rw [Nat.mul_add] at this
    omega

/-! ### Concrete cases -/

/-- The size and the amounts asked for by a history on one container stay within `M`. -/
def within (key : α → κ) (eqv : κ → κ → Bool) (M subs : Nat) : List α → List (POp α κ) → Bool
  | l, [] => l.length ≤ M
  | l, op :: ops => l.length ≤ M && Spec.paskedEach subs (.on 0 op) ≤ M && within key eqv M subs (Spec.pstep key eqv l op).1 ops

theorem pwithin_of [BEq α] {key : α → κ} {eqv : κ → κ → Bool} {part : α → Nat} {M subs : Nat} :
    ∀ (ops : List (POp α κ)) (w : Nat → List α), (∀ i, i ≠ 0 → w i = []) → within key eqv M subs (w 0) ops = true →
      PWithin key eqv part subs M w (ops.map (.on 0)) := by
  have cnt : ∀ (w : Nat → List α), (∀ i, i ≠ 0 → w i = []) → (w 0).length ≤ M →
      ∀ i j, (w i).countP (fun a => part a == j) ≤ M := by
    intro w hw hl i j
    by_cases hi : i = 0
    · subst hi; exact List.countP_le_length.trans hl
    · rw [hw i hi]; simp
  intro ops
  induction ops with
  | nil => intro w hw h; exact cnt w hw (by simpa [within] using h)
  | cons op ops ih =>
    intro w hw h
    simp only [within, Bool.and_eq_true, decide_eq_true_eq] at h
    refine ⟨cnt w hw h.1.1, h.1.2, ?_⟩
    refine ih _ (fun i hi => ?_) ?_
    · simp [Spec.pwstep, Spec.put, hi, hw i hi]
    · simpa [Spec.pwstep, Spec.put] using h.2

/-- Eight keys of `exP`, one for each submap, inserted and erased one after the other. -/
def roundOps : List (POp (Nat × Nat) Nat) :=
  [0, 4, 7, 10, 14, 17, 20, 24].flatMap (fun k => [.base (.insert (k, 0)), .base (.erase k)])

theorem roundOps_valid : ValidHist (exP (groupSse2 true)) (roundOps.map (.on 0)) := by
  intro op hop
  obtain ⟨o, ho, rfl⟩ := List.mem_map.1 hop
  obtain ⟨k, _, hk⟩ := List.mem_flatMap.1 ho
  rcases List.mem_cons.1 hk with rfl | hk
  · trivial
  · rcases List.mem_cons.1 hk with rfl | hk
    · trivial
    · cases hk

theorem roundOps_within {part : Nat × Nat → Nat} {subs : Nat} (hs : subs = 1 ∨ subs = 8) :
    PWithin (exP (groupSse2 true)).C.key (exP (groupSse2 true)).C.eqv part subs 1 (fun _ => []) (roundOps.map (.on 0)) :=
  pwithin_of roundOps _ (fun _ _ => rfl) (by rcases hs with rfl | rfl <;> decide +kernel)

/-- The number of buckets of container 0 at the end of a history. -/
def endBuckets (P : PCfg (Nat × Nat) Nat) (ops : List (PWOp (Nat × Nat) Nat)) : Res Nat := do
  let (w, _) ← PTbl.wrun P (fun _ => PTbl.empty P) ops
  .ok (w 0).bucketCount

theorem roundOps_end : endBuckets (exP (groupSse2 true)) (roundOps.map (.on 0)) = .ok 8 := by decide +kernel

/-- **The bound of the ordinary containers does not hold**: a container that never holds more than one element can have
eight buckets, since every submap keeps its own. (With `part` constantly 0, `PWithin` is about the whole container.) -/
theorem C117_total_refuted :
    ¬ (∀ (P : PCfg (Nat × Nat) Nat) (ops : List (PWOp (Nat × Nat) Nat)) (M : Nat) (w : Nat → PTbl (Nat × Nat))
      (rs : List (Resp (Nat × Nat))), Contract P.C → ValidHist P ops →
      PWithin P.C.key P.C.eqv (fun _ => 0) 1 M (fun _ => []) ops →
      PTbl.wrun P (fun _ => PTbl.empty P) ops = .ok (w, rs) → 7 * (w 0).bucketCount ≤ 32 * M) := by
  intro H
  have h1 := roundOps_end
  unfold endBuckets at h1
  obtain ⟨⟨w, rs⟩, h2, h3⟩ := Res.bind_eq_ok.1 h1
  have h4 : (w 0).bucketCount = 8 := by injection h3
  have := H _ _ 1 w rs (exP_contract (.inl rfl)) roundOps_valid (roundOps_within (.inl rfl)) h2
  rw [h4] at this
  omega

/-- `reserve(0)` on a new container allocates one bucket in every submap. -/
theorem C117_reserve_zero : endBuckets (exP (groupSse2 true)) [.on 0 (.base (.reserve 0))] = .ok 8 := by decide +kernel

/-- The hypotheses of the theorems are met: a reachable container with 40 elements, an insertion into it, and a history
that stays within one element per submap. -/
example : (∃ p : PTbl (Nat × Nat), PReachable (exP (groupSse2 true)) p ∧ p.size = 40 ∧ 40 ≤ p.bucketCount) ∧
    (POp.base (.insert (77, 0)) : POp (Nat × Nat) Nat).Valid (exP (groupSse2 true)).C.key 8 ∧
    PInsertsOne (POp.base (.insert (77, 0)) : POp (Nat × Nat) Nat) ∧
    ∃ w rs, PTbl.wrun (exP (groupSse2 true)) (fun _ => PTbl.empty (exP (groupSse2 true)))
      (roundOps.map (.on 0)) = .ok (w, rs) ∧
      7 * (w 0).bucketCount ≤ 32 * (2 ^ 3 * 1) := by
  obtain ⟨p, _, h1, _, h2, _⟩ := exPReach (G := groupSse2 true) (.inl rfl)
  refine ⟨⟨p, h1, h2, ?_⟩, trivial, trivial, ?_⟩
  · have := (C117_load (exP_contract (.inl rfl)) h1).1
    omega
  · obtain ⟨w, rs, g1, g2⟩ := C117_memory (exP_contract (.inl rfl)) roundOps_valid (roundOps_within (.inr rfl))
    exact ⟨w, rs, g1, (g2 0).2⟩

/-- The bucket counts of two submaps as keys 0, 2 are inserted: only the first submap grows. -/
example : beforeAfter (exHalf (groupSse2 true)) 2 [0, 2] = .ok ([1, 1], [3, 1]) := half_two

end Gtl.Props.Parallel
