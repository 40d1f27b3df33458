import Verif.Swiss.HashThrow
import Verif.Swiss.ThrowHist
import Verif.Spec.HashThrows
/-!
# What a throwing hash function leaves behind
-/

namespace Gtl.Swiss

open Tbl
open Gtl.Spec (Op TOp Resp TResp)

variable {α κ β γ : Type}

/-! ### Computations that call the hash function -/

theorem Hashing.bind_done {x : Hashing α β} {f : β → Hashing α γ} {k k' : Nat} {b : β} (h : x k = .ok (.done b k')) :
    (x >>= f) k = f b k' := by
  show Hashing.bind x f k = _
  unfold Hashing.bind
  rw [h]

theorem Hashing.bind_threw {x : Hashing α β} {f : β → Hashing α γ} {k : Nat} {t : Tbl α} {l : List α}
    (h : x k = .ok (.threw t l)) : (x >>= f) k = .ok (.threw t l) := by
  show Hashing.bind x f k = _
  unfold Hashing.bind
  rw [h]

theorem Hashing.lift_ok {r : Res β} {b : β} (h : r = .ok b) (k : Nat) : (Hashing.lift r : Hashing α β) k = .ok (.done b k) := by
  unfold Hashing.lift
  rw [h]

theorem Hashing.bind_lift {r : Res β} {b : β} {f : β → Hashing α γ} (h : r = .ok b) (k : Nat) :
    ((liftM r : Hashing α β) >>= f) k = f b k := Hashing.bind_done (Hashing.lift_ok h k)

theorem Hashing.bind_assoc {δ : Type} (x : Hashing α β) (f : β → Hashing α γ) (g : γ → Hashing α δ) :
    (x >>= f >>= g) = (x >>= fun b => f b >>= g) := by
  funext k
  show Hashing.bind (Hashing.bind x f) g k = Hashing.bind x (fun b => Hashing.bind (f b) g) k
  unfold Hashing.bind
  rcases x k with ⟨b, k'⟩ | _ | _
  · rfl
  · rfl
  · rfl
  · rfl

theorem Hashing.pure_bind (b : β) (f : β → Hashing α γ) : ((pure b : Hashing α β) >>= f) = f b := rfl

/-- When the plain computation `p` ends well, `x` ends the same way, or throws and leaves what `T` says. -/
def Tri (x : Hashing α β) (p : Res β) (T : Tbl α → List α → Prop) : Prop :=
  ∀ b, p = .ok b → ∀ k, (∃ k', x k = .ok (.done b k')) ∨ ∃ t l, x k = .ok (.threw t l) ∧ T t l

theorem Tri.pure (b : β) (T : Tbl α → List α → Prop) : Tri (Pure.pure b : Hashing α β) (.ok b) T := by
  intro b' h k
  cases h
  exact .inl ⟨k, rfl⟩

theorem Tri.lift (r : Res β) (T : Tbl α → List α → Prop) : Tri (Hashing.lift r : Hashing α β) r T := by
  intro b h k
  exact .inl ⟨k, Hashing.lift_ok h k⟩

theorem Tri.bind {x : Hashing α β} {f : β → Hashing α γ} {p : Res β} {g : β → Res γ} {T : Tbl α → List α → Prop}
    (hx : Tri x p T) (hf : ∀ b, p = .ok b → Tri (f b) (g b) T) : Tri (x >>= f) (p >>= g) T := by
  intro c h k
  obtain ⟨b, hb, hc⟩ := Res.bind_eq_ok.1 h
  rcases hx b hb k with ⟨k', h1⟩ | ⟨t, l, h1, h2⟩
  · rw [Hashing.bind_done h1]
    exact hf b hb c hc k'
  · exact .inr ⟨t, l, Hashing.bind_threw h1, h2⟩

theorem Tri.bind_lift {f : β → Hashing α γ} {p : Res β} {g : β → Res γ} {T : Tbl α → List α → Prop}
    (hf : ∀ b, p = .ok b → Tri (f b) (g b) T) : Tri ((liftM p : Hashing α β) >>= f) (p >>= g) T :=
  Tri.bind (Tri.lift p T) hf

theorem Tri.hash {t : Tbl α} {l : List α} {x : Hashing α β} {p : Res β} {T : Tbl α → List α → Prop} (h : T t l)
    (hx : Tri x p T) : Tri (Hashing.hash t l >>= fun _ => x) p T := by
  intro b hb k
  cases k with
  | zero => exact .inr ⟨t, l, rfl, h⟩
  | succ k => exact hx b hb k

theorem Tri.mono {x : Hashing α β} {p : Res β} {T T' : Tbl α → List α → Prop} (hx : Tri x p T) (h : ∀ t l, T t l → T' t l) :
    Tri x p T' := by
  intro b hb k
  rcases hx b hb k with h1 | ⟨t, l, h1, h2⟩
  · exact .inl h1
  · exact .inr ⟨t, l, h1, h _ _ h2⟩

/-- `x` calls the hash function `n` times; when call `k + 1` throws it leaves what `T k` says. -/
def Exact (x : Hashing α β) (p : Res β) (n : Nat) (T : Nat → Tbl α → List α → Prop) : Prop :=
  ∃ b, p = .ok b ∧ ∀ k, (n ≤ k → x k = .ok (.done b (k - n))) ∧ (k < n → ∃ t l, x k = .ok (.threw t l) ∧ T k t l)

theorem Exact.tri {x : Hashing α β} {p : Res β} {n : Nat} {T : Nat → Tbl α → List α → Prop} (h : Exact x p n T) :
    Tri x p (fun t l => ∃ k, k < n ∧ T k t l) := by
  intro b hb k
  obtain ⟨b', h1, h2⟩ := h
  rw [hb] at h1
  cases h1
  by_cases hk : n ≤ k
  · exact .inl ⟨_, (h2 k).1 hk⟩
  · obtain ⟨t, l, h3, h4⟩ := (h2 k).2 (by omega)
    exact .inr ⟨t, l, h3, k, by omega, h4⟩

/-! ### `resize` -/

theorem resizeLoopH_spec {C : Cfg α κ} (hC : CfgOk C) {t : Tbl α} {c : List Ctrl} (h : Core C t c) {newCap : Nat}
    (hfit : (elems t).length ≤ newCap) : ∀ (d i : Nat) (s : Tbl α × Tbl α), i + d = t.capacity → RInv C t newCap i s →
    ∃ s', (List.range' i d).foldlM (resizeStep C) s = .ok s' ∧ RInv C t newCap t.capacity s' ∧ ∀ k,
      ((elems s.1).length ≤ k → resizeLoopH C (List.range' i d) s k = .ok (.done s' (k - (elems s.1).length))) ∧
      (k < (elems s.1).length → ∃ j s1, resizeLoopH C (List.range' i d) s k = .ok (.threw s1.2 (elems s1.1)) ∧
        RInv C t newCap j s1 ∧ (elems s1.2).length = (elems s.2).length + k) := by
  intro d
  induction d with
  | zero =>
    intro i s hi hP
    have hic : i = t.capacity := by omega
    subst hic
    have h0 := hP.old_nil h
    refine ⟨s, rfl, hP, fun k => ⟨fun _ => ?_, fun hk => ?_⟩⟩
    · rw [h0]; rfl
    · rw [h0] at hk; exact absurd hk (by simp)
  | succ d ih =>
    intro i s hi hP
    obtain ⟨hct, s1, h1, hP1, hlen⟩ := resizeStep_spec hC h hfit (by omega) hP
    obtain ⟨s', r1, r2, r3⟩ := ih (i + 1) s1 (by omega) hP1
    have e1 := hP.2.2.2.2.2.2
    have e2 := hP1.2.2.2.2.2.2
    obtain ⟨_, _, _, e1⟩ := e1
    obtain ⟨_, _, _, e2⟩ := e2
    have e1 := e1.length_eq
    have e2 := e2.length_eq
    rw [List.length_append] at e1 e2
    refine ⟨s', ?_, r2, fun k => ?_⟩
    · rw [List.range'_succ, List.foldlM_cons, h1]
      exact r1
    · rw [List.range'_succ]
      simp only [resizeLoopH]
      rw [Hashing.bind_lift hct]
      by_cases hf : isFull (c.getD i kEmpty) = true
      · rw [if_pos hf]
        rw [if_pos hf] at hlen
        cases k with
        | zero =>
          refine ⟨fun hk => by omega, fun _ => ⟨i, s, rfl, hP, by omega⟩⟩
        | succ k =>
          rw [Hashing.bind_done (show Hashing.hash s.2 (s.1.slots.filterMap id) (k + 1) = .ok (.done () k) from rfl)]
          rw [Hashing.bind_lift h1]
          obtain ⟨q1, q2⟩ := r3 k
          refine ⟨fun hk => ?_, fun hk => ?_⟩
          · rw [q1 (by omega)]
            congr 2; omega
          · obtain ⟨j, s2, g1, g2, g3⟩ := q2 (by omega)
            exact ⟨j, s2, g1, g2, by omega⟩
      · rw [if_neg hf]
        rw [if_neg hf] at hlen
        rw [Hashing.bind_lift h1]
        obtain ⟨q1, q2⟩ := r3 k
        refine ⟨fun hk => ?_, fun hk => ?_⟩
        · rw [q1 (by omega)]
          congr 2; omega
        · obtain ⟨j, s2, g1, g2, g3⟩ := q2 (by omega)
          exact ⟨j, s2, g1, g2, by omega⟩

/-- What an exception in `resize` leaves: the new table with the elements that were moved so far, and the old size. -/
structure Halfway (C : Cfg α κ) (t : Tbl α) (newCap k : Nat) (t1 : Tbl α) (lost : List α) : Prop where
  core : ∃ c1, Core C t1 c1 ∧ kDeleted ∉ c1
  perm : List.Perm (elems t1 ++ lost) (elems t)
  cap : t1.capacity = newCap
  size : t1.size = t.size
  growth : t1.growthLeft = usub (capacityToGrowth C.G.W newCap) t.size
  moved : (elems t1).length = k

theorem resizeH_exact {C : Cfg α κ} (hC : CfgOk C) {t : Tbl α} {c : List Ctrl} (h : Core C t c) {newCap : Nat}
    (hp : ∃ k, newCap + 1 = 2 ^ k) (hfit : (elems t).length ≤ newCap) :
    Exact (t.resizeH C newCap) (t.resize C newCap) (elems t).length (Halfway C t newCap) := by
  obtain ⟨s', r1, r2, r3⟩ := resizeLoopH_spec hC h hfit t.capacity 0 _ (by omega) (RInv.init hC t hp)
  have hold : elems s'.1 = [] := r2.old_nil h
  have hall := all_none_of_elems_nil hold
  rw [← List.range_eq_range'] at r1 r3
  refine ⟨s'.2, ?_, fun k => ?_⟩
  · unfold resize
    rw [r1]
    simp only [Res.ok_bind]
    rw [if_pos hall]
  · obtain ⟨q1, q2⟩ := r3 k
    unfold resizeH
    refine ⟨fun hk => ?_, fun hk => ?_⟩
    · rw [Hashing.bind_done (q1 hk), if_pos hall]
      rfl
    · obtain ⟨j, s1, g1, ⟨_, _, _, g2, g3, g4, c1, g5, g6, g7⟩, g8⟩ := q2 hk
      refine ⟨_, _, Hashing.bind_threw g1, ⟨c1, g5, g6⟩, g7, g2, g3, g4, ?_⟩
      rw [g8]
      have : elems (initializeSlots C t newCap) = [] := elems_replicate rfl
      rw [this]
      simp

/-! ### `drop_deletes_without_resize` -/

theorem dropLoopH_spec {C : Cfg α κ} (hG : GroupSpec C.G) : ∀ (fuel i : Nat) (t : Tbl α) (c : List Ctrl),
    C.G.W ≤ t.capacity + 1 → DInv C t c i → i ≤ t.capacity → (t.capacity - i) + c.count kDeleted < fuel →
    ∃ t', dropLoop C fuel i t = .ok t' ∧ ∀ k,
      (c.count kDeleted ≤ k → dropLoopH C fuel i t k = .ok (.done t' (k - c.count kDeleted))) ∧
      (k < c.count kDeleted → ∃ t1 c1 j, dropLoopH C fuel i t k = .ok (.threw t1.abandon t1.abandoned) ∧ DInv C t1 c1 j ∧
        List.Perm (elems t1) (elems t) ∧ t1.capacity = t.capacity ∧ t1.size = t.size ∧ t1.growthLeft = t.growthLeft ∧
        c1.count kDeleted + k = c.count kDeleted) := by
  have hWpos : 0 < C.G.W := by rcases hG.width with h | h <;> omega
  intro fuel
  induction fuel with
  | zero => intro i t c _ _ _ h; omega
  | succ fuel ih =>
    intro i t c hbig h hi hf
    rw [dropLoop_succ]
    simp only [dropLoopH]
    by_cases hic : i = t.capacity
    · rw [if_pos hic, if_pos hic]
      have h0 : c.count kDeleted = 0 := by
        rw [List.count_eq_zero]
        intro hm
        rw [List.mem_iff_getElem?] at hm
        obtain ⟨j, hj⟩ := hm
        have hjl : j < c.length := by
          rw [List.getElem?_eq_some_iff] at hj; exact hj.1
        rw [h.raw.len] at hjl
        exact h.done j (by omega) hj
      refine ⟨t, rfl, fun k => ⟨fun _ => by rw [h0]; rfl, fun hk => by omega⟩⟩
    rw [if_neg hic, if_neg hic]
    have hi' : i < t.capacity := by omega
    have hcl : i < c.length := by rw [h.raw.len]; exact hi'
    have hctrl : t.ctrlAt i = .ok (c.getD i kEmpty) := by
      rw [h.raw.ctrlAt hWpos hi, lay_lt hi']
    by_cases hd : c.getD i kEmpty = kDeleted
    swap
    · have hnd : isDeleted (c.getD i kEmpty) = false := by
        unfold isDeleted; simpa using hd
      obtain ⟨t', r1, r2⟩ := ih (i + 1) t c hbig (h.skip hd) (by omega) (by omega)
      refine ⟨t', ?_, fun k => ?_⟩
      · rw [hctrl]
        simp only [Res.ok_bind]
        rw [hnd]
        simp only [Bool.not_false, if_true]
        exact r1
      · rw [Hashing.bind_lift hctrl, hnd]
        simp only [Bool.not_false, if_true]
        exact r2 k
    have hcd : c[i]? = some kDeleted := by rw [getElem?_getD hcl, hd]
    obtain ⟨i', t1, c1, s1, s2, s3, s4, s5, s5', s6, s7, s8⟩ := dropIter_spec hG hbig h hi' hcd
    obtain ⟨t', r1, r2⟩ := ih i' t1 c1 (by omega) s2 (by omega) (by omega)
    refine ⟨t', ?_, fun k => ?_⟩
    · rw [hctrl]
      simp only [Res.ok_bind]
      rw [hd]
      simp only [show isDeleted kDeleted = true from rfl, Bool.not_true, Bool.false_eq_true, if_false]
      rw [s1]
      simp only [Res.ok_bind]
      exact r1
    · rw [Hashing.bind_lift hctrl, hd]
      simp only [show isDeleted kDeleted = true from rfl, Bool.not_true, Bool.false_eq_true, if_false]
      cases k with
      | zero =>
        exact ⟨fun hk => by omega, fun _ => ⟨t, c, i, rfl, h, List.Perm.refl _, rfl, rfl, rfl, by omega⟩⟩
      | succ k =>
        rw [Hashing.bind_done (show Hashing.hash t.abandon t.abandoned (k + 1) = .ok (.done () k) from rfl)]
        rw [Hashing.bind_lift s1]
        obtain ⟨q1, q2⟩ := r2 k
        refine ⟨fun hk => ?_, fun hk => ?_⟩
        · rw [q1 (by omega)]
          congr 2; omega
        · obtain ⟨t2, c2, j, g1, g2, g3, g4, g5, g6, g7⟩ := q2 (by omega)
          exact ⟨t2, c2, j, g1, g2, g3.trans s3, g4.trans s4, g5.trans s5, g6.trans s5', by omega⟩

theorem zipWith_congr_lt {f : Ctrl → Option α → Option α} {a b : List Ctrl} {l : List (Option α)}
    (h : ∀ j : Nat, j < l.length → a[j]? = b[j]?) : List.zipWith f a l = List.zipWith f b l := by
  apply List.ext_getElem?
  intro j
  rw [List.getElem?_zipWith, List.getElem?_zipWith]
  by_cases hj : j < l.length
  · rw [h j hj]
  · rw [List.getElem?_eq_none (l := l) (by omega)]
    cases a[j]? <;> cases b[j]? <;> rfl

theorem zipWith_split : ∀ (c : List Ctrl) (l : List (Option α)), l.length ≤ c.length →
    List.Perm ((List.zipWith (fun c o => if isDeleted c then none else o) c l).filterMap id ++
      (List.zipWith (fun c o => if isDeleted c then o else none) c l).filterMap id) (l.filterMap id)
  | _, [], _ => by simp
  | [], _ :: _, h => by simp at h
  | x :: c, o :: l, h => by
    have ih := zipWith_split c l (by simpa using h)
    rw [List.zipWith_cons_cons, List.zipWith_cons_cons]
    by_cases hx : isDeleted x = true
    · rw [if_pos hx, if_pos hx]
      cases o with
      | none => simpa using ih
      | some a =>
        simp only [List.filterMap_cons, id]
        exact List.perm_middle.trans (ih.cons a)
    · rw [if_neg hx, if_neg hx]
      cases o with
      | none => simpa using ih
      | some a =>
        simp only [List.filterMap_cons, id, List.cons_append]
        exact ih.cons a

theorem zipWith_count : ∀ (c : List Ctrl) (l : List (Option α)), l.length = c.length →
    (∀ j : Nat, c[j]? = some kDeleted → ∃ a, l[j]? = some (some a)) →
    ((List.zipWith (fun c o => if isDeleted c then o else none) c l).filterMap id).length = c.count kDeleted
  | [], [], _, _ => rfl
  | [], _ :: _, h, _ => by simp at h
  | _ :: _, [], h, _ => by simp at h
  | x :: c, o :: l, h, hs => by
    have ih := zipWith_count c l (by simpa using h) (fun j hj => hs (j + 1) hj)
    rw [List.zipWith_cons_cons, List.count_cons]
    by_cases hx : x = kDeleted
    · subst hx
      obtain ⟨a, ha⟩ := hs 0 rfl
      have ha : o = some a := by simpa using ha
      subst ha
      simp only [show isDeleted kDeleted = true from rfl, if_true, List.filterMap_cons, id, List.length_cons,
        beq_self_eq_true]
      exact congrArg (· + 1) ih
    · have hx' : isDeleted x = false := by unfold isDeleted; simpa using hx
      simp only [hx', Bool.false_eq_true, if_false, List.filterMap_cons, id]
      rw [if_neg (by simpa using hx)]
      exact ih

/-- What an exception leaves in the middle of `drop_deletes_without_resize` is a sound table. -/
theorem DInv.abandon {C : Cfg α κ} (hC : CfgOk C) {t : Tbl α} {c : List Ctrl} {i : Nat} (h : DInv C t c i)
    (hd : Distinct C (elems t)) : Core C t.abandon c ∧ List.Perm (elems t.abandon ++ t.abandoned) (elems t) ∧
      t.abandoned.length = c.count kDeleted := by
  have hWpos : 0 < C.G.W := by rcases hC.group.width with h | h <;> omega
  have hct : ∀ j : Nat, j < t.slots.length → t.ctrl[j]? = c[j]? := by
    intro j hj
    rw [h.slen] at hj
    rw [h.raw.bytes j (by omega), lay_lt hj]
    exact (getElem?_getD (by rw [h.raw.len]; exact hj)).symm
  have hperm : List.Perm (elems t.abandon ++ t.abandoned) (elems t) := by
    unfold elems Tbl.abandon abandoned
    simp only
    rw [zipWith_congr_lt hct, zipWith_congr_lt hct]
    exact zipWith_split c t.slots (by rw [h.slen, h.raw.len])
  have hget : ∀ j : Nat, t.abandon.slots[j]? = if c[j]? = some kDeleted then (t.slots[j]?).map (fun _ => none) else t.slots[j]? := by
    intro j
    unfold Tbl.abandon
    simp only
    rw [zipWith_congr_lt hct, List.getElem?_zipWith]
    by_cases hj : j < t.slots.length
    · have hjc : j < c.length := by rw [h.raw.len, ← h.slen]; exact hj
      rw [List.getElem?_eq_getElem hj, List.getElem?_eq_getElem hjc]
      simp only [Option.some.injEq, Option.map_some]
      by_cases hx : c[j] = kDeleted
      · rw [if_pos hx, hx]
        rfl
      · have hx' : isDeleted c[j] = false := by unfold isDeleted; simpa using hx
        rw [if_neg hx, hx']
        rfl
    · rw [List.getElem?_eq_none (l := t.slots) (by omega)]
      cases c[j]? <;> simp
  have hsome : ∀ (j : Nat) (a : α), t.abandon.slots[j]? = some (some a) →
      c[j]? = some (H2 (C.hash (C.key a))) ∧ SReach C.G.W c t.capacity (C.hash (C.key a)) j := by
    intro j a ha
    rw [hget j] at ha
    by_cases hx : c[j]? = some kDeleted
    · rw [if_pos hx] at ha
      cases hsl : t.slots[j]? <;> rw [hsl] at ha <;> cases ha
    · rw [if_neg hx] at ha
      rcases h.some_ j a ha with h1 | h1
      · exact absurd h1 hx
      · exact h1
  refine ⟨⟨h.raw.congr rfl rfl, ⟨?_, ?_, ?_⟩, fun j a ha => (hsome j a ha).1, ?_, ?_⟩, hperm, ?_⟩
  · unfold Tbl.abandon
    simp only
    rw [zipWith_congr_lt hct, List.length_zipWith, h.slen, h.raw.len]
    omega
  · intro j a ha
    exact ⟨_, (hsome j a ha).1, isFull_H2 _⟩
  · intro j hj
    rw [hget j] at hj
    by_cases hx : c[j]? = some kDeleted
    · exact ⟨_, hx, .inr rfl⟩
    · rw [if_neg hx] at hj
      exact ⟨_, h.none_ j hj, .inl rfl⟩
  · intro j a ha
    obtain ⟨n, h1, h2⟩ := (hsome j a ha).2
    exact ⟨n, h1, fun q hq hw => h2 q hq (winHas_imp (fun x hx => Or.inl hx) hw)⟩
  · have := Distinct.perm hC hperm.symm hd
    unfold Distinct at this ⊢
    exact (List.pairwise_append.1 this).1
  · unfold abandoned
    rw [zipWith_congr_lt hct]
    exact zipWith_count c t.slots (by rw [h.slen, h.raw.len]) (fun j hj => h.deleted_slot hj)

/-- What an exception in `drop_deletes_without_resize` leaves: the elements that were placed so far, and marks for the others. -/
structure Dropped (C : Cfg α κ) (t : Tbl α) (k : Nat) (t1 : Tbl α) (lost : List α) : Prop where
  core : ∃ c1, Core C t1 c1 ∧ c1.count kDeleted = lost.length
  perm : List.Perm (elems t1 ++ lost) (elems t)
  cap : t1.capacity = t.capacity
  size : t1.size = t.size
  growth : t1.growthLeft = t.growthLeft
  moved : (elems t1).length = k

theorem dropDeletesH_exact {C : Cfg α κ} (hC : CfgOk C) {t : Tbl α} {c : List Ctrl} (h : Core C t c)
    (hbig : C.G.W ≤ t.capacity + 1) :
    Exact (t.dropDeletesH C) (t.dropDeletes C) (elems t).length (Dropped C t) := by
  obtain ⟨ctrl1, e1, e2⟩ := convertCtrl_spec hC.group h.raw h.valid hbig
  have hget : ∀ j : Nat, (c.map conv)[j]? = (c[j]?).map conv := fun j => List.getElem?_map ..
  have hD : DInv C { t with ctrl := ctrl1 } (c.map conv) 0 := by
    refine ⟨e2, h.sync.slen, ?_, ?_, fun j hj => absurd hj (by omega)⟩
    · intro j a ha
      left
      rw [hget, h.h2 j a ha]
      simp [conv_full (isFull_H2 _)]
    · intro j hj
      obtain ⟨x, h1, h2⟩ := h.sync.none_eod j hj
      rw [hget, h1]
      simp [conv_eod h2]
  have hcount : (c.map conv).count kDeleted ≤ t.capacity := by
    have := List.count_le_length (a := kDeleted) (l := c.map conv)
    rw [List.length_map, h.raw.len] at this
    exact this
  have hlen : (c.map conv).count kDeleted = (elems t).length := by
    obtain ⟨_, g2, g3⟩ := hD.abandon hC h.distinct
    have hnil : elems (Tbl.abandon { t with ctrl := ctrl1 }) = [] := by
      apply elems_nil_of_all_none
      intro j a hja
      obtain ⟨g1, _, _⟩ := hD.abandon hC h.distinct
      have h1 := g1.h2 j a hja
      have h2 : j < c.length := by
        have h3 := h1
        rw [List.getElem?_eq_some_iff] at h3
        simpa using h3.1
      rw [hget, getElem?_getD h2] at h1
      simp only [Option.map_some, Option.some.injEq] at h1
      have h4 := isFull_H2 (C.hash (C.key a))
      rw [← h1] at h4
      revert h4
      unfold conv
      split <;> decide
    have g2 := g2.length_eq
    rw [hnil, List.nil_append] at g2
    rw [← g3, g2]
    rfl
  obtain ⟨t', r1, r2⟩ := dropLoopH_spec hC.group (2 * t.capacity + 1) 0 { t with ctrl := ctrl1 } _ hbig hD
    (by simp) (by simp only; omega)
  simp only at r1 r2
  refine ⟨{ t' with growthLeft := usub (capacityToGrowth C.G.W t'.capacity) t'.size }, ?_, fun k => ?_⟩
  · unfold dropDeletes
    rw [e1]
    simp only [Res.ok_bind]
    rw [r1]
    simp only [Res.ok_bind]
  · unfold dropDeletesH
    rw [Hashing.bind_lift e1]
    obtain ⟨q1, q2⟩ := r2 k
    rw [hlen] at q1 q2
    refine ⟨fun hk => ?_, fun hk => ?_⟩
    · rw [Hashing.bind_done (q1 hk)]
      rfl
    · obtain ⟨t1, c1, j, g1, g2, g3, g4, g5, g6, g7⟩ := q2 hk
      obtain ⟨f1, f2, f3⟩ := g2.abandon hC (Distinct.perm hC g3.symm h.distinct)
      have hp2 : List.Perm (elems t1.abandon ++ t1.abandoned) (elems t) := f2.trans g3
      refine ⟨_, _, Hashing.bind_threw g1, ⟨c1, f1, f3.symm⟩, hp2, g4, g5, g6, ?_⟩
      have := hp2.length_eq
      rw [List.length_append] at this
      omega

/-! ### The counters after an exception -/

theorem Halfway.psim {C : Cfg α κ} {t t1 : Tbl α} {c : List Ctrl} {p q newCap k : Nat} {lost : List α} (h : InvP C t c p q)
    (H : Halfway C t newCap k t1 lost) (hfit : t.size ≤ capacityToGrowth C.G.W newCap) :
    PSim C False t1 (elems t1) (p + lost.length) 0 := by
  obtain ⟨⟨c1, h1, h2⟩, h3, h4, h5, h6, _⟩ := H
  have h3 := h3.length_eq
  rw [List.length_append] at h3
  rw [usub_of_le hfit] at h6
  have hse := h.size_eq
  refine ⟨c1, p + lost.length, ⟨h1, by omega, ?_, fun _ => h2, id, fun h => absurd rfl h⟩, by omega, fun h => h.elim,
    List.Perm.refl _⟩
  rw [List.count_eq_zero.2 h2, h4, h6]
  omega

theorem Dropped.psim {C : Cfg α κ} {t t1 : Tbl α} {c : List Ctrl} {p q k : Nat} {lost : List α} (h : InvP C t c p q)
    (H : Dropped C t k t1 lost) (hk : k < (elems t).length) (hbig : C.G.W ≤ t.capacity + 1) (h0 : t.growthLeft = 0)
    (hs : t.size ≤ capacityToGrowth C.G.W t.capacity / 2) : PSim C False t1 (elems t1) (p + lost.length) 0 := by
  obtain ⟨⟨c1, h1, h2⟩, h3, h4, h5, h6, h7⟩ := H
  have h3 := h3.length_eq
  rw [List.length_append] at h3
  have hse := h.size_eq
  refine ⟨c1, capacityToGrowth C.G.W t.capacity - (elems t).length, ⟨h1, by omega, ?_, fun hsm => by omega, fun hz => by omega,
    fun _ => by omega⟩, by omega, fun h => h.elim, List.Perm.refl _⟩
  rw [h4, h6]
  omega

/-- What an exception leaves of the contents `l`: some are kept, some lost, and `size()` counts the lost ones. -/
def Lost (C : Cfg α κ) (l : List α) (p : Nat) (t1 : Tbl α) (lost : List α) : Prop :=
  ∃ kept, PSim C False t1 kept (p + lost.length) 0 ∧ List.Perm (kept ++ lost) l

theorem Lost.nothing {C : Cfg α κ} {t : Tbl α} {l : List α} {p : Nat} (h : PSim C False t l p 0) : Lost C l p t [] :=
  ⟨l, h, by simp⟩

theorem rehashAndGrowH_exact {C : Cfg α κ} (hC : CfgOk C) {t : Tbl α} {c : List Ctrl} {p q : Nat} (h : InvP C t c p q)
    (hs : p ≤ q) (h0 : t.growthLeft = 0) :
    Exact (t.rehashAndGrowH C) (t.rehashAndGrow C) (elems t).length (fun k t1 lost =>
      PSim C False t1 (elems t1) (p + lost.length) 0 ∧ List.Perm (elems t1 ++ lost) (elems t) ∧ (elems t1).length = k ∧
      t1.size = t.size) := by
  have hgr := h.growth
  have hse := h.size_eq
  have weaken : ∀ {x : Hashing α (Tbl α)} {r : Res (Tbl α)} {T T' : Nat → Tbl α → List α → Prop},
      Exact x r (elems t).length T → (∀ k t1 lost, k < (elems t).length → T k t1 lost → T' k t1 lost) →
      Exact x r (elems t).length T' := by
    rintro x r T T' ⟨b, h1, h2⟩ h3
    refine ⟨b, h1, fun k => ⟨(h2 k).1, fun hk => ?_⟩⟩
    obtain ⟨t1, l, h4, h5⟩ := (h2 k).2 hk
    exact ⟨t1, l, h4, h3 _ _ _ hk h5⟩
  unfold rehashAndGrow rehashAndGrowH
  by_cases hc0 : t.capacity = 0
  · rw [if_pos hc0, if_pos hc0]
    have hsz := h.cap_zero hC hc0
    refine weaken (resizeH_exact hC h.core (newCap := 1) ⟨1, by norm_num⟩ (by omega)) ?_
    intro k t1 lost hk
    omega
  · rw [if_neg hc0, if_neg hc0]
    have hpos := capacityToGrowth_pos (W := C.G.W) (cap := t.capacity) (by omega)
    by_cases hs' : t.size ≤ capacityToGrowth C.G.W t.capacity / 2
    · rw [if_pos hs', if_pos hs']
      have hbig : C.G.W ≤ t.capacity + 1 := by
        by_cases hqp : q = p
        · have hd : kDeleted ∈ c := List.count_pos_iff.1 (by omega)
          by_contra hcon
          exact h.small (by omega) hd
        · exact h.big hqp
      refine weaken (dropDeletesH_exact hC h.core hbig) ?_
      intro k t1 lost hk H
      exact ⟨H.psim h hk hbig h0 hs', H.perm, H.moved, H.size⟩
    · rw [if_neg hs', if_neg hs']
      obtain ⟨k, hk⟩ := h.core.raw.pow
      have hfit := h.fits hC (by omega) hc0 (m := t.capacity * 2 + 1) (Nat.le_refl _)
      have hcl := capacityToGrowth_le C.G.W (t.capacity * 2 + 1)
      refine weaken (resizeH_exact hC h.core (newCap := t.capacity * 2 + 1) ⟨k + 1, by rw [pow_succ]; omega⟩ (by omega)) ?_
      intro k t1 lost hk H
      exact ⟨H.psim h (by omega), H.perm, H.moved, H.size⟩

theorem prepareInsertH_tri {C : Cfg α κ} (hC : CfgOk C) {t : Tbl α} {l : List α} {p : Nat} (h : PSim C False t l p 0)
    (hash : Nat) : Tri (t.prepareInsertH C hash) (t.prepareInsert C hash) (Lost C l p) := by
  obtain ⟨c, q, hi, hq, _, hp⟩ := id h
  unfold prepareInsertH prepareInsert
  refine Tri.bind_lift fun target _ => Tri.bind_lift fun x _ => ?_
  by_cases hg : t.growthLeft = 0 ∧ ¬ isDeleted x
  · rw [if_pos hg]
    simp only [if_pos hg, Hashing.bind_assoc, Hashing.pure_bind, Res.ok_bind]
    refine Tri.bind ?_ fun t1 _ => Tri.bind_lift fun target _ => Tri.bind_lift fun x _ => Tri.pure _ _
    refine (rehashAndGrowH_exact hC hi (by omega) hg.1).tri.mono ?_
    rintro t1 lost ⟨k, _, h1, h2, _⟩
    exact ⟨elems t1, h1, h2.trans hp⟩
  · rw [if_neg hg]
    simp only [if_neg hg, Hashing.pure_bind, Res.ok_bind]
    exact Tri.bind_lift fun x _ => Tri.pure _ _

theorem emplaceH_tri {C : Cfg α κ} (hC : CfgOk C) {t : Tbl α} {l : List α} {p : Nat} (h : PSim C False t l p 0) (a : α) :
    Tri (t.emplaceH C a) (t.emplace C a) (Lost C l p) := by
  unfold emplaceH emplace emplaceHash
  refine Tri.hash (Lost.nothing h) (Tri.bind_lift fun o _ => ?_)
  cases o with
  | some off => exact Tri.pure _ _
  | none =>
    exact Tri.bind (prepareInsertH_tri hC h _) fun s _ => Tri.bind_lift fun t1 _ => Tri.bind_lift fun t2 _ => Tri.pure _ _

theorem insertOrAssignH_tri {C : Cfg α κ} (hC : CfgOk C) {t : Tbl α} {l : List α} {p : Nat} (h : PSim C False t l p 0) (a : α)
    (f : α → α) : Tri (t.insertOrAssignH C a f) (t.insertOrAssign C a f) (Lost C l p) := by
  unfold insertOrAssignH insertOrAssign
  refine Tri.hash (Lost.nothing h) (Tri.bind_lift fun o _ => ?_)
  cases o with
  | some off => exact Tri.bind_lift fun t1 _ => Tri.pure _ _
  | none =>
    exact Tri.bind (prepareInsertH_tri hC h _) fun s _ => Tri.bind_lift fun t1 _ => Tri.bind_lift fun t2 _ => Tri.pure _ _

theorem emplaceSingleH_tri {C : Cfg α κ} (hC : CfgOk C) {t : Tbl α} {l : List α} {p : Nat} (h : PSim C False t l p 0) (a : α) :
    Tri (t.emplaceSingleH C a) (t.emplaceSingle C (C.key a) (C.hash (C.key a)) (fun _ => a)) (Lost C l p) := by
  unfold emplaceSingleH emplaceSingle
  refine Tri.hash (Lost.nothing h) (Tri.bind_lift fun o _ => ?_)
  cases o with
  | some off => exact Tri.lift _ _
  | none =>
    exact Tri.bind (prepareInsertH_tri hC h _) fun s _ => Tri.bind_lift fun t1 _ => Tri.lift _ _

/-- A call of `rehash` that moves the elements to arrays of another size. -/
theorem rehashH_grow {C : Cfg α κ} (hC : CfgOk C) {t : Tbl α} {c : List Ctrl} {p q : Nat} (hi : InvP C t c p q) (hq : p ≤ q)
    {n : Nat} (hn : n ≠ 0) (hgt : t.capacity < normalizeCapacity (max n t.size)) :
    Exact (t.rehashH C n) (t.rehash C n) (elems t).length (fun k t1 lost =>
      PSim C False t1 (elems t1) (p + lost.length) 0 ∧ List.Perm (elems t1 ++ lost) (elems t) ∧ (elems t1).length = k ∧
      t1.size = t.size) := by
  have hse := hi.size_eq
  unfold rehash rehashH
  have a1 : ¬ (n = 0 ∧ t.capacity = 0) := fun h => hn h.1
  have a2 : ¬ (n = 0 ∧ t.size = 0) := fun h => hn h.1
  have a3 : n = 0 ∨ normalizeCapacity (max n t.size) > t.capacity := .inr hgt
  simp only [if_neg a1, if_neg a2, if_pos a3]
  obtain ⟨k, hk1, hk2⟩ := normalizeCapacity_pow (max n t.size)
  have hfit : t.size ≤ capacityToGrowth C.G.W (normalizeCapacity (max n t.size)) := by
    by_cases hc0 : t.capacity = 0
    · have := hi.cap_zero hC hc0; omega
    · obtain ⟨m, hm⟩ := hi.core.raw.pow
      have hdbl : t.capacity * 2 + 1 ≤ normalizeCapacity (max n t.size) := by
        have hlt : 2 ^ m < 2 ^ k := by omega
        have hmk : m < k := (Nat.pow_lt_pow_iff_right (by omega)).1 hlt
        have : 2 ^ (m + 1) ≤ 2 ^ k := Nat.pow_le_pow_right (by omega) hmk
        rw [pow_succ] at this
        omega
      have := hi.fits hC (by omega) hc0 hdbl
      omega
  have hcl := capacityToGrowth_le C.G.W (normalizeCapacity (max n t.size))
  obtain ⟨b, h1, h2⟩ := resizeH_exact hC hi.core ⟨k, hk2⟩ (by omega)
  refine ⟨b, h1, fun k => ⟨(h2 k).1, fun hk => ?_⟩⟩
  obtain ⟨t1, lost, h3, h4⟩ := (h2 k).2 hk
  exact ⟨t1, lost, h3, h4.psim hi hfit, h4.perm, h4.moved, h4.size⟩

theorem rehashH_tri {C : Cfg α κ} (hC : CfgOk C) {t : Tbl α} {l : List α} {p : Nat} (h : PSim C False t l p 0) {n : Nat}
    (hn : n ≠ 0 ∨ t.size = 0) : Tri (t.rehashH C n) (t.rehash C n) (Lost C l p) := by
  obtain ⟨c, q, hi, hq, _, hp⟩ := id h
  by_cases h3 : n ≠ 0 ∧ t.capacity < normalizeCapacity (max n t.size)
  · refine (rehashH_grow hC hi (by omega) h3.1 h3.2).tri.mono ?_
    rintro t1 lost ⟨k, _, h1, h2, _⟩
    exact ⟨elems t1, h1, h2.trans hp⟩
  · unfold rehash rehashH
    by_cases h1 : n = 0 ∧ t.capacity = 0
    · rw [if_pos h1, if_pos h1]; exact Tri.pure _ _
    rw [if_neg h1, if_neg h1]
    by_cases h2 : n = 0 ∧ t.size = 0
    · rw [if_pos h2, if_pos h2]; exact Tri.lift _ _
    rw [if_neg h2, if_neg h2]
    simp only
    have h4 : ¬ (n = 0 ∨ normalizeCapacity (max n t.size) > t.capacity) := by
      rintro (h4 | h4)
      · rcases hn with hn | hn
        · exact hn h4
        · exact h2 ⟨h4, hn⟩
      · by_cases hn0 : n = 0
        · rcases hn with hn | hn
          · exact hn hn0
          · exact h2 ⟨hn0, hn⟩
        · exact h3 ⟨hn0, h4⟩
    rw [if_neg h4, if_neg h4]
    exact Tri.pure _ _

theorem reserveH_tri {C : Cfg α κ} (hC : CfgOk C) {t : Tbl α} {l : List α} {p : Nat} (h : PSim C False t l p 0) {n : Nat}
    (hn : n ≠ 0 ∨ t.size = 0) : Tri (t.reserveH C n) (t.reserve C n) (Lost C l p) := by
  unfold reserve reserveH
  refine rehashH_tri hC h ?_
  rcases hn with hn | hn
  · left; unfold growthToLowerboundCapacity; split <;> omega
  · exact .inr hn

/-- What an exception leaves of an insertion of a range: some of the contents after some of the insertions. -/
def LostRange (C : Cfg α κ) (l : List α) (vs : List α) (p : Nat) (t1 : Tbl α) (lost : List α) : Prop :=
  ∃ i, Lost C ((vs.take i).foldl (Spec.insert C.key C.eqv) l) p t1 lost

theorem insertAllH_tri {C : Cfg α κ} (hC : CfgOk C) {p : Nat} : ∀ (vs : List α) (t : Tbl α) (l : List α), PSim C False t l p 0 →
    Tri (insertAllH C vs t) (vs.foldlM (fun t v => do
      let (t, _, _) ← t.emplace C v
      Res.ok t) t) (LostRange C l vs p)
  | [], t, l, h => Tri.pure _ _
  | v :: vs, t, l, h => by
    have key : Tri (insertAllH C (v :: vs) t) (t.emplace C v >>= fun s => vs.foldlM (fun t v => do
        let (t, _, _) ← t.emplace C v
        Res.ok t) s.1) (LostRange C l (v :: vs) p) := by
      refine Tri.bind ((emplaceH_tri hC h v).mono fun t1 lost h1 => ⟨0, h1⟩) fun s hs => ?_
      have h2 : PSim C False s.1 (Spec.insert C.key C.eqv l v) p 0 := by
        rcases emplace_psim hC h (by omega) v with ⟨i, b, h1, _, _, _, h5⟩ | ⟨t', i, h1, _, h3, h4⟩
        · rw [hs] at h1
          cases h1
          have : Spec.insert C.key C.eqv l v = l := by unfold Spec.insert; rw [h5]
          rw [this]
          exact h
        · rw [hs] at h1
          cases h1
          have : Spec.insert C.key C.eqv l v = v :: l := by unfold Spec.insert; rw [h4]
          rw [this]
          exact h3
      refine (insertAllH_tri hC vs s.1 _ h2).mono ?_
      rintro t1 lost ⟨i, hi⟩
      exact ⟨i + 1, hi⟩
    rw [List.foldlM_cons]
    have e : ((do
        let (t, _, _) ← t.emplace C v
        Res.ok t) >>= fun t => vs.foldlM (fun t v => do
        let (t, _, _) ← t.emplace C v
        Res.ok t) t) = (t.emplace C v >>= fun s => vs.foldlM (fun t v => do
        let (t, _, _) ← t.emplace C v
        Res.ok t) s.1) := by
      rw [bind_assoc]
      rfl
    rw [e]
    exact key

theorem insertRangeH_tri {C : Cfg α κ} (hC : CfgOk C) {t : Tbl α} {l : List α} {p : Nat} (h : PSim C False t l p 0)
    (vs : List α) : Tri (t.insertRangeH C vs) (t.insertRange C vs) (LostRange C l vs p) := by
  unfold insertRangeH insertRange
  have hn : t.size + vs.length ≠ 0 ∨ t.size = 0 := by omega
  refine Tri.bind ((reserveH_tri hC h hn).mono fun t1 lost h1 => ⟨0, h1⟩) fun t1 ht1 => ?_
  obtain ⟨t', h1, h2⟩ := reserve_psim hC h (by omega) hn
  rw [ht1] at h1
  cases h1
  exact insertAllH_tri hC vs t1 l h2

/-! ### Calls and histories -/

/-- What an exception in a call leaves. -/
def LostIn (C : Cfg α κ) (l : List α) (p : Nat) (op : Op α κ) (t : Tbl α) (t1 : Tbl α) (lost : List α) : Prop :=
  op.Hashes ∧ (∃ i, Lost C (Spec.partway C.key C.eqv l op i) p t1 lost) ∧ (¬ op.Rearranges → t1 = t ∧ lost = [])

theorem stepH_tri {C : Cfg α κ} (hC : CfgOk C) {t : Tbl α} {l : List α} {p : Nat} (h : PSim C False t l p 0) (op : Op α κ)
    (hv : op.Valid C.key) : Tri (t.stepH C op) (t.step C op) (LostIn C l p op t) := by
  have look : op.Hashes → Spec.partway C.key C.eqv l op 0 = l → LostIn C l p op t t [] := by
    intro h1 h2
    exact ⟨h1, ⟨0, by rw [h2]; exact Lost.nothing h⟩, fun _ => ⟨rfl, rfl⟩⟩
  have grow : ∀ {β : Type} {x : Hashing α β} {r : Res β}, op.Hashes → op.Rearranges →
      (∀ i, Spec.partway C.key C.eqv l op i = l) → Tri x r (Lost C l p) → Tri x r (LostIn C l p op t) := by
    intro β x r h1 h2 h3 h4
    exact h4.mono fun t1 lost h5 => ⟨h1, ⟨0, by rw [h3]; exact h5⟩, fun h6 => absurd h2 h6⟩
  cases op with
  | insert a =>
    exact Tri.bind (grow trivial trivial (fun _ => rfl) (emplaceH_tri hC h a)) fun s _ => Tri.bind_lift fun b _ => Tri.pure _ _
  | insertOrAssign a f =>
    exact Tri.bind (grow trivial trivial (fun _ => rfl) (insertOrAssignH_tri hC h a f)) fun s _ =>
      Tri.bind_lift fun b _ => Tri.pure _ _
  | subscript a f =>
    have e : t.step C (.subscript a f) = (t.emplace C a >>= fun s => s.1.readSlot s.2.1 >>= fun b =>
        s.1.assignAt s.2.1 f >>= fun t => Res.ok (t, Resp.elem (some b))) := by
      simp only [Tbl.step, Tbl.subscript, bind_assoc, Res.ok_bind]
    rw [e]
    exact Tri.bind (grow trivial trivial (fun _ => rfl) (emplaceH_tri hC h a)) fun s _ =>
      Tri.bind_lift fun b _ => Tri.bind_lift fun t1 _ => Tri.pure _ _
  | «at» k => exact Tri.hash (look trivial rfl) (Tri.lift _ _)
  | find k => exact Tri.hash (look trivial rfl) (Tri.lift _ _)
  | contains k => exact Tri.hash (look trivial rfl) (Tri.lift _ _)
  | count k => exact Tri.hash (look trivial rfl) (Tri.lift _ _)
  | erase k => exact Tri.hash (look trivial rfl) (Tri.lift _ _)
  | extract k => exact Tri.hash (look trivial rfl) (Tri.lift _ _)
  | eraseIf pr => exact Tri.lift _ _
  | size => exact Tri.lift _ _
  | clear => exact Tri.lift _ _
  | insertNode n =>
    cases n with
    | none => exact Tri.lift _ _
    | some a =>
      have e : t.step C (.insertNode (some a)) = (t.emplace C a >>= fun s => s.1.readSlot s.2.1 >>= fun b =>
          Res.ok (s.1, Resp.node (some b) s.2.2 (if s.2.2 then none else some a))) := by
        simp only [Tbl.step, Tbl.insertNode, Tbl.emplace, bind_assoc, Res.ok_bind]
      rw [e]
      exact Tri.bind (grow trivial trivial (fun _ => rfl) (emplaceH_tri hC h a)) fun s _ =>
        Tri.bind_lift fun b _ => Tri.pure _ _
  | toggle a =>
    exact Tri.bind (grow trivial trivial (fun _ => rfl) (emplaceSingleH_tri hC h a)) fun s _ => Tri.pure _ _
  | insertRange vs =>
    refine Tri.bind ((insertRangeH_tri hC h vs).mono ?_) fun s _ => Tri.pure _ _
    rintro t1 lost ⟨i, hi⟩
    exact ⟨trivial, ⟨i, hi⟩, fun h6 => absurd trivial h6⟩
  | reserve n =>
    exact Tri.bind (grow trivial trivial (fun _ => rfl) (reserveH_tri hC h (.inl hv))) fun s _ => Tri.pure _ _
  | rehash n =>
    exact Tri.bind (grow trivial trivial (fun _ => rfl) (rehashH_tri hC h (.inl hv))) fun s _ => Tri.pure _ _

/-- The first hash call of a call with a key comes before anything else. -/
theorem stepH_first {C : Cfg α κ} {t : Tbl α} {op : Op α κ} (h : op.OneKey) : t.stepH C op 0 = .ok (.threw t []) := by
  cases op with
  | insertNode n =>
    cases n with
    | none => exact h.elim
    | some a => rfl
  | insertRange vs => exact h.elim
  | reserve n => exact h.elim
  | rehash n => exact h.elim
  | eraseIf p => exact h.elim
  | size => exact h.elim
  | clear => exact h.elim
  | _ => rfl

/-- One call: it returns as without exceptions, or throws; the table is sound either way. -/
theorem stepH_psim {C : Cfg α κ} (hC : CfgOk C) {t : Tbl α} {l : List α} {p : Nat} (h : PSim C False t l p 0) (op : Op α κ)
    (hv : op.Valid C.key) (k : Nat) :
    (∃ t' r k', t.stepH C op k = .ok (.done (t', r) k') ∧ t.step C op = .ok (t', r) ∧
      ∃ l' p', Spec.HStep C.key C.eqv op k l p (.got r) l' p' ∧ PSim C False t' l' p' 0) ∨
    (∃ t' lost, t.stepH C op k = .ok (.threw t' lost) ∧
      ∃ l' p', Spec.HStep C.key C.eqv op k l p .threw l' p' ∧ PSim C False t' l' p' 0) := by
  obtain ⟨t', r, s1, s2, s3, s4⟩ := step_psim hC h (by omega) op hv (fun h => h.elim)
  rcases stepH_tri hC h op hv _ s1 k with ⟨k', g1⟩ | ⟨t1, lost, g1, g2, ⟨i, kept, g3, g4⟩, g5⟩
  · left
    refine ⟨t', r, k', g1, s1, _, _, by rw [← s2]; exact .returned, ?_⟩
    by_cases hcl : op = .clear
    · subst hcl
      exact s3 rfl
    · have he : Spec.excessAfter C.key C.eqv l p (.call op) = p := by
        cases op <;> first | rfl | exact absurd rfl hcl
      rw [he]
      exact s4 hcl
  · right
    refine ⟨t1, lost, g1, kept, _, .threw i kept lost g2 g4 (fun h => (g5 h).2) ?_, g3⟩
    rintro h1 rfl
    rw [stepH_first h1] at g1
    cases g1
    rfl

theorem runH_psim {C : Cfg α κ} (hC : CfgOk C) : ∀ (ops : List (Op α κ × Nat)) (t : Tbl α) (l : List α) (p : Nat),
    PSim C False t l p 0 → (∀ o ∈ ops, o.1.Valid C.key) →
    ∃ t' rs l' p', t.runH C ops = .ok (t', rs) ∧ Spec.HRun C.key C.eqv l p ops rs l' p' ∧ PSim C False t' l' p' 0
  | [], t, l, p, h, _ => ⟨t, [], l, p, rfl, .nil l p, h⟩
  | (op, k) :: ops, t, l, p, h, hv => by
    have hv1 := hv (op, k) List.mem_cons_self
    have hv2 : ∀ o ∈ ops, o.1.Valid C.key := fun o ho => hv o (List.mem_cons_of_mem _ ho)
    rcases stepH_psim hC h op hv1 k with ⟨t1, r, k', g1, _, l1, p1, g2, g3⟩ | ⟨t1, lost, g1, l1, p1, g2, g3⟩
    · obtain ⟨t', rs, l', p', q1, q2, q3⟩ := runH_psim hC ops t1 l1 p1 g3 hv2
      refine ⟨t', .got r :: rs, l', p', ?_, .cons g2 q2, q3⟩
      simp only [runH, g1, q1, Res.ok_bind]
    · obtain ⟨t', rs, l', p', q1, q2, q3⟩ := runH_psim hC ops t1 l1 p1 g3 hv2
      refine ⟨t', .threw :: rs, l', p', ?_, .cons g2 q2, q3⟩
      simp only [runH, g1, q1, Res.ok_bind]

/-! ### An insertion for which there is room -/

theorem emplaceH_room {C : Cfg α κ} {t : Tbl α} (a : α) (hg : t.growthLeft ≠ 0) {s : Tbl α × Nat × Bool}
    (h : t.emplace C a = .ok s) (k : Nat) : t.emplaceH C a (k + 1) = .ok (.done s k) := by
  show (Hashing.lift (t.findHash C (C.key a) (C.hash (C.key a))) >>= _) k = _
  unfold emplace emplaceHash at h
  obtain ⟨o, h1, h2⟩ := Res.bind_eq_ok.1 h
  rw [show ∀ (f : Option Nat → Hashing α (Tbl α × Nat × Bool)),
    (Hashing.lift (t.findHash C (C.key a) (C.hash (C.key a))) >>= f) k = f o k from fun f => Hashing.bind_lift h1 k]
  cases o with
  | some off =>
    simp only at h2 ⊢
    cases h2
    rfl
  | none =>
    simp only at h2 ⊢
    obtain ⟨s1, h3, h4⟩ := Res.bind_eq_ok.1 h2
    obtain ⟨t2, h5, h6⟩ := Res.bind_eq_ok.1 h4
    obtain ⟨t3, h7, h8⟩ := Res.bind_eq_ok.1 h6
    have hp : t.prepareInsertH C (C.hash (C.key a)) k = .ok (.done s1 k) := by
      unfold prepareInsert at h3
      unfold prepareInsertH
      obtain ⟨tg, e1, e2⟩ := Res.bind_eq_ok.1 h3
      obtain ⟨x, e3, e4⟩ := Res.bind_eq_ok.1 e2
      rw [Hashing.bind_lift e1, Hashing.bind_lift e3]
      have hno : ¬ (t.growthLeft = 0 ∧ ¬ isDeleted x = true) := fun h => hg h.1
      simp only [if_neg hno, Res.ok_bind] at e4
      obtain ⟨x', e5, e6⟩ := Res.bind_eq_ok.1 e4
      rw [if_neg hno, Hashing.pure_bind, Hashing.bind_lift e5]
      cases e6
      rfl
    rw [Hashing.bind_done hp, Hashing.bind_lift h5, Hashing.bind_lift h7]
    cases h8
    rfl

/-! ### Copying -/

theorem copyHashThrow_spec {C : Cfg α κ} (hC : CfgOk C) {t : Tbl α} {c : List Ctrl} (h : Inv C t c) (n : Nat) :
    ∃ u, t.copyHashThrow C n = .ok u := by
  obtain ⟨t0, c0, z1, z2, z3, z4, z5, z6⟩ := copy_start hC h
  have hrun : ∀ (vs ws : List α) (s : Tbl α), CopyP C t (vs ++ ws) s → ∃ s', vs.foldlM (fun t v => do
      let hashval := C.hash (C.key v)
      let target ← t.findFirstNonFull C hashval
      let t ← t.setCtrl C.G.W target (H2 hashval)
      t.constructSlot target v) s = .ok s' ∧ CopyP C t ws s' := by
    intro vs
    induction vs with
    | nil => intro ws s hs; exact ⟨s, rfl, hs⟩
    | cons v vs ih =>
      intro ws s hs
      obtain ⟨s1, h1, h2⟩ := copy_step hC h v (vs ++ ws) s hs
      obtain ⟨s2, h3, h4⟩ := ih ws s1 h2
      refine ⟨s2, ?_, h4⟩
      rw [List.foldlM_cons]
      simp only at h1 ⊢
      rw [h1]
      exact h3
  obtain ⟨s, f1, cs, p1, _⟩ := hrun ((elems t).take n) ((elems t).drop n) t0
    ⟨c0, z2, z4, z5, z6, by rw [List.take_append_drop]; simp [z3]⟩
  obtain ⟨u, hu, _⟩ := destroySlots_spec hC p1
  refine ⟨u, ?_⟩
  unfold copyHashThrow
  rw [z1]
  simp only [Res.ok_bind]
  rw [iterate_spec hC.group h.core]
  simp only [Res.ok_bind]
  rw [f1]
  exact hu

end Gtl.Swiss
