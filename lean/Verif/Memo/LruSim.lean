import Verif.Memo.LruModel
import Verif.Lru.Sim
import Verif.Lru.Ref
/-!
# A memoized function with a size limit behaves like its reference
-/

namespace Gtl.Memo

open Gtl.Swiss Gtl.Parallel Gtl.Lru
open Gtl.Spec.MemoLru (Op Resp recent)
open Gtl.Spec (lookup put)

variable {κ ν : Type} {L : LCfg κ}

/-- All entries have the value of the function. -/
def Vals (f : κ → ν) (l : List (κ × ν)) : Prop := ∀ e ∈ l, e.2 = f e.1

theorem subCall_sim (hC : CfgOk L.C) {f : κ → ν} (hf : ∀ k l, L.eqv k l = true → f k = f l) {s : Sub κ ν} {next : Nat}
    (h : SubSim L s next) (hv : Vals f s.abs) (max : Nat) (k : κ) :
    ∃ s', subCall L s max next k (f k) = .ok (s', f k, (lookup Prod.fst L.eqv s.abs k).isNone) ∧ SubSim L s' (next + 1) ∧
      s'.abs = Spec.Lru.insert L.eqv (max - 1) s.abs k (f k) := by
  unfold subCall Spec.Lru.insert
  rcases find_sub hC h k with ⟨i, n, h1, h2, h3, h4, h5⟩ | ⟨h1, h5⟩
  · rw [h5]
    obtain ⟨l', b1, b2, b3⟩ := splice_sim hC h h3 h4
    have hval : n.2.2 = f k := by rw [hv n.2 (List.mem_map.2 ⟨n, h3, rfl⟩), hf _ _ h4]
    refine ⟨{ s with lst := l' }, ?_, b2.mono (Nat.le_succ _), ?_⟩
    · rw [show s.tbl.findHash L.C k (L.hash k) = .ok (some i) from h1]
      simp only [Res.ok_bind]
      rw [h2]
      have hd : deref s.lst n.1 = .ok n.2 := by unfold deref; rw [find_id h.nodup h3]
      simp only [Res.ok_bind]
      rw [hd]
      simp only [Res.ok_bind]
      rw [b1, hval]
      rfl
    · show l'.map Prod.snd = _
      rw [b3, ← hval]
  · rw [h5]
    obtain ⟨s', r1, r2, r3⟩ := emplace_new hC h (fun n => n >= max) k (f k) (fun l _ => .ok l) h5
    refine ⟨s', ?_, r2, ?_⟩
    · rw [show s.tbl.findHash L.C k (L.hash k) = .ok none from h1]
      simp only [Res.ok_bind]
      rw [r1]; rfl
    · rw [r3]
      simp only [decide_eq_true_eq]
      by_cases hm : max ≤ s.abs.length + 1
      · rw [if_pos hm, if_pos (by omega)]
      · rw [if_neg hm, if_neg (by omega)]

theorem vals_insert {f : κ → ν} (hf : ∀ k l, L.eqv k l = true → f k = f l) {l : List (κ × ν)} (h : Vals f l) (cap : Nat) (k : κ) :
    Vals f (Spec.Lru.insert L.eqv cap l k (f k)) := by
  unfold Spec.Lru.insert
  cases hl : lookup Prod.fst L.eqv l k with
  | some e =>
    intro x hx
    rcases List.mem_cons.1 hx with rfl | hx
    · exact (hf _ _ (Ref.lookup_some_eqv (eqv := L.eqv) (e := e) hl)).symm
    · exact h x (List.mem_filter.1 hx).1
  | none =>
    have h0 : Vals f ((k, f k) :: l) := by
      intro x hx
      rcases List.mem_cons.1 hx with rfl | hx
      · rfl
      · exact h x hx
    dsimp only
    split
    · exact fun x hx => h0 x (List.mem_of_mem_dropLast hx)
    · exact h0

theorem lruStep_sim (hC : CfgOk L.C) {f : κ → ν} (hf : ∀ k l, L.eqv k l = true → f k = f l) {c : Cache κ ν}
    {a : Spec.Lru.Cache κ ν} {next : Nat} (h : CacheSim L c a next) (hv : ∀ i, Vals f (a.shards i)) (op : Op κ) :
    ∃ c', lruStep L f c next op = .ok (c', (Spec.MemoLru.step L.eqv L.shard (2 ^ L.N) f a op).2) ∧
      CacheSim L c' (Spec.MemoLru.step L.eqv L.shard (2 ^ L.N) f a op).1 (next + 1) ∧
      ∀ i, Vals f ((Spec.MemoLru.step L.eqv L.shard (2 ^ L.N) f a op).1.shards i) := by
  cases op with
  | call k =>
    have := h.withSub (Nat.le_succ _) (shard_lt L k) (f := fun s => do
      let (s, v, b) ← subCall L s c.max next k (f k)
      .ok (s, Resp.val v b)) (l := Spec.Lru.insert L.eqv (a.max / 2 ^ L.N - 1) (a.shards (L.shard k)) k (f k))
      (b := .val (f k) (lookup Prod.fst L.eqv (a.shards (L.shard k)) k).isNone) (fun s hs ha => by
        obtain ⟨s', r1, r2, r3⟩ := subCall_sim hC hf hs (by rw [ha]; exact hv _) c.max k
        rw [r1, ← ha, ← h.max]
        exact ⟨s', rfl, r2, r3⟩)
    obtain ⟨c', h1, h2⟩ := this
    refine ⟨c', h1, h2, fun i => ?_⟩
    simp only [Spec.MemoLru.step, put]
    split
    · exact vals_insert hf (hv _) _ k
    · exact hv i
  | contains k =>
    have := h.withSub (Nat.le_succ _) (shard_lt L k) (f := fun s => do
      let (s, o) ← s.peek L k
      .ok (s, Resp.opt o)) (l := a.shards (L.shard k))
      (b := (Resp.opt ((lookup Prod.fst L.eqv (a.shards (L.shard k)) k).map Prod.snd) : Resp ν)) (fun s hs ha => by
        rw [peek_sub hC hs, ha]
        exact ⟨s, rfl, hs.mono (Nat.le_succ _), ha⟩)
    rw [put_same] at this
    obtain ⟨c', h1, h2⟩ := this
    exact ⟨c', h1, h2, hv⟩
  | setSize n => exact ⟨_, rfl, ⟨h.len, fun i s hs => ⟨(h.sub i s hs).1.mono (Nat.le_succ _), (h.sub i s hs).2⟩, rfl⟩, hv⟩
  | reserve n =>
    obtain ⟨c', r1, r2, _⟩ := reserve_csim hC h n
    refine ⟨c', ?_, r2.mono (Nat.le_succ _), hv⟩
    unfold lruStep
    dsimp only
    rw [r1]; rfl
  | size =>
    refine ⟨c, ?_, h.mono (Nat.le_succ _), hv⟩
    unfold lruStep
    dsimp only
    rw [size_csim h]; rfl

theorem lruRun_sim (hC : CfgOk L.C) {f : κ → ν} (hf : ∀ k l, L.eqv k l = true → f k = f l) :
    ∀ (ops : List (Op κ)) (c : Cache κ ν) (a : Spec.Lru.Cache κ ν) (next : Nat), CacheSim L c a next → (∀ i, Vals f (a.shards i)) →
    ∃ c', lruRun L f c next ops = .ok (c', (Spec.MemoLru.run L.eqv L.shard (2 ^ L.N) f a ops).2) ∧
      CacheSim L c' (Spec.MemoLru.run L.eqv L.shard (2 ^ L.N) f a ops).1 (next + ops.length) ∧
      ∀ i, Vals f ((Spec.MemoLru.run L.eqv L.shard (2 ^ L.N) f a ops).1.shards i)
  | [], c, a, next, h, hv => ⟨c, rfl, h, hv⟩
  | op :: ops, c, a, next, h, hv => by
    obtain ⟨c1, h1, h2, h3⟩ := lruStep_sim hC hf h hv op
    obtain ⟨c2, g1, g2, g3⟩ := lruRun_sim hC hf ops c1 _ (next + 1) h2 h3
    refine ⟨c2, ?_, ?_, g3⟩
    · unfold lruRun
      rw [h1]
      simp only [Res.ok_bind]
      rw [g1]
      rfl
    · rw [show next + (op :: ops).length = next + 1 + ops.length by simp; omega]
      exact g2

/-- For a function that does not call the memoized function, `lruCallRec` is `operator()`. -/
theorem lruCallRec_flat {f : κ → ν} {c c' : Cache κ ν} {next n : Nat} {k : κ} {v : ν} {b : Bool}
    (h : lruStep L f c next (.call k) = .ok (c', .val v b)) :
    lruCallRec L (fun k => .ret (f k)) (n + 1) c next k = .ok (c', next + 1, v) := by
  unfold lruStep Cache.withSub at h
  dsimp only at h
  rw [Res.bind_eq_ok] at h
  obtain ⟨s, h1, h⟩ := h
  unfold lruCallRec
  rw [h1]
  simp only [Res.ok_bind]
  have hlt : L.shard k < c.subs.length := by
    cases hs : c.subs[L.shard k]? with
    | none => rw [hs] at h1; cases h1
    | some x => exact (List.getElem?_eq_some_iff.1 hs).1
  rw [Res.bind_eq_ok] at h
  obtain ⟨⟨s', r⟩, h2, h3⟩ := h
  simp only [Res.ok.injEq, Prod.mk.injEq] at h3
  obtain ⟨rfl, rfl⟩ := h3
  rw [Res.bind_eq_ok] at h2
  obtain ⟨⟨s1, v1, b1⟩, h2, h4⟩ := h2
  simp only [Res.ok.injEq, Prod.mk.injEq, Resp.val.injEq] at h4
  obtain ⟨rfl, rfl, rfl⟩ := h4
  unfold subCall at h2
  rw [Res.bind_eq_ok] at h2
  obtain ⟨r, h5, h2⟩ := h2
  rw [h5]
  simp only [Res.ok_bind]
  cases r with
  | some off =>
    dsimp only at h2 ⊢
    rw [Res.bind_eq_ok] at h2
    obtain ⟨e, g1, h2⟩ := h2
    rw [Res.bind_eq_ok] at h2
    obtain ⟨x, g2, h2⟩ := h2
    rw [Res.bind_eq_ok] at h2
    obtain ⟨l, g3, h2⟩ := h2
    simp only [Res.ok.injEq, Prod.mk.injEq] at h2
    obtain ⟨rfl, rfl, rfl⟩ := h2
    rw [g1]
    simp only [Res.ok_bind]
    rw [g2]
    simp only [Res.ok_bind]
    rw [g3]
    rfl
  | none =>
    dsimp only at h2 ⊢
    rw [Res.bind_eq_ok] at h2
    obtain ⟨s2, h2, h6⟩ := h2
    simp only [Res.ok.injEq, Prod.mk.injEq] at h6
    obtain ⟨rfl, rfl, rfl⟩ := h6
    unfold Sub.emplace at h2
    dsimp only at h2
    rw [h5] at h2
    simp only [Res.ok_bind] at h2
    rw [Res.bind_eq_ok] at h2
    obtain ⟨⟨t, off⟩, g1, h2⟩ := h2
    rw [g1]
    simp only [Res.ok_bind]
    unfold lruExec
    simp only [Res.ok_bind]
    rw [List.getElem?_set_self hlt]
    simp only [Res.ofOption_some, Res.ok_bind, beq_self_eq_true, Res.guardUb_true]
    rw [Res.bind_eq_ok] at h2
    obtain ⟨t1, g2, h2⟩ := h2
    dsimp only at g2 ⊢
    rw [g2]
    simp only [Res.ok_bind]
    rw [Res.bind_eq_ok] at h2
    obtain ⟨⟨l, del⟩, g3, h2⟩ := h2
    rw [g3]
    simp only [Res.ok_bind]
    rw [Res.bind_eq_ok] at h2
    obtain ⟨t2, g4, h2⟩ := h2
    dsimp only at g4 h2 ⊢
    rw [g4]
    simp only [Res.ok_bind, List.set_set]
    cases del with
    | none =>
      dsimp only at h2 ⊢
      injection h2 with h2
      rw [h2]
    | some d =>
      dsimp only at h2 ⊢
      rw [Res.bind_eq_ok] at h2
      obtain ⟨⟨t3, x⟩, g5, h2⟩ := h2
      rw [g5]
      injection h2 with h2
      simp only [Res.ok_bind]
      rw [h2]

/-! ## What the reference remembers -/

variable {eqv : κ → κ → Bool} {shard : κ → Nat} {S : Nat} {f : κ → ν}

theorem mrun_append (c : Spec.Lru.Cache κ ν) (h : List (Op κ)) (op : Op κ) :
    Spec.MemoLru.run eqv shard S f c (h ++ [op]) =
      ((Spec.MemoLru.step eqv shard S f (Spec.MemoLru.run eqv shard S f c h).1 op).1,
       (Spec.MemoLru.run eqv shard S f c h).2 ++ [(Spec.MemoLru.step eqv shard S f (Spec.MemoLru.run eqv shard S f c h).1 op).2]) := by
  induction h generalizing c with
  | nil => rfl
  | cons o h ih =>
    simp only [List.cons_append, Spec.MemoLru.run]
    rw [ih]

theorem recent_append (i : Nat) (h : List (Op κ)) (op : Op κ) :
    recent eqv shard i (h ++ [op]) = match op with
      | .call k => if shard k = i then Spec.Lru.touch eqv (recent eqv shard i h) k else recent eqv shard i h
      | _ => recent eqv shard i h := by
  unfold recent
  rw [List.foldl_append, List.foldl_cons, List.foldl_nil]
  cases op <;> rfl

theorem mrecent_run (hE : Ref.Ok eqv shard) (n : Nat) (h : List (Op κ)) (hfix : ∀ m, Op.setSize m ∉ h) :
    (Spec.MemoLru.run eqv shard S f (Spec.Lru.Cache.new n) h).1.max = n ∧ ∀ i,
    Ref.Apart eqv (recent eqv shard i h) ∧
    Ref.Rel eqv (n / S - 1) (recent eqv shard i h) ((Spec.MemoLru.run eqv shard S f (Spec.Lru.Cache.new n) h).1.shards i) := by
  induction h using List.reverseRecOn with
  | nil =>
    refine ⟨rfl, fun i => ⟨List.Pairwise.nil, ?_⟩⟩
    show List.Forall₂ _ (List.take (n / S - 1) []) []
    rw [List.take_nil]
    exact .nil
  | append_singleton h op ih =>
    obtain ⟨hm, ih⟩ := ih (fun m hm => hfix m (by simp [hm]))
    rw [mrun_append]
    generalize hc : (Spec.MemoLru.run eqv shard S f (Spec.Lru.Cache.new n) h).1 = c at ih hm ⊢
    cases op with
    | setSize m => exact absurd (by simp) (hfix m)
    | call k =>
      refine ⟨hm, fun i => ?_⟩
      rw [recent_append]
      simp only [Spec.MemoLru.step, put]
      obtain ⟨ih1, ih2⟩ := ih i
      by_cases hk : shard k = i
      · rw [if_pos hk, if_pos hk.symm, hm, hk]
        exact ⟨Ref.touch_apart hE ih1 k, Ref.rel_insert hE ih2 ih1 k (f k)⟩
      · rw [if_neg hk, if_neg (fun e => hk e.symm)]
        exact ⟨ih1, ih2⟩
    | contains k => exact ⟨hm, fun i => by rw [recent_append]; exact ih i⟩
    | reserve m => exact ⟨hm, fun i => by rw [recent_append]; exact ih i⟩
    | size => exact ⟨hm, fun i => by rw [recent_append]; exact ih i⟩

end Gtl.Memo
