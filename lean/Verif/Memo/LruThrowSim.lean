import Verif.Memo.LruThrow
import Verif.Memo.LruSim
import Verif.Memo.NonRec
/-!
# A memoized function with a size limit that throws a few times
-/

namespace Gtl.Memo

open Gtl.Swiss Gtl.Parallel Gtl.Lru
open Gtl.Spec.MemoLru (Op TOp TResp Resp)
open Gtl.Spec (lookup put)

variable {κ ν : Type} {L : LCfg κ}

theorem psim_mono {α κ : Type} {C : Cfg α κ} {nd : Prop} {t : Tbl α} {l : List α} {p r r' : Nat} (h : Swiss.PSim C nd t l p r)
    (hr : r ≤ r') : Swiss.PSim C nd t l p r' := by
  obtain ⟨c, q, h1, h2, h3, h4⟩ := h
  exact ⟨c, q, h1, by omega, h3, h4⟩

theorem psim_perm {α κ : Type} {C : Cfg α κ} {nd : Prop} {t : Tbl α} {l m : List α} {p r : Nat} (h : Swiss.PSim C nd t l p r)
    (hp : l.Perm m) : Swiss.PSim C nd t m p r := by
  obtain ⟨c, q, h1, h2, h3, h4⟩ := h
  exact ⟨c, q, h1, h2, h3, h4.trans hp⟩

/-- A shard with `x` exceptions behind it, of which at most `r` are not accounted for in the room for new entries. -/
structure SubP (L : LCfg κ) (s : Sub κ ν) (next x r : Nat) : Prop where
  sim : Swiss.PSim L.C False s.tbl (index s.lst) x r
  nodup : (s.lst.map Prod.fst).Nodup
  bound : ∀ n ∈ s.lst, n.1 < next

theorem SubP.mono {s : Sub κ ν} {m n x r r' : Nat} (h : SubP L s m x r) (hm : m ≤ n) (hr : r ≤ r') : SubP L s n x r' :=
  ⟨psim_mono h.sim hr, h.nodup, fun y hy => Nat.lt_of_lt_of_le (h.bound y hy) hm⟩

theorem find_subP (hC : CfgOk L.C) {s : Sub κ ν} {next x r : Nat} (h : SubP L s next x r) (k : κ) :
    (∃ i n, s.tbl.find L.C k = .ok (some i) ∧ s.tbl.readSlot i = .ok (n.2.1, n.1) ∧ n ∈ s.lst ∧ L.eqv n.2.1 k = true ∧
      lookup Prod.fst L.eqv s.abs k = some n.2) ∨
    (s.tbl.find L.C k = .ok none ∧ lookup Prod.fst L.eqv s.abs k = none) := by
  rcases find_psim hC h.sim k with ⟨i, a, h1, h2, h3, h4, _⟩ | ⟨h1, h2, _⟩
  · obtain ⟨k', j⟩ := a
    obtain ⟨v, hv⟩ := mem_index.1 h3
    exact .inl ⟨i, (j, k', v), h1, readSlot_ok' h2, hv, h4, abs_lookup_some hC (h.sim.distinct hC) hv h4⟩
  · exact .inr ⟨h1, abs_lookup_none h2⟩

theorem splice_subP (hC : CfgOk L.C) {s : Sub κ ν} {next x r : Nat} (h : SubP L s next x r) {n : Node κ ν} (hn : n ∈ s.lst) {k : κ}
    (hk : L.eqv n.2.1 k = true) :
    ∃ l, splice s.lst n.1 = .ok l ∧ SubP L { s with lst := l } next x r ∧
      l.map Prod.snd = n.2 :: Spec.erase Prod.fst L.eqv s.abs k := by
  have hd := h.sim.distinct hC
  have hp := perm_front hC hd hn hk
  refine ⟨_, splice_ok hC h.nodup hd hn hk, ⟨psim_perm h.sim (hp.map _), ?_, ?_⟩, ?_⟩
  · exact (hp.map Prod.fst).nodup_iff.1 h.nodup
  · exact fun m hm => h.bound m (hp.mem_iff.2 hm)
  · rw [List.map_cons, abs_erase]; rfl

theorem emplace_newP (hC : CfgOk L.C) {s : Sub κ ν} {next x r : Nat} (h : SubP L s next x r) (hr : r ≤ 7) (full : Nat → Bool) (k : κ)
    (v : ν) (found : List (Node κ ν) → Nat → Res (List (Node κ ν))) (hl : lookup Prod.fst L.eqv s.abs k = none) :
    ∃ s', s.emplace L full next k v found = .ok s' ∧ SubP L s' (next + 1) x r ∧
      s'.abs = if full (s.abs.length + 1) then ((k, v) :: s.abs).dropLast else (k, v) :: s.abs := by
  rcases emplace_psim hC h.sim hr (k, next) with ⟨i, b, _, _, hb, e4, _⟩ | ⟨t', i, e1, e2, e3, e4⟩
  · exfalso
    obtain ⟨k', j⟩ := b
    obtain ⟨w, hw⟩ := mem_index.1 hb
    rw [show s.abs = s.lst.map Prod.snd from rfl, abs_lookup_some hC (h.sim.distinct hC) hw (show L.eqv k' k = true from e4)] at hl
    cases hl
  · have hnew : SubP L { tbl := t', lst := (next, k, v) :: s.lst } (next + 1) x r := by
      refine ⟨e3, ?_, ?_⟩
      · show (next :: s.lst.map Prod.fst).Nodup
        rw [List.nodup_cons]
        refine ⟨?_, h.nodup⟩
        intro hm
        obtain ⟨n, hn, en⟩ := List.mem_map.1 hm
        have := h.bound n hn
        omega
      · intro n hn
        rcases List.mem_cons.1 hn with rfl | hn
        · exact Nat.lt_succ_self next
        · exact Nat.lt_succ_of_lt (h.bound n hn)
    have hf : s.tbl.findHash L.C k (L.hash k) = .ok none := by
      rcases find_subP hC h k with ⟨_, n, _, _, _, _, h5⟩ | ⟨h1, _⟩
      · rw [hl] at h5; cases h5
      · exact h1
    unfold Tbl.emplace Tbl.emplaceHash at e1
    unfold Sub.emplace
    dsimp only
    rw [show L.C.key (k, next) = k from rfl, show L.C.hash k = L.hash k from rfl] at e1
    rw [hf] at e1 ⊢
    simp only [Res.ok_bind] at e1 ⊢
    rw [Res.bind_eq_ok] at e1
    obtain ⟨⟨t1, off⟩, g1, e1⟩ := e1
    rw [g1]
    simp only [Res.ok_bind] at e1 ⊢
    rw [Res.bind_eq_ok] at e1
    obtain ⟨t2, g2, e1⟩ := e1
    rw [g2]
    simp only [Res.ok_bind] at e1 ⊢
    rw [Res.bind_eq_ok] at e1
    obtain ⟨t3, g3, e1⟩ := e1
    simp only [Res.ok.injEq, Prod.mk.injEq] at e1
    obtain ⟨rfl, _⟩ := e1
    have hlen : ((next, k, v) :: s.lst).length = s.abs.length + 1 := by simp [Sub.abs]
    unfold evict
    rw [hlen]
    cases hfull : full (s.abs.length + 1) with
    | false =>
      simp only [if_false, Bool.false_eq_true]
      rw [Res.ok_bind]
      dsimp only
      rw [show L.G.W = L.C.G.W from rfl, g3]
      exact ⟨_, rfl, hnew, rfl⟩
    | true =>
      simp only [if_true]
      obtain ⟨n, hlast⟩ : ∃ n, ((next, k, v) :: s.lst).getLast? = some n := ⟨_, List.getLast?_eq_some_getLast (by simp)⟩
      rw [hlast]
      rw [Res.ok_bind]
      dsimp only
      rw [show L.G.W = L.C.G.W from rfl, g3]
      have hsplit : (next, k, v) :: s.lst = ((next, k, v) :: s.lst).dropLast ++ [n] :=
        (List.dropLast_append_getLast? n hlast).symm
      have hp : ((next, k, v) :: s.lst).Perm (n :: ((next, k, v) :: s.lst).dropLast) := by
        have : (((next, k, v) :: s.lst).dropLast ++ [n]).Perm (n :: ((next, k, v) :: s.lst).dropLast) := by
          exact List.perm_append_comm (l₁ := ((next, k, v) :: s.lst).dropLast) (l₂ := [n])
        rw [← hsplit] at this
        exact this
      obtain ⟨t4, _, g4, _, _, g5⟩ := step_psim hC hnew.sim hr (.erase n.2.1) trivial (fun h => h.elim)
      replace g5 := g5 (by simp)
      unfold Tbl.step at g4
      simp only [Res.ok_bind]
      dsimp only at g4
      rw [Res.bind_eq_ok] at g4
      obtain ⟨⟨t5, m⟩, g6, g7⟩ := g4
      rw [g6]
      simp only [Res.ok.injEq, Prod.mk.injEq] at g7
      obtain ⟨rfl, _⟩ := g7
      refine ⟨{ tbl := t5, lst := ((next, k, v) :: s.lst).dropLast }, rfl, ⟨?_, ?_, ?_⟩, ?_⟩
      · refine psim_perm g5 ?_
        show (Spec.erase L.C.key L.C.eqv (index ((next, k, v) :: s.lst)) n.2.1).Perm _
        exact erase_some hC (hnew.sim.distinct hC) (hp.map (fun n : Node κ ν => (n.2.1, n.1))) (hC.refl _)
      · exact (List.nodup_cons.1 ((hp.map Prod.fst).nodup_iff.1 hnew.nodup)).2
      · exact fun m hm => hnew.bound m (List.mem_of_mem_dropLast hm)
      · show (((next, k, v) :: s.lst).dropLast).map Prod.snd = _
        rw [List.map_dropLast]
        rfl

theorem subCallP (hC : CfgOk L.C) {f : κ → ν} (hf : ∀ k l, L.eqv k l = true → f k = f l) {s : Sub κ ν} {next x r : Nat}
    (h : SubP L s next x r) (hr : r ≤ 7) (hv : Vals f s.abs) (max : Nat) (k : κ) :
    ∃ s', subCall L s max next k (f k) = .ok (s', f k, (lookup Prod.fst L.eqv s.abs k).isNone) ∧ SubP L s' (next + 1) x r ∧
      s'.abs = Spec.Lru.insert L.eqv (max - 1) s.abs k (f k) := by
  unfold subCall Spec.Lru.insert
  rcases find_subP hC h k with ⟨i, n, h1, h2, h3, h4, h5⟩ | ⟨h1, h5⟩
  · rw [h5]
    obtain ⟨l', b1, b2, b3⟩ := splice_subP hC h h3 h4
    have hval : n.2.2 = f k := by rw [hv n.2 (List.mem_map.2 ⟨n, h3, rfl⟩), hf _ _ h4]
    refine ⟨{ s with lst := l' }, ?_, b2.mono (Nat.le_succ _) (Nat.le_refl _), ?_⟩
    · rw [show s.tbl.findHash L.C k (L.hash k) = .ok (some i) from h1]
      simp only [Res.ok_bind]
      rw [h2]
      have hd : deref s.lst n.1 = .ok n.2 := by unfold deref; rw [find_id h.nodup h3]
      simp only [Res.ok_bind]
      rw [hd]
      simp only [Res.ok_bind]
      rw [b1, hval]
      rfl
    · show l'.map Prod.snd = _
      rw [b3, ← hval]
  · rw [h5]
    obtain ⟨s', r1, r2, r3⟩ := emplace_newP hC h hr (fun n => n >= max) k (f k) (fun l _ => .ok l) h5
    refine ⟨s', ?_, r2, ?_⟩
    · rw [show s.tbl.findHash L.C k (L.hash k) = .ok none from h1]
      simp only [Res.ok_bind]
      rw [r1]; rfl
    · rw [r3]
      simp only [decide_eq_true_eq]
      by_cases hm : max ≤ s.abs.length + 1
      · rw [if_pos hm, if_pos (by omega)]
      · rw [if_neg hm, if_neg (by omega)]

/-- A call during which the function throws, on one shard. -/
theorem subCallThrowP (hC : CfgOk L.C) {f : κ → ν} (hf : ∀ k l, L.eqv k l = true → f k = f l) {s : Sub κ ν} {next x r : Nat}
    (h : SubP L s next x r) (hr : r ≤ 7) (hv : Vals f s.abs) (cap : Nat) (k : κ) :
    ((lookup Prod.fst L.eqv s.abs k).isSome = true ∧
      ∃ s', subCallThrow L s k = .ok (s', .got (.val (f k) false)) ∧ SubP L s' next x r ∧
        s'.abs = Spec.Lru.insert L.eqv cap s.abs k (f k)) ∨
    ((lookup Prod.fst L.eqv s.abs k).isSome = false ∧
      ∃ s', subCallThrow L s k = .ok (s', .threw) ∧ SubP L s' next (x + 1) (r + 1) ∧ s'.abs = s.abs) := by
  unfold subCallThrow Spec.Lru.insert
  rcases find_subP hC h k with ⟨i, n, h1, h2, h3, h4, h5⟩ | ⟨h1, h5⟩
  · left
    rw [h5]
    obtain ⟨l', b1, b2, b3⟩ := splice_subP hC h h3 h4
    have hval : n.2.2 = f k := by rw [hv n.2 (List.mem_map.2 ⟨n, h3, rfl⟩), hf _ _ h4]
    refine ⟨rfl, { s with lst := l' }, ?_, b2, ?_⟩
    · rw [show s.tbl.findHash L.C k (L.hash k) = .ok (some i) from h1]
      simp only [Res.ok_bind]
      rw [h2]
      have hd : deref s.lst n.1 = .ok n.2 := by unfold deref; rw [find_id h.nodup h3]
      simp only [Res.ok_bind]
      rw [hd]
      simp only [Res.ok_bind]
      rw [b1, hval]
      rfl
    · show l'.map Prod.snd = _
      rw [b3, ← hval]
  · right
    rw [h5]
    refine ⟨rfl, ?_⟩
    rcases emplaceThrow_psim hC h.sim hr (k, next) with ⟨e1, e2⟩ | ⟨t', e1, _, e3, _⟩
    · exfalso
      unfold Tbl.emplaceThrow at e1
      rw [show s.tbl.findHash L.C (L.C.key (k, next)) (L.C.hash (L.C.key (k, next))) = .ok none from h1] at e1
      simp only [Res.ok_bind] at e1
      obtain ⟨y, _, g⟩ := Res.bind_eq_ok.1 e1
      injection g with g
      injection g with _ g
      cases g
    · refine ⟨{ s with tbl := t' }, ?_, ⟨e3, h.nodup, h.bound⟩, rfl⟩
      unfold Tbl.emplaceThrow at e1
      rw [show s.tbl.findHash L.C (L.C.key (k, next)) (L.C.hash (L.C.key (k, next))) = .ok none from h1] at e1
      rw [show s.tbl.findHash L.C k (L.hash k) = .ok none from h1]
      simp only [Res.ok_bind] at e1 ⊢
      obtain ⟨⟨t1, off⟩, g1, g2⟩ := Res.bind_eq_ok.1 e1
      rw [show s.tbl.prepareInsert L.C (L.hash k) = .ok (t1, off) from g1]
      injection g2 with g2
      injection g2 with g2 _
      rw [← g2]
      rfl

theorem peekP (hC : CfgOk L.C) {s : Sub κ ν} {next x r : Nat} (h : SubP L s next x r) (k : κ) :
    s.peek L k = .ok (s, (lookup Prod.fst L.eqv s.abs k).map Prod.snd) := by
  unfold Sub.peek Sub.ifContains
  rcases find_subP hC h k with ⟨i, n, h1, h2, h3, h4, h5⟩ | ⟨h1, h5⟩
  · rw [h5, h1]
    simp only [Res.ok_bind]
    rw [h2]
    have hd : deref s.lst n.1 = .ok n.2 := by unfold deref; rw [find_id h.nodup h3]
    simp only [Res.ok_bind]
    rw [hd]
    rfl
  · rw [h5, h1]
    rfl

/-! ## All shards -/

def CacheP (L : LCfg κ) (c : Cache κ ν) (a : Spec.Lru.Cache κ ν) (next e r : Nat) : Prop :=
  c.subs.length = 2 ^ L.N ∧ c.max = a.max / 2 ^ L.N ∧ ∃ x : Nat → Nat, ((List.range (2 ^ L.N)).map x).sum = e ∧
    ∀ (i : Nat) s, c.subs[i]? = some s → SubP L s next (x i) r ∧ s.abs = a.shards i

theorem CacheP.mono {c : Cache κ ν} {a : Spec.Lru.Cache κ ν} {next next' e r r' : Nat} (h : CacheP L c a next e r)
    (hn : next ≤ next') (hr : r ≤ r') : CacheP L c a next' e r' := by
  obtain ⟨h1, h2, x, h3, h4⟩ := h
  exact ⟨h1, h2, x, h3, fun i s hs => ⟨(h4 i s hs).1.mono hn hr, (h4 i s hs).2⟩⟩

theorem CacheP.withSub {β : Type} {c : Cache κ ν} {a : Spec.Lru.Cache κ ν} {next next' e r r' d : Nat}
    (h : CacheP L c a next e r) (hn : next ≤ next') (hr : r ≤ r') {i : Nat} (hi : i < 2 ^ L.N)
    {f : Sub κ ν → Res (Sub κ ν × β)} {l : List (κ × ν)} {b : β}
    (hf : ∀ s x, SubP L s next x r → s.abs = a.shards i → ∃ s', f s = .ok (s', b) ∧ SubP L s' next' (x + d) r' ∧ s'.abs = l) :
    ∃ c', c.withSub i f = .ok (c', b) ∧ CacheP L c' { a with shards := Spec.put a.shards i l } next' (e + d) r' := by
  obtain ⟨h1, h2, x, h3, h4⟩ := h
  have hi' : i < c.subs.length := by rw [h1]; exact hi
  have ht := List.getElem?_eq_getElem hi'
  obtain ⟨s', f1, f2, f3⟩ := hf _ _ (h4 i _ ht).1 (h4 i _ ht).2
  refine ⟨{ c with subs := c.subs.set i s' }, ?_, by rw [List.length_set]; exact h1, h2,
    fun j => if j = i then x j + d else x j, ?_, ?_⟩
  · unfold Cache.withSub
    rw [ht]
    simp only [Res.ofOption_some, Res.ok_bind]
    rw [f1]
    rfl
  · rw [sum_bump x _ d _ hi, h3]
  · intro j u hu
    unfold Spec.put
    dsimp only at hu ⊢
    rw [List.getElem?_set] at hu
    by_cases hij : j = i
    · rw [if_pos hij.symm, if_pos hi'] at hu
      injection hu with hu
      rw [if_pos hij, if_pos hij, ← hu, hij]
      exact ⟨f2, f3⟩
    · rw [if_neg (fun e => hij e.symm)] at hu
      rw [if_neg hij, if_neg hij]
      exact ⟨(h4 j u hu).1.mono hn hr, (h4 j u hu).2⟩

theorem CacheP.size {c : Cache κ ν} {a : Spec.Lru.Cache κ ν} {next e r : Nat} (h : CacheP L c a next e r) :
    c.size = ((List.range (2 ^ L.N)).map (fun i => (a.shards i).length)).sum + e := by
  obtain ⟨h1, h2, x, h3, h4⟩ := h
  have e2 : ∀ (f g : Nat → Nat) n, ((List.range n).map (fun i => f i + g i)).sum =
      ((List.range n).map f).sum + ((List.range n).map g).sum := by
    intro f g n
    induction n with
    | zero => rfl
    | succ n ih =>
      rw [List.range_succ, List.map_append, List.map_append, List.map_append, List.sum_append, List.sum_append,
        List.sum_append, ih]
      simp only [List.map_cons, List.map_nil, List.sum_cons, List.sum_nil]
      omega
  rw [← h3, ← e2]
  unfold Cache.size
  congr 1
  apply List.ext_getElem
  · simp [h1]
  · intro i g1 g2
    simp only [List.getElem_map, List.getElem_range]
    rw [List.length_map] at g1
    obtain ⟨k1, k2⟩ := h4 i c.subs[i] (List.getElem?_eq_getElem g1)
    rw [k1.sim.size, ← k2]
    simp [index, Sub.abs]

theorem reserve_cp (hC : CfgOk L.C) {c : Cache κ ν} {a : Spec.Lru.Cache κ ν} {next e r : Nat} (h : CacheP L c a next e r)
    (hr : r ≤ 7) (n : Nat) : ∃ c', c.reserve L n = .ok c' ∧ CacheP L c' a next e r := by
  unfold Cache.reserve
  dsimp only
  generalize hb : (if 2 ^ L.N * normalizeCapacity (L.scale n / 2 ^ L.N) > growthToLowerboundCapacity L.G.W (L.scale n) then
    2 ^ L.N * normalizeCapacity (L.scale n / 2 ^ L.N) else growthToLowerboundCapacity L.G.W (L.scale n)) = buckets
  have h1 : 2 ^ L.N ≤ 2 ^ L.N * normalizeCapacity (L.scale n / 2 ^ L.N) :=
    Nat.le_mul_of_pos_right _ (normalizeCapacity_pos _)
  have h2 : 2 ^ L.N ≤ buckets := by rw [← hb]; split <;> omega
  have h0 : buckets / 2 ^ L.N ≠ 0 := by
    have := Nat.div_pos h2 (Nat.two_pow_pos L.N)
    omega
  obtain ⟨g1, g2, x, g3, g4⟩ := h
  obtain ⟨ss, r1, r2, r3⟩ := mapRes_spec (f := fun s : Sub κ ν => do
      let t ← s.tbl.rehash L.C (buckets / 2 ^ L.N)
      Res.ok { s with tbl := t }) c.subs (fun i s => SubP L s next (x i) r ∧ s.abs = a.shards i) (fun i s hs => by
    obtain ⟨k1, k2⟩ := g4 i s hs
    obtain ⟨t', e1, e2⟩ := Swiss.rehash_psim hC k1.sim hr (.inl h0)
    refine ⟨{ s with tbl := t' }, ?_, ⟨e2, k1.nodup, k1.bound⟩, k2⟩
    rw [e1]; rfl)
  rw [r1]
  exact ⟨_, rfl, r2.trans g1, g2, x, g3, r3⟩

theorem CacheP.of_sim {c : Cache κ ν} {a : Spec.Lru.Cache κ ν} {next : Nat} (h : CacheSim L c a next) : CacheP L c a next 0 0 := by
  refine ⟨h.len, h.max, fun _ => 0, ?_, fun i s hs => ?_⟩
  · generalize 2 ^ L.N = n
    induction n with
    | zero => rfl
    | succ n ih => rw [List.range_succ, List.map_append, List.sum_append, ih]; rfl
  · obtain ⟨k1, k2⟩ := h.sub i s hs
    exact ⟨⟨Swiss.PSim.of_sim k1.sim id, k1.nodup, k1.bound⟩, k2⟩

theorem vals_step {f : κ → ν} (hf : ∀ k l, L.eqv k l = true → f k = f l) {a : Spec.Lru.Cache κ ν} (hv : ∀ i, Vals f (a.shards i))
    (op : Op κ) (i : Nat) : Vals f ((Spec.MemoLru.step L.eqv L.shard (2 ^ L.N) f a op).1.shards i) := by
  cases op with
  | call k =>
    simp only [Spec.MemoLru.step, put]
    split
    · exact vals_insert hf (hv _) _ k
    · exact hv i
  | _ => exact hv i

/-- One call. -/
theorem lruStepT_sim (hC : CfgOk L.C) {f : κ → ν} (hf : ∀ k l, L.eqv k l = true → f k = f l) {c : Cache κ ν}
    {a : Spec.Lru.Cache κ ν} {next e r : Nat} (h : CacheP L c a next e r) (hv : ∀ i, Vals f (a.shards i)) (op : TOp κ)
    (hr : r + (if op.Throws then 1 else 0) ≤ 7) :
    ∃ c', lruStepT L f c next op =
        .ok (c', Spec.MemoLru.offBy e op (Spec.MemoLru.tstep L.eqv L.shard (2 ^ L.N) f a op).2) ∧
      CacheP L c' (Spec.MemoLru.tstep L.eqv L.shard (2 ^ L.N) f a op).1 (next + 1)
        (Spec.MemoLru.excessAfter L.eqv L.shard a e op) (r + (if op.Throws then 1 else 0)) ∧
      ∀ i, Vals f ((Spec.MemoLru.tstep L.eqv L.shard (2 ^ L.N) f a op).1.shards i) := by
  cases op with
  | throwing k =>
    simp only [TOp.Throws, if_true] at hr ⊢
    simp only [lruStepT, Spec.MemoLru.tstep, Spec.MemoLru.excessAfter]
    cases hh : Spec.MemoLru.has L.eqv L.shard a k with
    | true =>
      rw [if_pos rfl, if_pos rfl]
      have hnone : (lookup Prod.fst L.eqv (a.shards (L.shard k)) k).isNone = false := by
        unfold Spec.MemoLru.has at hh
        rw [Option.isSome_iff_exists] at hh
        obtain ⟨y, hy⟩ := hh
        rw [hy]; rfl
      have := h.withSub (d := 0) (next' := next + 1) (r' := r + 1) (Nat.le_succ _) (Nat.le_succ _) (shard_lt L k)
        (f := fun s => subCallThrow L s k)
        (l := Spec.Lru.insert L.eqv (a.max / 2 ^ L.N - 1) (a.shards (L.shard k)) k (f k))
        (b := .got (.val (f k) false)) (fun s x hs ha => by
          rcases subCallThrowP hC hf hs (by omega) (by rw [ha]; exact hv _) (a.max / 2 ^ L.N - 1) k with
            ⟨_, s', r1, r2, r3⟩ | ⟨r0, _⟩
          · exact ⟨s', r1, r2.mono (Nat.le_succ _) (Nat.le_succ _), by rw [r3, ha]⟩
          · unfold Spec.MemoLru.has at hh
            rw [ha, hh] at r0; cases r0)
      obtain ⟨c', h1, h2⟩ := this
      refine ⟨c', ?_, h2, fun i => vals_step hf hv _ i⟩
      simp only [Spec.MemoLru.step, hnone, Spec.MemoLru.offBy]
      exact h1
    | false =>
      rw [if_neg (by simp), if_neg (by simp)]
      have := h.withSub (d := 1) (next' := next + 1) (r' := r + 1) (Nat.le_succ _) (Nat.le_succ _) (shard_lt L k)
        (f := fun s => subCallThrow L s k) (l := a.shards (L.shard k)) (b := .threw) (fun s x hs ha => by
          rcases subCallThrowP hC hf hs (by omega) (by rw [ha]; exact hv _) 0 k with ⟨r0, _⟩ | ⟨_, s', r1, r2, r3⟩
          · unfold Spec.MemoLru.has at hh
            rw [ha, hh] at r0; cases r0
          · exact ⟨s', r1, r2.mono (Nat.le_succ _) (Nat.le_refl _), by rw [r3, ha]⟩)
      rw [put_same] at this
      obtain ⟨c', h1, h2⟩ := this
      exact ⟨c', h1, h2, hv⟩
  | call op =>
    simp only [TOp.Throws, Bool.false_eq_true, if_false, Nat.add_zero] at hr ⊢
    simp only [lruStepT, Spec.MemoLru.tstep, Spec.MemoLru.excessAfter]
    refine Exists.imp (fun c' => fun (g : _ ∧ _) => ⟨g.1, g.2, fun i => vals_step hf hv _ i⟩) ?_
    cases op with
    | call k =>
      have := h.withSub (d := 0) (Nat.le_succ _) (Nat.le_refl _) (shard_lt L k) (f := fun s => do
        let (s, v, b) ← subCall L s c.max next k (f k)
        .ok (s, Resp.val v b)) (l := Spec.Lru.insert L.eqv (a.max / 2 ^ L.N - 1) (a.shards (L.shard k)) k (f k))
        (b := .val (f k) (lookup Prod.fst L.eqv (a.shards (L.shard k)) k).isNone) (fun s x hs ha => by
          obtain ⟨s', r1, r2, r3⟩ := subCallP hC hf hs (by omega) (by rw [ha]; exact hv _) c.max k
          rw [r1, ← ha, ← h.2.1]
          exact ⟨s', rfl, r2, r3⟩)
      obtain ⟨c', h1, h2⟩ := this
      refine ⟨c', ?_, h2⟩
      simp only [lruStep]
      rw [h1]; rfl
    | contains k =>
      have := h.withSub (d := 0) (Nat.le_succ _) (Nat.le_refl _) (shard_lt L k) (f := fun s => do
        let (s, o) ← s.peek L k
        .ok (s, Resp.opt o)) (l := a.shards (L.shard k))
        (b := (Resp.opt ((lookup Prod.fst L.eqv (a.shards (L.shard k)) k).map Prod.snd) : Resp ν)) (fun s x hs ha => by
          rw [peekP hC hs, ha]
          exact ⟨s, rfl, hs.mono (Nat.le_succ _) (Nat.le_refl _), ha⟩)
      rw [put_same] at this
      obtain ⟨c', h1, h2⟩ := this
      refine ⟨c', ?_, h2⟩
      simp only [lruStep]
      rw [h1]; rfl
    | setSize n =>
      obtain ⟨h1, h2, x, h3, h4⟩ := h.mono (Nat.le_succ next) (Nat.le_refl _)
      exact ⟨c.setSize L n, rfl, h1, rfl, x, h3, h4⟩
    | reserve n =>
      obtain ⟨c', r1, r2⟩ := reserve_cp hC h (by omega) n
      refine ⟨c', ?_, r2.mono (Nat.le_succ _) (Nat.le_refl _)⟩
      simp only [lruStep, r1, Res.ok_bind]
      rfl
    | size =>
      refine ⟨c, ?_, h.mono (Nat.le_succ _) (Nat.le_refl _)⟩
      simp only [lruStep, h.size, Res.ok_bind]
      rfl

theorem lruRunT_sim (hC : CfgOk L.C) {f : κ → ν} (hf : ∀ k l, L.eqv k l = true → f k = f l) :
    ∀ (ops : List (TOp κ)) (c : Cache κ ν) (a : Spec.Lru.Cache κ ν) (next e r : Nat), CacheP L c a next e r →
    (∀ i, Vals f (a.shards i)) → r + ops.countP TOp.Throws ≤ 7 →
    ∃ c', lruRunT L f c next ops = .ok (c', Spec.MemoLru.trun L.eqv L.shard (2 ^ L.N) f a e ops)
  | [], c, a, next, e, r, h, hv, hr => ⟨c, rfl⟩
  | op :: ops, c, a, next, e, r, h, hv, hr => by
    rw [List.countP_cons] at hr
    obtain ⟨c1, h1, h2, h3⟩ := lruStepT_sim hC hf h hv op (by omega)
    obtain ⟨c2, g1⟩ := lruRunT_sim hC hf ops c1 _ (next + 1) _ _ h2 h3 (by omega)
    refine ⟨c2, ?_⟩
    unfold lruRunT Spec.MemoLru.trun
    rw [h1]
    simp only [Res.ok_bind]
    rw [g1]
    rfl

end Gtl.Memo
