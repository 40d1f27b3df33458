import Verif.Lru.Model
import Verif.Parallel.Bulk
/-!
# One shard of a cache: the map and the list stay in step
-/

namespace Gtl.Lru

open Gtl.Swiss Gtl.Parallel
open Gtl.Spec.Lru (Op Resp)
open Gtl.Spec (lookup)

variable {κ ν : Type} {L : LCfg κ}

/-- What the map of a shard should hold: for every node of the list, its key with an iterator to it. -/
def index (l : List (Node κ ν)) : List (κ × Nat) := l.map (fun n => (n.2.1, n.1))

/-- The entries of a shard. -/
def Sub.abs (s : Sub κ ν) : List (κ × ν) := s.lst.map Prod.snd

structure SubSim (L : LCfg κ) (s : Sub κ ν) (next : Nat) : Prop where
  sim : Sim L.C s.tbl (index s.lst)
  nodup : (s.lst.map Prod.fst).Nodup
  bound : ∀ n ∈ s.lst, n.1 < next

theorem SubSim.mono {s : Sub κ ν} {m n : Nat} (h : SubSim L s m) (hm : m ≤ n) : SubSim L s n :=
  ⟨h.sim, h.nodup, fun x hx => Nat.lt_of_lt_of_le (h.bound x hx) hm⟩

theorem mem_index {l : List (Node κ ν)} {k : κ} {i : Nat} : (k, i) ∈ index l ↔ ∃ v, (i, k, v) ∈ l := by
  unfold index
  rw [List.mem_map]
  constructor
  · rintro ⟨⟨j, k', v⟩, h, e⟩
    simp only [Prod.mk.injEq] at e
    obtain ⟨rfl, rfl⟩ := e
    exact ⟨v, h⟩
  · rintro ⟨v, h⟩
    exact ⟨_, h, rfl⟩

theorem id_unique {l : List (Node κ ν)} (h : (l.map Prod.fst).Nodup) {m n : Node κ ν} (hm : m ∈ l) (hn : n ∈ l)
    (e : m.1 = n.1) : m = n := List.inj_on_of_nodup_map h hm hn e

/-- Within a shard, a node is found by its identity exactly if it is found by its key. -/
theorem id_iff_key (hC : CfgOk L.C) {l : List (Node κ ν)} (hn : (l.map Prod.fst).Nodup) (hd : Distinct L.C (index l))
    {n : Node κ ν} (h : n ∈ l) {k : κ} (hk : L.eqv n.2.1 k = true) {m : Node κ ν} (hm : m ∈ l) :
    (m.1 == n.1) = L.eqv m.2.1 k := by
  cases he : L.eqv m.2.1 k with
  | true =>
    have : (m.2.1, m.1) = (n.2.1, n.1) :=
      hd.eq_of hC (List.mem_map.2 ⟨m, hm, rfl⟩) (List.mem_map.2 ⟨n, h, rfl⟩) (k := k) he hk
    rw [beq_iff_eq]
    exact congrArg Prod.snd this
  | false =>
    rw [beq_eq_false_iff_ne]
    intro e
    rw [id_unique hn hm h e, hk] at he
    cases he

theorem find_id {l : List (Node κ ν)} (hn : (l.map Prod.fst).Nodup) {n : Node κ ν} (h : n ∈ l) :
    l.find? (fun m => m.1 == n.1) = some n := by
  cases hf : l.find? (fun m => m.1 == n.1) with
  | none =>
    rw [List.find?_eq_none] at hf
    exact absurd (beq_self_eq_true n.1) (hf n h)
  | some m =>
    have h1 := List.find?_some hf
    have h2 := List.mem_of_find?_eq_some hf
    rw [id_unique hn h2 h (by simpa using h1)]

theorem splice_ok (hC : CfgOk L.C) {l : List (Node κ ν)} (hn : (l.map Prod.fst).Nodup) (hd : Distinct L.C (index l))
    {n : Node κ ν} (h : n ∈ l) {k : κ} (hk : L.eqv n.2.1 k = true) :
    splice l n.1 = .ok (n :: l.filter (fun m => !L.eqv m.2.1 k)) := by
  unfold splice
  rw [find_id hn h]
  simp only [Res.ok.injEq, List.cons.injEq, true_and]
  apply List.filter_congr
  intro m hm
  rw [id_iff_key hC hn hd h hk hm]

theorem perm_front (hC : CfgOk L.C) {l : List (Node κ ν)} (hd : Distinct L.C (index l))
    {n : Node κ ν} (h : n ∈ l) {k : κ} (hk : L.eqv n.2.1 k = true) :
    l.Perm (n :: l.filter (fun m => !L.eqv m.2.1 k)) := by
  obtain ⟨l1, l2, rfl⟩ := List.append_of_mem h
  have hp : (l1 ++ n :: l2).Perm (n :: (l1 ++ l2)) := List.perm_middle
  refine hp.trans (List.Perm.cons n ?_)
  have hd' : Distinct L.C (index (n :: (l1 ++ l2))) := hd.perm hC (hp.map _)
  have h2 := (List.pairwise_cons.1 hd').1
  have hno : ∀ m ∈ l1 ++ l2, L.eqv m.2.1 k = false := by
    intro m hm
    cases he : L.eqv m.2.1 k with
    | false => rfl
    | true =>
      have h3 := h2 (m.2.1, m.1) (List.mem_map.2 ⟨m, hm, rfl⟩)
      have h4 : L.eqv n.2.1 m.2.1 = true := hC.trans _ _ _ hk (hC.symm _ _ he)
      rw [show L.C.eqv (L.C.key ((fun n : Node κ ν => (n.2.1, n.1)) n)) (L.C.key (m.2.1, m.1)) = L.eqv n.2.1 m.2.1 from rfl] at h3
      rw [h4] at h3; cases h3
  have e : (l1 ++ n :: l2).filter (fun m => !L.eqv m.2.1 k) = l1 ++ l2 := by
    rw [List.filter_append, List.filter_cons, if_neg (by simp [hk]), ← List.filter_append, List.filter_eq_self]
    intro m hm; simp [hno m hm]
  rw [e]

theorem abs_erase (l : List (Node κ ν)) (k : κ) :
    (l.filter (fun m => !L.eqv m.2.1 k)).map Prod.snd = Spec.erase Prod.fst L.eqv (l.map Prod.snd) k := by
  unfold Spec.erase
  rw [List.filter_map]
  rfl

theorem abs_lookup_some (hC : CfgOk L.C) {l : List (Node κ ν)} (hd : Distinct L.C (index l)) {n : Node κ ν} (h : n ∈ l) {k : κ}
    (hk : L.eqv n.2.1 k = true) : lookup Prod.fst L.eqv (l.map Prod.snd) k = some n.2 := by
  unfold lookup
  rw [List.find?_map]
  cases hf : l.find? ((fun a : κ × ν => L.eqv a.1 k) ∘ Prod.snd) with
  | none =>
    rw [List.find?_eq_none] at hf
    exact absurd hk (hf n h)
  | some m =>
    have h1 : L.eqv m.2.1 k = true := by
      have := List.find?_some hf
      simpa using this
    have h2 := List.mem_of_find?_eq_some hf
    obtain ⟨l1, l2, rfl⟩ := List.append_of_mem h
    by_cases e : m = n
    · rw [e]; rfl
    · exfalso
      have hp : (l1 ++ n :: l2).Perm (n :: (l1 ++ l2)) := List.perm_middle
      have hm : m ∈ l1 ++ l2 := by
        have := hp.mem_iff.1 h2
        rcases List.mem_cons.1 this with r | r
        · exact absurd r e
        · exact r
      have hd' : Distinct L.C (index (n :: (l1 ++ l2))) := hd.perm hC (hp.map _)
      have h3 := (List.pairwise_cons.1 hd').1 (m.2.1, m.1) (List.mem_map.2 ⟨m, hm, rfl⟩)
      have h4 : L.eqv n.2.1 m.2.1 = true := hC.trans _ _ _ hk (hC.symm _ _ h1)
      rw [show L.C.eqv (L.C.key ((fun n : Node κ ν => (n.2.1, n.1)) n)) (L.C.key (m.2.1, m.1)) = L.eqv n.2.1 m.2.1 from rfl] at h3
      rw [h4] at h3; cases h3

theorem abs_lookup_none {l : List (Node κ ν)} {k : κ} (h : ∀ a ∈ index l, L.C.eqv (L.C.key a) k = false) :
    lookup Prod.fst L.eqv (l.map Prod.snd) k = none := by
  unfold lookup
  rw [List.find?_eq_none]
  intro a ha
  obtain ⟨n, hn, rfl⟩ := List.mem_map.1 ha
  have : L.eqv n.2.1 k = false := h (n.2.1, n.1) (List.mem_map.2 ⟨n, hn, rfl⟩)
  simp [this]

/-- The key of a shard is found in the map exactly if it is in the list; then the map has the iterator to its node. -/
theorem find_sub (hC : CfgOk L.C) {s : Sub κ ν} {next : Nat} (h : SubSim L s next) (k : κ) :
    (∃ i n, s.tbl.find L.C k = .ok (some i) ∧ s.tbl.readSlot i = .ok (n.2.1, n.1) ∧ n ∈ s.lst ∧ L.eqv n.2.1 k = true ∧
      lookup Prod.fst L.eqv s.abs k = some n.2) ∨
    (s.tbl.find L.C k = .ok none ∧ lookup Prod.fst L.eqv s.abs k = none) := by
  rcases find_sim hC h.sim k with ⟨i, a, h1, h2, h3, h4, _⟩ | ⟨h1, h2, _⟩
  · obtain ⟨k', j⟩ := a
    obtain ⟨v, hv⟩ := mem_index.1 h3
    exact .inl ⟨i, (j, k', v), h1, readSlot_ok' h2, hv, h4, abs_lookup_some hC (h.sim.distinct hC) hv h4⟩
  · exact .inr ⟨h1, abs_lookup_none h2⟩

/-- Moving a node to the front. -/
theorem splice_sim (hC : CfgOk L.C) {s : Sub κ ν} {next : Nat} (h : SubSim L s next) {n : Node κ ν} (hn : n ∈ s.lst) {k : κ}
    (hk : L.eqv n.2.1 k = true) :
    ∃ l, splice s.lst n.1 = .ok l ∧ SubSim L { s with lst := l } next ∧
      l.map Prod.snd = n.2 :: Spec.erase Prod.fst L.eqv s.abs k := by
  have hd := h.sim.distinct hC
  have hp := perm_front hC hd hn hk
  refine ⟨_, splice_ok hC h.nodup hd hn hk, ⟨h.sim.perm (hp.map _), ?_, ?_⟩, ?_⟩
  · exact (hp.map Prod.fst).nodup_iff.1 h.nodup
  · exact fun m hm => h.bound m (hp.mem_iff.2 hm)
  · rw [List.map_cons, abs_erase]; rfl

theorem assign_sim {s : Sub κ ν} {next : Nat} (h : SubSim L s next) {n : Node κ ν} (hn : n ∈ s.lst) (v : ν) :
    ∃ l, assign s.lst n.1 v = .ok l ∧ SubSim L { s with lst := l } next ∧ (n.1, n.2.1, v) ∈ l ∧
      (∀ k, L.eqv n.2.1 k = true →
        Spec.erase Prod.fst L.eqv (l.map Prod.snd) k = Spec.erase Prod.fst L.eqv s.abs k) := by
  refine ⟨s.lst.map (fun m => if m.1 == n.1 then (m.1, m.2.1, v) else m), ?_, ⟨?_, ?_, ?_⟩, ?_, ?_⟩
  · unfold assign
    rw [find_id h.nodup hn]
  · have : index (s.lst.map (fun m => if m.1 == n.1 then (m.1, m.2.1, v) else m)) = index s.lst := by
      unfold index
      rw [List.map_map]
      apply List.map_congr_left
      intro m _
      simp only [Function.comp]
      split <;> rfl
    show Sim L.C s.tbl (index _)
    rw [this]
    exact h.sim
  · have : (s.lst.map (fun m => if m.1 == n.1 then (m.1, m.2.1, v) else m)).map Prod.fst = s.lst.map Prod.fst := by
      rw [List.map_map]
      apply List.map_congr_left
      intro m _
      simp only [Function.comp]
      split <;> rfl
    rw [this]
    exact h.nodup
  · intro m hm
    obtain ⟨m', hm', rfl⟩ := List.mem_map.1 hm
    have := h.bound m' hm'
    split <;> exact this
  · exact List.mem_map.2 ⟨n, hn, by simp⟩
  · intro k hk
    rw [← abs_erase, Sub.abs, ← abs_erase, List.filter_map, List.map_map]
    have e : s.lst.filter ((fun m : Node κ ν => !L.eqv m.2.1 k) ∘ fun m => if m.1 == n.1 then (m.1, m.2.1, v) else m) =
        s.lst.filter (fun m => !L.eqv m.2.1 k) := by
      apply List.filter_congr
      intro m _
      simp only [Function.comp]
      split <;> rfl
    rw [e]
    apply List.map_congr_left
    intro m hm
    rw [List.mem_filter] at hm
    simp only [Function.comp]
    rw [if_neg]
    intro hmn
    have : m = n := id_unique h.nodup hm.1 hn (by simpa using hmn)
    rw [this, hk] at hm
    simp at hm

/-- Creating an entry, with eviction of the last one if the list is too long. -/
theorem emplace_new (hC : CfgOk L.C) {s : Sub κ ν} {next : Nat} (h : SubSim L s next) (full : Nat → Bool) (k : κ) (v : ν)
    (found : List (Node κ ν) → Nat → Res (List (Node κ ν))) (hl : lookup Prod.fst L.eqv s.abs k = none) :
    ∃ s', s.emplace L full next k v found = .ok s' ∧ SubSim L s' (next + 1) ∧
      s'.abs = if full (s.abs.length + 1) then ((k, v) :: s.abs).dropLast else (k, v) :: s.abs := by
  rcases emplace_sim hC h.sim (k, next) with ⟨i, b, _, _, hb, e4, _⟩ | ⟨t', i, e1, e2, e3, e4⟩
  · exfalso
    obtain ⟨k', j⟩ := b
    obtain ⟨w, hw⟩ := mem_index.1 hb
    rw [show s.abs = s.lst.map Prod.snd from rfl, abs_lookup_some hC (h.sim.distinct hC) hw (show L.eqv k' k = true from e4)] at hl
    cases hl
  · have hnew : SubSim L { tbl := t', lst := (next, k, v) :: s.lst } (next + 1) := by
      refine ⟨e3, ?_, ?_⟩
      · show (next :: s.lst.map Prod.fst).Nodup
        rw [List.nodup_cons]
        refine ⟨?_, h.nodup⟩
        intro hm
        obtain ⟨n, hn, en⟩ := List.mem_map.1 hm
        have := h.bound n hn
        omega
      · intro n hn
        rcases List.mem_cons.1 hn with rfl | hn
        · exact Nat.lt_succ_self next
        · exact Nat.lt_succ_of_lt (h.bound n hn)
    have hf : s.tbl.findHash L.C k (L.hash k) = .ok none := by
      rcases find_sub hC h k with ⟨_, n, _, _, _, _, h5⟩ | ⟨h1, _⟩
      · rw [hl] at h5; cases h5
      · exact h1
    unfold Tbl.emplace Tbl.emplaceHash at e1
    unfold Sub.emplace
    dsimp only
    rw [show L.C.key (k, next) = k from rfl, show L.C.hash k = L.hash k from rfl] at e1
    rw [hf] at e1 ⊢
    simp only [Res.ok_bind] at e1 ⊢
    rw [Res.bind_eq_ok] at e1
    obtain ⟨⟨t1, off⟩, g1, e1⟩ := e1
    rw [g1]
    simp only [Res.ok_bind] at e1 ⊢
    rw [Res.bind_eq_ok] at e1
    obtain ⟨t2, g2, e1⟩ := e1
    rw [g2]
    simp only [Res.ok_bind] at e1 ⊢
    rw [Res.bind_eq_ok] at e1
    obtain ⟨t3, g3, e1⟩ := e1
    simp only [Res.ok.injEq, Prod.mk.injEq] at e1
    obtain ⟨rfl, _⟩ := e1
    have hlen : ((next, k, v) :: s.lst).length = s.abs.length + 1 := by simp [Sub.abs]
    unfold evict
    rw [hlen]
    cases hfull : full (s.abs.length + 1) with
    | false =>
      simp only [if_false, Bool.false_eq_true]
      rw [Res.ok_bind]
      dsimp only
      rw [show L.G.W = L.C.G.W from rfl, g3]
      exact ⟨_, rfl, hnew, rfl⟩
    | true =>
      simp only [if_true]
      obtain ⟨n, hlast⟩ : ∃ n, ((next, k, v) :: s.lst).getLast? = some n := ⟨_, List.getLast?_eq_some_getLast (by simp)⟩
      rw [hlast]
      rw [Res.ok_bind]
      dsimp only
      rw [show L.G.W = L.C.G.W from rfl, g3]
      have hsplit : (next, k, v) :: s.lst = ((next, k, v) :: s.lst).dropLast ++ [n] :=
        (List.dropLast_append_getLast? n hlast).symm
      have hp : ((next, k, v) :: s.lst).Perm (n :: ((next, k, v) :: s.lst).dropLast) := by
        have : (((next, k, v) :: s.lst).dropLast ++ [n]).Perm (n :: ((next, k, v) :: s.lst).dropLast) := by
          exact List.perm_append_comm (l₁ := ((next, k, v) :: s.lst).dropLast) (l₂ := [n])
        rw [← hsplit] at this
        exact this
      obtain ⟨t4, g4, g5⟩ := step_sim hC hnew.sim (.erase n.2.1) trivial
      unfold Tbl.step at g4
      simp only [Res.ok_bind]
      dsimp only at g4
      rw [Res.bind_eq_ok] at g4
      obtain ⟨⟨t5, m⟩, g6, g7⟩ := g4
      rw [g6]
      simp only [Res.ok.injEq, Prod.mk.injEq] at g7
      obtain ⟨rfl, _⟩ := g7
      refine ⟨{ tbl := t5, lst := ((next, k, v) :: s.lst).dropLast }, rfl, ⟨?_, ?_, ?_⟩, ?_⟩
      · refine g5.perm ?_
        show (Spec.erase L.C.key L.C.eqv (index ((next, k, v) :: s.lst)) n.2.1).Perm _
        exact erase_some hC (hnew.sim.distinct hC) (hp.map (fun n : Node κ ν => (n.2.1, n.1))) (hC.refl _)
      · exact (List.nodup_cons.1 ((hp.map Prod.fst).nodup_iff.1 hnew.nodup)).2
      · exact fun m hm => hnew.bound m (List.mem_of_mem_dropLast hm)
      · show (((next, k, v) :: s.lst).dropLast).map Prod.snd = _
        rw [List.map_dropLast]
        rfl

/-- `insert` on one shard. -/
theorem insert_sub (hC : CfgOk L.C) {s : Sub κ ν} {next : Nat} (h : SubSim L s next) (max : Nat) (k : κ) (v : ν) :
    ∃ s', s.insert L max next k v = .ok s' ∧ SubSim L s' (next + 1) ∧ s'.abs = Spec.Lru.insert L.eqv max s.abs k v := by
  unfold Sub.insert Spec.Lru.insert
  rcases find_sub hC h k with ⟨i, n, h1, h2, h3, h4, h5⟩ | ⟨_, h5⟩
  · rw [h5]
    obtain ⟨l, a1, a2, a3, a4⟩ := assign_sim h h3 v
    obtain ⟨l', b1, b2, b3⟩ := splice_sim hC a2 (n := (n.1, n.2.1, v)) a3 h4
    refine ⟨{ s with lst := l' }, ?_, b2.mono (Nat.le_succ _), ?_⟩
    · unfold Sub.emplace
      dsimp only
      rw [show s.tbl.findHash L.C k (L.hash k) = .ok (some i) from h1]
      simp only [Res.ok_bind]
      rw [h2]
      simp only [Res.ok_bind]
      rw [a1]
      simp only [Res.ok_bind]
      rw [b1]
      rfl
    · show l'.map Prod.snd = _
      rw [b3]
      exact congrArg (List.cons _) (a4 k h4)
  · rw [h5]
    obtain ⟨s', r1, r2, r3⟩ := emplace_new hC h (fun n => n > max) k v
      (fun l it => do
        let l ← assign l it v
        splice l it) h5
    refine ⟨s', r1, r2, ?_⟩
    rw [r3]
    simp only [decide_eq_true_eq]

/-- `get` on one shard. -/
theorem get_sub (hC : CfgOk L.C) {s : Sub κ ν} {next : Nat} (h : SubSim L s next) (k : κ) :
    ∃ s', s.get L k = .ok (s', (Spec.Lru.get L.eqv s.abs k).2) ∧ SubSim L s' next ∧
      s'.abs = (Spec.Lru.get L.eqv s.abs k).1 := by
  unfold Sub.get Spec.Lru.get Sub.ifContains
  rcases find_sub hC h k with ⟨i, n, h1, h2, h3, h4, h5⟩ | ⟨h1, h5⟩
  · rw [h5, h1]
    obtain ⟨l', b1, b2, b3⟩ := splice_sim hC h h3 h4
    simp only [Res.ok_bind]
    rw [h2]
    have hd : deref s.lst n.1 = .ok n.2 := by unfold deref; rw [find_id h.nodup h3]
    simp only [Res.ok_bind]
    rw [hd]
    simp only [Res.ok_bind]
    rw [b1]
    exact ⟨_, rfl, b2, b3⟩
  · rw [h5, h1]
    exact ⟨s, rfl, h, rfl⟩

/-- `exists` on one shard. -/
theorem exists_sub (hC : CfgOk L.C) {s : Sub κ ν} {next : Nat} (h : SubSim L s next) (k : κ) :
    s.exists L k = .ok (s, (lookup Prod.fst L.eqv s.abs k).isSome) := by
  unfold Sub.exists Sub.ifContains
  rcases find_sub hC h k with ⟨i, n, h1, h2, h3, h4, h5⟩ | ⟨h1, h5⟩
  · rw [h5, h1]
    simp only [Res.ok_bind]
    rw [h2]
    rfl
  · rw [h5, h1]
    rfl

/-- `contains` of `memoize_lru` on one shard. -/
theorem peek_sub (hC : CfgOk L.C) {s : Sub κ ν} {next : Nat} (h : SubSim L s next) (k : κ) :
    s.peek L k = .ok (s, (lookup Prod.fst L.eqv s.abs k).map Prod.snd) := by
  unfold Sub.peek Sub.ifContains
  rcases find_sub hC h k with ⟨i, n, h1, h2, h3, h4, h5⟩ | ⟨h1, h5⟩
  · rw [h5, h1]
    simp only [Res.ok_bind]
    rw [h2]
    have hd : deref s.lst n.1 = .ok n.2 := by unfold deref; rw [find_id h.nodup h3]
    simp only [Res.ok_bind]
    rw [hd]
    rfl
  · rw [h5, h1]
    rfl

end Gtl.Lru
