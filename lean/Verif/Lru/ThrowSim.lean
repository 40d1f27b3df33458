import Verif.Lru.Throw
import Verif.Lru.Sim
import Verif.Memo.LruThrowSim
/-!
# A cache some of whose insertions throw behaves like its reference
-/

namespace Gtl.Lru

open Gtl.Swiss Gtl.Parallel
open Gtl.Spec.LruThrow (Fault TOp TResp)
open Gtl.Spec.Lru (Op Resp)

variable {κ ν : Type} {L : LCfg κ}

/-- The nodes that the map leads to. -/
def live (g : List (Node κ ν × Bool)) : List (Node κ ν) := (g.filter Prod.snd).map Prod.fst

/-- The entries of a list of nodes. -/
def vis (g : List (Node κ ν × Bool)) : List ((κ × ν) × Bool) := g.map (fun e => (e.1.2, e.2))

/-- A shard whose list is `g`, the map leading to the nodes marked, with `x` exceptions behind it, of which at most `r` are not
accounted for in the room for new entries. -/
structure SubG (L : LCfg κ) (s : Sub κ ν) (g : List (Node κ ν × Bool)) (next x r : Nat) : Prop where
  lst : g.map Prod.fst = s.lst
  sim : Swiss.PSim L.C False s.tbl (index (live g)) x r
  nodup : (g.map (fun e => e.1.1)).Nodup
  bound : ∀ e ∈ g, e.1.1 < next

theorem SubG.mono {s : Sub κ ν} {g : List (Node κ ν × Bool)} {m n x r r' : Nat} (h : SubG L s g m x r) (hm : m ≤ n) (hr : r ≤ r') :
    SubG L s g n x r' :=
  ⟨h.lst, Memo.psim_mono h.sim hr, h.nodup, fun y hy => Nat.lt_of_lt_of_le (h.bound y hy) hm⟩

theorem SubG.ids {s : Sub κ ν} {g : List (Node κ ν × Bool)} {next x r : Nat} (h : SubG L s g next x r) :
    (s.lst.map Prod.fst).Nodup := by
  rw [← h.lst, List.map_map]
  exact h.nodup

theorem mem_index_live {g : List (Node κ ν × Bool)} {k : κ} {j : Nat} (h : (k, j) ∈ index (live g)) :
    ∃ e ∈ g, e.2 = true ∧ e.1.1 = j ∧ e.1.2.1 = k := by
  obtain ⟨v, hv⟩ := mem_index.1 h
  obtain ⟨e, he, e2⟩ := List.mem_map.1 hv
  obtain ⟨e3, e4⟩ := List.mem_filter.1 he
  exact ⟨e, e3, e4, by rw [e2], by rw [e2]⟩

theorem index_live_mem {g : List (Node κ ν × Bool)} {e : Node κ ν × Bool} (h : e ∈ g) (h2 : e.2 = true) :
    (e.1.2.1, e.1.1) ∈ index (live g) :=
  mem_index.2 ⟨e.1.2.2, List.mem_map.2 ⟨e, List.mem_filter.2 ⟨h, h2⟩, rfl⟩⟩

/-- The entry of a key is found by its identity. -/
theorem id_iff_live (hC : CfgOk L.C) {g : List (Node κ ν × Bool)} (hn : (g.map (fun e => e.1.1)).Nodup)
    (hd : Distinct L.C (index (live g))) {e : Node κ ν × Bool} (he : e ∈ g) (he2 : e.2 = true) {k : κ}
    (hk : L.eqv e.1.2.1 k = true) {f : Node κ ν × Bool} (hf : f ∈ g) :
    (f.1.1 == e.1.1) = (f.2 && L.eqv f.1.2.1 k) := by
  cases hb : (f.2 && L.eqv f.1.2.1 k) with
  | true =>
    rw [Bool.and_eq_true] at hb
    have := hd.eq_of hC (index_live_mem hf hb.1) (index_live_mem he he2) (k := k) hb.2 hk
    rw [beq_iff_eq]
    exact congrArg Prod.snd this
  | false =>
    rw [beq_eq_false_iff_ne]
    intro h
    have : f = e := List.inj_on_of_nodup_map hn hf he h
    rw [this, he2, hk] at hb
    cases hb

theorem find_vis (hC : CfgOk L.C) {g : List (Node κ ν × Bool)} (hn : (g.map (fun e => e.1.1)).Nodup)
    (hd : Distinct L.C (index (live g))) {e : Node κ ν × Bool} (he : e ∈ g) (he2 : e.2 = true) {k : κ}
    (hk : L.eqv e.1.2.1 k = true) : Spec.LruThrow.find L.eqv (vis g) k = some (e.1.2, true) := by
  unfold Spec.LruThrow.find vis
  rw [List.find?_map]
  cases hf : g.find? ((fun e : (κ × ν) × Bool => e.2 && L.eqv e.1.1 k) ∘ fun e => (e.1.2, e.2)) with
  | none =>
    rw [List.find?_eq_none] at hf
    have := hf e he
    simp [he2, hk] at this
  | some f =>
    have h1 := List.find?_some hf
    have h2 := List.mem_of_find?_eq_some hf
    have h3 : (f.1.1 == e.1.1) = true := by
      rw [id_iff_live hC hn hd he he2 hk h2]
      exact h1
    have h4 : f = e := List.inj_on_of_nodup_map hn h2 he (by simpa using h3)
    rw [h4, ← he2]
    rfl

theorem find_subG (hC : CfgOk L.C) {s : Sub κ ν} {g : List (Node κ ν × Bool)} {next x r : Nat} (h : SubG L s g next x r) (k : κ) :
    (∃ i e, s.tbl.find L.C k = .ok (some i) ∧ s.tbl.readSlot i = .ok (e.1.2.1, e.1.1) ∧ e ∈ g ∧ e.2 = true ∧
      L.eqv e.1.2.1 k = true ∧ Spec.LruThrow.find L.eqv (vis g) k = some (e.1.2, true)) ∨
    (s.tbl.find L.C k = .ok none ∧ Spec.LruThrow.find L.eqv (vis g) k = none) := by
  rcases find_psim hC h.sim k with ⟨i, a, h1, h2, h3, h4, _⟩ | ⟨h1, h2, _⟩
  · obtain ⟨k', j⟩ := a
    obtain ⟨e, e1, e2, rfl, rfl⟩ := mem_index_live h3
    exact .inl ⟨i, e, h1, readSlot_ok' h2, e1, e2, h4, find_vis hC h.nodup (h.sim.distinct hC) e1 e2 h4⟩
  · refine .inr ⟨h1, ?_⟩
    unfold Spec.LruThrow.find
    rw [List.find?_eq_none]
    intro e he
    obtain ⟨f, hf, rfl⟩ := List.mem_map.1 he
    dsimp only
    cases hf2 : f.2 with
    | false => simp
    | true =>
      have := h2 _ (index_live_mem hf hf2)
      rw [show L.C.eqv (L.C.key (f.1.2.1, f.1.1)) k = L.eqv f.1.2.1 k from rfl] at this
      simp [this]

/-- The list with one node moved to the front. -/
def moved (g : List (Node κ ν × Bool)) (e : Node κ ν × Bool) : List (Node κ ν × Bool) :=
  e :: g.filter (fun f => !(f.1.1 == e.1.1))

theorem moved_perm {g : List (Node κ ν × Bool)} (hn : (g.map (fun e => e.1.1)).Nodup) {e : Node κ ν × Bool} (he : e ∈ g) :
    (moved g e).Perm g := by
  obtain ⟨l1, l2, rfl⟩ := List.append_of_mem he
  have hp : (l1 ++ e :: l2).Perm (e :: (l1 ++ l2)) := List.perm_middle
  refine (List.Perm.cons e ?_).trans hp.symm
  have h2 := (List.nodup_cons.1 ((hp.map (fun e : Node κ ν × Bool => e.1.1)).nodup_iff.1 hn)).1
  have hno : ∀ f ∈ l1 ++ l2, (!(f.1.1 == e.1.1)) = true := by
    intro f hf
    rw [Bool.not_eq_true', beq_eq_false_iff_ne]
    intro h
    exact h2 (List.mem_map.2 ⟨f, hf, h⟩)
  rw [List.filter_append, List.filter_cons, if_neg (by simp), ← List.filter_append, List.filter_eq_self.2 hno]

theorem deref_subG {s : Sub κ ν} {g : List (Node κ ν × Bool)} {next x r : Nat} (h : SubG L s g next x r)
    {e : Node κ ν × Bool} (he : e ∈ g) : deref s.lst e.1.1 = .ok e.1.2 := by
  unfold deref
  rw [find_id h.ids (n := e.1) (by rw [← h.lst]; exact List.mem_map.2 ⟨e, he, rfl⟩)]

theorem splice_subG {s : Sub κ ν} {g : List (Node κ ν × Bool)} {next x r : Nat} (h : SubG L s g next x r)
    {e : Node κ ν × Bool} (he : e ∈ g) :
    splice s.lst e.1.1 = .ok ((moved g e).map Prod.fst) ∧
      SubG L { s with lst := (moved g e).map Prod.fst } (moved g e) next x r := by
  have hp := moved_perm h.nodup he
  refine ⟨?_, rfl, ?_, ?_, ?_⟩
  · unfold splice
    rw [find_id h.ids (n := e.1) (by rw [← h.lst]; exact List.mem_map.2 ⟨e, he, rfl⟩)]
    unfold moved
    rw [List.map_cons, ← h.lst, List.filter_map]
    rfl
  · exact Memo.psim_perm h.sim (((hp.symm.filter _).map _).map _)
  · exact (hp.map _).nodup_iff.2 h.nodup
  · exact fun f hf => h.bound f (hp.mem_iff.1 hf)

theorem moved_vis (hC : CfgOk L.C) {g : List (Node κ ν × Bool)} (hn : (g.map (fun e => e.1.1)).Nodup)
    (hd : Distinct L.C (index (live g))) {e : Node κ ν × Bool} (he : e ∈ g) (he2 : e.2 = true) {k : κ}
    (hk : L.eqv e.1.2.1 k = true) :
    vis (moved g e) = (e.1.2, true) :: Spec.LruThrow.rest L.eqv (vis g) k := by
  unfold moved vis Spec.LruThrow.rest
  rw [List.map_cons, he2, List.filter_map]
  congr 2
  apply List.filter_congr
  intro f hf
  simp only [Function.comp]
  rw [id_iff_live hC hn hd he he2 hk hf]

/-- The list after an assignment to the value of node `i`. -/
def assigned (g : List (Node κ ν × Bool)) (i : Nat) (v : ν) : List (Node κ ν × Bool) :=
  g.map (fun f => if f.1.1 == i then ((f.1.1, f.1.2.1, v), f.2) else f)

theorem assign_subG {s : Sub κ ν} {g : List (Node κ ν × Bool)} {next x r : Nat} (h : SubG L s g next x r)
    {e : Node κ ν × Bool} (he : e ∈ g) (v : ν) :
    assign s.lst e.1.1 v = .ok ((assigned g e.1.1 v).map Prod.fst) ∧
      SubG L { s with lst := (assigned g e.1.1 v).map Prod.fst } (assigned g e.1.1 v) next x r := by
  refine ⟨?_, rfl, ?_, ?_, ?_⟩
  · unfold assign
    rw [find_id h.ids (n := e.1) (by rw [← h.lst]; exact List.mem_map.2 ⟨e, he, rfl⟩)]
    unfold assigned
    simp only [Res.ok.injEq]
    rw [← h.lst, List.map_map, List.map_map]
    apply List.map_congr_left
    intro f _
    simp only [Function.comp]
    split <;> rfl
  · have : index (live (assigned g e.1.1 v)) = index (live g) := by
      unfold index live assigned
      rw [List.filter_map, List.map_map, List.map_map, List.map_map]
      rw [List.filter_congr (q := Prod.snd) (fun f _ => by simp only [Function.comp]; split <;> rfl)]
      apply List.map_congr_left
      intro f _
      simp only [Function.comp]
      split <;> rfl
    show Swiss.PSim L.C False s.tbl (index (live (assigned g e.1.1 v))) x r
    rw [this]
    exact h.sim
  · have : (assigned g e.1.1 v).map (fun e => e.1.1) = g.map (fun e => e.1.1) := by
      unfold assigned
      rw [List.map_map]
      apply List.map_congr_left
      intro f _
      simp only [Function.comp]
      split <;> rfl
    rw [this]
    exact h.nodup
  · intro f hf
    obtain ⟨f', hf', rfl⟩ := List.mem_map.1 hf
    have := h.bound f' hf'
    split <;> exact this

/-- `insert` when the key is there. -/
theorem insert_foundG (hC : CfgOk L.C) {s : Sub κ ν} {g : List (Node κ ν × Bool)} {next x r : Nat} (h : SubG L s g next x r)
    (max : Nat) (k : κ) (v : ν) {i : Nat} {e : Node κ ν × Bool} (h1 : s.tbl.find L.C k = .ok (some i))
    (h2 : s.tbl.readSlot i = .ok (e.1.2.1, e.1.1)) (h3 : e ∈ g) (h4 : e.2 = true) (h5 : L.eqv e.1.2.1 k = true) :
    ∃ s' g', s.insert L max next k v = .ok s' ∧ SubG L s' g' next x r ∧
      vis g' = ((e.1.2.1, v), true) :: Spec.LruThrow.rest L.eqv (vis g) k := by
  obtain ⟨a1, a2⟩ := assign_subG h h3 v
  have h3' : ((e.1.1, e.1.2.1, v), true) ∈ assigned g e.1.1 v :=
    List.mem_map.2 ⟨e, h3, by rw [if_pos (by simp), h4]⟩
  obtain ⟨b1, b2⟩ := splice_subG a2 h3'
  refine ⟨_, moved (assigned g e.1.1 v) ((e.1.1, e.1.2.1, v), true), ?_, b2, ?_⟩
  · unfold Sub.insert Sub.emplace
    dsimp only
    rw [show s.tbl.findHash L.C k (L.hash k) = .ok (some i) from h1]
    simp only [Res.ok_bind]
    rw [h2]
    simp only [Res.ok_bind]
    rw [a1]
    simp only [Res.ok_bind]
    dsimp only at b1
    rw [b1]
    rfl
  · rw [moved_vis (L := L) hC a2.nodup (a2.sim.distinct hC) h3' rfl h5]
    congr 1
    unfold Spec.LruThrow.rest vis assigned
    rw [List.map_map, List.filter_map, List.filter_map]
    have e1 : g.filter ((fun e : (κ × ν) × Bool => !(e.2 && L.eqv e.1.1 k)) ∘ ((fun e : Node κ ν × Bool => (e.1.2, e.2)) ∘
        fun f => if f.1.1 == e.1.1 then ((f.1.1, f.1.2.1, v), f.2) else f)) =
        g.filter ((fun e : (κ × ν) × Bool => !(e.2 && L.eqv e.1.1 k)) ∘ fun e : Node κ ν × Bool => (e.1.2, e.2)) := by
      apply List.filter_congr
      intro f _
      simp only [Function.comp]
      split <;> rfl
    rw [e1]
    apply List.map_congr_left
    intro f hf
    rw [List.mem_filter] at hf
    simp only [Function.comp]
    rw [if_neg]
    rw [id_iff_live hC h.nodup (h.sim.distinct hC) h3 h4 h5 hf.1]
    have := hf.2
    simp only [Function.comp, Bool.not_eq_true'] at this
    rw [this]
    exact Bool.false_ne_true

/-- The list after its last node, `d`, has been dropped and its key forgotten. -/
def dropped (eqv : κ → κ → Bool) (g : List (Node κ ν × Bool)) (k : κ) : List (Node κ ν × Bool) :=
  g.map (fun f => (f.1, f.2 && !eqv f.1.2.1 k))

theorem index_dropped (eqv : κ → κ → Bool) (g : List (Node κ ν × Bool)) (k : κ) :
    index (live (dropped eqv g k)) = (index (live g)).filter (fun a => !eqv a.1 k) := by
  unfold index live dropped
  induction g with
  | nil => rfl
  | cons f g ih =>
    rw [List.map_cons, List.filter_cons, List.filter_cons]
    cases hf : f.2 with
    | false => simpa using ih
    | true =>
      cases hq : eqv f.1.2.1 k with
      | false => simp only [Bool.not_false, Bool.and_true, if_true, List.map_cons, List.filter_cons, hq, ih]
      | true => simpa [List.filter_cons, hq] using ih

theorem cons_subG {s : Sub κ ν} {g : List (Node κ ν × Bool)} {next x r : Nat} (h : SubG L s g next x r) (k : κ) (v : ν) (b : Bool)
    {t : Tbl (κ × Nat)} {x' r' : Nat} (ht : Swiss.PSim L.C False t (index (live (((next, k, v), b) :: g))) x' r') :
    SubG L { tbl := t, lst := (next, k, v) :: s.lst } (((next, k, v), b) :: g) (next + 1) x' r' := by
  refine ⟨by rw [List.map_cons, h.lst], ht, ?_, ?_⟩
  · rw [List.map_cons, List.nodup_cons]
    refine ⟨?_, h.nodup⟩
    intro hm
    obtain ⟨n, hn, en⟩ := List.mem_map.1 hm
    have := h.bound n hn
    dsimp only at en
    omega
  · intro n hn
    rcases List.mem_cons.1 hn with rfl | hn
    · exact Nat.lt_succ_self next
    · exact Nat.lt_succ_of_lt (h.bound n hn)

theorem emplace_newG (hC : CfgOk L.C) {s : Sub κ ν} {g : List (Node κ ν × Bool)} {next x r : Nat} (h : SubG L s g next x r)
    (hr : r ≤ 7) (full : Nat → Bool) (k : κ) (v : ν) (found : List (Node κ ν) → Nat → Res (List (Node κ ν)))
    (hl : s.tbl.find L.C k = .ok none) :
    ∃ s' g', s.emplace L full next k v found = .ok s' ∧ SubG L s' g' (next + 1) x r ∧
      vis g' = if full (g.length + 1) then Spec.LruThrow.evict L.eqv (((k, v), true) :: vis g) else ((k, v), true) :: vis g := by
  rcases emplace_psim hC h.sim hr (k, next) with ⟨i, b, e0, _⟩ | ⟨t', i, e1, e2, e3, e4⟩
  · exfalso
    unfold Tbl.emplace Tbl.emplaceHash at e0
    rw [show L.C.key (k, next) = k from rfl] at e0
    unfold Tbl.find at hl
    rw [hl] at e0
    simp only [Res.ok_bind] at e0
    rw [Res.bind_eq_ok] at e0
    obtain ⟨_, _, e0⟩ := e0
    rw [Res.bind_eq_ok] at e0
    obtain ⟨_, _, e0⟩ := e0
    rw [Res.bind_eq_ok] at e0
    obtain ⟨_, _, e0⟩ := e0
    simp at e0
  · have hnew := cons_subG h k v true (t := t') e3
    unfold Tbl.emplace Tbl.emplaceHash at e1
    unfold Sub.emplace
    dsimp only
    rw [show L.C.key (k, next) = k from rfl, show L.C.hash k = L.hash k from rfl] at e1
    unfold Tbl.find at hl
    rw [show s.tbl.findHash L.C k (L.hash k) = .ok none from hl] at e1 ⊢
    simp only [Res.ok_bind] at e1 ⊢
    rw [Res.bind_eq_ok] at e1
    obtain ⟨⟨t1, off⟩, g1, e1⟩ := e1
    rw [g1]
    simp only [Res.ok_bind] at e1 ⊢
    rw [Res.bind_eq_ok] at e1
    obtain ⟨t2, g2, e1⟩ := e1
    rw [g2]
    simp only [Res.ok_bind] at e1 ⊢
    rw [Res.bind_eq_ok] at e1
    obtain ⟨t3, g3, e1⟩ := e1
    simp only [Res.ok.injEq, Prod.mk.injEq] at e1
    obtain ⟨rfl, _⟩ := e1
    have hlen : ((next, k, v) :: s.lst).length = g.length + 1 := by rw [← h.lst]; simp
    unfold evict
    rw [hlen]
    cases hfull : full (g.length + 1) with
    | false =>
      simp only [if_false, Bool.false_eq_true]
      rw [Res.ok_bind]
      dsimp only
      rw [show L.G.W = L.C.G.W from rfl, g3]
      exact ⟨_, _, rfl, hnew, rfl⟩
    | true =>
      simp only [if_true]
      obtain ⟨d, hlast⟩ : ∃ d, (((next, k, v), true) :: g).getLast? = some d := ⟨_, List.getLast?_eq_some_getLast (by simp)⟩
      have hlast' : ((next, k, v) :: s.lst).getLast? = some d.1 := by
        rw [← h.lst, ← List.map_cons (f := Prod.fst) (a := ((next, k, v), true)), List.getLast?_map, hlast]
        rfl
      rw [hlast']
      rw [Res.ok_bind]
      dsimp only
      rw [show L.G.W = L.C.G.W from rfl, g3]
      have hsplit : ((next, k, v), true) :: g = (((next, k, v), true) :: g).dropLast ++ [d] :=
        (List.dropLast_append_getLast? d hlast).symm
      obtain ⟨t4, _, g4, _, _, g5⟩ := step_psim hC hnew.sim hr (.erase d.1.2.1) trivial (fun h => h.elim)
      replace g5 := g5 (by simp)
      unfold Tbl.step at g4
      simp only [Res.ok_bind]
      dsimp only at g4
      rw [Res.bind_eq_ok] at g4
      obtain ⟨⟨t5, m⟩, g6, g7⟩ := g4
      rw [g6]
      simp only [Res.ok.injEq, Prod.mk.injEq] at g7
      obtain ⟨rfl, _⟩ := g7
      refine ⟨{ tbl := t5, lst := ((next, k, v) :: s.lst).dropLast },
        dropped L.eqv (((next, k, v), true) :: g).dropLast d.1.2.1, rfl, ⟨?_, ?_, ?_, ?_⟩, ?_⟩
      · show _ = ((next, k, v) :: s.lst).dropLast
        rw [← h.lst, ← List.map_cons (f := Prod.fst) (a := ((next, k, v), true)), ← List.map_dropLast]
        unfold dropped
        rw [List.map_map]
        rfl
      · rw [index_dropped]
        have : Spec.erase L.C.key L.C.eqv (index (live (((next, k, v), true) :: g))) d.1.2.1 =
            (index (live (((next, k, v), true) :: g).dropLast)).filter (fun a => !L.eqv a.1 d.1.2.1) := by
          conv_lhs => rw [hsplit]
          unfold Spec.erase index live
          rw [List.filter_append, List.map_append, List.map_append, List.filter_append]
          have hnil : (List.map (fun n : Node κ ν => (n.2.1, n.1)) (([d].filter Prod.snd).map Prod.fst)).filter
              (fun a => !L.C.eqv (L.C.key a) d.1.2.1) = [] := by
            rw [List.filter_eq_nil_iff]
            intro a ha
            obtain ⟨b, hb, rfl⟩ := List.mem_map.1 ha
            obtain ⟨b', hb', rfl⟩ := List.mem_map.1 hb
            have := List.mem_singleton.1 (List.mem_filter.1 hb').1
            rw [this]
            have := hC.refl d.1.2.1
            simpa [LCfg.C] using this
          rw [hnil, List.append_nil]
          rfl
        rw [← this]
        exact g5
      · have e5 : (dropped L.eqv (((next, k, v), true) :: g).dropLast d.1.2.1).map (fun e => e.1.1) =
            (((next, k, v), true) :: g).dropLast.map (fun e => e.1.1) := by
          unfold dropped
          rw [List.map_map]
          rfl
        rw [e5]
        exact hnew.nodup.sublist ((List.dropLast_sublist _).map _)
      · intro f hf
        obtain ⟨f', hf', rfl⟩ := List.mem_map.1 hf
        exact hnew.bound f' (List.mem_of_mem_dropLast hf')
      · unfold Spec.LruThrow.evict
        have hl3 : (((k, v), true) :: vis g).getLast? = some (d.1.2, d.2) := by
          have : ((k, v), true) :: vis g = vis (((next, k, v), true) :: g) := rfl
          rw [this]
          unfold vis
          rw [List.getLast?_map, hlast]
          rfl
        rw [hl3]
        dsimp only
        have : ((k, v), true) :: vis g = vis (((next, k, v), true) :: g) := rfl
        rw [this]
        unfold Spec.LruThrow.unlink dropped vis
        rw [← List.map_dropLast, List.map_map, List.map_map]
        rfl

/-- `insert` on one shard. -/
theorem insert_subG (hC : CfgOk L.C) {s : Sub κ ν} {g : List (Node κ ν × Bool)} {next x r : Nat} (h : SubG L s g next x r)
    (hr : r ≤ 7) (max : Nat) (k : κ) (v : ν) :
    ∃ s' g', s.insert L max next k v = .ok s' ∧ SubG L s' g' (next + 1) x r ∧
      vis g' = Spec.LruThrow.insert L.eqv max (vis g) k v := by
  unfold Spec.LruThrow.insert
  rcases find_subG hC h k with ⟨i, e, h1, h2, h3, h4, h5, h6⟩ | ⟨h1, h5⟩
  · rw [h6]
    obtain ⟨s', g', r1, r2, r3⟩ := insert_foundG hC h max k v h1 h2 h3 h4 h5
    exact ⟨s', g', r1, r2.mono (Nat.le_succ _) (Nat.le_refl _), r3⟩
  · rw [h5]
    obtain ⟨s', g', r1, r2, r3⟩ := emplace_newG hC h hr (fun n => n > max) k v
      (fun l it => do
        let l ← assign l it v
        splice l it) h1
    refine ⟨s', g', r1, r2, ?_⟩
    rw [r3]
    simp only [decide_eq_true_eq]
    rw [show (vis g).length = g.length by simp [vis]]

/-- `prepare_insert` for a key that is not there, nothing else. -/
theorem prepareG (hC : CfgOk L.C) {s : Sub κ ν} {g : List (Node κ ν × Bool)} {next x r : Nat} (h : SubG L s g next x r)
    (hr : r ≤ 7) (k : κ) (hl : s.tbl.find L.C k = .ok none) :
    ∃ t off, s.tbl.prepareInsert L.C (L.hash k) = .ok (t, off) ∧ Swiss.PSim L.C False t (index (live g)) (x + 1) (r + 1) := by
  unfold Tbl.find at hl
  rcases emplaceThrow_psim hC h.sim hr (k, next) with ⟨e1, e2⟩ | ⟨t', e1, _, e3, _⟩
  · exfalso
    unfold Tbl.emplaceThrow at e1
    rw [show s.tbl.findHash L.C (L.C.key (k, next)) (L.C.hash (L.C.key (k, next))) = .ok none from hl] at e1
    simp only [Res.ok_bind] at e1
    obtain ⟨y, _, g⟩ := Res.bind_eq_ok.1 e1
    injection g with g
    injection g with _ g
    cases g
  · unfold Tbl.emplaceThrow at e1
    rw [show s.tbl.findHash L.C (L.C.key (k, next)) (L.C.hash (L.C.key (k, next))) = .ok none from hl] at e1
    simp only [Res.ok_bind] at e1
    obtain ⟨⟨t1, off⟩, g1, g2⟩ := Res.bind_eq_ok.1 e1
    injection g2 with g2
    injection g2 with g2 _
    subst g2
    exact ⟨_, off, g1, e3⟩

/-- An insertion during which something throws, on one shard. -/
theorem insertThrow_subG (hC : CfgOk L.C) {s : Sub κ ν} {g : List (Node κ ν × Bool)} {next x r : Nat} (h : SubG L s g next x r)
    (hr : r + 1 ≤ 7) (max : Nat) (k : κ) (v : ν) (w : Fault) (hw : w ≠ .answer) :
    ∃ s' g', s.insertThrow L max next k v w = .ok (s', (Spec.LruThrow.throwing L.eqv max (vis g) k v w).2) ∧
      SubG L s' g' (next + 1) (x + if (Spec.LruThrow.throwing L.eqv max (vis g) k v w).2 &&
        (Spec.LruThrow.find L.eqv (vis g) k).isNone then 1 else 0) (r + 1) ∧
      vis g' = (Spec.LruThrow.throwing L.eqv max (vis g) k v w).1 := by
  have hlen : (vis g).length = g.length := by simp [vis]
  have hlen' : s.lst.length = g.length := by rw [← h.lst]; simp
  obtain ⟨si, gi, i1, i2, i3⟩ := insert_subG hC h (by omega) max k v
  have i2' := i2.mono (Nat.le_refl _) (Nat.le_succ r)
  unfold Sub.insertThrow
  rcases find_subG hC h k with ⟨i, e, h1, h2, h3, h4, h5, h6⟩ | ⟨h1, h6⟩
  · rw [show s.tbl.findHash L.C k (L.hash k) = .ok (some i) from h1]
    rw [Res.ok_bind]
    dsimp only
    cases w with
    | value =>
      rw [if_pos rfl, h2, Res.ok_bind, deref_subG h h3, Res.ok_bind]
      refine ⟨s, g, rfl, ?_, rfl⟩
      rw [h6]
      exact h.mono (Nat.le_succ _) (Nat.le_succ _)
    | answer => exact absurd rfl hw
    | _ =>
      rw [if_neg (by decide), i1, Res.ok_bind]
      simp only [Spec.LruThrow.throwing, h6, Option.isSome_some, Bool.true_or, if_true, Bool.false_and, Nat.add_zero,
        Bool.false_eq_true, if_false]
      exact ⟨si, gi, rfl, i2', i3⟩
  · rw [show s.tbl.findHash L.C k (L.hash k) = .ok none from h1]
    rw [Res.ok_bind]
    dsimp only
    obtain ⟨t, off, p1, p2⟩ := prepareG hC h (by omega) k h1
    have hghost : SubG L { tbl := t, lst := (next, k, v) :: s.lst } (((next, k, v), false) :: g) (next + 1) (x + 1) (r + 1) :=
      cons_subG h k v false (by
        have : live (((next, k, v), false) :: g) = live g := by simp [live]
        rw [this]
        exact p2)
    cases w with
    | value =>
      rw [if_pos rfl, p1, Res.ok_bind]
      refine ⟨{ s with tbl := t }, g, rfl, ?_, rfl⟩
      simp only [Spec.LruThrow.throwing, h6, Option.isNone_none, Bool.and_self, if_true]
      exact SubG.mono ⟨h.lst, p2, h.nodup, h.bound⟩ (Nat.le_succ _) (Nat.le_refl _)
    | entry =>
      rw [if_neg (by decide), if_pos rfl, p1, Res.ok_bind]
      simp only [Spec.LruThrow.throwing, h6, Option.isSome_none, Bool.false_eq_true, if_false, Option.isNone_none, Bool.and_self,
        if_true]
      exact ⟨_, _, rfl, hghost, rfl⟩
    | victim =>
      rw [if_neg (by decide), if_neg (by decide), hlen']
      simp only [Spec.LruThrow.throwing, h6, Option.isSome_none, Bool.false_or, hlen, decide_eq_true_eq]
      by_cases hf : g.length + 1 ≤ max
      · rw [if_pos hf, if_pos hf, i1, Res.ok_bind]
        simp only [Bool.false_and, Bool.false_eq_true, if_false, Nat.add_zero]
        exact ⟨si, gi, rfl, i2', i3⟩
      · rw [if_neg hf, if_neg hf, p1, Res.ok_bind]
        simp only [if_true, Option.isNone_none, Bool.and_self]
        exact ⟨_, _, rfl, hghost, rfl⟩
    | answer => exact absurd rfl hw

/-- `get` on one shard. -/
theorem get_subG (hC : CfgOk L.C) {s : Sub κ ν} {g : List (Node κ ν × Bool)} {next x r : Nat} (h : SubG L s g next x r) (k : κ) :
    ∃ s' g', s.get L k = .ok (s', (Spec.LruThrow.get L.eqv (vis g) k).2) ∧ SubG L s' g' next x r ∧
      vis g' = (Spec.LruThrow.get L.eqv (vis g) k).1 := by
  unfold Sub.get Spec.LruThrow.get Sub.ifContains
  rcases find_subG hC h k with ⟨i, e, h1, h2, h3, h4, h5, h6⟩ | ⟨h1, h6⟩
  · rw [h6, h1]
    obtain ⟨b1, b2⟩ := splice_subG h h3
    simp only [Res.ok_bind]
    rw [h2]
    simp only [Res.ok_bind]
    rw [deref_subG h h3]
    simp only [Res.ok_bind]
    rw [b1]
    exact ⟨_, _, rfl, b2, moved_vis hC h.nodup (h.sim.distinct hC) h3 h4 h5⟩
  · rw [h6, h1]
    exact ⟨s, g, rfl, h, rfl⟩

/-- `exists` on one shard. -/
theorem exists_subG (hC : CfgOk L.C) {s : Sub κ ν} {g : List (Node κ ν × Bool)} {next x r : Nat} (h : SubG L s g next x r)
    (k : κ) : s.exists L k = .ok (s, (Spec.LruThrow.find L.eqv (vis g) k).isSome) := by
  unfold Sub.exists Sub.ifContains
  rcases find_subG hC h k with ⟨i, e, h1, h2, h3, h4, h5, h6⟩ | ⟨h1, h6⟩
  · rw [h6, h1]
    simp only [Res.ok_bind]
    rw [h2]
    rfl
  · rw [h6, h1]
    rfl

/-! ## All shards -/

def CacheG (L : LCfg κ) (c : Cache κ ν) (a : Spec.LruThrow.Cache κ ν) (next e r : Nat) : Prop :=
  c.subs.length = 2 ^ L.N ∧ c.max = a.max / 2 ^ L.N ∧ ∃ x : Nat → Nat, ((List.range (2 ^ L.N)).map x).sum = e ∧
    ∀ (i : Nat) s, c.subs[i]? = some s → ∃ g, SubG L s g next (x i) r ∧ vis g = a.shards i

theorem CacheG.mono {c : Cache κ ν} {a : Spec.LruThrow.Cache κ ν} {next next' e r r' : Nat} (h : CacheG L c a next e r)
    (hn : next ≤ next') (hr : r ≤ r') : CacheG L c a next' e r' := by
  obtain ⟨h1, h2, x, h3, h4⟩ := h
  refine ⟨h1, h2, x, h3, fun i s hs => ?_⟩
  obtain ⟨g, g1, g2⟩ := h4 i s hs
  exact ⟨g, g1.mono hn hr, g2⟩

theorem CacheG.withSub {β : Type} {c : Cache κ ν} {a : Spec.LruThrow.Cache κ ν} {next next' e r r' d : Nat}
    (h : CacheG L c a next e r) (hn : next ≤ next') (hr : r ≤ r') {i : Nat} (hi : i < 2 ^ L.N)
    {f : Sub κ ν → Res (Sub κ ν × β)} {l : List ((κ × ν) × Bool)} {b : β}
    (hf : ∀ s g x, SubG L s g next x r → vis g = a.shards i →
      ∃ s' g', f s = .ok (s', b) ∧ SubG L s' g' next' (x + d) r' ∧ vis g' = l) :
    ∃ c', c.withSub i f = .ok (c', b) ∧ CacheG L c' { a with shards := Spec.put a.shards i l } next' (e + d) r' := by
  obtain ⟨h1, h2, x, h3, h4⟩ := h
  have hi' : i < c.subs.length := by rw [h1]; exact hi
  have ht := List.getElem?_eq_getElem hi'
  obtain ⟨g, g1, g2⟩ := h4 i _ ht
  obtain ⟨s', g', f1, f2, f3⟩ := hf _ _ _ g1 g2
  refine ⟨{ c with subs := c.subs.set i s' }, ?_, by rw [List.length_set]; exact h1, h2,
    fun j => if j = i then x j + d else x j, ?_, ?_⟩
  · unfold Cache.withSub
    rw [ht]
    simp only [Res.ofOption_some, Res.ok_bind]
    rw [f1]
    rfl
  · rw [Memo.sum_bump x _ d _ hi, h3]
  · intro j u hu
    unfold Spec.put
    dsimp only at hu ⊢
    rw [List.getElem?_set] at hu
    by_cases hij : j = i
    · rw [if_pos hij.symm, if_pos hi'] at hu
      injection hu with hu
      rw [if_pos hij, if_pos hij, ← hu, hij]
      exact ⟨g', f2, f3⟩
    · rw [if_neg (fun e => hij e.symm)] at hu
      rw [if_neg hij, if_neg hij]
      obtain ⟨g, g1, g2⟩ := h4 j u hu
      exact ⟨g, g1.mono hn hr, g2⟩

theorem CacheG.size {c : Cache κ ν} {a : Spec.LruThrow.Cache κ ν} {next e r : Nat} (h : CacheG L c a next e r) :
    c.size = a.count (2 ^ L.N) + e := by
  obtain ⟨h1, h2, x, h3, h4⟩ := h
  have e2 : ∀ (f g : Nat → Nat) n, ((List.range n).map (fun i => f i + g i)).sum =
      ((List.range n).map f).sum + ((List.range n).map g).sum := by
    intro f g n
    induction n with
    | zero => rfl
    | succ n ih =>
      rw [List.range_succ, List.map_append, List.map_append, List.map_append, List.sum_append, List.sum_append,
        List.sum_append, ih]
      simp only [List.map_cons, List.map_nil, List.sum_cons, List.sum_nil]
      omega
  unfold Spec.LruThrow.Cache.count
  rw [← h3, ← e2]
  unfold Cache.size
  congr 1
  apply List.ext_getElem
  · simp [h1]
  · intro i g1 g2
    simp only [List.getElem_map, List.getElem_range]
    rw [List.length_map] at g1
    obtain ⟨g, k1, k2⟩ := h4 i c.subs[i] (List.getElem?_eq_getElem g1)
    rw [k1.sim.size, ← k2]
    unfold vis index live
    rw [List.length_map, List.length_map, List.countP_map, List.countP_eq_length_filter]
    rfl

theorem reserve_cg (hC : CfgOk L.C) {c : Cache κ ν} {a : Spec.LruThrow.Cache κ ν} {next e r : Nat} (h : CacheG L c a next e r)
    (hr : r ≤ 7) (n : Nat) : ∃ c', c.reserve L n = .ok c' ∧ CacheG L c' a next e r := by
  unfold Cache.reserve
  dsimp only
  generalize hb : (if 2 ^ L.N * normalizeCapacity (L.scale n / 2 ^ L.N) > growthToLowerboundCapacity L.G.W (L.scale n) then
    2 ^ L.N * normalizeCapacity (L.scale n / 2 ^ L.N) else growthToLowerboundCapacity L.G.W (L.scale n)) = buckets
  have h1 : 2 ^ L.N ≤ 2 ^ L.N * normalizeCapacity (L.scale n / 2 ^ L.N) :=
    Nat.le_mul_of_pos_right _ (normalizeCapacity_pos _)
  have h2 : 2 ^ L.N ≤ buckets := by rw [← hb]; split <;> omega
  have h0 : buckets / 2 ^ L.N ≠ 0 := by
    have := Nat.div_pos h2 (Nat.two_pow_pos L.N)
    omega
  obtain ⟨g1, g2, x, g3, g4⟩ := h
  obtain ⟨ss, r1, r2, r3⟩ := mapRes_spec (f := fun s : Sub κ ν => do
      let t ← s.tbl.rehash L.C (buckets / 2 ^ L.N)
      Res.ok { s with tbl := t }) c.subs (fun i s => ∃ g, SubG L s g next (x i) r ∧ vis g = a.shards i) (fun i s hs => by
    obtain ⟨g, k1, k2⟩ := g4 i s hs
    obtain ⟨t', e1, e2⟩ := Swiss.rehash_psim hC k1.sim hr (.inl h0)
    refine ⟨{ s with tbl := t' }, ?_, g, ⟨k1.lst, e2, k1.nodup, k1.bound⟩, k2⟩
    rw [e1]; rfl)
  rw [r1]
  exact ⟨_, rfl, r2.trans g1, g2, x, g3, r3⟩

theorem new_cg (hC : CfgOk L.C) (n : Nat) :
    ∃ c : Cache κ ν, Cache.new L n = .ok c ∧ CacheG L c (Spec.LruThrow.Cache.new n) 0 0 0 := by
  obtain ⟨c, h1, h2⟩ := new_csim (ν := ν) hC n
  refine ⟨c, h1, h2.len, h2.max, fun _ => 0, ?_, fun i s hs => ?_⟩
  · generalize 2 ^ L.N = n
    induction n with
    | zero => rfl
    | succ n ih => rw [List.range_succ, List.map_append, List.sum_append, ih]; rfl
  · obtain ⟨k1, k2⟩ := h2.sub i s hs
    have hnil : s.lst = [] := by
      have : s.abs = [] := k2
      unfold Sub.abs at this
      simpa using this
    refine ⟨[], ⟨?_, ?_, List.nodup_nil, fun _ h => absurd h List.not_mem_nil⟩, rfl⟩
    · rw [hnil]; rfl
    · have := k1.sim
      rw [hnil] at this
      exact Swiss.PSim.of_sim this id

/-- One call. -/
theorem stepT_sim (hC : CfgOk L.C) {c : Cache κ ν} {a : Spec.LruThrow.Cache κ ν} {next e r : Nat} (h : CacheG L c a next e r)
    (op : TOp κ ν) (hop : op.Late = false) (hr : r + (if op.Throws then 1 else 0) ≤ 7) :
    ∃ c', c.stepT L next op = .ok (c', Spec.LruThrow.offBy e op (a.step L.eqv L.shard (2 ^ L.N) op).2) ∧
      CacheG L c' (a.step L.eqv L.shard (2 ^ L.N) op).1 (next + 1)
        (Spec.LruThrow.excessAfter L.eqv L.shard (2 ^ L.N) a e op) (r + (if op.Throws then 1 else 0)) := by
  cases op with
  | throwing k v w =>
    simp only [TOp.Throws, if_true] at hr ⊢
    have hw : w ≠ .answer := by simpa [TOp.Late] using hop
    simp only [Cache.stepT, Spec.LruThrow.Cache.step, Spec.LruThrow.excessAfter, Spec.LruThrow.offBy]
    have := h.withSub (β := TResp ν) (d := if (Spec.LruThrow.throwing L.eqv (a.max / 2 ^ L.N) (a.shards (L.shard k)) k v w).2 &&
        (Spec.LruThrow.find L.eqv (a.shards (L.shard k)) k).isNone then 1 else 0) (next' := next + 1) (r' := r + 1)
        (Nat.le_succ _) (Nat.le_succ _) (shard_lt L k)
        (f := fun s => do
          let (s, b) ← s.insertThrow L c.max next k v w
          .ok (s, if b then TResp.threw else .got .unit))
        (l := (Spec.LruThrow.throwing L.eqv (a.max / 2 ^ L.N) (a.shards (L.shard k)) k v w).1)
        (b := if (Spec.LruThrow.throwing L.eqv (a.max / 2 ^ L.N) (a.shards (L.shard k)) k v w).2 then TResp.threw else .got .unit)
        (fun s g x hs ha => by
          obtain ⟨s', g', r1, r2, r3⟩ := insertThrow_subG hC hs (by omega) c.max k v w hw
          rw [r1, ← ha, ← h.2.1]
          exact ⟨s', g', rfl, r2, r3⟩)
    obtain ⟨c', h1, h2⟩ := this
    refine ⟨c', h1, ?_⟩
    split
    · rename_i hc; rw [if_pos hc] at h2; exact h2
    · rename_i hc; rw [if_neg hc] at h2; exact h2
  | call op =>
    simp only [TOp.Throws, Bool.false_eq_true, if_false, Nat.add_zero] at hr ⊢
    simp only [Cache.stepT, Spec.LruThrow.excessAfter]
    cases op with
    | insert k v =>
      have := h.withSub (β := Resp ν) (d := 0) (next' := next + 1) (Nat.le_succ _) (Nat.le_refl _) (shard_lt L k) (f := fun s => do
        let s ← s.insert L c.max next k v
        .ok (s, Resp.unit)) (l := Spec.LruThrow.insert L.eqv (a.max / 2 ^ L.N) (a.shards (L.shard k)) k v)
        (b := .unit) (fun s g x hs ha => by
          obtain ⟨s', g', r1, r2, r3⟩ := insert_subG hC hs (by omega) c.max k v
          rw [r1, ← ha, ← h.2.1]
          exact ⟨s', g', rfl, r2, r3⟩)
      obtain ⟨c', h1, h2⟩ := this
      refine ⟨c', ?_, h2⟩
      simp only [Cache.step]
      rw [h1]; rfl
    | get k =>
      have := h.withSub (β := Resp ν) (d := 0) (next' := next + 1) (Nat.le_succ _) (Nat.le_refl _) (shard_lt L k) (f := fun s => do
        let (s, o) ← s.get L k
        .ok (s, Resp.val o)) (l := (Spec.LruThrow.get L.eqv (a.shards (L.shard k)) k).1)
        (b := .val (Spec.LruThrow.get L.eqv (a.shards (L.shard k)) k).2) (fun s g x hs ha => by
          obtain ⟨s', g', r1, r2, r3⟩ := get_subG hC hs k
          rw [r1, ← ha]
          exact ⟨s', g', rfl, r2.mono (Nat.le_succ _) (Nat.le_refl _), r3⟩)
      obtain ⟨c', h1, h2⟩ := this
      refine ⟨c', ?_, h2⟩
      simp only [Cache.step]
      rw [h1]; rfl
    | «exists» k =>
      have := h.withSub (β := Resp ν) (d := 0) (next' := next + 1) (Nat.le_succ _) (Nat.le_refl _) (shard_lt L k) (f := fun s => do
        let (s, b) ← s.exists L k
        .ok (s, Resp.bool b)) (l := a.shards (L.shard k))
        (b := (Resp.bool (Spec.LruThrow.find L.eqv (a.shards (L.shard k)) k).isSome : Resp ν)) (fun s g x hs ha => by
          rw [exists_subG hC hs, ha]
          exact ⟨s, g, rfl, hs.mono (Nat.le_succ _) (Nat.le_refl _), ha⟩)
      rw [put_same] at this
      obtain ⟨c', h1, h2⟩ := this
      refine ⟨c', ?_, h2⟩
      simp only [Cache.step]
      rw [h1]; rfl
    | setSize n =>
      obtain ⟨h1, h2, x, h3, h4⟩ := h.mono (Nat.le_succ next) (Nat.le_refl _)
      exact ⟨c.setSize L n, rfl, h1, rfl, x, h3, h4⟩
    | reserve n =>
      obtain ⟨c', r1, r2⟩ := reserve_cg hC h (by omega) n
      refine ⟨c', ?_, r2.mono (Nat.le_succ _) (Nat.le_refl _)⟩
      simp only [Cache.step, r1, Res.ok_bind]
      rfl
    | size =>
      refine ⟨c, ?_, h.mono (Nat.le_succ _) (Nat.le_refl _)⟩
      simp only [Cache.step, h.size, Res.ok_bind]
      rfl

theorem runT_sim (hC : CfgOk L.C) : ∀ (ops : List (TOp κ ν)) (c : Cache κ ν) (a : Spec.LruThrow.Cache κ ν) (next e r : Nat),
    CacheG L c a next e r → (∀ op ∈ ops, op.Late = false) → r + ops.countP TOp.Throws ≤ 7 →
    ∃ c' e' r', c.runT L next ops = .ok (c', a.run L.eqv L.shard (2 ^ L.N) e ops) ∧
      CacheG L c' (a.after L.eqv L.shard (2 ^ L.N) ops) (next + ops.length) e' r'
  | [], c, a, next, e, r, h, _, _ => ⟨c, e, r, rfl, h⟩
  | op :: ops, c, a, next, e, r, h, hop, hr => by
    rw [List.countP_cons] at hr
    obtain ⟨c1, h1, h2⟩ := stepT_sim hC h op (hop op List.mem_cons_self) (by omega)
    obtain ⟨c2, e2, r2, g1, g2⟩ := runT_sim hC ops c1 _ (next + 1) _ _ h2 (fun o ho => hop o (List.mem_cons_of_mem _ ho))
      (by omega)
    refine ⟨c2, e2, r2, ?_, ?_⟩
    · unfold Cache.runT Spec.LruThrow.Cache.run
      rw [h1]
      simp only [Res.ok_bind]
      rw [g1]
      rfl
    · rw [show next + (op :: ops).length = next + 1 + ops.length by simp; omega]
      exact g2

end Gtl.Lru
