import Verif.Props.HashTable
import Verif.Swiss.CostWorst
/-!
# C83: what a history of calls costs

`runW` (Swiss/Cost.lean) is the container with counters; `Spec/Cost.lean` counts what the caller passed, added and
reserved.
-/

namespace Gtl.Props.HashCost

open Gtl.Swiss Gtl.Swiss.Tbl
open Gtl.Spec (Op Resp totalKeys totalAdded totalRoom)
open Gtl.Props.Hash (Contract)

variable {α κ : Type}

/-- Over every history on a container constructed with any number of buckets: the counting container does and answers
what the container does, and

* the hash function is called at most once for every key that is passed, plus twice for every element that is added,
  plus once for every place that is reserved in advance,
* elements are relocated at most three times for every element that is added plus once for every place reserved,
* rehashing looks at no more than five slots for every element that is added plus four for every place reserved. -/
theorem C83_history_cost {C : Cfg α κ} (h : Contract C) (n : Nat) (ops : List (Op α κ))
    (hv : ∀ op ∈ ops, op.Valid C.key) :
    ∃ t w, (withBuckets C n).run C ops = .ok (t, (Spec.run C.key C.eqv [] ops).2) ∧
      (withBuckets C n).runW C ops = .ok ((t, (Spec.run C.key C.eqv [] ops).2), w) ∧
      w.hashes ≤ totalKeys ops + 2 * totalAdded C.key C.eqv [] ops + totalRoom C.key C.eqv [] ops ∧
      w.moves ≤ 3 * totalAdded C.key C.eqv [] ops + totalRoom C.key C.eqv [] ops ∧
      w.scans ≤ 5 * totalAdded C.key C.eqv [] ops + 4 * totalRoom C.key C.eqv [] ops := by
  obtain ⟨c, h1, h2⟩ := withBuckets_inv (α := α) (C := C) h.cfgOk.group n
  obtain ⟨t, w, k1, k2, k3, k4, k5⟩ := run_paid h.cfgOk ops (t := withBuckets C n) (l := []) ⟨⟨c, h1⟩, by rw [h2]⟩ hv
  have hphi : Phi C (withBuckets C n : Tbl α) = 0 := by
    have hg := h1.growth
    have hs : (withBuckets C n : Tbl α).size = 0 := by rw [h1.size_eq, h2]; rfl
    have hd : c.count kDeleted = 0 := by
      unfold withBuckets at h1 hg hs
      split at h1
      · have := capacityToGrowth_le C.G.W 0
        rename_i e
        rw [if_pos e] at hg hs
        have : (empty : Tbl α).capacity = 0 := rfl
        rw [this] at hg
        omega
      · rename_i e
        rw [if_neg e] at hg hs
        have e2 : (initializeSlots C (empty : Tbl α) (normalizeCapacity n)).growthLeft =
            capacityToGrowth C.G.W (normalizeCapacity n) := by
          show usub _ 0 = _
          rw [usub_of_le (by omega)]; rfl
        rw [e2] at hg
        have e3 : (initializeSlots C (empty : Tbl α) (normalizeCapacity n)).capacity = normalizeCapacity n := rfl
        rw [e3] at hg
        omega
    unfold Phi
    omega
  rw [hphi] at k3 k4 k5
  exact ⟨t, w, k1, k2, by omega, by omega, by omega⟩

/-- A map from numbers; keys `2 * i` and `2 * i + 1` start at the same place. -/
def exC : Cfg (Nat × Nat) Nat := ⟨Prod.fst, fun k => (56 - k / 2) * 128, fun a b => a == b, groupPortable⟩

theorem exC_contract : Contract exC where
  refl k := by simp [exC]
  symm k l h := by simp [exC] at *; exact h.symm
  trans k l m h1 h2 := by simp [exC] at *; omega
  hash_congr k l h := by simp [exC] at *; rw [h]
  group := .inr (.inr rfl)

/-- A history that rehashes in both ways: 56 insertions, 45 erasures, 30 times the insertion and the erasure of a further
key, a `reserve` and a range. -/
def exHistory : List (Op (Nat × Nat) Nat) :=
  (List.range 56).map (fun i => .insert (i, i)) ++ (List.range 45).map .erase ++
  (List.range 30).flatMap (fun i => [.insert (60 + i, 0), .erase (60 + i)]) ++
  [.reserve 70, .insertRange [(1, 1), (2, 2), (3, 3)], .find 2, .clear]

theorem exHistory_valid : ∀ op ∈ exHistory, Op.Valid exC.key op := by
  intro op hop
  simp only [exHistory, List.mem_append, List.mem_map, List.mem_flatMap, List.mem_cons, List.not_mem_nil, or_false] at hop
  rcases hop with ((⟨i, _, rfl⟩ | ⟨i, _, rfl⟩) | ⟨i, _, rfl | rfl⟩) | rfl | rfl | rfl | rfl <;> simp [Op.Valid]

/-- The price of that history: 165 keys, 89 elements added, 62 places reserved. -/
theorem exHistory_price : totalKeys exHistory = 165 ∧ totalAdded exC.key exC.eqv [] exHistory = 89 ∧
    totalRoom exC.key exC.eqv [] exHistory = 62 := by decide +kernel

set_option maxRecDepth 20000 in
/-- The work it takes: besides the 165 keys that are passed, 74 elements are hashed again; 21 of the 84 relocations and 68
of the 188 slots belong to a rehash without growth. -/
theorem exHistory_work : ((withBuckets exC 0).runW exC exHistory >>= fun r => Res.ok r.2) = Res.ok ⟨239, 84, 188⟩ := by
  decide +kernel

example : ∃ t, (withBuckets exC 0).runW exC exHistory = .ok (t, ⟨239, 84, 188⟩) ∧
    239 ≤ 165 + 2 * 89 + 62 ∧ 84 ≤ 3 * 89 + 62 ∧ 188 ≤ 5 * 89 + 4 * 62 := by
  obtain ⟨t, w, _, h2, h3, h4, h5⟩ := C83_history_cost exC_contract 0 exHistory exHistory_valid
  have hw := exHistory_work
  rw [h2] at hw
  simp only [Res.ok_bind, Res.ok.injEq] at hw
  subst hw
  have := exHistory_price
  rw [this.1, this.2.1, this.2.2] at h3
  rw [this.2.1, this.2.2] at h4 h5
  exact ⟨_, h2, h3, h4, h5⟩

/-! ## No such bound holds for a single call -/

/-- A single insertion is not cheap: however large `N` is, there is a history after which one call relocates more than
`N` elements and calls the hash function for each of them. -/
theorem C83_single_call_refuted (N : Nat) :
    ∃ (C : Cfg Nat Nat) (n : Nat) (ops : List (Op Nat Nat)) (a : Nat) (t : Tbl Nat) (rs : List (Resp Nat)),
      Contract C ∧ (∀ op ∈ ops, op.Valid C.key) ∧ (withBuckets C n).run C ops = .ok (t, rs) ∧
      ∃ r w, t.stepW C (.insert a) = .ok (r, w) ∧ N < w.moves ∧ N < w.hashes := by
  let C : Cfg Nat Nat := ⟨id, id, fun a b => a == b, groupPortable⟩
  have hC : Contract C := ⟨fun k => by simp [C], fun k l h => by simp [C] at *; exact h.symm,
    fun k l m h1 h2 => by simp [C] at *; omega, fun k l h => by simpa [C] using h, .inr (.inr rfl)⟩
  have hdist : ∀ m, Distinct C ((List.range m).reverse ++ []) := by
    intro m
    rw [List.append_nil]
    unfold Distinct
    rw [List.pairwise_reverse]
    refine List.Pairwise.imp ?_ (List.nodup_range (n := m))
    intro x y hxy
    simp only [C, id, beq_eq_false_iff_ne]
    exact fun e => hxy e.symm
  let n := 2 * N + 2
  obtain ⟨c0, hi0, he0⟩ := withBuckets_inv (α := Nat) (C := C) hC.cfgOk.group n
  have hcap : (withBuckets C n : Tbl Nat).capacity = normalizeCapacity n := by
    unfold withBuckets; rw [if_neg (by omega)]; rfl
  have hgl : (withBuckets C n : Tbl Nat).growthLeft = capacityToGrowth C.G.W (normalizeCapacity n) := by
    unfold withBuckets; rw [if_neg (by omega)]
    show usub _ 0 = _
    rw [usub_of_le (by omega)]; rfl
  have hle := le_normalizeCapacity n
  have hhalf := cap_le_growth C.G.W (normalizeCapacity n)
  generalize hg : capacityToGrowth C.G.W (normalizeCapacity n) = g at hgl hhalf
  obtain ⟨t, rs, k1, k2, k3⟩ := fill_sim hC.cfgOk (List.range g) (t := withBuckets C n) (l := [])
    ⟨⟨c0, hi0⟩, by rw [he0]⟩ (by rw [List.length_range, hgl]) (hdist g)
  obtain ⟨⟨c, hi⟩, hp⟩ := k2
  have hsz : t.size = g := by rw [hi.size_eq, hp.length_eq]; simp
  have hgr := hi.growth
  rw [k3, hcap, hg, hsz] at hgr
  have hd : kDeleted ∉ c := List.count_eq_zero.1 (by omega)
  obtain ⟨t', i, w, e1, e2, e3, e4⟩ := emplaceW_full hC.cfgOk hi (a := g) (by rw [k3, hcap]; omega) (by omega) hd (by
    intro b hb
    have hb := hp.mem_iff.1 hb
    rw [List.append_nil, List.mem_reverse, List.mem_range] at hb
    simp only [C, id, beq_eq_false_iff_ne]
    omega)
  refine ⟨C, n, (List.range g).map .insert, g, t, rs, hC, ?_, k1, (t', .ins g true), w, ?_, by omega, by omega⟩
  · intro op hop
    rw [List.mem_map] at hop
    obtain ⟨x, _, rfl⟩ := hop
    trivial
  · simp only [Tbl.stepW, e1, Res.ok_bind, readSlot_ok' e2]

end Gtl.Props.HashCost
