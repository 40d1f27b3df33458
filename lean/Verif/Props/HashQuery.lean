import Verif.Props.Parallel
import Verif.Swiss.Query
import Verif.Parallel.Query
/-
C108: lookups in hash containers and parallel hash containers with something that is not a key, and `equal_range`. The
specification is `Spec/HashQuery.lean`.
-/
namespace Gtl.Props.HashQuery
open Gtl.Spec.HashQuery
variable {α κ : Type}

/-! ### About lists -/

theorem once_split {p : α → Bool} {l1 l2 : List α} {v : α} (h : (l1 ++ v :: l2).countP p ≤ 1) (hv : p v = true) :
    (l1 ++ v :: l2).countP p = 1 ∧ (l1 ++ v :: l2).filter p = [v] ∧ (l1 ++ v :: l2).filter (fun a => !p a) = l1 ++ l2 := by
  rw [List.countP_append, List.countP_cons_of_pos (p := p) (l := l2) hv] at h
  have h1 : l1.countP p = 0 := by omega
  have h2 : l2.countP p = 0 := by omega
  have k1 : ∀ a ∈ l1, ¬ p a = true := List.countP_eq_zero.1 h1
  have k2 : ∀ a ∈ l2, ¬ p a = true := List.countP_eq_zero.1 h2
  refine ⟨?_, ?_, ?_⟩
  · rw [List.countP_append, List.countP_cons_of_pos (p := p) (l := l2) hv]; omega
  · rw [List.filter_append, List.filter_cons_of_pos hv, List.filter_eq_nil_iff.2 k1, List.filter_eq_nil_iff.2 k2]; rfl
  · rw [List.filter_append, List.filter_cons_of_neg (by simp [hv])]
    rw [List.filter_eq_self.2 (fun a ha => by simpa using k1 a ha), List.filter_eq_self.2 (fun a ha => by simpa using k2 a ha)]

theorem once_single {p : α → Bool} {l : List α} {v : α} (h : l.countP p ≤ 1) (hm : v ∈ l) (hv : p v = true) :
    l.countP p = 1 ∧ l.filter p = [v] := by
  obtain ⟨l1, l2, rfl⟩ := List.append_of_mem hm
  exact ⟨(once_split h hv).1, (once_split h hv).2.1⟩

theorem none_hit {p : α → Bool} {l : List α} (h : ∀ a ∈ l, p a = false) :
    l.countP p = 0 ∧ l.filter p = [] ∧ l.filter (fun a => !p a) = l ∧ l.any p = false := by
  refine ⟨List.countP_eq_zero.2 (fun a ha => by rw [h a ha]; decide), List.filter_eq_nil_iff.2 (fun a ha => by rw [h a ha]; decide),
    List.filter_eq_self.2 (fun a ha => by rw [h a ha]; decide), ?_⟩
  rw [List.any_eq_false]
  intro a ha
  rw [h a ha]; decide

/-! ### Hash containers -/

section hash
open Gtl.Swiss Gtl.Props.Hash

/-- C108, lookups: for every thing `q` whose hash is that of what it is equal to, `contains(q)` says whether an element
matches, `find(q)` is a matching element or `end()` if there is none, and `equal_range(q)` holds one matching element or
nothing. -/
theorem C108_lookup [BEq α] [LawfulBEq α] {C : Cfg α κ} (h : Contract C) {t : Tbl α} (hr : Reachable C t) {q : HQuery κ}
    (hq : Fits C.hash q) :
    ∃ l b e r, t.iterate C = .ok l ∧ t.containsOf C q = .ok (l.any (fun a => q.hits (C.key a))) ∧
      t.equalRangeOf C q = .ok (b, e) ∧ t.between C t.fuel b e = .ok r ∧
      ((∃ i v, t.findOf C q = .ok (some i) ∧ t.readSlot i = .ok v ∧ v ∈ l ∧ q.hits (C.key v) = true ∧
          t.countOf C q = .ok 1 ∧ r = [v]) ∨
       (t.findOf C q = .ok none ∧ (∀ v ∈ l, q.hits (C.key v) = false) ∧ t.countOf C q = .ok 0 ∧ r = [])) := by
  have hs := hr.sim h
  obtain ⟨⟨c, hi⟩, _⟩ := id hs
  rcases findOf_inv h.cfgOk hi hq with ⟨i, a, h1, h2, h3⟩ | ⟨h1, h2⟩
  · have hm : a ∈ elems t := mem_elems.2 ⟨i, h2⟩
    obtain ⟨e, n1, n2, n3, _⟩ := next_spec h.cfgOk.group hi.core (hi.core.lt h2)
    have hf : ∃ n, t.fuel = n + 2 := ⟨t.capacity - 1, by unfold Tbl.fuel; omega⟩
    obtain ⟨n, hn⟩ := hf
    refine ⟨elems t, i, e, [a], sim_iterate h hs, ?_, ?_, ?_, .inl ⟨i, a, h1, readSlot_ok' h2, hm, h3, ?_, rfl⟩⟩
    · unfold Tbl.containsOf
      rw [h1, List.any_eq_true.2 ⟨a, hm, h3⟩]
      rfl
    · unfold Tbl.equalRangeOf
      rw [h1]
      simp only [Res.ok_bind, n1]
    · rw [hn]; exact between_one h2 n1 n2
    · unfold Tbl.countOf; rw [h1]; rfl
  · refine ⟨elems t, t.capacity, t.capacity, [], sim_iterate h hs, ?_, ?_, between_nil, .inr ⟨h1, h2, ?_, rfl⟩⟩
    · unfold Tbl.containsOf
      rw [h1, (none_hit h2).2.2.2]
      rfl
    · unfold Tbl.equalRangeOf; rw [h1]; rfl
    · unfold Tbl.countOf; rw [h1]; rfl

/-- C108, `erase(q)` and `extract(q)`: if an element matches, one matching element goes, the others stay in their order
and the container behaves as one that holds these; if none matches nothing changes. -/
theorem C108_erase [BEq α] [LawfulBEq α] {C : Cfg α κ} (h : Contract C) {t : Tbl α} (hr : Reachable C t) {q : HQuery κ}
    (hq : Fits C.hash q) :
    ∃ l, t.iterate C = .ok l ∧
      ((∃ t' l1 v l2, t.eraseOf C q = .ok (t', 1) ∧ t.extractOf C q = .ok (t', some v) ∧ q.hits (C.key v) = true ∧
          l = l1 ++ v :: l2 ∧ t'.iterate C = .ok (l1 ++ l2) ∧ BehavesAs C t' (l1 ++ l2)) ∨
       (t.eraseOf C q = .ok (t, 0) ∧ t.extractOf C q = .ok (t, none) ∧ ∀ v ∈ l, q.hits (C.key v) = false)) := by
  have hs := hr.sim h
  obtain ⟨⟨c, hi⟩, _⟩ := id hs
  refine ⟨elems t, sim_iterate h hs, ?_⟩
  rcases eraseOf_inv h.cfgOk hi hq with ⟨t', c', l1, v, l2, e1, e2, e3, e4, e5, e6⟩ | hn
  · exact .inl ⟨t', l1, v, l2, e1, e2, e4, e5, by rw [iterate_spec h.cfgOk.group e3.core, e6],
      sim_behaves h ⟨⟨c', e3⟩, by rw [e6]⟩⟩
  · exact .inr hn

/-- C108 when at most one element matches: `count(q)` is the number of matches, `equal_range(q)` holds the matches,
`erase(q)` removes the matches and returns their number. Missing: several matches, refuted below. -/
theorem C108_all_partial [BEq α] [LawfulBEq α] {C : Cfg α κ} (h : Contract C) {t : Tbl α} (hr : Reachable C t) {q : HQuery κ}
    (hq : Fits C.hash q) {l : List α} (hl : t.iterate C = .ok l) (h1 : l.countP (fun a => q.hits (C.key a)) ≤ 1) :
    t.countOf C q = .ok (l.countP (fun a => q.hits (C.key a))) ∧
    (∃ b e, t.equalRangeOf C q = .ok (b, e) ∧ t.between C t.fuel b e = .ok (l.filter (fun a => q.hits (C.key a)))) ∧
    ∃ t', t.eraseOf C q = .ok (t', l.countP (fun a => q.hits (C.key a))) ∧
      t'.iterate C = .ok (l.filter (fun a => !q.hits (C.key a))) ∧ BehavesAs C t' (l.filter (fun a => !q.hits (C.key a))) := by
  have hs := hr.sim h
  obtain ⟨l', b, e, r, a1, _, a3, a4, a5⟩ := C108_lookup h hr hq
  rw [hl] at a1; cases a1
  obtain ⟨l', b1, b2⟩ := C108_erase h hr hq
  rw [hl] at b1; cases b1
  rw [sim_iterate h hs] at hl; cases hl
  refine ⟨?_, ⟨b, e, a3, ?_⟩, ?_⟩
  · rcases a5 with ⟨i, v, _, _, c1, c2, c3, _⟩ | ⟨_, c1, c2, _⟩
    · rw [(once_single h1 c1 c2).1]; exact c3
    · rw [(none_hit c1).1]; exact c2
  · rcases a5 with ⟨i, v, _, _, c1, c2, _, rfl⟩ | ⟨_, c1, _, rfl⟩
    · rw [(once_single h1 c1 c2).2]; exact a4
    · rw [(none_hit c1).2.1]; exact a4
  · rcases b2 with ⟨t', l1, v, l2, c1, _, c2, c3, c4, c5⟩ | ⟨c1, _, c2⟩
    · rw [c3] at h1 ⊢
      obtain ⟨d1, _, d3⟩ := once_split (p := fun a => q.hits (C.key a)) h1 c2
      rw [d1, d3]
      exact ⟨t', c1, c4, c5⟩
    · obtain ⟨d1, _, d3, _⟩ := none_hit (p := fun a => q.hits (C.key a)) c2
      rw [d1, d3]
      exact ⟨t, c1, sim_iterate h hs, sim_behaves h hs⟩

theorem findOf_same {C : Cfg α κ} {t : Tbl α} {q : HQuery κ} {k : κ} (hq : StandsFor C.hash C.eqv q k) :
    t.findOf C q = t.find C k := by
  unfold Tbl.findOf Tbl.find Tbl.findHash
  rw [hq.1, show (fun a => q.hits (C.key a)) = (fun a => C.eqv (C.key a) k) from funext (fun a => hq.2 _)]

/-- C108, things that stand for a key (a `string_view` for a `string`): every call with `q` does in every state exactly
what the call with the key does. -/
theorem C108_same {C : Cfg α κ} {t : Tbl α} {q : HQuery κ} {k : κ} (hq : StandsFor C.hash C.eqv q k) :
    t.findOf C q = t.find C k ∧ t.containsOf C q = t.contains C k ∧ t.countOf C q = t.count C k ∧
    t.eraseOf C q = t.erase C k ∧ t.extractOf C q = t.extract C k ∧ t.equalRangeOf C q = t.equalRange C k ∧
    ∀ mk, t.emplaceOf C q mk = t.emplaceHash C k (C.hash k) mk := by
  have hf := findOf_same (t := t) hq
  refine ⟨hf, ?_, ?_, ?_, ?_, ?_, fun mk => ?_⟩
  · unfold Tbl.containsOf Tbl.contains; rw [hf]
  · unfold Tbl.countOf Tbl.count; rw [hf]
  · unfold Tbl.eraseOf Tbl.erase; rw [hf]; rfl
  · unfold Tbl.extractOf Tbl.extract; rw [hf]; rfl
  · unfold Tbl.equalRangeOf Tbl.equalRange; rw [hf]
  · unfold Tbl.emplaceOf
    rw [hf, hq.1]
    rfl

theorem distinct_once {C : Cfg α κ} (hC : CfgOk C) (k : κ) : ∀ {l : List α}, Distinct C l →
    l.countP (fun a => C.eqv (C.key a) k) ≤ 1
  | [], _ => Nat.zero_le _
  | a :: l, h => by
    have ih := distinct_once hC k (List.Pairwise.of_cons h)
    rw [List.countP_cons]
    split
    · rename_i ha
      have : l.countP (fun a => C.eqv (C.key a) k) = 0 := by
        rw [List.countP_eq_zero]
        intro b hb hbk
        have := List.rel_of_pairwise_cons h hb
        rw [hC.trans _ _ _ ha (hC.symm _ _ hbk)] at this
        cases this
      omega
    · omega

/-- `equal_range(k)` for a key: it holds the element with that key if there is one, and nothing else. -/
theorem C108_equal_range [BEq α] [LawfulBEq α] {C : Cfg α κ} (h : Contract C) {t : Tbl α} (hr : Reachable C t) (k : κ) :
    ∃ l b e, t.iterate C = .ok l ∧ t.equalRange C k = .ok (b, e) ∧
      t.between C t.fuel b e = .ok (l.filter (fun a => C.eqv (C.key a) k)) := by
  have hs := hr.sim h
  have hq : StandsFor C.hash C.eqv (ofKey C.hash C.eqv k) k := ⟨rfl, fun _ => rfl⟩
  have hfit : Fits C.hash (ofKey C.hash C.eqv k) := fun a ha => h.hash_congr a k ha
  obtain ⟨_, ⟨b, e, e1, e2⟩, _⟩ := C108_all_partial h hr hfit (sim_iterate h hs)
    (distinct_once h.cfgOk k (hs.distinct h.cfgOk))
  exact ⟨_, b, e, sim_iterate h hs, by rw [← (C108_same (t := t) hq).2.2.2.2.2.1]; exact e1, e2⟩

/-! #### A set of numbers whose hash is half of them, asked for all numbers with a given half -/

/-- A set of numbers with the hash `n / 2`. -/
def halves (G : Group) : Cfg Nat Nat where
  key := id
  hash k := k / 2
  eqv k l := k == l
  G := G

theorem halves_contract {G : Group} (hG : G = groupSse2 true ∨ G = groupSse2 false ∨ G = groupPortable) :
    Contract (halves G) where
  refl k := by simp [halves]
  symm k l h := by simp only [halves, beq_iff_eq] at *; exact h.symm
  trans k l m h1 h2 := by simp only [halves, beq_iff_eq] at *; omega
  hash_congr k l h := by simp only [halves, beq_iff_eq] at *; omega
  group := hG

/-- Equal to all numbers whose half is `n`. -/
def half (n : Nat) : HQuery Nat := ⟨n, fun k => k / 2 == n⟩

theorem half_fits (G : Group) (n : Nat) : Fits (halves G).hash (half n) := by
  intro k hk
  have : k / 2 = n := by simpa [half] using hk
  exact this

/-- Both 6 and 7 are in the set. -/
theorem halves_reach {G : Group} (hG : G = groupSse2 true ∨ G = groupSse2 false ∨ G = groupPortable) :
    ∃ t, Reachable (halves G) t ∧ Sim (halves G) t [9, 7, 6, 4] := by
  obtain ⟨t, h1, h2⟩ := reachable_of_valid (halves_contract hG)
    [.on 0 (.insert 4), .on 0 (.insert 6), .on 0 (.insert 7), .on 0 (.insert 9)] (by
      intro op hop
      simp only [List.mem_cons, List.not_mem_nil, or_false] at hop
      rcases hop with rfl | rfl | rfl | rfl <;> simp [Spec.WOp.Valid, Spec.Op.Valid]) 0
  exact ⟨t, h1, h2⟩

/-- C108 fails when several elements match: two elements of this set match, `count(q)` is 1, `equal_range(q)` holds one of
them and after `erase(q)` the other is still there. -/
theorem C108_all_refuted {G : Group} (hG : G = groupSse2 true ∨ G = groupSse2 false ∨ G = groupPortable) :
    ∃ t l b e r t' l', Reachable (halves G) t ∧ t.iterate (halves G) = .ok l ∧
      l.countP (fun a => (half 3).hits ((halves G).key a)) = 2 ∧ t.countOf (halves G) (half 3) = .ok 1 ∧
      t.equalRangeOf (halves G) (half 3) = .ok (b, e) ∧ t.between (halves G) t.fuel b e = .ok r ∧ r.length = 1 ∧
      t.eraseOf (halves G) (half 3) = .ok (t', 1) ∧ t'.iterate (halves G) = .ok l' ∧
      l'.countP (fun a => (half 3).hits ((halves G).key a)) = 1 := by
  have hc := halves_contract hG
  obtain ⟨t, h1, h2⟩ := halves_reach hG
  obtain ⟨l, b, e, r, a1, a2, a3, a4, a5⟩ := C108_lookup hc h1 (half_fits G 3)
  obtain ⟨l', b1, b2⟩ := C108_erase hc h1 (half_fits G 3)
  rw [a1] at b1; cases b1
  have hl : l.Perm [9, 7, 6, 4] := by
    rw [sim_iterate hc h2] at a1; cases a1
    exact h2.2
  have hcount : l.countP (fun a => (half 3).hits ((halves G).key a)) = 2 := by
    rw [hl.countP_eq]; simp [half, halves]
  have h6 : 6 ∈ l := hl.mem_iff.2 (by decide)
  rcases a5 with ⟨i, v, _, _, _, _, c1, rfl⟩ | ⟨_, c1, _⟩
  · rcases b2 with ⟨t', l1, w, l2, d1, _, d2, d3, d4, _⟩ | ⟨_, _, d1⟩
    · refine ⟨t, l, b, e, _, t', l1 ++ l2, h1, a1, hcount, c1, a3, a4, rfl, d1, d4, ?_⟩
      rw [d3, List.countP_append, List.countP_cons_of_pos (p := fun a => (half 3).hits ((halves G).key a)) (l := l2) d2] at hcount
      rw [List.countP_append]
      omega
    · exact absurd (d1 6 h6) (show ¬ (6 / 2 == 3) = false by decide)
  · exact absurd (c1 6 h6) (show ¬ (6 / 2 == 3) = false by decide)

/-- The hypotheses of the positive theorems are met: 8 and 9 have the half 4, one of them is in the set, and `q` is not a
key of the set. -/
example : ∃ t l t', Reachable (halves groupPortable) t ∧ t.iterate (halves groupPortable) = .ok l ∧
    Fits (halves groupPortable).hash (half 4) ∧ (∀ k, ¬ StandsFor (halves groupPortable).hash (halves groupPortable).eqv (half 4) k) ∧
    t.countOf (halves groupPortable) (half 4) = .ok 1 ∧ t.countOf (halves groupPortable) (half 0) = .ok 0 ∧
    t.eraseOf (halves groupPortable) (half 4) = .ok (t', 1) ∧ t'.iterate (halves groupPortable) = .ok (l.filter (fun a => !(a / 2 == 4))) := by
  have hc := halves_contract (G := groupPortable) (.inr (.inr rfl))
  obtain ⟨t, h1, h2⟩ := halves_reach (G := groupPortable) (.inr (.inr rfl))
  have e4 : (elems t).countP (fun a => (half 4).hits ((halves groupPortable).key a)) = 1 := by rw [h2.2.countP_eq]; rfl
  have e0 : (elems t).countP (fun a => (half 0).hits ((halves groupPortable).key a)) = 0 := by rw [h2.2.countP_eq]; rfl
  obtain ⟨a1, _, t', a2, a3, _⟩ := C108_all_partial hc h1 (half_fits _ 4) (sim_iterate hc h2) (by omega)
  obtain ⟨b1, _⟩ := C108_all_partial hc h1 (half_fits _ 0) (sim_iterate hc h2) (by omega)
  rw [e4] at a1 a2
  rw [e0] at b1
  refine ⟨t, elems t, t', h1, sim_iterate hc h2, half_fits _ 4, ?_, a1, b1, a2, a3⟩
  rintro k ⟨-, hk⟩
  have k8 := hk 8
  have k9 := hk 9
  simp only [half, halves] at k8 k9
  have e8 : 8 = k := by simpa using k8.symm
  have e9 : 9 = k := by simpa using k9.symm
  omega

/-- A thing that stands for a key of the map of the other examples (whose keys are compared modulo 100). -/
example : StandsFor (exCfg groupPortable).hash (exCfg groupPortable).eqv ⟨9, fun a => a % 100 == 3⟩ 203 :=
  ⟨rfl, fun a => by simp [exCfg, exEqv]⟩

end hash

/-! ### Parallel hash containers -/

section parallel
open Gtl.Swiss Gtl.Parallel Gtl.Props.Hash Gtl.Props.Parallel

/-- C108, lookups in parallel hash containers (one thread): the same as `C108_lookup`. -/
theorem C108_parallel_lookup [BEq α] [LawfulBEq α] {P : PCfg α κ} (h : Contract P.C) {p : PTbl α} (hr : PReachable P p)
    {q : HQuery κ} (hq : Fits P.C.hash q) :
    ∃ l b e r, p.iterate P = .ok l ∧ p.containsOf P q = .ok (l.any (fun a => q.hits (P.C.key a))) ∧
      p.equalRangeOf P q = .ok (b, e) ∧ p.between P p.fuel b e = .ok r ∧
      ((∃ it v, p.findOf P q = .ok (some it) ∧ p.deref it = .ok v ∧ v ∈ l ∧ q.hits (P.C.key v) = true ∧
          p.countOf P q = .ok 1 ∧ r = [v]) ∨
       (p.findOf P q = .ok none ∧ (∀ v ∈ l, q.hits (P.C.key v) = false) ∧ p.countOf P q = .ok 0 ∧ r = [])) := by
  have hs := hr.sim h
  have hw := hs.wf
  rcases pfindOf h.cfgOk hw hq with ⟨i, pos, t, a, f1, f2, f3, f4, f5, f6⟩ | ⟨f1, f2, f3⟩
  · obtain ⟨e, n1, n2, n3, n4⟩ := next_at h.cfgOk.group hw f2 f3
    have hlen := flat_fuel hw
    have hpos : 0 < (flat p).length := List.length_pos_of_mem f4
    obtain ⟨n, hn⟩ : ∃ n, p.fuel = n + 2 := ⟨p.fuel - 2, by omega⟩
    refine ⟨flat p, some (i, pos), e, [a], psim_iterate h hs, ?_, ?_, ?_,
      .inl ⟨(i, pos), a, f1, deref_at f2 f3, f4, f5, ?_, rfl⟩⟩
    · rw [f6, List.any_eq_true.2 ⟨a, f4, f5⟩]
    · unfold PTbl.equalRangeOf
      rw [f1]
      simp only [Res.ok_bind, n1]
    · rw [hn]
      refine pbetween_one (deref_at f2 f3) n1 ?_
      rintro rfl
      rcases n4 with n4 | ⟨_, n4⟩ <;> omega
    · unfold PTbl.countOf; rw [f6]; rfl
  · refine ⟨flat p, none, none, [], psim_iterate h hs, ?_, ?_, ?_, .inr ⟨f1, f2, ?_, rfl⟩⟩
    · rw [f3, (none_hit f2).2.2.2]
    · unfold PTbl.equalRangeOf; rw [f1]; rfl
    · exact if_pos rfl
    · unfold PTbl.countOf; rw [f3]; rfl

/-- C108, `erase(q)` and `extract(q)` of parallel hash containers (one thread, all kinds of mutex): the same as
`C108_erase`. -/
theorem C108_parallel_erase [BEq α] [LawfulBEq α] {P : PCfg α κ} (h : Contract P.C) {p : PTbl α} (hr : PReachable P p)
    {q : HQuery κ} (hq : Fits P.C.hash q) :
    ∃ l, p.iterate P = .ok l ∧
      ((∃ p' l1 v l2, p.eraseOf P q = .ok (p', 1) ∧ p.extractOf P q = .ok (p', some v) ∧ q.hits (P.C.key v) = true ∧
          l = l1 ++ v :: l2 ∧ p'.iterate P = .ok (l1 ++ l2) ∧ PBehavesAs P p' (l1 ++ l2)) ∨
       (p.eraseOf P q = .ok (p, 0) ∧ p.extractOf P q = .ok (p, none) ∧ ∀ v ∈ l, q.hits (P.C.key v) = false)) := by
  have hs := hr.sim h
  have hw := hs.wf
  refine ⟨flat p, psim_iterate h hs, ?_⟩
  rcases pextractOf h.cfgOk hw hq with ⟨p', v, l1, l2, e1, e2, e3, e4, e5, e6⟩ | ⟨e1, e2, e3⟩
  · have hs' : PSim P p' (l1 ++ l2) := by rw [← e6]; exact e4.sim (List.Perm.refl _)
    exact .inl ⟨p', l1, v, l2, e2, e1, e3, e5, by rw [psim_iterate h hs', e6], psim_behaves h hs'⟩
  · exact .inr ⟨e3, e2, e1⟩

/-- C108, `erase_if(q, pred)` of parallel hash containers (one thread): the predicate is asked about one matching element,
and that element is erased if the answer is yes; nothing else changes. -/
theorem C108_parallel_erase_if [BEq α] [LawfulBEq α] {P : PCfg α κ} (h : Contract P.C) {p : PTbl α} (hr : PReachable P p)
    {q : HQuery κ} (hq : Fits P.C.hash q) (pred : α → Bool) :
    ∃ l, p.iterate P = .ok l ∧
      ((∃ v ∈ l, q.hits (P.C.key v) = true ∧ pred v = false ∧ p.eraseIfOf P q pred = .ok (p, 0)) ∨
       (∃ p' l1 v l2, q.hits (P.C.key v) = true ∧ pred v = true ∧ p.eraseIfOf P q pred = .ok (p', 1) ∧ l = l1 ++ v :: l2 ∧
          p'.iterate P = .ok (l1 ++ l2) ∧ PBehavesAs P p' (l1 ++ l2)) ∨
       (p.eraseIfOf P q pred = .ok (p, 0) ∧ ∀ v ∈ l, q.hits (P.C.key v) = false)) := by
  have hs := hr.sim h
  have hw := hs.wf
  refine ⟨flat p, psim_iterate h hs, ?_⟩
  rcases peraseIfOf h.cfgOk hw hq pred with ⟨v, e1, e2, ⟨e3, p', e4, rfl⟩ | ⟨e3, p', l1, l2, e4, e5, e6, e7⟩⟩ | ⟨e1, e2⟩
  · exact .inl ⟨v, e1, e2, e3, e4⟩
  · have hs' : PSim P p' (l1 ++ l2) := by rw [← e7]; exact e5.sim (List.Perm.refl _)
    exact .inr (.inl ⟨p', l1, v, l2, e2, e3, e4, e6, by rw [psim_iterate h hs', e7], psim_behaves h hs'⟩)
  · exact .inr (.inr ⟨e2, e1⟩)

/-- C108 for parallel hash containers when at most one element matches. -/
theorem C108_parallel_all_partial [BEq α] [LawfulBEq α] {P : PCfg α κ} (h : Contract P.C) {p : PTbl α} (hr : PReachable P p)
    {q : HQuery κ} (hq : Fits P.C.hash q) {l : List α} (hl : p.iterate P = .ok l)
    (h1 : l.countP (fun a => q.hits (P.C.key a)) ≤ 1) :
    p.countOf P q = .ok (l.countP (fun a => q.hits (P.C.key a))) ∧
    (∃ b e, p.equalRangeOf P q = .ok (b, e) ∧ p.between P p.fuel b e = .ok (l.filter (fun a => q.hits (P.C.key a)))) ∧
    ∃ p', p.eraseOf P q = .ok (p', l.countP (fun a => q.hits (P.C.key a))) ∧
      p'.iterate P = .ok (l.filter (fun a => !q.hits (P.C.key a))) ∧ PBehavesAs P p' (l.filter (fun a => !q.hits (P.C.key a))) := by
  have hs := hr.sim h
  obtain ⟨l', b, e, r, a1, _, a3, a4, a5⟩ := C108_parallel_lookup h hr hq
  rw [hl] at a1; cases a1
  obtain ⟨l', b1, b2⟩ := C108_parallel_erase h hr hq
  rw [hl] at b1; cases b1
  rw [psim_iterate h hs] at hl; cases hl
  refine ⟨?_, ⟨b, e, a3, ?_⟩, ?_⟩
  · rcases a5 with ⟨i, v, _, _, c1, c2, c3, _⟩ | ⟨_, c1, c2, _⟩
    · rw [(once_single h1 c1 c2).1]; exact c3
    · rw [(none_hit c1).1]; exact c2
  · rcases a5 with ⟨i, v, _, _, c1, c2, _, rfl⟩ | ⟨_, c1, _, rfl⟩
    · rw [(once_single h1 c1 c2).2]; exact a4
    · rw [(none_hit c1).2.1]; exact a4
  · rcases b2 with ⟨t', l1, v, l2, c1, _, c2, c3, c4, c5⟩ | ⟨c1, _, c2⟩
    · rw [c3] at h1 ⊢
      obtain ⟨d1, _, d3⟩ := once_split (p := fun a => q.hits (P.C.key a)) h1 c2
      rw [d1, d3]
      exact ⟨t', c1, c4, c5⟩
    · obtain ⟨d1, _, d3, _⟩ := none_hit (p := fun a => q.hits (P.C.key a)) c2
      rw [d1, d3]
      exact ⟨p, c1, psim_iterate h hs, psim_behaves h hs⟩

/-- `equal_range(k)` for a key of a parallel hash container: it holds the element with that key if there is one, and
nothing else. -/
theorem C108_parallel_equal_range [BEq α] [LawfulBEq α] {P : PCfg α κ} (h : Contract P.C) {p : PTbl α} (hr : PReachable P p)
    (k : κ) :
    ∃ l b e, p.iterate P = .ok l ∧ p.equalRangeOf P (ofKey P.C.hash P.C.eqv k) = .ok (b, e) ∧
      p.between P p.fuel b e = .ok (l.filter (fun a => P.C.eqv (P.C.key a) k)) := by
  have hs := hr.sim h
  have hfit : Fits P.C.hash (ofKey P.C.hash P.C.eqv k) := fun a ha => h.hash_congr a k ha
  obtain ⟨_, ⟨b, e, e1, e2⟩, _⟩ := C108_parallel_all_partial h hr hfit (psim_iterate h hs)
    (distinct_once h.cfgOk k (hs.distinct h.cfgOk))
  exact ⟨_, b, e, psim_iterate h hs, e1, e2⟩

/-- Eight submaps with the numbers and their halves. -/
def phalves (G : Group) : PCfg Nat Nat where
  C := halves G
  N := 3
  mtx := .shared

theorem phalves_reach {G : Group} (hG : G = groupSse2 true ∨ G = groupSse2 false ∨ G = groupPortable) :
    ∃ p, PReachable (phalves G) p ∧ PSim (phalves G) p [1600, 7, 6, 4] := by
  obtain ⟨p, h1, h2⟩ := preachable_of_valid (P := phalves G) (halves_contract hG)
    [.on 0 (.base (.insert 4)), .on 0 (.base (.insert 6)), .on 0 (.base (.insert 7)), .on 0 (.base (.insert 1600))] (by
      intro op hop
      simp only [List.mem_cons, List.not_mem_nil, or_false] at hop
      rcases hop with rfl | rfl | rfl | rfl <;> simp [Spec.PWOp.Valid, Spec.POp.Valid]) 0
  exact ⟨p, h1, h2⟩

/-- C108 fails for parallel hash containers in the same way. -/
theorem C108_parallel_all_refuted {G : Group} (hG : G = groupSse2 true ∨ G = groupSse2 false ∨ G = groupPortable) :
    ∃ p l b e r p' l', PReachable (phalves G) p ∧ p.iterate (phalves G) = .ok l ∧
      l.countP (fun a => (half 3).hits ((phalves G).C.key a)) = 2 ∧ p.countOf (phalves G) (half 3) = .ok 1 ∧
      p.equalRangeOf (phalves G) (half 3) = .ok (b, e) ∧ p.between (phalves G) p.fuel b e = .ok r ∧ r.length = 1 ∧
      p.eraseOf (phalves G) (half 3) = .ok (p', 1) ∧ p'.iterate (phalves G) = .ok l' ∧
      l'.countP (fun a => (half 3).hits ((phalves G).C.key a)) = 1 := by
  have hc : Contract (phalves G).C := halves_contract hG
  obtain ⟨t, h1, h2⟩ := phalves_reach hG
  obtain ⟨l, b, e, r, a1, a2, a3, a4, a5⟩ := C108_parallel_lookup hc h1 (half_fits G 3)
  obtain ⟨l', b1, b2⟩ := C108_parallel_erase hc h1 (half_fits G 3)
  rw [a1] at b1; cases b1
  have hl : l.Perm [1600, 7, 6, 4] := by
    rw [psim_iterate hc h2] at a1; cases a1
    exact h2.flat
  have hcount : l.countP (fun a => (half 3).hits ((phalves G).C.key a)) = 2 := by
    rw [hl.countP_eq]; simp [half, halves, phalves]
  have h6 : 6 ∈ l := hl.mem_iff.2 (by decide)
  rcases a5 with ⟨i, v, _, _, _, _, c1, rfl⟩ | ⟨_, c1, _⟩
  · rcases b2 with ⟨t', l1, w, l2, d1, _, d2, d3, d4, _⟩ | ⟨_, _, d1⟩
    · refine ⟨t, l, b, e, _, t', l1 ++ l2, h1, a1, hcount, c1, a3, a4, rfl, d1, d4, ?_⟩
      rw [d3, List.countP_append, List.countP_cons_of_pos (p := fun a => (half 3).hits ((phalves G).C.key a)) (l := l2) d2] at hcount
      rw [List.countP_append]
      omega
    · exact absurd (d1 6 h6) (show ¬ (6 / 2 == 3) = false by decide)
  · exact absurd (c1 6 h6) (show ¬ (6 / 2 == 3) = false by decide)

/-- The hypotheses of the positive theorems are met, with elements in different submaps. -/
example : ∃ p p', PReachable (phalves groupPortable) p ∧ subidx 3 2 ≠ subidx 3 800 ∧
    p.countOf (phalves groupPortable) (half 800) = .ok 1 ∧ p.eraseOf (phalves groupPortable) (half 800) = .ok (p', 1) ∧
    p'.iterate (phalves groupPortable) = .ok ((flat p).filter (fun a => !(a / 2 == 800))) := by
  have hc := halves_contract (G := groupPortable) (.inr (.inr rfl))
  obtain ⟨p, h1, h2⟩ := phalves_reach (G := groupPortable) (.inr (.inr rfl))
  have e4 : (flat p).countP (fun a => (half 800).hits ((phalves groupPortable).C.key a)) = 1 := by rw [h2.flat.countP_eq]; rfl
  obtain ⟨a1, _, p', a2, a3, _⟩ := C108_parallel_all_partial (P := phalves groupPortable) hc h1 (half_fits _ 800)
    (psim_iterate (P := phalves groupPortable) hc h2) (by omega)
  rw [e4] at a1 a2
  exact ⟨p, p', h1, by decide, a1, a2, a3⟩

end parallel
end Gtl.Props.HashQuery
