import Verif.Utils.Timestamp
import Verif.Spec.Times
/-!
# Timestamps behave as moments
-/

namespace Gtl.Timestamp

open Spec.Times (Moment later latest)

/-- Stamps and moments compare alike. -/
def Inv (clock now : Nat) (ps : List (Nat × Moment)) : Prop :=
  ∀ p ∈ (0, none) :: ps, p.1 ≤ clock ∧ (∀ k, p.2 = some k → k < now) ∧
    ∀ q ∈ (0, none) :: ps, (p.1 > q.1 ↔ later p.2 q.2 = true) ∧ (p.1 = q.1 ↔ p.2 = q.2)

theorem Inv.sub {c now : Nat} {ps qs : List (Nat × Moment)} (h : Inv c now ps)
    (hq : ∀ p ∈ qs, p ∈ (0, none) :: ps) : Inv c now qs := by
  have hs : ∀ p ∈ (0, none) :: qs, p ∈ (0, none) :: ps := by
    intro p hp
    rcases List.mem_cons.1 hp with rfl | hp
    · exact List.mem_cons_self
    · exact hq p hp
  intro p hp
  obtain ⟨h1, h2, h3⟩ := h p (hs p hp)
  exact ⟨h1, h2, fun q hq => h3 q (hs q hq)⟩

theorem Inv.later {c now : Nat} {ps : List (Nat × Moment)} (h : Inv c now ps) : Inv c (now + 1) ps := by
  intro p hp
  obtain ⟨h1, h2, h3⟩ := h p hp
  exact ⟨h1, fun k hk => Nat.lt_succ_of_lt (h2 k hk), h3⟩

theorem Inv.tick {c now : Nat} {ps : List (Nat × Moment)} (h : Inv c now ps) :
    Inv (c + 1) (now + 1) ((c + 1, some now) :: ps) := by
  have key : ∀ p ∈ (0, none) :: (c + 1, some now) :: ps, p = (c + 1, some now) ∨ p ∈ (0, none) :: ps := by
    intro p hp
    simp only [List.mem_cons] at hp ⊢
    rcases hp with h | h | h
    · exact .inr (.inl h)
    · exact .inl h
    · exact .inr (.inr h)
  intro p hp
  rcases key p hp with rfl | hp
  · refine ⟨Nat.le_refl _, fun k hk => by injection hk with hk; omega, ?_⟩
    intro q hq
    rcases key q hq with rfl | hq
    · simp [Spec.Times.later]
    · obtain ⟨h1, h2, _⟩ := h q hq
      obtain ⟨s, m⟩ := q
      dsimp only at h1 h2
      cases m with
      | none => simp [Spec.Times.later]; omega
      | some k => have := h2 k rfl; simp [Spec.Times.later]; omega
  · obtain ⟨h1, h2, h3⟩ := h p hp
    refine ⟨by omega, fun k hk => Nat.lt_succ_of_lt (h2 k hk), ?_⟩
    intro q hq
    rcases key q hq with rfl | hq
    · obtain ⟨s, m⟩ := p
      dsimp only at h1 h2
      cases m with
      | none => simp [Spec.Times.later]; omega
      | some k => have := h2 k rfl; simp [Spec.Times.later]; omega
    · exact h3 q hq

/-- The state of the code and that of the specification. -/
def Rel (now : Nat) (w : World) (ts : List Moment) : Prop :=
  w.clock ≤ now ∧ ∃ ps, w.stamps = ps.map Prod.fst ∧ ts = ps.map Prod.snd ∧ Inv w.clock now ps

/-- The `i`-th pair. -/
def pick (ps : List (Nat × Moment)) (i : Nat) : Nat × Moment := ps.getD i (0, none)

theorem pick_mem (ps : List (Nat × Moment)) (i : Nat) : pick ps i ∈ (0, none) :: ps := by
  unfold pick
  rw [List.getD_eq_getElem?_getD]
  cases h : ps[i]? with
  | none => exact List.mem_cons_self
  | some p => exact List.mem_cons_of_mem _ (List.mem_of_getElem? h)

theorem pick_fst (ps : List (Nat × Moment)) (i : Nat) : (ps.map Prod.fst).getD i 0 = (pick ps i).1 := by
  unfold pick
  rw [List.getD_eq_getElem?_getD, List.getD_eq_getElem?_getD, List.getElem?_map]
  cases ps[i]? <;> rfl

theorem pick_snd (ps : List (Nat × Moment)) (i : Nat) : (ps.map Prod.snd).getD i none = (pick ps i).2 := by
  unfold pick
  rw [List.getD_eq_getElem?_getD, List.getD_eq_getElem?_getD, List.getElem?_map]
  cases ps[i]? <;> rfl

theorem mem_set {α : Type} {l : List α} {i : Nat} {a b : α} (h : b ∈ l.set i a) : b = a ∨ b ∈ l := by
  rcases List.mem_or_eq_of_mem_set h with h | h
  · exact .inr h
  · exact .inl h

theorem Rel.old {now : Nat} {w : World} {ps qs : List (Nat × Moment)} (hc : w.clock ≤ now) (hi : Inv w.clock now ps)
    (hq : ∀ p ∈ qs, p ∈ (0, none) :: ps) :
    Rel (now + 1) { w with stamps := qs.map Prod.fst } (qs.map Prod.snd) :=
  ⟨Nat.le_succ_of_le hc, qs, rfl, rfl, (hi.sub hq).later⟩

theorem Rel.new {now : Nat} {w : World} {ps qs : List (Nat × Moment)} (hc : w.clock ≤ now) (hi : Inv w.clock now ps)
    (hq : ∀ p ∈ qs, p ∈ (0, none) :: (w.clock + 1, some now) :: ps) :
    Rel (now + 1) { clock := w.clock + 1, stamps := qs.map Prod.fst } (qs.map Prod.snd) :=
  ⟨Nat.succ_le_succ hc, qs, rfl, rfl, hi.tick.sub hq⟩

theorem step_rel {now : Nat} {w : World} {ts : List Moment} (h : Rel now w ts) (hn : now + 1 < 2 ^ 64) (op : Op)
    (hop : ∀ s, op ≠ .createWith s) :
    (w.step op).2 = (Spec.Times.step now ts op).2 ∧ Rel (now + 1) (w.step op).1 (Spec.Times.step now ts op).1 := by
  obtain ⟨hc, ps, h1, h2, hi⟩ := h
  obtain ⟨clock, stamps⟩ := w
  dsimp only at hc h1 hi
  subst h1; subst h2
  have ht : (clock + 1) % 2 ^ 64 = clock + 1 := Nat.mod_eq_of_lt (by omega)
  have hnew : ∀ i, Rel (now + 1) { clock := clock + 1, stamps := (ps.map Prod.fst).set i (clock + 1) }
      ((ps.map Prod.snd).set i (some now)) := by
    intro i
    have := Rel.new (w := ⟨clock, ps.map Prod.fst⟩) (qs := ps.set i (clock + 1, some now)) hc hi (by
      intro p hp
      rcases mem_set hp with rfl | hp
      · simp
      · simp [hp])
    rwa [List.map_set, List.map_set] at this
  have hself : Rel (now + 1) { clock := clock, stamps := ps.map Prod.fst } (ps.map Prod.snd) :=
    Rel.old (w := ⟨clock, ps.map Prod.fst⟩) hc hi (fun p hp => List.mem_cons_of_mem _ hp)
  have hset : ∀ i p, p ∈ (0, none) :: ps → Rel (now + 1) { clock := clock, stamps := (ps.map Prod.fst).set i p.1 }
      ((ps.map Prod.snd).set i p.2) := by
    intro i p hp
    have := Rel.old (w := ⟨clock, ps.map Prod.fst⟩) (qs := ps.set i p) hc hi (by
      intro q hq
      rcases mem_set hq with rfl | hq
      · exact hp
      · exact List.mem_cons_of_mem _ hq)
    rwa [List.map_set, List.map_set] at this
  have hcmp := fun i j => (hi _ (pick_mem ps i)).2.2 _ (pick_mem ps j)
  cases op with
  | create =>
    refine ⟨rfl, ?_⟩
    simp only [World.step, tick, Spec.Times.step, ht]
    have := Rel.new (w := ⟨clock, ps.map Prod.fst⟩) (qs := ps ++ [(clock + 1, some now)]) hc hi (by
      intro p hp
      rcases List.mem_append.1 hp with hp | hp
      · simp [hp]
      · simp at hp; simp [hp])
    simpa using this
  | createWith s => exact absurd rfl (hop s)
  | copy j =>
    refine ⟨rfl, ?_⟩
    simp only [World.step, Spec.Times.step, World.get, pick_fst, pick_snd]
    have := Rel.old (w := ⟨clock, ps.map Prod.fst⟩) (qs := ps ++ [pick ps j]) hc hi (by
      intro p hp
      rcases List.mem_append.1 hp with hp | hp
      · exact List.mem_cons_of_mem _ hp
      · rw [List.mem_singleton.1 hp]; exact pick_mem ps j)
    simpa using this
  | touch i =>
    refine ⟨rfl, ?_⟩
    simp only [World.step, tick, Spec.Times.step, World.put, ht]
    exact hnew i
  | touchFrom i j =>
    refine ⟨rfl, ?_⟩
    simp only [World.step, Spec.Times.step, World.put, World.get, pick_fst, pick_snd]
    exact hset i _ (pick_mem ps j)
  | reset i =>
    refine ⟨rfl, ?_⟩
    exact hset i (0, none) List.mem_cons_self
  | merge i j =>
    refine ⟨rfl, ?_⟩
    simp only [World.step, Spec.Times.step, World.put, World.get, pick_fst, pick_snd, latest]
    by_cases hl : (pick ps i).1 > (pick ps j).1
    · rw [if_pos hl, if_pos ((hcmp i j).1.1 hl)]
      exact hset i _ (pick_mem ps i)
    · rw [if_neg hl, if_neg (fun hx => hl ((hcmp i j).1.2 hx))]
      exact hset i _ (pick_mem ps j)
  | setWithTs i old new =>
    simp only [World.step, tick, Spec.Times.step, World.put, ht]
    by_cases hv : old = new
    · simp only [hv, ne_eq, not_true_eq_false, if_false]
      exact ⟨trivial, hself⟩
    · simp only [ne_eq, hv, not_false_eq_true, if_true]
      exact ⟨trivial, hnew i⟩
  | isSet i =>
    simp only [World.step, Spec.Times.step, World.get, pick_fst, pick_snd]
    refine ⟨?_, hself⟩
    have := ((hi _ (pick_mem ps i)).2.2 (0, none) List.mem_cons_self).2
    cases hm : (pick ps i).2 with
    | none => rw [hm] at this; simp only [iff_true] at this; simp [this]
    | some k => rw [hm] at this; simp at this; simp [this]
  | newer i j =>
    simp only [World.step, Spec.Times.step, World.get, pick_fst, pick_snd]
    refine ⟨?_, hself⟩
    rw [Bool.eq_iff_iff, decide_eq_true_iff]
    exact (hcmp i j).1
  | older i j =>
    simp only [World.step, Spec.Times.step, World.get, pick_fst, pick_snd]
    refine ⟨?_, hself⟩
    rw [Bool.eq_iff_iff, decide_eq_true_iff]
    exact (hcmp j i).1
  | same i j =>
    simp only [World.step, Spec.Times.step, World.get, pick_fst, pick_snd]
    refine ⟨?_, hself⟩
    rw [Bool.eq_iff_iff, decide_eq_true_iff, beq_iff_eq]
    exact (hcmp i j).2

theorem run_rel : ∀ (ops : List Op) {now : Nat} {w : World} {ts : List Moment}, Rel now w ts → now + ops.length < 2 ^ 64 →
    (∀ s, Op.createWith s ∉ ops) → (w.run ops).2 = (Spec.Times.run now ts ops).2 ∧
      Rel (now + ops.length) (w.run ops).1 (Spec.Times.run now ts ops).1
  | [], _, _, _, h, _, _ => ⟨rfl, h⟩
  | op :: ops, now, w, ts, h, hn, hop => by
    simp only [List.length_cons] at hn
    obtain ⟨h1, h2⟩ := step_rel h (by omega) op (fun s e => hop s (by rw [e]; exact List.mem_cons_self))
    obtain ⟨h3, h4⟩ := run_rel ops h2 (by omega) (fun s e => hop s (List.mem_cons_of_mem _ e))
    constructor
    · show (w.step op).2 :: ((w.step op).1.run ops).2 = (Spec.Times.step now ts op).2 :: (Spec.Times.run (now + 1) (Spec.Times.step now ts op).1 ops).2
      rw [h1, h3]
    · show Rel (now + (ops.length + 1)) ((w.step op).1.run ops).1 (Spec.Times.run (now + 1) (Spec.Times.step now ts op).1 ops).1
      rw [show now + (ops.length + 1) = now + 1 + ops.length by omega]
      exact h4

theorem init_rel : Rel 0 World.init [] := by
  refine ⟨Nat.le_refl _, [], rfl, rfl, ?_⟩
  intro p hp
  simp only [List.mem_singleton] at hp
  subst hp
  refine ⟨Nat.le_refl _, fun k hk => (by cases hk), ?_⟩
  intro q hq
  simp only [List.mem_singleton] at hq
  subst hq
  simp [Spec.Times.later]

end Gtl.Timestamp
