import Verif.Conc.Share
import Verif.Conc.MultiRed
import Verif.Conc.Refine
/-!
# The sections of operations on whole parallel containers carry out their plans
-/

namespace Gtl.Conc.Multi

open Gtl.Swiss Gtl.Parallel
open Gtl.Spec (Op POp Resp put Plan)
open Gtl.Spec.Share (Call Ans Atom seen nothing sweep compare plan next Answers inside outside has FalseErase about)
open Gtl.Conc (upd_same upd_ne upd_self)

variable {α κ : Type}

/-- Submap `i` of container `c` holds the elements of abstract container `c` that belong to it. -/
def AbsW (P : PCfg α κ) (A : Nat → Tbl α) (w : Nat → List α) : Prop :=
  ∀ c i, i < 2 ^ P.N → Sim P.C (A (cell P c i)) (part P (w c) i)

theorem cell_inj {P : PCfg α κ} {c d i j : Nat} (hi : i < 2 ^ P.N) (hj : j < 2 ^ P.N) (h : cell P c i = cell P d j) :
    c = d ∧ i = j := by
  unfold cell at h
  have h1 : (c * 2 ^ P.N + i) / 2 ^ P.N = c := by
    rw [Nat.mul_comm, Nat.mul_add_div (Nat.two_pow_pos _), Nat.div_eq_of_lt hi]; rfl
  have h2 : (d * 2 ^ P.N + j) / 2 ^ P.N = d := by
    rw [Nat.mul_comm, Nat.mul_add_div (Nat.two_pow_pos _), Nat.div_eq_of_lt hj]; rfl
  have : c = d := by rw [← h1, ← h2, h]
  subst this
  exact ⟨rfl, by omega⟩

theorem cell_lt {P : PCfg α κ} {c d i : Nat} (h : c < d) : cell P c i < cell P d i := by
  unfold cell
  have := Nat.mul_lt_mul_of_pos_right h (Nat.two_pow_pos P.N)
  omega

theorem abs_iff {P : PCfg α κ} {A : Nat → Tbl α} {l : List α} :
    Abs P A l ↔ ∀ i, i < 2 ^ P.N → Sim P.C (A i) (part P l i) := by
  constructor
  · intro h i hi
    obtain ⟨t, h1, h2⟩ := PSim.get h hi
    simp only [ofObjects, List.getElem?_map, List.getElem?_range hi, Option.map_some, Option.some.injEq] at h1
    subst h1; exact h2
  · intro h
    refine ⟨by simp [ofObjects], fun i t ht => ?_⟩
    simp only [ofObjects] at ht
    by_cases hi : i < 2 ^ P.N
    · rw [List.getElem?_map, List.getElem?_range hi, Option.map_some, Option.some.injEq] at ht
      subst ht; exact h i hi
    · rw [List.getElem?_eq_none (by simpa using hi)] at ht; cases ht

theorem AbsW.get {P : PCfg α κ} {A : Nat → Tbl α} {w : Nat → List α} (h : AbsW P A w) (c : Nat) :
    Abs P (fun i => A (cell P c i)) (w c) := abs_iff.2 (h c)

theorem AbsW.put {P : PCfg α κ} {A : Nat → Tbl α} {w : Nat → List α} (h : AbsW P A w) {c i : Nat} (hi : i < 2 ^ P.N)
    {t : Tbl α} {l : List α} (ht : Sim P.C t (part P l i)) (ho : ∀ j, j ≠ i → part P l j = part P (w c) j) :
    AbsW P (upd A (cell P c i) t) (put w c l) := by
  intro d j hj
  by_cases hd : d = c
  · subst hd
    simp only [Spec.put, if_true]
    by_cases hji : j = i
    · subst hji; rw [upd_same]; exact ht
    · rw [upd_ne _ _ (fun e => hji (cell_inj hj hi e).2), ho j hji]; exact h d j hj
  · simp only [Spec.put, if_neg hd]
    rw [upd_ne _ _ (fun e => hd (cell_inj hj hi e).1)]; exact h d j hj

theorem AbsW.nop {P : PCfg α κ} {A : Nat → Tbl α} {w : Nat → List α} (h : AbsW P A w) {c i : Nat} (hi : i < 2 ^ P.N)
    {t : Tbl α} (ht : Sim P.C t (part P (w c) i)) : AbsW P (upd A (cell P c i) t) w := by
  have := h.put hi ht (fun _ _ => rfl)
  have e : Gtl.Spec.put w c (w c) = w := by
    funext d; unfold Gtl.Spec.put; split
    · rename_i hd; rw [hd]
    · rfl
  rwa [e] at this

theorem put_other {β : Type} {w : Nat → β} {c d : Nat} {x : β} (h : d ≠ c) : put w c x d = w d := by
  simp only [Spec.put, if_neg h]

/-! ## What each section does -/

/-- A section that carries out a step of the plan. -/
def Performs (P : PCfg α κ) (weak : Bool) (s : Atom α κ) (f : (Nat → Tbl α) → Res ((Nat → Tbl α) × Ans α)) : Prop :=
  ∀ A w, AbsW P A w → ∃ A' x, f A = .ok (A', x) ∧ AbsW P A' (next P.C.key P.C.eqv (kidx P) w s) ∧
    Answers P.C.key P.C.eqv (kidx P) weak w s x

section
variable {P : PCfg α κ} (hC : CfgOk P.C)
include hC

theorem visit_performs {weak : Bool} {c i : Nat} (hi : i < 2 ^ P.N) :
    Performs P weak (.visit c i) (at1 (cell P c i) (visitSub P)) := by
  intro A w h
  have hs := h c i hi
  obtain ⟨⟨ct, hc⟩, hp⟩ := hs
  refine ⟨upd A (cell P c i) (A (cell P c i)), .elems (elems (A (cell P c i))), ?_, ?_, _, rfl, hp, hc.core.distinct⟩
  · simp only [at1, visitSub, iterate_spec hC.group hc.core, Res.ok_bind]
  · rw [upd_self]; exact h

omit hC in
theorem part_map_other {l : List α} {f : α → α} (hf : ∀ a, P.C.key (f a) = P.C.key a) (i j : Nat) :
    part P (l.map fun a => if kidx P (P.C.key a) = i then f a else a) j =
      if j = i then (part P l i).map f else part P l j := by
  unfold part
  rw [List.filter_map]
  have hidx : ∀ a, idx P (if kidx P (P.C.key a) = i then f a else a) = idx P a := by
    intro a; split
    · unfold idx; rw [hf]
    · rfl
  have : (fun a => idx P a == j) ∘ (fun a => if kidx P (P.C.key a) = i then f a else a) = fun a => idx P a == j := by
    funext a; simp only [Function.comp_apply, hidx]
  rw [this]
  split
  · rename_i hji
    subst hji
    apply List.map_congr_left
    intro a ha
    have := (List.mem_filter.1 ha).2
    rw [if_pos (by simpa [idx, kidx] using this)]
  · rename_i hji
    conv_rhs => rw [← List.map_id (l.filter fun a => idx P a == j)]
    apply List.map_congr_left
    intro a ha
    have := (List.mem_filter.1 ha).2
    rw [if_neg]
    · rfl
    · intro e
      apply hji
      rw [← e]
      simpa [idx, kidx] using (beq_iff_eq.1 this).symm

theorem change_performs {weak : Bool} {c i : Nat} (hi : i < 2 ^ P.N) {f : α → α} (hf : ∀ a, P.C.key (f a) = P.C.key a) :
    Performs P weak (.change c i f) (at1 (cell P c i) (changeSub P f)) := by
  intro A w h
  obtain ⟨t', h1, h2⟩ := assignAll_sim hC hf (h c i hi)
  refine ⟨_, _, by simp only [at1, changeSub, h1, Res.ok_bind]; rfl, ?_, rfl⟩
  refine h.put hi ?_ (fun j hj => ?_)
  · rw [part_map_other hf, if_pos rfl]; exact h2
  · rw [part_map_other hf, if_neg hj]

theorem clear_tbl_sim {t : Tbl α} {l : List α} (ht : Sim P.C t l) : ∃ t', t.clear P.C = .ok t' ∧ Sim P.C t' [] := by
  obtain ⟨t', g1, g2⟩ := step_sim hC ht .clear trivial
  unfold Tbl.step at g1
  rw [Res.bind_eq_ok] at g1
  obtain ⟨t1, g3, g4⟩ := g1
  simp only [Res.ok.injEq, Prod.mk.injEq] at g4
  rw [← g4.1] at g2
  exact ⟨t1, g3, g2⟩

theorem wipe_performs {weak : Bool} {c i : Nat} (hi : i < 2 ^ P.N) :
    Performs P weak (.wipe c i) (at1 (cell P c i) (wipeSub P)) := by
  intro A w h
  obtain ⟨t', h1, h2⟩ := clear_tbl_sim hC (h c i hi)
  refine ⟨_, _, by simp only [at1, wipeSub, h1, Res.ok_bind]; rfl, ?_, rfl⟩
  refine h.put hi ?_ (fun j hj => ?_)
  · have : part P (outside P.C.key (kidx P) (w c) i) i = [] := by
      unfold part outside
      rw [List.filter_filter, List.filter_eq_nil_iff]
      intro a _
      simp [idx, kidx]
    rw [this]; exact h2
  · unfold part outside
    rw [List.filter_filter]
    apply List.filter_congr
    intro a _
    rw [Bool.eq_iff_iff]
    simp only [Bool.and_eq_true, Bool.not_eq_true', beq_iff_eq, beq_eq_false_iff_ne]
    constructor
    · exact fun h => h.1
    · intro e; exact ⟨e, fun e' => hj (by rw [← e, ← e']; rfl)⟩

theorem rehash_performs {weak : Bool} {c i n : Nat} (hi : i < 2 ^ P.N) (hn : 2 ^ P.N ≤ n) :
    Performs P weak (.tidy c i) (at1 (cell P c i) (rehashSub P n)) := by
  intro A w h
  have h0 : n / 2 ^ P.N ≠ 0 := by
    have := Nat.div_pos hn (Nat.two_pow_pos P.N)
    omega
  obtain ⟨t', g1, g2⟩ := step_sim hC (h c i hi) (.rehash (n / 2 ^ P.N)) h0
  unfold Tbl.step at g1
  rw [Res.bind_eq_ok] at g1
  obtain ⟨t1, g3, g4⟩ := g1
  simp only [Res.ok.injEq, Prod.mk.injEq] at g4
  rw [← g4.1] at g2
  exact ⟨_, _, by simp only [at1, rehashSub, g3, Res.ok_bind], h.nop hi g2, rfl⟩

omit hC in
theorem reserveArg_le (n : Nat) : 2 ^ P.N ≤ reserveArg P n := by
  unfold reserveArg
  dsimp only
  have h1 : 2 ^ P.N ≤ 2 ^ P.N * normalizeCapacity (n / 2 ^ P.N) := Nat.le_mul_of_pos_right _ (normalizeCapacity_pos _)
  split <;> omega

omit hC in
theorem about_eq (op : Op α κ) : about P.C.key op = keyOf P op := by
  cases op with
  | insertNode n => cases n <;> rfl
  | _ => rfl

theorem script_sim {i : Nat} : ∀ (ops : List (Op α κ)), (∀ op ∈ ops, op.Valid P.C.key ∧ ∃ k, about P.C.key op = some k ∧ kidx P k = i) →
    ∀ (t : Tbl α) (l : List α), Sim P.C t (part P l i) →
    ∃ t', scriptSub P ops t = .ok (t', (Spec.run P.C.key P.C.eqv l ops).2) ∧
      Sim P.C t' (part P (Spec.run P.C.key P.C.eqv l ops).1 i) ∧
      ∀ j, j ≠ i → part P (Spec.run P.C.key P.C.eqv l ops).1 j = part P l j := by
  intro ops
  induction ops with
  | nil => intro _ t l h; exact ⟨t, rfl, h, fun _ _ => rfl⟩
  | cons op ops ih =>
    intro hv t l h
    obtain ⟨hval, k, hk, hki⟩ := hv op (List.mem_cons_self ..)
    subst hki
    rw [about_eq] at hk
    obtain ⟨e1, e2, e3⟩ := step_part hC l op hval hk
    obtain ⟨t1, h1, h2⟩ := step_sim hC h op hval
    rw [e1] at h1
    rw [e2] at h2
    obtain ⟨t2, h3, h4, h5⟩ := ih (fun o ho => hv o (List.mem_cons_of_mem _ ho)) t1 _ h2
    refine ⟨t2, ?_, h4, fun j hj => (h5 j hj).trans (e3 j hj)⟩
    simp only [scriptSub, h1, Res.ok_bind, h3, Spec.run]

theorem script_performs {weak : Bool} {c i : Nat} (hi : i < 2 ^ P.N) {ops : List (Op α κ)}
    (hv : ∀ op ∈ ops, op.Valid P.C.key ∧ ∃ k, about P.C.key op = some k ∧ kidx P k = i) :
    ∀ A w, AbsW P A w → ∃ A' x, at1 (cell P c i) (scriptSub P ops) A = .ok (A', x) ∧
      AbsW P A' (next P.C.key P.C.eqv (kidx P) w (.script c i ops)) ∧
      Answers P.C.key P.C.eqv (kidx P) weak w (.script c i ops) (.many x) := by
  intro A w h
  obtain ⟨t', h1, h2, h3⟩ := script_sim hC ops hv _ _ (h c i hi)
  exact ⟨_, _, by simp only [at1, h1, Res.ok_bind], h.put hi h2 h3, rfl⟩

theorem merge_performs {weak : Bool} {c d i : Nat} (hi : i < 2 ^ P.N) (hcd : c ≠ d) :
    Performs P weak (.merge c d i) (at2 (cell P c i) (cell P d i) (mergeSub P)) := by
  intro A w h
  obtain ⟨t', u', g1, g2, g3⟩ := merge_sim hC (h c i hi) (h d i hi)
  have hany : ∀ a ∈ part P (w d) i, (part P (w c) i).any (fun b => P.C.eqv (P.C.key b) (P.C.key a)) =
      has P.C.key P.C.eqv (w c) a := by
    intro a ha
    have hai := (mem_part.1 ha).2
    subst hai
    exact any_part hC (w c) (P.C.key a)
  rw [List.filter_congr (fun a ha => by rw [hany a ha])] at g2 g3
  refine ⟨_, _, by simp only [at2, mergeSub, g1, Res.ok_bind]; rfl, ?_, rfl⟩
  have e1 : ∀ j, part P (w c ++ (inside P.C.key (kidx P) (w d) i).filter fun a => !has P.C.key P.C.eqv (w c) a) j =
      part P (w c) j ++ if j = i then (part P (w d) i).filter (fun a => !has P.C.key P.C.eqv (w c) a) else [] := by
    intro j
    rw [part_append]
    congr 1
    split
    · rename_i hj; subst hj
      refine List.filter_eq_self.2 fun a ha => ?_
      have := (List.mem_filter.1 (List.mem_filter.1 ha).1).2
      simpa [idx, kidx] using this
    · rename_i hj
      unfold part inside
      rw [List.filter_eq_nil_iff]
      intro a ha hcon
      have := (List.mem_filter.1 (List.mem_filter.1 ha).1).2
      exact hj ((beq_iff_eq.1 hcon).symm.trans (beq_iff_eq.1 this))
  have e2 : ∀ j, part P ((w d).filter fun a => !(kidx P (P.C.key a) == i) || has P.C.key P.C.eqv (w c) a) j =
      if j = i then (part P (w d) i).filter (fun a => has P.C.key P.C.eqv (w c) a) else part P (w d) j := by
    intro j
    rw [part_filter]
    split
    · rename_i hj; subst hj
      apply List.filter_congr
      intro a ha
      have : kidx P (P.C.key a) = j := (mem_part.1 ha).2
      simp [this]
    · rename_i hj
      rw [List.filter_eq_self]
      intro a ha
      have : kidx P (P.C.key a) = j := (mem_part.1 ha).2
      simp [this, hj]
  refine AbsW.put (w := put w c _) (h.put hi ?_ (fun j hj => ?_)) hi ?_ (fun j hj => ?_)
  · rw [e1, if_pos rfl]; exact g2
  · rw [e1, if_neg hj, List.append_nil]
  · rw [e2, if_pos rfl]; exact g3
  · rw [e2, if_neg hj, put_other (Ne.symm hcd)]

omit hC in
theorem part_swap (l m : List α) (i j : Nat) :
    part P (inside P.C.key (kidx P) m i ++ outside P.C.key (kidx P) l i) j = if j = i then part P m i else part P l j := by
  rw [part_append]
  have hin : ∀ (l : List α), part P (inside P.C.key (kidx P) l i) j = if j = i then part P l i else [] := by
    intro l
    unfold part inside
    rw [List.filter_filter]
    split
    · rename_i hj; subst hj
      apply List.filter_congr; intro a _
      show (idx P a == j && idx P a == j) = _
      rw [Bool.and_self]
    · rename_i hj
      rw [List.filter_eq_nil_iff]
      intro a _ hcon
      rw [Bool.and_eq_true] at hcon
      exact hj ((beq_iff_eq.1 hcon.1).symm.trans (beq_iff_eq.1 hcon.2))
  have hout : part P (outside P.C.key (kidx P) l i) j = if j = i then [] else part P l j := by
    unfold part outside
    rw [List.filter_filter]
    split
    · rename_i hj; subst hj
      rw [List.filter_eq_nil_iff]
      intro a _ hcon
      simp [idx, kidx] at hcon
    · rename_i hj
      apply List.filter_congr
      intro a _
      rw [Bool.eq_iff_iff]
      simp only [Bool.and_eq_true, Bool.not_eq_true', beq_iff_eq, beq_eq_false_iff_ne]
      exact ⟨fun h => h.1, fun e => ⟨e, fun e' => hj (by rw [← e, ← e']; rfl)⟩⟩
  rw [hin, hout]
  split <;> simp

omit hC in
theorem swap_performs {weak : Bool} {c d i : Nat} (hi : i < 2 ^ P.N) (hcd : c ≠ d) :
    Performs P weak (.swap c d i) (at2 (cell P c i) (cell P d i) swapSub) := by
  intro A w h
  refine ⟨_, _, by simp only [at2, swapSub, Res.ok_bind]; rfl, ?_, rfl⟩
  refine AbsW.put (w := put w c _) (h.put hi ?_ (fun j hj => ?_)) hi ?_ (fun j hj => ?_)
  · rw [part_swap, if_pos rfl]; exact h d i hi
  · rw [part_swap, if_neg hj]
  · rw [part_swap, if_pos rfl]; exact h c i hi
  · rw [part_swap, if_neg hj, put_other (Ne.symm hcd)]

theorem equal_performs [BEq α] [LawfulBEq α] {weak : Bool} {c d i : Nat} (hi : i < 2 ^ P.N) :
    ∀ A w, AbsW P A w → ∃ x, at2 (cell P c i) (cell P d i) (equalSub P) A = .ok (A, x) ∧
      Answers P.C.key P.C.eqv (kidx P) weak w (.equal c d i) (.one (.bool x)) := by
  intro A w h
  obtain ⟨⟨ct, hc⟩, hp⟩ := h c i hi
  obtain ⟨⟨cu, hd⟩, hq⟩ := h d i hi
  obtain ⟨b, h1, h2⟩ := beqTbl_spec hC hc hd
  refine ⟨b, ?_, b, rfl, h2.trans ⟨fun h => hp.symm.trans (h.trans hq), fun h => hp.trans (h.trans hq.symm)⟩⟩
  simp only [at2, equalSub, h1, Res.ok_bind]
  rw [upd_self, upd_self]

end

/-! ## Whole calls -/

/-- The specification the code is compared with. -/
abbrev wsem (P : PCfg α κ) := Spec.Share.sem P.C.key P.C.eqv (kidx P) (decide (P.mtx = .shared))

section
variable {P : PCfg α κ} {R : List (List (Nat × Mode)) → Prop}

theorem good_sweep {s : Nat → Atom α κ} {f : Nat → (Nat → Tbl α) → Res ((Nat → Tbl α) × Ans α)}
    {gs : Nat → List (List (Nat × Mode))} {rel : Nat → List (Nat × Mode)} {b : Nat → Code (Tbl α) (Ans α)}
    {done : List (Ans α) → Ans α}
    (hp : ∀ i, i < 2 ^ P.N → Performs P (decide (P.mtx = .shared)) (s i) (f i))
    (hb : ∀ i, i < 2 ^ P.N → Does (gs i).flatten (f i) (b i))
    (hs : ∀ i, i < 2 ^ P.N → rel i ≠ [] ∧ (rel i).Perm (gs i).flatten ∧ ((gs i).flatten.map Prod.fst).Nodup ∧ R (gs i)) :
    ∀ (n i : Nat) (xs : List (Ans α)), i + n ≤ 2 ^ P.N →
      Good (AbsW P) (wsem P) R n (sweep s done n i xs) (each gs rel b done n i xs) := by
  intro n
  induction n with
  | zero => intro i xs _; exact ⟨_, rfl, rfl⟩
  | succ n ih =>
    intro i xs hn
    have hi : i < 2 ^ P.N := by omega
    obtain ⟨h1, h2, h3, h4⟩ := hs i hi
    refine .inr ⟨_, gs i, rel i, b i, _, rfl, ⟨h1, h2, h3, (hb i hi).1⟩, h4, fun A w h => ?_⟩
    obtain ⟨A', x, g1, g2, g3⟩ := hp i hi A w h
    exact ⟨A', x, (hb i hi).2 _ _ g1, .inl ⟨s i, _, x, _, rfl, ⟨rfl, g3⟩, g2, ih (i + 1) (xs ++ [x]) (by omega)⟩⟩

theorem good_single {s : Atom α κ} {β : Type} {f : Tbl α → Res (Tbl α × β)} {done : β → Ans α} {m : Mode} {c i : Nat}
    {code : Code (Tbl α) (Ans α)}
    (hp : ∀ A w, AbsW P A w → ∃ A' x, at1 (cell P c i) f A = .ok (A', x) ∧ AbsW P A' (next P.C.key P.C.eqv (kidx P) w s) ∧
      Answers P.C.key P.C.eqv (kidx P) (decide (P.mtx = .shared)) w s (done x))
    (hc : Single P m c i f done code) (hR : ∀ j m, R [[(j, m)]]) : Good (AbsW P) (wsem P) R 1 (.step s .ret) code := by
  obtain ⟨b, hb, rfl⟩ := hc
  refine .inr ⟨_, _, _, b, _, rfl, ⟨by simp, by simp [one], by simp [one], by simpa [one] using hb.1⟩, hR _ _, fun A w h => ?_⟩
  obtain ⟨A', x, g1, g2, g3⟩ := hp A w h
  exact ⟨A', x, hb.2 _ _ g1, .inl ⟨s, _, done x, _, rfl, ⟨rfl, g3⟩, g2, _, rfl, rfl⟩⟩

theorem body_performs (hC : CfgOk P.C) {o : POp α κ} (hc : Concurrent o) (hv : o.Valid P.C.key (2 ^ P.N)) (c : Nat) :
    ∀ A w, AbsW P A w → ∃ A', at1 (cell P c (submap P o)) (body P o) A = .ok (A', (Spec.pstep P.C.key P.C.eqv (w c) o).2) ∧
      AbsW P A' (next P.C.key P.C.eqv (kidx P) w (.on c o)) := by
  intro A w h
  obtain ⟨t', h1, h2⟩ := body_abs hC (h.get c) hc hv
  refine ⟨upd A (cell P c (submap P o)) t', by simp only [at1, h1, Res.ok_bind], fun d j hj => ?_⟩
  have h2 := abs_iff.1 h2
  simp only [next]
  by_cases hd : d = c
  · subst hd
    have := h2 j hj
    simp only [Spec.put, if_true]
    by_cases hjs : j = submap P o
    · subst hjs; rw [upd_same] at this ⊢; exact this
    · rw [upd_ne _ _ hjs] at this
      rw [upd_ne _ _ (fun e => hjs (cell_inj hj (submap_lt P o) e).2)]; exact this
  · rw [put_other hd, upd_ne _ _ (fun e => hd (cell_inj hj (submap_lt P o) e).1)]
    exact h d j hj

theorem good_on [BEq α] (hC : CfgOk P.C) {o : POp α κ} (hc : Concurrent o) (hv : o.Valid P.C.key (2 ^ P.N)) {c : Nat}
    {code : Code (Tbl α) (Ans α)} (h : CodeFor P (.on c o) code) (hR : ∀ j m, R [[(j, m)]]) :
    Good (AbsW P) (wsem P) R 2 (.step (.on c o) .ret) code := by
  unfold CodeFor at h
  dsimp only at h
  split at h
  · rename_i k pr rep hms he
    obtain ⟨look, again, h1, h2, rfl⟩ := h
    obtain ⟨hsub, hbody⟩ := eraseArgs_body (P := P) he
    refine .inr ⟨_, _, _, look, _, rfl, ⟨by simp, by simp [one], by simp [one], by simpa [one] using h1.1⟩, hR _ _, fun A w h => ?_⟩
    obtain ⟨A', hb, ha⟩ := body_performs hC hc hv c A w h
    rcases look_abs hC (h.get c) k with ⟨i, hf⟩ | ⟨hf, hl⟩
    · rw [← hsub] at hf
      try dsimp only at hf
      refine ⟨A, true, h1.2 _ _ (by simp only [at1, eraseLook, hf, Res.ok_bind, upd_self]; rfl), .inr ⟨h, ?_⟩⟩
      rw [if_pos rfl]
      refine .inr ⟨_, _, _, again, _, rfl, ⟨by simp, by simp [one], by simp [one], by simpa [one] using h2.1⟩, hR _ _, fun A w h => ?_⟩
      obtain ⟨A', hb, ha⟩ := body_performs hC hc hv c A w h
      rcases look_abs hC (h.get c) k with ⟨i, hf⟩ | ⟨hf, hl⟩
      · rw [← hsub] at hf
        try dsimp only at hf
        simp only [at1, hbody, eraseKeyIf_some hf, Res.bind_eq_ok] at hb
        obtain ⟨⟨t3, r⟩, ⟨⟨t2, n⟩, hb1, hb2⟩, hb3⟩ := hb
        simp only [Res.ok.injEq, Prod.mk.injEq] at hb2 hb3
        obtain ⟨rfl, hb2⟩ := hb2
        obtain ⟨rfl, hb3⟩ := hb3
        refine ⟨_, n, h2.2 _ _ (by simp only [at1, hb1, Res.ok_bind]), .inl ⟨_, _, .one (rep n), _, rfl, ⟨rfl, .inl ?_⟩, ha, _, rfl, rfl⟩⟩
        rw [hb2, hb3]
      · rw [← hsub] at hf
        try dsimp only at hf
        have hn : next P.C.key P.C.eqv (kidx P) w (.on c o) = w := by
          simp only [next]
          have : (Spec.pstep P.C.key P.C.eqv (w c) o).1 = w c := by
            unfold eraseArgs at he
            split at he
            · cases he
              simp only [Spec.pstep, Spec.step, Spec.erase]
              rw [List.filter_eq_self]
              intro a ha
              simp only [Spec.lookup, List.find?_eq_none] at hl
              simpa using hl a ha
            · cases he
              simp only [Spec.pstep, hl]
            · cases he
          rw [this]
          funext d; unfold Gtl.Spec.put; split
          · rename_i hd; rw [hd]
          · rfl
        refine ⟨A, 1, h2.2 _ _ (by simp only [at1, eraseAgain, hf, Res.ok_bind, upd_self]), .inl ⟨_, _, .one (rep 1), w, rfl, ⟨hn.symm, .inr ⟨?_, ?_⟩⟩, h, _, rfl, rfl⟩⟩
        · simpa using hms
        · unfold eraseArgs at he
          split at he
          · cases he; exact ⟨hl, rfl⟩
          · cases he; exact ⟨hl, rfl⟩
          · cases he
    · rw [← hsub] at hf
      try dsimp only at hf
      simp only [at1, hbody, eraseKeyIf_none hf, Res.ok_bind, Res.ok.injEq, Prod.mk.injEq] at hb
      obtain ⟨rfl, hb2⟩ := hb
      refine ⟨_, false, h1.2 _ _ (by simp only [at1, eraseLook, hf, Res.ok_bind]; rfl), .inl ⟨_, _, .one (rep 0), _, rfl, ⟨rfl, .inl ?_⟩, ha, ?_⟩⟩
      · rw [hb2]
      · exact .inl ⟨_, rfl, rfl⟩
  · obtain ⟨b, hb, rfl⟩ := h
    refine .inr ⟨_, _, _, b, _, rfl, ⟨by simp, by simp [one], by simp [one], by simpa [one] using hb.1⟩, hR _ _, fun A w h => ?_⟩
    obtain ⟨A', g1, g2⟩ := body_performs hC hc hv c A w h
    exact ⟨A', _, hb.2 _ _ g1, .inl ⟨_, _, _, _, rfl, ⟨rfl, .inl rfl⟩, g2, .inl ⟨_, rfl, rfl⟩⟩⟩

theorem good_equal [BEq α] [LawfulBEq α] (hC : CfgOk P.C) {c d : Nat} (hcd : c ≠ d) {b : Nat → Code (Tbl α) Bool}
    (hb : ∀ i, i < 2 ^ P.N → Does (bothRead P c d i).flatten (at2 (cell P c i) (cell P d i) (equalSub P)) (b i))
    (hR : ∀ i, R (bothRead P c d i)) : ∀ (n i : Nat), i + n ≤ 2 ^ P.N →
      Good (AbsW P) (wsem P) R n (compare c d n i)
        (eachEqual (bothRead P c d) (fun i => [(cell P c i, readMode P), (cell P d i, readMode P)]) b n i) := by
  intro n
  induction n with
  | zero => intro i _; exact ⟨_, rfl, rfl⟩
  | succ n ih =>
    intro i hn
    have hi : i < 2 ^ P.N := by omega
    have hne : cell P c i ≠ cell P d i := fun e => hcd (cell_inj hi hi e).1
    have hfl : (bothRead P c d i).flatten = [(cell P c i, readMode P), (cell P d i, readMode P)] := by
      unfold bothRead readMode both; split <;> simp
    refine .inr ⟨_, _, _, b i, _, rfl, ⟨by simp, by rw [hfl], by rw [hfl]; simpa using hne, (hb i hi).1⟩, hR i, fun A w h => ?_⟩
    obtain ⟨x, g1, g2⟩ := equal_performs hC (weak := decide (P.mtx = .shared)) (c := c) (d := d) hi A w h
    refine ⟨A, x, (hb i hi).2 _ _ g1, .inl ⟨_, _, .one (.bool x), w, rfl, ⟨rfl, g2⟩, h, ?_⟩⟩
    cases x with
    | true => exact ih (i + 1) (by omega)
    | false =>
      dsimp only
      rw [if_neg (by simp)]
      cases n with
      | zero => exact ⟨_, rfl, rfl⟩
      | succ n => exact .inl ⟨_, rfl, rfl⟩

/-- Every call carries out its plan. -/
theorem call_good [BEq α] [LawfulBEq α] (hC : CfgOk P.C) {o : Call α κ} (ht : Threadsafe o)
    (hv : o.Valid P.C.key (kidx P) (2 ^ P.N)) {code : Code (Tbl α) (Ans α)} (hc : CodeFor P o code)
    (h1 : ∀ j m, R [[(j, m)]]) (h2 : ∀ c d i, R (both P c d i)) (h3 : ∀ c d, o = .swap c d → ∀ i, R (inTurn P c d i))
    (h4 : ∀ c d, o = .equal c d → ∀ i, R (bothRead P c d i)) :
    ∃ n, Good (AbsW P) (wsem P) R n (plan (2 ^ P.N) o) code := by
  have hone : ∀ m c, ∀ i, i < 2 ^ P.N → [(cell P c i, m)] ≠ [] ∧ [(cell P c i, m)].Perm (one P m c i).flatten ∧
      ((one P m c i).flatten.map Prod.fst).Nodup ∧ R (one P m c i) := by
    intro m c i _
    exact ⟨by simp, by simp [one], by simp [one], h1 _ _⟩
  cases o with
  | on c o => exact ⟨2, good_on hC ht hv hc h1⟩
  | forEach c =>
    obtain ⟨b, hb, rfl⟩ := hc
    exact ⟨_, good_sweep (fun i hi => visit_performs hC hi) hb (hone _ c) _ _ _ (by omega)⟩
  | forEachM c f =>
    obtain ⟨b, hb, rfl⟩ := hc
    exact ⟨_, good_sweep (fun i hi => change_performs hC hi hv) hb (hone _ c) _ _ _ (by omega)⟩
  | withSubmap c i => exact ⟨1, good_single (visit_performs hC hv) hc h1⟩
  | withSubmapM c i ops => exact ⟨1, good_single (script_performs hC hv.1 hv.2) hc h1⟩
  | clear c =>
    obtain ⟨b, hb, rfl⟩ := hc
    exact ⟨_, good_sweep (fun i hi => wipe_performs hC hi) hb (hone _ c) _ _ _ (by omega)⟩
  | clearSubmap c i => exact ⟨1, good_single (wipe_performs hC hv) hc h1⟩
  | visitPart c i => exact ⟨1, good_single (visit_performs hC hv) hc h1⟩
  | changePart c i f => exact ⟨1, good_single (change_performs hC hv.1 hv.2) hc h1⟩
  | rehash c n =>
    obtain ⟨b, hb, rfl⟩ := hc
    exact ⟨_, good_sweep (fun i hi => rehash_performs hC hi hv) hb (hone _ c) _ _ _ (by omega)⟩
  | reserve c n =>
    obtain ⟨b, hb, rfl⟩ := hc
    exact ⟨_, good_sweep (fun i hi => rehash_performs hC hi (reserveArg_le n)) hb (hone _ c) _ _ _ (by omega)⟩
  | merge c d =>
    obtain ⟨b, hb, rfl⟩ := hc
    refine ⟨_, good_sweep (fun i hi => merge_performs hC hi hv) hb (fun i hi => ⟨by simp, by simp [both], ?_, h2 _ _ _⟩) _ _ _ (by omega)⟩
    have : cell P c i ≠ cell P d i := fun e => hv (cell_inj hi hi e).1
    simpa [both] using this
  | swap c d =>
    obtain ⟨b, hb, rfl⟩ := hc
    refine ⟨_, good_sweep (fun i hi => swap_performs hi hv) hb (fun i hi => ⟨by simp, ?_, ?_, h3 _ _ rfl _⟩) _ _ _ (by omega)⟩
    · simp only [inTurn, List.flatten_cons, List.flatten_nil, List.append_nil]
      exact List.Perm.swap _ _ _
    · have : cell P c i ≠ cell P d i := fun e => hv (cell_inj hi hi e).1
      simpa [inTurn] using this
  | equal c d =>
    obtain ⟨b, hb, rfl⟩ := hc
    exact ⟨_, good_equal hC hv hb (h4 _ _ rfl) _ _ (by omega)⟩

end

end Gtl.Conc.Multi
