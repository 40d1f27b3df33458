import Verif.Conc.Walk
import Verif.Conc.ShareSim
/-!
# Traversals whose callbacks throw carry out their plans
-/

namespace Gtl.Conc.Multi

open Gtl.Swiss Gtl.Parallel
open Gtl.Spec (Op POp Resp put Plan)
open Gtl.Spec.Walk (Cb Ans Atom tell assigned next Answers walk lift knows)
open Gtl.Conc (upd_same upd_ne upd_self)

variable {α κ : Type}

/-- A list after it has been shown to a callback. -/
def told (run : List α → α → α × Bool) : List α → List α → List α
  | _, [] => []
  | before, a :: l => (run before a).1 :: if (run before a).2 then l else told run (before ++ [a]) l

theorem visitLoop_spec {P : PCfg α κ} (hC : CfgOk P.C) (run : List α → α → α × Bool) {t : Tbl α} {c : List Ctrl} (h : Inv P.C t c) :
    ∀ n before p, p ≤ t.capacity → t.capacity - p < n → (p < t.capacity → ∃ a, t.slots[p]? = some (some a)) →
    visitLoop P run t n before p = .ok (tell run before ((t.slots.drop p).filterMap id)) := by
  intro n
  induction n with
  | zero => intro _ p _ h; omega
  | succ n ih =>
    intro before p hp hn hfull
    unfold visitLoop
    by_cases hpc : p = t.capacity
    · rw [if_pos hpc, hpc, ← h.core.sync.slen, List.drop_length]; rfl
    · rw [if_neg hpc]
      have hlt : p < t.capacity := by omega
      obtain ⟨a, ha⟩ := hfull hlt
      rw [readSlot_ok' ha, drop_filterMap_some ha, Res.ok_bind, tell]
      split
      · rfl
      · obtain ⟨q, n1, n2, n3, n4, n5⟩ := next_spec hC.group h.core (p := p) hlt
        rw [n1, Res.ok_bind, ih _ q n3 (by omega) n5, ← drop_filterMap_none (Nat.succ_le_of_lt n2) (fun j h h' => n4 j h h')]
        rfl

theorem alterLoop_spec {P : PCfg α κ} (hC : CfgOk P.C) {run : List α → α → α × Bool} (hf : ∀ h a, P.C.key (run h a).1 = P.C.key a) :
    ∀ n before (t : Tbl α) (c : List Ctrl) p, Inv P.C t c → p ≤ t.capacity → t.capacity - p < n →
    (p < t.capacity → ∃ a, t.slots[p]? = some (some a)) →
    ∃ t' c', alterLoop P run n t before p = .ok (t', tell run before ((t.slots.drop p).filterMap id)) ∧ Inv P.C t' c' ∧
      elems t' = (t.slots.take p).filterMap id ++ told run before ((t.slots.drop p).filterMap id) := by
  intro n
  induction n with
  | zero => intro _ t c p _ _ h; omega
  | succ n ih =>
    intro before t c p h hp hn hfull
    unfold alterLoop
    by_cases hpc : p = t.capacity
    · rw [if_pos hpc]
      refine ⟨t, c, ?_, h, ?_⟩
      · rw [hpc, ← h.core.sync.slen, List.drop_length]; rfl
      · rw [hpc, ← h.core.sync.slen, List.drop_length, List.take_length]
        simp [elems, told]
    · rw [if_neg hpc]
      have hlt : p < t.capacity := by omega
      obtain ⟨a, ha⟩ := hfull hlt
      have hsl : p < t.slots.length := by rw [h.core.sync.slen]; exact hlt
      have e1 : t.assignAt p (fun a => (run before a).1) = .ok { t with slots := t.slots.set p (some (run before a).1) } := by
        unfold Tbl.assignAt; rw [readSlot_ok' ha]; rfl
      have h' := assign_inv h ha (hf before a)
      have ho : (t.slots.set p (some (run before a).1))[p]? = some (some (run before a).1) := by rw [List.getElem?_set_self hsl]
      rw [readSlot_ok' ha, Res.ok_bind, e1, Res.ok_bind, drop_filterMap_some ha, tell, told]
      split
      · refine ⟨_, c, rfl, h', ?_⟩
        unfold elems
        dsimp only
        rw [← List.take_append_drop p (t.slots.set p (some (run before a).1)), List.filterMap_append, drop_filterMap_some ho,
          (set_take_drop hsl).1, (set_take_drop hsl).2]
      · obtain ⟨q, n1, n2, n3, n4, n5⟩ := next_spec hC.group h'.core (p := p) hlt
        obtain ⟨t', c', r1, r2, r3⟩ := ih (before ++ [a]) _ c q h' n3 (by show t.capacity - q < n; omega) n5
        have e2 : ((t.slots.set p (some (run before a).1)).drop q).filterMap id = (t.slots.drop (p + 1)).filterMap id := by
          rw [← drop_filterMap_none (Nat.succ_le_of_lt n2) (fun j h h' => n4 j h h')]
          dsimp only
          rw [(set_take_drop hsl).2]
        dsimp only at r1 r3
        rw [e2] at r1 r3
        refine ⟨t', c', ?_, r2, ?_⟩
        · rw [n1, Res.ok_bind, r1]; rfl
        · rw [r3, take_filterMap_next n2 n4 ho, (set_take_drop hsl).1]
          simp

section
variable {key : α → κ} {eqv : κ → κ → Bool}

theorem assigned_cons_ne {p : α × α} {ps : List (α × α)} {a : α} (h : eqv (key p.1) (key a) = false) :
    assigned key eqv (p :: ps) a = assigned key eqv ps a := by
  unfold assigned; rw [List.find?_cons, h]

theorem assigned_cons_eq {p : α × α} {ps : List (α × α)} {a : α} (h : eqv (key p.1) (key a) = true) :
    assigned key eqv (p :: ps) a = p.2 := by
  unfold assigned; rw [List.find?_cons, h]

theorem told_map (hr : ∀ k, eqv k k = true) {run : List α → α → α × Bool} : ∀ (l before : List α),
    l.Pairwise (fun a b => eqv (key a) (key b) = false) → told run before l = l.map (assigned key eqv (tell run before l).1) := by
  intro l
  induction l with
  | nil => intro _ _; rfl
  | cons a l ih =>
    intro before hd
    obtain ⟨h1, h2⟩ := List.pairwise_cons.1 hd
    unfold told tell
    split
    · rw [List.map_cons, assigned_cons_eq (hr _)]
      congr 1
      conv_lhs => rw [← List.map_id l]
      apply List.map_congr_left
      intro b hb
      rw [assigned_cons_ne (h1 b hb)]; rfl
    · rw [List.map_cons, assigned_cons_eq (hr _), ih _ h2]
      congr 1
      apply List.map_congr_left
      intro b hb
      rw [assigned_cons_ne (h1 b hb)]

theorem tell_sub {run : List α → α → α × Bool} : ∀ (l before : List α) (p : α × α), p ∈ (tell run before l).1 → p.1 ∈ l := by
  intro l
  induction l with
  | nil => intro _ p h; simp [tell] at h
  | cons a l ih =>
    intro before p h
    unfold tell at h
    split at h
    · simp only [List.mem_singleton] at h; subst h; simp
    · simp only [List.mem_cons] at h
      rcases h with rfl | h
      · simp
      · exact List.mem_cons_of_mem _ (ih _ _ h)

end

/-! ## Sections -/

section
variable {P : PCfg α κ} (hC : CfgOk P.C)
include hC

theorem visit_tbl {t : Tbl α} {l : List α} (h : Sim P.C t l) (before : List α) (run : List α → α → α × Bool) :
    ∃ l', l'.Perm l ∧ l'.Pairwise (fun a b => P.C.eqv (P.C.key a) (P.C.key b) = false) ∧
      visitUntil P before run t = .ok (t, .shown (tell run before l').1 (tell run before l').2) := by
  obtain ⟨⟨c, hc⟩, hp⟩ := h
  obtain ⟨q, b1, b2, b3, b4⟩ := begin_spec hC.group hc.core
  refine ⟨elems t, hp, hc.core.distinct, ?_⟩
  unfold visitUntil
  rw [b1, Res.ok_bind, visitLoop_spec hC run hc t.fuel before q b2 (by unfold Tbl.fuel; omega) b4,
    ← drop_filterMap_none (Nat.zero_le q) (fun j _ h => b3 j h)]
  rfl

theorem alter_tbl {t : Tbl α} {l : List α} (h : Sim P.C t l) (before : List α) {run : List α → α → α × Bool}
    (hf : ∀ h a, P.C.key (run h a).1 = P.C.key a) :
    ∃ l' t', l'.Perm l ∧ l'.Pairwise (fun a b => P.C.eqv (P.C.key a) (P.C.key b) = false) ∧
      alterUntil P before run t = .ok (t', .shown (tell run before l').1 (tell run before l').2) ∧
      Sim P.C t' (l.map (assigned P.C.key P.C.eqv (tell run before l').1)) := by
  obtain ⟨⟨c, hc⟩, hp⟩ := h
  obtain ⟨q, b1, b2, b3, b4⟩ := begin_spec hC.group hc.core
  obtain ⟨t', c', r1, r2, r3⟩ := alterLoop_spec hC hf t.fuel before t c q hc b2 (by unfold Tbl.fuel; omega) b4
  have e1 : (t.slots.take q).filterMap id = [] := by
    rw [List.filterMap_eq_nil_iff]
    intro x hx
    obtain ⟨j, hj⟩ := List.mem_iff_getElem?.1 hx
    have hjq : j < q := by
      by_contra hcon
      rw [List.getElem?_take, if_neg hcon] at hj; cases hj
    rw [List.getElem?_take, if_pos hjq, b3 j hjq] at hj
    cases hj; rfl
  rw [← drop_filterMap_none (Nat.zero_le q) (fun j _ h => b3 j h)] at r1 r3
  rw [e1, List.nil_append] at r3
  refine ⟨elems t, t', hp, hc.core.distinct, ?_, ⟨c', r2⟩, ?_⟩
  · unfold alterUntil
    rw [b1, Res.ok_bind, r1]; rfl
  · have : (List.drop 0 t.slots).filterMap id = elems t := rfl
    rw [r3, this, told_map hC.refl (elems t) before hc.core.distinct]
    exact hp.map _

/-- A section that carries out a step of a plan. -/
def WPerforms (P : PCfg α κ) (weak : Bool) (s : Atom α κ) (f : (Nat → Tbl α) → Res ((Nat → Tbl α) × Ans α)) : Prop :=
  ∀ A w, AbsW P A w → ∃ A' x, f A = .ok (A', x) ∧ AbsW P A' (next P.C.key P.C.eqv (kidx P) w s x) ∧
    Answers P.C.key P.C.eqv (kidx P) weak w s x

theorem visitUntil_performs {weak : Bool} {c i : Nat} (hi : i < 2 ^ P.N) (before : List α) (run : List α → α → α × Bool) :
    WPerforms P weak (.visit c i before run) (at1 (cell P c i) (visitUntil P before run)) := by
  intro A w h
  obtain ⟨l, h1, h2, h3⟩ := visit_tbl hC (h c i hi) before run
  refine ⟨A, _, ?_, h, l, h1, h2, rfl⟩
  simp only [at1, h3, Res.ok_bind, upd_self]

theorem alterUntil_performs {weak : Bool} {c i : Nat} (hi : i < 2 ^ P.N) (before : List α) {run : List α → α → α × Bool}
    (hf : ∀ h a, P.C.key (run h a).1 = P.C.key a) :
    WPerforms P weak (.alter c i before run) (at1 (cell P c i) (alterUntil P before run)) := by
  intro A w h
  obtain ⟨l, t', h1, h2, h3, h4⟩ := alter_tbl hC (h c i hi) before hf
  refine ⟨_, _, by simp only [at1, h3, Res.ok_bind]; rfl, ?_, l, h1, h2, rfl⟩
  have hps : ∀ p ∈ (tell run before l).1, idx P p.1 = i ∧ P.C.key p.2 = P.C.key p.1 := by
    intro p hp
    refine ⟨(mem_part.1 (h1.mem_iff.1 (tell_sub _ _ _ hp))).2, ?_⟩
    clear h1 h2 h3 h4 h
    induction l generalizing before with
    | nil => simp [tell] at hp
    | cons a l ih =>
      unfold tell at hp
      split at hp
      · simp only [List.mem_singleton] at hp; subst hp; exact hf _ _
      · simp only [List.mem_cons] at hp
        rcases hp with rfl | hp
        · exact hf _ _
        · exact ih _ hp
  have hkey : ∀ a, idx P (assigned P.C.key P.C.eqv (tell run before l).1 a) = idx P a ∧
      (idx P a ≠ i → assigned P.C.key P.C.eqv (tell run before l).1 a = a) := by
    intro a
    unfold assigned
    split
    · rename_i p hp
      have hm := hps p (List.mem_of_find?_eq_some hp)
      have he := List.find?_some hp
      have e : idx P p.1 = idx P a := by unfold idx; rw [hC.hash_congr _ _ he]
      refine ⟨?_, fun hne => absurd (e ▸ hm.1) hne⟩
      rw [← e]; unfold idx; rw [hm.2]
    · exact ⟨rfl, fun _ => rfl⟩
  have hpart : ∀ j, part P ((w c).map (assigned P.C.key P.C.eqv (tell run before l).1)) j =
      (part P (w c) j).map (assigned P.C.key P.C.eqv (tell run before l).1) := by
    intro j
    unfold part
    rw [List.filter_map]
    congr 1
    apply List.filter_congr
    intro a _
    simp only [Function.comp_apply, (hkey a).1]
  refine h.put hi ?_ fun j hj => ?_
  · show Sim P.C t' (part P ((w c).map (assigned P.C.key P.C.eqv (tell run before l).1)) i)
    rw [hpart]; exact h4
  · show part P ((w c).map (assigned P.C.key P.C.eqv (tell run before l).1)) j = _
    rw [hpart]
    conv_rhs => rw [← List.map_id (part P (w c) j)]
    apply List.map_congr_left
    intro a ha
    exact (hkey a).2 (by rw [(mem_part.1 ha).2]; exact hj)

end

/-! ## Whole calls -/

/-- The specification the code is compared with. -/
abbrev tsem (P : PCfg α κ) := Spec.Walk.sem P.C.key P.C.eqv (kidx P) (decide (P.mtx = .shared))

theorem locks_bind {σ β γ : Type} (gs : List (List (Nat × Mode))) (c : Code σ β) (f : β → Code σ γ) :
    (Code.locks gs c).bind f = Code.locks gs (c.bind f) := by
  induction gs with
  | nil => rfl
  | cons g gs ih => simp only [Code.locks, Code.bind, ih]

theorem unlocks_bind {σ β γ : Type} (ls : List (Nat × Mode)) (c : Code σ β) (f : β → Code σ γ) :
    (Code.unlocks ls c).bind f = Code.unlocks ls (c.bind f) := by
  induction ls with
  | nil => rfl
  | cons g gs ih => simp only [Code.unlocks, Code.bind, ih]

theorem bind_assoc' {σ β γ δ : Type} (c : Code σ β) (f : β → Code σ γ) (g : γ → Code σ δ) :
    (c.bind f).bind g = c.bind fun x => (f x).bind g := by
  induction c with
  | ret => rfl
  | ub => rfl
  | act w k ih => simp only [Code.bind, ih]
  | lock ls k ih => simp only [Code.bind, ih]
  | unlock i m k ih => simp only [Code.bind, ih]

theorem sec_bind {σ β γ δ : Type} (gs : List (List (Nat × Mode))) (rel : List (Nat × Mode)) (b : Code σ β) (k : β → Code σ γ)
    (f : γ → Code σ δ) : (Code.sec gs rel b k).bind f = Code.sec gs rel b fun x => (k x).bind f := by
  unfold Code.sec
  rw [locks_bind, bind_assoc']
  congr 2
  funext x
  rw [unlocks_bind]

section
variable {P : PCfg α κ} {R : List (List (Nat × Mode)) → Prop}

theorem good_lift : ∀ (n : Nat) (p : Plan (Spec.Share.Atom α κ) (Spec.Share.Ans α) (Spec.Share.Ans α)) (c : Code (Tbl α) (Spec.Share.Ans α)),
    Good (AbsW P) (wsem P) R n p c → Good (AbsW P) (tsem P) R n (lift p) (c.bind fun r => .ret (.ret r)) := by
  intro n
  induction n with
  | zero =>
    rintro p c ⟨r, rfl, rfl⟩
    exact ⟨_, rfl, rfl⟩
  | succ n ih =>
    rintro p c (⟨r, rfl, rfl⟩ | ⟨β, gs, rel, b, k, rfl, h1, h2, h3⟩)
    · exact .inl ⟨_, rfl, rfl⟩
    · refine .inr ⟨β, gs, rel, b, _, sec_bind _ _ _ _ _, h1, h2, fun A s hA => ?_⟩
      obtain ⟨A', x, g1, g2⟩ := h3 A s hA
      refine ⟨A', x, g1, ?_⟩
      rcases g2 with ⟨s0, kp, y, s', rfl, ⟨g3, g4⟩, g5, g6⟩ | ⟨g3, g4⟩
      · refine .inl ⟨.base s0, _, .ret y, s', by rw [lift], ⟨g3, y, rfl, g4⟩, g5, ?_⟩
        exact ih _ _ g6
      · exact .inr ⟨g3, ih _ _ g4⟩

theorem good_until {s : Nat → List α → Atom α κ} {f : Nat → List α → (Nat → Tbl α) → Res ((Nat → Tbl α) × Ans α)}
    {gs : Nat → List (List (Nat × Mode))} {rel : Nat → List (Nat × Mode)} {own : Bool} {b : Nat → List α → Code (Tbl α) (Ans α)}
    (hp : ∀ i h, i < 2 ^ P.N → WPerforms P (decide (P.mtx = .shared)) (s i h) (f i h))
    (hb : ∀ i h, i < 2 ^ P.N → Does (gs i).flatten (f i h) (b i h))
    (hs : ∀ i, i < 2 ^ P.N → rel i ≠ [] ∧ (rel i).Perm (gs i).flatten ∧ ((gs i).flatten.map Prod.fst).Nodup ∧ R (gs i)) :
    ∀ (n i : Nat) (ps : List (α × α)), i + n ≤ 2 ^ P.N →
      Good (AbsW P) (tsem P) R n (walk s own n i ps) (eachUntil gs rel own b n i ps) := by
  intro n
  induction n with
  | zero => intro i ps _; exact ⟨_, rfl, rfl⟩
  | succ n ih =>
    intro i ps hn
    have hi : i < 2 ^ P.N := by omega
    obtain ⟨h1, h2, h3, h4⟩ := hs i hi
    refine .inr ⟨_, gs i, rel i, b i (knows own ps), _, rfl, ⟨h1, h2, h3, (hb i _ hi).1⟩, h4, fun A w h => ?_⟩
    obtain ⟨A', x, g1, g2, g3⟩ := hp i (knows own ps) hi A w h
    refine ⟨A', x, (hb i _ hi).2 _ _ g1, .inl ⟨s i (knows own ps), _, x, _, rfl, ⟨rfl, g3⟩, g2, ?_⟩⟩
    split
    · cases n with
      | zero => exact ⟨_, rfl, rfl⟩
      | succ n => exact .inl ⟨_, rfl, rfl⟩
    · exact ih (i + 1) _ (by omega)

/-- Every call carries out its plan. -/
theorem walk_good [BEq α] [LawfulBEq α] (hC : CfgOk P.C) {o : Spec.Walk.Call α κ} (ht : WalkSafe o)
    (hv : o.Valid P.C.key (kidx P) (2 ^ P.N)) {code : Code (Tbl α) (Ans α)} (hc : WalkCode P o code)
    (h1 : ∀ j m, R [[(j, m)]]) (h2 : ∀ c d i, R (both P c d i)) (h3 : ∀ c d, o = .base (.swap c d) → ∀ i, R (inTurn P c d i))
    (h4 : ∀ c d, o = .base (.equal c d) → ∀ i, R (bothRead P c d i)) :
    ∃ n, Good (AbsW P) (tsem P) R n (Spec.Walk.plan (2 ^ P.N) o) code := by
  have hone : ∀ m c, ∀ i, i < 2 ^ P.N → [(cell P c i, m)] ≠ [] ∧ [(cell P c i, m)].Perm (one P m c i).flatten ∧
      ((one P m c i).flatten.map Prod.fst).Nodup ∧ R (one P m c i) := by
    intro m c i _
    exact ⟨by simp, by simp [one], by simp [one], h1 _ _⟩
  cases o with
  | base o =>
    obtain ⟨c, hc, rfl⟩ := hc
    obtain ⟨n, hg⟩ := call_good (R := R) hC ht hv hc h1 h2 (fun c d e => h3 c d (by rw [e])) (fun c d e => h4 c d (by rw [e]))
    exact ⟨n, good_lift _ _ _ hg⟩
  | visit c cb =>
    obtain ⟨b, hb, rfl⟩ := hc
    exact ⟨_, good_until (fun i h hi => visitUntil_performs hC hi h cb.run) (fun i h hi => by simpa [one] using hb i h hi) (hone _ c)
      _ _ _ (by omega)⟩
  | alter c cb =>
    obtain ⟨b, hb, rfl⟩ := hc
    exact ⟨_, good_until (fun i h hi => alterUntil_performs hC hi h hv) (fun i h hi => by simpa [one] using hb i h hi) (hone _ c)
      _ _ _ (by omega)⟩
  | look c i run =>
    obtain ⟨b, hb, rfl⟩ := hc
    refine ⟨1, .inr ⟨_, _, _, b, _, rfl, ⟨by simp, by simp [one], by simp [one], by simpa [one] using hb.1⟩, h1 _ _, fun A w h => ?_⟩⟩
    obtain ⟨A', x, g1, g2, g3⟩ := visitUntil_performs hC (weak := decide (P.mtx = .shared)) hv.1 [] run A w h
    exact ⟨A', x, hb.2 _ _ g1, .inl ⟨_, _, x, _, rfl, ⟨rfl, g3⟩, g2, _, rfl, rfl⟩⟩
  | script c i ops =>
    obtain ⟨b, hb, rfl⟩ := hc
    refine ⟨1, .inr ⟨_, _, _, b, _, rfl, ⟨by simp, by simp [one], by simp [one], by simpa [one] using hb.1⟩, h1 _ _, fun A w h => ?_⟩⟩
    obtain ⟨A', x, g1, g2, g3⟩ := script_performs hC (weak := decide (P.mtx = .shared)) hv.1 hv.2 A w h
    exact ⟨A', x, hb.2 _ _ g1, .inl ⟨_, _, .ret (.many x), _, rfl, ⟨rfl, _, rfl, g3⟩, g2, _, rfl, rfl⟩⟩

end

/-- Who is not in a call holds no lock. -/
theorem idle_holds {op σ ρ S st ρ' : Type} {Abs : (Nat → σ) → S → Prop} {sem : S → st → S → ρ' → Prop}
    {R : List (List (Nat × Mode)) → Prop} {code : op → Code σ ρ} {plan : op → Plan st ρ' ρ}
    (hcode : ∀ o, ∃ n, Good Abs sem R n (plan o) (code o)) {A : Nat → σ} {s : S}
    (h0 : Abs A s) {W H} (he : Exec code (start A) H W) {t : Nat} (ht : W.th t = .idle) (i : Nat) : W.hold i t = none := by
  obtain ⟨E, A', s', ph, hI, -⟩ := exec_inv hcode h0 he
  have := hI.th t
  rw [ht] at this
  generalize hp : ph t = p at this
  cases this with
  | idle h => rw [h i]; rfl

end Gtl.Conc.Multi
