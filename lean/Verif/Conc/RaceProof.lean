import Verif.Conc.Race
import Verif.Conc.Reduction
import Verif.Conc.MultiRed
import Verif.Intrusive.OrderProof
/-!
# Sections under locks have no data races
-/

namespace Gtl.Conc

open Gtl.Spec.HB
open Gtl.Intrusive.Order (Known known_of at_old at_last before_mono before_last)

/-! ## Locks and records, without programs -/

abbrev Hold := Nat → Nat → Option Mode

def FreeH (h : Hold) (i : Nat) : Mode → Prop
  | .excl => ∀ t, h i t = none
  | .shared => ∀ t, h i t ≠ some .excl

/-- Locks are taken when they are free, and accesses are covered by locks. -/
inductive HStep : Hold → Did → Hold → Prop
  | lock {h : Hold} {t i m} : FreeH h i m → HStep h (.lock t i m) (upd h i (upd (h i) t (some m)))
  | unlock {h : Hold} {t i m} : h i t = some m → HStep h (.unlock t i m) (upd h i (upd (h i) t none))
  | access {h : Hold} {t r w} : (∀ i, r i ∨ w i → ∃ m, h i t = some m ∧ (w i → m = .excl)) → HStep h (.access t r w) h

inductive HRun (h0 : Hold) : List Did → Hold → Prop
  | nil : HRun h0 [] h0
  | snoc {D h h' d} : HRun h0 D h → HStep h d h' → HRun h0 (D ++ [d]) h'

structure RInv (h : Hold) (D : List Did) : Prop where
  mutex : ∀ i t t', h i t = some .excl → h i t' ≠ none → t' = t
  acc : ∀ (k t i : Nat) (r w : Nat → Prop), D[k]? = some (.access t r w) → r i ∨ w i → ∃ m, (w i → m = .excl) ∧
    (h i t = some m ∨ ∃ k', k < k' ∧ D[k']? = some (.unlock t i m)) ∧
    ∀ t' m', h i t' = some m' → t' ≠ t → (m = .excl ∨ m' = .excl) → Known (D.map Did.ev) t' k
  free : RaceFree D

theorem idx_snoc {β : Type} {D : List β} {d x : β} {k : Nat} (h : (D ++ [d])[k]? = some x) : D[k]? = some x ∨ k = D.length ∧ d = x := by
  by_cases hk : k < D.length
  · rw [List.getElem?_append_left hk] at h; exact .inl h
  · have : k = D.length := by
      have := (List.getElem?_eq_some_iff.1 h).1
      simp at this; omega
    subst this
    simp at h
    exact .inr ⟨rfl, h⟩

theorem map_snoc (D : List Did) (d : Did) : (D ++ [d]).map Did.ev = D.map Did.ev ++ [d.ev] := by simp

/-- Nothing new to order. -/
theorem RaceFree.snoc {D : List Did} (h : RaceFree D) {d : Did}
    (hd : ∀ k a, D[k]? = some a → Conflict a d → Before (D.map Did.ev ++ [d.ev]) k D.length) : RaceFree (D ++ [d]) := by
  intro i j a b hij ha hb hc
  rw [map_snoc]
  rcases idx_snoc hb with hb | ⟨rfl, rfl⟩
  · rcases idx_snoc ha with ha | ⟨rfl, rfl⟩
    · exact before_mono (h i j a b hij ha hb hc)
    · have := (List.getElem?_eq_some_iff.1 hb).1; omega
  · rcases idx_snoc ha with ha | ⟨rfl, rfl⟩
    · exact hd i a ha hc
    · omega

theorem getD_old {D : List Did} {d x : Did} {k : Nat} (h : D[k]? = some x) : (D ++ [d])[k]? = some x := by
  rw [List.getElem?_append_left (List.getElem?_eq_some_iff.1 h).1]; exact h

theorem rinv_step {h h' : Hold} {D d} (I : RInv h D) (hs : HStep h d h') : RInv h' (D ++ [d]) := by
  have hlen : (D.map Did.ev).length = D.length := List.length_map _
  cases hs with
  | @access t r w hcov =>
    refine ⟨I.mutex, fun k' t' i' r' w' hk' hrw => ?_, I.free.snoc fun k' a ha hc => ?_⟩
    · rcases idx_snoc hk' with hk0 | ⟨rfl, e⟩
      · obtain ⟨m', h1, h2, h3⟩ := I.acc k' t' i' r' w' hk0 hrw
        refine ⟨m', h1, h2.imp id fun ⟨k2, h4, h5⟩ => ⟨k2, h4, getD_old h5⟩, fun u mu hu hne hmm => ?_⟩
        rw [map_snoc]
        exact (h3 u mu hu hne hmm).mono _
      · injection e with e1 e2 e3
        subst e1 e2 e3
        obtain ⟨m, hm, hw⟩ := hcov i' hrw
        refine ⟨m, hw, .inl hm, fun u mu hu hne hmm => ?_⟩
        exfalso
        rcases hmm with rfl | rfl
        · exact hne (I.mutex i' t u hm (by rw [hu]; simp))
        · exact hne (I.mutex i' u t hu (by rw [hm]; simp)).symm
    · cases a with
      | lock => exact hc.elim
      | unlock => exact hc.elim
      | access t' r' w' =>
        obtain ⟨hne, i, hc⟩ := hc
        have hrw' : r' i ∨ w' i := hc.elim (fun hc => .inr hc.1) (fun hc => hc.1)
        have hrw : r i ∨ w i := hc.elim (fun hc => hc.2) (fun hc => .inr hc.2)
        obtain ⟨m, hm, hw⟩ := hcov i hrw
        obtain ⟨m', h1, h2, h3⟩ := I.acc k' t' i r' w' ha hrw'
        rw [← hlen]
        refine (h3 t m hm (Ne.symm hne) ?_).last rfl
        exact hc.imp (fun hc => h1 hc.1) (fun hc => hw hc.2)
  | @lock t i m hf =>
    refine ⟨fun j u u' hu hu' => ?_, fun k' t' i' r' w' hk' hrw => ?_, I.free.snoc fun k' a ha hc => by cases a <;> exact hc.elim⟩
    · by_cases hj : j = i
      · subst hj
        simp only [upd, if_pos] at hu hu'
        by_cases e : u = t
        · subst e
          rw [if_pos rfl] at hu
          injection hu with hu; subst hu
          by_contra hne
          rw [if_neg hne] at hu'
          exact hu' (hf u')
        · rw [if_neg e] at hu
          exfalso
          cases m with
          | excl => rw [hf u] at hu; cases hu
          | shared => exact hf u hu
      · simp only [upd, if_neg hj] at hu hu'
        exact I.mutex j u u' hu hu'
    · rcases idx_snoc hk' with hk0 | ⟨rfl, e⟩
      · obtain ⟨m', h1, h2, h3⟩ := I.acc k' t' i' r' w' hk0 hrw
        refine ⟨m', h1, ?_, fun u mu hu hne hmm => ?_⟩
        · rcases h2 with h2 | ⟨k2, h4, h5⟩
          · by_cases hi : i' = i
            · subst hi
              by_cases e : t' = t
              · subst e
                simp only [upd, if_pos]
                cases m with
                | excl => rw [hf t'] at h2; cases h2
                | shared =>
                  cases m' with
                  | shared => exact .inl rfl
                  | excl => exact absurd h2 (hf t')
              · left; simp only [upd, if_pos, if_neg e]; exact h2
            · left; simp only [upd, if_neg hi]; exact h2
          · exact .inr ⟨k2, h4, getD_old h5⟩
        · rw [map_snoc]
          by_cases hi : i' = i ∧ u = t
          · obtain ⟨rfl, rfl⟩ := hi
            simp only [upd, if_pos] at hu
            injection hu with hu; subst hu
            rcases h2 with h2 | ⟨k2, h4, h5⟩
            · exfalso
              cases m with
              | excl => rw [hf t'] at h2; cases h2
              | shared =>
                rcases hmm with rfl | hmm
                · exact hf t' h2
                · cases hmm
            · have e1 : (D.map Did.ev)[k']? = some ⟨t', .plain⟩ := by rw [List.getElem?_map, hk0]; rfl
              have e2 : (D.map Did.ev)[k2]? = some ⟨t', .unlock i' (m' == .excl)⟩ := by rw [List.getElem?_map, h5]; rfl
              have b1 : Before (D.map Did.ev) k' k2 := .single ⟨h4, _, _, e1, e2, .inl rfl⟩
              refine known_of (.inr (before_last (.inr b1) ⟨(List.getElem?_eq_some_iff.1 e2).1, _, _, at_old e2, at_last, ?_⟩)) (.inl rfl)
              refine .inr (.inr (.inr ⟨rfl, ?_⟩))
              rcases hmm with rfl | rfl
              · exact .inl rfl
              · exact .inr rfl
          · have : h i' u = some mu := by
              by_cases h1 : i' = i
              · subst h1
                simp only [upd, if_pos] at hu
                rw [if_neg (fun e => hi ⟨rfl, e⟩)] at hu; exact hu
              · simp only [upd, if_neg h1] at hu; exact hu
            exact (h3 u mu this hne hmm).mono _
      · cases e
  | @unlock t i m hh =>
    have hle : ∀ j u mu, upd h i (upd (h i) t none) j u = some mu → h j u = some mu := by
      intro j u mu hu
      by_cases h1 : j = i
      · subst h1
        simp only [upd, if_pos] at hu
        split at hu
        · cases hu
        · exact hu
      · simp only [upd, if_neg h1] at hu; exact hu
    refine ⟨fun j u u' hu hu' => ?_, fun k' t' i' r' w' hk' hrw => ?_, I.free.snoc fun k' a ha hc => by cases a <;> exact hc.elim⟩
    · cases hc : upd h i (upd (h i) t none) j u' with
      | none => exact absurd hc hu'
      | some mu => exact I.mutex j u u' (hle _ _ _ hu) (by rw [hle _ _ _ hc]; simp)
    · rcases idx_snoc hk' with hk0 | ⟨rfl, e⟩
      · obtain ⟨m', h1, h2, h3⟩ := I.acc k' t' i' r' w' hk0 hrw
        refine ⟨m', h1, ?_, fun u mu hu hne hmm => ?_⟩
        · rcases h2 with h2 | ⟨k2, h4, h5⟩
          · by_cases e : i' = i ∧ t' = t
            · obtain ⟨rfl, rfl⟩ := e
              rw [hh] at h2
              injection h2 with h2; subst h2
              exact .inr ⟨D.length, (List.getElem?_eq_some_iff.1 hk0).1, by simp⟩
            · left
              by_cases h1 : i' = i
              · subst h1
                simp only [upd, if_pos]
                rw [if_neg (fun e2 => e ⟨rfl, e2⟩)]; exact h2
              · simp only [upd, if_neg h1]; exact h2
          · exact .inr ⟨k2, h4, getD_old h5⟩
        · rw [map_snoc]
          exact (h3 u mu (hle _ _ _ hu) hne hmm).mono _
      · cases e

theorem hrun_free {D h} (hr : HRun (fun _ _ => none) D h) : RaceFree D := by
  have : RInv h D := by
    induction hr with
    | nil =>
      refine ⟨?_, ?_, ?_⟩
      · intro i t t' h; cases h
      · intro k t i r w h; simp at h
      · intro i j a b _ h; simp at h
    | snoc _ hs ih => exact rinv_step ih hs
  exact this.free

/-! ## One lock at a time -/

section
variable {op σ ρ S : Type}

/-- Whoever is about to access an object holds its lock, exclusively if the access may change it. -/
def Covered (W : World op σ ρ) : Prop :=
  ∀ t o i w k, W.th t = .run o (.act i w k) → ∃ m, W.hold i t = some m ∧ ((∀ s, w s = s) ∨ m = .excl)

theorem rec_hrun {code : op → Code σ ρ} {A : Nat → σ} (hcov : ∀ H W, Exec code (start A) H W → Covered W) {D W}
    (h : Rec code (start A) D W) : HRun (fun _ _ => none) D W.hold := by
  induction h with
  | refl => exact .nil
  | tail hr hs ih =>
    obtain ⟨H, he⟩ := rec_exec hr
    have hc := hcov H _ he
    cases hs with
    | call h => rw [List.append_nil]; exact ih
    | act h =>
      refine .snoc ih (.access fun j hj => ?_)
      have e : j = _ := hj.elim id And.left
      subst e
      obtain ⟨m, h1, h2⟩ := hc _ _ _ _ _ h
      refine ⟨m, h1, fun ⟨_, s, hs⟩ => ?_⟩
      rcases h2 with h2 | h2
      · exact absurd (h2 s) hs
      · exact h2
    | lock h hf => exact .snoc ih (.lock (by cases ‹Mode› <;> exact hf))
    | unlock h hf => exact .snoc ih (.unlock hf)
    | unlockBad h hf => rw [List.append_nil]; exact ih
    | ret h => rw [List.append_nil]; exact ih

variable {Abs : (Nat → σ) → S → Prop} {sem : S → op → S → ρ → Prop}

/-- Code made of sections under locks is covered. -/
theorem covered {code : op → Code σ ρ} {N : op → Nat} (hcode : ∀ o, Good Abs sem o (N o) (code o)) {A : Nat → σ} {s : S}
    (h0 : Abs A s) {H W} (he : Exec code (start A) H W) : Covered W := by
  obtain ⟨E, A', s', ph, hI, -⟩ := exec_inv hcode h0 he
  intro t o i w k ht
  have := hI.th t
  rw [ht] at this
  generalize ph t = p at this
  cases this with
  | waiting n _ hg =>
    cases n with
    | zero => exact hg.elim
    | succ n => obtain ⟨β, j, m, b, k', hc, -⟩ := hg; cases hc
  | inside hin =>
    rename_i n β j m b0 b k'
    have hc := hin.code
    cases hb : b with
    | ret x => rw [hb] at hc; cases hc
    | ub => rw [hb] at hc; cases hc
    | lock => rw [hb] at hc; cases hc
    | unlock => rw [hb] at hc; cases hc
    | act j' w' k2 =>
      rw [hb] at hc
      simp only [Code.bind] at hc
      injection hc with e1 e2 e3
      have hbd := hin.body
      rw [hb] at hbd
      simp only [Code.Body] at hbd
      have hj : i = j := e1.trans hbd.1
      subst hj
      refine ⟨m, hin.hold, ?_⟩
      cases m with
      | excl => exact .inr rfl
      | shared =>
        have hro := hin.ro rfl
        rw [hb] at hro
        simp only [Code.ReadOnly] at hro
        left; rw [e2]; exact hro.1

theorem race_free {code : op → Code σ ρ} {N : op → Nat} (hcode : ∀ o, Good Abs sem o (N o) (code o)) {A : Nat → σ} {s : S}
    (h0 : Abs A s) {D W} (h : Rec code (start A) D W) : RaceFree D :=
  hrun_free (rec_hrun (fun _ _ he => covered hcode h0 he) h)

end

/-! ## Several locks -/

namespace Multi

open Gtl.Spec (Plan)

variable {op σ ρ S st ρ' : Type}

def Covered (W : World op σ ρ) : Prop :=
  ∀ t o w k, W.th t = .run o (.act w k) → ∀ i, Looks w k i ∨ Changes w i → ∃ m, W.hold i t = some m ∧ (Changes w i → m = .excl)

theorem hrun_locks {h0 : Hold} {D : List Did} {t : Nat} : ∀ (ls : List (Nat × Mode)) {h : Hold} {D : List Did}, HRun h0 D h →
    (ls.map Prod.fst).Nodup → (∀ l ∈ ls, FreeH h l.1 l.2) → HRun h0 (D ++ ls.map fun l => .lock t l.1 l.2) (grant h t ls)
  | [], h, D, hr, _, _ => by rw [List.map_nil, List.append_nil]; exact hr
  | (i, m) :: ls, h, D, hr, hn, hf => by
    rw [List.map_cons, List.nodup_cons] at hn
    have e : D ++ ((i, m) :: ls).map (fun l => Did.lock t l.1 l.2) = (D ++ [.lock t i m]) ++ ls.map fun l => .lock t l.1 l.2 := by simp
    rw [e]
    refine hrun_locks (D := D) ls (.snoc hr (.lock (hf (i, m) List.mem_cons_self))) hn.2 fun l hl => ?_
    have hne : l.1 ≠ i := fun e => hn.1 (by have := List.mem_map_of_mem (f := Prod.fst) hl; rwa [e] at this)
    have := hf l (List.mem_cons_of_mem _ hl)
    cases hm : l.2 <;> rw [hm] at this <;> intro u <;> simp only [upd, if_neg hne] <;> exact this u

theorem rec_hrun {code : op → Code σ ρ} {A : Nat → σ} (hcov : ∀ H W, Exec code (start A) H W → Covered W) {D W}
    (h : Rec code (start A) D W) : HRun (fun _ _ => none) D W.hold := by
  induction h with
  | refl => exact .nil
  | tail hr hs ih =>
    obtain ⟨H, he⟩ := rec_exec hr
    have hc := hcov H _ he
    cases hs with
    | call h => rw [List.append_nil]; exact ih
    | act h => exact .snoc ih (.access fun j hj => hc _ _ _ _ h j hj)
    | lock h hf =>
      refine hrun_locks (D := []) _ ih hf.1 fun l hl => ?_
      have := hf.2 l hl
      cases hm : l.2 <;> rw [hm] at this <;> exact this
    | unlock h hf => exact .snoc ih (.unlock hf)
    | unlockBad h hf => rw [List.append_nil]; exact ih
    | ret h => rw [List.append_nil]; exact ih

variable {Abs : (Nat → σ) → S → Prop} {sem : S → st → S → ρ' → Prop} {R : List (List (Nat × Mode)) → Prop}

theorem covered {code : op → Code σ ρ} {plan : op → Plan st ρ' ρ} (hcode : ∀ o, ∃ n, Good Abs sem R n (plan o) (code o))
    {A : Nat → σ} {s : S} (h0 : Abs A s) {H W} (he : Exec code (start A) H W) : Covered W := by
  obtain ⟨E, A', s', ph, hI, -⟩ := exec_inv hcode h0 he
  intro t o w k ht
  have := hI.th t
  rw [ht] at this
  generalize ph t = p at this
  cases this with
  | rel n i m ls k' hc => cases hc
  | acq n β gs1 g gs2 rel b k' hc => cases hc
  | inside n β ls rel b0 b k' hc hh hbd hne _ hnd _ _ =>
    cases b with
    | ret x =>
      cases rel with
      | nil => exact absurd rfl hne
      | cons l rel => cases hc
    | ub => cases hc
    | lock => cases hc
    | unlock => cases hc
    | act w' k2 =>
      simp only [Code.bind] at hc
      injection hc with e1 e2
      subst e1
      simp only [Code.Body] at hbd
      obtain ⟨hw, hk, -⟩ := hbd
      intro i hi
      by_cases hx : (i, Mode.excl) ∈ ls
      · exact ⟨.excl, by rw [hh i]; exact lk_of_mem hnd hx, fun _ => rfl⟩
      · have hnc : ¬ Changes w i := fun ⟨f, hf⟩ => hf (hw f i hx)
        rcases hi with ⟨f, g, hfg, hd⟩ | hi
        · by_cases hm : i ∈ ls.map Prod.fst
          · obtain ⟨⟨j, m⟩, hl, rfl⟩ := List.mem_map.1 hm
            exact ⟨m, by rw [hh j]; exact lk_of_mem hnd hl, fun hc => absurd hc hnc⟩
          · exfalso
            have ha : ∀ j ∈ ls.map Prod.fst, f j = g j := fun j hj => hfg j (fun e => hm (e ▸ hj))
            obtain ⟨h1, h2⟩ := hk f g ha
            rcases hd with hd | ⟨j, hji, hd⟩
            · rw [e2] at hd
              exact hd (by dsimp only; rw [h1])
            · by_cases hj : j ∈ ls.map Prod.fst
              · exact hd (h2 j hj)
              · have hjx : (j, Mode.excl) ∉ ls := fun h => hj (List.mem_map_of_mem (f := Prod.fst) h)
                rw [hw f j hjx, hw g j hjx] at hd
                exact hd (hfg j hji)
        · exact absurd hi hnc

theorem race_free {code : op → Code σ ρ} {plan : op → Plan st ρ' ρ} (hcode : ∀ o, ∃ n, Good Abs sem R n (plan o) (code o))
    {A : Nat → σ} {s : S} (h0 : Abs A s) {D W} (h : Rec code (start A) D W) : RaceFree D :=
  hrun_free (rec_hrun (fun _ _ he => covered hcode h0 he) h)

end Multi
end Gtl.Conc
