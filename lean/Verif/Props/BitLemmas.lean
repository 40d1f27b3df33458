import Verif.Props.BitDefs
/-!
# Every reachable bit vector holds some list of bits
-/

namespace Gtl.Props.Bits

open Gtl.Bits Gtl.Spec.Bits

def WF (v : Bv) : Prop := ∃ l, Sim v l

theorem wf_of_bits {v : Bv} {l : List Bool} (h : Sim v l) {s' : List Word} (hl : s'.length = v.s.length)
    (hb : ∀ i, l.length ≤ i → bit s' i = false) : WF { v with s := s' } := by
  refine ⟨(List.range l.length).map fun i => bit s' i, h.write (by simp) hl (fun i _ => ?_)⟩
  rw [at_range]
  by_cases c : i < l.length
  · simp [c]
  · simp [c, hb i (by omega)]

/-- Copying and combining views keeps a vector well formed even if the views overlap. -/
theorem seq_wf {v : Bv} {l : List Bool} (h : Sim v l) {o : Option Bv} (ho : ∀ o', o = some o' → WF o') {first last ofirst olast : Nat}
    (h1 : first ≤ last) (h2 : last ≤ l.length) (h3 : ofirst ≤ olast) (h4 : olast ≤ (o.getD v).sz) (h5 : olast - ofirst = last - first)
    (g : Word → Word → Word) :
    ∃ v', v.binAssign first last o ofirst olast g = .ok v' ∧ WF v' := by
  have hroom := h.room
  obtain ⟨s', q, e1, e2, e3⟩ := visit_up (f := fun s q w _ => (do
      let (q, x) ← Seq.next (Bv.source o s) q
      Res.ok (q, g w x))) (s := v.s) (t := mkSeq ofirst olast first)
    (fun pos s1 q => SeqAt q first ofirst olast pos ∧ ∀ i, l.length ≤ i → bit s1 i = false) h1 (by omega)
    ⟨mkSeq_at _ _ _, fun i hi => by rw [h.bits, at_out hi]⟩ (fun lo hi s1 q hseg hl hI w hw => by
      obtain ⟨a1, a2⟩ := hI
      have hsrc : olast ≤ 64 * (Bv.source o s1).length := by
        cases o with
        | none =>
          unfold Bv.source
          simp only [Option.getD_none, h.sz] at h4
          rw [hl]; omega
        | some o' =>
          obtain ⟨lo', ho'⟩ := ho o' rfl
          have := ho'.room
          unfold Bv.source
          simp only [Option.getD_some, ho'.sz] at h4 ⊢
          omega
      obtain ⟨q', x, b1, b2, _⟩ := seq_next (src := Bv.source o s1) hseg a1 h5 h3 hsrc
      refine ⟨q', g w x, by simp only [b1, Res.ok_bind], fun s' hs' => ⟨b2, fun i hi => ?_⟩⟩
      have := hseg.hi_le
      rw [hs'.2, if_neg (by omega)]; exact a2 i hi)
  exact ⟨_, by unfold Bv.binAssign Bv.visit; rw [e1]; rfl, wf_of_bits h e2 e3.2⟩

theorem copyView_eq (v : Bv) (first last : Nat) (o : Option Bv) (ofirst olast : Nat) :
    v.copyView first last o ofirst olast = v.binAssign first last o ofirst olast fun _ y => y := by
  unfold Bv.copyView Bv.binAssign
  congr 1
  funext s q w _
  cases Seq.next (Bv.source o s) q <;> rfl

theorem assignWord_wf {v v' : Bv} {l : List Bool} (h : Sim v l) {first last : Nat} (h1 : first ≤ last) (h2 : last ≤ l.length)
    (h3 : last - first ≤ 64) {val : Word} (e : v.assignWord first last val = .ok v') : ∃ l', Sim v' l' ∧ l'.length = l.length := by
  by_cases hs : last = first ∨ first / 64 = (last - 1) / 64
  · obtain ⟨v1, e1, e2⟩ := assignWord_sim h h1 h2 hs val
    rw [e1] at e; cases e
    exact ⟨_, e2, length_mapView _ _ _ _⟩
  · rw [assignWord_ub h (by omega) h2 h3 (by omega)] at e; cases e

theorem viewWords_wf : ∀ (ws : List Word) {v v' : Bv} {l : List Bool} (_ : Sim v l) {first last : Nat} (_ : first ≤ last)
    (_ : last ≤ l.length) (_ : v.viewAssignWords last first ws = .ok v'), WF v'
  | [], v, v', l, h, first, last, _, _, e => by
    unfold Bv.viewAssignWords at e; cases e; exact ⟨l, h⟩
  | w :: ws, v, v', l, h, first, last, h1, h2, e => by
    unfold Bv.viewAssignWords at e
    rw [if_pos h1] at e
    dsimp only at e
    obtain ⟨v1, e1, e2⟩ := Res.bind_eq_ok.1 e
    obtain ⟨l', e3, e4⟩ := assignWord_wf h (by omega) (by omega) (by omega) e1
    exact viewWords_wf ws e3 (by omega) (by omega) e2

theorem put_wf {w : World} (hw : ∀ x, WF (w x)) {x : Nat} {v : Bv} (hv : WF v) : ∀ y, WF (w.put x v y) := by
  intro y
  unfold World.put
  split
  · exact hv
  · exact hw y

theorem bind_put {w w' : World} {x : Nat} {r : Res Bv} (hw : ∀ x, WF (w x)) (hr : ∀ v, r = .ok v → WF v)
    (e : (do let v ← r; Res.ok (w.put x v)) = .ok w') : ∀ y, WF (w' y) := by
  obtain ⟨v, e1, e2⟩ := Res.bind_eq_ok.1 e
  cases e2
  exact put_wf hw (hr v e1)

theorem of_ex {r : Res Bv} {P : Bv → Prop} (h : ∃ v', r = .ok v' ∧ P v') : ∀ v, r = .ok v → P v := by
  intro v e
  obtain ⟨v', e1, e2⟩ := h
  rw [e1] at e; cases e; exact e2

theorem of_ex' {r : Res Bv} {l : List Bool} (h : ∃ v', r = .ok v' ∧ Sim v' l) : ∀ v, r = .ok v → WF v := by
  intro v e
  obtain ⟨v', e1, e2⟩ := h
  rw [e1] at e; cases e; exact ⟨l, e2⟩

theorem other_wf {w : World} (hw : ∀ x, WF (w x)) (x y : Nat) : ∀ o', other w x y = some o' → WF o' := by
  intro o' e
  unfold other at e
  split at e
  · cases e
  · cases e; exact hw y

theorem other_sz (w : World) (x y : Nat) : ((other w x y).getD (w x)).sz = (w y).sz := by
  unfold other
  split
  · rename_i e; rw [e]; rfl
  · rfl

theorem step_wf {w w' : World} {op : Op} (hw : ∀ x, WF (w x)) (ha : op.Asserts w) (e : op.run w = .ok w') : ∀ x, WF (w' x) := by
  cases op with
  | create x n b => exact bind_put hw (of_ex' (create_sim n b)) e
  | ofWords x ws => exact bind_put hw (of_ex' (ofWords_sim ws)) e
  | assignWords x ws =>
    obtain ⟨l, hl⟩ := hw x
    exact bind_put hw (of_ex' (assignWords_sim ws hl 0)) e
  | copy x y => cases e; exact put_wf hw (hw y)
  | swap x y => cases e; exact put_wf (put_wf hw (hw y)) (hw x)
  | resize x n b =>
    obtain ⟨l, hl⟩ := hw x
    exact bind_put hw (of_ex' (resize_sim hl n b)) e
  | setTo x i b =>
    obtain ⟨l, hl⟩ := hw x
    exact bind_put hw (of_ex' (setTo_sim hl (by rw [← hl.sz]; exact ha) b)) e
  | flip x i =>
    obtain ⟨l, hl⟩ := hw x
    exact bind_put hw (of_ex' (flip_sim hl (by rw [← hl.sz]; exact ha))) e
  | setAll x b =>
    obtain ⟨l, hl⟩ := hw x
    by_cases c : l = []
    · subst c
      refine bind_put hw (fun v hv => ?_) e
      have hs : (w x).s = [] := List.length_eq_zero_iff.1 (by rw [hl.len]; rfl)
      unfold Bv.setAll Bv.fill ld at hv
      rw [hs] at hv
      simp only [List.getElem?_nil, Res.ofOption_none, Res.ub_bind] at hv
      cases hv
    · exact bind_put hw (of_ex' (fill_sim hl c b)) e
  | flipAll x =>
    obtain ⟨l, hl⟩ := hw x
    exact bind_put hw (of_ex' (flipAll_sim hl)) e
  | viewFill x first last b =>
    obtain ⟨l, hl⟩ := hw x
    exact bind_put hw (of_ex' (viewFill_sim hl ha.1 (by rw [← hl.sz]; exact ha.2) b)) e
  | viewFlip x first last =>
    obtain ⟨l, hl⟩ := hw x
    exact bind_put hw (of_ex' (viewFlip_sim hl ha.1 (by rw [← hl.sz]; exact ha.2))) e
  | bin k x first last y ofirst olast =>
    obtain ⟨l, hl⟩ := hw x
    obtain ⟨a1, a2, a3, a4, a5⟩ := ha
    exact bind_put hw (of_ex (seq_wf hl (other_wf hw x y) a1 (by rw [← hl.sz]; exact a2) a3 (by rw [other_sz]; exact a4) a5 _)) e
  | assignView x first last y ofirst olast =>
    obtain ⟨l, hl⟩ := hw x
    obtain ⟨a1, a2, a3, a4, a5⟩ := ha
    refine bind_put hw (fun v hv => ?_) e
    unfold Bv.assignView at hv
    split at hv
    · rw [copyView_eq] at hv
      exact of_ex (seq_wf hl (other_wf hw x y) a1 (by rw [← hl.sz]; exact a2) a3 (by rw [other_sz]; exact a4) a5 _) v hv
    · rename_i c
      have hxy : x = y := by
        by_contra hne
        exact c (.inl (by unfold other; rw [if_neg hne]; rfl))
      subst hxy
      split at hv
      · rw [copyView_eq] at hv
        exact of_ex (seq_wf (o := none) hl (by simp) a3 (by rw [← hl.sz]; exact a4) a1 a2 a5.symm _) v hv
      · cases hv; exact ⟨l, hl⟩
  | assignWord x first last val =>
    obtain ⟨l, hl⟩ := hw x
    refine bind_put hw (fun v hv => ?_) e
    obtain ⟨l', h', _⟩ := assignWord_wf hl ha.1 (by rw [← hl.sz]; exact ha.2.1) ha.2.2 hv
    exact ⟨l', h'⟩
  | viewWords x first last ws =>
    obtain ⟨l, hl⟩ := hw x
    exact bind_put hw (fun v hv => viewWords_wf ws hl ha.1 (by rw [← hl.sz]; exact ha.2) hv) e
  | shl x first last n =>
    obtain ⟨l, hl⟩ := hw x
    exact bind_put hw (of_ex' (shl_sim hl ha.1 (by rw [← hl.sz]; exact ha.2) n)) e
  | shr x first last n =>
    obtain ⟨l, hl⟩ := hw x
    exact bind_put hw (of_ex' (shr_sim hl ha.1 (by rw [← hl.sz]; exact ha.2) n)) e

theorem reach_wf {w : World} (h : Reach w) : ∀ x, WF (w x) := by
  induction h with
  | init => exact fun _ => ⟨[], empty_sim⟩
  | step _ ha e ih => exact step_wf ih ha e

theorem Reachable.wf {v : Bv} (h : Reachable v) : WF v := by
  obtain ⟨w, x, hw, rfl⟩ := h
  exact reach_wf hw x

theorem contents_of_sim {v : Bv} {l : List Bool} (h : Sim v l) : Contents v l :=
  ⟨h.sz, fun i hi => by rw [get_sim h hi, at_get hi]⟩

theorem Reachable.sim {v : Bv} {l : List Bool} (h : Reachable v) (hc : Contents v l) : Sim v l := by
  obtain ⟨l', hs⟩ := h.wf
  have hll : l'.length = l.length := hs.sz.symm.trans hc.1
  have : l' = l := by
    apply List.ext_getElem hll
    intro i a b
    have e1 := get_sim hs a
    rw [hc.2 i b, at_get a] at e1
    injection e1 with e1
    exact e1.symm
  rw [← this]; exact hs

/-- Every reachable vector has contents. -/
theorem Reachable.contents {v : Bv} (h : Reachable v) : ∃ l, Contents v l := by
  obtain ⟨l, hs⟩ := h.wf
  exact ⟨l, contents_of_sim hs⟩

theorem reachable_run {w : World} (h : Reach w) {op : Op} (ha : op.Asserts w) {x : Nat} {v : Bv} (e : op.run w = .ok (w.put x v)) :
    Reachable v := by
  refine ⟨w.put x v, x, h.step ha e, ?_⟩
  unfold World.put; rw [if_pos rfl]

end Gtl.Props.Bits
