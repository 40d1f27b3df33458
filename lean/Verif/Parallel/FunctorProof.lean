import Verif.Parallel.Functor
import Verif.Parallel.Bulk
import Verif.Swiss.FunctorProof
/-!
# Parallel containers with different hash function objects: proofs
-/

namespace Gtl.Parallel

open Gtl.Swiss
open Gtl.Spec (POp Resp FOp FResp put)

variable {α κ S : Type}

/-! ### Loops -/

theorem zipOpt_spec {β β' γ : Type} {f : β → β' → Res (Option γ)} : ∀ (l : List β) (l' : List β') (R : Nat → γ → Prop),
    l.length = l'.length →
    (∀ (i : Nat) b b', l[i]? = some b → l'[i]? = some b' → ∃ c, f b b' = .ok (some c) ∧ R i c) →
    ∃ cs, zipOpt f l l' = .ok (some cs) ∧ cs.length = l.length ∧ ∀ (i : Nat) c, cs[i]? = some c → R i c := by
  intro l
  induction l with
  | nil => intro l' R _ _; exact ⟨[], by unfold zipOpt; rfl, rfl, fun i c h => by simp at h⟩
  | cons b l ih =>
    intro l' R hl hf
    cases l' with
    | nil => cases hl
    | cons b' l' =>
      obtain ⟨c, h1, h2⟩ := hf 0 b b' rfl rfl
      obtain ⟨cs, h3, h4, h5⟩ := ih l' (fun i => R (i + 1)) (by simpa using hl) (fun i x x' hx hx' => hf (i + 1) x x' hx hx')
      refine ⟨c :: cs, ?_, by simp [h4], fun i d hd => ?_⟩
      · unfold zipOpt
        rw [h1]
        simp only [Res.ok_bind]
        rw [h3]
        rfl
      · cases i with
        | zero => cases hd; exact h2
        | succ i => exact h5 i d hd

theorem zipOpt_none {β β' γ : Type} {f : β → β' → Res (Option γ)} : ∀ (l : List β) (l' : List β'), l.length = l'.length →
    (∀ (i : Nat) b b', l[i]? = some b → l'[i]? = some b' → ∃ o, f b b' = .ok o) →
    (∃ (i : Nat) (b : β) (b' : β'), l[i]? = some b ∧ l'[i]? = some b' ∧ f b b' = .ok none) → zipOpt f l l' = .ok none := by
  intro l
  induction l with
  | nil => rintro l' _ _ ⟨i, b, b', h, _⟩; simp at h
  | cons b l ih =>
    intro l' hl hf hex
    cases l' with
    | nil => cases hl
    | cons b' l' =>
      obtain ⟨o, h1⟩ := hf 0 b b' rfl rfl
      unfold zipOpt
      rw [h1]
      cases o with
      | none => rfl
      | some c =>
        simp only [Res.ok_bind]
        obtain ⟨i, x, x', e1, e2, e3⟩ := hex
        cases i with
        | zero =>
          cases e1; cases e2
          rw [h1] at e3; cases e3
        | succ i =>
          rw [ih l' (by simpa using hl) (fun i x x' hx hx' => hf (i + 1) x x' hx hx') ⟨i, x, x', e1, e2, e3⟩]
          rfl

/-- A loop in which nothing throws. -/
theorem zipOpt_zipRes {β β' γ δ : Type} {f : β → β' → Res (Option γ)} {g : β → β' → Res δ} {e : β → β' → δ → γ}
    (π : γ → δ) (he : ∀ b b' d, π (e b b' d) = d)
    (hfg : ∀ b b' d, g b b' = .ok d → f b b' = .ok (some (e b b' d))) : ∀ (l : List β) (l' : List β') ds,
    zipRes g l l' = .ok ds → ∃ cs, zipOpt f l l' = .ok (some cs) ∧ cs.map π = ds := by
  intro l
  induction l with
  | nil => intro l' ds h; unfold zipRes at h; cases h; exact ⟨[], by unfold zipOpt; rfl, rfl⟩
  | cons b l ih =>
    intro l' ds h
    cases l' with
    | nil => unfold zipRes at h; cases h
    | cons b' l' =>
      unfold zipRes at h
      obtain ⟨d, h1, h2⟩ := Res.bind_eq_ok.1 h
      obtain ⟨ds', h3, h4⟩ := Res.bind_eq_ok.1 h2
      cases h4
      obtain ⟨cs, h5, h6⟩ := ih l' ds' h3
      refine ⟨e b b' d :: cs, ?_, by simp [he, h6]⟩
      unfold zipOpt
      rw [hfg b b' d h1]
      simp only [Res.ok_bind]
      rw [h5]
      rfl

/-! ### Changing the hash function of an empty container -/

/-- The template parameters with another hash function (a helper of the proofs). -/
def PCfg.using (P : PCfg α κ) (h : κ → Nat) : PCfg α κ := { P with C := P.C.using h }

theorem PSim.using {P : PCfg α κ} {p : PTbl α} (h : PSim P p []) (f : κ → Nat) : PSim (P.using f) p [] :=
  ⟨h.len, fun i t ht => Sim.using (h.sim i t ht) f⟩

theorem PSim.nil_of {P : PCfg α κ} {p : PTbl α} (hl : p.sets.length = 2 ^ P.N) (h : ∀ t ∈ p.sets, Sim P.C t []) : PSim P p [] :=
  ⟨hl, fun i t ht => h t (List.mem_of_getElem? ht)⟩

namespace PBox

/-- A container with hash function object `x.1` and elements `x.2`. -/
def PFSim (P : PCfg α κ) (F : Fns S κ) (b : PBox S α) (x : S × List α) : Prop :=
  b.fn = x.1 ∧ PSim (pcfg P F x.1) b.tbl x.2 ∧ (F.call x.1 = none → x.2 = [])

variable {P : PCfg α κ} {F : Fns S κ}

open Box (Good)

theorem pstep_nil (key : α → κ) (eqv : κ → κ → Bool) {op : POp α κ} (hn : op.needsHash = false) :
    (Spec.pstep key eqv [] op).1 = [] := by
  cases op with
  | base op => exact step_nil key eqv hn
  | forEachM f => rfl
  | _ => exact Bool.noConfusion hn

theorem step_pfsim (hG : Good P.C F) {b : PBox S α} {x : S × List α} (h : PFSim P F b x) (op : POp α κ)
    (hv : op.Valid P.C.key (2 ^ P.N)) :
    if (F.call x.1).isSome || !op.needsHash then
      ∃ b', b.step P F op = .ok (b', .got (Spec.pstep P.C.key P.C.eqv x.2 op).2) ∧
        PFSim P F b' (x.1, (Spec.pstep P.C.key P.C.eqv x.2 op).1)
    else b.step P F op = .ok (b, .threw) := by
  obtain ⟨h1, h2, h3⟩ := h
  unfold step
  rw [h1]
  split
  · rename_i hc
    obtain ⟨p', s1, s2⟩ := pstep_sim (P := pcfg P F x.1) (hG x.1) h2 op hv
    refine ⟨⟨x.1, p'⟩, ?_, rfl, s2, fun e => ?_⟩
    · simp only [s1, Res.ok_bind]; rfl
    · rw [e] at hc
      rw [h3 e]
      exact pstep_nil _ _ (by simpa using hc)
  · rfl

theorem make_pfsim (hG : Good P.C F) (s : S) (n : Nat) : PFSim P F (make P s n : PBox S α) (s, []) :=
  ⟨rfl, withBuckets_psim (P := pcfg P F s) (hG s).group n, fun _ => rfl⟩

theorem sub_fsim {b : PBox S α} {x : S × List α} (h : PFSim P F b x) {i : Nat} {t : Tbl α} (ht : b.tbl.sets[i]? = some t) :
    Box.FSim P.C F ⟨x.1, t⟩ (x.1, part (pcfg P F x.1) x.2 i) :=
  ⟨rfl, h.2.1.sim i t ht, fun e => by rw [h.2.2 e]; rfl⟩

theorem copyAssign_pfsim (hG : Good P.C F) {a b : PBox S α} {x y : S × List α} (ha : PFSim P F a x) (hb : PFSim P F b y) :
    ∃ a', copyAssign P F a b = .ok (some a') ∧ PFSim P F a' y := by
  obtain ⟨bs, h1, h2, h3⟩ := zipOpt_spec (f := fun t u => Box.copyAssign P.C F ⟨a.fn, t⟩ ⟨b.fn, u⟩) a.tbl.sets b.tbl.sets
    (fun i c => Sim (Box.cfg P.C F y.1) c.tbl (part (pcfg P F y.1) y.2 i)) (ha.2.1.len.trans hb.2.1.len.symm)
    (fun i t u ht hu => by
      obtain ⟨d, hd⟩ := Box.destroy_fsim hG (sub_fsim ha ht)
      obtain ⟨c, hc1, hc2⟩ := Box.copy_fsim hG (sub_fsim hb hu)
      refine ⟨c, ?_, hc2.2.1⟩
      unfold Box.copyAssign Box.swap
      rw [hb.1, hc1]
      simp only [Tbl.swap, hd, Res.ok_bind])
  refine ⟨⟨y.1, ⟨bs.map Box.tbl⟩⟩, ?_, rfl, ⟨?_, fun i t ht => ?_⟩, hb.2.2⟩
  · unfold copyAssign
    rw [h1]
    simp only [Res.ok_bind, hb.1]
  · show (bs.map Box.tbl).length = 2 ^ P.N
    rw [List.length_map, h2]
    exact ha.2.1.len
  · obtain ⟨c, hc, rfl⟩ : ∃ c, bs[i]? = some c ∧ c.tbl = t := by
      simpa [List.getElem?_map, Option.map_eq_some_iff] using ht
    exact h3 i c hc

theorem moveAssign_tbl {P' : PCfg α κ} (hC : CfgOk P.C) (hN : P'.N = P.N) {p q : PTbl α} {l m : List α} (hp : PSim P p l)
    (hq : PSim P' q m) (hG' : GroupSpec P'.C.G) : ∃ q', PTbl.moveAssign p q = .ok (q, q') ∧ ∀ f, PSim (P'.using f) q' [] := by
  obtain ⟨ts, h1, h2, h3⟩ := zipRes_spec (f := fun t u => Tbl.moveAssign t u) p.sets q.sets
    (fun i c => q.sets[i]? = some c.1 ∧ c.2 = Tbl.empty) (by rw [hp.len, hq.len, hN])
    (fun i t u ht hu => by
      obtain ⟨d, hd⟩ := destroySlots_sim hC (hp.sim i t ht)
      refine ⟨(u, Tbl.empty), ?_, hu, rfl⟩
      simp only [Tbl.moveAssign, Tbl.move, Tbl.swap, hd, Res.ok_bind])
  have hlen : ts.length = q.sets.length := by rw [h2, hp.len, hq.len, hN]
  have hfst : ts.map Prod.fst = q.sets := by
    apply List.ext_getElem?
    intro i
    rw [List.getElem?_map]
    cases ht : ts[i]? with
    | none =>
      rw [List.getElem?_eq_none_iff, hlen] at ht
      rw [List.getElem?_eq_none_iff.2 ht]; rfl
    | some c => exact (h3 i c ht).1.symm
  refine ⟨⟨ts.map Prod.snd⟩, ?_, fun f => ⟨?_, fun i t ht => ?_⟩⟩
  · unfold PTbl.moveAssign
    rw [h1]
    simp only [Res.ok_bind, hfst]
  · show (ts.map Prod.snd).length = 2 ^ P'.N
    rw [List.length_map, hlen]; exact hq.len
  · obtain ⟨c, hc, rfl⟩ : ∃ c, ts[i]? = some c ∧ c.2 = t := by
      simpa [List.getElem?_map, Option.map_eq_some_iff] using ht
    rw [(h3 i c hc).2]
    exact sim_empty hG'

theorem moveAssign_pfsim (hG : Good P.C F) {a b : PBox S α} {x y : S × List α} (ha : PFSim P F a x) (hb : PFSim P F b y) :
    ∃ a' b', moveAssign F a b = .ok (a', b') ∧ PFSim P F a' y ∧ PFSim P F b' (F.moved y.1, []) := by
  obtain ⟨q', h1, h2⟩ := moveAssign_tbl (P := pcfg P F x.1) (P' := pcfg P F y.1) (hG x.1) rfl ha.2.1 hb.2.1 (hG y.1).group
  refine ⟨⟨y.1, b.tbl⟩, ⟨F.moved y.1, q'⟩, ?_, ⟨rfl, hb.2.1, hb.2.2⟩, rfl, h2 _, fun _ => rfl⟩
  unfold moveAssign
  rw [h1]
  simp only [Res.ok_bind, hb.1]

theorem moveInit_pfsim (hG : Good P.C F) {b : PBox S α} {y : S × List α} (hb : PFSim P F b y) :
    ∃ a' b', moveInit P b = .ok (a', b') ∧ PFSim P F a' y ∧ PFSim P F b' (y.1, []) := by
  obtain ⟨q', h1, h2⟩ := moveAssign_tbl (P := pcfg P F y.1) (P' := pcfg P F y.1) (hG y.1) rfl
    (empty_psim (P := pcfg P F y.1) (hG y.1).group) hb.2.1 (hG y.1).group
  have h1' : PTbl.moveAssign (PTbl.empty P) b.tbl = .ok (b.tbl, q') := h1
  refine ⟨⟨y.1, b.tbl⟩, ⟨y.1, q'⟩, ?_, ⟨rfl, hb.2.1, hb.2.2⟩, rfl, h2 _, fun _ => rfl⟩
  unfold moveInit
  rw [h1']
  simp only [Res.ok_bind, hb.1]

theorem swap_tbl {p q : PTbl α} (h : p.sets.length = q.sets.length) : PTbl.swap p q = .ok (q, p) := by
  have : ∀ (l m : List (Tbl α)), l.length = m.length →
      zipRes (fun t u => Res.ok (Tbl.swap t u)) l m = .ok (m.zip l) := by
    intro l
    induction l with
    | nil => intro m hm; cases m with
      | nil => rfl
      | cons => cases hm
    | cons t l ih =>
      intro m hm
      cases m with
      | nil => cases hm
      | cons u m =>
        unfold zipRes
        rw [ih m (by simpa using hm)]
        rfl
  unfold PTbl.swap
  rw [this _ _ h]
  simp only [Res.ok_bind]
  rw [List.map_fst_zip (by omega), List.map_snd_zip (by omega)]

theorem swap_pfsim {a b : PBox S α} {x y : S × List α} (ha : PFSim P F a x) (hb : PFSim P F b y) :
    ∃ a' b', swap a b = .ok (a', b') ∧ PFSim P F a' y ∧ PFSim P F b' x := by
  refine ⟨⟨y.1, b.tbl⟩, ⟨x.1, a.tbl⟩, ?_, ⟨rfl, hb.2⟩, rfl, ha.2⟩
  unfold swap
  rw [swap_tbl (ha.2.1.len.trans hb.2.1.len.symm)]
  simp only [Res.ok_bind, ha.1, hb.1]

/-- Two function objects that do not put elements into different submaps. -/
def Same (F : Fns S κ) (s s' : S) : Prop := F.call s = none ∨ F.call s' = none ∨ F.call s = F.call s'

theorem pcfg_eq {s s' : S} (h : F.call s = F.call s') : pcfg P F s = pcfg P F s' := by
  unfold pcfg Box.cfg
  rw [h]

theorem exists_part {P : PCfg α κ} {m : List α} (h : m ≠ []) : ∃ i, i < 2 ^ P.N ∧ part P m i ≠ [] := by
  cases m with
  | nil => exact absurd rfl h
  | cons a m =>
    refine ⟨idx P a, subidx_lt _ _, ?_⟩
    rw [part_cons_same]
    exact List.cons_ne_nil _ _

theorem merge_pfsim (hG : Good P.C F) {a b : PBox S α} {x y : S × List α} (ha : PFSim P F a x) (hb : PFSim P F b y)
    (hs : Same F x.1 y.1) :
    if (F.call x.1).isSome || y.2.isEmpty then
      ∃ a' b', merge P F a b = .ok (some (a', b')) ∧
        PFSim P F a' (x.1, x.2 ++ y.2.filter (fun a => !x.2.any (fun b => P.C.eqv (P.C.key b) (P.C.key a)))) ∧
        PFSim P F b' (y.1, y.2.filter (fun a => x.2.any (fun b => P.C.eqv (P.C.key b) (P.C.key a))))
    else merge P F a b = .ok none := by
  obtain ⟨a1, a2, a3⟩ := id ha
  obtain ⟨b1, b2, b3⟩ := id hb
  have hlen : a.tbl.sets.length = b.tbl.sets.length := a2.len.trans b2.len.symm
  cases hc : F.call x.1 with
  | some f =>
    rw [if_pos (by simp)]
    have hb2 : PSim (pcfg P F x.1) b.tbl y.2 := by
      cases hy : F.call y.1 with
      | none =>
        rw [b3 hy] at b2 ⊢
        exact b2.using _
      | some f' =>
        rcases hs with e | e | e
        · rw [hc] at e; cases e
        · rw [hy] at e; cases e
        · rw [pcfg_eq e]; exact b2
    obtain ⟨p', q', m1, m2, m3⟩ := merge_psim (P := pcfg P F x.1) (hG x.1) a2 hb2
    unfold PTbl.merge at m1
    obtain ⟨ts, m4, m5⟩ := Res.bind_eq_ok.1 m1
    cases m5
    obtain ⟨cs, c1, c2⟩ := zipOpt_zipRes (f := fun t u => Box.merge P.C F ⟨a.fn, t⟩ ⟨b.fn, u⟩)
      (g := fun t u => Tbl.merge (pcfg P F x.1).C t u)
      (e := fun _ _ d => (⟨a.fn, d.1⟩, ⟨b.fn, d.2⟩)) (fun c => (c.1.tbl, c.2.tbl)) (fun _ _ _ => rfl)
      (fun t u d hd => by
        unfold Box.merge
        simp only [a1, hc]
        have hd' : Tbl.merge (Box.cfg P.C F x.1) t u = .ok d := hd
        rw [hd']
        rfl) _ _ _ m4
    have hfst : cs.map (fun x => x.1.tbl) = ts.map Prod.fst := by rw [← c2, List.map_map]; rfl
    have hsnd : cs.map (fun x => x.2.tbl) = ts.map Prod.snd := by rw [← c2, List.map_map]; rfl
    refine ⟨⟨a.fn, ⟨ts.map Prod.fst⟩⟩, ⟨b.fn, ⟨ts.map Prod.snd⟩⟩, ?_, ⟨a1, m2, fun e => by rw [hc] at e; cases e⟩, b1, ?_,
      fun e => by rw [b3 e]; rfl⟩
    · unfold merge
      rw [c1]
      simp only [Res.ok_bind, hfst, hsnd]
    · cases hy : F.call y.1 with
      | none =>
        have m3' : PSim (pcfg P F x.1) ⟨ts.map Prod.snd⟩ [] := by
          have hh := m3
          rw [b3 hy] at hh
          exact hh
        rw [b3 hy]
        exact m3'.using _
      | some f' =>
        rcases hs with e | e | e
        · rw [hc] at e; cases e
        · rw [hy] at e; cases e
        · rw [← pcfg_eq (P := P) e]; exact m3
  | none =>
    simp only [Option.isSome_none, Bool.false_or, List.isEmpty_iff]
    have hx := a3 hc
    have one : ∀ (i : Nat) t u, a.tbl.sets[i]? = some t → b.tbl.sets[i]? = some u →
        Box.merge P.C F ⟨a.fn, t⟩ ⟨b.fn, u⟩ =
          .ok (if part (pcfg P F y.1) y.2 i = [] then some (⟨a.fn, t⟩, ⟨b.fn, u⟩) else none) := by
      intro i t u ht hu
      obtain ⟨p, p1, p2⟩ := begin_end (hG y.1) (b2.sim i u hu)
      have p1' : u.begin_ P.C = .ok p := by
        have := begin_using P.C ((F.call y.1).getD (fun _ => 0)) u
        rw [← this]; exact p1
      unfold Box.merge
      simp only [a1, hc, p1', Res.ok_bind]
      simp only [p2]
    by_cases hy : y.2 = []
    · rw [if_pos hy]
      obtain ⟨cs, c1, c2, c3⟩ := zipOpt_spec (f := fun t u => Box.merge P.C F ⟨a.fn, t⟩ ⟨b.fn, u⟩) a.tbl.sets b.tbl.sets
        (fun i c => a.tbl.sets[i]? = some c.1.tbl ∧ b.tbl.sets[i]? = some c.2.tbl) hlen
        (fun i t u ht hu => ⟨_, by rw [one i t u ht hu, hy]; rfl, ht, hu⟩)
      have hfst : cs.map (fun x => x.1.tbl) = a.tbl.sets := by
        apply List.ext_getElem?
        intro i
        rw [List.getElem?_map]
        cases ht : cs[i]? with
        | none =>
          rw [List.getElem?_eq_none_iff, c2] at ht
          rw [List.getElem?_eq_none_iff.2 ht]; rfl
        | some c => exact (c3 i c ht).1.symm
      have hsnd : cs.map (fun x => x.2.tbl) = b.tbl.sets := by
        apply List.ext_getElem?
        intro i
        rw [List.getElem?_map]
        cases ht : cs[i]? with
        | none =>
          rw [List.getElem?_eq_none_iff, c2, hlen] at ht
          rw [List.getElem?_eq_none_iff.2 ht]; rfl
        | some c => exact (c3 i c ht).2.symm
      refine ⟨a, b, ?_, ⟨a1, ?_, fun e => ?_⟩, b1, ?_, fun e => ?_⟩
      · unfold merge
        rw [c1]
        simp only [Res.ok_bind, hfst, hsnd]
      · rw [hy]; simpa using a2
      · rw [hy, hx]; rfl
      · rw [hy] at b2 ⊢; simpa using b2
      · rw [hy]; rfl
    · rw [if_neg hy]
      obtain ⟨i, hi, hpart⟩ := exists_part (P := pcfg P F y.1) hy
      obtain ⟨u, hu, _⟩ := b2.get hi
      obtain ⟨t, ht, _⟩ := a2.get (show i < 2 ^ (pcfg P F x.1).N from hi)
      unfold merge
      rw [zipOpt_none _ _ hlen (fun i t u ht hu => ⟨_, one i t u ht hu⟩)
        ⟨i, t, u, ht, hu, by rw [one i t u ht hu, if_neg hpart]⟩]
      rfl

theorem equalSets_spec [BEq α] [LawfulBEq α] {P' : PCfg α κ} (hC : CfgOk P'.C) (s s' : S) :
    ∀ (ts us : List (Tbl α)), ts.length = us.length →
    (∀ (i : Nat) t u, ts[i]? = some t → us[i]? = some u → (∃ c, Inv P'.C t c) ∧ (∃ c, Inv P'.C u c) ∧
      Box.equal P.C F ⟨s, t⟩ ⟨s', u⟩ = .ok (some ((elems t).isPerm (elems u)))) →
    ∀ b, PTbl.beqSets P' ts us = .ok b → equalSets P F s s' ts us = .ok (some b) := by
  intro ts
  induction ts with
  | nil => intro us _ _ b hb; unfold PTbl.beqSets at hb; cases hb; unfold equalSets; rfl
  | cons t ts ih =>
    intro us hl h b hb
    cases us with
    | nil => cases hl
    | cons u us =>
      obtain ⟨⟨c, hi⟩, ⟨d, hj⟩, he⟩ := h 0 t u rfl rfl
      obtain ⟨b', g1, g2⟩ := beqTbl_spec hC hi hj
      have hb' : b' = (elems t).isPerm (elems u) := by rw [Bool.eq_iff_iff, g2, List.isPerm_iff]
      unfold PTbl.beqSets at hb
      rw [g1] at hb
      simp only [Res.ok_bind] at hb
      unfold equalSets
      rw [he, ← hb']
      simp only [Res.ok_bind]
      cases b' with
      | true =>
        simp only [if_true] at hb ⊢
        exact ih us (by simpa using hl) (fun i x y hx hy => h (i + 1) x y hx hy) b hb
      | false =>
        simp only [Bool.false_eq_true, if_false] at hb ⊢
        cases hb; rfl

theorem equal_pfsim [BEq α] [LawfulBEq α] (hG : Good P.C F) {a b : PBox S α} {x y : S × List α} (ha : PFSim P F a x)
    (hb : PFSim P F b y) (hs : Same F x.1 y.1) :
    equalSets P F a.fn b.fn a.tbl.sets b.tbl.sets = .ok (some (x.2.isPerm y.2)) := by
  obtain ⟨s, hx, hy⟩ : ∃ s, PSim (pcfg P F s) a.tbl x.2 ∧ PSim (pcfg P F s) b.tbl y.2 := by
    rcases hs with e | e | e
    · refine ⟨y.1, ?_, hb.2.1⟩
      have := ha.2.1
      rw [ha.2.2 e] at this ⊢
      exact this.using _
    · refine ⟨x.1, ha.2.1, ?_⟩
      have := hb.2.1
      rw [hb.2.2 e] at this ⊢
      exact this.using _
    · refine ⟨x.1, ha.2.1, ?_⟩
      rw [pcfg_eq e]; exact hb.2.1
  refine equalSets_spec (P' := pcfg P F s) (hG s) _ _ _ _ (hx.len.trans hy.len.symm) (fun i t u ht hu => ?_) _
    (equal_psim (hG s) hx hy)
  refine ⟨(hx.sim i t ht).1, (hy.sim i u hu).1, ?_⟩
  rw [ha.1, hb.1]
  have h1 := sub_fsim ha ht
  have h2 := sub_fsim hb hu
  rw [Box.equal_fsim hG h1 h2]
  congr 2
  rw [Bool.eq_iff_iff, List.isPerm_iff, List.isPerm_iff]
  have p1 := h1.2.1.2
  have p2 := h2.2.1.2
  exact ⟨fun p => (p1.trans p).trans p2.symm, fun p => (p1.symm.trans p).trans p2⟩

/-! ### Histories -/

/-- All containers. -/
def PWFSim (P : PCfg α κ) (F : Fns S κ) (w : Nat → PBox S α) (m : Nat → S × List α) : Prop := ∀ i, PFSim P F (w i) (m i)

theorem PWFSim.put {w : Nat → PBox S α} {m : Nat → S × List α} (h : PWFSim P F w m) (i : Nat) {b : PBox S α}
    {x : S × List α} (hb : PFSim P F b x) : PWFSim P F (put w i b) (put m i x) := by
  intro j
  unfold Spec.put
  by_cases hj : j = i
  · rw [if_pos hj, if_pos hj]; exact hb
  · rw [if_neg hj, if_neg hj]; exact h j

/-- The specification these containers follow. -/
abbrev spec [BEq α] (P : PCfg α κ) (F : Fns S κ) (m : Nat → S × List α) (op : FOp S (POp α κ)) :=
  Spec.fwstep P.C.key P.C.eqv (Spec.pcalls P.C.key P.C.eqv) (fun s => (F.call s).isSome) F.moved id m op

theorem wstep_pfsim [BEq α] [LawfulBEq α] (hG : Good P.C F) {w : Nat → PBox S α} {m : Nat → S × List α} (h : PWFSim P F w m)
    (op : FOp S (POp α κ)) (hs : op.Alike (Same F) m)
    (hv : op.Valid (POp.Valid P.C.key (2 ^ P.N)) (P.mtx != .null)) :
    ∃ w', wstep P F w op = .ok (w', (spec P F m op).2) ∧ PWFSim P F w' (spec P F m op).1 := by
  have hlock : ∀ i j : Nat, (i = j → (P.mtx != .null) = false) → ¬ (i = j ∧ P.mtx ≠ .null) := by
    rintro i j hl ⟨rfl, hne⟩
    exact hne (by simpa using hl rfl)
  cases op with
  | on i op =>
    have hs := step_pfsim hG (h i) op hv
    split at hs
    · rename_i hc
      obtain ⟨b, b1, b2⟩ := hs
      have e : spec P F m (.on i op) = (put m i ((m i).1, (Spec.pstep P.C.key P.C.eqv (m i).2 op).1),
        .got (Spec.pstep P.C.key P.C.eqv (m i).2 op).2) := if_pos hc
      rw [e]
      exact ⟨put w i b, by simp only [wstep, b1, Res.ok_bind], h.put i b2⟩
    · rename_i hc
      have e : spec P F m (.on i op) = (m, .threw) := if_neg hc
      rw [e]
      refine ⟨put w i (w i), by simp only [wstep, hs, Res.ok_bind], ?_⟩
      rw [Box.put_self]; exact h
  | create i s n =>
    obtain ⟨a, b, h1, h2, _⟩ := moveAssign_pfsim hG (h i) (make_pfsim hG s n)
    refine ⟨put w i a, ?_, h.put i h2⟩
    simp only [wstep, h1, Res.ok_bind]
    rfl
  | copy i j =>
    obtain ⟨a, h1, h2⟩ := copyAssign_pfsim hG (h i) (h j)
    refine ⟨put w i a, ?_, h.put i h2⟩
    simp only [wstep, h1, Res.ok_bind]
    rfl
  | take i j =>
    obtain ⟨a, b, h1, h2, h3⟩ := moveInit_pfsim hG (h j)
    have hw := h.put j h3
    obtain ⟨a', b', h4, h5, _⟩ := moveAssign_pfsim hG (hw i) h2
    refine ⟨put (put w j b) i a', ?_, hw.put i h5⟩
    simp only [wstep, h1, h4, Res.ok_bind]
    rfl
  | move i j =>
    by_cases hij : i = j
    · subst hij
      have he : (Tbl.empty : Tbl α).destroySlots = .ok Tbl.empty := rfl
      obtain ⟨ts, h1, h2, h3⟩ := mapRes_spec (f := fun t => Box.moveSelf F ⟨(w i).fn, t⟩) (w i).tbl.sets
        (fun k c => Sim (pcfg P F (m i).1).C c.tbl (part (pcfg P F (m i).1) (m i).2 k)) (fun k t ht => by
          refine ⟨⟨(w i).fn, t⟩, ?_, (h i).2.1.sim k t ht⟩
          unfold Box.moveSelf Box.move Box.swap
          simp only [Tbl.move, Tbl.swap, he, Res.ok_bind])
      refine ⟨put w i ⟨(w i).fn, ⟨ts.map Box.tbl⟩⟩, ?_, ?_⟩
      · simp only [wstep, if_true, h1, Res.ok_bind]
        rfl
      · unfold spec Spec.fwstep
        simp only [Box.put_same]
        refine h.put i ⟨(h i).1, ⟨?_, fun k t ht => ?_⟩, (h i).2.2⟩
        · show (ts.map Box.tbl).length = 2 ^ P.N
          rw [List.length_map, h2]; exact (h i).2.1.len
        · obtain ⟨c, hc, rfl⟩ : ∃ c, ts[k]? = some c ∧ c.tbl = t := by
            simpa [List.getElem?_map, Option.map_eq_some_iff] using ht
          exact h3 k c hc
    · obtain ⟨a, b, h1, h2, h3⟩ := moveAssign_pfsim hG (h i) (h j)
      refine ⟨put (put w j b) i a, ?_, (h.put j h3).put i h2⟩
      simp only [wstep, if_neg hij, h1, Res.ok_bind]
      rfl
  | swap i j =>
    obtain ⟨a, b, h1, h2, h3⟩ := swap_pfsim (h i) (h j)
    refine ⟨put (put w i a) j b, ?_, (h.put i h2).put j h3⟩
    simp only [wstep]
    rw [if_neg (hlock i j hv), h1]
    rfl
  | merge i j =>
    have hij : ¬ i = j := hv
    have hm := merge_pfsim hG (h i) (h j) hs
    unfold spec Spec.fwstep
    simp only [wstep, if_neg hij]
    split at hm
    · rename_i hc
      obtain ⟨a, b, e1, e2, e3⟩ := hm
      rw [if_pos hc]
      exact ⟨put (put w i a) j b, by rw [e1]; rfl, (h.put i e2).put j e3⟩
    · rename_i hc
      rw [if_neg hc]
      exact ⟨w, by rw [hm]; rfl, h⟩
  | equal i j =>
    refine ⟨w, ?_, h⟩
    simp only [wstep]
    rw [if_neg (hlock i j hv), equal_pfsim hG (h i) (h j) hs]
    rfl
  | fn i =>
    refine ⟨w, ?_, h⟩
    simp only [wstep, (h i).1]
    rfl

theorem wrun_pfsim [BEq α] [LawfulBEq α] (hG : Good P.C F) : ∀ (ops : List (FOp S (POp α κ))) {w : Nat → PBox S α}
    {m : Nat → S × List α}, PWFSim P F w m →
    (∀ op ∈ ops, op.Valid (POp.Valid P.C.key (2 ^ P.N)) (P.mtx != .null)) →
    Spec.Alike P.C.key P.C.eqv (Spec.pcalls P.C.key P.C.eqv) (fun s => (F.call s).isSome) F.moved id (Same F) m ops →
    let r := Spec.fwrun P.C.key P.C.eqv (Spec.pcalls P.C.key P.C.eqv) (fun s => (F.call s).isSome) F.moved id m ops
    ∃ w', wrun P F w ops = .ok (w', r.2) ∧ PWFSim P F w' r.1
  | [], w, m, h, _, _ => ⟨w, rfl, h⟩
  | op :: ops, w, m, h, hv, hs => by
    obtain ⟨w1, h1, h2⟩ := wstep_pfsim hG h op hs.1 (hv op List.mem_cons_self)
    obtain ⟨w2, h3, h4⟩ := wrun_pfsim hG ops h2 (fun o ho => hv o (List.mem_cons_of_mem _ ho)) hs.2
    refine ⟨w2, ?_, h4⟩
    unfold wrun
    rw [h1]
    simp only [Res.ok_bind]
    rw [h3]
    rfl

end PBox
end Gtl.Parallel
