import Verif.Conc.ShareSim
/-!
# Code for all operations, and schedules that can be run

One possible code for every call, used to show that the hypotheses of the theorems can be met, and an interpreter for
schedules.
-/

namespace Gtl.Conc.Multi

open Gtl.Swiss Gtl.Parallel
open Gtl.Spec (Op POp Resp Event)
open Gtl.Spec.Share (Call Ans seen nothing)
open Gtl.Conc (upd_same upd_ne upd_self)

variable {α κ σ β ρ op : Type}

/-- Everything in one action. -/
def prim (f : (Nat → σ) → Res ((Nat → σ) × β)) : Code σ β :=
  .act (fun A => match f A with | .ok (A', _) => A' | _ => A) (fun A => match f A with | .ok (_, x) => .ret x | _ => .ub)

/-- The same for code that does not change anything. -/
def look (f : (Nat → σ) → Res ((Nat → σ) × β)) : Code σ β :=
  .act (fun A => A) (fun A => match f A with | .ok (_, x) => .ret x | _ => .ub)

theorem prim_solo {f : (Nat → σ) → Res ((Nat → σ) × β)} {A r} (h : f A = .ok r) : (prim f).solo A = .ok r := by
  unfold prim
  rw [Code.solo]
  simp only [h, Code.solo]

theorem look_solo {f : (Nat → σ) → Res ((Nat → σ) × β)} {A r} (h : f A = .ok r) (hr : r.1 = A) : (look f).solo A = .ok r := by
  unfold look
  rw [Code.solo]
  simp only [h, Code.solo]
  rw [← hr]

theorem at1_local {j : Nat} {f : σ → Res (σ × β)} {A B : Nat → σ} (h : A j = B j) :
    (∀ A' x, at1 j f A = .ok (A', x) → ∃ B', at1 j f B = .ok (B', x) ∧ A' j = B' j) ∧
    ((∀ r, at1 j f A ≠ .ok r) → ∀ r, at1 j f B ≠ .ok r) := by
  unfold at1
  rw [h]
  constructor
  · intro A' x hx
    rw [Res.bind_eq_ok] at hx
    obtain ⟨⟨t, y⟩, h1, h2⟩ := hx
    cases h2
    exact ⟨_, by rw [h1]; rfl, by simp⟩
  · intro hn r hr
    rw [Res.bind_eq_ok] at hr
    obtain ⟨⟨t, y⟩, h1, h2⟩ := hr
    exact hn (upd A j t, y) (by rw [h1]; rfl)

theorem at1_frame {j : Nat} {f : σ → Res (σ × β)} {A A' : Nat → σ} {x} (h : at1 j f A = .ok (A', x)) {i : Nat} (hi : i ≠ j) :
    A' i = A i := by
  unfold at1 at h
  rw [Res.bind_eq_ok] at h
  obtain ⟨⟨t, y⟩, h1, h2⟩ := h
  cases h2
  exact upd_ne _ _ hi

theorem at2_local {j j' : Nat} {f : σ → σ → Res (σ × σ × β)} {A B : Nat → σ} (h : A j = B j) (h' : A j' = B j') :
    (∀ A' x, at2 j j' f A = .ok (A', x) → ∃ B', at2 j j' f B = .ok (B', x) ∧ A' j = B' j ∧ A' j' = B' j') ∧
    ((∀ r, at2 j j' f A ≠ .ok r) → ∀ r, at2 j j' f B ≠ .ok r) := by
  unfold at2
  rw [h, h']
  constructor
  · intro A' x hx
    rw [Res.bind_eq_ok] at hx
    obtain ⟨⟨t, u, y⟩, h1, h2⟩ := hx
    cases h2
    refine ⟨_, by rw [h1]; rfl, ?_, by simp⟩
    by_cases hj : j = j'
    · subst hj; simp
    · rw [upd_ne _ _ hj, upd_ne _ _ hj]; simp
  · intro hn r hr
    rw [Res.bind_eq_ok] at hr
    obtain ⟨⟨t, u, y⟩, h1, h2⟩ := hr
    exact hn (upd (upd A j t) j' u, y) (by rw [h1]; rfl)

theorem at2_frame {j j' : Nat} {f : σ → σ → Res (σ × σ × β)} {A A' : Nat → σ} {x} (h : at2 j j' f A = .ok (A', x)) {i : Nat}
    (hi : i ≠ j) (hi' : i ≠ j') : A' i = A i := by
  unfold at2 at h
  rw [Res.bind_eq_ok] at h
  obtain ⟨⟨t, u, y⟩, h1, h2⟩ := h
  cases h2
  rw [upd_ne _ _ hi', upd_ne _ _ hi]

/-- Bodies made of one action. -/
theorem one_body {ls : List (Nat × Mode)} {f : (Nat → σ) → Res ((Nat → σ) × β)}
    (hl : ∀ A B, (∀ j ∈ ls.map Prod.fst, A j = B j) →
      (∀ A' x, f A = .ok (A', x) → ∃ B', f B = .ok (B', x) ∧ ∀ j ∈ ls.map Prod.fst, A' j = B' j) ∧
      ((∀ r, f A ≠ .ok r) → ∀ r, f B ≠ .ok r)) :
    (look f).Body ls ∧ ((∀ A A' x j, f A = .ok (A', x) → (j, Mode.excl) ∉ ls → A' j = A j) → (prim f).Body ls) := by
  have hk : ∀ A B, (∀ j ∈ ls.map Prod.fst, A j = B j) →
      (match f A with | .ok (_, x) => Code.ret (σ := σ) x | _ => .ub) = (match f B with | .ok (_, x) => .ret x | _ => .ub) := by
    intro A B h
    cases hA : f A with
    | ok r =>
      obtain ⟨B', h1, -⟩ := (hl A B h).1 r.1 r.2 hA
      rw [h1]
    | ub =>
      have := (hl A B h).2 (by rw [hA]; simp)
      cases hB : f B with
      | ok r => exact absurd hB (this r)
      | ub => rfl
      | hang => rfl
    | hang =>
      have := (hl A B h).2 (by rw [hA]; simp)
      cases hB : f B with
      | ok r => exact absurd hB (this r)
      | ub => rfl
      | hang => rfl
  have hb : ∀ A, Code.Body ls (match f A with | .ok (_, x) => Code.ret (σ := σ) x | _ => .ub) := by
    intro A
    split
    · trivial
    · trivial
  constructor
  · unfold look
    rw [Code.Body]
    exact ⟨fun _ _ _ => rfl, fun A B h => ⟨hk A B h, h⟩, hb⟩
  · intro hw
    unfold prim
    rw [Code.Body]
    refine ⟨fun A j hj => ?_, fun A B h => ⟨hk A B h, fun j hj => ?_⟩, hb⟩
    · cases hA : f A with
      | ok r => exact hw A r.1 r.2 j hA hj
      | ub => rfl
      | hang => rfl
    · cases hA : f A with
      | ok r =>
        obtain ⟨B', h1, h2⟩ := (hl A B h).1 r.1 r.2 hA
        rw [h1]
        exact h2 j hj
      | ub =>
        have := (hl A B h).2 (by rw [hA]; simp)
        cases hB : f B with
        | ok r => exact absurd hB (this r)
        | ub => exact h j hj
        | hang => exact h j hj
      | hang =>
        have := (hl A B h).2 (by rw [hA]; simp)
        cases hB : f B with
        | ok r => exact absurd hB (this r)
        | ub => exact h j hj
        | hang => exact h j hj

theorem prim1_does (j : Nat) (f : σ → Res (σ × β)) : Does [(j, .excl)] (at1 j f) (prim (at1 j f)) := by
  refine ⟨(one_body fun A B h => ?_).2 fun A A' x i hx hi => at1_frame hx (by simpa using hi), fun A r h => prim_solo h⟩
  have hj : A j = B j := h j (by simp)
  refine ⟨fun A' x hx => ?_, (at1_local hj).2⟩
  obtain ⟨B', h1, h2⟩ := (at1_local hj).1 A' x hx
  exact ⟨B', h1, by simpa using h2⟩

theorem look1_does (j : Nat) (m : Mode) (f : σ → Res (σ × β)) (hf : ∀ t r, f t = .ok r → r.1 = t) :
    Does [(j, m)] (at1 j f) (look (at1 j f)) := by
  refine ⟨(one_body fun A B h => ?_).1, fun A r h => look_solo h ?_⟩
  · have hj : A j = B j := h j (by simp)
    refine ⟨fun A' x hx => ?_, (at1_local hj).2⟩
    obtain ⟨B', h1, h2⟩ := (at1_local hj).1 A' x hx
    exact ⟨B', h1, by simpa using h2⟩
  · unfold at1 at h
    rw [Res.bind_eq_ok] at h
    obtain ⟨⟨t, y⟩, h1, h2⟩ := h
    cases h2
    have := hf _ _ h1
    dsimp only at this ⊢
    rw [this, upd_self]

theorem prim2_does (j j' : Nat) (f : σ → σ → Res (σ × σ × β)) {ls : List (Nat × Mode)} (hl : ls = [(j, .excl), (j', .excl)]) :
    Does ls (at2 j j' f) (prim (at2 j j' f)) := by
  subst hl
  refine ⟨(one_body fun A B h => ?_).2 fun A A' x i hx hi => ?_, fun A r h => prim_solo h⟩
  · have hj : A j = B j := h j (by simp)
    have hj' : A j' = B j' := h j' (by simp)
    refine ⟨fun A' x hx => ?_, (at2_local hj hj').2⟩
    obtain ⟨B', h1, h2, h3⟩ := (at2_local hj hj').1 A' x hx
    exact ⟨B', h1, by simpa using ⟨h2, h3⟩⟩
  · simp at hi; exact at2_frame hx hi.1 hi.2

theorem look2_does (j j' : Nat) (f : σ → σ → Res (σ × σ × β)) (hf : ∀ t u r, f t u = .ok r → r.1 = t ∧ r.2.1 = u)
    {ls : List (Nat × Mode)} (hl : ls.map Prod.fst = [j, j']) :
    Does ls (at2 j j' f) (look (at2 j j' f)) := by
  refine ⟨(one_body fun A B h => ?_).1, fun A r h => look_solo h ?_⟩
  · rw [hl] at h ⊢
    have hj : A j = B j := h j (by simp)
    have hj' : A j' = B j' := h j' (by simp)
    refine ⟨fun A' x hx => ?_, (at2_local hj hj').2⟩
    obtain ⟨B', h1, h2, h3⟩ := (at2_local hj hj').1 A' x hx
    exact ⟨B', h1, by simpa using ⟨h2, h3⟩⟩
  · unfold at2 at h
    rw [Res.bind_eq_ok] at h
    obtain ⟨⟨t, u, y⟩, h1, h2⟩ := h
    cases h2
    have := hf _ _ _ h1
    dsimp only at this ⊢
    rw [this.1, this.2, upd_self, upd_self]

/-! ## Code for every call -/

/-- One possible code for every call. -/
def codeOf (P : PCfg α κ) [BEq α] : Call α κ → Code (Tbl α) (Ans α)
  | .on c o => match P.mtx, eraseArgs o with
    | .shared, some (k, pr, rep) =>
      .sec (one P .shared c (submap P o)) [(cell P c (submap P o), .shared)] (look (at1 (cell P c (submap P o)) (eraseLook P k)))
        fun found => if found then .sec (one P .excl c (submap P o)) [(cell P c (submap P o), .excl)]
            (prim (at1 (cell P c (submap P o)) (eraseAgain P k pr))) fun n => .ret (.one (rep n))
          else .ret (.one (rep 0))
    | _, _ =>
      .sec (one P (lockMode P o) c (submap P o)) [(cell P c (submap P o), lockMode P o)]
        (if isConst o then look (at1 (cell P c (submap P o)) (body P o)) else prim (at1 (cell P c (submap P o)) (body P o)))
        fun x => .ret (.one x)
  | .forEach c =>
    each (one P (readMode P) c) (fun i => [(cell P c i, readMode P)]) (fun i => look (at1 (cell P c i) (visitSub P))) seen (2 ^ P.N) 0 []
  | .forEachM c f =>
    each (one P .excl c) (fun i => [(cell P c i, .excl)]) (fun i => prim (at1 (cell P c i) (changeSub P f))) nothing (2 ^ P.N) 0 []
  | .withSubmap c i =>
    .sec (one P (readMode P) c i) [(cell P c i, readMode P)] (look (at1 (cell P c i) (visitSub P))) fun x => .ret (id x)
  | .withSubmapM c i ops =>
    .sec (one P .excl c i) [(cell P c i, .excl)] (prim (at1 (cell P c i) (scriptSub P ops))) fun x => .ret (.many x)
  | .clear c =>
    each (one P .excl c) (fun i => [(cell P c i, .excl)]) (fun i => prim (at1 (cell P c i) (wipeSub P))) nothing (2 ^ P.N) 0 []
  | .clearSubmap c i =>
    .sec (one P .excl c i) [(cell P c i, .excl)] (prim (at1 (cell P c i) (wipeSub P))) fun x => .ret (id x)
  | .visitPart c i =>
    .sec (one P (readMode P) c i) [(cell P c i, readMode P)] (look (at1 (cell P c i) (visitSub P))) fun x => .ret (id x)
  | .changePart c i f =>
    .sec (one P .excl c i) [(cell P c i, .excl)] (prim (at1 (cell P c i) (changeSub P f))) fun x => .ret (id x)
  | .rehash c n =>
    each (one P .excl c) (fun i => [(cell P c i, .excl)]) (fun i => prim (at1 (cell P c i) (rehashSub P n))) nothing (2 ^ P.N) 0 []
  | .reserve c n =>
    each (one P .excl c) (fun i => [(cell P c i, .excl)]) (fun i => prim (at1 (cell P c i) (rehashSub P (reserveArg P n)))) nothing
      (2 ^ P.N) 0 []
  | .merge c d =>
    each (both P c d) (fun i => [(cell P c i, .excl), (cell P d i, .excl)])
      (fun i => prim (at2 (cell P c i) (cell P d i) (mergeSub P))) nothing (2 ^ P.N) 0 []
  | .swap c d =>
    each (inTurn P c d) (fun i => [(cell P d i, .excl), (cell P c i, .excl)])
      (fun i => prim (at2 (cell P c i) (cell P d i) swapSub)) nothing (2 ^ P.N) 0 []
  | .equal c d =>
    eachEqual (bothRead P c d) (fun i => [(cell P c i, readMode P), (cell P d i, readMode P)])
      (fun i => look (at2 (cell P c i) (cell P d i) (equalSub P))) (2 ^ P.N) 0

theorem visitSub_const {P : PCfg α κ} {t : Tbl α} {r} (h : visitSub P t = .ok r) : r.1 = t := by
  unfold visitSub at h
  rw [Res.bind_eq_ok] at h
  obtain ⟨l, -, h2⟩ := h
  cases h2; rfl

theorem equalSub_const {P : PCfg α κ} [BEq α] {t u : Tbl α} {r} (h : equalSub P t u = .ok r) : r.1 = t ∧ r.2.1 = u := by
  unfold equalSub at h
  rw [Res.bind_eq_ok] at h
  obtain ⟨l, -, h2⟩ := h
  cases h2; exact ⟨rfl, rfl⟩

theorem eraseLook_const {P : PCfg α κ} {k : κ} {t : Tbl α} {r} (h : eraseLook P k t = .ok r) : r.1 = t := by
  unfold eraseLook at h
  rw [Res.bind_eq_ok] at h
  obtain ⟨l, -, h2⟩ := h
  cases h2; rfl

theorem body_const {P : PCfg α κ} {o : POp α κ} (ho : isConst o = true) {t : Tbl α} {r} (h : body P o t = .ok r) : r.1 = t := by
  cases o with
  | base op =>
    cases op with
    | contains k =>
      simp only [body, Tbl.step] at h
      rw [Res.bind_eq_ok] at h
      obtain ⟨l, -, h2⟩ := h
      cases h2; rfl
    | count k =>
      simp only [body] at h
      rw [Res.bind_eq_ok] at h
      obtain ⟨l, -, h2⟩ := h
      cases h2; rfl
    | _ => cases ho
  | ifContains k =>
    simp only [body] at h
    rw [Res.bind_eq_ok] at h
    obtain ⟨⟨t', x⟩, h1, h2⟩ := h
    cases h2
    unfold PTbl.modifyKeyIf at h1
    rw [Res.bind_eq_ok] at h1
    obtain ⟨o, -, h3⟩ := h1
    cases o with
    | none => cases h3; rfl
    | some off =>
      simp only at h3
      rw [Res.bind_eq_ok] at h3
      obtain ⟨a, -, h4⟩ := h3
      rw [Res.bind_eq_ok] at h4
      obtain ⟨t'', h5, h6⟩ := h4
      cases h6
      exact assignAt_id h5
  | _ => cases ho

/-- It is code for the call. -/
theorem codeOf_for (P : PCfg α κ) [BEq α] (o : Call α κ) : CodeFor P o (codeOf P o) := by
  cases o with
  | on c o =>
    have hdef : Single P (lockMode P o) c (submap P o) (body P o) .one
        (.sec (one P (lockMode P o) c (submap P o)) [(cell P c (submap P o), lockMode P o)]
          (if isConst o then look (at1 (cell P c (submap P o)) (body P o)) else prim (at1 (cell P c (submap P o)) (body P o)))
          fun x => .ret (.one x)) := by
      refine ⟨_, ?_, rfl⟩
      cases hc : isConst o with
      | true => exact look1_does _ _ _ fun _ _ => body_const hc
      | false =>
        have : lockMode P o = .excl := by
          cases o with
          | base op => cases op <;> first | rfl | cases hc
          | _ => first | rfl | cases hc
        rw [this]
        exact prim1_does _ _
    cases hm : P.mtx <;> cases he : eraseArgs o <;> simp only [CodeFor, codeOf, hm, he]
    all_goals first | exact hdef | skip
    exact ⟨_, _, look1_does _ _ _ fun _ _ => eraseLook_const, prim1_does _ _, rfl⟩
  | forEach c => exact ⟨_, fun i _ => by simpa [one] using look1_does _ _ _ fun _ _ => visitSub_const, rfl⟩
  | forEachM c f => exact ⟨_, fun i _ => by simpa [one] using prim1_does _ _, rfl⟩
  | withSubmap c i => exact ⟨_, look1_does _ _ _ fun _ _ => visitSub_const, rfl⟩
  | withSubmapM c i ops => exact ⟨_, prim1_does _ _, rfl⟩
  | clear c => exact ⟨_, fun i _ => by simpa [one] using prim1_does _ _, rfl⟩
  | clearSubmap c i => exact ⟨_, prim1_does _ _, rfl⟩
  | visitPart c i => exact ⟨_, look1_does _ _ _ fun _ _ => visitSub_const, rfl⟩
  | changePart c i f => exact ⟨_, prim1_does _ _, rfl⟩
  | rehash c n => exact ⟨_, fun i _ => by simpa [one] using prim1_does _ _, rfl⟩
  | reserve c n => exact ⟨_, fun i _ => by simpa [one] using prim1_does _ _, rfl⟩
  | merge c d => exact ⟨_, fun i _ => prim2_does _ _ _ (by simp [both]), rfl⟩
  | swap c d => exact ⟨_, fun i _ => prim2_does _ _ _ (by simp [inTurn]), rfl⟩
  | equal c d =>
    refine ⟨_, fun i _ => look2_does _ _ _ (fun _ _ _ => equalSub_const) ?_, rfl⟩
    unfold bothRead
    split <;> simp [both]

/-! ## Running schedules -/

/-- `Free` for the threads below `n`. -/
def freeFor (n : Nat) (W : World op σ ρ) (i : Nat) : Mode → Bool
  | .excl => (List.range n).all fun t => W.hold i t == none
  | .shared => (List.range n).all fun t => W.hold i t != some .excl

/-- Let thread `t` take its next step; `o` is the call to make if it is outside. -/
def move (code : op → Code σ ρ) (n : Nat) (W : World op σ ρ) (t : Nat) (o : Option op) :
    Option (Option (Event op ρ) × World op σ ρ) :=
  if n ≤ t then none
  else match W.th t with
  | .idle => o.map fun o => (some (.inv t o), { W with th := upd W.th t (.run o (code o)) })
  | .run o c => match c with
    | .ret r => some (some (.ret t r), { W with th := upd W.th t .idle })
    | .ub => none
    | .act w k => some (none, { W with obj := w W.obj, th := upd W.th t (.run o (k W.obj)) })
    | .lock ls k =>
      if (ls.map Prod.fst).Nodup ∧ ls.all (fun l => freeFor n W l.1 l.2) = true then
        some (none, { W with hold := grant W.hold t ls, th := upd W.th t (.run o k) })
      else none
    | .unlock i m k =>
      if W.hold i t = some m then
        some (none, { W with hold := upd W.hold i (upd (W.hold i) t none), th := upd W.th t (.run o k) })
      else some (none, { W with th := upd W.th t (.run o .ub) })

/-- A whole schedule. -/
def play (code : op → Code σ ρ) (n : Nat) : World op σ ρ → List (Nat × Option op) → Option (List (Event op ρ) × World op σ ρ)
  | W, [] => some ([], W)
  | W, (t, o) :: es => do
    let (e, W') ← move code n W t o
    let (H, W'') ← play code n W' es
    some (e.toList ++ H, W'')

theorem exec_trans {code : op → Code σ ρ} {W W' W'' : World op σ ρ} {H H'} (h : Exec code W H W') (h' : Exec code W' H' W'') :
    Exec code W (H ++ H') W'' := by
  induction h' with
  | refl => simpa using h
  | tail _ hs ih => rw [← List.append_assoc]; exact .tail ih hs

theorem move_step {code : op → Code σ ρ} {n : Nat} {W W' : World op σ ρ} {t o e} (hn : ∀ i u, n ≤ u → W.hold i u = none)
    (h : move code n W t o = some (e, W')) : Step code W e W' ∧ (∀ i u, n ≤ u → W'.hold i u = none) ∧
      ∀ u, n ≤ u → W'.th u = W.th u := by
  unfold move at h
  split at h
  · cases h
  · rename_i hnt
    have hth : ∀ (x : TS op σ ρ) u, n ≤ u → upd W.th t x u = W.th u := fun x u hu => upd_ne _ _ (by omega)
    have hfree : ∀ i m, freeFor n W i m = true → Free W i m := by
      intro i m hf
      cases m with
      | excl =>
        intro u
        by_cases hu : u < n
        · simp only [freeFor, List.all_eq_true, List.mem_range] at hf
          simpa using hf u hu
        · exact hn i u (by omega)
      | shared =>
        intro u
        by_cases hu : u < n
        · simp only [freeFor, List.all_eq_true, List.mem_range] at hf
          simpa using hf u hu
        · rw [hn i u (by omega)]; simp
    split at h
    · rename_i ht
      cases o with
      | none => cases h
      | some o => cases h; exact ⟨.call ht, hn, hth _⟩
    · rename_i o' c ht
      split at h
      · cases h; exact ⟨.ret ht, hn, hth _⟩
      · cases h
      · cases h; exact ⟨.act ht, hn, hth _⟩
      · split at h
        · rename_i hf
          cases h
          refine ⟨.lock ht ⟨hf.1, fun l hl => hfree _ _ (List.all_eq_true.1 hf.2 l hl)⟩, fun i u hu => ?_, hth _⟩
          dsimp only
          rw [grant_other (by omega)]; exact hn i u hu
        · cases h
      · split at h
        · rename_i hf
          cases h
          refine ⟨.unlock ht hf, fun i u hu => ?_, hth _⟩
          dsimp only
          rw [hold_release_other (by omega)]; exact hn i u hu
        · rename_i hf; cases h; exact ⟨.unlockBad ht hf, hn, hth _⟩

theorem play_exec {code : op → Code σ ρ} {n : Nat} : ∀ (es : List (Nat × Option op)) {W W' : World op σ ρ} {H},
    (∀ i u, n ≤ u → W.hold i u = none) → play code n W es = some (H, W') → Exec code W H W' ∧ ∀ u, n ≤ u → W'.th u = W.th u
  | [], W, W', H, hn, h => by simp only [play] at h; cases h; exact ⟨.refl, fun _ _ => rfl⟩
  | (t, o) :: es, W, W', H, hn, h => by
    simp only [play, Option.bind_eq_bind, Option.bind_eq_some_iff] at h
    obtain ⟨⟨e, W1⟩, h1, ⟨H2, W2⟩, h2, h3⟩ := h
    cases h3
    obtain ⟨hs, hn', hth⟩ := move_step hn h1
    obtain ⟨h4, h5⟩ := play_exec es hn' h2
    have := exec_trans (.tail (.refl (code := code) (W := W)) hs) h4
    exact ⟨by simpa using this, fun u hu => by rw [h5 u hu, hth u hu]⟩

end Gtl.Conc.Multi
