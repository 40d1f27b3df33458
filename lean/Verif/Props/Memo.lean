import Verif.Props.HashTable
import Verif.Memo.ConcSim
import Verif.Memo.LruSim
import Verif.Props.Lru
/-!
# Properties of memoized functions (C29, C30, C31)
-/

namespace Gtl.Props.Memo

open Gtl.Swiss Gtl.Parallel Gtl.Conc Gtl.Memo
open Gtl.Spec (Event Linearizable)
open Gtl.Spec.Memo (Prog Op Resp Value eval sinceClear)
open Gtl.Props.Hash (Contract exEqv)

variable {κ ν : Type} {M : MCfg κ} {body : κ → Prog κ ν}

/-! ## Concrete instances for the examples -/

/-- Arguments modulo 100, four submaps. -/
def exM (G : Group) (mtx : Mtx) : MCfg Nat where
  hash k := (k % 100) * 256
  eqv := exEqv
  N := 2
  G := G
  mtx := mtx

theorem exM_contract {G : Group} (hG : G = groupSse2 true ∨ G = groupSse2 false ∨ G = groupPortable) (mtx : Mtx) :
    Contract ((exM G mtx).P (ν := ν)).C where
  refl k := by simp [exM, MCfg.P, exEqv]
  symm k l h := by simp only [exM, MCfg.P, exEqv, beq_iff_eq] at *; exact h.symm
  trans k l m h1 h2 := by simp only [exM, MCfg.P, exEqv, beq_iff_eq] at *; omega
  hash_congr k l h := by simp only [exM, MCfg.P, exEqv, beq_iff_eq] at *; omega
  group := hG

/-- Fibonacci numbers. -/
def fib (k : Nat) : Prog Nat Nat :=
  if k % 100 < 2 then .ret (k % 100)
  else .call (k % 100 - 1) fun a => .call (k % 100 - 2) fun b => .ret (a + b)

theorem fib_respects (G : Group) (mtx : Mtx) : Respects (exM G mtx).eqv fib := by
  intro k l h
  simp only [exM, exEqv, beq_iff_eq] at h
  unfold fib
  rw [h]

def fibOps : List (Op Nat) :=
  [.call 6, .contains 105, .contains 7, .call 7, .size, .clear, .call 3, .reserve 50, .call 103, .size]

/-! ## C29: transparency -/

/-- Whatever the recursion does, a call never returns anything but the value of the function, and nothing is undefined;
`hang` stands for a recursion that needs more than depth `n`. -/
theorem C29_only_values (h : Contract (M.P (ν := ν)).C) (hb : Respects M.eqv body) (n : Nat) (ops : List (Op κ)) :
    history M body n ops = .hang ∨ ∃ rs, history M body n ops = .ok rs ∧ rs.length = ops.length ∧
      ∀ (i : Nat) k, ops[i]? = some (.call k) → ∃ v tr, rs[i]? = some (.val v, tr) ∧ Value body k v := by
  unfold history
  rcases run_inv h.cfgOk hb n ops _ _ (inv_empty h.cfgOk) with ⟨e, -⟩ | ⟨p, rs, e, -, h2⟩
  · rw [e]; exact .inl rfl
  · rw [e]
    refine .inr ⟨rs, rfl, h2.length, fun i k hi => ?_⟩
    obtain ⟨r, hr⟩ : ∃ r, rs[i]? = some r := by
      have : i < ops.length := (List.getElem?_eq_some_iff.1 hi).1
      exact ⟨_, List.getElem?_eq_getElem (by rw [h2.length]; exact this)⟩
    obtain ⟨v, h3, h4, -⟩ := h2.get i _ r hi hr
    exact ⟨v, r.2, by rw [hr, ← h3], h4⟩

/-- If the function terminates at the arguments of the calls, every call of every history returns its value there. -/
theorem C29_transparent (h : Contract (M.P (ν := ν)).C) (hb : Respects M.eqv body) (ops : List (Op κ))
    (ht : ∀ k, Op.call k ∈ ops → ∃ v, Value body k v) :
    ∃ n rs, (∀ m, n ≤ m → history M body m ops = .ok rs) ∧ rs.length = ops.length ∧
      ∀ (i : Nat) k, ops[i]? = some (.call k) → ∃ v tr, rs[i]? = some (.val v, tr) ∧ Value body k v := by
  obtain ⟨d, hd⟩ : ∃ d, ∀ k, Op.call k ∈ ops → eval body d k ≠ none := by
    clear h
    induction ops with
    | nil => exact ⟨0, fun k hk => by cases hk⟩
    | cons op ops ih =>
      obtain ⟨d, hd⟩ := ih (fun k hk => ht k (List.mem_cons_of_mem _ hk))
      by_cases hop : ∃ k, op = .call k
      · obtain ⟨k, rfl⟩ := hop
        obtain ⟨v, m, hm⟩ := ht k List.mem_cons_self
        refine ⟨max d m, fun k' hk' => ?_⟩
        rcases List.mem_cons.1 hk' with hk' | hk'
        · injection hk' with hk'
          subst hk'
          rw [eval_mono (Nat.le_max_right d m) hm]; simp
        · cases he : eval body d k' with
          | none => exact absurd he (hd k' hk')
          | some w => rw [eval_mono (Nat.le_max_left d m) he]; simp
      · refine ⟨d, fun k hk => ?_⟩
        rcases List.mem_cons.1 hk with hk | hk
        · exact absurd ⟨k, hk.symm⟩ hop
        · exact hd k hk
  have hok : ∃ p rs, run M body d (PTbl.empty M.P) ops = .ok (p, rs) := by
    rcases run_inv h.cfgOk hb d ops _ _ (inv_empty h.cfgOk) with ⟨e, k, hk, p, D, hi, hh⟩ | ⟨p, rs, e, -, -⟩
    · exact absurd hh (call_ends h.cfgOk hb d d (Nat.le_refl _) p D k hi (hd k hk))
    · exact ⟨p, rs, e⟩
  obtain ⟨p, rs, e⟩ := hok
  refine ⟨d, rs, fun m hm => ?_, ?_⟩
  · unfold history
    rw [run_mono hm _ _ _ e]; rfl
  · rcases C29_only_values h hb d ops with hh | ⟨rs', e', hr⟩
    · unfold history at hh; rw [e] at hh; cases hh
    · unfold history at e'
      rw [e] at e'
      injection e' with e'
      subst e'
      exact hr

theorem fibOps_run : history (exM groupPortable .null) fib 10 fibOps =
    .ok [(.val 8, [1, 0, 2, 3, 4, 5, 6]), (.opt (some 5), []), (.opt none, []), (.val 13, [7]), (.nat 8, []), (.unit, []),
      (.val 2, [1, 0, 2, 3]), (.unit, []), (.val 2, []), (.nat 4, [])] := by decide +kernel

example : ∀ k, Op.call k ∈ fibOps → ∃ v, Value fib k v := by
  intro k hk
  simp [fibOps] at hk
  rcases hk with rfl | rfl | rfl | rfl
  · exact ⟨8, 10, by decide +kernel⟩
  · exact ⟨13, 10, by decide +kernel⟩
  · exact ⟨2, 10, by decide +kernel⟩
  · exact ⟨2, 10, by decide +kernel⟩

/-- Many threads, a recursive function: in every execution from the newly memoized function, however the code between
lock and unlock is cut into atomic actions, every returned call has returned the value of the function, `contains` has
returned it or nothing, nothing is undefined, and there is no deadlock. -/
theorem C29_threads (h : Contract (M.P (ν := ν)).C) (_hm : M.mtx ≠ .null) (hb : Respects M.eqv body) {X : Cut κ ν} (hX : X.Ok M)
    {depth : κ → Nat} (hd : ∀ k v, Value body k v → eval body (depth k) k = some v)
    {W H} (hx : Exec (codeC M X body depth) (start (objects (PTbl.empty M.P))) H W) :
    (∀ o r, (o, r) ∈ answers (fun _ => none) H → RightC body o.1 r) ∧ (∀ t o, W.th t ≠ .run o .ub) ∧
    ∀ t, W.th t ≠ .idle → ∃ t', W.th t' ≠ .idle ∧ ¬ Blocked W t' := by
  choose N hN using codeC_good h.cfgOk hb hX hd
  have h0 := cached_empty h.cfgOk body
  refine ⟨fun o r hor => ?_, no_ub hN h0 hx, fun t ht => progress hN h0 hx t ht⟩
  obtain ⟨a, b, hs⟩ := answers_sem (linearizable hN h0 hx) (o, r) hor
  exact hs

/-! ## C30: each argument once -/

/-- Between two `clear`s no two arguments at which the function is run are equal. -/
theorem C30_once (h : Contract (M.P (ν := ν)).C) (hb : Respects M.eqv body) {n : Nat} {ops : List (Op κ)} {rs}
    (hr : history M body n ops = .ok rs) : (sinceClear (ops.zip rs)).Pairwise (fun a b => M.eqv a b = false) := by
  unfold history at hr
  rcases run_inv h.cfgOk hb n ops _ _ (inv_empty h.cfgOk) with ⟨e, -⟩ | ⟨p, rs', e, h1, -⟩
  · rw [e] at hr; cases hr
  · rw [e] at hr
    injection hr with hr
    subst hr
    have := h1.apart h.cfgOk
    rw [afterAll_eq] at this
    exact this

/-- One more call after a history. -/
theorem last_step (h : Contract (M.P (ν := ν)).C) (hb : Respects M.eqv body) {n : Nat} {ops : List (Op κ)} {op : Op κ} {rs}
    (hr : history M body n (ops ++ [op]) = .ok rs) :
    ∃ rs' r, history M body n ops = .ok rs' ∧ rs = rs' ++ [r] ∧ Right M body (sinceClear (ops.zip rs')) op r := by
  unfold history at hr
  rw [Res.bind_eq_ok] at hr
  obtain ⟨⟨p, rs0⟩, e, e'⟩ := hr
  injection e' with e'
  subst e'
  obtain ⟨p1, rs1, rs2, h1, h2, h3⟩ := run_append e
  rcases run_inv h.cfgOk hb n ops _ _ (inv_empty h.cfgOk) with ⟨e, -⟩ | ⟨p', rs', e, g1, -⟩
  · rw [e] at h1; cases h1
  · rw [e] at h1
    simp only [Res.ok.injEq, Prod.mk.injEq] at h1
    obtain ⟨rfl, rfl⟩ := h1
    rw [afterAll_eq] at g1
    rcases run_inv h.cfgOk hb n [op] _ _ g1 with ⟨e5, -⟩ | ⟨p5, rs5, e5, -, g5⟩
    · rw [e5] at h2; cases h2
    · rw [e5] at h2
      simp only [Res.ok.injEq, Prod.mk.injEq] at h2
      obtain ⟨-, rfl⟩ := h2
      refine ⟨rs', ?_⟩
      match rs5, g5 with
      | [r], g5 =>
        refine ⟨r, ?_, h3, g5.1⟩
        unfold history
        rw [e]; rfl
      | [], g5 => exact g5.elim
      | _ :: _ :: _, g5 => exact g5.2.elim

/-- After a call for `k` the function has been run at `k`, exactly once since the last `clear`; and it is not run again. -/
theorem C30_called (h : Contract (M.P (ν := ν)).C) (hb : Respects M.eqv body) {n : Nat} {ops : List (Op κ)} {k : κ} {rs}
    (hr : history M body n (ops ++ [.call k]) = .ok rs) :
    ∃ rs' v tr, history M body n ops = .ok rs' ∧ rs = rs' ++ [(.val v, tr)] ∧
      (sinceClear (ops.zip rs') ++ tr).countP (fun k' => M.eqv k' k) = 1 ∧
      ((sinceClear (ops.zip rs')).any (fun k' => M.eqv k' k) = true → tr = []) := by
  obtain ⟨rs', r, h1, h2, v, h3, -, h4, h5⟩ := last_step h hb hr
  obtain ⟨r1, tr⟩ := r
  dsimp only at h3 h4 h5
  subst h3
  refine ⟨rs', v, tr, h1, h2, ?_, h5⟩
  have hp := C30_once h hb hr
  have hlen : rs'.length = ops.length := by
    rcases C29_only_values h hb n ops with e | ⟨rs5, e5, e6, -⟩
    · rw [e] at h1; cases h1
    · rw [e5] at h1; injection h1 with h1; rw [← h1]; exact e6
  rw [h2, List.zip_append hlen.symm] at hp
  unfold sinceClear at hp h4 ⊢
  rw [List.foldl_append] at hp
  simp only [List.zip_cons_cons, List.zip_nil_right, List.foldl_cons, List.foldl_nil] at hp
  generalize ((ops.zip rs').foldl _ ([] : List κ)) ++ tr = D at hp h4
  clear hr h2 h5
  induction D with
  | nil => cases h4
  | cons a D ih =>
    rw [List.pairwise_cons] at hp
    rw [List.countP_cons]
    rw [List.any_cons, Bool.or_eq_true] at h4
    by_cases ha : M.eqv a k = true
    · rw [if_pos ha]
      have : D.countP (fun k' => M.eqv k' k) = 0 := by
        rw [List.countP_eq_zero]
        intro b hb' hbk
        have := hp.1 b hb'
        rw [show M.eqv a b = true from h.trans a k b ha (h.symm b k hbk)] at this
        cases this
      omega
    · rw [if_neg ha]
      rcases h4 with h4 | h4
      · exact absurd h4 ha
      · rw [ih hp.2 h4]

/-- `contains(k)` reports exactly the arguments at which the function was run since the last `clear`, with the right
value. -/
theorem C30_contains (h : Contract (M.P (ν := ν)).C) (hb : Respects M.eqv body) {n : Nat} {ops : List (Op κ)} {k : κ} {rs}
    (hr : history M body n (ops ++ [.contains k]) = .ok rs) :
    ∃ rs' o, history M body n ops = .ok rs' ∧ rs = rs' ++ [(.opt o, [])] ∧
      o.isSome = (sinceClear (ops.zip rs')).any (fun k' => M.eqv k' k) ∧ ∀ v, o = some v → Value body k v := by
  obtain ⟨rs', r, h1, h2, h3, o, h4, h5, h6⟩ := last_step h hb hr
  obtain ⟨r1, tr⟩ := r
  dsimp only at h3 h4
  subst h3 h4
  exact ⟨rs', o, h1, h2, h5, h6⟩

/-- `size()` is their number. -/
theorem C30_size (h : Contract (M.P (ν := ν)).C) (hb : Respects M.eqv body) {n : Nat} {ops : List (Op κ)} {rs}
    (hr : history M body n (ops ++ [.size]) = .ok rs) :
    ∃ rs', history M body n ops = .ok rs' ∧ rs = rs' ++ [(.nat (sinceClear (ops.zip rs')).length, [])] := by
  obtain ⟨rs', r, h1, h2, h3⟩ := last_step h hb hr
  exact ⟨rs', h1, by rw [h2, h3]⟩

/-- The hypotheses are met: `fibOps` ends with `size`. -/
example : ∃ rs, history (exM groupPortable .null) fib 10 (fibOps.dropLast ++ [.size]) = .ok rs ∧
    sinceClear (fibOps.zip rs) = [1, 0, 2, 3] := ⟨_, fibOps_run, by decide +kernel⟩

/-- Many threads, a function that is not recursive: the history is linearizable with respect to the memo that runs the
function at every argument not in the list of arguments at which it was run, and nothing is undefined. -/
theorem C30_threads_linearizable (h : Contract (M.P (ν := ν)).C) (_hm : M.mtx ≠ .null) {f : κ → ν}
    (hf : ∀ k l, M.eqv k l = true → f k = f l) {X : Cut κ ν} (hX : X.Ok M)
    {W H} (hx : Exec (onceCode M X f) (start (objects (PTbl.empty M.P))) H W) :
    Linearizable (semO M.eqv f) [] H ∧ (∀ t o, W.th t ≠ .run o .ub) ∧
    ∀ t, W.th t ≠ .idle → ∃ t', W.th t' ≠ .idle ∧ ¬ Blocked W t' := by
  have hg := onceCode_good h.cfgOk hf hX
  have h0 := holds_empty h.cfgOk f
  exact ⟨linearizable hg h0 hx, no_ub hg h0 hx, fun t ht => progress hg h0 hx t ht⟩

/-- So at most one of the calls for equal arguments runs the function, all calls return its value; and when all calls
have returned, exactly one has run it, if there was a call for this argument. -/
theorem C30_threads_once (h : Contract (M.P (ν := ν)).C) (_hm : M.mtx ≠ .null) {f : κ → ν}
    (hf : ∀ k l, M.eqv k l = true → f k = f l) {X : Cut κ ν} (hX : X.Ok M)
    {W H} (hx : Exec (onceCode M X f) (start (objects (PTbl.empty M.P))) H W) (k : κ) :
    (∀ r, (OOp.call k, r) ∈ answers (fun _ => none) H → ∃ b, r = .val (f k) b) ∧
    (answers (fun _ => none) H).countP (ranFor M.eqv k) ≤ 1 ∧
    ((∀ t, W.th t = .idle) → (answers (fun _ => none) H).any (callFor M.eqv k) = true →
      (answers (fun _ => none) H).countP (ranFor M.eqv k) = 1) := by
  have hg := onceCode_good h.cfgOk hf hX
  have h0 := holds_empty h.cfgOk f
  obtain ⟨E, D', hE⟩ := linearizable hg h0 hx
  refine ⟨fun r hr => ?_, ?_, ?_⟩
  · obtain ⟨a, b, hs⟩ := answers_sem ⟨E, D', hE⟩ (.call k, r) hr
    unfold semO at hs
    dsimp only at hs
    split at hs
    · exact ⟨_, hs.2⟩
    · exact ⟨_, hs.2⟩
  · obtain ⟨Y, hY⟩ := explained_answers hE
    have h1 := (legal_once h.trans h.symm k hE.legal).1
    have h2 := hY.countP_eq (ranFor M.eqv k)
    rw [List.countP_append] at h2
    have h3 : (D'.any (fun k' => M.eqv k' k)).toNat ≤ 1 := Bool.toNat_le _
    omega
  · intro hq hc
    obtain ⟨E, D', h1, -, h3⟩ := quiescent hg h0 hx hq
    have hperm := answers_perm E (fun _ => .idle) [] h3 List.nodup_nil (by simp)
    rw [h1.vis] at hperm
    rw [show (fun _ => none : Nat → Option (OOp κ)) =
      fun t => phaseOp ((fun _ => Spec.Phase.idle : Nat → Spec.Phase (OOp κ) (ORes ν)) t) from rfl] at hc ⊢
    obtain ⟨g1, g2⟩ := legal_once h.trans h.symm k h1.legal
    rw [hperm.countP_eq]
    rw [hperm.any_eq] at hc
    rw [g2 hc] at g1
    exact g1

/-! ### An execution with two threads -/

/-- The sections in a few atomic actions. -/
def exCut (M : MCfg Nat) : Cut Nat Nat where
  look k := (ifContainsSteps M.P (M.sub k) k).bind fun r => .ret (r.map Prod.snd)
  put k v := prim (M.sub k) (putSec M k v) .ret
  once k v := (emplaceSteps M.P (M.sub k) (k, v) id).bind fun r => .ret (r.1.2, r.2)
  clear i := prim i (clearSec M) .ret

theorem exCut_ok (M : MCfg Nat) : (exCut M).Ok M where
  look k := does_bind (i := M.sub k) (m := true) (f := fun t => PTbl.modifyKeyIf M.P t k id)
    ⟨ifContainsSteps_body _ _ _, fun _ => ifContainsSteps_ro _ _ _, fun s r h => ifContainsSteps_solo _ _ _ h⟩ (fun r => r.map Prod.snd)
  put k v := ⟨prim_body fun _ => trivial, fun h => (by cases h), fun s r h => prim_solo (by rw [h]; rfl)⟩
  once k v := does_bind (i := M.sub k) (m := false) (f := fun t => PTbl.emplaceL M.P t (k, v) id)
    ⟨emplaceSteps_body _ _ _ _, fun h => (by cases h), fun s r h => emplaceSteps_solo _ _ _ _ h⟩ (fun r => (r.1.2, r.2))
  clear i := ⟨prim_body fun _ => trivial, fun h => (by cases h), fun s r h => prim_solo (by rw [h]; rfl)⟩

def exOnce := onceCode (exM groupPortable .excl) (exCut (exM groupPortable .excl)) (fun k => (k % 100) * (k % 100))

/-- Two threads ask for the same value; the second one waits for the first one. -/
def exSched : List (Nat × Option (OOp Nat)) :=
  [(0, some (.call 5)), (1, some (.call 105)), (0, none), (0, none), (0, none), (0, none), (0, none), (0, none),
   (1, none), (1, none), (1, none), (1, none), (1, none), (0, none), (1, none)]

theorem exSched_ok : ((play exOnce 2 (start (objects (PTbl.empty (exM groupPortable .excl).P))) exSched).map fun x =>
    answers (fun _ => none) x.1) = some [(.call 5, .val 25 true), (.call 105, .val 25 false)] := by decide +kernel

example : ∃ H W, Exec exOnce (start (objects (PTbl.empty (exM groupPortable .excl).P))) H W ∧
    answers (fun _ => none) H = [(.call 5, .val 25 true), (.call 105, .val 25 false)] := by
  cases h : play exOnce 2 (start (objects (PTbl.empty (exM groupPortable .excl).P))) exSched with
  | none => have := exSched_ok; rw [h] at this; cases this
  | some x =>
    have := exSched_ok
    rw [h] at this
    simp only [Option.map_some, Option.some.injEq] at this
    exact ⟨x.1, x.2, play_exec _ (fun _ _ _ => rfl) h, this⟩

/-! ## C31: a limited number of values -/

section Lru

open Gtl.Lru (LCfg)
open Gtl.Spec.MemoLru (recent)
open Gtl.Props.Lru (exL exL_contract refOk)

variable {L : LCfg κ} {f : κ → ν}

/-- For every history the memo answers like the reference memo (most recently used value first, the last one dropped
when a shard has as many as its share of the size), without undefined behaviour. -/
theorem C31_reference (h : Contract L.C) (hf : ∀ k l, L.eqv k l = true → f k = f l) (n : Nat) (ops : List (Spec.MemoLru.Op κ)) :
    lruHistory L f n ops = .ok (Spec.MemoLru.run L.eqv L.shard (2 ^ L.N) f (Spec.Lru.Cache.new n) ops).2 := by
  obtain ⟨c, h1, h2⟩ := Lru.new_csim (ν := ν) h.cfgOk n
  obtain ⟨c', h3, -, -⟩ := lruRun_sim h.cfgOk hf ops c _ 0 h2 (fun i e he => by cases he)
  unfold lruHistory
  rw [h1]
  simp only [Res.ok_bind]
  rw [h3]; rfl

/-- Memoizing with a size limit is transparent: every call returns the value of the function. -/
theorem C29_lru (h : Contract L.C) (hf : ∀ k l, L.eqv k l = true → f k = f l) (n : Nat) (ops : List (Spec.MemoLru.Op κ)) :
    ∃ rs, lruHistory L f n ops = .ok rs ∧ rs.length = ops.length ∧
      ∀ (i : Nat) k, ops[i]? = some (.call k) → ∃ b, rs[i]? = some (.val (f k) b) := by
  refine ⟨_, C31_reference h hf n ops, ?_, ?_⟩
  · generalize Spec.Lru.Cache.new n = c
    induction ops generalizing c with
    | nil => rfl
    | cons op ops ih => simp only [Spec.MemoLru.run, List.length_cons, ih]
  · generalize Spec.Lru.Cache.new n = c
    induction ops generalizing c with
    | nil => intro i k hi; simp at hi
    | cons op ops ih =>
      intro i k hi
      cases i with
      | zero =>
        simp only [List.getElem?_cons_zero, Option.some.injEq] at hi
        subst hi
        exact ⟨_, rfl⟩
      | succ i =>
        rw [List.getElem?_cons_succ] at hi
        simp only [Spec.MemoLru.run, List.getElem?_cons_succ]
        exact ih _ i k hi

/-- The size being fixed at `n`, a call for `k` runs the function exactly if `k` is not one of the `n / shards - 1`
arguments of its shard used last. -/
theorem C31_runs (h : Contract L.C) (hf : ∀ k l, L.eqv k l = true → f k = f l) (n : Nat) (ops : List (Spec.MemoLru.Op κ))
    (hfix : ∀ m, Spec.MemoLru.Op.setSize m ∉ ops) (k : κ) :
    ∃ rs, lruHistory L f n ops = .ok rs ∧ lruHistory L f n (ops ++ [.call k]) = .ok (rs ++ [.val (f k)
      (!((recent L.eqv L.shard (L.shard k) ops).take (kept L n)).any (fun k' => L.eqv k' k))]) := by
  refine ⟨_, C31_reference h hf n ops, ?_⟩
  rw [C31_reference h hf, mrun_append]
  obtain ⟨-, h2⟩ := mrecent_run (S := 2 ^ L.N) (f := f) (refOk h) n ops hfix
  have := Lru.Ref.rel_any (refOk h) (h2 (L.shard k)).2 k
  simp only [Spec.MemoLru.step]
  unfold kept
  rw [← this]
  cases Spec.lookup Prod.fst L.eqv _ k <;> rfl

/-- `contains(k)` reports exactly these, with the value of the function. -/
theorem C31_contains (h : Contract L.C) (hf : ∀ k l, L.eqv k l = true → f k = f l) (n : Nat) (ops : List (Spec.MemoLru.Op κ))
    (hfix : ∀ m, Spec.MemoLru.Op.setSize m ∉ ops) (k : κ) :
    ∃ rs, lruHistory L f n ops = .ok rs ∧ lruHistory L f n (ops ++ [.contains k]) = .ok (rs ++ [.opt
      (if ((recent L.eqv L.shard (L.shard k) ops).take (kept L n)).any (fun k' => L.eqv k' k) then some (f k) else none)]) := by
  refine ⟨_, C31_reference h hf n ops, ?_⟩
  rw [C31_reference h hf, mrun_append]
  obtain ⟨-, h2⟩ := mrecent_run (S := 2 ^ L.N) (f := f) (refOk h) n ops hfix
  have hany := Lru.Ref.rel_any (refOk h) (h2 (L.shard k)).2 k
  obtain ⟨c, h3, h4⟩ := Lru.new_csim (ν := ν) h.cfgOk n
  obtain ⟨c', -, -, hv⟩ := lruRun_sim h.cfgOk hf ops c _ 0 h4 (fun i e he => by cases he)
  simp only [Spec.MemoLru.step]
  unfold kept
  rw [← hany]
  cases hl : Spec.lookup Prod.fst L.eqv
      ((Spec.MemoLru.run L.eqv L.shard (2 ^ L.N) f (Spec.Lru.Cache.new n) ops).1.shards (L.shard k)) k with
  | none => rfl
  | some e =>
    have he : L.eqv e.1 k = true := Lru.Ref.lookup_some_eqv hl
    rw [Option.map_some, hv (L.shard k) e (List.mem_of_find?_eq_some hl), hf _ _ he]
    rfl

/-- So the number of values kept in each shard is the smaller of `n / shards - 1` and the number of distinct arguments
used; the total is at most the configured size. -/
theorem C31_size (h : Contract L.C) (hf : ∀ k l, L.eqv k l = true → f k = f l) (n : Nat) (ops : List (Spec.MemoLru.Op κ))
    (hfix : ∀ m, Spec.MemoLru.Op.setSize m ∉ ops) :
    ∃ rs m, lruHistory L f n ops = .ok rs ∧ lruHistory L f n (ops ++ [.size]) = .ok (rs ++ [.nat m]) ∧ m ≤ n ∧
      m = ((List.range (2 ^ L.N)).map (fun i => min (kept L n) (recent L.eqv L.shard i ops).length)).sum := by
  refine ⟨_, _, C31_reference h hf n ops, ?_, ?_, rfl⟩
  · rw [C31_reference h hf, mrun_append]
    obtain ⟨-, h2⟩ := mrecent_run (S := 2 ^ L.N) (f := f) (refOk h) n ops hfix
    simp only [Spec.MemoLru.step]
    congr 5
    apply List.map_congr_left
    intro i _
    exact Lru.Ref.rel_length (h2 i).2
  · have : ∀ (l : List Nat) (g : Nat → Nat), (l.map fun i => min (kept L n) (g i)).sum ≤ l.length * kept L n := by
      intro l g
      induction l with
      | nil => simp
      | cons a l ih =>
        rw [List.map_cons, List.sum_cons, List.length_cons, Nat.succ_mul]
        have := Nat.min_le_left (kept L n) (g a)
        omega
    refine Nat.le_trans (this _ _) ?_
    rw [List.length_range]
    unfold kept
    exact Nat.le_trans (Nat.mul_le_mul_left _ (Nat.sub_le _ _)) (Nat.mul_div_le n (2 ^ L.N))

def lruOps : List (Spec.MemoLru.Op Nat) :=
  [.call 1, .call 3, .call 5, .call 101, .call 7, .contains 3, .contains 1, .call 3, .call 2, .size]

example : (∀ k l, exEqv k l = true → k % 100 + 1 = l % 100 + 1) ∧ (∀ m, Spec.MemoLru.Op.setSize m ∉ lruOps) := by
  refine ⟨fun k l h => ?_, by simp [lruOps]⟩
  simp only [exEqv, beq_iff_eq] at h
  rw [h]

theorem lruOps_run : lruHistory (exL groupPortable) (fun k => k % 100 + 1) 8 lruOps =
    .ok [.val 2 true, .val 4 true, .val 6 true, .val 2 false, .val 8 true, .opt none, .opt (some 2), .val 4 true, .val 3 true,
      .nat 4] := by decide +kernel

/-! ## C56: a recursive function with a size limit -/

/-- Calls of a function that calls the memoized function again, from a new memo of size `n`. -/
def recHistory (L : LCfg κ) (body : κ → Prog κ ν) (depth n : Nat) (ks : List κ) : Res (List ν) := do
  let c ← Lru.Cache.new L n
  let (_, _, vs) ← go c 0 ks
  .ok vs
where
  go (c : Lru.Cache κ ν) (next : Nat) : List κ → Res (Lru.Cache κ ν × Nat × List ν)
    | [] => .ok (c, next, [])
    | k :: ks => do
      let (c, next, v) ← lruCallRec L body depth c next k
      let (c, next, vs) ← go c next ks
      .ok (c, next, v :: vs)

/-- Right for functions that do not call the memoized function. Missing: recursive functions, refuted below. -/
theorem C56_flat_partial (h : Contract L.C) (hf : ∀ k l, L.eqv k l = true → f k = f l) (depth n : Nat) (ks : List κ) :
    recHistory L (fun k => .ret (f k)) (depth + 1) n ks = .ok (ks.map f) := by
  have hgo : ∀ (ks : List κ) c (a : Spec.Lru.Cache κ ν) next, Lru.CacheSim L c a next → (∀ i, Vals f (a.shards i)) →
      ∃ c' next', recHistory.go L (fun k => .ret (f k)) (depth + 1) c next ks = .ok (c', next', ks.map f) := by
    intro ks
    induction ks with
    | nil => intro c a next _ _; exact ⟨c, next, rfl⟩
    | cons k ks ih =>
      intro c a next hc hv
      obtain ⟨c1, h1, h2, h3⟩ := lruStep_sim h.cfgOk hf hc hv (.call k)
      obtain ⟨c2, n2, h4⟩ := ih c1 _ _ h2 h3
      refine ⟨c2, n2, ?_⟩
      unfold recHistory.go
      rw [lruCallRec_flat h1]
      simp only [Res.ok_bind]
      rw [h4]
      rfl
  obtain ⟨c, h1, h2⟩ := Lru.new_csim (ν := ν) h.cfgOk n
  obtain ⟨c', n', h3⟩ := hgo ks c _ 0 h2 (fun i e he => by cases he)
  unfold recHistory
  rw [h1]
  simp only [Res.ok_bind]
  rw [h3]
  rfl

/-- Half of a number, recursively. -/
def half (k : Nat) : Prog Nat Nat :=
  if k % 100 < 2 then .ret 0 else .call (k % 100 - 2) fun a => .ret (a + 1)

/-- C56 is false: `half(4)` is 2, but asking a memo with room for 8 values for it is undefined (the recursive call fills the
slot that was chosen for the outer call). -/
theorem C56_refuted : ∃ (L : LCfg Nat) (body : Nat → Prog Nat Nat), Contract L.C ∧ Respects L.eqv body ∧ Value body 4 2 ∧
    recHistory L body 10 8 [4] = .ub := by
  refine ⟨exL groupPortable, half, exL_contract (.inr (.inr rfl)), ?_, ⟨10, by decide +kernel⟩, by decide +kernel⟩
  intro k l h
  simp only [exL, exEqv, beq_iff_eq] at h
  unfold half
  rw [h]

end Lru

end Gtl.Props.Memo
