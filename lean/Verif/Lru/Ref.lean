import Verif.Spec.Lru
import Mathlib.Data.List.Forall2
import Mathlib.Data.List.Induction
/-!
# What the reference cache remembers
-/

namespace Gtl.Lru.Ref

open Gtl.Spec.Lru
open Gtl.Spec (lookup put)

variable {κ ν : Type}

/-- `eqv` is an equivalence and respects the shards. -/
structure Ok (eqv : κ → κ → Bool) (shard : κ → Nat) : Prop where
  refl : ∀ k, eqv k k = true
  symm : ∀ k l, eqv k l = true → eqv l k = true
  trans : ∀ k l m, eqv k l = true → eqv l m = true → eqv k m = true
  shard : ∀ k l, eqv k l = true → shard k = shard l

variable {eqv : κ → κ → Bool} {shard : κ → Nat} {S : Nat}

theorem Ok.congr (h : Ok eqv shard) {a b : κ} (e : eqv a b = true) (c : κ) : eqv a c = eqv b c := by
  cases h1 : eqv b c with
  | true => exact h.trans _ _ _ e h1
  | false =>
    cases h2 : eqv a c with
    | false => rfl
    | true => rw [h.trans _ _ _ (h.symm _ _ e) h2] at h1; cases h1

theorem Ok.congr' (h : Ok eqv shard) {a b : κ} (e : eqv a b = true) (c : κ) : eqv c a = eqv c b := by
  cases h1 : eqv c b with
  | true => exact h.trans _ _ _ h1 (h.symm _ _ e)
  | false =>
    cases h2 : eqv c a with
    | false => rfl
    | true => rw [h.trans _ _ _ h2 e] at h1; cases h1

theorem run_append (c : Cache κ ν) (h : List (Op κ ν)) (op : Op κ ν) :
    c.run eqv shard S (h ++ [op]) =
      (((c.run eqv shard S h).1.step eqv shard S op).1,
       (c.run eqv shard S h).2 ++ [((c.run eqv shard S h).1.step eqv shard S op).2]) := by
  induction h generalizing c with
  | nil => rfl
  | cons o h ih =>
    simp only [List.cons_append, Cache.run]
    rw [ih]

theorem run_length (c : Cache κ ν) (h : List (Op κ ν)) : (c.run eqv shard S h).2.length = h.length := by
  induction h generalizing c with
  | nil => rfl
  | cons o h ih => simp only [Cache.run, List.length_cons, ih]

theorem max_run (n : Nat) (h : List (Op κ ν)) :
    ((Cache.new n : Cache κ ν).run eqv shard S h).1.max = sizeAfter n h := by
  induction h using List.reverseRecOn with
  | nil => rfl
  | append_singleton h op ih =>
    rw [run_append]
    unfold sizeAfter at ih ⊢
    rw [List.foldl_append, List.foldl_cons, List.foldl_nil]
    cases op <;> first | exact ih | rfl

/-! ## The latest value -/

theorem lookup_front (hE : Ok eqv shard) (l : List (κ × ν)) {k k' : κ} (e : κ × ν) (he : eqv e.1 k = true) :
    lookup Prod.fst eqv (e :: Spec.erase Prod.fst eqv l k) k' = if eqv k k' then some e else lookup Prod.fst eqv l k' := by
  unfold lookup
  rw [List.find?_cons, hE.congr he k']
  cases hk : eqv k k' with
  | true => rfl
  | false =>
    simp only [Bool.false_eq_true, if_false]
    unfold Spec.erase
    rw [List.find?_filter]
    congr 1
    funext a
    cases ha : eqv a.1 k' with
    | false => simp
    | true =>
      have : eqv a.1 k = false := by
        cases hak : eqv a.1 k with
        | false => rfl
        | true => rw [hE.trans _ _ _ (hE.symm _ _ hak) ha] at hk; cases hk
      simp [this]

theorem lookup_some_eqv {l : List (κ × ν)} {k : κ} {e : κ × ν} (h : lookup Prod.fst eqv l k = some e) : eqv e.1 k = true := by
  have := List.find?_some h
  simpa using this

theorem find_dropLast {α : Type} {p : α → Bool} : ∀ {l : List α} {e : α}, l.dropLast.find? p = some e → l.find? p = some e
  | [], e, h => by cases h
  | [a], e, h => by cases h
  | a :: b :: l, e, h => by
    rw [List.dropLast_cons_cons, List.find?_cons] at h
    rw [List.find?_cons]
    cases hp : p a with
    | true => rw [hp] at h; exact h
    | false => rw [hp] at h; exact find_dropLast (l := b :: l) h

theorem latest_append (h : List (Op κ ν)) (op : Op κ ν) (k : κ) :
    latest eqv (h ++ [op]) k = match op with
      | .insert k' v => if eqv k' k then some v else latest eqv h k
      | _ => latest eqv h k := by
  unfold latest
  rw [List.foldl_append, List.foldl_cons, List.foldl_nil]
  cases op <;> rfl

/-- What the reference cache holds for a key is the value inserted last. -/
theorem latest_run (hE : Ok eqv shard) (n : Nat) (h : List (Op κ ν)) (k : κ) (e : κ × ν)
    (hl : lookup Prod.fst eqv (((Cache.new n : Cache κ ν).run eqv shard S h).1.shards (shard k)) k = some e) :
    latest eqv h k = some e.2 := by
  induction h using List.reverseRecOn generalizing k e with
  | nil => cases hl
  | append_singleton h op ih =>
    rw [run_append] at hl
    rw [latest_append]
    generalize hc : ((Cache.new n : Cache κ ν).run eqv shard S h).1 = c at hl ih
    cases op with
    | insert k' v =>
      simp only [Cache.step, put] at hl
      dsimp only
      by_cases hs : shard k = shard k'
      · rw [if_pos hs] at hl
        unfold Spec.Lru.insert at hl
        cases hk : lookup Prod.fst eqv (c.shards (shard k')) k' with
        | some e' =>
          rw [hk] at hl
          dsimp only at hl
          rw [lookup_front hE _ (e'.1, v) (lookup_some_eqv (eqv := eqv) (e := e') hk)] at hl
          cases hkk : eqv k' k with
          | true =>
            rw [hkk] at hl
            simp only [if_true, Option.some.injEq] at hl
            rw [← hl]; rfl
          | false =>
            rw [hkk] at hl
            simp only [Bool.false_eq_true, if_false] at hl ⊢
            rw [← hs] at hl
            exact ih k e hl
        | none =>
          rw [hk] at hl
          dsimp only at hl
          have hl' : lookup Prod.fst eqv ((k', v) :: c.shards (shard k')) k = some e := by
            split at hl
            · exact find_dropLast hl
            · exact hl
          unfold lookup at hl'
          rw [List.find?_cons] at hl'
          cases hkk : eqv k' k with
          | true =>
            rw [hkk] at hl'
            simp only [Option.some.injEq] at hl'
            rw [← hl']; rfl
          | false =>
            rw [hkk] at hl'
            simp only [Bool.false_eq_true, if_false]
            rw [← hs] at hl'
            exact ih k e hl'
      · rw [if_neg hs] at hl
        rw [if_neg]
        · exact ih k e hl
        · intro hkk
          exact hs (hE.shard _ _ hkk).symm
    | get k' =>
      simp only [Cache.step, put] at hl
      dsimp only
      by_cases hs : shard k = shard k'
      · rw [if_pos hs] at hl
        unfold Spec.Lru.get at hl
        cases hk : lookup Prod.fst eqv (c.shards (shard k')) k' with
        | some e' =>
          rw [hk] at hl
          dsimp only at hl
          rw [lookup_front hE _ _ (lookup_some_eqv (eqv := eqv) hk)] at hl
          cases hkk : eqv k' k with
          | true =>
            rw [hkk] at hl
            simp only [if_true, Option.some.injEq] at hl
            rw [← hl]
            apply ih
            rw [hs, ← hk]
            unfold lookup
            congr 1
            funext a
            exact hE.congr' (hE.symm _ _ hkk) a.1
          | false =>
            rw [hkk] at hl
            simp only [Bool.false_eq_true, if_false] at hl
            rw [← hs] at hl
            exact ih k e hl
        | none =>
          rw [hk] at hl
          dsimp only at hl
          rw [← hs] at hl
          exact ih k e hl
      · rw [if_neg hs] at hl
        exact ih k e hl
    | «exists» k' => exact ih k e hl
    | setSize m => exact ih k e hl
    | reserve m => exact ih k e hl
    | size => exact ih k e hl

/-- An entry just inserted is there, if a shard has room for one. -/
theorem lookup_insert (hE : Ok eqv shard) {cap : Nat} (hc : 1 ≤ cap) (l : List (κ × ν)) (k : κ) (v : ν) :
    ∃ e, lookup Prod.fst eqv (Spec.Lru.insert eqv cap l k v) k = some e ∧ e.2 = v := by
  unfold Spec.Lru.insert
  cases hk : lookup Prod.fst eqv l k with
  | some e =>
    refine ⟨(e.1, v), ?_, rfl⟩
    dsimp only
    rw [lookup_front hE _ (e.1, v) (lookup_some_eqv (eqv := eqv) (e := e) hk), hE.refl]
    rfl
  | none =>
    refine ⟨(k, v), ?_, rfl⟩
    dsimp only
    have h0 : ∀ m : List (κ × ν), lookup Prod.fst eqv ((k, v) :: m) k = some (k, v) := by
      intro m
      unfold lookup
      rw [List.find?_cons, hE.refl]
    split
    · cases l with
      | nil => rename_i h; simp at h; omega
      | cons a l => rw [List.dropLast_cons_cons]; exact h0 _
    · exact h0 _

/-! ## The most recently used keys -/

/-- `l` has exactly the keys in the first `m` places of `r`, in that order. -/
def Rel (eqv : κ → κ → Bool) (m : Nat) (r : List κ) (l : List (κ × ν)) : Prop :=
  List.Forall₂ (fun k (e : κ × ν) => eqv e.1 k = true) (r.take m) l

def Apart (eqv : κ → κ → Bool) (r : List κ) : Prop := r.Pairwise (fun a b => eqv a b = false)

theorem touch_apart (hE : Ok eqv shard) {r : List κ} (h : Apart eqv r) (k : κ) : Apart eqv (touch eqv r k) := by
  unfold touch Apart
  rw [List.pairwise_cons]
  refine ⟨?_, List.Pairwise.filter _ h⟩
  intro a ha
  rw [List.mem_filter] at ha
  cases hka : eqv k a with
  | false => rfl
  | true => rw [hE.symm _ _ hka] at ha; simp at ha

theorem forall2_filter {α β : Type} {R : α → β → Prop} {p : α → Bool} {q : β → Bool} {l : List α} {m : List β}
    (h : List.Forall₂ R l m) (hpq : ∀ a b, R a b → p a = q b) : List.Forall₂ R (l.filter p) (m.filter q) := by
  induction h with
  | nil => exact .nil
  | cons hab _ ih =>
    rw [List.filter_cons, List.filter_cons, hpq _ _ hab]
    split
    · exact .cons hab ih
    · exact ih

theorem rel_any (hE : Ok eqv shard) {m : Nat} {r : List κ} {l : List (κ × ν)} (h : Rel eqv m r l) (k : κ) :
    (lookup Prod.fst eqv l k).isSome = (r.take m).any (fun k' => eqv k' k) := by
  unfold lookup Rel at *
  generalize r.take m = q at h
  induction h with
  | nil => rfl
  | cons hab _ ih =>
    rw [List.find?_cons, List.any_cons, ← hE.congr hab k]
    split
    · rename_i h1; rw [h1]; rfl
    · rename_i h1; rw [h1]; exact ih

theorem rel_length {m : Nat} {r : List κ} {l : List (κ × ν)} (h : Rel eqv m r l) : l.length = min m r.length := by
  have := List.Forall₂.length_eq h
  rw [List.length_take] at this
  omega

/-- The entry found goes to the front of both lists. -/
theorem rel_front (hE : Ok eqv shard) {m : Nat} {r : List κ} {l : List (κ × ν)} (h : Rel eqv m r l) (ha : Apart eqv r)
    {k : κ} {e e' : κ × ν} (hl : lookup Prod.fst eqv l k = some e) (he : eqv e'.1 k = true) :
    Rel eqv m (touch eqv r k) (e' :: Spec.erase Prod.fst eqv l k) := by
  have h1 := rel_any hE h k
  rw [hl] at h1
  have h2 := (List.any_eq_true.1 h1.symm)
  obtain ⟨k', hk', hkk⟩ := h2
  obtain ⟨i, hi, hik⟩ := List.mem_take_iff_getElem.1 hk'
  have hm : i < m := by omega
  have hr : i < r.length := by omega
  have hsplit : r = r.take i ++ k' :: r.drop (i + 1) := by
    have e1 : r.drop i = k' :: r.drop (i + 1) := by rw [← hik]; exact List.drop_eq_getElem_cons hr
    rw [← e1, List.take_append_drop]
  have hno1 : ∀ a ∈ r.take i, eqv a k = false := by
    intro a haa
    cases hak : eqv a k with
    | false => rfl
    | true =>
      unfold Apart at ha
      rw [hsplit, List.pairwise_append] at ha
      have := ha.2.2 a haa k' (by simp)
      rw [hE.trans _ _ _ hak (hE.symm _ _ hkk)] at this
      cases this
  have hno2 : ∀ a ∈ r.drop (i + 1), eqv a k = false := by
    intro a haa
    cases hak : eqv a k with
    | false => rfl
    | true =>
      unfold Apart at ha
      rw [hsplit, List.pairwise_append, List.pairwise_cons] at ha
      have := ha.2.1.1 a haa
      rw [hE.trans _ _ _ hkk (hE.symm _ _ hak)] at this
      cases this
  have hlen : (r.take i).length = i := by rw [List.length_take]; omega
  have hf : r.filter (fun a => !eqv a k) = r.take i ++ r.drop (i + 1) := by
    conv => lhs; rw [hsplit]
    rw [List.filter_append, List.filter_cons, if_neg (by simp [hkk]),
      List.filter_eq_self.2 (fun a h => by simp [hno1 a h]), List.filter_eq_self.2 (fun a h => by simp [hno2 a h])]
  have ht : (r.take m).filter (fun a => !eqv a k) = r.take i ++ (r.drop (i + 1)).take (m - 1 - i) := by
    have : r.take m = r.take i ++ k' :: (r.drop (i + 1)).take (m - 1 - i) := by
      conv => lhs; rw [hsplit]
      rw [List.take_append, hlen, List.take_of_length_le (by omega : (r.take i).length ≤ m),
        show m - i = (m - 1 - i) + 1 by omega, List.take_succ_cons]
    rw [this, List.filter_append, List.filter_cons, if_neg (by simp [hkk]),
      List.filter_eq_self.2 (fun a h => by simp [hno1 a h]),
      List.filter_eq_self.2 (fun a h => by simp [hno2 a (List.mem_of_mem_take h)])]
  have hnew : (touch eqv r k).take m = k :: (r.take m).filter (fun a => !eqv a k) := by
    unfold touch
    rw [show m = (m - 1) + 1 by omega, List.take_succ_cons, show (m - 1) + 1 = m by omega, ht, hf]
    rw [List.take_append, hlen, List.take_of_length_le (by omega : (r.take i).length ≤ m - 1)]
  unfold Rel
  rw [hnew]
  refine .cons he ?_
  unfold Spec.erase
  refine forall2_filter h (fun a b hab => ?_)
  rw [hE.congr hab]

theorem rel_insert (hE : Ok eqv shard) {m : Nat} {r : List κ} {l : List (κ × ν)} (h : Rel eqv m r l) (ha : Apart eqv r)
    (k : κ) (v : ν) : Rel eqv m (touch eqv r k) (Spec.Lru.insert eqv m l k v) := by
  unfold Spec.Lru.insert
  cases hl : lookup Prod.fst eqv l k with
  | some e => exact rel_front hE h ha hl (e' := (e.1, v)) (lookup_some_eqv (eqv := eqv) (e := e) hl)
  | none =>
    dsimp only
    have h1 := rel_any hE h k
    rw [hl] at h1
    have hno : ∀ a ∈ r.take m, eqv a k = false := by
      intro a haa
      have := List.any_eq_false.1 h1.symm a haa
      simpa using this
    have hlen := rel_length h
    by_cases hm : m = 0
    · subst hm
      have : l = [] := List.eq_nil_of_length_eq_zero (by omega)
      subst this
      rw [if_pos (by simp)]
      exact .nil
    · have hf : (r.filter (fun a => !eqv a k)).take (m - 1) = r.take (m - 1) := by
        have e1 : r.filter (fun a => !eqv a k) = r.take m ++ (r.drop m).filter (fun a => !eqv a k) := by
          conv => lhs; rw [← List.take_append_drop m r]
          rw [List.filter_append, List.filter_eq_self.2 (fun a h => by simp [hno a h])]
        rw [e1, List.take_append, List.take_take, Nat.min_eq_left (by omega)]
        by_cases hr : r.length ≤ m
        · rw [List.drop_of_length_le hr]; simp
        · rw [show m - 1 - (r.take m).length = 0 by rw [List.length_take]; omega]
          simp
      have hnew : (touch eqv r k).take m = k :: r.take (m - 1) := by
        unfold touch
        rw [show m = (m - 1) + 1 by omega, List.take_succ_cons, show (m - 1) + 1 - 1 = m - 1 by omega, hf]
      unfold Rel
      rw [hnew]
      have ht : List.Forall₂ (fun k (e : κ × ν) => eqv e.1 k = true) (r.take (m - 1)) (l.take (m - 1)) := by
        have := List.forall₂_take (m - 1) h
        rw [List.take_take, Nat.min_eq_left (by omega)] at this
        exact this
      split
      · rename_i hfull
        have hlm : l.length = m := by omega
        cases l with
        | nil => simp at hlm; omega
        | cons a l =>
          rw [List.dropLast_cons_cons, List.dropLast_eq_take, hlm]
          exact .cons (hE.refl k) ht
      · rename_i hfull
        rw [List.take_of_length_le (by omega : l.length ≤ m - 1)] at ht
        exact .cons (hE.refl k) ht

/-- History with answers. -/
def events (n : Nat) (eqv : κ → κ → Bool) (shard : κ → Nat) (S : Nat) (h : List (Op κ ν)) : List (Op κ ν × Resp ν) :=
  h.zip ((Cache.new n : Cache κ ν).run eqv shard S h).2

theorem events_append (n : Nat) (h : List (Op κ ν)) (op : Op κ ν) :
    events n eqv shard S (h ++ [op]) =
      events n eqv shard S h ++ [(op, (((Cache.new n : Cache κ ν).run eqv shard S h).1.step eqv shard S op).2)] := by
  unfold events
  rw [run_append, List.zip_append]
  · rfl
  · rw [run_length]

theorem recency_append (es : List (Op κ ν × Resp ν)) (i : Nat) (e : Op κ ν × Resp ν) :
    recency eqv (ofShard shard i (es ++ [e])) = match used e with
      | some k => if shard k = i then touch eqv (recency eqv (ofShard shard i es)) k else recency eqv (ofShard shard i es)
      | none => recency eqv (ofShard shard i es) := by
  unfold ofShard
  rw [List.filter_append]
  cases hu : used e with
  | none =>
    rw [List.filter_cons, hu]
    simp
  | some k =>
    rw [List.filter_cons, hu]
    dsimp only
    by_cases hk : shard k = i
    · rw [if_pos (by simp [hk]), if_pos hk, List.filter_nil]
      unfold recency
      rw [List.foldl_append, List.foldl_cons, List.foldl_nil, hu]
    · rw [if_neg (by simp [hk]), if_neg hk, List.filter_nil, List.append_nil]

/-- Every shard of the reference cache holds the most recently used keys of the shard. -/
theorem recency_run (hE : Ok eqv shard) (n : Nat) (h : List (Op κ ν)) (hfix : ∀ m, Op.setSize m ∉ h) (i : Nat) :
    Apart eqv (recency eqv (ofShard shard i (events n eqv shard S h))) ∧
    Rel eqv (n / S) (recency eqv (ofShard shard i (events n eqv shard S h)))
      (((Cache.new n : Cache κ ν).run eqv shard S h).1.shards i) := by
  induction h using List.reverseRecOn with
  | nil =>
    refine ⟨List.Pairwise.nil, ?_⟩
    show List.Forall₂ _ (List.take (n / S) []) []
    rw [List.take_nil]
    exact .nil
  | append_singleton h op ih =>
    have hfix' : ∀ m, Op.setSize m ∉ h := fun m hm => hfix m (by simp [hm])
    have hmax : ((Cache.new n : Cache κ ν).run eqv shard S h).1.max = n := by
      rw [max_run]
      unfold sizeAfter
      clear ih hfix
      induction h using List.reverseRecOn with
      | nil => rfl
      | append_singleton h op ih =>
        rw [List.foldl_append, List.foldl_cons, List.foldl_nil]
        cases op with
        | setSize m => exact absurd (by simp) (hfix' m)
        | _ => exact ih (fun m hm => hfix' m (by simp [hm]))
    obtain ⟨ih1, ih2⟩ := ih hfix'
    rw [events_append, recency_append, run_append]
    generalize hc : ((Cache.new n : Cache κ ν).run eqv shard S h).1 = c at ih2 hmax ⊢
    cases op with
    | insert k v =>
      simp only [used, Cache.step, put]
      by_cases hk : shard k = i
      · rw [if_pos hk, if_pos hk.symm]
        rw [hmax, hk]
        exact ⟨touch_apart hE ih1 k, rel_insert hE ih2 ih1 k v⟩
      · rw [if_neg hk, if_neg (fun e => hk e.symm)]
        exact ⟨ih1, ih2⟩
    | get k =>
      simp only [Cache.step, put, Spec.Lru.get]
      cases hl : lookup Prod.fst eqv (c.shards (shard k)) k with
      | none =>
        simp only [used]
        by_cases hk : shard k = i
        · rw [if_pos hk.symm, hk]
          exact ⟨ih1, ih2⟩
        · rw [if_neg (fun e => hk e.symm)]
          exact ⟨ih1, ih2⟩
      | some e =>
        simp only [used]
        by_cases hk : shard k = i
        · rw [if_pos hk, if_pos hk.symm]
          rw [hk] at hl ⊢
          exact ⟨touch_apart hE ih1 k, rel_front hE ih2 ih1 hl (lookup_some_eqv (eqv := eqv) hl)⟩
        · rw [if_neg hk, if_neg (fun e => hk e.symm)]
          exact ⟨ih1, ih2⟩
    | setSize m => exact absurd (by simp) (hfix m)
    | «exists» k => exact ⟨ih1, ih2⟩
    | reserve m => exact ⟨ih1, ih2⟩
    | size => exact ⟨ih1, ih2⟩

end Gtl.Lru.Ref
