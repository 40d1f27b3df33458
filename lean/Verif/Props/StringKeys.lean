import Verif.Btree.StringKeysProof
import Verif.Spec.StrOrder
import Verif.Props.Btree
/-!
# Property theorems C98: B-tree containers with string keys

`gtl::btree_map<std::string, T>` and the like do not use the comparison that the type names, but a three-way one of their own, and
search with it in other functions. They behave as with `std::less<std::string>` or `std::greater<std::string>` all the same.
-/

namespace Gtl.Props.StringKeys

open Gtl.Btree Gtl.Spec.SortedSeq Gtl.Spec.StrOrder

/-- The order that the user names. -/
def named : StrCompare → Str → Str → Bool
  | .less => less
  | .greater => greater

/-- The same as a relation: the order of the dictionary, or its reverse. -/
def InOrder : StrCompare → Str → Str → Prop
  | .less, a, b => Before a b
  | .greater, a, b => Before b a

theorem cmpRec_list_lt : ∀ a b : Str, cmpRec a b = .lt ↔ a < b
  | [], [] => by simp [cmpRec]
  | [], y :: b => by simp [cmpRec]
  | x :: a, [] => by simp [cmpRec]
  | x :: a, y :: b => by
    have ih := cmpRec_list_lt a b
    rw [List.cons_lt_cons_iff]
    unfold cmpRec
    by_cases h1 : x < y
    · simp [h1]
    by_cases h2 : y < x
    · simp [h1, h2, (Fin.ne_of_lt h2).symm]
    · have : x = y := Fin.le_antisymm (Fin.not_lt.1 h2) (Fin.not_lt.1 h1)
      simp [this, ih]

/-- The comparison object in place of `std::less<std::string>` orders as in a dictionary, by bytes without sign, and answers
"equivalent" only for equal strings. -/
theorem C98_less (a b : Str) :
    (stringLess a b = .lt ↔ Before a b) ∧ (stringLess a b = .eq ↔ a = b) ∧ (stringLess a b = .gt ↔ Before b a) ∧
      (stringLess a b = .lt ↔ less a b = true) := by
  rw [stringLess_rec]
  refine ⟨cmpRec_lt_iff a b, cmpRec_eq a b, ?_, ?_⟩
  · show _ ↔ _
    rw [show Before b a ↔ cmpRec b a = .lt from (cmpRec_lt_iff b a).symm, ← cmpRec_swap a b]
    cases cmpRec a b <;> simp
  · rw [cmpRec_list_lt, less, decide_eq_true_iff]

/-- The one in place of `std::greater<std::string>` answers the reverse. -/
theorem C98_greater (a b : Str) :
    (stringGreater a b = .lt ↔ Before b a) ∧ (stringGreater a b = .eq ↔ a = b) ∧ (stringGreater a b = .gt ↔ Before a b) ∧
      (stringGreater a b = .lt ↔ greater a b = true) := by
  obtain ⟨h1, h2, h3, h4⟩ := C98_less b a
  exact ⟨h1, h2.trans eq_comm, h3, h4⟩

theorem lt_eq (cmp : StrCompare) : (fun a b => resultAsLess (cmp.adapted a b)) = named cmp := by
  have hl : ∀ (r : Ordering) (b : Bool), (r = .lt ↔ b = true) → resultAsLess r = b := by
    intro r b h; cases r <;> cases b <;> simp_all [resultAsLess]
  funext a b
  cases cmp
  · exact hl _ _ (C98_less a b).2.2.2
  · exact hl _ _ (C98_greater a b).2.2.2

/-- For all histories: a container with string keys does and answers what a sequence sorted by the named order does, and iterating
gives the keys in the order of the dictionary (reversed with `std::greater`), each once unless there are duplicates. -/
theorem C98_history {α : Type} {K : Nat} (hK : 3 ≤ K) (multi : Bool) (key : α → Str) (cmp : StrCompare) (ops : List (Op α Str))
    (hs : Safe multi key (named cmp) [] ops) :
    ∃ rs t L, execAll (strCfg K multi key cmp) Tree.empty ops = some (rs, t) ∧ Run multi key (named cmp) [] ops rs L ∧
      t.toList = some L ∧
      L.Pairwise (fun a b => (multi = true ∧ key a = key b) ∨ InOrder cmp (key a) (key b)) := by
  have hlt : (strCfg K multi key cmp).lt = named cmp := lt_eq cmp
  have o : StrictWeak (strCfg K multi key cmp).lt := adapted_weak cmp
  have hs' : Safe (strCfg K multi key cmp).multi (strCfg K multi key cmp).key (strCfg K multi key cmp).lt [] ops := by
    rw [hlt]; exact hs
  obtain ⟨rs, t, L, e, r, tl⟩ := Btree.C43_history (c := strCfg K multi key cmp) hK o ops hs'
  obtain ⟨rs2, t2, e2, ⟨L2, tl2, _, so⟩, _⟩ := Btree.C44_sorted_balanced (c := strCfg K multi key cmp) hK o ops hs'
  rw [e] at e2
  cases e2
  rw [tl] at tl2
  cases tl2
  rw [hlt] at r so
  refine ⟨rs, t, L, e, r, tl, ?_⟩
  have tri : ∀ a b : Str, named cmp b a = false → a = b ∨ InOrder cmp a b := by
    intro a b h
    cases cmp
    · obtain ⟨h1, h2, h3, h4⟩ := C98_less b a
      have : stringLess b a ≠ .lt := fun x => Bool.false_ne_true (h.symm.trans (h4.1 x))
      cases hc : stringLess b a with
      | lt => exact absurd hc this
      | eq => exact .inl (h2.1 hc).symm
      | gt => exact .inr (h3.1 hc)
    · obtain ⟨h1, h2, h3, h4⟩ := C98_greater b a
      have : stringGreater b a ≠ .lt := fun x => Bool.false_ne_true (h.symm.trans (h4.1 x))
      cases hc : stringGreater b a with
      | lt => exact absurd hc this
      | eq => exact .inl (h2.1 hc).symm
      | gt => exact .inr (h3.1 hc)
  have so' : Sorted multi key (named cmp) L := so
  unfold Sorted at so'
  cases multi with
  | true =>
    rw [if_pos rfl] at so'
    refine so'.imp fun {a b} h => ?_
    rcases tri (key a) (key b) h with h | h
    · exact .inl ⟨rfl, h⟩
    · exact .inr h
  | false =>
    rw [if_neg (by simp)] at so'
    refine so'.imp fun {a b} h => .inr ?_
    cases cmp
    · exact (C98_less _ _).1.1 ((C98_less _ _).2.2.2.2 h)
    · exact (C98_greater _ _).1.1 ((C98_greater _ _).2.2.2.2 h)

/-- The searches in nodes call the three-way function itself. -/
theorem C98_three_way {α : Type} (K : Nat) (multi : Bool) (key : α → Str) (cmp : StrCompare) (a b : Str) :
    (strCfg K multi key cmp).cmp3 a b = cmp.adapted a b := strCfg_cmp3 K multi key cmp a b

/-! ## A concrete case: keys with a common prefix, an empty key, a byte above 127 and a zero byte -/

/-- "b", "", "abc", "a" and a letter outside of ASCII, "ab" and a zero byte, "ab", "abc". -/
def demo : List (Op Str Str) :=
  [.insert [98], .insert [], .insert [97, 98, 99], .insert [97, 0xC3, 0xA4], .insert [97, 98, 0], .insert [97, 98], .insert [97, 98, 99],
    .lowerBound [97, 98, 1], .count [97, 98, 99], .find [97], .values]

theorem demo_safe (multi : Bool) (cmp : StrCompare) : ∀ l, Safe multi id (named cmp) l demo := by
  intro l
  simp [demo, Safe, Ok]

theorem C98_case : (execAll (strCfg 3 false id .less) Tree.empty demo).map (·.1) = some
      [.posNew 0 true, .posNew 0 true, .posNew 1 true, .posNew 2 true, .posNew 1 true, .posNew 1 true, .posNew 3 false, .pos 3, .num 1,
        .pos 6, .vals [[], [97, 98], [97, 98, 0], [97, 98, 99], [97, 0xC3, 0xA4], [98]]] ∧
    (execAll (strCfg 3 true id .greater) Tree.empty demo).map (fun r => r.1.getLast?) =
      some (some (.vals [[98], [97, 0xC3, 0xA4], [97, 98, 99], [97, 98, 99], [97, 98, 0], [97, 98], []])) := by
  constructor <;> decide +kernel

end Gtl.Props.StringKeys
