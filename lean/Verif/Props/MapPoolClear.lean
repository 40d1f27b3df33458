import Verif.Props.MapPool
import Verif.Btree.MapPoolClear
/-!
# Property theorems C125: at the end every object has been destroyed once
-/

namespace Gtl.Props.MapNodes

open Gtl.Btree.MapSlots
open Gtl.Spec.MapNodes
open Gtl.Spec.MapPool
open Gtl.Props.MapSlots

variable {K V : Type}

/-- **Clearing**: after any sequence of calls that starts with empty nodes, clearing the nodes that have elements, in any
order, destroys every object once (destroying twice would be undefined), and no object is left. -/
theorem C125_clear_partial {T : Types K V} (hT : Safe T) {cap : Nat} (hcap : 0 < cap) {g : Nat → List (K × V)}
    {os : List (Act (K × V))} (hd : DoesAll cap (fun _ => []) os g) {m : Mem K V} (hm : ∀ x, m.slots x = none) {ns : List Nat}
    (hns : ns.Nodup) (hall : ∀ n, g n ≠ [] → n ∈ ns) :
    ∃ m1 c m2, acts T cap m (fun _ => 0) os = .ok (m1, c) ∧ clearNodes cap m1 c ns = .ok m2 ∧ ∀ x, m2.slots x = none := by
  obtain ⟨m1, h1, h2⟩ := C125_history_partial hT hd (m := m) (fun n => ⟨by simp, fun j _ => by simp [hm]⟩)
  have key : ∀ (ns : List Nat) (m1 : Mem K V) (f : Nat → List (K × V)), ns.Nodup → Pool cap m1 f →
      (∀ n ∈ ns, f n = g n) → (∀ n, n ∉ ns → f n = []) →
      ∃ m2, clearNodes cap m1 (fun n => (g n).length) ns = .ok m2 ∧ Pool cap m2 fun _ => [] := by
    intro ns
    induction ns with
    | nil =>
      intro m1 f _ hp _ hn
      refine ⟨m1, rfl, fun n => ?_⟩
      have := hp n
      rw [hn n (by simp)] at this
      exact this
    | cons n ns ih =>
      intro m1 f hnd hp hin hout
      have hfn : f n = g n := hin n (by simp)
      have hn : n ∉ ns := (List.nodup_cons.1 hnd).1
      obtain ⟨m2, e1, e2⟩ := destroyN_ok (f n).length (n * cap) m1 (fun j j1 j2 => node_live (hp n) j1 j2)
      have hp2 : Pool cap m2 (put f n []) := by
        refine pool_put hp ⟨by simp, fun j hj => ?_⟩ (fun y hy => ?_)
        · rw [e2]
          by_cases c : j < (f n).length
          · rw [if_pos (by omega)]; simp
          · rw [if_neg (by omega), node_dead (hp n) (by omega) (by omega)]; simp
        · have := (hp n).1
          unfold Outside at hy
          rw [e2, if_neg (by omega)]
      obtain ⟨m3, g1, g2⟩ := ih m2 (put f n []) (List.nodup_cons.1 hnd).2 hp2
        (fun k hk => by
          have : k ≠ n := fun e => hn (e ▸ hk)
          unfold put
          rw [if_neg this]; exact hin k (by simp [hk]))
        (fun k hk => by
          unfold put
          split
          · rfl
          · rename_i c
            exact hout k (by simp [c, hk]))
      refine ⟨m3, ?_, g2⟩
      show (destroyN m1 (n * cap) (g n).length).then _ = _
      rw [← hfn, e1]
      exact g1
  obtain ⟨m2, e1, e2⟩ := key ns m1 g hns h2 (fun _ _ => rfl) (fun n hn => by
    by_cases c : g n = []
    · exact c
    · exact absurd (hall n c) hn)
  refine ⟨m1, _, m2, h1, e1, fun x => ?_⟩
  have := (e2 (x / cap)).2 (x % cap) (Nat.mod_lt _ hcap)
  rw [Nat.div_add_mod' x cap] at this
  simpa using this

/-- Two nodes with one element each. -/
example : ∃ m1 c m2, acts exT 4 ⟨fun _ => none, 0⟩ (fun _ => 0) [.insert 0 0 (2, 20), .insert 1 0 (1, 10), .swap 0 1] = .ok (m1, c) ∧
    clearNodes 4 m1 c [1, 0] = .ok m2 ∧ ∀ x, m2.slots x = none := by
  refine C125_clear_partial (Or.inr fun _ => rfl) (by decide)
    (.cons (.insert (n := 0) (i := 0) (x := (2, 20)) (by decide) (by decide))
    (.cons (.insert (n := 1) (i := 0) (x := (1, 10)) (by decide) (by decide))
    (.cons (.swap (a := 0) (b := 1) (by decide)) .nil))) (fun _ => rfl) (by decide) (fun n hn => ?_)
  by_cases c1 : n = 1
  · simp [c1]
  · by_cases c0 : n = 0
    · simp [c0]
    · exact absurd (by simp [put, c0, c1]) hn

end Gtl.Props.MapNodes
