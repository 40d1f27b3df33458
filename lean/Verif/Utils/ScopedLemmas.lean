import Verif.Spec.Scopes
/-!
# Lemmas about scoped objects
-/

namespace Gtl.Scoped

variable {α : Type}

@[simp] theorem dismiss_name (o : Obj α) : o.dismiss.name = o.name := by cases o <;> rfl

theorem dismissNamed_length (n : Nat) (st : List (Obj α)) : (dismissNamed n st).length = st.length := by
  induction st with
  | nil => rfl
  | cons o st ih =>
    unfold dismissNamed
    split
    · rfl
    · simp [ih]

theorem dismissNamed_names (n : Nat) (st : List (Obj α)) : (dismissNamed n st).map Obj.name = st.map Obj.name := by
  induction st with
  | nil => rfl
  | cons o st ih =>
    unfold dismissNamed
    split
    · simp
    · simp [ih]

theorem dismissNamed_insert {m : Nat} {o : Obj α} (h : m ≠ o.name) (A B : List (Obj α)) :
    ∃ A' B', dismissNamed m (A ++ B) = A' ++ B' ∧ dismissNamed m (A ++ o :: B) = A' ++ o :: B' ∧ A'.length = A.length ∧
      B'.length = B.length ∧ A'.map Obj.name = A.map Obj.name := by
  induction A with
  | nil =>
    refine ⟨[], dismissNamed m B, rfl, ?_, rfl, dismissNamed_length m B, rfl⟩
    show dismissNamed m (o :: B) = _
    unfold dismissNamed
    rw [if_neg (fun e => h e.symm)]
    cases B <;> rfl
  | cons a A ih =>
    by_cases ha : a.name = m
    · refine ⟨a.dismiss :: A, B, ?_, ?_, rfl, rfl, by simp⟩
      · show dismissNamed m (a :: (A ++ B)) = _
        unfold dismissNamed; rw [if_pos ha]; rfl
      · show dismissNamed m (a :: (A ++ o :: B)) = _
        unfold dismissNamed; rw [if_pos ha]; rfl
    · obtain ⟨A', B', h1, h2, h3, h4, h5⟩ := ih
      refine ⟨a :: A', B', ?_, ?_, by simp [h3], h4, by simp [h5]⟩
      · show dismissNamed m (a :: (A ++ B)) = _
        rw [dismissNamed, if_neg ha, h1]; rfl
      · show dismissNamed m (a :: (A ++ o :: B)) = _
        rw [dismissNamed, if_neg ha, h2]; rfl

theorem dismissNamed_at {o : Obj α} {A B : List (Obj α)} (h : ∀ a ∈ A, a.name ≠ o.name) :
    dismissNamed o.name (A ++ o :: B) = A ++ o.dismiss :: B := by
  induction A with
  | nil =>
    show dismissNamed o.name (o :: B) = _
    unfold dismissNamed; rw [if_pos rfl]; rfl
  | cons a A ih =>
    show dismissNamed o.name (a :: (A ++ o :: B)) = _
    rw [dismissNamed, if_neg (h a List.mem_cons_self), ih (fun x hx => h x (List.mem_cons_of_mem _ hx))]
    rfl

/-- An object which a program does not dismiss stays in the stack and does not disturb the program. -/
theorem exec_insert (moved : α → α) (o : Obj α) : ∀ (p : Prog α) (A B : List (Obj α)) (s : State α), Keeps o.name p →
    ∃ A' B' s' t, exec moved p (A ++ B) s = ⟨s', A' ++ B', t⟩ ∧ exec moved p (A ++ o :: B) s = ⟨s', A' ++ o :: B', t⟩ ∧
      A.length ≤ A'.length ∧ B'.length = B.length ∧
      ∀ n, Undeclared n p → (∀ a ∈ A, a.name ≠ n) → ∀ a ∈ A', a.name ≠ n := by
  intro p
  induction p with
  | done => intro A B s _; exact ⟨A, B, s, false, rfl, rfl, Nat.le_refl _, rfl, fun n _ h => h⟩
  | act f k ih =>
    intro A B s hk
    unfold exec
    dsimp only
    by_cases ht : (f s).2 = true
    · simp only [if_pos ht]
      exact ⟨A, B, _, true, rfl, rfl, Nat.le_refl _, rfl, fun n _ h => h⟩
    · simp only [if_neg ht]
      exact ih A B _ hk
  | guard n f d k ih =>
    intro A B s hk
    obtain ⟨A', B', s', t, h1, h2, h3, h4, h5⟩ := ih (.guard n f d :: A) B s hk
    refine ⟨A', B', s', t, h1, h2, Nat.le_of_succ_le h3, h4, ?_⟩
    intro m hm ha
    refine h5 m hm.2 ?_
    intro a hh
    rcases List.mem_cons.1 hh with rfl | hh
    · exact hm.1
    · exact ha a hh
  | setUnset n a b d k ih =>
    intro A B s hk
    have key : ∀ s, ∃ A' B' s' t, exec moved k (.guard n b d :: (A ++ B)) s = ⟨s', A' ++ B', t⟩ ∧
        exec moved k (.guard n b d :: (A ++ o :: B)) s = ⟨s', A' ++ o :: B', t⟩ ∧ A.length ≤ A'.length ∧
        B'.length = B.length ∧ ∀ m, Undeclared m (.setUnset n a b d k) → (∀ a ∈ A, a.name ≠ m) → ∀ a ∈ A', a.name ≠ m := by
      intro s
      obtain ⟨A', B', s', t, h1, h2, h3, h4, h5⟩ := ih (.guard n b d :: A) B s hk
      refine ⟨A', B', s', t, h1, h2, Nat.le_of_succ_le h3, h4, ?_⟩
      intro m hm ha
      refine h5 m hm.2 ?_
      intro a hh
      rcases List.mem_cons.1 hh with rfl | hh
      · exact hm.1
      · exact ha a hh
    unfold exec
    dsimp only
    by_cases hd : d = true
    · simp only [if_pos hd]
      by_cases ht : (a s).2 = true
      · simp only [if_pos ht]
        exact ⟨A, B, _, true, rfl, rfl, Nat.le_refl _, rfl, fun n _ h => h⟩
      · simp only [if_neg ht]
        exact key _
    · simp only [if_neg hd]
      exact key _
  | setValue n x v d k ih =>
    intro A B s hk
    have key : ∀ s old, ∃ A' B' s' t, exec moved k (.value n x old d :: (A ++ B)) s = ⟨s', A' ++ B', t⟩ ∧
        exec moved k (.value n x old d :: (A ++ o :: B)) s = ⟨s', A' ++ o :: B', t⟩ ∧ A.length ≤ A'.length ∧
        B'.length = B.length ∧ ∀ m, Undeclared m (.setValue n x v d k) → (∀ a ∈ A, a.name ≠ m) → ∀ a ∈ A', a.name ≠ m := by
      intro s old
      obtain ⟨A', B', s', t, h1, h2, h3, h4, h5⟩ := ih (.value n x old d :: A) B s hk
      refine ⟨A', B', s', t, h1, h2, Nat.le_of_succ_le h3, h4, ?_⟩
      intro m hm ha
      refine h5 m hm.2 ?_
      intro a hh
      rcases List.mem_cons.1 hh with rfl | hh
      · exact hm.1
      · exact ha a hh
    unfold exec
    by_cases hd : d = true
    · simp only [if_pos hd]
      exact key _ _
    · simp only [if_neg hd]
      exact key _ _
  | dismiss m k ih =>
    intro A B s hk
    obtain ⟨A1, B1, h1, h2, h3, h4, h5⟩ := dismissNamed_insert hk.1 A B
    obtain ⟨A', B', s', t, g1, g2, g3, g4, g5⟩ := ih A1 B1 s hk.2
    unfold exec
    rw [h1, h2]
    refine ⟨A', B', s', t, g1, g2, by omega, by omega, ?_⟩
    intro n hn ha
    refine g5 n hn ?_
    intro a hh he
    have : n ∈ A1.map Obj.name := List.mem_map.2 ⟨a, hh, he⟩
    rw [h5] at this
    obtain ⟨b, hb, hb'⟩ := List.mem_map.1 this
    exact ha b hb hb'
  | ite c p q ihp ihq =>
    intro A B s hk
    unfold exec
    by_cases hc : c s = true
    · simp only [if_pos hc]
      obtain ⟨A', B', s', t, g1, g2, g3, g4, g5⟩ := ihp A B s hk.1
      exact ⟨A', B', s', t, g1, g2, g3, g4, fun n hn => g5 n hn.1⟩
    · simp only [if_neg hc]
      obtain ⟨A', B', s', t, g1, g2, g3, g4, g5⟩ := ihq A B s hk.2
      exact ⟨A', B', s', t, g1, g2, g3, g4, fun n hn => g5 n hn.2⟩
  | block c b k ihb ihk =>
    intro A B s hk
    obtain ⟨A1, B1, s1, t1, h1, h2, h3, h4, h5⟩ := ihb A B s hk.1
    unfold exec
    rw [h1, h2]
    have e1 : (A1 ++ B1).length - (A ++ B).length = A1.length - A.length := by simp; omega
    have e2 : (A1 ++ o :: B1).length - (A ++ o :: B).length = A1.length - A.length := by simp; omega
    have hle : A1.length - A.length ≤ A1.length := Nat.sub_le _ _
    simp only [leave, e1, e2, List.take_append_of_le_length hle, List.drop_append_of_le_length hle]
    by_cases ht : (t1 && !c) = true
    · simp only [if_pos ht]
      refine ⟨_, B1, _, t1, rfl, rfl, ?_, h4, ?_⟩
      · simp; omega
      · intro n hn ha a hh
        exact h5 n hn.1 ha a (List.mem_of_mem_drop hh)
    · simp only [if_neg ht]
      obtain ⟨A', B', s', t, g1, g2, g3, g4, g5⟩ := ihk (A1.drop (A1.length - A.length)) B1
        ((A1.take (A1.length - A.length)).foldl (fun s ob => ob.destroy s) s1) hk.2
      refine ⟨A', B', s', t, g1, g2, ?_, by omega, ?_⟩
      · simp at g3; omega
      · intro n hn ha
        exact g5 n hn.2 (fun a hh => h5 n hn.1 ha a (List.mem_of_mem_drop hh))

theorem leave_insert (o : Obj α) {A' B' st : List (Obj α)} {s' : State α} {t : Bool} (h : B'.length = st.length) :
    leave st.length ⟨s', A' ++ o :: B', t⟩ =
      { leave st.length ⟨s', A' ++ B', t⟩ with state := o.destroy (leave st.length ⟨s', A' ++ B', t⟩).state } := by
  have e1 : (A' ++ o :: B').length - st.length = A'.length + 1 := by simp; omega
  have e2 : (A' ++ B').length - st.length = A'.length := by simp; omega
  unfold leave
  simp only [e1, e2]
  have e3 : A' ++ o :: B' = (A' ++ [o]) ++ B' := by simp
  rw [e3, List.take_left' (by simp), List.drop_left' (by simp), List.take_left' rfl, List.drop_left' rfl, List.foldl_append]
  rfl

/-- Declaring an object first in a block: it is destroyed last. -/
theorem scope_object (moved : α → α) (o : Obj α) (p : Prog α) (st : List (Obj α)) (s : State α) (hk : Keeps o.name p) :
    leave st.length (exec moved p (o :: st) s) =
      { scope moved p st s with state := o.destroy (scope moved p st s).state } := by
  obtain ⟨A', B', s', t, h1, h2, _, h4, _⟩ := exec_insert moved o p [] st s hk
  simp only [List.nil_append] at h1 h2
  unfold scope
  rw [h1, h2]
  exact leave_insert o h4

theorem exec_seq (moved : α → α) : ∀ (p q : Prog α) (st : List (Obj α)) (s : State α),
    exec moved (p.seq q) st s = if (exec moved p st s).threw then exec moved p st s
      else exec moved q (exec moved p st s).stack (exec moved p st s).state := by
  intro p
  induction p with
  | done => intro q st s; simp [Prog.seq, exec]
  | act f k ih =>
    intro q st s
    simp only [Prog.seq, exec]
    split
    · simp
    · exact ih ..
  | guard n f d k ih => intro q st s; exact ih ..
  | setUnset n a b d k ih =>
    intro q st s
    simp only [Prog.seq, exec]
    split
    · split
      · simp
      · exact ih ..
    · exact ih ..
  | setValue n x v d k ih =>
    intro q st s
    simp only [Prog.seq, exec]
    split <;> exact ih ..
  | dismiss n k ih => intro q st s; exact ih ..
  | ite c p1 p2 ih1 ih2 =>
    intro q st s
    simp only [Prog.seq, exec]
    split
    · exact ih1 ..
    · exact ih2 ..
  | block c b k ihb ihk =>
    intro q st s
    simp only [Prog.seq, exec]
    split
    · rename_i h
      simp only [Bool.and_eq_true] at h
      simp only [h.1, if_true]
    · exact ihk ..

/-- Dismissing an object: it might as well not be there. -/
theorem scope_dismissed (moved : α → α) (o : Obj α) (hd : ∀ s : State α, o.dismiss.destroy s = s) (p q : Prog α)
    (st : List (Obj α)) (s : State α) (hp : Keeps o.name p) (hu : Undeclared o.name p) (hq : Keeps o.name q)
    (ht : (exec moved p st s).threw = false) :
    leave st.length (exec moved (p.seq (.dismiss o.name q)) (o :: st) s) = scope moved (p.seq q) st s := by
  obtain ⟨A', B', s', t, h1, h2, _, h4, h5⟩ := exec_insert moved o p [] st s hp
  simp only [List.nil_append] at h1 h2
  rw [h1] at ht
  dsimp only at ht
  subst ht
  have hA := h5 o.name hu (by simp)
  unfold scope
  rw [exec_seq, exec_seq, h1, h2]
  simp only [Bool.false_eq_true, if_false]
  show leave st.length (exec moved q (dismissNamed o.name (A' ++ o :: B')) s') = _
  rw [dismissNamed_at hA]
  obtain ⟨A2, B2, s2, t2, g1, g2, _, g4, _⟩ := exec_insert moved o.dismiss q A' B' s' (by rw [dismiss_name]; exact hq)
  rw [g1, g2, leave_insert o.dismiss (by omega), hd]

end Gtl.Scoped
