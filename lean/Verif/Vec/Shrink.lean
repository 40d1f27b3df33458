import Verif.Vec.View
/-
What `shrink_to_fit` does to the capacity.
-/
namespace Gtl.Vec
open M Gtl.Spec.Seq

variable {α β : Type}

/-- What is kept whatever the memory looks like, added to what is known. -/
theorem wp_pres {I : (Nat → Bool) → Vec → Prop} {K : Exc → Prop} {m : M α β} {s : St α} {Q : β → St α → Prop}
    {E : Exc → St α → Prop} (h : wp m s Q E) (hp : Pres I K m) (hs : I s.luck s.vec) :
    wp m s (fun b s' => Q b s' ∧ I s'.luck s'.vec) (fun x s' => E x s' ∧ K x) := by
  have := hp s hs
  unfold wp at h ⊢
  cases e : m s with
  | ok b s' => rw [e] at h this; exact ⟨h, this⟩
  | thrown x s' => rw [e] at h this; exact ⟨h, this.1⟩
  | ub => rw [e] at h; exact h

/-- The capacity becomes the number of elements, or something has thrown and the vector is as before. -/
def Shrunk (I : (Nat → Bool) → Vec → Prop) (s s' : St α) : Prop :=
  s'.vec.z = s.vec.e ∨ ¬ I s.luck s.vec ∧ s'.vec = s.vec

theorem shrinkToFit_vec {t : Traits α} {s : St α} {l : List α} {E : Exc → St α → Prop} (g : Good t s l) (hs : 0 < t.size) :
    wp (shrinkToFit t) s (fun _ s' => Shrunk calm s s') E := by
  by_cases hc : calm s.luck s.vec
  case neg =>
    unfold shrinkToFit
    rw [wp_bind, wp_self]
    have hsz := g.size
    have hlen := g.cap
    split
    · rename_i h
      refine wp_mono (reset_ok (E := E) g) ?_ (fun _ _ h => h)
      rintro _ s' ⟨h1, h2, h3⟩
      exact .inl (by rw [h3, h])
    · rename_i h
      have hbz := g.bytes
      have hb : s.vec.e * t.size < 2 ^ 64 := by
        have := Nat.mul_le_mul_right t.size (show s.vec.e ≤ s.vec.z by omega)
        omega
      simp only [capOf_eq hs hb]
      split
      · exact .inr ⟨hc, rfl⟩
      · rename_i h'
        rw [wp_bind, wp_caught, wp_bind]
        refine wp_alloc hs hb (fun s1 hbytes h1 h2 h3 h4 => ?_) (fun s1 x hx hr h1 => ?_)
        · have hf : Fresh s s1 s.vec.e := ⟨⟨h1, h2, h3⟩, fun q hq i => by rw [h4, if_neg hq]⟩
          have hraw : ∀ i, s1.mem s.next i = none := fun i => by rw [h4, if_pos rfl]
          rw [wp_pure]
          simp only
          rw [wp_bind, wp_caught, wp_bind]
          refine wp_relocate (g.relocates hf) (hf.room (by omega)) (fun _ i _ => hraw i)
            (fun s2 hu => ?_) (fun s2 q bs e1 e2 e3 e4 e5 e6 => ?_)
          · rw [wp_pure, if_pos rfl, g.size]
            refine retire g (Upd.alloc (by rw [g.size] at hf; exact hf.toAlloc) hu) rfl (by omega) (by rw [← g.size]; omega) ?_ ?_ ?_ ?_ ?_
            · intro r i hr hb; rw [hu.1]; exact relocated_other hf r i hr hb
            · intro hb q i hq hi; rw [hu.1]; exact relocated_old g hf hb q i hq hi
            · intro i hi; rw [hu.1, relocated_new g hf, Nat.zero_add, if_pos hi]
            · intro hb i h1 _; rw [hu.1, relocated_new g hf, if_neg (by omega), hraw]
            · intro s' e1 e2 e3
              exact .inl (by rw [e3, hsz])
          · rw [hf.vec] at e1
            have hqn := g.lt e1
            rw [wp_bind]
            refine wp_mono (relocate_abandon (B := True) rfl g (Upd.alloc hf.toAlloc e6) e1 e2 e3 e4 e5 (fun r i hr => ?_)
              (fun i _ => ?_)) ?_ (fun _ _ h => h.elim)
            · rw [e6.1]; exact blit_congr (hf.mem r hr i)
            · rw [e6.1]; unfold blit
              rw [if_neg (by omega), hraw]
            · rintro _ s3 ⟨_, f6⟩
              rw [wp_pure, if_neg (by simp)]
              exact .inr ⟨hc, f6⟩
        · rw [wp_pure]
          exact .inr ⟨hc, h1.2.2.2⟩
  case pos =>
    unfold shrinkToFit
    rw [wp_bind, wp_self]
    have hsz := g.size
    have hlen := g.cap
    split
    · rename_i h
      refine wp_mono (reset_ok (E := E) g) ?_ (fun _ _ h => h)
      rintro _ s' ⟨h1, h2, h3⟩
      exact .inl (by rw [h3, h])
    · rename_i h
      have hbz := g.bytes
      have hb63 : s.vec.e * t.size < 2 ^ 63 := by
        have := Nat.mul_le_mul_right t.size (show s.vec.e ≤ s.vec.z by omega)
        omega
      have hb : s.vec.e * t.size < 2 ^ 64 := by omega
      simp only [capOf_eq hs hb]
      split
      · exact .inl (by omega)
      · rename_i h'
        rw [wp_bind, wp_caught, wp_bind]
        have hal : wp (alloc t s.vec.e) s (fun p s1 => (p = s.next ∧ s1.next = s.next + 1 ∧ s1.vec = s.vec ∧
            (∀ q, s1.len q = if q = s.next then some s.vec.e else s.len q) ∧
            (∀ q i, s1.mem q i = if q = s.next then none else s.mem q i)) ∧ calm s1.luck s1.vec) (fun x _ => (x = .failed) ∧ x ≠ .failed) :=
          wp_pres (wp_alloc hs hb (fun s1 hbytes h1 h2 h3 h4 => ⟨rfl, h1, h2, h3, h4⟩)
            (fun s1 x hx hr h1 => by
              cases x with
              | failed => rfl
              | huge => exact absurd (hx rfl) (by omega)
              | range => exact absurd rfl hr)) (pres_alloc calm_stab) hc
        refine wp_mono hal ?_ (fun x _ h => absurd h.1 h.2)
        rintro _ s1 ⟨⟨rfl, h1, h2, h3, h4⟩, hc1⟩
        have hf : Fresh s s1 s.vec.e := ⟨⟨h1, h2, h3⟩, fun q hq i => by rw [h4, if_neg hq]⟩
        have hraw : ∀ i, s1.mem s.next i = none := fun i => by rw [h4, if_pos rfl]
        rw [wp_pure]
        simp only
        rw [wp_bind, wp_caught, wp_bind]
        have hre : wp (relocate t (some s.next)) s1 (fun _ s2 => Upd s1 s2 (relocated t s1 s.next l) ∧ calm s2.luck s2.vec)
            (fun x _ => (x = .failed) ∧ x ≠ .failed) :=
          wp_pres (wp_relocate (g.relocates hf) (hf.room (by omega)) (fun _ i _ => hraw i) (fun s2 hu => hu)
            (fun s2 q bs e1 e2 e3 e4 e5 e6 => rfl)) (pres_relocate calm_stab) hc1
        refine wp_mono hre ?_ (fun x _ h => absurd h.1 h.2)
        rintro _ s2 ⟨hu, _⟩
        rw [wp_pure, if_pos rfl, g.size]
        refine retire g (Upd.alloc (by rw [g.size] at hf; exact hf.toAlloc) hu) rfl (by omega) (by rw [← g.size]; omega) ?_ ?_ ?_ ?_ ?_
        · intro r i hr hb; rw [hu.1]; exact relocated_other hf r i hr hb
        · intro hb q i hq hi; rw [hu.1]; exact relocated_old g hf hb q i hq hi
        · intro i hi; rw [hu.1, relocated_new g hf, Nat.zero_add, if_pos hi]
        · intro hb i h1 _; rw [hu.1, relocated_new g hf, if_neg (by omega), hraw]
        · intro s' e1 e2 e3
          exact .inl (by rw [e3, hsz])

end Gtl.Vec
