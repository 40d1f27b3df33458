import Verif.Vec.Ops4
/-
What `do_real_insert` and the operations that use it do.
-/
namespace Gtl.Vec
open M
variable {α β γ : Type}

/-- What an operation that throws leaves, when it may have changed the contents of block `X`. -/
def BadX (X : Option Nat) (t : Traits α) (s : St α) (B : Prop) (P : List α → Prop) (x : Exc) (s' : St α) : Prop :=
  (x = .huge → B) ∧ x ≠ .range ∧ RelX X s s' ∧ ∃ l', P l' ∧ Good t s' l'

theorem BadX.of {X : Option Nat} {t : Traits α} {s s' : St α} {B : Prop} {P : List α → Prop} {l' : List α} (r : RelX X s s')
    (g : Good t s' l') (h : P l') : BadX X t s B P .failed s' :=
  ⟨fun e => (by cases e), by simp, r, l', h, g⟩

/-- `wrap_frame` around the new elements `as` in a new block. -/
theorem wrapFrame_ok {t : Traits α} {s s2 : St α} {l as : List α} {pos cap : Nat} {X : Option Nat}
    {Q : Unit → St α → Prop} {E : Exc → St α → Prop}
    (g : Good t s l) (ha : Alloc s s2 cap) (hpos : pos ≤ l.length) (hn : as.length ≠ 0) (hcap : l.length + as.length ≤ cap)
    (hX : ∀ x, X = some x → s.vec.b ≠ some x)
    (hoth : ∀ r i, r ≠ s.next → Alike X r (s.mem r i) (s2.mem r i))
    (hnew : ∀ (i : Nat), pos ≤ i → i < pos + as.length → s2.mem s.next i = as[i - pos]?)
    (hraw : t.bits = false → ∀ i, i < pos ∨ pos + as.length ≤ i → i < cap → s2.mem s.next i = none)
    (hQ : ∀ s5, Alloc s s5 cap → Has s5 s.next 0 (l.take pos ++ as ++ l.drop pos) →
      (t.bits = false → ∀ i, l.length + as.length ≤ i → i < cap → s5.mem s.next i = none) →
      (t.bits = false → ∀ q i, s.vec.b = some q → i < s.vec.z → s5.mem q i = none) →
      (∀ r i, r ≠ s.next → s.vec.b ≠ some r → s5.mem r i = s2.mem r i) → Q () s5)
    (hE : ∀ s5 l', Alloc s s5 cap → Semi t l l' → t.bits = false →
      (∀ q, s.vec.b = some q → Has s5 q 0 l' ∧ ∀ i, l.length ≤ i → s5.mem q i = s.mem q i) →
      (∀ i, s5.mem s.next i = s2.mem s.next i) →
      (∀ r i, r ≠ s.next → s.vec.b ≠ some r → s5.mem r i = s2.mem r i) → E .failed s5) :
    wp (wrapFrame t (some s.next) pos as.length) s2 Q E := by
  unfold wrapFrame
  rw [wp_bind, wp_self, ha.vec, g.size, if_pos ⟨hpos, hn⟩]
  have hfin : ∀ s5 : St α, (∀ i, i < pos → s5.mem s.next i = l[i]?) →
      (∀ i, pos ≤ i → i < pos + as.length → s5.mem s.next i = as[i - pos]?) →
      (∀ i, pos + as.length ≤ i → i < l.length + as.length → s5.mem s.next i = l[i - as.length]?) →
      Has s5 s.next 0 (l.take pos ++ as ++ l.drop pos) := by
    intro s5 h1 h2 h3 i hi
    simp only [List.length_append, List.length_take, List.length_drop] at hi
    rw [Nat.zero_add]
    by_cases c1 : i < pos
    · rw [h1 i c1, List.append_assoc, List.getElem?_append_left (by simp; omega), getElem?_take_lt c1]
    · by_cases c2 : i < pos + as.length
      · rw [h2 i (by omega) c2, List.getElem?_append_left (by simp; omega), List.getElem?_append_right (by simp; omega)]
        congr 1; simp; omega
      · rw [h3 i (by omega) (by omega), List.getElem?_append_right (by simp; omega), List.getElem?_drop]
        congr 1; simp; omega
  rcases g.mine with ⟨h1, h2⟩ | ⟨q, h⟩
  · subst h2
    have : pos = 0 := by simpa using hpos
    subst this
    simp only [List.length_nil, Nat.sub_zero]
    rw [wp_bind]
    refine wp_relocateMove_zero ?_
    rw [wp_bind, wp_guarded]
    refine wp_relocateMove_zero ?_
    rw [wp_bind]
    refine wp_relocateDone_zero (wp_relocateDone_zero (hQ s2 ha (hfin s2 (fun i hi => by omega) hnew (fun i h3 h4 => ?_))
      (fun hb i h3 h4 => hraw hb i (.inr (by simpa using h3)) h4) (fun _ q i hq => by rw [h1] at hq; cases hq) (fun _ _ _ _ => rfl)))
    simp at h3 h4; omega
  · have hq := h.lt
    have hXq : X ≠ some q := fun e => hX q e h.b
    rw [h.b]
    have hl2 : s2.len q = some s.vec.z := by rw [ha.len, if_neg (by omega)]; exact h.len
    have hln : s2.len s.next = some cap := by rw [ha.len, if_pos rfl]
    have hm2 : ∀ i, s2.mem q i = s.mem q i := fun i => (hoth q i (by omega)).eq hXq
    have lt : (l.take pos).length = pos := by simp; omega
    have ld : (l.drop pos).length = l.length - pos := by simp
    have hz := h.z
    have hh1 : Has s2 q 0 (l.take pos) := fun i hi => by
      rw [lt] at hi
      rw [Nat.zero_add, hm2, h.get (by omega), getElem?_take_lt hi]
    rw [wp_bind]
    have step1 := wp_relocateMove (t := t) (s := s2) (p := s.next) (d := 0) (q := q) (j := 0) (as := l.take pos)
      (Q := fun _ s3 => wp (do
        guarded (relocateMove t (some s.next) (pos + as.length) (some q) pos (l.length - pos))
          (relocateUndo t (some s.next) 0 (some q) 0 pos)
        relocateDone t (some q) 0 pos
        relocateDone t (some q) pos (l.length - pos)) s3 Q E) (E := E) hh1 ⟨_, hl2, by omega⟩ ⟨_, hln, by omega⟩
      (fun hb i h1 h2 => hraw hb i (.inl (by omega)) (by omega)) (fun e => by omega) (fun s3 bs1 hl1 hb1 hn1 u3 => ?_)
      (fun s3 bs1 hb hn hl1 hb1 u3 => ?_)
    · rw [lt] at step1; exact step1
    · have a3 : Alloc s s3 cap := u3.alloc ha
      have hl3 : s3.len q = some s.vec.z := by rw [u3.2.1]; exact hl2
      have hln3 : s3.len s.next = some cap := by rw [u3.2.1]; exact hln
      have p1 : ∀ i, i < pos → s3.mem q i = bs1[i]? := fun i hi => by
        rw [u3.1, blit_out (by omega), blit_in (by omega) (by omega)]; rfl
      have p2 : ∀ i, pos ≤ i → s3.mem q i = s.mem q i := fun i hi => by
        rw [u3.1, blit_out (by omega), blit_out (by omega), hm2]
      have p3 : ∀ i, i < pos → s3.mem s.next i = l[i]? := fun i hi => by
        rw [u3.1, blit_in (by omega) (by omega), Nat.sub_zero, getElem?_take_lt hi]
      have p4 : ∀ i, pos ≤ i → s3.mem s.next i = s2.mem s.next i := fun i hi => by
        rw [u3.1, blit_out (by omega), blit_out (by omega)]
      have p5 : ∀ r i, r ≠ s.next → r ≠ q → s3.mem r i = s2.mem r i := fun r i h1 h2 => by
        rw [u3.1, blit_out (by omega), blit_out (by omega)]
      clear u3
      have hh2 : Has s3 q pos (l.drop pos) := fun i hi => by
        rw [p2 _ (by omega), h.get (by omega), List.getElem?_drop]
      rw [wp_bind, wp_guarded]
      rw [← ld]
      refine wp_relocateMove hh2 ⟨_, hl3, by omega⟩ ⟨_, hln3, by omega⟩
        (fun hb i h1 h2 => by rw [p4 i (by omega)]; exact hraw hb i (.inr (by omega)) (by omega)) (fun e => by omega)
        (fun s4 bs2 hl2' _ _ u4 => ?_) (fun s4 bs2 hb hn hl2' hb2 u4 => ?_)
      · have a4 : Alloc s s4 cap := u4.alloc a3
        rw [wp_bind]
        refine wp_relocateDone ⟨_, by rw [u4.2.1]; exact hl3, by omega⟩ (fun _ i h1 h2 => ?_) ?_
        · rw [u4.1, blit_out (by omega), blit_out (by omega), p1 i (by omega)]; exact isSome_get (by omega)
        refine wp_relocateDone ⟨_, by show s4.len q = _; rw [u4.2.1]; exact hl3, by omega⟩ (fun _ i h1 h2 => ?_) ?_
        · dsimp only
          rw [gone_out (by omega), u4.1, blit_out (by omega), blit_in (by omega) (by omega)]; exact isSome_get (by omega)
        refine hQ _ ⟨a4.next, a4.vec, a4.len⟩ (hfin _ (fun i hi => ?_) (fun i h1 h2 => ?_) (fun i h1 h2 => ?_)) (fun hb i h1 h2 => ?_)
          (fun hb q' i h1 h2 => ?_) (fun r i h1 h2 => ?_)
        · dsimp only
          rw [gone_out (by omega), gone_out (by omega), u4.1, blit_out (by omega), blit_out (by omega), p3 i hi]
        · dsimp only
          rw [gone_out (by omega), gone_out (by omega), u4.1, blit_out (by omega), blit_out (by omega), p4 i h1, hnew i h1 h2]
        · dsimp only
          rw [gone_out (by omega), gone_out (by omega), u4.1, blit_in (by omega) (by omega), List.getElem?_drop]
          congr 1; omega
        · dsimp only
          rw [gone_out (by omega), gone_out (by omega), u4.1, blit_out (by omega), blit_out (by omega), p4 i (by omega)]
          exact hraw hb i (.inr (by omega)) h2
        · rw [h.b] at h1
          injection h1 with h1
          subst h1
          dsimp only
          by_cases c1 : pos ≤ i ∧ i < l.length
          · rw [gone_in hb (by omega) (by omega)]
          · rw [gone_out (by omega)]
            by_cases c2 : i < pos
            · rw [gone_in hb (by omega) (by omega)]
            · rw [gone_out (by omega), u4.1, blit_out (by omega), blit_out (by omega), p2 i (by omega)]
              exact h.raw hb i (by omega) h2
        · have : r ≠ q := fun e => h2 (by rw [h.b, e])
          dsimp only
          rw [gone_out (by omega), gone_out (by omega), u4.1, blit_out (by omega), blit_out (by omega), p5 r i h1 this]
      · have a4 : Alloc s s4 cap := u4.alloc a3
        unfold relocateUndo
        rw [if_neg (by simp [hb]), if_neg (by simp [hn]), Nat.zero_add]
        refine wp_destroyRange (by omega) ⟨_, by rw [u4.2.1]; exact hln3, by omega⟩ (fun _ i h1 h2 => ?_) ?_
        · rw [u4.1, blit_out (by omega), p3 i (by omega)]; exact isSome_get (by omega)
        refine hE _ (bs1 ++ bs2) ⟨a4.next, a4.vec, a4.len⟩ ⟨by simp [hl1, hl2']; omega, fun hsafe => ?_⟩ hb (fun q' h1 => ?_) (fun i => ?_)
          (fun r i h1 h2 => ?_)
        · have hnc : t.nocopy = false := by rcases hsafe with h | h | h <;> simp_all
          rw [hn1 hn hnc, hb2 hnc, List.take_append_drop]
        · rw [h.b] at h1
          injection h1 with h1
          subst h1
          constructor
          · intro i hi
            simp only [List.length_append] at hi
            rw [Nat.zero_add]
            dsimp only
            rw [gone_out (by omega), u4.1]
            by_cases c1 : i < pos
            · rw [blit_out (by omega), p1 i c1, List.getElem?_append_left (by omega)]
            · rw [blit_in (by omega) (by omega), List.getElem?_append_right (by omega)]; congr 1; omega
          · intro i hi
            dsimp only
            rw [gone_out (by omega), u4.1, blit_out (by omega), p2 i (by omega)]
        · dsimp only
          by_cases c1 : i < pos
          · rw [gone_in hb (by omega) (by omega), hraw hb i (.inl c1) (by omega)]
          · rw [gone_out (by omega), u4.1, blit_out (by omega), p4 i (by omega)]
        · have : r ≠ q := fun e => h2 (by rw [h.b, e])
          dsimp only
          rw [gone_out (by omega), u4.1, blit_out (by omega), p5 r i h1 this]
    · refine hE s3 (bs1 ++ l.drop pos) (u3.alloc ha) ⟨by simp [hl1]; omega, fun hsafe => ?_⟩ hb (fun q' h1 => ?_) (fun i => ?_) (fun r i h1 h2 => ?_)
      · have hnc : t.nocopy = false := by rcases hsafe with h | h | h <;> simp_all
        rw [hb1 hnc, List.take_append_drop]
      · rw [h.b] at h1
        injection h1 with h1
        subst h1
        constructor
        · intro i hi
          simp only [List.length_append] at hi
          rw [Nat.zero_add, u3.1]
          by_cases c1 : i < pos
          · rw [blit_in (by omega) (by omega), List.getElem?_append_left (by omega)]; rfl
          · rw [blit_out (by omega), hm2, h.get (by omega), List.getElem?_append_right (by omega), List.getElem?_drop]
            congr 1; omega
        · intro i hi
          rw [u3.1, blit_out (by omega), hm2]
      · rw [u3.1, blit_out (by omega)]
      · have : r ≠ q := fun e => h2 (by rw [h.b, e])
        rw [u3.1, blit_out (by omega)]

end Gtl.Vec
