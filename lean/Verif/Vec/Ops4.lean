import Verif.Vec.Ops3
/-
What the operations that insert do.
-/
namespace Gtl.Vec
open M
variable {α β γ : Type}

/-! ### The window -/

theorem wp_moveAssign {t : Traits α} {s : St α} {q i j : Nat} {a old : α}
    {Q : Unit → St α → Prop} {E : Exc → St α → Prop}
    (hi : Room s q (i + 1)) (hj : Room s q (j + 1)) (ha : s.mem q j = some a) (ho : s.mem q i = some old)
    (hQ : ∀ s', Upd s s' (update (update s.mem q j (some (t.husk a))) q i (some a)) → Q () s')
    (hE : ∀ s', Upd s s' (update (update s.mem q i (some (t.husk old))) q j (some (t.husk a))) → E .failed s') :
    wp (moveAssign t (some q) i (some q) j) s Q E := by
  unfold moveAssign
  rw [wp_bind]
  refine wp_get hj ha ?_
  rw [wp_bind]
  refine wp_get hi ho ?_
  rw [wp_bind, wp_guarded]
  refine wp_may (fun s1 h1 => ?_) (fun s1 _ h1 => ?_)
  · rw [wp_bind]
    refine setCell_upd (hj.congr h1.2.1) fun s2 h2 => ?_
    refine setCell_upd (hi.congr (h2.2.1.trans h1.2.1)) fun s3 h3 => hQ _ ?_
    rw [h2.1, h1.1] at h3
    exact h1.trans (h2.trans h3)
  · rw [wp_bind]
    refine setCell_upd (hi.congr h1.2.1) fun s2 h2 => ?_
    refine setCell_upd (hj.congr (h2.2.1.trans h1.2.1)) fun s3 h3 => hE _ ?_
    rw [h2.1, h1.1] at h3
    exact h1.trans (h2.trans h3)

/-- Objects move up, onto objects. -/
theorem wp_moveUp {t : Traits α} {q : Nat} (k : Nat) :
    ∀ {s : St α} {dst src : Nat} {Q : Unit → St α → Prop} {E : Exc → St α → Prop}, src < dst → k ≤ src → Room s q dst →
      (∀ i, src - k ≤ i → i < dst → (s.mem q i).isSome) →
      (∀ s' m, Upd s s' m → (∀ r i, r ≠ q → m r i = s.mem r i) →
        (∀ i, i < src - k ∨ dst ≤ i → m q i = s.mem q i) →
        (∀ i, dst - k ≤ i → i < dst → m q i = s.mem q (i - (dst - src))) →
        (∀ i, src - k ≤ i → i < dst → (m q i).isSome) → Q () s') →
      (∀ s' m, Upd s s' m → (∀ r i, r ≠ q → m r i = s.mem r i) →
        (∀ i, i < src - k ∨ dst ≤ i → m q i = s.mem q i) →
        (∀ i, src - k ≤ i → i < dst → (m q i).isSome) → E .failed s') →
      wp (moveUp t (some q) dst src k) s Q E := by
  induction k with
  | zero =>
    intro s dst src Q E h1 h2 hr hs hQ hE
    exact hQ s s.mem Upd.rfl' (fun _ _ _ => rfl) (fun _ _ => rfl) (fun i _ _ => by omega) hs
  | succ k ih =>
    intro s dst src Q E h1 h2 hr hs hQ hE
    unfold moveUp
    rw [wp_bind]
    have hsome := hs (src - 1) (by omega) (by omega)
    have hsome' := hs (dst - 1) (by omega) (by omega)
    obtain ⟨a, ha⟩ := Option.isSome_iff_exists.mp hsome
    obtain ⟨old, ho⟩ := Option.isSome_iff_exists.mp hsome'
    refine wp_moveAssign (hr.mono (by omega)) (hr.mono (by omega)) ha ho (fun s1 u1 => ?_) (fun s1 u1 => ?_)
    · have m1 : ∀ r i, s1.mem r i = if r = q ∧ i = dst - 1 then some a else if r = q ∧ i = src - 1 then some (t.husk a) else s.mem r i := by
        intro r i; rw [u1.1]; rfl
      refine ih (by omega) (by omega) (Room.congr (hr.mono (by omega)) u1.2.1) (fun i h3 h4 => ?_) (fun s2 m u2 e1 e2 e3 e4 => ?_)
        (fun s2 m u2 e1 e2 e4 => ?_)
      · rw [m1]
        have := hs i (by omega) (by omega)
        split
        · rfl
        · split
          · rfl
          · exact this
      · refine hQ s2 m (u1.trans u2) ?_ ?_ ?_ ?_
        · intro r i hr; rw [e1 r i hr, m1, if_neg (by omega), if_neg (by omega)]
        · intro i hi; rw [e2 i (by omega), m1, if_neg (by omega), if_neg (by omega)]
        · intro i h3 h4
          by_cases hc : i = dst - 1
          · rw [hc, e2 _ (by omega), m1, if_pos ⟨rfl, rfl⟩, ← ha]; congr 1; omega
          · rw [e3 i (by omega) (by omega), m1, if_neg (by omega), if_neg (by omega)]; congr 1; omega
        · intro i h3 h4
          by_cases hc : i = dst - 1
          · rw [hc, e2 _ (by omega), m1, if_pos ⟨rfl, rfl⟩]; rfl
          · exact e4 i (by omega) (by omega)
      · refine hE s2 m (u1.trans u2) ?_ ?_ ?_
        · intro r i hr; rw [e1 r i hr, m1, if_neg (by omega), if_neg (by omega)]
        · intro i hi; rw [e2 i (by omega), m1, if_neg (by omega), if_neg (by omega)]
        · intro i h3 h4
          by_cases hc : i = dst - 1
          · rw [hc, e2 _ (by omega), m1, if_pos ⟨rfl, rfl⟩]; rfl
          · exact e4 i (by omega) (by omega)
    · refine hE s1 _ u1 ?_ ?_ ?_
      · intro r i hr; unfold update; rw [if_neg (by omega), if_neg (by omega)]
      · intro i hi; unfold update; rw [if_neg (by omega), if_neg (by omega)]
      · intro i h3 h4
        have := hs i (by omega) (by omega)
        unfold update
        split
        · rfl
        · split
          · rfl
          · exact this

/-- A gap of `n` cells before the element `pos`, and all elements still there. -/
structure Win (t : Traits α) (s s' : St α) (l : List α) (pos n q : Nat) : Prop where
  len : s'.len = s.len
  next : s'.next = s.next
  vec : s'.vec = ⟨some q, l.length + n, s.vec.z⟩
  other : ∀ r i, r ≠ q → s'.mem r i = s.mem r i
  lo : ∀ (i : Nat), i < pos → s'.mem q i = l[i]?
  hi : ∀ (i : Nat), pos + n ≤ i → i < l.length + n → s'.mem q i = l[i - n]?
  gap : t.bits = false → ∀ i, pos ≤ i → i < pos + n → s'.mem q i = none
  raw : t.bits = false → ∀ i, l.length + n ≤ i → i < s.vec.z → s'.mem q i = none

theorem exists_list {f : Nat → Option α} (n : Nat) (h : ∀ i, i < n → (f i).isSome) :
    ∃ l : List α, l.length = n ∧ ∀ i, i < n → f i = l[i]? := by
  induction n with
  | zero => exact ⟨[], rfl, fun i hi => by omega⟩
  | succ n ih =>
    obtain ⟨l, h1, h2⟩ := ih fun i hi => h i (by omega)
    obtain ⟨a, ha⟩ := Option.isSome_iff_exists.mp (h n (by omega))
    refine ⟨l ++ [a], by simp [h1], fun i hi => ?_⟩
    by_cases hc : i = n
    · subst hc; rw [ha, List.getElem?_append_right (by omega), h1]; simp
    · rw [h2 i (by omega), List.getElem?_append_left (by omega)]

theorem blit_out {m : Nat → Nat → Option α} {p d r i : Nat} {as : List α}
    (h : ¬ (r = p ∧ d ≤ i ∧ i < d + as.length)) : blit m p d as r i = m r i := if_neg h

theorem blit_in {m : Nat → Nat → Option α} {p d i : Nat} {as : List α} (h1 : d ≤ i) (h2 : i < d + as.length) :
    blit m p d as p i = as[i - d]? := if_pos ⟨rfl, h1, h2⟩

theorem clr_out {m : Nat → Nat → Option α} {p d n r i : Nat} (h : ¬ (r = p ∧ d ≤ i ∧ i < d + n)) :
    clr m p d n r i = m r i := if_neg h

theorem clr_in {m : Nat → Nat → Option α} {p d n i : Nat} (h1 : d ≤ i) (h2 : i < d + n) :
    clr m p d n p i = none := if_pos ⟨rfl, h1, h2⟩

theorem gone_out {t : Traits α} {m : Nat → Nat → Option α} {p d n r i : Nat} (h : ¬ (r = p ∧ d ≤ i ∧ i < d + n)) :
    gone t m p d n r i = m r i := by
  unfold gone; split
  · rfl
  · exact clr_out h

theorem gone_in {t : Traits α} {m : Nat → Nat → Option α} {p d n i : Nat} (hb : t.bits = false) (h1 : d ≤ i)
    (h2 : i < d + n) : gone t m p d n p i = none := by
  unfold gone; rw [hb]; exact clr_in h1 h2

theorem isSome_get {l : List α} {i : Nat} (h : i < l.length) : (l[i]?).isSome := by
  rw [List.getElem?_eq_getElem h]; rfl

/-- The values of the last elements have changed. -/
theorem Mine.tail {t : Traits α} {s s1 : St α} {l bs : List α} {q k : Nat} (h : Mine t s l q) (g : Good t s l)
    (hk : k ≤ l.length) (hl : bs.length = l.length - k) (u : Upd s s1 (blit s.mem q k bs)) :
    Now t s s1 (l.take k ++ bs) := by
  have hlen : (l.take k ++ bs).length = l.length := by simp [hl]; omega
  refine h.now g u.2.1 u.2.2.1 ?_ ?_ ?_ ?_ ?_
  · rw [u.2.2.2, hlen, ← h.e]
  · rw [hlen]; exact h.z
  · intro r i hr; rw [u.1, blit_out (by omega)]
  · intro i hi
    rw [hlen] at hi
    rw [u.1, Nat.zero_add]
    by_cases hc : i < k
    · rw [List.getElem?_append_left (by simp; omega), getElem?_take_lt hc, ← h.get hi, blit_out (by omega)]
    · rw [List.getElem?_append_right (by simp; omega), blit_in (by omega) (by omega)]
      congr 1; simp; omega
  · intro hb i h2 h3
    rw [hlen] at h2
    rw [u.1, blit_out (by omega)]; exact h.raw hb i h2 h3

/-- The elements behind the gap fit into it. -/
theorem window_far {t : Traits α} {s : St α} {l : List α} {pos n q : Nat} {Q : Unit → St α → Prop}
    {E : Exc → St α → Prop} (g : Good t s l) (h : Mine t s l q) (hpos : pos < l.length)
    (hz : l.length + n ≤ s.vec.z) (hQ : ∀ s', Win t s s' l pos n q → Q () s')
    (hE : ∀ s' l', Now t s s' l' → l'.take pos = l.take pos → E .failed s') (h1 : l.length - pos ≤ n) :
    wp (do relocateMove t (some q) (pos + n) (some q) pos (l.length - pos)
           relocateDone t (some q) pos (l.length - pos)
           setVec ⟨some q, l.length + n, s.vec.z⟩) s Q E := by
  have hd : (l.drop pos).length = l.length - pos := by simp
  have hh : Has s q pos (l.drop pos) := fun i hi => by
    rw [List.getElem?_drop]; exact h.get (by omega)
  have hroom : ∀ i, i ≤ s.vec.z → Room s q i := fun i hi => ⟨_, h.len, hi⟩
  rw [wp_bind, ← hd]
  refine wp_relocateMove hh (hroom _ (by omega)) (hroom _ (by omega)) (fun hb i h2 h3 => h.raw hb i (by omega) (by omega))
    (fun _ => by omega) (fun s1 bs hl _ _ u1 => ?_) (fun s1 bs _ _ hl _ u1 => ?_)
  · rw [wp_bind]
    refine wp_relocateDone (Room.congr (hroom _ (by omega)) u1.2.1) (fun _ i h2 h3 => ?_) ?_
    · rw [u1.1, blit_out (by omega), blit_in (by omega) (by omega)]
      exact isSome_get (by omega)
    · rw [wp_setVec]
      refine hQ _ ⟨u1.2.1, u1.2.2.1, rfl, fun r i hr => ?_, fun i hi => ?_, fun i h2 h3 => ?_, fun hb i h2 h3 => ?_, fun hb i h2 h3 => ?_⟩
      · dsimp only; rw [gone_out (by omega), u1.1, blit_out (by omega), blit_out (by omega)]
      · dsimp only; rw [gone_out (by omega), u1.1, blit_out (by omega), blit_out (by omega)]; exact h.get (by omega)
      · dsimp only; rw [gone_out (by omega), u1.1, blit_in (by omega) (by omega), List.getElem?_drop]; congr 1; omega
      · dsimp only
        by_cases hc : i < l.length
        · rw [gone_in hb (by omega) (by omega)]
        · rw [gone_out (by omega), u1.1, blit_out (by omega), blit_out (by omega)]; exact h.raw hb i (by omega) (by omega)
      · dsimp only
        rw [gone_out (by omega), u1.1, blit_out (by omega), blit_out (by omega)]; exact h.raw hb i (by omega) (by omega)
  · exact hE s1 _ (h.tail g (by omega) (by omega) u1) (List.take_left' (by simp; omega))

/-- The elements behind the gap do not fit into it. -/
theorem window_near {t : Traits α} {s : St α} {l : List α} {pos n q : Nat} {Q : Unit → St α → Prop}
    {E : Exc → St α → Prop} (g : Good t s l) (h : Mine t s l q) (hpos : pos < l.length) (hn : 0 < n)
    (hz : l.length + n ≤ s.vec.z) (hQ : ∀ s', Win t s s' l pos n q → Q () s')
    (hE : ∀ s' l', Now t s s' l' → l'.take pos = l.take pos → E .failed s') (h1 : n < l.length - pos) (hb : t.bits = false) :
    wp (do uninitMove t (some q) l.length (some q) (l.length - n) n
           guarded (moveUp t (some q) l.length (l.length - n) (l.length - n - pos))
             (do destroyRange t (some q) (l.length - n) (l.length + n)
                 setVec ⟨some q, l.length - n, s.vec.z⟩)
           setVec ⟨some q, l.length + n, s.vec.z⟩
           destroyRange t (some q) pos (pos + n)) s Q E := by
  have hroom : ∀ i, i ≤ s.vec.z → Room s q i := fun i hi => ⟨_, h.len, hi⟩
  have hd : (l.drop (l.length - n)).length = n := by simp; omega
  have hh : Has s q (l.length - n) (l.drop (l.length - n)) := fun i hi => by
    rw [List.getElem?_drop]; exact h.get (by omega)
  rw [wp_bind]
  have := wp_uninitMove (t := t) (s := s) (p := q) (d := l.length) (q := q) (j := l.length - n) (as := l.drop (l.length - n))
    (Q := fun _ s1 => wp (do
        guarded (moveUp t (some q) l.length (l.length - n) (l.length - n - pos))
          (do destroyRange t (some q) (l.length - n) (l.length + n)
              setVec ⟨some q, l.length - n, s.vec.z⟩)
        setVec ⟨some q, l.length + n, s.vec.z⟩
        destroyRange t (some q) pos (pos + n)) s1 Q E) (E := E) hh (hroom _ (by omega)) (hroom _ (by omega))
    (fun hb i h2 h3 => h.raw hb i (by omega) (by omega)) (fun _ => by omega) (fun s1 bs hl u1 => ?_)
    (fun s1 bs _ _ hl u1 => hE s1 _ (h.tail g (by omega) (by omega) u1) ?_)
  · rw [hd] at this; exact this
  · rw [wp_bind, wp_guarded]
    have hlo : ∀ i, i < l.length - n → s1.mem q i = l[i]? := fun i hi => by
      rw [u1.1, blit_out (by omega), blit_out (by omega)]; exact h.get (by omega)
    have hmid : ∀ i, l.length - n ≤ i → i < l.length → (s1.mem q i).isSome := fun i h2 h3 => by
      rw [u1.1, blit_out (by omega), blit_in (by omega) (by omega)]; exact isSome_get (by omega)
    have hhi : ∀ i, l.length ≤ i → i < l.length + n → s1.mem q i = l[i - n]? := fun i h2 h3 => by
      rw [u1.1, blit_in (by omega) (by omega), List.getElem?_drop]; congr 1; omega
    have hoth : ∀ r i, r ≠ q → s1.mem r i = s.mem r i := fun r i hr => by
      rw [u1.1, blit_out (by omega), blit_out (by omega)]
    have hraw : ∀ i, l.length + n ≤ i → i < s.vec.z → s1.mem q i = none := fun i h2 h3 => by
      rw [u1.1, blit_out (by omega), blit_out (by omega)]; exact h.raw hb i (by omega) h3
    have s1some : ∀ i, i < l.length + n → (s1.mem q i).isSome := fun i hi => by
      by_cases h2 : i < l.length - n
      · rw [hlo i h2]; exact isSome_get (by omega)
      · by_cases h3 : i < l.length
        · exact hmid i (by omega) h3
        · rw [hhi i (by omega) hi]; exact isSome_get (by omega)
    have hlen1 := u1.2.1
    have hnext1 := u1.2.2.1
    clear u1 hh
    have k1 : l.length - n - (l.length - n - pos) = pos := by omega
    have k2 : l.length - (l.length - n - pos) = pos + n := by omega
    have k3 : l.length - (l.length - n) = n := by omega
    refine wp_moveUp _ (by omega) (by omega) (Room.congr (hroom _ (by omega)) hlen1)
      (fun i _ hi => s1some i (by omega)) (fun s2 m u2 e1 e2 e3 e4 => ?_) (fun s2 m u2 e1 e2 e4 => ?_)
    · rw [k1] at e2 e4
      rw [k2, k3] at e3
      rw [wp_bind, wp_setVec]
      have hlen2 : s2.len = s.len := u2.2.1.trans hlen1
      rw [← u2.1] at e1 e2 e3 e4
      refine wp_destroyRange (by omega) ⟨_, by show s2.len q = _; rw [hlen2]; exact h.len, by omega⟩ (fun _ i h3 h4 => e4 i h3 (by omega)) (hQ _ ?_)
      refine ⟨hlen2, u2.2.2.1.trans hnext1, rfl, fun r i hr => ?_, fun i hi => ?_, fun i h2 h3 => ?_, fun hb i h2 h3 => ?_, fun hb i h2 h3 => ?_⟩
      · dsimp only; rw [gone_out (by omega), e1 r i hr, hoth r i hr]
      · dsimp only; rw [gone_out (by omega), e2 i (by omega), hlo i (by omega)]
      · dsimp only; rw [gone_out (by omega)]
        by_cases hc : i < l.length
        · rw [e3 i (by omega) (by omega), hlo _ (by omega)]
        · rw [e2 i (by omega), hhi i (by omega) h3]
      · dsimp only; rw [gone_in hb (by omega) (by omega)]
      · dsimp only; rw [gone_out (by omega), e2 i (by omega), hraw i h2 h3]
    · rw [k1] at e2 e4
      have hlen2 : s2.len = s.len := u2.2.1.trans hlen1
      rw [← u2.1] at e1 e2 e4
      have s2some : ∀ i, i < l.length + n → (s2.mem q i).isSome := fun i hi => by
        by_cases hc : pos ≤ i ∧ i < l.length
        · exact e4 i hc.1 hc.2
        · rw [e2 i (by omega)]; exact s1some i hi
      rw [wp_bind]
      refine wp_destroyRange (by omega) ⟨_, by rw [hlen2]; exact h.len, by omega⟩ (fun _ i h3 h4 => s2some i (by omega)) ?_
      rw [wp_setVec]
      obtain ⟨l', f1, f2⟩ := exists_list (f := s2.mem q) (l.length - n) (fun i hi => s2some i (by omega))
      refine hE _ l' (h.now g hlen2 (u2.2.2.1.trans hnext1) ?_ (by omega) ?_ ?_ ?_) ?_
      · dsimp only; rw [f1, ← h.b]
      · intro r i hr
        dsimp only; rw [gone_out (by omega), e1 r i hr, hoth r i hr]
      · intro i hi
        dsimp only; rw [gone_out (by omega), Nat.zero_add]; exact f2 i (by omega)
      · intro hb i h2 h3
        dsimp only
        by_cases hc : i < l.length + n
        · rw [gone_in hb (by omega) (by omega)]
        · rw [gone_out (by omega), e2 i (by omega), hraw i (by omega) h3]
      · apply List.ext_getElem?
        intro i
        by_cases hc : i < pos
        · rw [getElem?_take_lt hc, getElem?_take_lt hc, ← f2 i (by omega), e2 i (by omega), hlo i (by omega)]
        · rw [List.getElem?_eq_none (by simp; omega), List.getElem?_eq_none (by simp; omega)]
  · rw [List.take_append_of_le_length (by simp; omega), List.take_take]
    congr 1; omega

theorem makeWindow_ok {t : Traits α} {s : St α} {l : List α} {pos n q : Nat} {Q : Unit → St α → Prop}
    {E : Exc → St α → Prop} (g : Good t s l) (h : Mine t s l q) (hpos : pos < l.length) (hn : 0 < n)
    (hz : l.length + n ≤ s.vec.z) (hQ : ∀ s', Win t s s' l pos n q → Q () s')
    (hE : ∀ s' l', Now t s s' l' → l'.take pos = l.take pos → E .failed s') : wp (makeWindow t pos n) s Q E := by
  unfold makeWindow
  rw [wp_bind, wp_self]
  dsimp only
  rw [h.b, h.e]
  by_cases h1 : l.length - pos ≤ n
  · rw [if_pos h1]
    exact window_far g h hpos hz hQ hE h1
  rw [if_neg h1]
  by_cases hb : t.bits = true
  · have hd : (l.drop pos).length = l.length - pos := by simp
    have hh : Has s q pos (l.drop pos) := fun i hi => by
      rw [List.getElem?_drop]; exact h.get (by omega)
    rw [if_pos hb, wp_bind, ← hd]
    refine wp_memmove hh ⟨_, h.len, by omega⟩ ⟨_, h.len, by omega⟩ ?_
    rw [wp_setVec]
    refine hQ _ ⟨rfl, rfl, rfl, fun r i hr => ?_, fun i hi => ?_, fun i h2 h3 => ?_, fun hb' => (by rw [hb] at hb'; cases hb'),
      fun hb' => (by rw [hb] at hb'; cases hb')⟩
    · dsimp only; rw [blit_out (by omega)]
    · dsimp only; rw [blit_out (by omega)]; exact h.get (by omega)
    · dsimp only; rw [blit_in (by omega) (by omega), List.getElem?_drop]; congr 1; omega
  · rw [if_neg hb]
    exact window_near g h hpos hn hz hQ hE (by omega) (by simpa using hb)

end Gtl.Vec
