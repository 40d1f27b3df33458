import Verif.Swiss.BitMaskLemmas
/-! Both group implementations satisfy the same byte-wise specification `GroupSpec`. -/

namespace Gtl.Swiss

/-- The values a control byte can take. -/
def Valid (c : Ctrl) : Prop := isFull c = true ∨ c = kEmpty ∨ c = kDeleted ∨ c = kSentinel

instance (c : Ctrl) : Decidable (Valid c) := by unfold Valid; infer_instance

/-- Byte-wise meaning of the group operations (the documentation of phmap.hpp:863-947), for a loaded group
consisting of valid control bytes. `matchH2` may report other full bytes as well. -/
structure GroupSpec (G : Group) : Prop where
  width : G.W = 8 ∨ G.W = 16
  matchH2_complete : ∀ g h, g.length = G.W → (∀ c ∈ g, Valid c) → isFull h = true →
    ∀ j, g[j]? = some h → j ∈ (G.matchH2 g h).toList
  matchH2_sound : ∀ g h, g.length = G.W → (∀ c ∈ g, Valid c) → isFull h = true →
    ∀ j ∈ (G.matchH2 g h).toList, ∃ c, g[j]? = some c ∧ isFull c = true
  matchEmpty_bool : ∀ g, g.length = G.W → (∀ c ∈ g, Valid c) →
    ((G.matchEmpty g).toBool = true ↔ ∃ j : Nat, g[j]? = some kEmpty)
  matchEmpty_first : ∀ g, g.length = G.W → (∀ c ∈ g, Valid c) → (G.matchEmpty g).toBool = true →
    g[(G.matchEmpty g).trailingZeros]? = some kEmpty ∧
      ∀ j < (G.matchEmpty g).trailingZeros, g[j]? ≠ some kEmpty
  matchEmpty_last : ∀ g, g.length = G.W → (∀ c ∈ g, Valid c) → (G.matchEmpty g).toBool = true →
    (G.matchEmpty g).leadingZeros < G.W ∧
    g[G.W - 1 - (G.matchEmpty g).leadingZeros]? = some kEmpty ∧
      ∀ j, G.W - 1 - (G.matchEmpty g).leadingZeros < j → g[j]? ≠ some kEmpty
  matchEod_bool : ∀ g, g.length = G.W → (∀ c ∈ g, Valid c) →
    ((G.matchEmptyOrDeleted g).toBool = true ↔ ∃ (j : Nat) (c : Ctrl), g[j]? = some c ∧ (c = kEmpty ∨ c = kDeleted))
  matchEod_first : ∀ g, g.length = G.W → (∀ c ∈ g, Valid c) → (G.matchEmptyOrDeleted g).toBool = true →
    (∃ c, g[(G.matchEmptyOrDeleted g).lowest]? = some c ∧ (c = kEmpty ∨ c = kDeleted)) ∧
      ∀ j < (G.matchEmptyOrDeleted g).lowest, ∀ c, g[j]? = some c → ¬ (c = kEmpty ∨ c = kDeleted)
  countLeading : ∀ g, g.length = G.W → (∀ c ∈ g, Valid c) →
    G.countLeadingEmptyOrDeleted g ≤ G.W ∧
    (∀ j c, j < G.countLeadingEmptyOrDeleted g → g[j]? = some c → (c = kEmpty ∨ c = kDeleted)) ∧
    (∀ c, g[G.countLeadingEmptyOrDeleted g]? = some c → ¬ (c = kEmpty ∨ c = kDeleted))
  convert : ∀ g, g.length = G.W → (∀ c ∈ g, Valid c) →
    G.convertSpecial g = g.map (fun c => if isFull c then kDeleted else kEmpty)

/-! ### Facts about single bytes, checked over all 256 bit patterns -/

theorem forall_ctrl {p : Ctrl → Prop} (h : ∀ n : Fin 256, p (BitVec.ofFin n)) : ∀ c, p c := by
  intro c; exact h c.toFin

theorem byte_signMsb : ∀ c : Ctrl, signSelfMsb c = true ↔ c = kEmpty :=
  forall_ctrl (by decide +kernel)
theorem byte_slt : ∀ c : Ctrl, c.slt kSentinel = isEmptyOrDeleted c := fun _ => rfl
theorem valid_eod : ∀ c : Ctrl, Valid c → (isEmptyOrDeleted c = true ↔ (c = kEmpty ∨ c = kDeleted)) :=
  forall_ctrl (by decide +kernel)
theorem byte_conv1 : ∀ c : Ctrl, ((if c.msb then 0#8 else 126#8) ||| 0x80#8) =
    (if isFull c then kDeleted else kEmpty) := forall_ctrl (by decide +kernel)
theorem byte_conv2 : ∀ c : Ctrl, (0x80#8 ||| (~~~ (if c.slt 0#8 then 0xFF#8 else 0#8) &&& 126#8)) =
    (if isFull c then kDeleted else kEmpty) := forall_ctrl (by decide +kernel)
theorem byte_empty_bits : ∀ c : Ctrl, Valid c → ((c.getLsbD 7 && !c.getLsbD 1) = true ↔ c = kEmpty) :=
  forall_ctrl (by decide +kernel)
theorem byte_eod_bits : ∀ c : Ctrl, Valid c →
    ((c.getLsbD 7 && !c.getLsbD 0) = true ↔ (c = kEmpty ∨ c = kDeleted)) := forall_ctrl (by decide +kernel)
theorem byte_full_bit : ∀ c : Ctrl, isFull c = !c.getLsbD 7 := forall_ctrl (by decide +kernel)

theorem isFull_H2 (hash : Nat) : isFull (H2 hash) = true := by
  have : hash &&& 0x7F = hash % 128 := Nat.and_two_pow_sub_one_eq_mod hash 7
  rw [byte_full_bit]
  unfold H2
  rw [this, BitVec.getLsbD_ofNat]
  have : (hash % 128).testBit 7 = false := Nat.testBit_lt_two_pow (by omega)
  simp [this]

theorem isFull_not_special : isFull kEmpty = false ∧ isFull kDeleted = false ∧ isFull kSentinel = false := by
  decide

/-! ### SSE2 -/

theorem testBit_movemask : ∀ (l : List Bool) (j : Nat), (movemask l).testBit j = l.getD j false := by
  intro l
  induction l with
  | nil => intro j; simp [movemask]
  | cons b l ih =>
    intro j
    have hm : movemask (b :: l) = b.toNat + 2 * movemask l := rfl
    rw [hm]
    cases j with
    | zero => cases b <;> simp [Nat.testBit_zero]
    | succ j =>
      rw [Nat.testBit_succ]
      have : (b.toNat + 2 * movemask l) / 2 = movemask l := by cases b <;> simp <;> omega
      rw [this, ih]; simp

theorem sse_rep {g : List Ctrl} {f : Ctrl → Bool} (hg : g.length = 16) :
    (sseMask (g.map f)).Rep (fun j => ∃ c, g[j]? = some c ∧ f c = true) := by
  refine ⟨by simp [sseMask], fun b => ?_⟩
  simp only [sseMask, testBit_movemask, Nat.pow_zero, Nat.mul_one, Nat.add_sub_cancel]
  rw [List.getD_eq_getElem?_getD, List.getElem?_map]
  constructor
  · intro h
    cases hb : g[b]? with
    | none => rw [hb] at h; simp at h
    | some c =>
      rw [hb] at h
      have : b < g.length := by
        rw [List.getElem?_eq_some_iff] at hb; exact hb.1
      exact ⟨b, by omega, ⟨c, hb, by simpa using h⟩, rfl⟩
  · rintro ⟨j, _, ⟨c, hc, hf⟩, rfl⟩
    simp [hc, hf]

/-- Consequences of a mask representing a byte predicate. -/
theorem rep_bool {m : BitMask} {g : List Ctrl} {Q : Ctrl → Prop}
    (r : m.Rep (fun j => ∃ c, g[j]? = some c ∧ Q c)) (hs : m.sig = g.length) :
    m.toBool = true ↔ ∃ (j : Nat) (c : Ctrl), g[j]? = some c ∧ Q c := by
  rw [r.toBool_iff]
  constructor
  · rintro ⟨j, _, c, h⟩; exact ⟨j, c, h⟩
  · rintro ⟨j, c, h, hq⟩
    have : j < g.length := by rw [List.getElem?_eq_some_iff] at h; exact h.1
    exact ⟨j, by omega, c, h, hq⟩

theorem rep_first {m : BitMask} {g : List Ctrl} {Q : Ctrl → Prop}
    (r : m.Rep (fun j => ∃ c, g[j]? = some c ∧ Q c)) (hb : m.toBool = true) :
    (∃ c, g[m.lowest]? = some c ∧ Q c) ∧ ∀ j < m.lowest, ∀ c, g[j]? = some c → ¬ Q c := by
  obtain ⟨_, h1, h2⟩ := r.lowest_spec (r.toBool_iff.1 hb)
  exact ⟨h1, fun j hj c hc hq => h2 j hj ⟨c, hc, hq⟩⟩

theorem rep_last {m : BitMask} {g : List Ctrl} {Q : Ctrl → Prop}
    (r : m.Rep (fun j => ∃ c, g[j]? = some c ∧ Q c)) (hs : m.sig = g.length) (hb : m.toBool = true) :
    m.leadingZeros < m.sig ∧ (∃ c, g[m.sig - 1 - m.leadingZeros]? = some c ∧ Q c) ∧
      ∀ j, m.sig - 1 - m.leadingZeros < j → ∀ c, g[j]? = some c → ¬ Q c := by
  obtain ⟨h0, h1, h2⟩ := r.leading_spec (r.toBool_iff.1 hb)
  refine ⟨h0, h1, fun j hj c hc hq => ?_⟩
  have : j < g.length := by rw [List.getElem?_eq_some_iff] at hc; exact hc.1
  exact h2 j hj (by omega) ⟨c, hc, hq⟩

theorem rep_congr {m : BitMask} {P Q : Nat → Prop} (h : ∀ j, P j ↔ Q j) (r : m.Rep P) : m.Rep Q := by
  have : P = Q := funext fun j => propext (h j)
  exact this ▸ r

theorem mem_valid {g : List Ctrl} (hv : ∀ c ∈ g, Valid c) {j : Nat} {c : Ctrl} (h : g[j]? = some c) : Valid c :=
  hv c (List.mem_of_getElem? h)

/-- Everything about the two mask operations follows from their representation. -/
theorem groupSpec_of_rep {G : Group} (hw : G.W = 8 ∨ G.W = 16)
    (h1 : ∀ g h, g.length = G.W → (∀ c ∈ g, Valid c) → isFull h = true →
      ∀ j, g[j]? = some h → j ∈ (G.matchH2 g h).toList)
    (h2 : ∀ g h, g.length = G.W → (∀ c ∈ g, Valid c) → isFull h = true →
      ∀ j ∈ (G.matchH2 g h).toList, ∃ c, g[j]? = some c ∧ isFull c = true)
    (h3 : ∀ g, g.length = G.W → (∀ c ∈ g, Valid c) →
      (G.matchEmpty g).sig = G.W ∧ (G.matchEmpty g).Rep (fun j => ∃ c, g[j]? = some c ∧ c = kEmpty))
    (h4 : ∀ g, g.length = G.W → (∀ c ∈ g, Valid c) →
      (G.matchEmptyOrDeleted g).sig = G.W ∧
      (G.matchEmptyOrDeleted g).Rep (fun j => ∃ c, g[j]? = some c ∧ (c = kEmpty ∨ c = kDeleted)))
    (h5 : ∀ g, g.length = G.W → (∀ c ∈ g, Valid c) →
      G.countLeadingEmptyOrDeleted g ≤ G.W ∧
      (∀ j c, j < G.countLeadingEmptyOrDeleted g → g[j]? = some c → (c = kEmpty ∨ c = kDeleted)) ∧
      (∀ c, g[G.countLeadingEmptyOrDeleted g]? = some c → ¬ (c = kEmpty ∨ c = kDeleted)))
    (h6 : ∀ g, g.length = G.W → (∀ c ∈ g, Valid c) →
      G.convertSpecial g = g.map (fun c => if isFull c then kDeleted else kEmpty)) : GroupSpec G where
  width := hw
  matchH2_complete := h1
  matchH2_sound := h2
  matchEmpty_bool g hg hv := by
    obtain ⟨hs, r⟩ := h3 g hg hv
    rw [rep_bool r (by omega)]; simp
  matchEmpty_first g hg hv hb := by
    obtain ⟨hs, r⟩ := h3 g hg hv
    obtain ⟨⟨c, hc, rfl⟩, h⟩ := rep_first r hb
    exact ⟨hc, fun j hj hc' => h j hj _ hc' rfl⟩
  matchEmpty_last g hg hv hb := by
    obtain ⟨hs, r⟩ := h3 g hg hv
    obtain ⟨hlt, ⟨c, hc, rfl⟩, h⟩ := rep_last r (by omega) hb
    rw [hs] at hlt hc h
    exact ⟨hlt, hc, fun j hj hc' => h j hj _ hc' rfl⟩
  matchEod_bool g hg hv := by
    obtain ⟨hs, r⟩ := h4 g hg hv
    exact rep_bool r (by omega)
  matchEod_first g hg hv hb := by
    obtain ⟨hs, r⟩ := h4 g hg hv
    exact rep_first r hb
  countLeading := h5
  convert := h6

/-- Position of the first byte that is not empty or deleted, and the bytes before it. -/
theorem exists_prefix (g : List Ctrl) (Q : Ctrl → Prop) [DecidablePred Q] :
    ∃ n ≤ g.length, (∀ j c, j < n → g[j]? = some c → Q c) ∧ (∀ c, g[n]? = some c → ¬ Q c) := by
  induction g with
  | nil => exact ⟨0, by simp, by simp, by simp⟩
  | cons a g ih =>
    by_cases ha : Q a
    · obtain ⟨n, hn, h1, h2⟩ := ih
      refine ⟨n + 1, by simpa using hn, ?_, by simpa using h2⟩
      intro j c hj hc
      cases j with
      | zero => simp at hc; exact hc ▸ ha
      | succ j => exact h1 j c (by omega) (by simpa using hc)
    · exact ⟨0, by simp, by simp, by simpa using ha⟩

theorem groupSse2_spec (ssse3 : Bool) : GroupSpec (groupSse2 ssse3) := by
  apply groupSpec_of_rep
  · right; rfl
  · intro g h hg hv hf j hj
    have r := sse_rep (f := fun c => h == c) hg
    have : (groupSse2 ssse3).matchH2 g h = sseMask (g.map (fun c => h == c)) := rfl
    rw [this, r.mem_toList]
    have hlt : j < g.length := by rw [List.getElem?_eq_some_iff] at hj; exact hj.1
    have : g.length = 16 := hg
    exact ⟨by simp [sseMask]; omega, h, hj, by simp⟩
  · intro g h hg hv hf j hj
    have r := sse_rep (f := fun c => h == c) hg
    have : (groupSse2 ssse3).matchH2 g h = sseMask (g.map (fun c => h == c)) := rfl
    rw [this, r.mem_toList] at hj
    obtain ⟨_, c, hc, he⟩ := hj
    exact ⟨c, hc, by simp at he; exact he ▸ hf⟩
  · intro g hg hv
    cases ssse3
    · refine ⟨rfl, rep_congr (fun j => ?_) (sse_rep (f := fun c => kEmpty == c) hg)⟩
      constructor <;> rintro ⟨c, h1, h2⟩
      · exact ⟨c, h1, (eq_of_beq h2).symm⟩
      · exact ⟨c, h1, beq_iff_eq.2 h2.symm⟩
    · refine ⟨rfl, rep_congr (fun j => ?_) (sse_rep (f := signSelfMsb) hg)⟩
      constructor <;> rintro ⟨c, h1, h2⟩ <;> exact ⟨c, h1, by simpa [byte_signMsb] using h2⟩
  · intro g hg hv
    refine ⟨rfl, rep_congr (fun j => ?_) (sse_rep (f := fun c => c.slt kSentinel) hg)⟩
    constructor <;> rintro ⟨c, h1, h2⟩
    · exact ⟨c, h1, (valid_eod c (mem_valid hv h1)).1 h2⟩
    · exact ⟨c, h1, (valid_eod c (mem_valid hv h1)).2 h2⟩
  · intro g hg hv
    have hg' : g.length = 16 := hg
    obtain ⟨n, hn, h1, h2⟩ := exists_prefix g (fun c => c = kEmpty ∨ c = kDeleted)
    have : (groupSse2 ssse3).countLeadingEmptyOrDeleted g = n := by
      show ctz (movemask (g.map (fun c => c.slt kSentinel)) + 1) = n
      apply ctz_add_one
      · intro b hb
        rw [testBit_movemask, List.getD_eq_getElem?_getD, List.getElem?_map]
        have hb' : b < g.length := by omega
        have hc : g[b]? = some g[b] := List.getElem?_eq_getElem hb'
        rw [hc]
        exact (valid_eod _ (mem_valid hv hc)).2 (h1 b _ hb hc)
      · rw [testBit_movemask, List.getD_eq_getElem?_getD, List.getElem?_map]
        cases hc : g[n]? with
        | none => simp
        | some c =>
          have := h2 c hc
          rw [← valid_eod _ (mem_valid hv hc)] at this
          simpa [byte_slt] using this
    rw [this]
    exact ⟨by show n ≤ 16; omega, h1, h2⟩
  · intro g hg hv
    cases ssse3
    · show g.map _ = _
      apply List.map_congr_left; intro c _; exact byte_conv2 c
    · show g.map _ = _
      apply List.map_congr_left; intro c _; exact byte_conv1 c

/-! ### The portable group -/

theorem load64Nat_lt : ∀ g : List Ctrl, load64Nat g < 256 ^ g.length := by
  intro g
  induction g with
  | nil => simp [load64Nat]
  | cons c g ih =>
    have := c.isLt
    simp only [load64Nat, List.length_cons, Nat.pow_succ]
    omega

theorem testBit_load64Nat : ∀ (g : List Ctrl) (b : Nat),
    (load64Nat g).testBit b = (g.getD (b / 8) 0#8).getLsbD (b % 8) := by
  intro g
  induction g with
  | nil => intro b; simp [load64Nat]
  | cons c g ih =>
    intro b
    have h1 : load64Nat (c :: g) = 2 ^ 8 * load64Nat g + c.toNat := by simp [load64Nat]; omega
    rw [h1, Nat.testBit_two_pow_mul_add _ c.isLt]
    by_cases hb : b < 8
    · have h2 : b / 8 = 0 := by omega
      have h3 : b % 8 = b := by omega
      simp [hb, h2, h3, BitVec.getLsbD]
    · obtain ⟨d, rfl⟩ : ∃ d, b = d + 8 := ⟨b - 8, by omega⟩
      have h2 : (d + 8) / 8 = d / 8 + 1 := by omega
      have h3 : (d + 8) % 8 = d % 8 := by omega
      simp [ih, h2, h3]

theorem load64_toNat {g : List Ctrl} (hg : g.length = 8) : (load64 g).toNat = load64Nat g := by
  have := load64Nat_lt g
  rw [hg] at this
  simp only [load64, BitVec.toNat_ofNat]
  exact Nat.mod_eq_of_lt (by simpa using this)

theorem getLsbD_load64 {g : List Ctrl} (hg : g.length = 8) (b : Nat) :
    (load64 g).getLsbD b = (g.getD (b / 8) 0#8).getLsbD (b % 8) := by
  rw [BitVec.getLsbD, load64_toNat hg, testBit_load64Nat]

theorem msbs_bit : ∀ b < 64, msbs.getLsbD b = decide (b % 8 = 7) := by decide +kernel
theorem lsbs_bit : ∀ b < 64, lsbs.getLsbD b = decide (b % 8 = 0) := by decide +kernel
theorem gaps_bit : ∀ b < 64, gaps.getLsbD b = (decide (b < 56) && decide (b % 8 ≠ 0)) := by decide +kernel

/-- A portable mask whose bit `8j+7` is `f j` represents `f`. -/
theorem port_rep {v : BitVec 64} {P : Nat → Prop}
    (h1 : ∀ b < 64, v.getLsbD b = true → b % 8 = 7)
    (h2 : ∀ j < 8, v.getLsbD (8 * j + 7) = true ↔ P j) : (portMask v).Rep P := by
  refine ⟨by simp [portMask], fun b => ?_⟩
  simp only [portMask]
  constructor
  · intro h
    have hb : b < 64 := by
      by_contra hh
      have hlt := v.isLt
      rw [Nat.testBit_lt_two_pow (lt_of_lt_of_le hlt (Nat.pow_le_pow_right (by omega) (by omega)))] at h
      cases h
    have hb7 := h1 b hb h
    refine ⟨b / 8, by omega, (h2 (b / 8) (by omega)).1 ?_, by omega⟩
    have : 8 * (b / 8) + 7 = b := by omega
    rw [this]; exact h
  · rintro ⟨j, hj, hp, rfl⟩
    have : (j + 1) * 2 ^ 3 - 1 = 8 * j + 7 := by omega
    rw [this]
    exact (h2 j hj).2 hp

theorem getD_of_lt {g : List Ctrl} {j : Nat} (h : j < g.length) : g[j]? = some (g.getD j 0#8) := by
  simp [List.getD_eq_getElem?_getD, h]

theorem exists_getElem_iff {g : List Ctrl} {j : Nat} (h : j < g.length) (Q : Ctrl → Prop) :
    (∃ c, g[j]? = some c ∧ Q c) ↔ Q (g.getD j 0#8) := by
  rw [getD_of_lt h]; simp

/-- Byte-wise subtraction of one with borrow. -/
def subB : List Ctrl → Nat → List Ctrl
  | [], _ => []
  | x :: r, b => BitVec.ofNat 8 (x.toNat + 256 - 1 - b) :: subB r (if x.toNat < 1 + b then 1 else 0)

def subBorrow : List Ctrl → Nat → Nat
  | [], b => b
  | x :: r, b => subBorrow r (if x.toNat < 1 + b then 1 else 0)

def ones : Nat → Nat
  | 0 => 0
  | n + 1 => 1 + 256 * ones n

theorem subB_eq : ∀ (l : List Ctrl) (b : Nat), b ≤ 1 →
    load64Nat (subB l b) + ones l.length + b = load64Nat l + 256 ^ l.length * subBorrow l b := by
  intro l
  induction l with
  | nil => intro b _; simp [subB, subBorrow, load64Nat, ones]
  | cons x l ih =>
    intro b hb
    have hx := x.isLt
    have ih' := ih (if x.toNat < 1 + b then 1 else 0) (by split <;> omega)
    simp only [subB, subBorrow, load64Nat, ones, List.length_cons, BitVec.toNat_ofNat, Nat.pow_succ (n := 256)]
    generalize subBorrow l (if x.toNat < 1 + b then 1 else 0) = q at *
    generalize load64Nat (subB l (if x.toNat < 1 + b then 1 else 0)) = L at *
    have hq : 256 ^ l.length * 256 * q = 256 * (256 ^ l.length * q) := by rw [Nat.mul_comm (256 ^ _) 256, Nat.mul_assoc]
    rw [hq]
    generalize 256 ^ l.length * q = Q at *
    split at ih' <;> omega

theorem subB_length : ∀ (l : List Ctrl) (b : Nat), (subB l b).length = l.length := by
  intro l; induction l with
  | nil => intro b; rfl
  | cons x l ih => intro b; simp [subB, ih]

theorem subB_getD : ∀ (l : List Ctrl) (b j : Nat), b ≤ 1 → j < l.length → ∃ b' ≤ 1,
    (subB l b).getD j 0#8 = BitVec.ofNat 8 ((l.getD j 0#8).toNat + 256 - 1 - b') := by
  intro l
  induction l with
  | nil => intro b j _ h; simp at h
  | cons x l ih =>
    intro b j hb hj
    cases j with
    | zero => exact ⟨b, hb, by simp [subB]⟩
    | succ j =>
      obtain ⟨b', h1, h2⟩ := ih (if x.toNat < 1 + b then 1 else 0) j (by split <;> omega) (by simpa using hj)
      exact ⟨b', h1, by simpa [subB] using h2⟩

theorem load64_sub {l : List Ctrl} (hl : l.length = 8) : load64 l - lsbs = load64 (subB l 0) := by
  apply BitVec.eq_of_toNat_eq
  rw [BitVec.toNat_sub, load64_toNat hl, load64_toNat (by rw [subB_length, hl])]
  have h := subB_eq l 0 (by omega)
  have h1 := load64Nat_lt (subB l 0)
  have h2 := load64Nat_lt l
  rw [subB_length, hl] at h1
  rw [hl] at h h2
  have e : ones 8 = 72340172838076673 := by decide
  have e2 : lsbs.toNat = 72340172838076673 := by decide
  rw [e] at h
  rw [e2]
  have : (256 : Nat) ^ 8 = 2 ^ 64 := by decide
  rw [this] at h h1 h2
  have h3 : subBorrow l 0 = 0 ∨ subBorrow l 0 = 1 := by
    have : subBorrow l 0 ≤ 1 := by
      have : ∀ (l : List Ctrl) b, b ≤ 1 → subBorrow l b ≤ 1 := by
        intro l
        induction l with
        | nil => intro b hb; exact hb
        | cons x l ih => intro b hb; exact ih _ (by split <;> omega)
      exact this l 0 (by omega)
    omega
  rcases h3 with h3 | h3 <;> rw [h3] at h <;> omega

theorem lsbs_mul (h : Ctrl) : lsbs * h.zeroExtend 64 = load64 (List.replicate 8 h) := by
  apply BitVec.eq_of_toNat_eq
  rw [load64_toNat (by simp), BitVec.toNat_mul]
  have e2 : lsbs.toNat = 72340172838076673 := by decide
  have hh := h.isLt
  simp only [BitVec.truncate_eq_setWidth, BitVec.toNat_setWidth, e2, List.replicate, load64Nat]
  omega

theorem load64_xor {g : List Ctrl} (hg : g.length = 8) (h : Ctrl) :
    load64 g ^^^ load64 (List.replicate 8 h) = load64 (g.map (· ^^^ h)) := by
  apply BitVec.eq_of_getLsbD_eq
  intro b hb
  rw [BitVec.getLsbD_xor, getLsbD_load64 hg, getLsbD_load64 (by simp), getLsbD_load64 (by simpa using hg)]
  have h1 : b / 8 < g.length := by omega
  have h2 : b / 8 < 8 := by omega
  have h3 : (List.replicate 8 h).getD (b / 8) 0#8 = h := by
    rw [List.getD_eq_getElem?_getD, List.getElem?_replicate]; simp [h2]
  rw [h3]
  simp [List.getD_eq_getElem?_getD, h1]

theorem byte_match_complete : ∀ b' ≤ 1, (BitVec.ofNat 8 ((0#8).toNat + 256 - 1 - b')).getLsbD 7 = true := by
  decide
theorem byte_match_sound : ∀ x : Ctrl, ∀ b' ≤ 1,
    (BitVec.ofNat 8 (x.toNat + 256 - 1 - b')).getLsbD 7 = true → x.getLsbD 7 = false → x = 0#8 ∨ x = 1#8 :=
  forall_ctrl (by decide +kernel)
theorem byte_xor_full : ∀ h : Ctrl, isFull h = true → ∀ c : Ctrl, (c ^^^ h = 0#8 ∨ c ^^^ h = 1#8) → isFull c = true := by
  intro h hh c hc
  rw [byte_full_bit] at *
  have : (c ^^^ h).getLsbD 7 = false := by rcases hc with e | e <;> rw [e] <;> decide
  rw [BitVec.getLsbD_xor] at this
  cases h1 : c.getLsbD 7 <;> cases h2 : h.getLsbD 7 <;> simp_all

theorem port_match_rep {g : List Ctrl} (hg : g.length = 8) (h : Ctrl) :
    ∃ P : Nat → Prop, (groupPortable.matchH2 g h).Rep P ∧ (groupPortable.matchH2 g h).sig = 8 ∧
      (∀ j < 8, g.getD j 0#8 = h → P j) ∧
      (∀ j < 8, P j → g.getD j 0#8 ^^^ h = 0#8 ∨ g.getD j 0#8 ^^^ h = 1#8) := by
  have hm : groupPortable.matchH2 g h =
      portMask ((load64 (g.map (· ^^^ h)) - lsbs) &&& ~~~ (load64 (g.map (· ^^^ h))) &&& msbs) := by
    show portMask _ = _
    rw [lsbs_mul, load64_xor hg]
  rw [hm, load64_sub (by simpa using hg)]
  set l := g.map (· ^^^ h) with hl
  have hll : l.length = 8 := by simpa [hl] using hg
  set v := load64 (subB l 0) &&& ~~~ load64 l &&& msbs with hv
  have hbit : ∀ b < 64, v.getLsbD b =
      (((subB l 0).getD (b / 8) 0#8).getLsbD (b % 8) && !(l.getD (b / 8) 0#8).getLsbD (b % 8) && decide (b % 8 = 7)) := by
    intro b hb
    rw [hv, BitVec.getLsbD_and, BitVec.getLsbD_and, BitVec.getLsbD_not, getLsbD_load64 hll,
      getLsbD_load64 (by rw [subB_length, hll]), msbs_bit b hb]
    simp [hb]
  refine ⟨fun j => v.getLsbD (8 * j + 7) = true, port_rep ?_ (fun _ _ => Iff.rfl), rfl, ?_, ?_⟩
  · intro b hb h'
    rw [hbit b hb] at h'
    simp at h'; exact h'.2
  · intro j hj he
    show v.getLsbD _ = true
    rw [hbit _ (by omega)]
    have e1 : (8 * j + 7) / 8 = j := by omega
    have e2 : (8 * j + 7) % 8 = 7 := by omega
    rw [e1, e2]
    have hlj : l.getD j 0#8 = 0#8 := by
      have hjg : j < g.length := by omega
      have : g[j]? = some h := by rw [getD_of_lt hjg, he]
      simp [hl, List.getD_eq_getElem?_getD, this]
    obtain ⟨b', hb', hs⟩ := subB_getD l 0 j (by omega) (by omega)
    rw [hs, hlj, byte_match_complete b' hb']
    simp
  · intro j hj hp
    rw [hbit _ (by omega)] at hp
    have e1 : (8 * j + 7) / 8 = j := by omega
    have e2 : (8 * j + 7) % 8 = 7 := by omega
    rw [e1, e2] at hp
    obtain ⟨b', hb', hs⟩ := subB_getD l 0 j (by omega) (by omega)
    rw [hs] at hp
    simp only [Bool.and_eq_true, Bool.not_eq_true', decide_true, and_true] at hp
    have := byte_match_sound _ b' hb' hp.1 hp.2
    have hlj : l.getD j 0#8 = g.getD j 0#8 ^^^ h := by
      have hjg : j < g.length := by omega
      simp [hl, List.getD_eq_getElem?_getD, hjg]
    rwa [hlj] at this

theorem load64Nat_add : ∀ (g : List Ctrl) (f k : Ctrl → Ctrl), (∀ c, (f c).toNat + (k c).toNat < 256) →
    load64Nat (g.map f) + load64Nat (g.map k) = load64Nat (g.map (fun c => f c + k c)) := by
  intro g f k hfk
  induction g with
  | nil => rfl
  | cons c g ih =>
    have := hfk c
    simp only [List.map_cons, load64Nat, BitVec.toNat_add]
    omega

theorem store64Aux_load : ∀ (g : List Ctrl), store64Aux g.length (load64Nat g) = g := by
  intro g
  induction g with
  | nil => rfl
  | cons c g ih =>
    have hc := c.isLt
    simp only [List.length_cons, store64Aux, load64Nat]
    have h1 : (c.toNat + 256 * load64Nat g) / 256 = load64Nat g := by omega
    rw [h1, ih]
    congr 1
    apply BitVec.eq_of_toNat_eq
    simp only [BitVec.toNat_ofNat]; omega

theorem store64_load64 {g : List Ctrl} (hg : g.length = 8) : store64 (load64 g) = g := by
  unfold store64
  rw [load64_toNat hg]
  conv_lhs => rw [← hg]
  exact store64Aux_load g

theorem byte_cv_add : ∀ c : Ctrl, (~~~(c &&& 0x80#8)).toNat + ((c &&& 0x80#8) >>> 7).toNat < 256 :=
  forall_ctrl (by decide +kernel)
theorem byte_cv : ∀ c : Ctrl, ((~~~(c &&& 0x80#8)) + ((c &&& 0x80#8) >>> 7)) &&& 0xFE#8 =
    (if isFull c then kDeleted else kEmpty) := forall_ctrl (by decide +kernel)
theorem byte_shift_bit : ∀ c : Ctrl, ∀ r < 8, ((c &&& 0x80#8) >>> 7).getLsbD r = (decide (r = 0) && c.getLsbD 7) :=
  forall_ctrl (by decide +kernel)
theorem byte_80_bit : ∀ r < 8, (0x80#8).getLsbD r = decide (r = 7) := by decide
theorem byte_FE_bit : ∀ r < 8, (0xFE#8).getLsbD r = decide (r ≠ 0) := by decide

theorem getD_map {g : List Ctrl} (f : Ctrl → Ctrl) {j : Nat} (h : j < g.length) :
    (g.map f).getD j 0#8 = f (g.getD j 0#8) := by
  simp [List.getD_eq_getElem?_getD, h]

theorem port_convert {g : List Ctrl} (hg : g.length = 8) :
    groupPortable.convertSpecial g = g.map (fun c => if isFull c then kDeleted else kEmpty) := by
  show store64 ((~~~(load64 g &&& msbs) + ((load64 g &&& msbs) >>> 7)) &&& ~~~lsbs) = _
  have e1 : ~~~(load64 g &&& msbs) = load64 (g.map (fun c => ~~~(c &&& 0x80#8))) := by
    apply BitVec.eq_of_getLsbD_eq
    intro b hb
    rw [BitVec.getLsbD_not, BitVec.getLsbD_and, getLsbD_load64 hg, getLsbD_load64 (by simpa using hg),
      getD_map _ (by omega), msbs_bit b hb, BitVec.getLsbD_not, BitVec.getLsbD_and, byte_80_bit _ (by omega)]
    have : b % 8 < 8 := by omega
    simp [hb, this]
  have e2 : (load64 g &&& msbs) >>> 7 = load64 (g.map (fun c => (c &&& 0x80#8) >>> 7)) := by
    apply BitVec.eq_of_getLsbD_eq
    intro b hb
    rw [BitVec.getLsbD_ushiftRight, BitVec.getLsbD_and, getLsbD_load64 hg, getLsbD_load64 (by simpa using hg),
      getD_map _ (by omega), byte_shift_bit _ _ (by omega)]
    by_cases h0 : b % 8 = 0
    · have a1 : (7 + b) / 8 = b / 8 := by omega
      have a2 : (7 + b) % 8 = 7 := by omega
      rw [msbs_bit _ (by omega), a1, a2, h0]; simp
    · by_cases h64 : 7 + b < 64
      · rw [msbs_bit _ h64]
        have a2 : (7 + b) % 8 ≠ 7 := by omega
        simp [h0, a2]
      · have : msbs.getLsbD (7 + b) = false := BitVec.getLsbD_of_ge _ _ (by omega)
        rw [this]; simp [h0]
  have e3 : load64 (g.map (fun c => ~~~(c &&& 0x80#8))) + load64 (g.map (fun c => (c &&& 0x80#8) >>> 7)) =
      load64 (g.map (fun c => ~~~(c &&& 0x80#8) + (c &&& 0x80#8) >>> 7)) := by
    apply BitVec.eq_of_toNat_eq
    rw [BitVec.toNat_add, load64_toNat (by simpa using hg), load64_toNat (by simpa using hg),
      load64_toNat (by simpa using hg), load64Nat_add g _ _ byte_cv_add]
    have := load64Nat_lt (g.map (fun c => ~~~(c &&& 0x80#8) + (c &&& 0x80#8) >>> 7))
    rw [List.length_map, hg] at this
    exact Nat.mod_eq_of_lt (by simpa using this)
  have e4 : load64 (g.map (fun c => ~~~(c &&& 0x80#8) + (c &&& 0x80#8) >>> 7)) &&& ~~~lsbs =
      load64 (g.map (fun c => if isFull c then kDeleted else kEmpty)) := by
    apply BitVec.eq_of_getLsbD_eq
    intro b hb
    rw [BitVec.getLsbD_and, BitVec.getLsbD_not, getLsbD_load64 (by simpa using hg),
      getLsbD_load64 (by simpa using hg), getD_map _ (by omega), getD_map _ (by omega), lsbs_bit b hb, ← byte_cv,
      BitVec.getLsbD_and, byte_FE_bit _ (by omega)]
    simp [hb]
  rw [e1, e2, e3, e4, store64_load64 (by simpa using hg)]

theorem groupPortable_spec : GroupSpec groupPortable := by
  apply groupSpec_of_rep
  · left; rfl
  · intro g h hg hv hf j hj
    have hg' : g.length = 8 := hg
    obtain ⟨P, r, hs, h1, h2⟩ := port_match_rep hg' h
    have hlt : j < g.length := by rw [List.getElem?_eq_some_iff] at hj; exact hj.1
    rw [r.mem_toList, hs]
    refine ⟨by omega, h1 j (by omega) ?_⟩
    simp [List.getD_eq_getElem?_getD, hj]
  · intro g h hg hv hf j hj
    have hg' : g.length = 8 := hg
    obtain ⟨P, r, hs, h1, h2⟩ := port_match_rep hg' h
    rw [r.mem_toList, hs] at hj
    exact ⟨_, getD_of_lt (by omega), byte_xor_full h hf _ (h2 j hj.1 hj.2)⟩
  · intro g hg hv
    have hg' : g.length = 8 := hg
    refine ⟨rfl, ?_⟩
    show (portMask ((load64 g &&& (~~~(load64 g) <<< 6)) &&& msbs)).Rep _
    have hbit : ∀ b < 64, ((load64 g &&& (~~~(load64 g) <<< 6)) &&& msbs).getLsbD b =
        ((load64 g).getLsbD b && (decide (6 ≤ b) && !(load64 g).getLsbD (b - 6)) && decide (b % 8 = 7)) := by
      intro b hb
      rw [BitVec.getLsbD_and, BitVec.getLsbD_and, BitVec.getLsbD_shiftLeft, BitVec.getLsbD_not, msbs_bit b hb]
      by_cases h6 : b < 6
      · simp [h6]
      · have : b - 6 < 64 := by omega
        simp [hb, h6, this, Nat.not_lt.1 h6]
    apply port_rep
    · intro b hb h
      rw [hbit b hb] at h; simp at h; exact h.2
    · intro j hj
      rw [exists_getElem_iff (by omega), hbit _ (by omega), getLsbD_load64 hg', getLsbD_load64 hg',
        ← byte_empty_bits _ (mem_valid hv (getD_of_lt (by omega)))]
      have e1 : (8 * j + 7) / 8 = j := by omega
      have e2 : (8 * j + 7) % 8 = 7 := by omega
      have e3 : (8 * j + 7 - 6) / 8 = j := by omega
      have e4 : (8 * j + 7 - 6) % 8 = 1 := by omega
      have e5 : 6 ≤ 8 * j + 7 := by omega
      rw [e1, e2, e3, e4]; simp [e5]
  · intro g hg hv
    have hg' : g.length = 8 := hg
    refine ⟨rfl, ?_⟩
    show (portMask ((load64 g &&& (~~~(load64 g) <<< 7)) &&& msbs)).Rep _
    have hbit : ∀ b < 64, ((load64 g &&& (~~~(load64 g) <<< 7)) &&& msbs).getLsbD b =
        ((load64 g).getLsbD b && (decide (7 ≤ b) && !(load64 g).getLsbD (b - 7)) && decide (b % 8 = 7)) := by
      intro b hb
      rw [BitVec.getLsbD_and, BitVec.getLsbD_and, BitVec.getLsbD_shiftLeft, BitVec.getLsbD_not, msbs_bit b hb]
      by_cases h6 : b < 7
      · simp [h6]
      · have : b - 7 < 64 := by omega
        simp [hb, h6, this, Nat.not_lt.1 h6]
    apply port_rep
    · intro b hb h
      rw [hbit b hb] at h; simp at h; exact h.2
    · intro j hj
      rw [exists_getElem_iff (by omega), hbit _ (by omega), getLsbD_load64 hg', getLsbD_load64 hg',
        ← byte_eod_bits _ (mem_valid hv (getD_of_lt (by omega)))]
      have e1 : (8 * j + 7) / 8 = j := by omega
      have e2 : (8 * j + 7) % 8 = 7 := by omega
      have e3 : (8 * j + 7 - 7) / 8 = j := by omega
      have e4 : (8 * j + 7 - 7) % 8 = 0 := by omega
      have e5 : 7 ≤ 8 * j + 7 := by omega
      rw [e1, e2, e3, e4]; simp [e5]
  · intro g hg hv
    have hg' : g.length = 8 := hg
    obtain ⟨n, hn, h1, h2⟩ := exists_prefix g (fun c => c = kEmpty ∨ c = kDeleted)
    suffices hc : groupPortable.countLeadingEmptyOrDeleted g = n by
      rw [hc]; exact ⟨by show n ≤ 8; omega, h1, h2⟩
    show (ctz (((~~~(load64 g) &&& (load64 g >>> 7)) ||| gaps) + 1#64).toNat + 7) >>> 3 = n
    set y := (~~~(load64 g) &&& (load64 g >>> 7)) ||| gaps with hy
    have hbit : ∀ b < 64, y.getLsbD b =
        (((!(load64 g).getLsbD b) && (load64 g).getLsbD (7 + b)) || (decide (b < 56) && decide (b % 8 ≠ 0))) := by
      intro b hb
      rw [hy, BitVec.getLsbD_or, BitVec.getLsbD_and, BitVec.getLsbD_not, BitVec.getLsbD_ushiftRight, gaps_bit b hb]
      simp [hb]
    have hb8 : ∀ j < 8, (y.getLsbD (8 * j) = true ↔ (g.getD j 0#8 = kEmpty ∨ g.getD j 0#8 = kDeleted)) := by
      intro j hj
      rw [hbit _ (by omega), getLsbD_load64 hg', getLsbD_load64 hg',
        ← byte_eod_bits _ (mem_valid hv (getD_of_lt (by omega)))]
      have e1 : (8 * j) / 8 = j := by omega
      have e2 : (8 * j) % 8 = 0 := by omega
      have e3 : (7 + 8 * j) / 8 = j := by omega
      have e4 : (7 + 8 * j) % 8 = 7 := by omega
      rw [e1, e2, e3, e4]; simp [Bool.and_comm]
    have key : ∀ c, c < 64 → (∀ b < c, y.getLsbD b = true) → y.getLsbD c = false →
        ctz (y + 1#64).toNat = c := by
      intro c hc64 hlo hhi
      have hne : y.toNat + 1 < 2 ^ 64 := by
        have := y.isLt
        by_contra hcon
        have : y.toNat = 2 ^ 64 - 1 := by omega
        have h3 : y.getLsbD c = true := by
          rw [BitVec.getLsbD, this, Nat.testBit_two_pow_sub_one]; simpa using hc64
        rw [h3] at hhi; cases hhi
      have : (y + 1#64).toNat = y.toNat + 1 := by
        rw [BitVec.toNat_add]; simp only [BitVec.toNat_ofNat]; omega
      rw [this]
      exact ctz_add_one hlo hhi
    have hlow : ∀ b < 8 * n, y.getLsbD b = true ∨ (56 < b) := by
      intro b hb
      by_cases h0 : b % 8 = 0
      · left
        have : b = 8 * (b / 8) := by omega
        rw [this]
        exact (hb8 _ (by omega)).2 (h1 (b / 8) _ (by omega) (getD_of_lt (by omega)))
      · by_cases h56 : b < 56
        · left; rw [hbit b (by omega)]; simp [h0, h56]
        · right; omega
    by_cases hn8 : n = 8
    · subst hn8
      have : ctz (y + 1#64).toNat = 57 := by
        apply key 57 (by omega)
        · intro b hb
          rcases hlow b (by omega) with h | h
          · exact h
          · omega
        · rw [hbit 57 (by omega)]
          have : (load64 g).getLsbD (7 + 57) = false := BitVec.getLsbD_of_ge _ _ (by omega)
          rw [this]; simp
      rw [this, Nat.shiftRight_eq_div_pow]
    · have : ctz (y + 1#64).toNat = 8 * n := by
        apply key (8 * n) (by omega)
        · intro b hb
          rcases hlow b hb with h | h
          · exact h
          · omega
        · have h3 := h2 _ (getD_of_lt (show n < g.length by omega))
          rw [← hb8 n (by omega)] at h3
          simpa using h3
      rw [this, Nat.shiftRight_eq_div_pow]; omega
  · intro g hg hv
    exact port_convert hg

end Gtl.Swiss
