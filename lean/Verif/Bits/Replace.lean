import Verif.Bits.Hex
/-!
# The index-wise operations as replacements of a range
-/

namespace Gtl.Bits

open Gtl.Spec.Bits

theorem length_slice {l : List Bool} {first last : Nat} (h2 : last ≤ l.length) : (slice l first last).length = last - first := by
  rw [slice_eq h2]; simp

theorem at_append (a b : List Bool) (i : Nat) : at' (a ++ b) i = if i < a.length then at' a i else at' b (i - a.length) := by
  unfold at'
  simp only [List.getD_eq_getElem?_getD]
  split
  · rw [List.getElem?_append_left (by assumption)]
  · rw [List.getElem?_append_right (by omega)]

theorem at_replicate (n : Nat) (b : Bool) (i : Nat) : at' (List.replicate n b) i = (decide (i < n) && b) := by
  by_cases h : i < n
  · rw [at_get (by simpa using h)]; simp [h]
  · rw [at_out (by simpa using h)]; simp [h]

theorem at_take (l : List Bool) (n i : Nat) : at' (l.take n) i = (decide (i < n) && at' l i) := by
  unfold at'
  simp only [List.getD_eq_getElem?_getD]
  by_cases h : i < n
  · rw [List.getElem?_take_of_lt h]; simp [h]
  · rw [List.getElem?_take_eq_none (by omega)]; simp [h]

theorem at_drop (l : List Bool) (n i : Nat) : at' (l.drop n) i = at' l (n + i) := by
  unfold at'
  simp only [List.getD_eq_getElem?_getD, List.getElem?_drop]

theorem at_map_not (l : List Bool) (i : Nat) : at' (l.map (! ·)) i = (decide (i < l.length) && !at' l i) := by
  by_cases h : i < l.length
  · rw [at_get (by simpa using h), at_get h]; simp [h]
  · rw [at_out (by simpa using h)]; simp [h]

theorem at_zipWith (f : Bool → Bool → Bool) (a b : List Bool) (i : Nat) :
    at' (List.zipWith f a b) i = (decide (i < a.length ∧ i < b.length) && f (at' a i) (at' b i)) := by
  by_cases h : i < a.length ∧ i < b.length
  · rw [at_get (by simp; omega), at_get h.1, at_get h.2]; simp [h]
  · rw [at_out (by simp; omega)]; simp [h]

theorem length_replace {l m : List Bool} {first last : Nat} (h1 : first ≤ last) (h2 : last ≤ l.length) (hm : m.length = last - first) :
    (replace l first last m).length = l.length := by
  unfold replace
  simp only [List.length_append, List.length_take, List.length_drop, hm]
  omega

theorem at_replace {l m : List Bool} {first last : Nat} (h1 : first ≤ last) (h2 : last ≤ l.length) (hm : m.length = last - first) (i : Nat) :
    at' (replace l first last m) i = if first ≤ i ∧ i < last then at' m (i - first) else at' l i := by
  unfold replace
  rw [at_append, at_append, at_take, at_drop]
  simp only [List.length_append, List.length_take, hm]
  rw [show min first l.length = first by omega]
  by_cases c : first ≤ i ∧ i < last
  · rw [if_pos c, if_pos (by omega), if_neg (by omega)]
  · rw [if_neg c]
    by_cases d : i < first
    · rw [if_pos (by omega), if_pos d]; simp [d]
    · rw [if_neg (by omega)]; congr 1; omega

theorem mapView_replace {l m : List Bool} {first last : Nat} {g : Nat → Bool → Bool} (h1 : first ≤ last) (h2 : last ≤ l.length)
    (hm : m.length = last - first) (hg : ∀ i, first ≤ i → i < last → g i (at' l i) = at' m (i - first)) :
    mapView l first last g = replace l first last m := by
  apply at_ext (by rw [length_mapView, length_replace h1 h2 hm])
  intro i _
  rw [at_mapView' h2, at_replace h1 h2 hm]
  split
  · rename_i c; exact hg i c.1 c.2
  · rfl

theorem fill_replace {l : List Bool} {first last : Nat} (h1 : first ≤ last) (h2 : last ≤ l.length) (b : Bool) :
    (mapView l first last fun _ _ => b) = replace l first last (List.replicate (last - first) b) := by
  refine mapView_replace h1 h2 (by simp) (fun i a c => ?_)
  have : i - first < last - first := by omega
  rw [at_replicate]; simp [this]

theorem flip_replace {l : List Bool} {first last : Nat} (h1 : first ≤ last) (h2 : last ≤ l.length) :
    (mapView l first last fun _ b => !b) = replace l first last ((slice l first last).map (! ·)) := by
  refine mapView_replace h1 h2 (by simp [length_slice h2]) (fun i a c => ?_)
  have : i - first < last - first := by omega
  rw [at_map_not, length_slice h2, at_slice h2, show first + (i - first) = i by omega]; simp [this]

theorem combine_replace {gb : Bool → Bool → Bool} {l lo : List Bool} {first last ofirst olast : Nat} (h1 : first ≤ last) (h2 : last ≤ l.length)
    (h3 : ofirst ≤ olast) (h4 : olast ≤ lo.length) (h5 : olast - ofirst = last - first) :
    combine gb l first last lo ofirst = replace l first last (List.zipWith gb (slice l first last) (slice lo ofirst olast)) := by
  unfold combine
  refine mapView_replace h1 h2 (by simp [length_slice h2, length_slice h4]; omega) (fun i a c => ?_)
  have c1 : i - first < last - first := by omega
  have c2 : i - first < olast - ofirst := by omega
  rw [at_zipWith, length_slice h2, length_slice h4, at_slice h2, at_slice h4, show first + (i - first) = i by omega]
  simp [c1, c2]

theorem copy_replace {l lo : List Bool} {first last ofirst olast : Nat} (h1 : first ≤ last) (h2 : last ≤ l.length)
    (h3 : ofirst ≤ olast) (h4 : olast ≤ lo.length) (h5 : olast - ofirst = last - first) :
    combine (fun _ y => y) l first last lo ofirst = replace l first last (slice lo ofirst olast) := by
  unfold combine
  refine mapView_replace h1 h2 (by simp [length_slice h4]; omega) (fun i a c => ?_)
  have c2 : i - first < olast - ofirst := by omega
  rw [at_slice h4]
  simp [c2]

theorem length_shiftUp (n : Nat) (m : List Bool) : (shiftUp n m).length = m.length := by
  unfold shiftUp; simp; omega

theorem length_shiftDown (n : Nat) (m : List Bool) : (shiftDown n m).length = m.length := by
  unfold shiftDown; simp; omega

theorem up_replace {l : List Bool} {first last : Nat} (h1 : first ≤ last) (h2 : last ≤ l.length) (n : Nat) :
    up l first last n = replace l first last (shiftUp n (slice l first last)) := by
  unfold up
  refine mapView_replace h1 h2 (by rw [length_shiftUp, length_slice h2]) (fun i a c => ?_)
  unfold shiftUp
  rw [at_append, at_replicate, at_take, length_slice h2, at_slice h2, List.length_replicate]
  by_cases d : first + n ≤ i
  · rw [if_pos d, if_neg (by omega), show min n (last - first) = n by omega]
    have c1 : i - first - n < last - first - n := by omega
    have c2 : i - first - n < last - first := by omega
    rw [show first + (i - first - n) = i - n by omega]
    simp [c1, c2]
  · rw [if_neg d, if_pos (by omega)]; simp

theorem down_replace {l : List Bool} {first last : Nat} (h1 : first ≤ last) (h2 : last ≤ l.length) (n : Nat) :
    down l first last n = replace l first last (shiftDown n (slice l first last)) := by
  unfold down
  refine mapView_replace h1 h2 (by rw [length_shiftDown, length_slice h2]) (fun i a c => ?_)
  unfold shiftDown
  rw [at_append, at_replicate, at_drop, List.length_drop, length_slice h2, at_slice h2]
  by_cases d : i + n < last
  · have c2 : n + (i - first) < last - first := by omega
    rw [if_pos d, if_pos (by omega), show first + (n + (i - first)) = i + n by omega]
    simp [c2]
  · rw [if_neg d, if_neg (by omega)]; simp

theorem length_wordBits (w : Word) : (wordBits w).length = 64 := by unfold wordBits; simp

theorem at_wordBits (w : Word) (i : Nat) : at' (wordBits w) i = (decide (i < 64) && w.getLsbD i) := by
  unfold wordBits; exact at_range 64 _ i

theorem length_wordsBits : ∀ ws : List Word, (wordsBits ws).length = 64 * ws.length
  | [] => rfl
  | w :: ws => by
    have := length_wordsBits ws
    unfold wordsBits at this ⊢
    rw [List.flatMap_cons, List.length_append, this, length_wordBits, List.length_cons]; omega

theorem at_wordsBits : ∀ (ws : List Word) (i : Nat), at' (wordsBits ws) i = bit ws i
  | [], i => by unfold wordsBits at' bit; simp
  | w :: ws, i => by
    have := at_wordsBits ws (i - 64)
    unfold wordsBits at this ⊢
    rw [List.flatMap_cons, at_append, length_wordBits, wordsBit_cons, this, at_wordBits]
    by_cases c : i < 64
    · rw [if_pos c, if_pos c]; simp [c]
    · rw [if_neg c, if_neg c]

theorem word_replace {l : List Bool} {first last : Nat} (h1 : first ≤ last) (h2 : last ≤ l.length) (h3 : last - first ≤ 64) (w : Word) :
    (mapView l first last fun i _ => w.getLsbD (i - first)) = replace l first last ((wordBits w).take (last - first)) := by
  refine mapView_replace h1 h2 (by simp [length_wordBits]; omega) (fun i a c => ?_)
  have c1 : i - first < last - first := by omega
  have c2 : i - first < 64 := by omega
  rw [at_take, at_wordBits]; simp [c1, c2]

theorem words_replace {l : List Bool} {first last : Nat} (h1 : first ≤ last) (h2 : last ≤ l.length) (ws : List Word) :
    (mapView l first (min last (first + 64 * ws.length)) fun i _ => bit ws (i - first)) =
      replace l first (min last (first + 64 * ws.length)) ((wordsBits ws).take (last - first)) := by
  refine mapView_replace (by omega) (by omega) (by simp [length_wordsBits]; omega) (fun i a c => ?_)
  have c1 : i - first < last - first := by omega
  rw [at_take, at_wordsBits]; simp [c1]

/-- The words of the whole vector. -/
theorem words_all {l : List Bool} (ws : List Word) :
    (mapView l (64 * 0) (64 * (0 + ws.length)) fun i _ => bit ws (i - 64 * 0)) =
      replace l 0 (min l.length (64 * ws.length)) ((wordsBits ws).take l.length) := by
  have e : (mapView l (64 * 0) (64 * (0 + ws.length)) fun i _ => bit ws (i - 64 * 0)) =
      mapView l 0 (min l.length (0 + 64 * ws.length)) fun i _ => bit ws (i - 0) := by
    apply at_ext (by simp only [length_mapView])
    intro i hi
    rw [length_mapView] at hi
    rw [at_mapView, at_mapView]
    by_cases d : i < 64 * ws.length
    · rw [if_pos (by omega), if_pos (by omega)]
    · rw [if_neg (by omega), if_neg (by omega)]
  rw [e, words_replace (by omega) (by omega)]
  simp

theorem words_new (ws : List Word) : ((List.range (64 * ws.length)).map fun i => bit ws i) = wordsBits ws := by
  apply at_ext (by rw [length_wordsBits]; simp)
  intro i hi
  simp only [List.length_map, List.length_range] at hi
  rw [at_range, at_wordsBits]; simp [hi]

theorem replace_all (l m : List Bool) : replace l 0 l.length m = m := by
  unfold replace; simp

end Gtl.Bits
