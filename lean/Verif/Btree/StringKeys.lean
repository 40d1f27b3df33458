import Verif.Btree.Model
/-!
# The comparison of string keys in B-tree containers

For keys of type `std::string` and `std::string_view` the comparisons `std::less`, `gtl::Less` and `std::greater` are replaced by
functions that compare three ways (btree.hpp:562-598, 603). A string is the list of its bytes.
-/

namespace Gtl.Btree

/-- A `std::string` or `std::string_view`: its bytes, as `unsigned char`. -/
abbrev Str := List (Fin 256)

/-- `std::char_traits<char>::compare(p, q, n)` for `n` bytes of each: the sign of the first difference, of bytes as
`unsigned char` (the C++ standard, [char.traits.specializations.char]). -/
def traitsCompare : Str → Str → Int
  | x :: a, y :: b => if x < y then -1 else if y < x then 1 else traitsCompare a b
  | _, _ => 0

/-- `std::string_view::compare` ([string.view.ops]), called in btree.hpp:532 and 547. -/
def svCompare (a b : Str) : Int :=
  let n := min a.length b.length
  let r := traitsCompare (a.take n) (b.take n)
  if r ≠ 0 then r else (a.length : Int) - (b.length : Int)

/-- `compare_result_as_ordering` (btree.hpp:485-487). -/
def resultAsOrdering (c : Int) : Ordering := if c < 0 then .lt else if c = 0 then .eq else .gt

/-- `compare_result_as_less_than` of a three-way result (btree.hpp:475). -/
def resultAsLess (r : Ordering) : Bool := r == .lt

/-- `StringBtreeDefaultLess` (btree.hpp:523-534). -/
def stringLess (a b : Str) : Ordering := resultAsOrdering (svCompare a b)

/-- `StringBtreeDefaultGreater` (btree.hpp:536-549). -/
def stringGreater (a b : Str) : Ordering := resultAsOrdering (svCompare b a)

/-- The comparison functors a user can name for string keys. -/
inductive StrCompare
  | less
  | greater
deriving DecidableEq

/-- `key_compare_to_adapter<Compare>::type` (btree.hpp:568-598). -/
def StrCompare.adapted : StrCompare → Str → Str → Ordering
  | .less => stringLess
  | .greater => stringGreater

/-- The parameters of a container with string keys (`common_params`, btree.hpp:600-611): the comparison is three-way; `compare_keys`
(1678-1680) and `upper_bound_adapter` (768-779) use it through `compare_result_as_less_than`. By default nodes are searched
linearly only if the key is arithmetic and the comparison `std::less` or the like (834-838), so not here. -/
def strCfg {α : Type} (K : Nat) (multi : Bool) (key : α → Str) (cmp : StrCompare) : Cfg α Str where
  K := K
  multi := multi
  linear := false
  cmpTo := true
  key := key
  lt a b := resultAsLess (cmp.adapted a b)

end Gtl.Btree
