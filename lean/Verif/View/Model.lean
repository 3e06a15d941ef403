import Verif.Basic.Kernel
/-!
# Views: a pointer with dimensions (model)

`include/utils/view.hpp`, `include/utils/stride_iterator.hpp`.  A pointer into the viewed memory is its offset from the
start of the memory.
-/
namespace Verif.View
open Verif Res

/-- `view_2d::operator[]( i )` then the built-in `[j]` (include/utils/view.hpp lines 49-54). -/
def at2 (row col : Nat) (transposed : Bool) (i j : Nat) : Nat :=
  (if transposed then i * row else i * col) + j

/-- `view_3d::operator[]` gives a `view_2d` at an offset (include/utils/view.hpp lines 102-105). -/
def at3 (_row col channel : Nat) (i j k : Nat) : Nat :=
  i * col * channel + at2 col channel false j k

/-- `view_4d::operator[]` gives a `view_3d` at an offset (include/utils/view.hpp lines 153-156). -/
def at4 (_batch row col channel : Nat) (i j k l : Nat) : Nat :=
  i * row * col * channel + at3 row col channel j k l

/-- The generic `view<T,N>`: from five dimensions on, an asserted subscript and the product of the other extents;
`view<T,4>` is a `view_4d`, `view<T,3>` a `view_3d`, `view<T,2>` a `view_2d`, `view<T,1>` a `view_1d`
(include/utils/view.hpp lines 182-241). -/
def atN : List Nat → List Nat → Res Nat
  | [_], [i] => ok i
  | [a, b], [i, j] => ok (at2 a b false i j)
  | [a, b, c], [i, j, k] => ok (at3 a b c i j k)
  | [a, b, c, d], [i, j, k, l] => ok (at4 a b c d i j k l)
  | n :: s, i :: is => do
    Res.assert (i < n)
    let rest ← atN s is
    pure (i * size s + rest)
  | _, _ => ub

/-- Element `k` of row `r`: `row_begin( r ) + k` (include/utils/view.hpp lines 76-80). -/
def rowPos (col : Nat) (r k : Nat) : Nat := r * col + k

/-- End of row `r`: `row_end( r )` (include/utils/view.hpp lines 77, 80). -/
def rowEnd (col : Nat) (r : Nat) : Nat := (r + 1) * col

/-- `k` increments of the stride iterator `col_begin( c )` (include/utils/view.hpp lines 82-86,
include/utils/stride_iterator.hpp lines 30-34). -/
def colPos (col : Nat) (c : Nat) : Nat → Nat
  | 0 => c
  | k + 1 => colPos col c k + col

/-- `col_end( c )` is `col_begin( c ) + row()` by `operator +=` (include/utils/view.hpp line 83,
include/utils/stride_iterator.hpp lines 41-51). -/
def colEnd (row col : Nat) (c : Nat) : Nat := c + col * row

end Verif.View
