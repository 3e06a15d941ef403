import Verif.Fit.Model
import Verif.Finite.Interval
/-!
# The progress bar (model)

`tq::trange` (include/utils/tqdm.hpp), in which `compiled_model::fit` and `compiled_model::evaluate` run their loops over the batches
(include/model.hpp lines 124, 201), and `color::rize` (include/utils/color.hpp), on Linux.

Left to the environment, as anything: the clock (when a refresh is due, and the text of the times), the text of the percentage.  Simplified: the bar has
no prefix and no suffix (`fit` and `evaluate` set none), the counter of iterations does not overflow, writing to the stream does not fail.
-/
namespace Verif.Bar
open Verif Res Fp Nan

/-- `double`. -/
abbrev Dbl := Num float64

/-- The bytes of a text. -/
abbrev Text := List Nat

/-- A literal. -/
def lit (s : String) : Text := s.toList.map Char.toNat

/-! ### colours -/

/-- `color_foreground` (include/utils/color.hpp lines 41-60). -/
def foregrounds : List (String × String) :=
  [("Default", "39"), ("Black", "30"), ("Red", "31"), ("Green", "32"), ("Yellow", "33"), ("Blue", "34"), ("Magenta", "35"), ("Cyan", "36"), ("Light Gray", "37"),
   ("Dark Gray", "90"), ("Light Red", "91"), ("Light Green", "92"), ("Light Yellow", "93"), ("Light Blue", "94"), ("Light Magenta", "95"), ("Light Cyan", "96"), ("White", "97")]

/-- `color_background` (include/utils/color.hpp lines 62-81). -/
def backgrounds : List (String × String) :=
  [("Default", "49"), ("Black", "40"), ("Red", "41"), ("Green", "42"), ("Yellow", "43"), ("Blue", "44"), ("Megenta", "45"), ("Cyan", "46"), ("Light Gray", "47"),
   ("Dark Gray", "100"), ("Light Red", "101"), ("Light Green", "102"), ("Light Yellow", "103"), ("Light Blue", "104"), ("Light Magenta", "105"), ("Light Cyan", "106"), ("White", "107")]

/-- `formatting_set` (include/utils/color.hpp lines 84-93). -/
def formats : List (String × String) := [("Default", "0"), ("Bold", "1"), ("Dim", "2"), ("Underlined", "4"), ("Blink", "5"), ("Reverse", "7"), ("Hidden", "8")]

/-- `formatting_reset` (include/utils/color.hpp lines 95-104). -/
def resets : List (String × String) := [("All", "0"), ("Bold", "21"), ("Dim", "22"), ("Underlined", "24"), ("Blink", "25"), ("Reverse", "27"), ("Hidden", "28")]

/-- `if ( m.find( name ) == m.end() ) name = fallback` (include/utils/color.hpp lines 121-131). -/
def known (m : List (String × String)) (fallback name : String) : String := if (m.lookup name).isNone then fallback else name

/-- `m.at( name )` (include/utils/color.hpp lines 134-139): an exception that nothing catches ends the program. -/
def atKey (m : List (String × String)) (name : String) : Res Text :=
  match m.lookup name with
  | some v => ok (lit v)
  | none => abort

/-- `rize( source, foreground_color, background_color, set_formatting, reset_formatting )` (include/utils/color.hpp lines 111-142). -/
def rize (source : Text) (fg : String := "Default") (bg : String := "Default") (set : String := "Default") (reset : String := "All") : Res Text := do
  let fg := known foregrounds "Default" fg
  let bg := known backgrounds "Default" bg
  let set := known formats "Default" set
  let reset := known resets "All" reset
  let s ← atKey formats set
  let b ← atKey backgrounds bg
  let f ← atKey foregrounds fg
  let r ← atKey resets reset
  pure ([27] ++ lit "[" ++ s ++ lit ";" ++ b ++ lit ";" ++ f ++ lit "m" ++ source ++ [27] ++ lit "[" ++ r ++ lit "m")

/-! ### the bar -/

/-- `dm_details::get_terminal_width` (include/utils/tqdm.hpp lines 38-50).  `width` is what `ioctl` writes; it writes nothing when standard input is
no terminal, and `w.ws_col` is then read without ever having been written. -/
def terminalWidth (width : Option (BitVec 16)) : Res Nat :=
  match width with
  | some w => ok w.toNat
  | none => ub

/-- `bar_size_{ dm_details::get_terminal_width()-40 }` (include/utils/tqdm.hpp line 197). -/
def barSize (width : Option (BitVec 16)) : Res ℤ := do
  let w ← terminalWidth width
  pure ((w : ℤ) - 40)

/-- `std::string( n, ' ' )`: a negative number becomes a size larger than any string, and the exception ends the program. -/
def blanks (n : ℤ) : Res Text := if n < 0 then abort else ok (List.replicate n.toNat 32)

/-- `static_cast<index>( std::floor( x ) )` (include/utils/tqdm.hpp line 174). -/
def floorIndex (x : Dbl) : Res ℤ :=
  match x with
  | .num q _ => do
    require (-2 ^ 63 ≤ ⌊q⌋ ∧ ⌊q⌋ < 2 ^ 63)
    pure ⌊q⌋
  | _ => ub

/-- The three bytes of a full block. -/
def block : Text := [226, 150, 136]

/-- `for ( int idx = 0; idx != num_filled; ++idx ) ss << color::rize( "█", "Green" )` (include/utils/tqdm.hpp lines 176-177): an `int` that is
incremented at its largest value overflows. -/
def fillFrom (num : ℤ) (idx : Nat) (ss : Text) : Res Text :=
  if (idx : ℤ) = num then ok ss
  else do
    let c ← rize block "Green"
    if _h : idx < 2 ^ 31 - 1 then fillFrom num (idx + 1) (ss ++ c) else ub
termination_by 2 ^ 31 - idx

/-- `print_bar( ss, filled )` (include/utils/tqdm.hpp lines 172-179) on an empty stream. -/
def printBar (size : ℤ) (filled : Dbl) : Res Text := do
  let num ← floorIndex (filled * toNum float64 size)
  let ss ← fillFrom num 0 (lit "[")
  let sp ← blanks (size - num)
  let b ← rize sp "Default" "Light Green"
  pure (ss ++ b ++ lit "]")

/-- What the bar takes from its environment at the `k`-th call of `update`: whether a refresh is due, and the text of the percentage, of the time
and of the time that is left. -/
structure Env where
  due : Nat → Bool
  percent : Nat → Text
  elapsed : Nat → Text
  eta : Nat → Text

/-- `term_cols_` and what was written. -/
structure State where
  cols : ℤ
  frames : List Text

/-- `display( progress )` (include/utils/tqdm.hpp lines 152-170). -/
def display (size : ℤ) (E : Env) (k : Nat) (progress : Dbl) (st : State) : Res State := do
  let bar ← printBar size progress
  let t ← rize (E.elapsed k) "Magenta"
  let e ← rize (E.eta k) "Blue"
  let sbar := [13] ++ lit "{" ++ E.percent k ++ lit "%} " ++ bar ++ lit " (" ++ t ++ lit "s < " ++ e ++ lit "s) "
  let outSize : ℤ := sbar.length
  let cols := max st.cols outSize
  let sp ← blanks (cols - outSize)
  pure ⟨cols, st.frames ++ [sbar ++ sp]⟩

/-- `clamp( x, a, b )` (include/utils/tqdm.hpp lines 92-97). -/
def clamp (x a b : Dbl) : Dbl :=
  let x := if x < a then a else x
  if b < x then b else x

/-- `x == y`. -/
def same (x y : Dbl) : Bool :=
  match x, y with
  | .num p _, .num q _ => decide (p = q)
  | .inf s, .inf t => s == t
  | _, _ => false

/-- `progress_bar::update( progress )` (include/utils/tqdm.hpp lines 108-120). -/
def update (size : ℤ) (E : Env) (k : Nat) (progress : Dbl) (st : State) : Res State :=
  let progress := clamp progress 0 1
  if E.due k || same progress 0 || same progress 1 then display size E k progress st else ok st

/-- `calc_progress()` (include/utils/tqdm.hpp lines 343-350). -/
def calcProgress (done : Nat) (num : ℤ) : Dbl :=
  let denominator : Dbl := toNum float64 num
  let denominator := if num = 0 then denominator + toNum float64 (1 / 10 ^ 9) else denominator
  toNum float64 done / denominator

/-- `for ( auto l : tq::trange( first, last ) ) body` from the `done`-th comparison with the end on (include/utils/tqdm.hpp lines 220-236, 306-310,
483-508): the comparison updates the bar. -/
def trangeFrom {σ : Type} (size : ℤ) (E : Env) (num : ℤ) (last : BitVec 64) (body : Nat → σ → Res σ) (cur : BitVec 64) (done : Nat) (st : State) (s : σ) :
    Res (State × σ) := do
  let st ← update size E (done + 1) (calcProgress (done + 1) num) st
  if h : cur = last then ok (st, s)
  else do
    let s ← body cur.toNat s
    trangeFrom size E num last body (cur + 1#64) (done + 1) st s
termination_by (last - cur).toNat
decreasing_by bv_omega

/-- `for ( auto l : tq::trange( first, last ) ) body`, for `unsigned long` (include/utils/tqdm.hpp lines 276-299, 523-548): the number of iterations is the
difference, as a `ptrdiff_t`. -/
def trangeOf {σ : Type} (width : Option (BitVec 16)) (E : Env) (first last : BitVec 64) (body : Nat → σ → Res σ) (s : σ) : Res (State × σ) := do
  let size ← barSize width
  trangeFrom size E (last - first).toInt last body first 0 ⟨1, []⟩ s

/-- `for ( auto l : tq::trange( last ) ) body` (include/utils/tqdm.hpp lines 524, 550-554). -/
def trange {σ : Type} (width : Option (BitVec 16)) (E : Env) (last : BitVec 64) (body : Nat → σ → Res σ) (s : σ) : Res (State × σ) := trangeOf width E 0#64 last body s

/-! ### fit and evaluate with the bar -/

open Fit View Data
variable {σ α : Type}

/-- `compiled_model::fit` (include/model.hpp lines 163-226), with the bar; `E e` is the environment of epoch `e`. -/
def fit [Zero α] [Add α] [Div α] [NatCast α] (width : Option (BitVec 16)) (E : Nat → Env) (m : Machine σ α) (inputs outputs : Ten α) (bs epochs : Nat) (split : ℚ) (s : σ) :
    Res (List State × Frame σ α) := do
  let samples ← rd inputs.shape 0
  require (bs ≠ 0)
  let loops := samples / bs
  let T := trainingLoops split loops
  let x ← batchBuffer inputs bs
  let y ← batchBuffer outputs bs
  loop epochs (fun e (p : List State × Frame σ α) => do
    let (st, f) ← trange width (E e) (BitVec.ofNat 64 loops) (fitBody m inputs outputs x.data.length y.data.length T) { p.2 with te := 0, ve := 0 }
    pure (p.1 ++ [st], { f with trainErr := f.trainErr ++ [f.te / (T : α)], valErr := f.valErr ++ [f.ve / ((loops - T : Nat) : α)] }))
    ([], ⟨m.phase true (m.bind x y s), x, y, 0, 0, [], [], []⟩)

/-- `compiled_model::evaluate` (include/model.hpp lines 94-138), with the bar. -/
def evaluate [Zero α] [Add α] [Div α] [NatCast α] (width : Option (BitVec 16)) (E : Env) (m : Machine σ α) (inputs outputs : Ten α) (bs : Nat) (s : σ) : Res (State × α × Frame σ α) := do
  let samples ← rd inputs.shape 0
  require (bs ≠ 0)
  let loops := samples / bs
  let x ← batchBuffer inputs bs
  let y ← batchBuffer outputs bs
  let (st, f) ← trange width E (BitVec.ofNat 64 loops) (fun l f => do
    let (e, f) ← feed m inputs outputs x.data.length y.data.length l f
    pure { f with ve := f.ve + e })
    ⟨m.phase false (m.bind x y s), x, y, 0, 0, [], [], []⟩
  pure (st, f.ve / ((loops : Nat) : α), { f with s := m.phase true f.s })

end Verif.Bar
