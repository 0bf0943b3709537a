import Verif.Options.Spec
import Mathlib.Data.Int.Log
import Mathlib.Data.Rat.Floor
import Mathlib.Data.List.Sort

/-!
# Printing the options (`src/Utils/hiopOptions.cpp:491-548`)

`hiopOptions::print` writes one line per option, `name value # comment`, in the form an options file has.
Here is the printer, and, as a separate specification, what an options file says about an option.
-/

namespace Hiop.Options

/-- `%.3e` of a positive rational: four significant digits, rounded to nearest (a tie goes away from zero
here; C rounds the binary value, which is a tie only when it is one exactly), and an exponent.  The result
is the pair (four-digit integer, decimal exponent of the leading digit). -/
def e3 (v : ℚ) : ℕ × ℤ :=
  let e := Int.log 10 v
  let m := (⌊v / (10 : ℚ) ^ (e - 3) + 1 / 2⌋).toNat
  if m = 10000 then (1000, e + 1) else (m, e)

/-- The decimal digits of a natural number, padded to at least two (the exponent of `%e`). -/
def pad2 (n : ℕ) : String := if n < 10 then "0" ++ toString n else toString n

/-- `fprintf(f, "%.3e", val)` (`src/Utils/hiopOptions.cpp:513, 515`).  A value that is not a number prints
as `nan`. -/
def fmtNum : Option ℚ → String
  | none => "nan"
  | some v =>
    if v = 0 then "0.000e+00"
    else
      let p := e3 |v|
      let ds := toString p.1
      (if v < 0 then "-" else "") ++ String.ofList (ds.toList.take 1) ++ "." ++ String.ofList (ds.toList.drop 1)
        ++ "e" ++ (if p.2 < 0 then "-" else "+") ++ pad2 p.2.natAbs

/-- `fprintf(f, "%d", val)` (`src/Utils/hiopOptions.cpp:521, 523`). -/
def fmtInt (v : ℤ) : String := (if v < 0 then "-" else "") ++ toString v.natAbs

/-- The value column of `OptionNum::print`, `OptionInt::print` and `OptionStr::print`
(`src/Utils/hiopOptions.cpp:510-548`). -/
def fmtVal : Opt → String
  | .num v _ _ => fmtNum v
  | .int v _ _ => fmtInt v
  | .str v _ => v

/-- The comment after the value: type, range and description; `note` is that text.  The short form has no
comment (`src/Utils/hiopOptions.cpp:512-516, 520-524, 531-546`). -/
def comment (short : Bool) (note : String) : String := if short then "" else " \t# " ++ note

/-- The line of one option (`src/Utils/hiopOptions.cpp:501-505`). -/
def printLine (short : Bool) (note : String → String) (k : String) (o : Opt) : String :=
  k ++ " " ++ fmtVal o ++ comment short (note k)

/-- The options in the order of `std::map`: by name, byte-wise (`src/Utils/hiopOptions.cpp:501-502`). -/
def names (t : List (String × Opt)) : List String := (t.map Prod.fst).insertionSort (fun a b => a ≤ b)

/-- `hiopOptions::print(file)` without a message (`src/Utils/hiopOptions.cpp:491-508`), as the lines of the
file it writes.  The form is short when `print_options` says so. -/
def printStore (t : List (String × Opt)) (note : String → String) (m : Store) : List String :=
  ["#", "# Hiop options", "#"] ++
    (names t).filterMap (fun k => (m k).map fun e =>
      printLine (decide (getStr m "print_options" = some "short")) note k e.o) ++
    ["# end of Hiop options", ""]

/-- `hiopOptionsPriDec::print(file)` (`src/Utils/hiopOptions.cpp:1727-1739`): always the long form. -/
def printPriDec (t : List (String × Opt)) (note : String → String) (m : Store) : List String :=
  ["#", "# Hiop PriDec Solver options", "#"] ++
    (names t).filterMap (fun k => (m k).map fun e => printLine false note k e.o) ++
    ["# end of Hiop PriDec Solver options", ""]

/-! ### Specification: what a file says -/

/-- What one line of an options file says about option `k`: the line must start with the name `k` and the
value after it must be readable and in the registered range (strings are compared in lower case; a number
that is not a number passes, see `C26_nan_false`). -/
def lineSays (t : List (String × Opt)) (P : Parser) (k line : String) : Option Opt :=
  match tokens line with
  | name :: value :: _ =>
    if name = k ∧ name.toList.head? ≠ some '#' then
      match t.lookup k with
      | some (.num _ lb ub) =>
        match P.num value with
        | some (some q) => if lb ≤ q ∧ q ≤ ub then some (.num (some q) lb ub) else none
        | some none => some (.num none lb ub)
        | none => none
      | some (.int _ lb ub) =>
        match P.int value with
        | some q => if lb ≤ q ∧ q ≤ ub then some (.int q lb ub) else none
        | none => none
      | some (.str _ r) => if r = [] ∨ lower value ∈ r then some (.str (lower value) r) else none
      | none => none
    else none
  | _ => none

/-- What a whole file says: the last line that says something about `k` counts; otherwise the default. -/
def fileSays (t : List (String × Opt)) (P : Parser) (k : String) : List String → Option Opt
  | [] => none
  | l :: ls => (fileSays t P k ls).or (lineSays t P k l)

/-- The value of `k` according to a file: what the file says, or the default. -/
def valueIn (t : List (String × Opt)) (P : Parser) (file : List String) (k : String) : Option Opt :=
  (fileSays t P k file).or (t.lookup k)

end Hiop.Options
