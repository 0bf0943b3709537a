import Verif.Options.Spec

/-!
# Messages about options (`src/Utils/hiopOptions.cpp:476-489`, `src/Utils/hiopLogger.cpp`)

`hiopOptions::log_printf` formats a message and then hands the result to `hiopLogger::printf` (or
`printf_error`) *as a format string*, so it is formatted a second time, without arguments.  Here is what
`vsnprintf` does to the conversions these messages use, the two loggers, and the messages that reading an
options file or a setter call produces.  Undefined behaviour is `none`.
-/

namespace Hiop.Options

/-- `vsnprintf` on the conversions in use: `%s`, `%d`, `%g` consume one argument (given here as its printed
text), `%%` is a per cent sign, everything else after a `%` (and a missing argument) is undefined behaviour.
Other conversions (`%c`, `%5d`, ...) also consume arguments; no message of `hiopOptions` uses them and in the
second pass, where there are no arguments, they are undefined as well. -/
def render : List Char → List String → Option (List Char)
  | [], _ => some []
  | '%' :: '%' :: r, as => (render r as).map ('%' :: ·)
  | '%' :: c :: r, a :: as =>
    if c = 's' ∨ c = 'd' ∨ c = 'g' then (render r as).map (a.toList ++ ·) else none
  | '%' :: _, _ => none
  | c :: r, as => (render r as).map (c :: ·)

/-- `vsnprintf(buff, n, format, args)`: at most `n - 1` characters. -/
def vsn (n : ℕ) (fmt : List Char) (as : List String) : Option (List Char) :=
  (render fmt as).map (List.take (n - 1))

/-- `hiopLogger`: whether this rank is the master and the current `verbosity_level`
(`src/Utils/hiopLogger.hpp:88-131`). -/
structure Logger where
  master : Bool
  verbosity : ℤ

/-- What a message leads to. -/
inductive Out
  | silent
  | stdout (s : List Char)
  | stderr (s : List Char)
  deriving DecidableEq

/-- `hovError`, `hovWarning` (`src/Utils/hiopLogger.hpp:72, 74`). -/
def hovError : ℤ := -1
/-- `hovWarning` (`src/Utils/hiopLogger.hpp:74`). -/
def hovWarning : ℤ := 1

/-- The label in front of a message (`src/Utils/hiopLogger.cpp:140-143`). -/
def label (v : ℤ) : List Char :=
  if v = hovError then "[Error] ".toList else if v = hovWarning then "[Warning] ".toList else []

/-- `hiopLogger::printf` (`src/Utils/hiopLogger.cpp:134-151`): other ranks than the master and messages above
the verbosity level are dropped before anything is formatted. -/
def Logger.printf (L : Logger) (v : ℤ) (fmt : List Char) (as : List String) : Option Out :=
  if !L.master then some .silent
  else if v > L.verbosity then some .silent
  else (vsn 4096 fmt as).map fun s => .stdout (label v ++ s)

/-- The prefix of `printf_error` (`src/Utils/hiopLogger.cpp:159-165`). -/
def errPrefix (v : ℤ) : List Char :=
  if v ≤ hovError then "ERROR: ".toList else if v ≤ hovWarning then "WARNING: ".toList else []

/-- `hiopLogger::printf_error` (`src/Utils/hiopLogger.cpp:153-167`). -/
def printfError (v : ℤ) (fmt : List Char) (as : List String) : Option Out :=
  (vsn 4096 fmt as).map fun s => .stderr (errPrefix v ++ s)

/-- `hiopOptions::log_printf` (`src/Utils/hiopOptions.cpp:476-489`); `log` is `log_`, null until the solver
has created its logger, in particular while the options file is read. -/
def logPrintf (log : Option Logger) (v : ℤ) (fmt : List Char) (as : List String) : Option Out :=
  match vsn 1024 fmt as with
  | none => none
  | some buff =>
    match log with
    | some L => L.printf v buff []
    | none => printfError v buff []

/-- A message: format and arguments. -/
abbrev Msg := String × List String

/-- `ltrim` (`src/Utils/hiopOptions.cpp:141-152`). -/
def ltrim (s : String) : String := String.ofList (s.toList.dropWhile isSpace)

/-- The choices of a string option as shown in a message (`src/Utils/hiopOptions.cpp:451-454`). -/
def showRange (r : List String) : String := r.foldl (fun s c => s ++ c ++ " ") " "

/-- The messages of a setter call (`src/Utils/hiopOptions.cpp:271-317, 342-386, 416-474`).  `G` is `%g`; `I`
is `%d`.  The messages of the consistency pass, whose arguments are registered choices, are not included. -/
def callMsgs (G : Option ℚ → String) (I : ℤ → String) (m : Store) : Call → List Msg
  | .num k v f =>
    match m k with
    | some ⟨.num old lb ub, inF, _⟩ =>
      if inF && !f then
        [("Hiop will ignore value '%g' set for option '%s' at runtime since this option is already specified in the option file.\n",
          [G v, k])]
      else if outside v lb ub then
        [("Hiop: option '%s' must be in [%g,%g]. Default value %g will be used.\n",
          [k, G (some lb), G (some ub), G old])]
      else []
    | some _ =>
      [("Hiop does not know option '%s' as 'numeric'. Maybe it is an 'integer' or 'string' value? The option will be ignored.\n",
        [k])]
    | none => [("Hiop does not understand option '%s' and will ignore its value '%g'.\n", [k, G v])]
  | .int k v f =>
    match m k with
    | some ⟨.int old lb ub, inF, _⟩ =>
      if inF && !f then
        [("Hiop will ignore value '%d' set for option '%s' at runtime since this option is already specified in the option file.\n",
          [I v, k])]
      else if v < lb ∨ v > ub then
        [("Hiop: option '%s' must be in [%d, %d]. Default value %d will be used.\n", [k, I lb, I ub, I old])]
      else []
    | some _ =>
      [("Hiop does not know option '%s' as 'integer'. Maybe it is an 'numeric' or a 'string' option? The option will be ignored.\n",
        [k])]
    | none => [("Hiop does not understand option '%s' and will ignore its value '%d'.\n", [k, I v])]
  | .str k v f =>
    match m k with
    | some ⟨.str old r, inF, _⟩ =>
      if inF && !f then
        [("Hiop will ignore value '%s' set for option '%s' at runtime since this option is already specified in the option file.\n",
          [v, k])]
      else if strOutside (lower v) r then
        [("Hiop: value '%s' for option '%s' must be one of [%s]. Default value '%s' will be used.\n",
          [v, k, showRange r, old])]
      else []
    | some _ =>
      [("Hiop does not know option '%s' as 'string'. Maybe it is an 'integer' or a 'string' option? The option will be ignored.\n",
        [k])]
    | none => [("Hiop does not understand option '%s' and will ignore its value '%s'.\n", [k, v])]

/-- The messages of one line of the options file (`src/Utils/hiopOptions.cpp:171-239`). -/
def lineMsgs (G : Option ℚ → String) (I : ℤ → String) (P : Parser) (m : Store) (line : String) : List Msg :=
  match tokens line with
  | [] => []
  | [w] =>
    if w.toList.head? = some '#' then []
    else [("Hiop could not parse and ignored line '%s' from the option file\n", [ltrim line])]
  | name :: value :: _ =>
    if name.toList.head? = some '#' then []
    else
      match m name with
      | some ⟨.num old _ _, _, _⟩ =>
        match P.num value with
        | some v => callMsgs G I m (.num name v true)
        | none =>
          [("Hiop could not parse value '%s' as double for option '%s' specified in the option file and will use default value '%g'\n",
            [value, name, G old])]
      | some ⟨.str .., _, _⟩ => callMsgs G I m (.str name value true)
      | some ⟨.int old _ _, _, _⟩ =>
        match P.int value with
        | some v => callMsgs G I m (.int name v true)
        | none =>
          [("Hiop could not parse value '%s' as int for option '%s' specified in the option file and will use default value '%d'\n",
            [value, name, I old])]
      | none =>
        [("Hiop does not understand option '%s' specified in the option file and will ignore its value '%s'.\n",
          [name, value])]

/-! ### Specification -/

/-- Per cent signs come in pairs: what a format without arguments may contain. -/
inductive Paired : List Char → Prop
  | nil : Paired []
  | char (c : Char) (r : List Char) : c ≠ '%' → Paired r → Paired (c :: r)
  | pair (r : List Char) : Paired r → Paired ('%' :: '%' :: r)

/-- The text contains no per cent sign. -/
def NoPct (s : List Char) : Prop := '%' ∉ s

end Hiop.Options
