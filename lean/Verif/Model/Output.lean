import Verif.Model.CheckILP
import Verif.Model.Preferences

/-!
# Model of `abcvoting/output.py` and of `full_analysis`
-/

namespace Abc

/-- The methods of `Output` (output.py:110-236) and their verbosity constants (output.py:22-28). -/
inductive Level
  | debug2 | debug | details | info | warning | error | critical
deriving DecidableEq, Repr

/-- output.py:22-28. -/
def Level.value : Level → ℤ
  | .critical => 50
  | .error => 40
  | .warning => 30
  | .info => 20
  | .details => 15
  | .debug => 10
  | .debug2 => 5

/-- A message passed to one of the methods: level, text, `wrap`, `indent` (output.py:110-236; defaults `wrap=True`, `indent=""`). -/
structure Msg where
  level : Level
  text : Name
  wrap : Bool := true
  indent : Name := []

/-- The global `Output` object (output.py:46-76, 239) together with what has been printed to the terminal and sent to the logger so
far. -/
structure Output where
  verbosity : ℤ := 30
  logger : Bool := false
  printed : List Name := []
  logged : List (ℤ × Name) := []

/-- `Output.set_verbosity` (output.py:78-87). -/
def Output.setVerbosity (o : Output) (v : ℤ) : Output := { o with verbosity := v }

/-- `"\n".join([fill(line) for line in msg.split("\n")])` (output.py:92-104). -/
def wrapText (fill : Name → Name → Name) (indent msg : Name) : Name :=
  ((msg.splitOn '\n').map (fill indent)).intersperse ['\n'] |>.flatten

/-- `Output._print` (output.py:89-108).  `fill indent line` is `textwrap.fill` with the parameters of output.py:95-101.  When a message is
printed, the logger gets the wrapped text (the variable `msg` is overwritten). -/
def Output.print (fill : Name → Name → Name) (o : Output) (m : Msg) : Output :=
  let show' := decide (m.level.value ≥ o.verbosity)
  let text := if show' && m.wrap then wrapText fill m.indent m.text else m.text
  let o := if show' then { o with printed := o.printed ++ [text] } else o
  if o.logger then
    let lvl := if m.level = .details ∨ m.level = .debug2 then Level.debug.value else m.level.value
    { o with logged := o.logged ++ [(lvl, text)] }
  else o

/-- Printing several messages, one after the other. -/
def Output.printAll (fill : Name → Name → Name) (o : Output) (ms : List Msg) : Output := ms.foldl (Output.print fill) o

/-- What a user (or the library) can do with the output object. -/
inductive OutputOp
  | setVerbosity (v : ℤ)
  | print (m : Msg)

/-- One operation. -/
def Output.step (fill : Name → Name → Name) (o : Output) : OutputOp → Output
  | .setVerbosity v => o.setVerbosity v
  | .print m => o.print fill m

/-- A history. -/
def Output.run (fill : Name → Name → Name) (o : Output) (ops : List OutputOp) : Output := ops.foldl (Output.step fill) o

/-- The loop of `full_analysis` (properties.py:63-64): the checks one after the other, each printing `msgs name`; an exception ends the
call. -/
def analysisLoop (fill : Name → Name → Name) (chk : String → Except Err Bool) (msgs : String → List Msg) :
    List String → Output → List (String × Bool) → Output × Except Err (List (String × Bool))
  | [], o, results => (o, .ok results)
  | name :: names, o, results =>
    match chk name with
    | .error e => (o.printAll fill (msgs name), .error e)
    | .ok b => analysisLoop fill chk msgs names (o.printAll fill (msgs name)) (results ++ [(name, b)])

/-- `full_analysis` (properties.py:38-84).  `chk name` is the value of `check(name, profile, committee)`, `msgs name` the messages this
call prints (before it returns or raises), `line` the text of properties.py:82. -/
def fullAnalysisWith (fill : Name → Name → Name) (chk : String → Except Err Bool) (msgs : String → List Msg)
    (line : String → Bool → Name) (o : Output) : Output × Except Err (List (String × Bool)) :=
  let current := o.verbosity
  let o := o.setVerbosity Level.warning.value
  match analysisLoop fill chk msgs propertyNames o [] with
  | (o, .error e) => (o, .error e)
  | (o, .ok results) =>
    let o := o.setVerbosity current
    (o.printAll fill (results.map (fun r => { level := .info, text := line r.1 r.2 })), .ok results)

/-- `full_analysis` (properties.py:38-84) with the model of `check`. -/
def fullAnalysis (fill : Name → Name → Name) (solve : Program → SolveResult) (solveMax : MaxProgram → SolveResult) (approved : List ℕ)
    (msgs : String → List Msg) (line : String → Bool → Name) (p : Profile) (committee : List ℤ) (o : Output) :
    Output × Except Err (List (String × Bool)) :=
  fullAnalysisWith fill (fun name => check solve solveMax approved name p committee none "fastest") msgs line o

end Abc
