import Verif.Model.Value

/-!
Model of `blmath/console.py`.

`plumbum.cli.terminal.prompt` is third-party; `promptLoop` states the behaviour relied on: read
stripped lines until one is acceptable.  Text layout of the prompt is not modelled.
-/

namespace Blmath.Console
variable {α : Type} [Num α] [Trig α]

/-- `terminal.prompt(question, type=float, default=...)`: an empty line returns the default if
one was passed and asks again otherwise; an unparsable line asks again.  `none` means
the given lines ran out (still waiting).  `parse` is `float`. -/
def promptLoop {ρ : Type} (parse : String → Option ρ) (default : Option (Option ρ)) :
    List String → Option (Option ρ)
  | [] => none
  | l :: ls =>
    if l = "" then
      match default with
      | some d => some d
      | none => promptLoop parse default ls
    else match parse l with
      | some x => some (some x)
      | none => promptLoop parse default ls

/-- `input_float`.  console.py:3-15 -/
def inputFloat (parse : String → Option α) (allowEmpty : Bool) (lines : List String) :
    Option (Option α) :=
  if allowEmpty then promptLoop parse (some none) lines else promptLoop parse none lines

/-- `input_value`.  console.py:17-37.  Outer `none`: still waiting for input. -/
def inputValue (parse : String → Option α) (units : Option String) (allowEmpty : Bool)
    (lines : List String) : Option (PyM (Option (Value α))) :=
  match inputFloat parse allowEmpty lines with
  | none => none
  | some none => some (.ok none)
  | some (some x) => some (do
      let v ← Value.make (some x) units
      pure (some v))

end Blmath.Console
