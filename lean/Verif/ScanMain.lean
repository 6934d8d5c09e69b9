import Verif.ScanText
import Verif.Registry

/-!
# cmd/aminoscan: main

The command line of aminoscan: the flag package of Go as far as `main` uses it (two flags, `flag.ExitOnError`), and what
`main` does with the result.  `args` is `os.Args[1:]`.  What the flag package itself prints goes to the standard error and
is not modelled.
-/

namespace Amino

/-- The variables set by the flags (aminoscan.go:22-26). -/
structure Flags where
  color : Bool := false
  name : Bytes := []
  deriving DecidableEq, Repr

/-- strconv `ParseBool`. -/
def parseBool (s : Bytes) : Option Bool :=
  if s ∈ [ascii "1", ascii "t", ascii "T", ascii "true", ascii "TRUE", ascii "True"] then some true
  else if s ∈ [ascii "0", ascii "f", ascii "F", ascii "false", ascii "FALSE", ascii "False"] then some false
  else none

/-- flag `parseOne`: `for i := 1; i < len(name); i++ { if name[i] == '=' ...`, name and value of an argument, from its
second byte on. -/
def cutEq : Bytes → Bytes × Option Bytes
  | [] => ([], none)
  | b :: r => if b = 0x3d then ([], some r) else (b :: (cutEq r).1, (cutEq r).2)

/-- flag `(*FlagSet).Parse` and `parseOne` with the flags of aminoscan.go:25-26: the variables and the remaining arguments;
`none` if it ends the program (`flag.ExitOnError`, also for `-help` and `-h`). -/
def parseFlags (fl : Flags) : List Bytes → Option (Flags × List Bytes)
  | [] => some (fl, [])
  | s :: args =>
    if s.length < 2 ∨ s.head? ≠ some 0x2d then some (fl, s :: args)
    else if s = [0x2d, 0x2d] then some (fl, args)
    else
      match (if (s.drop 1).head? = some 0x2d then s.drop 2 else s.drop 1) with
      | [] => none
      | c :: r =>
        if c = 0x2d ∨ c = 0x3d then none
        else if c :: (cutEq r).1 = ascii "color" then
          match (cutEq r).2 with
          | none => parseFlags { fl with color := true } args
          | some v =>
            match parseBool v with
            | some b => parseFlags { fl with color := b } args
            | none => none
        else if c :: (cutEq r).1 = ascii "concrete-name" then
          match (cutEq r).2, args with
          | some v, args => parseFlags { fl with name := v } args
          | none, v :: args => parseFlags { fl with name := v } args
          | none, [] => none
        else none

/-- How a run of aminoscan ends: `main` returns after printing `out`; the flag package ends the program; there is a panic
before anything is printed; or scanning panics or goes on forever. -/
inductive Ran
  | printed (out : Bytes)
  | exited
  | crashed
  | lost
  deriving DecidableEq, Repr

/-- aminoscan.go:17. -/
def usageText : Bytes := ascii "Usage: aminoscan <STRUCT HEXBYTES> or --help\n"

/-- aminoscan.go:29-35. -/
def helpText : Bytes := ascii "Usage: aminoscan <STRUCT HEXBYTES> or --help\n\t\t\n\t\tYou can also use aminoscan to print \"colored\" bytes.  This view will\n\t\ttry to display bytes in ascii in a different color if it happens to be\n\t\ta printable character.\n\n\t\t> aminoscan --color <HEXBYTES>\n"

/-- aminoscan.go:46. -/
def colorUsage : Bytes := ascii "Usage: aminoscan --color <HEXBYTES>\n"

/-- aminoscan.go:54-58. -/
def nameMain (H : Bytes → Bytes) (name : Bytes) : Ran :=
  match nameToDisfix H name with
  | .ok dp => .printed (ascii "Disamb bytes: " ++ hexBytes dp.1 ++ ascii "\nPrefix bytes: " ++ hexBytes dp.2 ++ ascii "\n")
  | _ => .crashed

/-- aminoscan.go:14-67 `main`.  Line 28, `err == flag.ErrHelp`, is never reached: `Parse` does not return errors. -/
def aminoscan (H : Bytes → Bytes) (fuel : Nat) : List Bytes → Ran
  | [] => .printed usageText
  | a :: args =>
    match parseFlags {} (a :: args) with
    | none => .exited
    | some (fl, rest) =>
      if fl.color then
        match rest with
        | [] | [] :: _ => .printed colorUsage
        | h :: _ =>
          match hexDecode h with
          | some bz => .printed (colorMain bz)
          | none => .crashed
      else if fl.name ≠ [] then nameMain H fl.name
      else
        match hexDecode a with
        | none => .crashed
        | some bz =>
          match scanMain fuel bz with
          | some out => .printed out
          | none => .lost

end Amino
