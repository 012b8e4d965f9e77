import Verif.MpbData.MainModel
import Verif.MpbData.FileSpec

/-!
# What the command line of `mpb-data` means (specification of C123, after utils/mpb-data.1)
-/

namespace Mpb.MpbData.Spec

/-- The value of the last option of a kind; `sel` picks the options of that kind and their values. -/
def latest {α : Type} (sel : Flag → Option α) (flags : List Flag) : Option α := (flags.filterMap sel).getLast?

/-- `-o` -/
def outFlag : Flag → Option (List Char) | .out s => some s | _ => none
/-- `-d` -/
def dataFlag : Flag → Option (List Char) | .data s => some s | _ => none
/-- `-x`, or `-m`, which stands for `-x -y -z` -/
def xFlag : Flag → Option ℝ | .x r => some r | .m r => some r | _ => none
/-- `-y`, or `-m` -/
def yFlag : Flag → Option ℝ | .y r => some r | .m r => some r | _ => none
/-- `-z`, or `-m` -/
def zFlag : Flag → Option ℝ | .z r => some r | .m r => some r | _ => none
/-- `-n` -/
def nFlag : Flag → Option ℝ | .n r => some r | _ => none
/-- `-P` -/
def phaseFlag : Flag → Option ℝ | .phase r => some r | _ => none
/-- `-e` -/
def dirFlag : Flag → Option (V3 ℝ) | .dir v => v | _ => none
/-- `-p` -/
def isPixel : Flag → Bool | .pixel => true | _ => false
/-- `-T` -/
def isTranspose : Flag → Bool | .transpose => true | _ => false
/-- `-r`, or `-e`, which includes it -/
def isRect : Flag → Bool | .rect => true | .dir _ => true | _ => false
/-- `-h` or `-V` -/
def isInfo : Flag → Bool | .help => true | .version => true | _ => false

/-- An option after which the program goes on: not `-h` or `-V`, not an unknown one, `-n` with a positive number, `-e` with
three numbers. -/
def Usable : Flag → Prop
  | .help => False
  | .version => False
  | .invalid => False
  | .n r => 0 < r
  | .dir v => v.isSome
  | _ => True

/-- The options that apply to a file: `first` says whether it is the first on the command line, `dname` is the dataset named
after the colon (empty if none is).  The output goes to another file for the first file with `-o`; a dataset named with the
file precedes over `-d`. -/
noncomputable def options (flags : List Flag) (first : Bool) (dname : List Char) : Opts where
  same := !(first && (latest outFlag flags).isSome)
  dataName := if dname = [] then latest dataFlag flags else some dname
  rect := flags.any isRect
  ve := latest dirFlag flags
  resolution := (latest nFlag flags).getD 0
  scaleby := Complex.exp (2 * Real.pi * Complex.I * ((latest phaseFlag flags).getD 0 : ℝ) / 360)
  mult := ⟨(latest xFlag flags).getD 1, (latest yFlag flags).getD 1, (latest zFlag flags).getD 1⟩
  nearest := flags.any isPixel
  transpose := flags.any isTranspose

/-- The options without `-o`. -/
def withoutOut (flags : List Flag) : List Flag := flags.filter fun f => (outFlag f).isNone

/-- The name of a dataset given for a file, if any. -/
def dataset (flags : List Flag) (dname : List Char) : List Char :=
  if dname = [] then (latest dataFlag flags).getD [] else dname

/-- The argument `arg` names the file `file` and the dataset `dname` (empty: none): `file` or `file:dname`. -/
def Names (arg file dname : List Char) : Prop := ':' ∉ file ∧ (arg = file ∧ dname = [] ∨ arg = file ++ ':' :: dname)

/-- First one run of the program, then, if it finished, another. -/
def andThen (r : Result) (next : FS → Result) : Result :=
  match r with
  | .finished fs => next fs
  | r => r

/-- The file the output for the first argument goes to. -/
def outPath (flags : List Flag) (path : List Char) : List Char :=
  match latest outFlag flags with
  | some p => IO.addSuffix p
  | none => path

end Mpb.MpbData.Spec
