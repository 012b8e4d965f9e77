import Verif.MpbData.FileModel
import Verif.IO.Model

/-!
# Model of the command line of `mpb-data` (`utils/mpb-data.c:692-710, 776-892`)

`getopt`, `atof` and `sscanf` are external: an option is modelled with its argument already converted.  A file system is a
function from paths to the datasets of the HDF5 file there.  HDF5 refuses to create a file that is open.  Whether the
messages of `-v` are printed is not modelled.
-/

namespace Mpb.MpbData

/-- The options accepted by `getopt` (utils/mpb-data.c:790-861).  The argument of `-e` is absent if it is not three
numbers; `invalid` is what `getopt` reports for an unknown option or a missing argument. -/
inductive Flag
  | help
  | version
  | verbose
  | out (s : List Char)
  | data (s : List Char)
  | x (r : ℝ)
  | y (r : ℝ)
  | z (r : ℝ)
  | m (r : ℝ)
  | n (r : ℝ)
  | phase (deg : ℝ)
  | pixel
  | transpose
  | dir (v : Option (V3 ℝ))
  | rect
  | invalid

/-- The local variables of `main` (utils/mpb-data.c:778-788); `ve` is present if `have_ve` is 1. -/
structure Cfg where
  out : Option (List Char)
  data : Option (List Char)
  rect : Bool
  ve : Option (V3 ℝ)
  angle : ℝ
  resolution : ℝ
  mult : V3 ℝ
  nearest : Bool
  transpose : Bool

/-- Their initial values (utils/mpb-data.c:778-788). -/
noncomputable def cfg0 : Cfg := ⟨none, none, false, none, 0, 0, ⟨1, 1, 1⟩, false, false⟩

/-- Before any file is touched: go on, or leave the program with success or failure. -/
inductive Parsed
  | go (c : Cfg)
  | exit (ok : Bool)

open Classical in
/-- One turn of the `switch` (utils/mpb-data.c:791-861). -/
noncomputable def parseFlag (c : Cfg) : Flag → Parsed
  | .help => .exit true
  | .version => .exit true
  | .verbose => .go c
  | .out s => .go { c with out := some s }
  | .data s => .go { c with data := some s }
  | .x r => .go { c with mult := ⟨r, c.mult.y, c.mult.z⟩ }
  | .y r => .go { c with mult := ⟨c.mult.x, r, c.mult.z⟩ }
  | .z r => .go { c with mult := ⟨c.mult.x, c.mult.y, r⟩ }
  | .m r => .go { c with mult := ⟨r, r, r⟩ }
  | .n r => if 0 < r then .go { c with resolution := r } else .exit false
  | .phase d => .go { c with angle := d }
  | .pixel => .go { c with nearest := true }
  | .transpose => .go { c with transpose := true }
  | .dir (some v) => .go { c with ve := some v, rect := true }
  | .dir none => .exit false
  | .rect => .go { c with rect := true }
  | .invalid => .exit false

/-- utils/mpb-data.c:790-861: the loop over the options. -/
noncomputable def parse : List Flag → Cfg → Parsed
  | [], c => .go c
  | f :: l, c =>
    match parseFlag c f with
    | .go c' => parse l c'
    | .exit ok => .exit ok

/-- utils/mpb-data.c:867-870, `TWOPI` being 2π: the factor for complex data. -/
noncomputable def phaseOf (angle : ℝ) : ℂ :=
  ⟨Real.cos (2 * Real.pi * angle / 360), Real.sin (2 * Real.pi * angle / 360)⟩

/-- utils/mpb-data.c:872-883: the arguments of `handle_file`; `dname` is what follows the colon and `out` the current value
of `out_fname`. -/
noncomputable def fileOpts (c : Cfg) (dname : List Char) (out : Option (List Char)) : Opts :=
  ⟨out.isNone, if dname = [] then c.data else some dname, c.rect, c.ve, c.resolution, phaseOf c.angle, c.mult, c.nearest,
    c.transpose⟩

/-- A string and its terminating null character fit into an array of `cap` characters. -/
def fits (cap : ℕ) (s : List Char) : Bool := s.length + 1 ≤ cap

/-- The character arrays of utils/mpb-data.c:261, 341-353 (`out_name`) and 693-704 (`name_re`, `name_im`) hold all strings
copied into them without a length check. -/
def buffersOk (o : Opts) : Bool :=
  (names o).all fun n =>
    fits 300 n && fits 300 (n ++ ".r".toList) && fits 300 (n ++ ".i".toList) && fits 1000 (outName o n) &&
      fits 1000 (outName o (n ++ ".r".toList)) && fits 1000 (outName o (n ++ ".i".toList))

/-- Files by path. -/
abbrev FS := List Char → Option H5

/-- What happened to one file: it was transformed; the program stopped with a message; a string was written beyond the end
of its array. -/
inductive Step
  | ok (fs : FS) (c : Cache)
  | stopped
  | overflow

open Classical in
/-- utils/mpb-data.c:872-888, one turn of the loop over the files: `split_fname`, `handle_file` (564-565 opens the file, which
must exist; 680-690 creates the output file or uses the input file). -/
noncomputable def handlePath (cfg : Cfg) (junk : ℕ → ℝ) (out : Option (List Char)) (arg : List Char) (fs : FS) (c : Cache) :
    Step :=
  let sp := splitFname arg
  let path := IO.addSuffix sp.1
  let o := fileOpts cfg sp.2 out
  match fs path with
  | none => .stopped
  | some f =>
    match out with
    | none =>
      if buffersOk o then
        match handleFile o junk f c with
        | none => .stopped
        | some s => .ok (Function.update fs path (some s.inF)) s.cache
      else .overflow
    | some p =>
      if IO.addSuffix p = path then .stopped
      else if buffersOk o then
        match handleFile o junk f c with
        | none => .stopped
        | some s => .ok (Function.update fs (IO.addSuffix p) (some s.outF)) s.cache
      else .overflow

/-- How the program ends: all files transformed; leaving before any file is touched; stopping at a file, those before it
being finished; a memory error. -/
inductive Result
  | finished (fs : FS)
  | exit (ok : Bool)
  | stopped (fs : FS)
  | overflow

/-- utils/mpb-data.c:872-888: the loop over the files; `out_fname` is cleared after the first. -/
noncomputable def handlePaths (cfg : Cfg) (junk : ℕ → ℝ) : Option (List Char) → List (List Char) → FS → Cache → Result
  | _, [], fs, _ => .finished fs
  | out, a :: l, fs, c =>
    match handlePath cfg junk out a fs c with
    | .ok fs' c' => handlePaths cfg junk none l fs' c'
    | .stopped => .stopped fs
    | .overflow => .overflow

/-- utils/mpb-data.c:776-892 `main`, with the options and the remaining arguments as `getopt` finds them. -/
noncomputable def main (flags : List Flag) (args : List (List Char)) (junk : ℕ → ℝ) (fs : FS) : Result :=
  match parse flags cfg0 with
  | .exit ok => .exit ok
  | .go cfg => if args = [] then .exit false else handlePaths cfg junk cfg.out args fs cache0

end Mpb.MpbData
