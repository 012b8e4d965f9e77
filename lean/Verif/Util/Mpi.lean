import Mathlib.Data.Nat.Notation
import Mathlib.Data.List.Basic
import Mathlib.Data.Int.Notation

/-!
# Model of src/util/mpi_utils.c

MPI is an external library: its size, ranks, communicator handles and messages are modelled by the parts of its interface used here.
-/

namespace Mpb.Util

/-! ## divide_parallel_processes -/

/-- The largest C `int` (32 bits). -/
def intMax : ℕ := 2147483647

/-- The outcome of a call: a value, a failed `CHECK` (the program ends with an error message), or undefined behaviour (signed overflow). -/
inductive Outcome (α : Type) where
  | ok (a : α)
  | die
  | ub
deriving DecidableEq, Repr

/-- `divide_parallel_processes`, mpi_utils.c:73-85, with MPI: `sz` processes in `MPI_COMM_WORLD`, this one having number `rank`; the group number, also the colour passed to
`MPI_Comm_split`. -/
def divideMPI (sz rank : ℕ) (numgroups : ℤ) : Outcome ℕ :=
  if ¬ numgroups > 0 then .die
  else if ¬ numgroups ≤ sz then .die
  else if rank * numgroups.toNat > intMax then .ub
  else .ok (rank * numgroups.toNat / sz)

/-- `divide_parallel_processes` without MPI, mpi_utils.c:86-88: `CHECK(numgroups != 1, ...)`. -/
def divideSerial (numgroups : ℤ) : Outcome ℕ :=
  if numgroups ≠ 1 then .ok 0 else .die

/-! ## Communicators -/

/-- A communicator handle: `MPI_COMM_WORLD` or the result of the `k`-th split. -/
inductive Comm where
  | world
  | group (k : ℕ)
deriving DecidableEq, Repr

/-- `mpb_comm`, `mpb_comm_save`, mpi_utils.c:32-62, with the list of communicators created and not yet freed, and the number of splits made. -/
structure CommState where
  comm : Comm
  save : Comm
  live : List Comm
  splits : ℕ

/-- The initial values, mpi_utils.c:33, 61. -/
def commInit : CommState := ⟨.world, .world, [], 0⟩

/-- `MPI_Comm_free`; `none` when the handle is not live. -/
def commFree (c : Comm) (live : List Comm) : Option (List Comm) := if c ∈ live then some (live.erase c) else none

/-- `end_divide_parallel`, mpi_utils.c:64-71. -/
def endDivide (s : CommState) : Option CommState :=
  (if s.comm ≠ .world then commFree s.comm s.live else some s.live).bind fun l =>
  (if s.save ≠ .world then commFree s.save l else some l).map fun l =>
  { s with comm := .world, save := .world, live := l }

/-- `divide_parallel_processes`, mpi_utils.c:73-85, for a permitted number of groups: the effect on the communicators. -/
def divide (s : CommState) : Option CommState :=
  (endDivide s).map fun s => { s with comm := .group s.splits, live := .group s.splits :: s.live, splits := s.splits + 1 }

/-- `begin_global_communications`, mpi_utils.c:91-97. -/
def beginGlobal (s : CommState) : CommState := { s with save := s.comm, comm := .world }

/-- `end_global_communications`, mpi_utils.c:99-105. -/
def endGlobal (s : CommState) : CommState := { s with comm := s.save, save := .world }

/-- The calls a program can make. -/
inductive CommOp where
  | divide
  | beginG
  | endG
  | endDiv
deriving DecidableEq, Repr

/-- One call. -/
def commStep (s : CommState) : CommOp → Option CommState
  | .divide => divide s
  | .beginG => some (beginGlobal s)
  | .endG => some (endGlobal s)
  | .endDiv => endDivide s

/-- A history of calls. -/
def commRun (s : CommState) : List CommOp → Option CommState
  | [] => some s
  | o :: os => (commStep s o).bind fun s => commRun s os

/-! ## Critical sections -/

/-- Where a process is: before the next critical section, inside it, or in `MPI_Send` of mpi_end_critical_section with its message posted. -/
inductive Phase where
  | out
  | inside
  | sending
deriving DecidableEq, Repr

/-- A process: the number of the section it is before or in, and its phase. -/
structure Proc where
  sec : ℕ
  ph : Phase
deriving DecidableEq, Repr

/-- All the processes, and for each rank `r` the messages (tags) from `r` to `r + 1` not yet received. -/
structure World where
  proc : ℕ → Proc
  chan : ℕ → List ℤ

/-- The start. -/
def worldInit : World := ⟨fun _ => ⟨0, .out⟩, fun _ => []⟩

/-- One step of process `r` among `P`, every process going through the sections with tags `tags`.
`sync` is true for an MPI in which `MPI_Send` returns only when the message has been received; otherwise `MPI_Send` may return at any time.

* `enter0`: `mpi_begin_critical_section` on rank 0, mpi_utils.c:197-202, does not wait;
* `enter`: on other ranks, mpi_utils.c:202-208, it waits for a message with the tag from the previous rank (MPI delivers the oldest message with that tag);
* `leaveLast`: `mpi_end_critical_section` on the last rank, mpi_utils.c:211-219, sends nothing;
* `post`, `finish`: on other ranks `MPI_Send` starts and returns. -/
inductive Step (P : ℕ) (tags : List ℤ) (sync : Bool) : World → World → Prop
  | enter0 (w : World) (hP : 0 < P) (hp : (w.proc 0).ph = .out) (hs : (w.proc 0).sec < tags.length) :
      Step P tags sync w { w with proc := Function.update w.proc 0 ⟨(w.proc 0).sec, .inside⟩ }
  | enter (w : World) (r : ℕ) (hr : r + 1 < P) (hp : (w.proc (r + 1)).ph = .out) (hs : (w.proc (r + 1)).sec < tags.length)
      (hm : tags[(w.proc (r + 1)).sec] ∈ w.chan r) :
      Step P tags sync w { proc := Function.update w.proc (r + 1) ⟨(w.proc (r + 1)).sec, .inside⟩,
                           chan := Function.update w.chan r ((w.chan r).erase tags[(w.proc (r + 1)).sec]) }
  | leaveLast (w : World) (r : ℕ) (hr : r < P) (hp : (w.proc r).ph = .inside) (hl : r = P - 1) :
      Step P tags sync w { w with proc := Function.update w.proc r ⟨(w.proc r).sec + 1, .out⟩ }
  | post (w : World) (r : ℕ) (hr : r < P) (hp : (w.proc r).ph = .inside) (hl : r ≠ P - 1) (hs : (w.proc r).sec < tags.length) :
      Step P tags sync w { proc := Function.update w.proc r ⟨(w.proc r).sec, .sending⟩,
                           chan := Function.update w.chan r (w.chan r ++ [tags[(w.proc r).sec]]) }
  | finish (w : World) (r : ℕ) (hr : r < P) (hp : (w.proc r).ph = .sending) (hc : sync = true → w.chan r = []) :
      Step P tags sync w { w with proc := Function.update w.proc r ⟨(w.proc r).sec + 1, .out⟩ }

/-- The states some schedule reaches. -/
inductive Reach (P : ℕ) (tags : List ℤ) (sync : Bool) : World → Prop
  | init : Reach P tags sync worldInit
  | step {w w' : World} : Reach P tags sync w → Step P tags sync w w' → Reach P tags sync w'

end Mpb.Util
