import Mathlib.Data.List.Basic
import Mathlib.Data.Int.Basic

/-! # Model of the treatment of the command line by `ctl_start_hook` (mpb/mpb.c:97-136), builds with OpenMP -/

namespace Mpb.Util

/-- `!strncasecmp("--nthread=", s, 10)`, mpb/mpb.c:106 (ASCII). -/
def isNthread (s : List Char) : Bool := (s.take 10).map Char.toLower == "--nthread=".toList

/-- The loop mpb/mpb.c:105-113 from the argument `i` on: `before` has been looked at, `rest` not.  When an option is removed, the arguments after it
move down, and `i` moves on: the argument after it is not looked at.  `atoi` is C's.  `none`: the program stops (mpb/mpb.c:108). -/
def nthreadLoop (atoi : List Char → ℤ) : (nthread : ℤ) → (before rest : List (List Char)) → Option (ℤ × List (List Char))
  | n, before, [] => some (n, before)
  | n, before, [a] =>
    if isNthread a then if 0 < atoi (a.drop 10) then some (atoi (a.drop 10), before) else none else some (n, before ++ [a])
  | n, before, a :: b :: rest =>
    if isNthread a then if 0 < atoi (a.drop 10) then nthreadLoop atoi (atoi (a.drop 10)) (before ++ [b]) rest else none
    else nthreadLoop atoi n (before ++ [a]) (b :: rest)

/-- `ctl_start_hook`, mpb/mpb.c:101-117: the number of threads and the arguments left for libctl; `senthread` is the variable `OMP_NUM_THREADS`. -/
def startHook (atoi : List Char → ℤ) (senthread : Option (List Char)) (argv : List (List Char)) : Option (ℤ × List (List Char)) :=
  let n := match senthread with
    | some s => if 0 < atoi s then atoi s else 1
    | none => 1
  nthreadLoop atoi n [] argv

end Mpb.Util
