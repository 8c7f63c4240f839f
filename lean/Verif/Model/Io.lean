import Verif.Model.Cmdline

/-!
# The two commands on bytes

cmdline.py: the input files are opened in mode `rb` (cmdline.py:65-70, :164-169, stdin by default) and
iterated with `chain.from_iterable` (cmdline.py:117, :189, :230); `print(record)` (cmdline.py:152) writes to
standard output, which is taken to be UTF-8 with `\n` as line end.
-/

namespace OsUrl

/-- Iterating a binary file: the lines with their `\n`, the last one possibly without. -/
def binaryLines : Bytes → List Bytes
  | [] => []
  | b :: bs =>
    if b = 10 then [b] :: binaryLines bs
    else
      match binaryLines bs with
      | [] => [[b]]
      | l :: ls => (b :: l) :: ls

/-- `chain.from_iterable(files)`, cmdline.py:117, :189, :230 -/
def chainLines (files : List Bytes) : List Bytes := files.flatMap binaryLines

/-- `print(record)` for every record, cmdline.py:151-152 -/
def printOut (env : Env) (records : List Str) : Bytes := (records.map (fun r => env.encode r ++ [10])).flatten

/-- `pattern-make -f F -i files`, cmdline.py:155-158: what is written when nothing raises. -/
def makeMain (env : Env) (mcn : Int) (f : Fmt) (files : List Bytes) : Py Bytes := do
  let records ← makeRun env mcn f (chainLines files)
  return printOut env records

/-- `pattern-match [-a] -p pats -i files`, cmdline.py:241-244 -/
def matchMain (env : Env) (allMatched : Bool) (pats files : List Bytes) : Bytes :=
  matchRun env allMatched (chainLines pats) (chainLines files)

end OsUrl
