/-!
# dupio.c: messages on the standard output and in the log file

Text is a list of characters; the formatting of numbers is not modelled, a call is given by the text it formats to.  Signals
may arrive during any call; the handlers (checkpoint.c:11-15, progress.c:37-82) call `duprintf` themselves.  A signal which
arrives within a call of `vprintf` or `vfprintf` is outside of the model, as these functions must not be
interrupted by a handler which calls them again (C11 7.14.1.1).
-/

set_option autoImplicit false

namespace Verif.Dupio

/-- the standard output, and the log file if it is open (`fd_log != NULL`) -/
structure Streams where
  out : List Char
  log : Option (List Char)

/-- a call of `duprintf`: its text, and the calls made by handlers of signals which arrive between the two writes -/
inductive Call where
  | mk (text : List Char) (inner : List Call)

mutual

/-- `duprintf` (dupio.c:13-31) -/
def duprintf : Call → Streams → Streams
  | .mk text inner, st =>
    -- standard output: lines 18-21
    let st := { st with out := st.out ++ text }
    let st := duprintfs inner st
    -- log file: lines 24-30
    match st.log with
    | some log => { st with log := some (log ++ text) }
    | none => st

/-- one call after the other -/
def duprintfs : List Call → Streams → Streams
  | [], st => st
  | c :: cs, st => duprintfs cs (duprintf c st)

end

/-- `fd_log = fopen(path, "a")` (main.c:103): `file` is the content of the log file of previous runs, which is kept -/
def openLog (file : List Char) (st : Streams) : Streams := { st with log := some file }

/-- the messages of one run: main.c:57-95 before the log file is open, everything else afterwards; the result is what the
run has written to the standard output, and the log file at the end -/
def messages (early late : List Call) (file : List Char) : Streams :=
  duprintfs late (openLog file (duprintfs early ⟨[], none⟩))

/-- several runs with the same output directory, one after the other -/
def runs : List (List Call × List Call) → List Char → List (List Char) × List Char
  | [], file => ([], file)
  | r :: rs, file =>
    let st := messages r.1 r.2 file
    let res := runs rs (st.log.getD file)
    (st.out :: res.1, res.2)

end Verif.Dupio
