import Verif.Model.Names
/-!
# Model of the log stream handler, the socket header and the tracked log list
-/
namespace Nxt.Remote
open Py

/-! ## The log stream, nxt_log.py:291-317

Bytes are natural numbers (below 256).  The connection is the list of segments still to arrive; one
`recv` never reaches over the end of a segment, so a schedule of short receives is a segmentation.
An exhausted list is a peer which closed the connection: `recv` then gives the empty text. -/

/-- `self.connection.recv(n)`: what is received and what is left. -/
def recv (n : Nat) : List (List Nat) → List Nat × List (List Nat)
  | [] => ([], [])
  | seg :: rest => if seg.length ≤ n then (seg, rest) else (seg.take n, seg.drop n :: rest)

/-- `struct.unpack('>L', chunk)[0]`, nxt_log.py:308. -/
def unpack (chunk : List Nat) : Nat := chunk.foldl (fun acc b => 256 * acc + b) 0

/-- nxt_log.py:310-311, the inner `while`; `none` when it is still running after `fuel` rounds. -/
def readBody (slen : Nat) : Nat → List Nat → List (List Nat) → Option (List Nat × List (List Nat))
  | 0, _, _ => none
  | fuel + 1, chunk, conn =>
    if chunk.length < slen then
      let (more, conn) := recv (slen - chunk.length) conn
      readBody slen fuel (chunk ++ more) conn
    else some (chunk, conn)

/-- nxt_log.py:298-317 `LogRecordStreamHandler.handle`: the pickled records handed on, in order.
`none` when it is still running after `fuel` rounds of the outer (or of an inner) loop.  Unpickling
and logging of one record are not modelled. -/
def handle : Nat → List (List Nat) → Option (List (List Nat))
  | 0, _ => none
  | fuel + 1, conn =>
    let (chunk, conn) := recv 4 conn
    if chunk.length < 4 then some []
    else
      let slen := unpack chunk
      let (chunk, conn) := recv slen conn
      match readBody slen (fuel + 1) chunk conn with
      | none => none
      | some (body, conn) =>
        match handle fuel conn with
        | none => none
        | some rest => some (body :: rest)

/-! ## The message header, remote/nxt_socket.py -/

/-- `HEADER_SIZE`, remote/nxt_socket.py:19. -/
def HEADER_SIZE : Nat := 10

/-- `"{:<{}}".format(n, width)`: left aligned, padded with blanks. -/
def padRight (s : Str) (width : Nat) : Str := s ++ List.replicate (width - s.length) ' '

inductive SendResult where
  /-- nothing is sent, an error is logged -/
  | noServer
  /-- Python 3: `bytes(text)` without an encoding raises `TypeError` -/
  | typeError
  | sent (data : Str)
  deriving DecidableEq, Repr

/-- remote/nxt_socket.py:241-264 `send_to_server`; `msg` is the pickled message, one character per
byte.  Failures of `sendall` are not modelled. -/
def sendToServer (py3 : Bool) (server : Bool) (msg : Str) : SendResult :=
  if !server then .noServer
  else if py3 then .typeError
  else .sent (padRight (Names.dec msg.length) HEADER_SIZE ++ msg)

/-! ## The tracked logs, nxt_log.py:101-149 -/

/-- Outcome of `os.path.getmtime`: the age of the file in seconds, `ENOENT`, or another failure. -/
inductive MTime where
  | age (seconds : Int)
  | missing
  | failed
  deriving DecidableEq, Repr

/-- What the functions see of one path; `removable` says whether `os.remove` succeeds. -/
structure FileInfo where
  isFile : Bool
  mtime : MTime
  removable : Bool
  deriving DecidableEq, Repr

/-- The file system.  The clock stands still during one call. -/
abbrev Fs := Str → FileInfo

/-- `remove_age`, nxt_log.py:108. -/
def removeAge : Int := 60 * 60 * 48

/-- `age > remove_age`, nxt_log.py:121-133: `inf` for a missing file, `0.0` after other failures. -/
def isOld : MTime → Bool
  | .age s => decide (removeAge < s)
  | .missing => true
  | .failed => decide (removeAge < 0)

/-- `os.remove(path)` when it succeeds. -/
def rmFile (fs : Fs) (p : Str) : Fs :=
  fun q => if q = p then { fs q with isFile := false, mtime := .missing } else fs q

/-- One round of the loop, nxt_log.py:119-142.  `existing_logs.remove` removes the first entry equal
to the path. -/
def trackStep (st : Fs × List Str) (p : Str) : Fs × List Str :=
  let fs := st.1
  if (fs p).isFile && isOld (fs p).mtime then
    (if (fs p).removable then rmFile fs p else fs, st.2)
  else if !(fs p).isFile || isOld (fs p).mtime then (fs, st.2.erase p)
  else st

/-- nxt_log.py:118-144: clean up, then add the log. -/
def track (fs : Fs) (existing : List Str) (path : Str) : Fs × List Str :=
  let st := existing.foldl trackStep (fs, existing)
  (st.1, st.2 ++ [path])

/-- The blanks `rstrip` removes (ASCII). -/
def isBlank (c : Char) : Bool := [' ', '\t', '\n', '\r', '\x0b', '\x0c'].contains c

/-- `line.rstrip()`. -/
def rstrip (s : Str) : Str := (s.reverse.dropWhile isBlank).reverse

/-- `file.readlines()` with the line ends dropped (they are stripped at nxt_log.py:114 anyway): an
unfinished last line counts when it is not empty. -/
def readLines (text : Str) : List Str :=
  let parts := split '\n' text
  if parts.getLast? = some [] then parts.dropLast else parts

/-- nxt_log.py:110-117: the tracked logs; an unreadable file gives none. -/
def readMeta : Option Str → List Str
  | none => []
  | some text => (readLines text).map rstrip

/-- nxt_log.py:147: the lines written. -/
def writeMeta (logs : List Str) : Str := (logs.map (· ++ ['\n'])).flatten

/-- nxt_log.py:101-149 `track_log_file`, when the meta log can be written. -/
def trackLogFile (fs : Fs) (metaText : Option Str) (path : Str) : Fs × Str :=
  let st := track fs (readMeta metaText) path
  (st.1, writeMeta st.2)

end Nxt.Remote
