import Verif.Hist.Store
/-!
The history while it is loaded: the thread of the start and the shell at work next to it (dsh/src/lib.rs:134-173
with dsh/src/history/command_history.rs), in all interleavings.

One step is what happens while the lock of the history is held, or one query.  Other sessions may write to
the table at any time.  Left out: the synchronisation every 30 seconds (`Verif.Hist.Store`, C70), outcomes, the
caches, failures of the writer.
-/
namespace Dsh.HistStart
open Dsh.HistStore

abbrev Str := List Char

/-- Where the loading thread is (lib.rs:138-173). -/
inductive Thread where
  | start
  /-- the newest rows have been read (lib.rs:142-148) -/
  | fetched (rows : List Entry)
  /-- they are shown (lib.rs:152-154); those rows -/
  | swapped (rows : List Entry)
  /-- older rows have been read (lib.rs:158) -/
  | older (es : List Entry)
  | done
deriving DecidableEq, Repr

/-- The shell: the entries and the position in them, whether the history has a table to write to
(`History::new` has none: command_history.rs:84-95), the table, what is sent and not yet written. -/
structure St where
  mem : List Entry
  pos : Nat
  linked : Bool
  db : List Entry
  queue : List (List Use × Option Str)
  thread : Thread
deriving DecidableEq, Repr

inductive Label where
  /-- commands of this session are recorded -/
  | write (us : List Use) (ctx : Option Str)
  /-- Up is pressed -/
  | up
  /-- the writer thread takes a batch -/
  | writer
  /-- another session writes -/
  | other (us : List Use) (ctx : Option Str)
  | fetch (rows : List Entry)
  | fail
  | swap
  | fetchOlder (es : List Entry)
  | skip
  | prepend
deriving DecidableEq, Repr

/-- When the start is done with the first part (lib.rs:157): the time of the first row, 0 without rows. -/
def minTime (rows : List Entry) : Int := match rows.head? with
  | some r => r.time
  | none => 0

/-- What can happen in a state. -/
def Enabled (s : St) : Label → Prop
  | .fetch rows => s.thread = .start ∧ Loaded 1000 s.db rows
  | .fail => s.thread = .start
  | .swap => ∃ rows, s.thread = .fetched rows
  | .fetchOlder es => ∃ rows, s.thread = .swapped rows ∧ minTime rows > 0 ∧ LoadedOlder (minTime rows) 9000 s.db es
  | .skip => ∃ rows, s.thread = .swapped rows ∧ ¬ minTime rows > 0
  | .prepend => ∃ es, s.thread = .older es
  | _ => True

/-- The state afterwards: `write_batch` (command_history.rs:493-539), `back` (command_history.rs:137-158), the
writer (command_history.rs:394-416), the thread (lib.rs:138-173), `prepend` (command_history.rs:292-297). -/
def next (s : St) : Label → St
  | .write us ctx =>
    let mem := us.foldl (remember ctx) s.mem
    { s with mem := mem, pos := mem.length, queue := if s.linked then s.queue ++ [(us, ctx)] else s.queue }
  | .up => { s with pos := s.pos - 1 }
  | .writer =>
    match s.queue with
    | [] => s
    | (us, ctx) :: q => { s with db := writeSync (fun _ => false) ctx s.db us, queue := q }
  | .other us ctx => { s with db := writeSync (fun _ => false) ctx s.db us }
  | .fetch rows => { s with thread := .fetched rows }
  | .fail => { s with thread := .done }
  | .swap =>
    match s.thread with
    | .fetched rows => { s with mem := rows, pos := rows.length, linked := true, thread := .swapped rows }
    | _ => s
  | .fetchOlder es => { s with thread := .older es }
  | .skip => { s with thread := .done }
  | .prepend =>
    match s.thread with
    | .older es =>
      if es.isEmpty then { s with thread := .done }
      else { s with mem := es ++ s.mem, pos := (es ++ s.mem).length, thread := .done }
    | _ => s

/-- A new shell on a table (lib.rs:134-136). -/
def init (db : List Entry) : St := ⟨[], 0, false, db, [], .start⟩

/-- The table once everything sent has been written. -/
def settled (s : St) : List Entry := s.queue.foldl (fun db b => writeSync (fun _ => false) b.2 db b.1) s.db

/-- Executions. -/
inductive Run : St → List Label → St → Prop where
  | nil (s : St) : Run s [] s
  | cons {s t : St} {l : Label} {ls : List Label} (h : Enabled s l) (hr : Run (next s l) ls t) : Run s (l :: ls) t

end Dsh.HistStart
