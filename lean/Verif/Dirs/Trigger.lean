import Verif.Util
/-!
The builtin `trigger` (dsh-builtin/src/trigger.rs): C138.

Time is in milliseconds from the start.  What the library `notify` reports is a parameter: a list of events in the order
of time, and for each run of the command the events it causes itself.  So is the matching of patterns (library `glob`).
The command goes to `sh -c` as one text.  The end by Ctrl+C and the messages are left out.
-/
namespace Dsh.Trig

abbrev Str := List Char

/-- A report of `notify`: when it comes, whether it only says that a file was opened or closed, and the paths. -/
structure Ev where
  at_ : Nat
  access : Bool
  paths : List Str
deriving DecidableEq

/-- What is outside: patterns, how long the n-th run takes, the reports it causes if it starts at a time, and its result
(`none` if it cannot be started). -/
structure World where
  glob : Str → Str → Bool
  takes : Nat → Nat
  causes : Nat → Nat → List Ev
  result : Nat → Option (Int × Str × Str)

/-- `strip_prefix("./")` (trigger.rs:71). -/
def strip : Str → Str
  | '.' :: '/' :: p => p
  | p => p

/-- The text that is run (trigger.rs:20-21). -/
def cmdLine (words : List Str) : Str := joinWith [' '] words

/-- One of the paths matches (trigger.rs:67-77). -/
def hit (W : World) (pattern : Str) (e : Ev) : Bool := e.paths.any fun p => W.glob pattern (strip p)

/-- Reports that wait, in the order of time; the time; the runs with the report that led to them and their start; the recorded
outputs. -/
structure St where
  queue : List Ev
  now : Nat
  runs : List (Ev × Nat)
  record : List (Str × Int × Str × Str)
deriving DecidableEq

/-- A report comes behind the earlier ones. -/
def arrive (q : List Ev) (e : Ev) : List Ev := insertBy (fun a b => decide (a.at_ < b.at_)) e q

/-- The last run started less than 500 ms ago (trigger.rs:80); at the start there is none (trigger.rs:53-55). -/
def recent (runs : List (Ev × Nat)) (now : Nat) : Bool :=
  match runs.getLast? with
  | some r => decide (now < r.2 + 500)
  | none => false

/-- A report is taken from the channel (trigger.rs:63-129). -/
def step (W : World) (pattern cmd : Str) (st : St) : St :=
  match st.queue with
  | [] => st
  | e :: q =>
    let now := max st.now e.at_
    if hit W pattern e then
      if recent st.runs now then { st with queue := q, now := now }
      else
        let n := st.runs.length
        { queue := (W.causes n now).foldl arrive q
          now := now + W.takes n
          runs := st.runs ++ [(e, now)]
          record := match W.result n with | some (c, o, er) => st.record ++ [(cmd, c, o, er)] | none => st.record }
    else { st with queue := q, now := now }

/-- The loop (trigger.rs:57-138). -/
def loop (W : World) (pattern cmd : Str) : Nat → St → St
  | 0, st => st
  | n + 1, st => loop W pattern cmd n (step W pattern cmd st)

def start (es : List Ev) : St := ⟨es, 0, [], []⟩

end Dsh.Trig
