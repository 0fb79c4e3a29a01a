import Verif.Prompt.Track
/-!
The versions and contexts in the prompt (dsh/src/prompt/mod.rs, dsh/src/repl/mod.rs): C142.

One part of the prompt (a version or a context) is one slot.  A program that is asked answers for the state in which it was started; when it ends
is not determined.  Times are in seconds.
-/
namespace Dsh.Prm

/-- `BackoffGate` (prompt/mod.rs:105-108). -/
structure Gate where
  next : Nat := 0
  delay : Nat := 5
deriving DecidableEq

/-- `should_check` (prompt/mod.rs:118-120). -/
def Gate.open (g : Gate) (now : Nat) : Bool := decide (g.next ≤ now)

/-- `record_failure` (prompt/mod.rs:122-126). -/
def Gate.fail (g : Gate) (now : Nat) : Gate := { next := now + g.delay, delay := min (g.delay * 2) 300 }

/-- `reset` (prompt/mod.rs:128-131). -/
def Gate.reset (now : Nat) : Gate := { next := now, delay := 5 }

/-- A cached value, its gate and the programs that have been asked. -/
structure Slot (α : Type) where
  shown : Option α := none
  gate : Gate := {}
  running : List (Option α) := []
deriving DecidableEq

/-- What happens to a slot. -/
inductive Event (α : Type) where
  /-- The interval ends; `wanted` says whether the project or the program is there, `answer` what the program will say. -/
  | tick (wanted : Bool) (answer : Option α)
  /-- One of the programs ends. -/
  | done (i : Nat)
  /-- The directory changes. -/
  | cd

/-- `needs_rust_check` and the like, `should_check_k8s`, `should_check_docker` (prompt/mod.rs:730-740, 752-762, 779-793). -/
def Slot.due {α : Type} (s : Slot α) (now : Nat) (wanted : Bool) : Bool := s.shown.isNone && s.gate.open now && wanted

/-- The interval (repl/mod.rs:742-816), the ends of the tasks (e.g. repl/mod.rs:745-751 with prompt/mod.rs:720-723, 795-797) and the change of
directory (prompt/mod.rs:538-546); a change of directory forgets versions (`version`), not contexts. -/
def Slot.step {α : Type} (version : Bool) (s : Slot α) (now : Nat) : Event α → Slot α
  | .tick wanted answer => if s.due now wanted then { s with running := s.running ++ [answer] } else s
  | .done i =>
    match s.running[i]? with
    | none => s
    | some (some v) => { shown := some v, gate := Gate.reset now, running := s.running.eraseIdx i }
    | some none => { s with gate := s.gate.fail now, running := s.running.eraseIdx i }
  | .cd => if version then { s with shown := none } else s

/-- A run: the events with their times. -/
def Slot.run {α : Type} (version : Bool) : Slot α → List (Nat × Event α) → Slot α
  | s, [] => s
  | s, (now, e) :: es => Slot.run version (s.step version now e) es

/-- The profile is read without a program (`fetch_aws_profile`, `should_check_aws`, repl/mod.rs:802-806, prompt/mod.rs:785-787, 1111-1115). -/
def awsTick (shown : Option Str) (profile fallback : Option Str) : Option Str :=
  match shown with
  | some v => some v
  | none => profile.or fallback

/-- `AwsModule::render` (modules/aws.rs:24-27). -/
def awsPart (shown : Option Str) : Option Str := shown.map fun v => c!" ☁️  " ++ v

/-- The namespace behind the context (modules/kubernetes.rs:32-36). -/
def nsPart : Option Str → Str
  | some ns => c!" (" ++ ns ++ c!")"
  | none => []

/-- `KubernetesModule::render` (modules/kubernetes.rs:25-39). -/
def k8sPart (shown : Option (Str × Option Str)) : Option Str :=
  shown.map fun v => c!" ☸️ " ++ v.1 ++ nsPart v.2

/-- `DockerModule::render` (modules/docker.rs:24-32). -/
def dockerPart (shown : Option Str) : Option Str :=
  match shown with
  | some v => if v = c!"default" then none else some (c!" 🐳 " ++ v)
  | none => none

end Dsh.Prm
