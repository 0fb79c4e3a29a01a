/-!
Model of the terminal pass-through of captured PTY output
(`dsh/src/process/io.rs`, lines 122-152 and 174-257).
-/
namespace Dsh.Tty

/-- Carriage return, `b'\r'`. -/
def CR : UInt8 := 13
/-- Line feed, `b'\n'`. -/
def LF : UInt8 := 10

/-- Local variables of the loop in `normalize_tty_newlines` (io.rs:130-132):
`prev`, `normalized`, `changed`. -/
structure Loop where
  prev : Option UInt8
  normalized : List UInt8
  changed : Bool

/-- One iteration of `for (index, &byte) in data.iter().enumerate()` (io.rs:134-147). -/
def iter (data : List UInt8) (s : Loop) (index : Nat) (byte : UInt8) : Loop :=
  if byte = LF ∧ s.prev ≠ some CR then
    let normalized := if s.changed then s.normalized else s.normalized ++ data.take index
    { prev := some byte, normalized := normalized ++ [CR, LF], changed := true }
  else if s.changed then
    { s with prev := some byte, normalized := s.normalized ++ [byte] }
  else
    { s with prev := some byte }

/-- The loop from position `index` on (io.rs:134-147). -/
def loop (data : List UInt8) (s : Loop) (index : Nat) : List UInt8 → Loop
  | [] => s
  | b :: bs => loop data (iter data s index b) (index + 1) bs

/-- `normalize_tty_newlines` (io.rs:129-152): returns the optional replacement buffer and the new
value of `*last_byte`. `Vec::reserve` is not modelled. -/
def normalize (data : List UInt8) (last : Option UInt8) : Option (List UInt8) × Option UInt8 :=
  let s := loop data { prev := last, normalized := [], changed := false } 0 data
  (if s.changed then some s.normalized else none, s.prev)

/-- State of `PtyMonitor` (io.rs:122-127) plus the bytes written to the real stdout. -/
structure Monitor where
  stdoutIsTty : Bool
  last : Option UInt8
  captured : List UInt8
  shown : List UInt8

/-- A fresh monitor (`PtyMonitor::new`, io.rs:165-171). -/
def Monitor.new (tty : Bool) : Monitor :=
  { stdoutIsTty := tty, last := none, captured := [], shown := [] }

/-- The `Ok(Ok(n))` arm of `process_output` for one read of `data` (io.rs:206-227).
Simplification: writing to stdout always succeeds (errors are only logged by the code). -/
def Monitor.chunk (m : Monitor) (data : List UInt8) : Monitor :=
  let (display, last) :=
    if m.stdoutIsTty then normalize data m.last else (none, data.getLast?)
  { m with last := last, shown := m.shown ++ display.getD data, captured := m.captured ++ data }

/-- `process_output` (io.rs:174-260) over the chunks delivered by successive reads.
Simplification: time-outs and would-block results only retry, so they are left out. -/
def Monitor.run (m : Monitor) (chunks : List (List UInt8)) : Monitor :=
  chunks.foldl Monitor.chunk m

end Dsh.Tty
