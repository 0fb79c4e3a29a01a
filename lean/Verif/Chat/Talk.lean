import Verif.Util
/-!
# A conversation with the AI service

`dsh-builtin/src/chatgpt.rs` (`ConversationManager`, `chat_with_tools`), `dsh-openai/src/client.rs`
(`await_with_cancel`), `dsh/src/process/signal.rs` (`check_and_clear_sigint`).

Simplified: the service, the tools and the presses of Ctrl-C are a script the conversation runs against, an
entry for each request and each call in their order; texts of requests are not written out, a request is the
list of its messages; how long a message is when written as JSON is a parameter; a message has the text
`extract_message_content` puts together.
-/
namespace Dsh.Chat

abbrev Str := List Char

/-- A tool the service wants to be run. -/
structure Call where
  id : Str
  what : Str
deriving DecidableEq

/-- A message of the service: its text, and the tools wanted if it has the field `tool_calls`. -/
structure Said where
  text : Str
  calls : Option (List Call)
deriving DecidableEq

/-- A message of the conversation. -/
inductive Msg where
  | said (m : Said)
  | result (id text : Str)
deriving DecidableEq

/-- What a request to the service gives (chatgpt.rs:406-436). `wants` is `finish_reason` = `tool_calls`. -/
inductive Reply where
  | fail (e : Str)
  | bad
  | message (m : Said) (wants : Bool)

/-- Ctrl-C while something is waited for. -/
inductive Press where
  | none | seen | late
deriving DecidableEq

/-- The service, the tools and the user. -/
structure World where
  chat : Nat → Reply × Press
  /-- the text of the summary, if the request gives one -/
  sum : Nat → Option Str × Press
  /-- the answer of the tool or its error -/
  tool : Nat → Call → Except Str Str × Press
  size : Msg → Nat

/-- A message of a request (chatgpt.rs:192-215). -/
inductive Part where
  | system | context | user
  | summary (s : Str)
  | kept (m : Msg)
deriving DecidableEq

/-- What was done, to be told afterwards. -/
inductive Ev where
  /-- the old summary and the messages given, the new one if there is one -/
  | summarize (old : Option Str) (ms : List Msg) (new : Option Str)
  | ask (ps : List Part)
  | heard (m : Said)
  | run (c : Call)
  | told (id text : Str)
deriving DecidableEq

/-- `ConversationManager` (chatgpt.rs:45-52), the mark left by Ctrl-C (signal.rs:10), and what was done, the
oldest first. -/
structure State where
  summary : Option Str
  buffer : List Msg
  chars : Nat
  flag : Bool
  log : List Ev

def Ev.isAsk : Ev → Bool
  | .ask _ => true
  | _ => false

def Ev.isSummarize : Ev → Bool
  | .summarize _ _ _ => true
  | _ => false

def Ev.isRun : Ev → Bool
  | .run _ => true
  | _ => false

/-- Requests and calls made so far: where the script stands. -/
def State.asked (s : State) : Nat := (s.log.filter Ev.isAsk).length
def State.summed (s : State) : Nat := (s.log.filter Ev.isSummarize).length
def State.ran (s : State) : Nat := (s.log.filter Ev.isRun).length

/-- `ConversationManager::new` (chatgpt.rs:55-62). -/
def start (flag : Bool) : State := ⟨none, [], 0, flag, []⟩

/-- `MAX_BUFFER_CHARS` (chatgpt.rs:20). -/
def limit : Nat := 96000

/-- `add_message` (chatgpt.rs:64-67). -/
def State.add (w : World) (s : State) (m : Msg) (e : Ev) : State :=
  { s with buffer := s.buffer ++ [m], chars := s.chars + w.size m, log := s.log ++ [e] }

/-- `sum_message_lengths` (chatgpt.rs:231-233). -/
def total (w : World) (ms : List Msg) : Nat := (ms.map w.size).sum

/-- `split_off` at `len.saturating_sub(6)` (chatgpt.rs:183-185). -/
def lastSix (ms : List Msg) : List Msg := ms.drop (ms.length - 6)

/-- `await_with_cancel` (client.rs:197-242): a mark left before or a press in time ends the request and takes
the mark away (signal.rs:37-39); a press the request does not see any more leaves it. The first component
says whether the request was ended. -/
def wait (flag : Bool) (p : Press) : Bool × Bool := if flag || p = .seen then (true, false) else (false, p = .late)

/-- All characters are blanks (`trim().is_empty()`). -/
def blank (s : Str) : Bool := (trim s).isEmpty

/-- The request of `perform_summary` and what is read from its answer (chatgpt.rs:157-180): the new summary,
and the mark. -/
def newSummary (w : World) (s : State) : Option Str × Bool :=
  let r := w.sum s.summed
  let c := wait s.flag r.2
  (if c.1 then none else r.1.filter (fun t => !blank t), c.2)

/-- `perform_summary` (chatgpt.rs:77-190); whether it succeeded. -/
def perform (w : World) (s : State) : State × Bool :=
  let r := newSummary w s
  let s' := { s with flag := r.2, log := s.log ++ [.summarize s.summary s.buffer r.1] }
  match r.1 with
  | none => (s', false)
  | some t => ({ s' with summary := some t, buffer := lastSix s.buffer, chars := total w (lastSix s.buffer) }, true)

/-- The loop before each request (chatgpt.rs:385-391), for at most `n` rounds; `none` if it has not ended
then. -/
def settle (w : World) : Nat → State → Option State
  | 0, s => if limit < s.chars then none else some s
  | n + 1, s =>
    if limit < s.chars then
      let r := perform w s
      if r.2 then settle w n r.1 else some r.1
    else some s

/-- `build_messages_for_chat` (chatgpt.rs:192-215). -/
def parts (s : State) : List Part :=
  [.system, .context, .user] ++ s.summary.toList.map .summary ++ s.buffer.map .kept

/-- The text given back for a call (chatgpt.rs:450-455). -/
def resultText : Except Str Str → Str
  | .ok r => r
  | .error e => c!"Error: " ++ e ++ c!"\nPlease analyze the error and retry with corrected arguments."

/-- One call (chatgpt.rs:443-463). -/
def runCall (w : World) (s : State) (c : Call) : State :=
  let r := w.tool s.ran c
  let s' : State := { s with flag := s.flag || decide (r.2 ≠ Press.none), log := s.log ++ [Ev.run c] }
  s'.add w (.result c.id (resultText r.1)) (.told c.id (resultText r.1))

/-- How the conversation ends. -/
inductive End where
  | answer (t : Str)
  | error (e : Str)
  | cancelled
  | tooMany
  | bad
deriving DecidableEq

/-- The loop of `chat_with_tools` (chatgpt.rs:378-485) with this many rounds left; `none` if some loop of
summaries does not end within `fuel` rounds. -/
def talk (w : World) (fuel : Nat) : Nat → State → Option (State × End)
  | 0, s => some (s, .tooMany)
  | n + 1, s =>
    match settle w fuel s with
    | none => none
    | some s =>
      let r := w.chat s.asked
      let c := wait s.flag r.2
      let s := { s with flag := c.2, log := s.log ++ [.ask (parts s)] }
      if c.1 then some (s, .cancelled)
      else match r.1 with
        | .fail e => some (s, .error e)
        | .bad => some (s, .bad)
        | .message m wants =>
          let s := s.add w (.said m) (.heard m)
          match m.calls with
          | some cs => talk w fuel n (cs.foldl (runCall w) s)
          | none =>
            if wants then talk w fuel n s
            else if blank m.text then some (s, .bad) else some (s, .answer m.text)

/-- `chat_with_tools` (chatgpt.rs:350-486): `MAX_TOOL_ITERATIONS` (chatgpt.rs:18) rounds. -/
def converse (w : World) (fuel : Nat) (flag : Bool) : Option (State × End) := talk w fuel 100 (start flag)

end Dsh.Chat
