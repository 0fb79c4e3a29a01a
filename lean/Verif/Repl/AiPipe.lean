import Verif.Repl.Keys
/-!
# C230: a command whose output is handed to the AI: `command |! question`

`dsh/src/repl/mod.rs: run_ai_pipe` behind `detect_ai_pipe` (`Verif/Repl/Keys.lean`, C106).

The outcome of `sh -c` is a parameter: none if it cannot be started, else what it wrote to its two streams and
its status, none if a signal ended it.  Simplified: output is text already (`from_utf8_lossy`); what the
conversation with the service does with the message is C65; signs and colours of the shown texts.
-/
namespace Dsh.AiPipe

abbrev Str := List Char

/-! ### Model -/

/-- What `sh -c command` gave (mod.rs:1261-1269). -/
structure Ran where
  out : Str
  err : Str
  /-- none: ended by a signal -/
  code : Option Int
deriving DecidableEq, Repr

/-- The two streams in one text (mod.rs:1281-1288). -/
def combined (out err : Str) : Str :=
  if err = [] then out
  else if out = [] then err
  else c!"STDOUT:\n" ++ out ++ c!"\n\nSTDERR:\n" ++ err

/-- The message (mod.rs:1308-1311). -/
def message (command output query : Str) : Str :=
  c!"Shell command: `" ++ command ++ c!"`\n\nOutput:\n```\n" ++ output ++ c!"\n```\n\nQuery: " ++ query

/-- What is kept of the last command. -/
structure Last where
  status : Int
  command : Str
deriving DecidableEq, Repr

/-- What happened: commands given to `sh`, messages to the service, texts shown, what is kept. -/
structure Out where
  ran : List Str
  sent : List Str
  shown : List Str
  last : Last
deriving DecidableEq, Repr

/-- `run_ai_pipe` (mod.rs:1253-1324); `service`: one is configured. -/
def run (sh : Str → Option Ran) (service : Bool) (command query : Str) (last : Last) : Out :=
  match sh command with
  | none => ⟨[command], [], [c!"Running command...", c!"Failed to execute command"], last⟩
  | some r =>
    if service then
      ⟨[command], [message command (combined r.out r.err) query], [c!"Running command...", c!"Analyzing output..."],
        ⟨r.code.getD (-1), command⟩⟩
    else ⟨[command], [], [c!"Running command...", c!"AI service not configured"], last⟩

/-- Enter on a line (key_handlers/execution.rs:50-55), none if it is no question. -/
def enter (sh : Str → Option Ran) (service : Bool) (line : Str) (last : Last) : Option Out :=
  (Keys.detectAiPipe line).map fun p => run sh service p.1 p.2 last

/-! ### Proof -/

theorem infix_mid (a b c : Str) : b <:+: a ++ b ++ c := ⟨a, c, rfl⟩

/-- C230: with a service the command is run once, and one message is sent that holds the command, everything the
command wrote to either stream, and the question; the status of the command is kept.
`_partial`: how the service can read the message is below. -/
theorem C230_sent_partial (sh : Str → Option Ran) (command query : Str) (last : Last) {r : Ran} (h : sh command = some r) :
    ∃ m, run sh true command query last = ⟨[command], [m], [c!"Running command...", c!"Analyzing output..."],
        ⟨r.code.getD (-1), command⟩⟩ ∧
      command <:+: m ∧ r.out <:+: m ∧ r.err <:+: m ∧ query <:+: m := by
  refine ⟨message command (combined r.out r.err) query, by unfold run; rw [h]; rfl, ?_, ?_, ?_, ?_⟩
  · exact ⟨c!"Shell command: `", c!"`\n\nOutput:\n```\n" ++ combined r.out r.err ++ c!"\n```\n\nQuery: " ++ query, by
      simp [message]⟩
  · have h1 : r.out <:+: combined r.out r.err := by
      unfold combined
      split
      · exact List.infix_refl _
      · split
        · rename_i h2
          rw [h2]
          exact List.nil_infix
        · exact ⟨c!"STDOUT:\n", c!"\n\nSTDERR:\n" ++ r.err, by simp⟩
    have h2 : combined r.out r.err <:+: message command (combined r.out r.err) query :=
      ⟨c!"Shell command: `" ++ command ++ c!"`\n\nOutput:\n```\n", c!"\n```\n\nQuery: " ++ query, by simp [message]⟩
    exact h1.trans h2
  · have h1 : r.err <:+: combined r.out r.err := by
      unfold combined
      split
      · rename_i h2
        rw [h2]
        exact List.nil_infix
      · split
        · exact List.infix_refl _
        · exact ⟨c!"STDOUT:\n" ++ r.out ++ c!"\n\nSTDERR:\n", [], by simp⟩
    have h2 : combined r.out r.err <:+: message command (combined r.out r.err) query :=
      ⟨c!"Shell command: `" ++ command ++ c!"`\n\nOutput:\n```\n", c!"\n```\n\nQuery: " ++ query, by simp [message]⟩
    exact h1.trans h2
  · exact ⟨c!"Shell command: `" ++ command ++ c!"`\n\nOutput:\n```\n" ++ combined r.out r.err ++ c!"\n```\n\nQuery: ", [], by
      simp [message]⟩

/-- A command that fails with a text on each stream. -/
def failing : Str → Option Ran := fun _ => some ⟨c!"a\n", c!"no b\n", some 2⟩

example : enter failing true c!"ls a b |! why" ⟨0, c!"cd"⟩ = some ⟨[c!"ls a b"],
    [c!"Shell command: `ls a b`\n\nOutput:\n```\nSTDOUT:\na\n\n\nSTDERR:\nno b\n\n```\n\nQuery: why"],
    [c!"Running command...", c!"Analyzing output..."], ⟨2, c!"ls a b"⟩⟩ := by decide +kernel

theorem cut {x : Char} : ∀ {a a' b b' : Str}, x ∉ a → x ∉ a' → a ++ x :: b = a' ++ x :: b' → a = a' ∧ b = b'
  | [], [], _, _, _, _, h => by simpa using h
  | [], d :: a', _, _, _, h2, h => by
    simp only [List.nil_append, List.cons_append, List.cons.injEq] at h
    exact absurd (by simp [h.1]) h2
  | c :: a, [], _, _, h1, _, h => by
    simp only [List.nil_append, List.cons_append, List.cons.injEq] at h
    exact absurd (by simp [h.1]) h1
  | c :: a, d :: a', b, b', h1, h2, h => by
    simp only [List.cons_append, List.cons.injEq] at h
    have := cut (fun hm => h1 (by simp [hm])) (fun hm => h2 (by simp [hm])) h.2
    exact ⟨by rw [h.1, this.1], this.2⟩

/-- C230: without backquotes in command and output, the message tells command, output and question apart.
`_partial`: with backquotes see `C230_fence_violated`. -/
theorem C230_read_partial {c c' o o' q q' : Str} (hc : '`' ∉ c) (hc' : '`' ∉ c') (ho : '`' ∉ o) (ho' : '`' ∉ o')
    (h : message c o q = message c' o' q') : c = c' ∧ o = o' ∧ q = q' := by
  have e : ∀ c o q : Str, message c o q = c!"Shell command: `" ++ (c ++ '`' :: (c!"\n\nOutput:\n```\n" ++
      ((o ++ ['\n']) ++ '`' :: (c!"``\n\nQuery: " ++ q)))) := by
    intro c o q
    simp [message]
  rw [e, e] at h
  obtain ⟨h1, h2⟩ := cut hc hc' (List.append_cancel_left h)
  obtain ⟨h3, h4⟩ := cut (by simp [ho]) (by simp [ho']) (List.append_cancel_left h2)
  exact ⟨h1, List.append_cancel_right h3, List.append_cancel_left h4⟩

/-! ### Refuted -/

/-- C230 refuted: the output of the command can take the place of the question: whatever question `x` it prints
behind a fence, the message is the same as if its output had ended there and the question of the user began with
`x`. -/
theorem C230_fence_violated (command o x q : Str) :
    message command (o ++ c!"\n```\n\nQuery: " ++ x) q = message command o (x ++ c!"\n```\n\nQuery: " ++ q) := by
  simp [message]

/-- C230 refuted: the service cannot tell errors from results: a text on standard error alone gives the message of
the same text on standard output, and two streams give that of one that prints the titles. -/
theorem C230_streams_violated (sh sh' : Str → Option Ran) (command query t : Str) (code : Option Int) (last : Last)
    (h : sh command = some ⟨t, [], code⟩) (h' : sh' command = some ⟨[], t, code⟩) :
    run sh true command query last = run sh' true command query last ∧
      ∀ o e : Str, o ≠ [] → e ≠ [] → combined o e = combined (c!"STDOUT:\n" ++ o ++ c!"\n\nSTDERR:\n" ++ e) [] := by
  constructor
  · have hc : combined t [] = combined [] t := by
      cases t <;> rfl
    unfold run
    rw [h, h']
    simp only [hc]
  · intro o e ho he
    unfold combined
    rw [if_neg he, if_neg ho, if_pos rfl]

/-- C230 refuted: whether the command failed is not told. -/
theorem C230_status_violated (sh sh' : Str → Option Ran) (command query : Str) (last : Last) {o e : Str} {s s' : Option Int}
    (h : sh command = some ⟨o, e, s⟩) (h' : sh' command = some ⟨o, e, s'⟩) :
    (run sh true command query last).sent = (run sh' true command query last).sent := by
  unfold run
  rw [h, h']
  rfl

/-- C230 refuted: without a service the command is run all the same, with all it does; what it wrote is not shown
and its status is not kept. -/
theorem C230_service_violated (sh : Str → Option Ran) (command query : Str) (last : Last) {r : Ran} (h : sh command = some r) :
    run sh false command query last = ⟨[command], [], [c!"Running command...", c!"AI service not configured"], last⟩ := by
  unfold run
  rw [h]
  rfl

example : enter failing false c!"rm -r x |! done?" ⟨0, c!"cd"⟩ =
    some ⟨[c!"rm -r x"], [], [c!"Running command...", c!"AI service not configured"], ⟨0, c!"cd"⟩⟩ := by decide +kernel

/-- C230 refuted: the output is never shown: what is shown is the same for all of them. -/
theorem C230_shown_violated (sh sh' : Str → Option Ran) (service : Bool) (command query : Str) (last : Last) {r r' : Ran}
    (h : sh command = some r) (h' : sh' command = some r') :
    (run sh service command query last).shown = (run sh' service command query last).shown := by
  unfold run
  rw [h, h']
  cases service <;> rfl

/-- C230 refuted: unlike all other texts for the service (C64), the output is neither cut nor cleaned: every character of
it is sent. -/
theorem C230_bound_violated (sh : Str → Option Ran) (command query : Str) (last : Last) {r : Ran} (h : sh command = some r) :
    ∃ m ∈ (run sh true command query last).sent, r.out.length ≤ m.length ∧ ∀ c ∈ r.out, c ∈ m := by
  obtain ⟨m, h1, _, h2, _⟩ := C230_sent_partial sh command query last h
  exact ⟨m, by rw [h1]; simp, h2.length_le, fun c hc => h2.subset hc⟩

/-- C230 refuted: a command ended by a signal leaves the status -1, which no command of the shell has and from which
the signal cannot be read. -/
theorem C230_signal_violated (sh : Str → Option Ran) (command query : Str) (last : Last) {o e : Str}
    (h : sh command = some ⟨o, e, none⟩) : (run sh true command query last).last.status = -1 := by
  unfold run
  rw [h]
  rfl

end Dsh.AiPipe
