import Verif.Jobs.Record
import Verif.Repl.Suggest
/-!
# Suggestions of the AI while a line is typed

`dsh/src/suggestion.rs`: the part of the engine that asks the AI, and the backend with its worker; the callers in
`dsh/src/repl/repl_ai.rs` and `dsh/src/repl/mod.rs`.

Simplified: what history and file names propose for the line is a parameter of each refresh, and so are the time in
milliseconds, the directory, its listing and the recent history. The proposal of the completion of the word at the
caret (repl_ai.rs:113-124) is left out; C43 has it. An answer of the service is its text (suggestion.rs:829-866), or
nothing if the request failed. Which commands the AI is not asked about (suggestion.rs:301-306) is a parameter.
-/
namespace Dsh.AiSug
open Inline (Sug Src)

abbrev Str := List Char

/-! ### Answers -/

def quote (c : Char) : Bool := c = '"' || c = '\'' || c = '`'

/-- `trim_matches(&['"', '\'', '`'])`. -/
def trimQuotes (s : Str) : Str := ((s.dropWhile quote).reverse.dropWhile quote).reverse

/-- What is in front of the last fence: `rfind`, and the slice up to there. -/
def cutFence : Str → Option Str
  | [] => none
  | c :: cs =>
    match cutFence cs with
    | some p => some (c :: p)
    | none => if c!"```".isPrefixOf (c :: cs) then some [] else none

/-- `split_once('\n')`, the second half. -/
def behindLine : Str → Option Str
  | [] => none
  | c :: cs => if c = '\n' then some cs else behindLine cs

/-- The block between two fences without its first line, if there are several (suggestion.rs:810-819). -/
def unfence (s : Str) : Str :=
  if c!"```".isPrefixOf s then
    match cutFence (s.drop 3) with
    | some inner =>
      match behindLine (trim inner) with
      | some rest => trim rest
      | none => trim inner
    | none => s
  else s

/-- `sanitize_model_output` (suggestion.rs:807-827). -/
def clean (s : Str) : Str :=
  match Record.lines (trimQuotes (unfence (trim s))) with
  | l :: _ => trim l
  | [] => []

/-! ### The backend -/

/-- `SuggestionRequest` (suggestion.rs:89-97) without preferences. -/
structure Req where
  input : Str
  cursor : Nat
  history : List Str
  cwd : Option Str
  files : List Str
  code : Option Int
deriving DecidableEq

/-- What the service is told (suggestion.rs:751-805). -/
def payload (ghost backfill : Bool) (os : Str) (r : Req) : Str :=
  (if r.history.isEmpty then [] else c!"RecentHistory:\n" ++ r.history.flatMap (fun h => c!"- " ++ h ++ c!"\n")) ++
    (c!"SuggestionMode: " ++ (if ghost then c!"ghost" else c!"off") ++ c!" | AiBackfill: " ++ (if backfill then c!"true" else c!"false") ++ c!"\n") ++
    (match r.cwd with | some d => c!"CWD: " ++ d ++ c!"\n" | none => []) ++
    (if r.files.isEmpty then [] else c!"DirectoryListing (partial):\n" ++ r.files.flatMap (fun f => c!"- " ++ f ++ c!"\n")) ++
    (match r.code with | some c => c!"LastExitCode: " ++ (toString c).toList ++ c!"\n" | none => []) ++
    (c!"OS: " ++ os ++ c!"\n") ++ (c!"UserInput: " ++ r.input ++ c!"\n") ++ (c!"CursorIndex: " ++ Record.dec r.cursor ++ c!"\n")

/-- `fetch_completion` (suggestion.rs:677-715) behind the request. -/
def fetch (r : Req) (answer : Option Str) : Option Str :=
  match answer with
  | none => none
  | some a =>
    if r.input.isEmpty then some a
    else if (clean a).isEmpty then none
    else if r.input.isPrefixOf (clean a) then some (clean a)
    else none

/-- Where the worker is (suggestion.rs:556-581): in front of the lock, waiting to be notified, or asking. -/
inductive Worker
  | free
  | waiting
  | asking (r : Req)
deriving DecidableEq

/-- `AiBackendState` (suggestion.rs:476-481) with the worker and the permit of `Notify`; times are in milliseconds.
`sent`, `made` and `got` only record: requests sent to the service, requests made, and answers with their times. -/
structure Back where
  cached : Option (Str × Nat) := none
  ctx : Option (List Str × Str × Nat) := none
  inflight : Bool := false
  pending : Option Req := none
  permit : Bool := false
  worker : Worker := .free
  sent : List Req := []
  made : List Req := []
  got : List (Req × Option Str × Nat) := []
deriving DecidableEq

/-- `cache_ttl` (suggestion.rs:505). -/
def ttl : Nat := 8000

/-- `starts_with` and longer. -/
def longer (input full : Str) : Bool := input.isPrefixOf full && decide (input.length < full.length)

/-- `try_cached` (suggestion.rs:599-627). -/
def Back.known (b : Back) (r : Req) (t : Nat) : Option Str :=
  let ctx := match b.ctx, r.cwd with
    | some (l, d, t0), some cwd => if d = cwd ∧ t - t0 ≤ ttl then l.find? (longer r.input) else none
    | _, _ => none
  match b.cached with
  | some (c, t0) => if t - t0 ≤ ttl ∧ longer r.input c = true then some c else ctx
  | none => ctx

/-- `enqueue` (suggestion.rs:629-640). -/
def Back.enqueue (b : Back) (r : Req) : Back :=
  let b := { b with pending := some r, made := b.made ++ [r] }
  if b.inflight then b else { b with inflight := true, permit := true }

/-- `predict` (suggestion.rs:733-743). -/
def Back.predict (b : Back) (r : Req) (t : Nat) : Option Str × Back :=
  match b.known r t with
  | some c => (some c, b)
  | none => if (trim r.input).isEmpty then (none, b) else (none, b.enqueue r)

/-- `is_pending` (suggestion.rs:745-748). -/
def Back.isPending (b : Back) : Bool := b.inflight || b.pending.isSome

/-- The worker goes on by one step of `next_request` (suggestion.rs:564-581). -/
def Back.work (b : Back) : Back :=
  match b.worker with
  | .free =>
    match b.pending with
    | some r => { b with pending := none, inflight := true, worker := .asking r, sent := b.sent ++ [r] }
    | none => { b with inflight := false, worker := .waiting }
  | .waiting => if b.permit then { b with permit := false, worker := .free } else b
  | .asking _ => b

/-- `handle_completion` (suggestion.rs:642-675). -/
def Back.handle (b : Back) (r : Req) (c : Option Str) (t : Nat) : Back :=
  let b := match c with
    | none => b
    | some a =>
      if r.input.isEmpty then
        let l := (Record.lines a).map trim
        if l.isEmpty then b else { b with ctx := some (l, r.cwd.getD [], t) }
      else { b with cached := some (a, t) }
  match b.pending with
  | some _ => { b with inflight := true, permit := true, worker := .free }
  | none => { b with inflight := false, worker := .free }

/-- The service answers, or the request fails (suggestion.rs:556-562, 583-590). -/
def Back.answer (b : Back) (a : Option Str) (t : Nat) : Back :=
  match b.worker with
  | .asking r => { b with got := b.got ++ [(r, a, t)] }.handle r (fetch r a) t
  | _ => b

/-! ### The engine and the editor -/

/-- What stands around at a refresh: the time, what history and the file names propose, and the context for the AI. -/
structure Around where
  t : Nat
  cursor : Nat := 0
  history : Option Str := none
  path : Option Str := none
  recent : List Str := []
  cwd : Str := []
  files : List Str := []
  code : Int := 0
deriving DecidableEq

/-- The preferences that matter here, the engine (suggestion.rs:148-153) with the answer it keeps (its line, the
answer, the time), and the list shown. -/
structure Ed where
  ghost : Bool := true
  backfill : Bool := true
  kept : Option (Str × Str × Nat) := none
  back : Back := {}
  shown : List Sug := []
deriving DecidableEq

/-- `ai_ttl` (suggestion.rs:143). -/
def keptTtl : Nat := 2000

/-- `use_cache` for the answer kept (suggestion.rs:394-404). -/
def Ed.useKept (e : Ed) (line : Str) (t : Nat) : Option Str :=
  match e.kept with
  | some (p, f, t0) => if p = line ∧ longer line f = true ∧ t - t0 ≤ keptTtl then some f else none
  | none => none

/-- `ai_suggestion_with_context` (suggestion.rs:364-392). -/
def Ed.ask (e : Ed) (r : Req) (t : Nat) : Option Str × Ed :=
  let p := e.back.predict r t
  ((p.1.filter fun c => r.input.isPrefixOf c), { e with back := p.2 })

/-- The request without context, as `ai_suggestion` makes it (suggestion.rs:355-362). -/
def bare (line : Str) (a : Around) : Req := ⟨line, a.cursor, a.recent, none, [], none⟩

/-- The request with context (repl_ai.rs:90-111). -/
def full (line : Str) (a : Around) : Req := ⟨line, a.cursor, a.recent, some a.cwd, a.files, some a.code⟩

/-- `predict` of the engine (suggestion.rs:214-299). -/
def Ed.predict (blocked : Str → Bool) (e : Ed) (line : Str) (a : Around) : List Sug × Ed :=
  if !e.ghost || line.isEmpty then ([], { e with kept := none })
  else
    match a.history.map (Sug.mk · .history) <|> a.path.map (Sug.mk · .completion) with
    | some s => ([s], { e with kept := none })
    | none =>
      if blocked line then ([], { e with kept := none })
      else if e.backfill then
        let old := ((e.useKept line a.t).map (Sug.mk · .ai)).toList
        let p := e.ask (bare line a) a.t
        match p.1 with
        | some n =>
          let new : Sug := ⟨n, .ai⟩
          (if new ∈ old then old else old ++ [new], { p.2 with kept := some (line, n, a.t) })
        | none => (old, p.2)
      else ([], { e with kept := none })

/-- `refresh_inline_suggestion` (repl_ai.rs:70-128), with no completion menu open. -/
def Ed.refresh (blocked : Str → Bool) (e : Ed) (line : Str) (a : Around) : Ed :=
  let p := e.predict blocked line a
  if p.1.isEmpty && p.2.backfill then
    let q := p.2.ask (full line a) a.t
    { q.2 with shown := (q.1.map (Sug.mk · .ai)).toList }
  else { p.2 with shown := p.1 }

/-- One round of the loop of `force_ai_suggestion` (repl_ai.rs:170-193). -/
def Ed.force (e : Ed) (line : Str) (a : Around) : Ed :=
  let q := e.ask (full line a) a.t
  match q.1 with
  | some n => { q.2 with shown := [⟨n, .ai⟩] }
  | none => { q.2 with shown := [] }

/-- `prefetch` (suggestion.rs:183-203; called when the directory has changed, mod.rs:1053-1070): the backend is
reached through its trait, whose `prefetch` is empty (suggestion.rs:124), and the implementation for the AI
(suggestion.rs:732-749) has none of its own. -/
def Ed.prefetch (e : Ed) (_cwd : Str) (_files : List Str) : Ed := e

/-- `set_preferences` (suggestion.rs:171-177). -/
def Ed.set (e : Ed) (ghost backfill : Bool) : Ed :=
  { e with ghost := ghost, backfill := backfill, kept := if ghost then e.kept else none }

/-- What happens: a refresh (each key, and each 300 ms, mod.rs:821-843), a round of Alt-s, another directory, other
preferences, a step of the worker, an answer of the service. -/
inductive Ev
  | refresh (line : Str) (a : Around)
  | force (line : Str) (a : Around)
  | moved (cwd : Str) (files : List Str)
  | set (ghost backfill : Bool)
  | work
  | answer (a : Option Str) (t : Nat)

def Ed.ev (blocked : Str → Bool) (e : Ed) : Ev → Ed
  | .refresh line a => e.refresh blocked line a
  | .force line a => e.force line a
  | .moved c f => e.prefetch c f
  | .set g b => e.set g b
  | .work => { e with back := e.back.work }
  | .answer a t => { e with back := e.back.answer a t }

def Ed.evs (blocked : Str → Bool) (e : Ed) (l : List Ev) : Ed := l.foldl (Ed.ev blocked) e

end Dsh.AiSug
