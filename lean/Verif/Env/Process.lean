import Verif.Env.Vars
import Verif.Prompt.GitProps
/-!
The environment of the process and the variables of the shell (C211).  The shell takes its variables from the process when
it starts (dsh/src/environment/mod.rs:132) and no command writes them back: outside tests `std::env::set_var` is called only to
take back a failed configuration (dsh/src/lisp/mod.rs:281-297, not in this file); some parts read the variables of the shell, others
`std::env::var`, and programs started with `std::process::Command` get the environment of the process.

Here: `capture_command` of `safe-run` and `trigger` (dsh/src/proxy/mod.rs:366-387), the three ways an editor is started
(dsh/src/utils/editor.rs:9-40, dsh/src/command_palette/actions/find_file.rs:69-77, dsh-builtin/src/gwt.rs:589-607), the
profile and the context of the prompt (dsh/src/prompt/mod.rs:1111-1122, 1171-1176), the token of `gh-notify`
(dsh-builtin/src/gh_notify.rs:105-116), the settings of the AI (dsh-builtin/src/chatgpt.rs:235-237,
dsh/src/repl/mod.rs:383-390).  Values that are not UTF-8 are left out.
-/
namespace Dsh.Proc
open Dsh.Env (Map State Op step run getVar childEnv)
open Dsh.Prm (words)

abbrev Str := List Char

/-- The shell and its process. -/
structure Shell where
  env : State
  proc : Map

/-- A command that sets variables; none of them calls `std::env::set_var`. -/
def Shell.op (s : Shell) (o : Op) : Shell := { s with env := step s.env o }

/-- A session. -/
def Shell.after (s : Shell) (l : List Op) : Shell := l.foldl Shell.op s

/-! ### Who reads what -/

/-- The environment of the commands `safe-run` looks at and `trigger` runs: `capture_command` (proxy/mod.rs:366-387). -/
def captured (s : Shell) : Map := s.proc

/-- `launch_editor` (utils/editor.rs:9-40): what is started, `none` is an error. -/
def editLine (which : Str → Bool) (s : Shell) (path : Str) : Option (List Str) :=
  let cmd := match s.proc.get c!"VISUAL" with
    | some v => v
    | none => match s.proc.get c!"EDITOR" with
      | some v => v
      | none => if which c!"emacsclient" then c!"emacsclient -nw" else if which c!"vim" then c!"vim" else c!"nano"
  match words cmd with
  | [] => none
  | p :: args => some (p :: args ++ [path])

/-- The editor of the palette (command_palette/actions/find_file.rs:69-77). -/
def editFound (s : Shell) (path : Str) : List Str :=
  let cmd := match s.proc.get c!"EDITOR" with
    | some v => v
    | none => match s.proc.get c!"VISUAL" with
      | some v => v
      | none => c!"vim"
  [cmd, path]

/-- `open_editor` of `gwt` (gwt.rs:589-607). -/
def editTree (s : Shell) (path : Str) : Option (List Str) :=
  let cmd := match s.proc.get c!"EDITOR" with
    | some v => v
    | none => match s.proc.get c!"VISUAL" with
      | some v => v
      | none => c!"vi"
  match words cmd with
  | [] => none
  | p :: args => some (p :: args ++ [path])

/-- `fetch_aws_profile` (prompt/mod.rs:1111-1115). -/
def profile (s : Shell) : Option Str := (s.proc.get c!"AWS_PROFILE").or (s.proc.get c!"AWS_DEFAULT_PROFILE")

/-- `env_var_value` (prompt/mod.rs:1171-1176) of `DOCKER_CONTEXT` (prompt/mod.rs:1119-1121). -/
def dockerContext (s : Shell) : Option Str := ((s.proc.get c!"DOCKER_CONTEXT").map trim).filter (· ≠ [])

/-- The token of `gh-notify` (gh_notify.rs:105-116); `lisp` is the Lisp variable. -/
def token (lisp : Option Str) (s : Shell) : Option Str :=
  (getVar s.env c!"*github-pat*").or (lisp.or (s.proc.get c!"GITHUB_TOKEN"))

/-- A setting of the AI: `proxy.get_var(key).or_else(|| std::env::var(key).ok())` (chatgpt.rs:235-237, repl/mod.rs:383-390). -/
def setting (s : Shell) (key : Str) : Option Str := (getVar s.env key).or (s.proc.get key)

/-! ### Spec -/

/-- A shell that has just been started. -/
def Started (s : Shell) : Prop := s.env.sys = s.proc ∧ s.env.vars = [] ∧ s.env.exported = []

/-- A name of no captured output, without a dollar, and none of the names of the MCP counts. -/
def Usual (n : Str) : Prop :=
  OutHist.parseOutputVar n c!"OUT" = none ∧ OutHist.parseOutputVar n c!"ERR" = none ∧
    n ≠ c!"MCP_SERVERS" ∧ n ≠ c!"MCP_CONNECTED" ∧ n ≠ c!"MCP_TOOLS" ∧ n.head? ≠ some '$'

instance (n : Str) : Decidable (Usual n) := by unfold Usual; infer_instance

/-! ### Lemmas -/

theorem after_proc : ∀ (l : List Op) (s : Shell), (s.after l).proc = s.proc
  | [], _ => rfl
  | o :: l, s => after_proc l (s.op o)

theorem after_env : ∀ (l : List Op) (s : Shell), (s.after l).env = run s.env l
  | [], _ => rfl
  | o :: l, s => after_env l (s.op o)

theorem after_append (s : Shell) (l m : List Op) : s.after (l ++ m) = (s.after l).after m := List.foldl_append ..

theorem getVar_usual {e : State} {n : Str} (h : Usual n) : getVar e n = (e.vars.get n).or (e.sys.get n) := by
  obtain ⟨h1, h2, h3, h4, h5, h6⟩ := h
  rw [getVar, h1]
  simp only [h2, if_neg h3, if_neg h4, if_neg h5]
  · cases hv : e.vars.get n <;> simp only [Option.none_or, Option.some_or]
  · rintro m rfl
    simp at h6

theorem step_exp (e : State) {k : Str} (v : Str) (hk : '=' ∉ k) :
    (step e (.exp (k ++ '=' :: v))).vars.get k = some v ∧ k ∈ (step e (.exp (k ++ '=' :: v))).exported := by
  simp only [step, Env.exportArg, Env.splitOnce_of v hk, Env.setAndExport]
  exact ⟨by simp [Env.Map.get_insert], by simp [Env.mem_insertSet]⟩

/-! ### C211 -/

/-- **C211, programs.** After `export NAME=value`, whatever was before, programs started from builtins have the variable, and so
do the settings of the AI. -/
theorem C211_export_partial (s : Shell) (l : List Op) (k v : Str) (hk : '=' ∉ k) (ht : k ≠ Env.TERM) :
    (childEnv (s.after (l ++ [.exp (k ++ '=' :: v)])).env).get k = some v ∧
      (Usual k → setting (s.after (l ++ [.exp (k ++ '=' :: v)])) k = some v) := by
  rw [after_append]
  obtain ⟨h1, h2⟩ := step_exp (s.after l).env v hk
  refine ⟨?_, fun hu => ?_⟩
  · show (childEnv (step (s.after l).env _)).get k = _
    rw [Env.C34_builtins_partial, Env.Wanted]
    simp [ht, h1, h2]
  · show (getVar (step (s.after l).env _) k).or _ = _
    rw [getVar_usual hu, h1]; rfl

/-- **C211, at the start.** Before anything is set, what `safe-run` runs sees the variables other programs see. -/
theorem C211_started_partial (s : Shell) (h : Started s) (k : Str) (ht : k ≠ Env.TERM) :
    (captured s).get k = (childEnv s.env).get k := by
  rw [Env.C34_builtins_partial, Env.Wanted, h.1, h.2.1, h.2.2]
  simp [ht, captured]

/-- **C211, the prompt at the start.** It names the profile and the context programs are given. -/
theorem C211_names_partial (s : Shell) (h : Started s) :
    profile s = ((childEnv s.env).get c!"AWS_PROFILE").or ((childEnv s.env).get c!"AWS_DEFAULT_PROFILE") ∧
      dockerContext s = (((childEnv s.env).get c!"DOCKER_CONTEXT").map trim).filter (· ≠ []) := by
  rw [← C211_started_partial s h _ (by decide), ← C211_started_partial s h _ (by decide), ← C211_started_partial s h _ (by decide)]
  exact ⟨rfl, rfl⟩

/-- **C211 fails: captured commands.** What is exported, set or dropped in a session does not reach the commands of `safe-run`
and `trigger`. -/
theorem C211_captured_violated (s : Shell) (l : List Op) : captured (s.after l) = captured s := after_proc l s

/-- So a variable that was not there at the start is missing, although ordinary programs have it. -/
theorem C211_missing_violated (s : Shell) (l : List Op) (k v : Str) (hk : '=' ∉ k) (ht : k ≠ Env.TERM) (hs : s.proc.get k ≠ some v) :
    let t := s.after (l ++ [.exp (k ++ '=' :: v)])
    (childEnv t.env).get k = some v ∧ (captured t).get k ≠ some v :=
  ⟨(C211_export_partial s l k v hk ht).1, by rw [C211_captured_violated]; exact hs⟩

/-- And a variable taken away, a password for example, is still given to them. -/
theorem C211_kept_violated (s : Shell) (l : List Op) (k v : Str) (ht : k ≠ Env.TERM) (hs : s.proc.get k = some v)
    (hv : (s.after l).env.vars.get k = none) :
    let t := s.after (l ++ [.unset k])
    (childEnv t.env).get k = none ∧ (captured t).get k = some v := by
  intro t
  refine ⟨?_, by rw [C211_captured_violated]; exact hs⟩
  show (childEnv (s.after (l ++ [.unset k])).env).get k = none
  rw [after_append, Env.C34_builtins_partial, Env.Wanted]
  have h1 : ((s.after l).after [.unset k]).env.vars = (s.after l).env.vars := (Env.unsetSys_parts _ k).2.1
  have h2 : ((s.after l).after [.unset k]).env.sys = (s.after l).env.sys.erase k := (Env.unsetSys_parts _ k).1
  simp [ht, h1, h2, hv, Env.Map.get_erase]

/-- **C211 fails: editors.** `export EDITOR=…` in a session changes none of the editors. -/
theorem C211_editor_violated (which : Str → Bool) (s : Shell) (l : List Op) (path : Str) :
    editLine which (s.after l) path = editLine which s path ∧ editFound (s.after l) path = editFound s path ∧
      editTree (s.after l) path = editTree s path := by
  simp only [editLine, editFound, editTree, after_proc, and_self]

/-- **C211 fails: the prompt.** `export AWS_PROFILE=…` changes the account programs use, not the one the prompt names. -/
theorem C211_prompt_violated (s : Shell) (l : List Op) :
    profile (s.after l) = profile s ∧ dockerContext (s.after l) = dockerContext s := by
  simp only [profile, dockerContext, after_proc, and_self]

/-- **C211 fails: the token.** `export GITHUB_TOKEN=…` is not seen by `gh-notify`. -/
theorem C211_token_violated (lisp : Option Str) (s : Shell) (l : List Op)
    (hp : getVar (s.after l).env c!"*github-pat*" = none) : token lisp (s.after l) = lisp.or (s.proc.get c!"GITHUB_TOKEN") := by
  rw [token, hp, after_proc]; rfl

/-- **C211 fails: settings taken away.** A setting of the AI that is dropped stays in force, from the start of the shell. -/
theorem C211_dropped_violated (s : Shell) (l : List Op) (k v : Str) (hu : Usual k) (hs : s.proc.get k = some v)
    (hv : (s.after l).env.vars.get k = none) : setting (s.after (l ++ [.unset k])) k = some v := by
  rw [after_append]
  have h1 : ((s.after l).after [.unset k]).env.vars = (s.after l).env.vars := (Env.unsetSys_parts _ k).2.1
  have h2 : ((s.after l).after [.unset k]).env.sys = (s.after l).env.sys.erase k := (Env.unsetSys_parts _ k).1
  rw [setting, getVar_usual hu, h1, h2, hv, after_proc, after_proc, hs]
  simp [Env.Map.get_erase]

/-- **C211, one editor.** With one of the two variables set, to one word, all three start it with the file. -/
theorem C211_same_partial (which : Str → Bool) (s : Shell) (path w : Str) (hw : Prm.Name w)
    (h : (s.proc.get c!"EDITOR" = some w ∧ s.proc.get c!"VISUAL" = none) ∨
      (s.proc.get c!"EDITOR" = none ∧ s.proc.get c!"VISUAL" = some w) ∨
      (s.proc.get c!"EDITOR" = some w ∧ s.proc.get c!"VISUAL" = some w)) :
    editLine which s path = some [w, path] ∧ editFound s path = [w, path] ∧ editTree s path = some [w, path] := by
  rcases h with ⟨h1, h2⟩ | ⟨h1, h2⟩ | ⟨h1, h2⟩ <;> simp [editLine, editFound, editTree, h1, h2, Prm.words_last w hw]

/-- **C211 fails: two editors.** With both set, the line is edited with one and files with the other. -/
theorem C211_two_violated (which : Str → Bool) (s : Shell) (path e v : Str) (he : Prm.Name e) (hv : Prm.Name v)
    (h1 : s.proc.get c!"EDITOR" = some e) (h2 : s.proc.get c!"VISUAL" = some v) :
    editLine which s path = some [v, path] ∧ editFound s path = [e, path] ∧ editTree s path = some [e, path] := by
  simp [editLine, editFound, editTree, h1, h2, Prm.words_last e he, Prm.words_last v hv]

/-- **C211 fails: editors with options.** The palette looks for a program whose name is the whole value. -/
theorem C211_options_violated (s : Shell) (path p o : Str) (hp : Prm.Name p) (ho : Prm.Name o)
    (h1 : s.proc.get c!"EDITOR" = some (p ++ ' ' :: o)) :
    editFound s path = [p ++ ' ' :: o, path] ∧ editTree s path = some [p, o, path] := by
  simp [editFound, editTree, h1, Prm.words_word p hp, Prm.words_last o ho]

/-- **C211 fails: an empty variable.** `VISUAL=` set to nothing: no editor at all, although `EDITOR` is set. -/
theorem C211_empty_violated (which : Str → Bool) (s : Shell) (path : Str) (h : s.proc.get c!"VISUAL" = some []) :
    editLine which s path = none := by
  simp [editLine, h, Prm.words, Prm.wordsGo]

/-! ### Examples -/

def demo : Shell where
  env := { Env.ex0 with sys := [(c!"EDITOR", c!"vi"), (c!"TOKEN", c!"secret")], vars := [], exported := [] }
  proc := [(c!"EDITOR", c!"vi"), (c!"TOKEN", c!"secret")]

theorem started_run : Started demo := ⟨rfl, rfl, rfl⟩

theorem export_run : (childEnv (demo.after [.exp c!"EDITOR=nano"]).env).get c!"EDITOR" = some c!"nano" ∧
    editTree (demo.after [.exp c!"EDITOR=nano"]) c!"f" = some [c!"vi", c!"f"] := by decide +kernel

theorem kept_run : (childEnv (demo.after [.unset c!"TOKEN"]).env).get c!"TOKEN" = none ∧
    (captured (demo.after [.unset c!"TOKEN"])).get c!"TOKEN" = some c!"secret" :=
  C211_kept_violated demo [] c!"TOKEN" c!"secret" (by decide) (by decide) (by decide)

theorem usual_run : Usual c!"AI_CHAT_API_KEY" := by decide +kernel

end Dsh.Proc
