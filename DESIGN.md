# Formal model of doge-shell: design and trusted base

The source under study is `/repo` (Rust, pinned commit).  It is read as text; nothing of it is
built or run here.  Everything below `/verif/lean/Verif` is Lean 4 (core, plus single Mathlib
modules where named in an import).

## Layout

Each area has up to three modules:

* `Verif/<Area>/Model.lean`  – function-by-function model; every definition cites file and lines.
* `Verif/<Area>/Lemmas.lean` – helper lemmas.
* `Verif/<Area>/Props.lean`  – the property theorems, the small independent specification they are
  stated against, and `example`s showing that the hypotheses are met by concrete cases.

Theorem names end in `_partial` where only part of the property is proved, and `_violated` where
the code does not have the property: such a theorem proves the negation on a concrete witness.

## Plan per property

| id | what is modelled | how it is proved |
|----|------------------|------------------|
| C01 | `Input` with text as characters with UTF-8 widths, byte-offset index vector and caret | refinement to (characters, caret); invariant by induction over the operation list; panics are `none` and shown unreachable |
| C02 | word motions and kills of the same model | decomposition theorems (text = before ++ removed ++ after) |
| C03 | `shell.pest` as data, run by a PEG interpreter | negation by witness; partial: lines made of plain words joined by the operators are read completely |
| C04 | `escape_unquoted`, rule `word`, `get_string` | round trip for all non-empty strings |
| C05 | the quoted encoders, rules `s_quoted`/`d_quoted`, `get_string` | negation by witness; partial: names without the special characters |
| C06 | `encode`/`from_raw` | round trip for all strings |
| C07 | `tokenize` as a fold | invariant over the fold |
| C08 | `is_incomplete_input` scanner | equivalence with a specification automaton; closing lemmas |
| C09 | `expand_braces` | refinement to a cartesian-product semantics on brace syntax trees |
| C10 | `expand_var_args` splice and re-parse | negation by witness; partial: values of word characters |
| C11 | gate loop of `eval_str` over an abstract launcher | refinement to a recursive definition of list semantics |
| C12 | `BuiltinProcess::launch` status mapping composed with the gate loop | negation by witness; partial: what the mapping does guarantee |
| C13 | gate loop with stopped jobs | induction on the list |
| C14 | process chains, `set_state`, `last_process_state` | induction over event sequences; order independence |
| C15 | foreground wait loop over an event schedule | invariant and termination over schedules |
| C16 | `check_job_state`/`update_status`/`update_state` | negation by witness for pipelines; partial: single-process jobs |
| C17 | wait-any of the foreground loop + later `waitpid` of the background job | negation by witness; partial: schedules in which no foreign child ends |
| C18 | counter and `parse_job_spec` | invariant over histories; decision logic |
| C19 | `execute_fg`/`execute_bg` on the job table | negation by witness (fg); partial |
| C20 | `OutputHistory` | invariant over push sequences; refinement to "suffix of all pushes" |
| C21 | `back`/`forward` | invariant over key sequences; negation for searching |
| C22 | SQLite upsert transaction as a state machine with crash points | invariant over batches; atomicity |
| C23, C79–C81 | `Verif/Secrets/Model.lean`: the four fixed regular expressions as matchers at a position (leftmost-first, case-insensitive; which non-ASCII characters are word characters is left open), `replace_all` and `captures_iter` as scans, name check, `process_for_history`, the three writers of the history | the scan splits at white space, so assignments are found and replaced wherever they stand behind white space; noninterference: what is stored does not depend on the value; skip mode by matching anywhere; negations with witnesses (glued assignments, quoted values, user patterns, `-pSecret`, `mkdir -p`, accepted suggestions and imports). User patterns are arbitrary sets of texts. Not shown: redaction of bearer tokens and URL parameters beyond examples |
| C24, C75–C78 | `Verif/Dirs/Frecency.lean`: the directory store with Rust's binary search loop, item statistics over IEEE classes (finite values rational, rounding open, infinities and NaN exact), the snapshot table (rows in row-number order, `INSERT OR REPLACE` moves a row to the end, NaN refused by `NOT NULL`, fractions not readable as `i64`), `from_file`, `reload`, `save`, `z -c` | sortedness invariant over all operations, refinement to a map, exact prefix search; the failures after a restart are general theorems plus witnesses. Not modelled: fuzzy matching scores, the background writer thread (its `changed` flag), concurrent shells |
| C25, C26, C82, C83 | `Verif/Lisp/Reader.lean`: the reader over byte positions (a position inside a character is an explicit value), white space and comment skipping, atoms in the order they are tried, lists, quote and comma; the printer; the macro generator and the `(begin …)` wrapping of the configuration. Which non-ASCII characters are numeric is left open; floats are texts of at most 15 significant digits | fuel-monotone recursive reader, proved total with fuel twice the length; round trip by induction on the value; locality of reading (what follows does not matter); exact characterisation of the macros recorded faithfully; negations for strings, floats, single semicolons and quoted commands. Not modelled: hash maps, tables, foreign values |
| C26, C27, C28, C84 | `Verif/Lisp/Eval.lean`: scopes as a growing list with parent places (shared, as the `Rc`s are), every special form, macros, commas, natives that receive the scope of the caller, other natives as an arbitrary function of arguments and the trace of effects so far; the tail-call value and its loop, with a switch that turns it off. Depth of recursion is fuel; running out of it is a result of its own (`Mono.lean`: more fuel never changes another result) | scope operations against the chain of scopes (`Scope.lean`); an invariant of all programs (`Keep.lean`); a simulation between the two switches by induction on fuel (`Tail.lean`); replay of macros by computing the evaluation (`EvalProps.lean`). Not modelled: hash tables, foreign values, the stack limit |
| C87 | `Verif/Lisp/Hooks.lean`: the code generated for hooks, read by the reader and run by the evaluator of the rows above | compositional reading lemma (`Reads`); evaluation of the generated form for arbitrary hooks; negation for every readable expression in quotes |
| C88 | `Verif/Lisp/Rollback.lean`: the fields of the shell environment as an arbitrary fold over the calls of native functions, snapshot and restoring by field, restoring of the global scope | invariant of the evaluator (`Keep.lean`) plus monotonicity of the trace of calls; negations |
| C85, C86, C89 | `Verif/Lisp/Natives.lean`: the two comparison functions that call each other, `==`, integer arithmetic of release and of checked builds, `range`, printing functions by bytes | no fuel suffices, by induction; exact characterisation of aborting divisions; numbers collected by `range` over wrapping integers. Not modelled: floats |
| C29 | `check_jobs`, `check_command` composed with the line reader and `eval_str` | the checkers decide an inductive classification; line theorem; negation by witnesses |
| C30 | `check_rm` | exact characterisation; negation against rm(1)'s option syntax |
| C31 | file system with symlinks and a link limit, canonicalisation, `resolve_tool_path`, the four file tools | containment theorem; negation for requests over the link limit |
| C32 | `execute` tool up to the start of the program, any word splitter | decision logic, all strings; negation for evaluators |
| C33 | `serve` handlers over the same file system | containment for files; negation for `index.html` links |
| C34, C90, C91 | `Verif/Env/Model.lean`, `Vars.lean`: the two stores of variables, all assigning commands, the environment built for programs (`prepare_execution`) and by builtins, `get_var` | map equality against `getenv(3)`; simulation of every sequence of assignments by one cell per name; negations. Not modelled: Lisp variables, values that are not UTF-8 |
| C35, C94, C95 | `Verif/Env/Direnv.lean`: reading of `.env`/`.envrc`, loading and unloading of the allowed directories on every `cd`; `to_uppercase` for ASCII | simulation against a shell without directories over all walks; round trip of files; negations |
| C36, C92, C93 | `Verif/Env/Path.lean`: `lookup` with its table, `add_path`, `cd`, arbitrary changes of the file system | invariant over all event sequences; general negations |
| C37 | `Verif/Env/Path.lean`: `collect_executables`, `search_prefix`, `search`, `search_file` | partition point on sorted lists (lemmas of `Verif/Dirs`); negation |
| C96, C97, C98 | `Verif/Env/Activate.lean`: `include` after the script, `pm activate` parsing and search path, `cd`/`changepwd` with OLDPWD | exact effect of both loops for every order; round trip of files; invariant over sequences of `cd` |
| C38, C99 | `Verif/Completion/Cache.lean`: the cache with its life times, the longest live prefix, the filter, and how `complete` uses it; the sources are arbitrary functions of line, cursor, directory and files | invariant over all histories against a spec that reads the history only; negation of freshness |
| C100, C101 | `Verif/Completion/Rank.lean`: boost by history, ordering, removal of duplicates, limit | permutation and order of the sort, uniqueness of kept texts; score against an inductive spec of the loop with its early stop |
| C39 | two-row Levenshtein DP | equality with the minimum over edit scripts |
| C40 | `normalize_tty_newlines` | chunk invariance for all cuttings |
| C41 | rename(2), conflict check and rename loop over the file system | embedding theorem (nothing lost), all-or-nothing theorem; negation by witnesses |
| C42 | backtracking matcher | equivalence with the glob language; panic condition |
| C43 | `Verif/Repl/Suggest.lean`: the suggestion manager and how candidates are collected; the sources are arbitrary answers | invariant over all histories of refreshes and rotations; rotation is a bijection of positions; negation for duplicate texts |
| C102, C103, C104 | `Verif/Repl/Line.lean`: the line with its stored completion, its suggestion, the grey text, the cached analysis and the keys; history, parser, commands and files are arbitrary functions; ASCII | invariant over all key sequences, decision logic; negations with general theorems and witnesses |
| C105, C106, C107, C108, C109 | `Verif/Repl/Keys.lean`: automatic pairs, the AI pipe, the notification text, double presses, pasting; over the editor specification | induction over texts and key sequences; negations |
| C44 | `Verif/Jobs/Wiring*.lean`: table of descriptors with the smallest free number, pipes, terminals, `fork`/`dup2`/`close` of the child, redirect tasks, the recursion over the stages | induction over the stages with the shell's table as invariant; concrete lines for the negations |
| C45, C110 | `Verif/Repl/Notebook.lean`: what is recorded, the fences read back, playing a file with answers, how a played command is dispatched | induction over records; negations |
| C111 | `Verif/Repl/Timing.lean`: statistics in memory and in the file, any number of shells, kills, clearing | invariant over sessions; negations |
| C112, C113 | `Verif/Completion/Paths.lean`: `std::path` parents and names, the listing with its cache over any earlier requests, the candidates of Tab, the grey path | invariant of the cache over requests; order of the sort; general negations |
| C114, C115 | same files: the context carried from job to job; the effect of the copying task on the files; the redirect theorems cover programs and builtins | induction over the jobs of a line (numbers of a new terminal depend on the open descriptors only); general negation behind pipelines |
| C116, C117 | `Verif/Completion/CmdLine*.lean`: the parser of the line for completion, the range replaced; `Verif/Completion/Menu.lean`: the older sources | tiling of the tokens (C07); lines of plain words as lists; general negations with operators, earlier arguments, clock |
| C118 | `Verif/Completion/Menu.lean`: keys, mark, choice, the whole of Tab without the AI | induction over the keys with the invariant that the mark is on a candidate |
| C119 | `Verif/Completion/MenuLayout.lean`: layout, cells, columns drawn; widths of characters a parameter | arithmetic of the layout, characterisation of the candidates drawn |
| C120, C121 | `Verif/Saved/Model.lean`: `dispatch`, tables of bookmarks and snippets, both built-ins; `shDoes` (Props) is what POSIX `sh` does with its arguments | general negation for every saved command; induction over sessions of invocations |
| C122 | `Verif/Saved/SafeRun.lean`: replies of the AI and answers of the user as parameters | events before and after each agreement, for all replies and answers |
| C123 | `Verif/Saved/Tasks.lean`: options, choosing, detection; the Taskfile is scanned as in the code, other readers are parameters | uniqueness of source and name after removal of duplicates; round trip of a simple Taskfile |
| C124 | `Verif/Parse/Alias.lean`: lines with aliases over the expansion and parser of `Verif/Parse`; `Verif/Parse/AliasCmd.lean`: the built-in `alias`; `useAlias` (specification) puts the words of the alias in front of the arguments | the text after expansion is the text of the line with the aliases replaced, read again by the line theorem; induction over sessions of `alias` |
| C125 | `Verif/Repl/Abbr.lean`: the built-in `abbr`, the blank key and the first part of Enter over the editor model of `Verif/Editor`; the order of a listing is that of the table | the word left of the caret is characterised by what stands before it; refinement of the editor (C01); induction over sessions |
| C126 | `Verif/Completion/Defs.lean`: the definitions of commands, the correction of the parsed line with them (applied twice, as in the code) and the generators for subcommands, options and values, on top of the parser of `Verif/Completion/CmdLine.lean`; candidates for files and commands and the fuzzy matcher are parameters | walk of the parser and of the corrector over a line made of words, by induction over the chain of subcommands; counterexamples over small definitions |
| C127 | `Verif/Jobs/Record.lean`: how a line is launched with and without capture, what each stream is connected to, and what is recorded, on top of the wiring of `Verif/Jobs/Wiring*.lean` | case analysis over the ways a command is launched; counterexamples |
| C128 | the same file; the pty turns newlines into carriage return and newline and joins both streams | as C127 |
| C129 | the same file and `smartPipe` of `Verif/Jobs/Eval.lean` | equation for the line for all texts; counterexample for the wiring |
| C130 | the same file: `out` with its listing, cut at a byte number, panic as a value | induction over the list of records; counterexamples |
| C131 | `Verif/Dirs/Jump.lean`: `z` with its subcommands, the alias table as a keyed list, `changepwd`; database and file system are parameters; hooks of a change of directory are left out | frame theorem for every command, induction over sequences of commands; keyed table as invariant; counterexamples |
| C132 | the same file: order of the matches over the items of `Verif/Dirs/Frecency.lean`; matcher and menu are parameters, the time stands still during a command, a visit is not entered into the history | sorting specification with score first and frecency second; counterexamples |
| C133 | `Verif/Lisp/Table.lean`: JSON values to cells and back, objects as sorted maps, tables as columns and rows; the text of JSON is not modelled | mutual induction over values; sorted-map lemmas; general counterexamples |
| C134 | the same file: fields to cells and back; integers in decimal are modelled, reading and writing floats are parameters with one law (`nan`); the text of CSV is not modelled | induction over header and fields; decimal round trip |
| C135 | the same file | equations with `filter` by an independent predicate, one lemma on records |
| C136 | the same file, with insertion sort for `sort_by`; where the comparison is no order the library may also panic for more than 20 rows; `Verif/Lisp/Eval.lean` for `:desc` | sorting and stability lemmas for a relation that is an order on the list only |
| C137 | `Verif/Hist/Listing.lean`: the words of `history`, the query they give and the lines shown, on top of the search of `Verif/Hist/Store.lean` | induction over option lists that are permutations of a record; the result as `filter` of the entries |
| C138 | `Verif/Dirs/Trigger.lean`: the loop of `trigger` with times; what is reported, the matching of patterns, durations and results of the command are parameters; Ctrl+C and messages are left out | invariants over all steps; general counterexamples |
| C139 | `Verif/Prompt/Where.lean`: the directory part of the prompt; paths are lists of names, colours are left out | the meaning of the shown text is the directory; general counterexamples |
| C140 | `Verif/Prompt/Git.lean`: reading the lines of `git status --porcelain=2 --branch` and writing the marks; counters unbounded | induction over well-formed reports against counts of a separate line type |
| C141 | `Verif/Prompt/Track.lean`: the repository, the cached report, messages, throttle and the background task cut at its waits; disk and git are a parameter | invariant over all operation lists; general counterexamples |
| C142 | `Verif/Prompt/Tools.lean`: one cached version or context with its gate and the programs asked; what programs answer and when they end are parameters | invariants over all event lists with times |
| C143 | `Verif/Repl/Palette.lean`: registry, list and choice of the palette, and what the loop does with the result; the picker is a parameter that gives the selected items and whether it was left with Esc (skim also gives the item under the caret then; trusted) | invariant over registrations, sortedness; general counterexamples |
| C144 | the same file: the programs started by ten actions from the chosen line; how docker and git read their arguments is a small specification in `PaletteProps.lean` | decomposition of lines; general counterexamples |
| C145 | `Verif/Repl/Title.lean`: titles as written; the terminal is a small state machine for operating system commands in `TitleProps.lean` (specification, trusted to describe terminals) | all jobs; round trip through the terminal |
| C146 | the same file: the report of the directory; a reader of file URIs by RFC 3986 for codes of single characters is the specification; names that are not UTF-8 are not modelled | round trip; general counterexamples |
| C147 | the same file: Enter, Alt+Enter, Ctrl+C (release build), Ctrl+L and edits as steps; whether a text is incomplete and whether it is an AI pipe are parameters; abbreviations, the transient prompt and separators are left out | invariants over event lists; general counterexamples |
| C148 | `Verif/Env/Commands.lean` over the variables of `Env/Model.lean`; a panic is a value; input is text or not UTF-8 | all inputs; general counterexamples |
| C149 | the same file: the descriptors closed by the body of a builtin, by its launch and by the guard of a redirect, as lists; closing of the terminal of a job by its owner is left out | case analysis; counting |
| C150 | the same file; the option parser (crate getopts, not in the repository) is modelled from its documentation and trusted; a reader of POSIX double quotes is the specification for listings | round trip; general counterexamples |
| C151 | `Verif/Safety/Ignore.lean`; what one ignore file says about a path is a parameter (crate ignore); git's decision over all files is the specification, from gitignore(5); the walker of `search` (crate ignore, inside a git work tree) is modelled from its documentation and trusted; paths outside the directory of the shell (skills) are left out | equivalence for all trees; induction over the path; general counterexamples |
| C152 | the same file; the limit is a parameter | induction over the text |
| C153 | `Verif/Repl/Paint.lean`; the matcher of the grammar with positions, proved to agree with `Verif/Parse/Peg.lean`; positions in characters; escape sequences, the grey suggestion and the caret are left out. Not reachable and left out: the error token of `highlight.rs` (the grammar rule `commands` accepts every text, `parse_never_fails`) and colours of history items (`set_completions` is never called) | induction over the grammar and over the events; refinement |
| C154 | the same file; which commands and paths are known is a parameter | the same, and a general derivation for one unquoted word |
| C155 | `Verif/Tools/Git.lean`; what the user marks in the list is a parameter; what git prints and what `git add` does with its arguments is part of the specification, written from its manual pages (`Verif/Tools/GitProps.lean`); preview, colours and messages are left out | round trip through the text of `git status`; refutation by general witnesses |
| C156 | the same file; `git branch --all` and `git checkout` specified from the manual pages | the same |
| C157 | the same file; `git worktree list --porcelain` specified from the manual page; pull requests, the editor and the change of directory are left out | induction over the arguments; round trip |
| C158 | the same file; the list of the log and its options are left out | round trip through a line of the log |
| C159 | `Verif/Tools/Procs.lean`; reports of the system and keys are the input; reuse of process numbers and errors of the terminal are left out | invariant over all runs |
| C160 | `Verif/Completion/Explain.lean` on `Verif/Completion/CmdLine.lean`; the explanation by the AI service is left out | derivation for all lines of plain words; general refutations |
| C161 | the same file; the screen as a list of rows, texts fit into a row | step lemmas on the screen; general refutations |
| C162 | `Verif/Completion/Live.lean` on `CmdLine.lean` and `Defs.lean`; programs answer with a text or fail, at any time; the matcher is a parameter | invariant over all histories; general refutations |
| C163 | `Verif/Completion/Sources.lean`; files as texts with a time of change; no symbolic links | induction over the lines; invariant over all histories; general refutations |
| C164 | the same file on `Verif/Saved/Tasks.lean`; the texts of the task programs are a parameter | invariant over all histories; general refutations |
| C165 | the same file on `Live.lean`; what `sh` does with the text is not modelled, only the text | induction over templates; general refutations |
| C166 | the same file; a program is when it ends, when its output is closed and what it printed; the memory in front of it is left out | case analysis; general refutation |
| C167 | `Verif/Chat/Talk.lean`; service, tools and presses are a script, texts of requests are lists of messages, the length of a message is a parameter | invariant over all conversations; general refutations |
| C168 | the same file; a press is seen in time, late or not at all | induction over the rounds; general refutations |
| C169 | the same file; messages have the text put together from their parts | induction over the rounds; general refutation |
| C170 | `Verif/Chat/Setup.lean`; variables are functions, HTTP is left out | case analysis on texts; general refutations |
| C171 | the same file; a directory is the list of its entries with times, texts are UTF-8, the sentences around the list are left out | invariant over all histories, induction over lines; general refutations |
| C172 | `Verif/Chat/Markdown.lean`; the Markdown parser is left out, an answer is the list of its events | invariant over all event lists; general refutations |
| C173 | the same file | induction over nested parts and over lines; general refutations |
| C174 | the same file; the terminal is an automaton that knows text, colours and incomplete sequences | invariant over all event lists; general refutation |
| C175 | `Verif/Chat/Mcp.lean`; how a server is reached is a number, what it answers a parameter; arguments and results of calls are left out | invariant over all operations; general refutations, one witness for the moved name |
| C176 | the same file; warnings are left out, hash of a configuration is a parameter | step lemmas for the state of one label, folded over sorted lists; general refutations |
| C177 | the same file; nothing stands for a panic of a slice inside a character | direct; the refutations with quotes use the reader of C25 |
| C178 | `Verif/Completion/Generated.lean`; JSON texts are trees, numbers one value; the prompt, the request and the cleaning of the answer are left out; `completions` directories are functions of the name | round trip of every definition written as JSON; invariants of the reader; general refutations |
| C179 | the same file; how a script is run is C165 | induction over definitions: what is read was checked; general refutations |
| C180 | the same file; the directories may change between two Tabs in any way | invariant over sequences of Tabs; general refutations |
| C181 | `Verif/Repl/AiSuggest.lean`: engine, backend and worker as a state machine; times are milliseconds given by the events; the request over the network is an event with its answer; history and file name matches are given | invariant over all event lists: every answer kept stems from a request and an answer; refutations for all lines |
| C182 | the same file; the task of the backend is a worker with the steps of its loop, interleaved freely | invariant of flag, permit and queue; induction over rounds for the endless asking |
| C183 | the same file; the list of blocked commands is an arbitrary predicate; secrets as in C23/C79 | requests made are traced to events; refutations for all lines |
| C184 | `Verif/Repl/AiHelp.lean`; what a key makes of the line is given; the drawing of the explanation is C161 | invariant over all event lists: the explanation belongs to the line; refutations for all lines |
| C185 | the same file; the command line the AI proposes is checked as in C66; what `$OUT` holds is C53 | invariant: offers stem from answers to failed commands; refutations over all later commands |
| C186 | the same file; the review as a recursion over what is typed, its end an explicit value; `git` is the tree staged and whether it works | induction over the answers |
| C187 | the same file; the screen of the diagnosis and its follow-up questions are left out | case analysis over the lines of the answer; the texts told as in C64 |
| C188 | `Verif/Dirs/Projects.lean`; directories as lists of components without links; the file absent, a list or unreadable; `activate` is C97 | invariant over all event lists; exact effects of each command |
| C189 | the same file; other hooks (C87) and settings of directories (C35) only as far as they fail | loop invariant of the search against a spec of "innermost"; case analysis of the arrival |
| C190 | `Verif/Prompt/GitHub.lean`; the service as a value, colours and times left out | fold against counts of filtered lists; induction over checks |
| C191 | the same file; what `serde` derives is written down; lower case of ASCII | case analysis of the reading; map from lines as last match |
| C192 | `Verif/Repl/AiTab.lean`; the service is a function, the JSON library a parameter, what completion does then is C112–C126 | the last `|?` by induction; exact case analysis of the key |
| C193 | `Verif/Tools/Doctor.lean`; the sections as the lines they print; `config`, `mcp`, `project`, `performance` only as headers | comparison with the model of requests of C170 |
| C194 | the same file; output of git by a small spec of its format, escapes as far as they have a backslash | round trip by induction; membership of every command characterised |
| C195 | the same file; trees as sorted lists of files with contents | induction over lists |
| C196 | `Verif/Fs/ServePage.lean`; names as texts; the specification is a reader of HTML without comments and scripts | the reader as a machine over characters, composed over the page by induction |
| C197 | the same file; crate getopts written down, current directory always known, the log left out | round trip of options; case analysis |
| C198 | `Verif/Tools/Context.lean`; the directories above as a list, TOML as a parameter | precedence by case analysis; lines by induction |
| C199 | `Verif/Lisp/Settings.lean`; values of the language as texts or others that print as some text | invariant over all sequences of calls |
| C200 | the same file; programs as a function of environment, name and arguments | case analysis |
| C201 | the same file with `Verif/Secrets`; regular expressions of added patterns as a parameter | invariant over calls; no built-in rule matches the line, by induction |
| C202 | the same file | invariant over calls; case analysis |
| C203 | `Verif/Lisp/Sh.lean` over the descriptors of `Verif/Jobs/Wiring.lean`; which jobs of a list run is left out, a pipe takes 65536 bytes | wiring of captured pipelines by induction over stages; once closed, no descriptor of the pipe comes back: invariant over all jobs |
| C204 | `Verif/Hist/Start.lean` over `Verif/Hist/Store*.lean`; the steps of the loading thread, of the user and of the writer are interleaved freely, the writer never fails | invariants over all executions; the refutations hold of every execution of the given shape |
| C205 | `Verif/Repl/Modes.lean` over the loop of `Verif/Jobs/Eval.lean`; reading a line into jobs and the guard are parameters, lines to the assistant are left out | invariant of the prompt over all sessions; execution of lists with `exit` in front |
| C206 | the same; the buffered reader is modelled, a character stands for a byte; parsing and evaluating Lisp are parameters | the loop over lines is an inductive relation; agreement of the buffered reader with the lines of the text by induction |
| C207 | `Verif/Env/DirenvFail.lean` over `Verif/Env/Direnv.lean`: the walk goes on after errors | frame lemma for variables over all walks; the list of directories only shrinks |
| C208 | `Verif/Saved/Jsonc.lean`: the regular expression is written out as a scanner; of the JSON reader is used that it refuses open strings | induction over the pieces of a file |
| C209 | `Verif/Completion/Autocomplete.lean`: definitions and their lookup on Tab; answers of functions and outputs of commands are inputs | case analysis over all definitions and lines; witnesses in general form |
| C210 | `Verif/Completion/SysCommands.lean`: the reading of the search path, its cache and the limits; the file system is an input | membership by induction over directories; invariant of the cache |
| C211 | `Verif/Env/Process.lean` over `Verif/Env/Vars.lean`: the process environment beside the variables of the shell, and who reads which | frame lemma: no sequence of assignments changes the process environment |
| C212 | `Verif/Completion/Known.lean` over `Verif/Completion/Paths.lean`: colouring of known paths and background readings as events with times | invariants over all event lists (what is stored was read; marks and readings agree) |
| C213 | `Verif/Tools/Gpr.lean`: options, arguments of `gh`, list and choice; `gh` and `skim` are functions | an independent reader of the arguments of `gh` gets back what was wanted; case analysis |
| C214 | `Verif/Dirs/Start.lean`: store, messages to the writer, tables and loading thread as one state; visits, writes, readings and saves of other sessions as events | invariants over all event lists (what the queue will write covers the store; counts agree) |
| C215 | `Verif/Completion/SysNames.lean`: lines of the files of users and groups, the list of signals, orders, words, and lists kept for a time | lines of records are read back; sorted permutation; invariant of the list kept over all sessions of Tabs |
| C216 | `Verif/Jobs/Streams.lean`: the table of descriptors of the shell, lowest free number on opening, writes the system takes or refuses, `read`, `eview` and the closing after a stage | induction over all writes; refused writes and double closing refuted for every table |
| C217 | `Verif/Tools/Tm.lean`: lines, preview and result of `tm` over the output history, the chooser as a function | lines are cut uniquely; case analysis of the choice |
| C218 | `Verif/Tools/Tm.lean`: text of `help` over the table of built-ins in any order | an independent reader gets the table back |
| C219 | `Verif/Hist/Open.lean`: the statements of `init_schema` on tables with columns and rows, each refused by a lock or not; permissions of the file over time | invariants over the list of statements; induction over tries |
| C220 | `Verif/Completion/Kept.lean`: directories with times and lengths, signature, list kept, the reading at the start and settings of the search path | equal signatures give equal lists where changes show; refuted for every directory where they do not |
| C221 | `Verif/Jobs/Return.lean`: processes that fork, end, stop and close their streams; the phases of `launch` | phase characterised by the prefixes of all event lists |
| C222 | `Verif/Jobs/Groups.lean`: sessions, groups and terminals of the processes of a job, set up in any order | fold over every permutation of the processes |
| C223 | `Verif/Fs/DmvPattern.lean`: `parse_pattern` to search pattern and parts of the regular expression, search and match | parser on written token lists, language equivalence; refuted for every pattern of each kind |
| C224 | `Verif/Hist/Pick.lean`: `select_history` on the memory of `Hist/Store.lean`, the finder as any answer from the items it is given | search characterised by filter and cut; case analysis over all answers |
| C225 | `Verif/Jobs/TtyModes.lean`: the mode saved by crossterm (its documented behaviour, not in /repo), `eval_str`, `launch_subshell`, the guard of pseudo terminals, questions, finders, the window of Alt-d, `dsh -c`; any modes and any effects of programs | invariant over event lists: the terminal is in one of two states |
| C226 | `Verif/Tools/Worktree.lean`: `gwt` on a set of sibling work trees, with the outcomes of `git`, `gh`, `cd` and the editor as parameters | case analysis of one use; invariant over sequences of uses |
| C227 | `Verif/Repl/Transient.lean`: the screen as a list of rows with the row of the caret, the rows counted by `render_transient_prompt_to` and the clearing below | the rows a text wraps to as a relation; arithmetic on their number |
| C228 | `Verif/Repl/Hint.lean`: `input_hint` and its three tests, the place of the hint on the row, the beginning of Enter; Tab is that of C192 | equality of the tests with those of the keys; case analysis; lists of cells |
| C229 | `Verif/Jobs/BgOutput.lean`: `OutputMonitor::output_all` over pipes as lists of characters, bad bytes and silences, repeated checks; that tokio's `read_line` loses what it holds when given up is taken from its documentation | refinement to a function without lines; induction over pieces; every amount of fuel for endless commands |
| C230 | `Verif/Repl/AiPipe.lean`: `run_ai_pipe` with the outcome of `sh -c` as a parameter, the message as text | case analysis; the message cut at its backquotes |
| C46 | `Verif/Hist/Fish.lean`: the importer line by line, with a separate writer of fish files | round trip for all histories; negation by counting backslashes. Not modelled: bytes that are not UTF-8; `write_batch` is C69–C81 |
| C47–C53 | the same line-reading model (`lineJobs`) | negation by witness; the part that holds is the line theorem of C03 |
| C54, C55 | signals sent by the foreground wait loop | induction over schedules; negation by witness |
| C56, C57 | `execute_bg`, `execute_fg` and the later checks | negation by witness and in general; partial |
| C59, C60 | the edit tool over the same file system | negation in general (creation) and by witness (decline); partial |
| C61 | listing links composed with URL resolution and the handlers | negation by witness; partial for final slash and unreserved names |
| C62 | the successive textual replacements | equality with simultaneous substitution; negation by witnesses |
| C63 | safety block of `eval_str`, shared allowlist | two-call theorems; negation by witness |
| C64 | `sanitize_ai_input` | characterisation of the result; negation by witness |
| C65, C67 | `check_mcp_tool` and the tool loop | decision logic; two-call theorems; negation by witness |
| C66 | suggestion text composed with the line reader | line theorem for plain words; negation by witness |
| C58 | `cursor_pos`, `line_count` | equality with the unique row layout of a terminal |
| C68 | `parse_output_var` | parsing: exact characterisation in both directions |
| C69 | `handle_history_previous`/`next` with edits in between | invariant over Up/Down sequences; negation with edits |
| C70 | `reload` merge | list specification of the merge; negation for unwritten commands |
| C71 | `search_first` and the cache of recent commands | cache invariant over all operations |
| C72 | `search_entries` and the cache of lower-case texts | cache invariant; loop equals filter and take |
| C73 | start-up: `load_recent(1000)`, `load_older_than`, `prepend` | query results as a relation; proof for distinct times, negation for equal ones |
| C74 | `record_outcome`, `update_metadata_sync` | exact effect on entries and rows; negation in between |

## Trusted base

* Lean 4.33.0's kernel.  No axiom is added; the theorems depend at most on `propext`,
  `Classical.choice` and `Quot.sound`.
* The faithfulness of the model to the source, which rests on reading: each definition cites the
  lines it models and states its simplifications.
* Not modelled: the Rust compiler and standard library beyond the documented behaviour of the
  functions used, the operating system, tokio scheduling, terminal I/O, network, SQLite internals
  (a transaction is taken to be atomic), floating point.
