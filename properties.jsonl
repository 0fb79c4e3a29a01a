{"id": "C01", "title": "Line editor behaves like a text with a caret", "statement": "Every editing operation of the interactive line (type a character, insert a string, replace a range, backspace, delete, kill to end/beginning, kill word, move, reset) has exactly the effect of the same operation on a plain pair (sequence of characters, caret position): the text shown is the abstract text, the caret is between 0 and the number of characters, and no operation panics, whatever mixture of one- to four-byte characters has been typed.", "quantifier": "every finite sequence of editing operations starting from the empty line, over all Unicode characters", "why_tests_cant": "The editor keeps a byte-offset index next to the text; an out-of-date index only shows up after particular sequences of edits with particular character widths, and there are infinitely many of them.", "anchors": ["dsh/src/input/editor.rs: Input::{insert,insert_str,replace_range_chars,backspace,delete_char,move_by,delete_word_backward,delete_to_end,delete_to_beginning,move_word_left,move_word_right,reset,update_indices,byte_index}"]}
{"id": "C02", "title": "Word motions and kills touch only the intended region", "statement": "Deleting a word backwards, killing to the end or to the beginning, and moving by words never change characters on the other side of the caret; moving left by a word then typing puts text at a word start; kill operations remove a contiguous block adjacent to the caret.", "quantifier": "every text, every caret position", "why_tests_cant": "Boundary errors appear only for particular arrangements of spaces and words around the caret.", "anchors": ["dsh/src/input/editor.rs: Input::{delete_word_backward,move_word_left,move_word_right,delete_to_end,delete_to_beginning}"]}
{"id": "C03", "title": "Nothing the user typed is silently ignored", "statement": "If the shell accepts a command line, then every character of it has been interpreted: no tail of the line is dropped before execution.", "quantifier": "every command line", "why_tests_cant": "The grammar is a backtracking PEG without an end-of-input anchor; whether some suffix is left unread depends on the interplay of all rules over unboundedly many inputs.", "anchors": ["dsh/src/shell.pest: commands, command", "dsh/src/parser/expansion.rs: parse_with_expansion", "dsh/src/shell/parse.rs: get_jobs"]}
{"id": "C04", "title": "Escaped words reach the program unchanged", "statement": "A file name inserted by completion in unquoted style (special characters backslash-escaped) is read back by the shell as exactly one word whose value is exactly that file name.", "quantifier": "every non-empty file name (any characters)", "why_tests_cant": "The escaping function and the grammar are written separately; agreement is needed for every character in every position.", "anchors": ["dsh/src/completion/shell_path.rs: escape_unquoted", "dsh/src/shell.pest: word, word_char, escape_sequence", "dsh/src/parser/ast.rs: get_string"]}
{"id": "C05", "title": "Quoted completions reach the program unchanged", "statement": "A file name inserted by completion inside single or double quotes is read back by the shell as exactly that file name.", "quantifier": "every file name and both quote styles", "why_tests_cant": "As C04; the encoder escapes characters that the parser never unescapes, which only matters for names containing those characters.", "anchors": ["dsh/src/completion/shell_path.rs: escape_single_quoted, escape_double_quoted, encode", "dsh/src/shell.pest: s_quoted, d_quoted", "dsh/src/parser/ast.rs: get_string"]}
{"id": "C06", "title": "Completion understands what it wrote", "statement": "Decoding a token produced by completion's own encoder gives back the original path, in all three quoting styles, so repeated completion of the same word never accumulates or loses characters.", "quantifier": "every path string and quoting style", "why_tests_cant": "Encoder and decoder are different state machines; all strings of special characters must round-trip.", "anchors": ["dsh/src/completion/shell_path.rs: from_raw, encode, strip_wrapping_quote, decode_backslashes"]}
{"id": "C07", "title": "Completion tokens tile the line", "statement": "The token finder returns tokens that are in order, disjoint, non-empty, inside the line, whose text is exactly that slice of the line, whose character and byte offsets agree, and everything between tokens is separators; the token reported for a caret position contains that caret.", "quantifier": "every line and every caret position, both separator sets", "why_tests_cant": "Offsets are tracked in two units through a quoting state machine; off-by-one mistakes show only for particular multibyte/quote layouts.", "anchors": ["dsh/src/completion/shell_token.rs: tokenize, token_at_char_cursor, push_current_span"]}
{"id": "C08", "title": "Multi-line continuation prompt is decided by open quotes, braces and trailing operators", "statement": "Pressing Enter asks for more input exactly when the line has an unclosed quote/bracket or ends in a backslash or a joining operator as seen by a left-to-right scan; appending the missing closer makes the line complete.", "quantifier": "every input line", "why_tests_cant": "The scanner is a state machine with escape handling; its language is infinite.", "anchors": ["dsh/src/parser/check.rs: is_incomplete_input"]}
{"id": "C09", "title": "Brace expansion is the cartesian product in order", "statement": "A word with k brace groups expands to the list of all choices, leftmost group varying slowest, each alternative appearing once per occurrence; words without a top-level comma-brace are left alone.", "quantifier": "every word, any nesting", "why_tests_cant": "Recursive expansion; order and multiplicity must be right for all nesting shapes.", "anchors": ["dsh/src/parser/expansion.rs: expand_braces"]}
{"id": "C10", "title": "A variable's value is one argument and never shell syntax", "statement": "When $NAME is expanded as an argument the program receives exactly the value as one argument; no character in the value can start another command, a redirection, a substitution, or make the rest of the line disappear.", "quantifier": "every variable value and every position", "why_tests_cant": "Values are spliced into the text and parsed again, so the property is about all strings through the whole grammar.", "anchors": ["dsh/src/parser/expansion.rs: expand_var_args, parse_with_expansion", "dsh/src/shell.pest"]}
{"id": "C11", "title": "&& and || and ; decide which commands run", "statement": "In a list of commands joined by ';', '&&', '||', a command runs if and only if it is first, or follows ';', or follows '&&' and the last command that ran succeeded, or follows '||' and the last command that ran failed; a skipped command does not change the status; the final status is that of the last command that ran.", "quantifier": "every list of commands and operators and every behaviour of the commands", "why_tests_cant": "The number of commands, operators and exit codes is unbounded.", "anchors": ["dsh/src/shell/eval.rs: eval_str gate loop"]}
{"id": "C12", "title": "A builtin that succeeds counts as success", "statement": "A builtin command that succeeds reports exit status 0, so 'builtin && cmd' runs cmd and 'builtin || cmd' does not; one that fails reports a non-zero status.", "quantifier": "every builtin result code, every following list", "why_tests_cant": "Needs all result codes composed with the gate logic.", "anchors": ["dsh/src/process/builtin.rs: BuiltinProcess::launch", "dsh/src/shell/eval.rs: eval_str"]}
{"id": "C13", "title": "A suspended foreground job stops the rest of the list", "statement": "When a command of a list is stopped (Ctrl-Z) no later command of the line is started, and the stopped job is in the job table exactly once.", "quantifier": "every list and every position of the stopped command", "why_tests_cant": "Any prefix of any list.", "anchors": ["dsh/src/shell/eval.rs: eval_str"]}
{"id": "C14", "title": "A pipeline's status is the status of its last command", "statement": "Once every process of a job has ended, the status reported for the job is that of the last process in the pipeline, irrespective of the order in which the processes ended.", "quantifier": "every pipeline length and every order of exits", "why_tests_cant": "All interleavings of child exits.", "anchors": ["dsh/src/process/job.rs: last_process_state", "dsh/src/process/process.rs: set_state", "dsh/src/process/job_wait.rs"]}
{"id": "C15", "title": "Waiting for a foreground job neither returns early nor hangs", "statement": "The foreground wait returns only when every process of the job has ended, or the job is stopped, or the pipeline's consumer has ended successfully; and if every process eventually ends, it does return.", "quantifier": "every pipeline and every schedule of child state changes (including children of other jobs)", "why_tests_cant": "Depends on the arbitrary order in which waitpid delivers events.", "anchors": ["dsh/src/process/job_wait.rs: wait_process_no_hang", "dsh/src/process/wait.rs: is_job_completed, is_job_stopped"]}
{"id": "C16", "title": "A background job leaves the job table only when all its processes have ended", "statement": "The periodic job check removes a job (and reports it done) only if every process of the job has ended, keeps every other job in order, and eventually removes ended jobs.", "quantifier": "every table, pipeline and exit schedule", "why_tests_cant": "All interleavings of exits across all jobs and polls.", "anchors": ["dsh/src/shell/job.rs: check_job_state", "dsh/src/process/job.rs: update_status", "dsh/src/process/process.rs: update_state", "dsh/src/process/builtin.rs: update_state"]}
{"id": "C17", "title": "Exit statuses of background jobs are never lost or altered", "statement": "The exit status reported for a background process is the one it exited with, even if it ended while another job was running in the foreground.", "quantifier": "every pair of jobs and every schedule", "why_tests_cant": "Requires a specific interleaving of a foreground wait-any with a background exit.", "anchors": ["dsh/src/process/job_wait.rs: wait_process_no_hang", "dsh/src/process/wait.rs: wait_pid_job"]}
{"id": "C18", "title": "Job numbers are unique and job specs find the right job", "statement": "Every job gets a fresh number; %n selects the job with number n and nothing else; %+ and %- select the newest and second newest; an unknown spec is rejected.", "quantifier": "every history of job starts/removals and every spec string", "why_tests_cant": "Unbounded histories.", "anchors": ["dsh/src/shell/job.rs: get_next_job_id", "dsh/src/proxy/builtin/jobs.rs: parse_job_spec"]}
{"id": "C19", "title": "fg and bg never lose a job", "statement": "After fg or bg on a job, the job has finished or is still in the job table; other jobs are untouched.", "quantifier": "every table, job and later behaviour of the job's processes", "why_tests_cant": "Depends on signals arriving during fg.", "anchors": ["dsh/src/proxy/builtin/jobs.rs: execute_fg, execute_bg"]}
{"id": "C20", "title": "Captured output history is bounded and ordered", "statement": "After any sequence of captured commands the history holds at most the configured number of entries and total bytes, OUT[n] is the n-th most recent capture, and only the oldest entries are dropped.", "quantifier": "every sequence of captures of any size and every configuration", "why_tests_cant": "Unbounded histories and sizes.", "anchors": ["dsh-types/src/output_history.rs: OutputHistory::push, get, OutputEntry::truncate"]}
{"id": "C21", "title": "History navigation walks every entry in order", "statement": "Pressing Up repeatedly visits the entries from newest to oldest, Down walks back, positions never leave the history, and when searching every matching entry is reachable.", "quantifier": "every history, search word, and sequence of Up/Down keys", "why_tests_cant": "Unbounded histories and key sequences.", "anchors": ["dsh/src/history/command_history.rs: back, forward"]}
{"id": "C22", "title": "Saved history survives a crash as a whole batch", "statement": "Saving writes all pending commands or none of them; after reload each command appears once, with counts equal to the number of uses, most recent last.", "quantifier": "every batch, every crash point, every previous database state", "why_tests_cant": "All crash points and all batches.", "anchors": ["dsh/src/history/command_history.rs: write_batch, upsert, reload"]}
{"id": "C23", "title": "Secrets do not reach the persisted history", "statement": "With secret handling on, a command line that contains a sensitive assignment is either not stored or is stored with the value replaced; redaction never alters other parts of the line and is idempotent.", "quantifier": "every command line", "why_tests_cant": "All strings through pattern scanning code.", "anchors": ["dsh/src/secrets.rs: process_for_history, redact_command, is_sensitive_command, is_sensitive_key"]}
{"id": "C24", "title": "Directory frecency store stays sorted and exact", "statement": "After any sequence of add/adjust/delete/prune operations each directory occurs once, lookups find it iff present, and prefix search returns exactly the entries with that prefix.", "quantifier": "every operation sequence and every path set", "why_tests_cant": "Binary search relies on a global sortedness invariant.", "anchors": ["dsh-frecency/src/store.rs: FrecencyStore::{add,adjust,delete,get,search_prefix_range,...}"]}
{"id": "C25", "title": "Lisp values print and read back", "statement": "Reading the printed form of a data value gives the same value.", "quantifier": "every value built from integers, symbols, strings and lists", "why_tests_cant": "Structural induction over all values; string escapes matter for rare characters.", "anchors": ["dsh/src/lisp/parser.rs", "dsh/src/lisp/model/value.rs: Display"]}
{"id": "C26", "title": "Recorded macros replay the recorded commands", "statement": "The Lisp code generated for a recorded macro evaluates to running exactly the recorded command lines in order.", "quantifier": "every list of recorded command lines", "why_tests_cant": "Command lines are arbitrary strings; generator and reader use different escape conventions.", "anchors": ["dsh/src/repl/macro_utils.rs: generate_macro_lisp", "dsh/src/lisp/parser.rs"]}
{"id": "C27", "title": "Lisp variables are lexically scoped", "statement": "A lookup returns the innermost binding; defining in an inner scope never changes an outer scope; set! changes exactly the innermost scope holding the name; a closure sees the environment of its definition.", "quantifier": "every chain of scopes and every sequence of define/set", "why_tests_cant": "Unbounded scope chains and histories.", "anchors": ["dsh/src/lisp/model/env.rs: Env::{define,set,get,undefine}"]}
{"id": "C28", "title": "Tail calls do not change the meaning of Lisp programs", "statement": "Evaluating with tail-call optimisation gives the same result as evaluating without it.", "quantifier": "every Lisp program", "why_tests_cant": "All programs.", "anchors": ["dsh/src/lisp/interpreter.rs: eval_inner, call_function_or_macro"]}
{"id": "C29", "title": "The safety guard asks before dangerous commands", "statement": "If any command of a line is one the guard classifies as dangerous at the active level, confirmation is requested before anything of the line is executed, however the command is combined with others (pipes, lists, background).", "quantifier": "every list of jobs and arguments, every safety level", "why_tests_cant": "All combinations of commands and argument positions.", "anchors": ["dsh/src/safety/mod.rs: check_jobs, check_command"]}
{"id": "C30", "title": "Recursive deletion is always recognised", "statement": "An rm command with a recursive or force flag in any spelling (combined short flags, long flags, any order) asks for confirmation, and plain rm of ordinary files never does (at the normal level).", "quantifier": "every argument vector", "why_tests_cant": "All argument lists.", "anchors": ["dsh/src/safety/mod.rs: check_rm"]}
{"id": "C31", "title": "The AI tool sandbox confines file access", "statement": "A path accepted for an AI tool denotes, when used, a file inside the workspace or the skills directory, whatever symbolic links exist.", "quantifier": "every file system (with symlinks) and every path string", "why_tests_cant": "All symlink graphs.", "anchors": ["dsh-builtin/src/chatgpt/tool/mod.rs: resolve_tool_path, resolve_with_existing_ancestor, normalize_path", "dsh-builtin/src/chatgpt/tool/edit.rs"]}
{"id": "C32", "title": "The AI command allowlist cannot be widened by arguments", "statement": "A command proposed by the AI runs without confirmation only if its program and arguments match an allowlist entry and it contains no shell metacharacter or evaluator.", "quantifier": "every command string and allowlist", "why_tests_cant": "All strings.", "anchors": ["dsh-builtin/src/chatgpt/tool/execute.rs: command_is_allowlisted, allowlist_entry_matches, contains_shell_expression"]}
{"id": "C33", "title": "The file server never serves outside its root", "statement": "Every file returned by 'serve' lies inside the served directory.", "quantifier": "every request path and file system with symlinks", "why_tests_cant": "All symlink graphs and path strings.", "anchors": ["dsh-builtin/src/serve/handlers.rs: is_safe_path, resolve_file_path, serve_file_handler, serve_root_handler"]}
{"id": "C34", "title": "Programs receive exactly the exported environment", "statement": "A started program's environment contains each system variable unless overridden by an exported shell variable, each exported shell variable with its current value, nothing else except a default TERM; each name once.", "quantifier": "every system environment, variable map and export set", "why_tests_cant": "All maps.", "anchors": ["dsh/src/process/process.rs: prepare_execution", "dsh/src/environment/variables.rs: child_process_env"]}
{"id": "C35", "title": "Leaving a direnv directory restores the environment", "statement": "After entering and leaving a directory with an environment file, every environment variable has the value it had before.", "quantifier": "every environment file and previous environment and every sequence of directory changes", "why_tests_cant": "All maps and walks.", "anchors": ["dsh/src/direnv.rs: set_env, remove_env, check_path"]}
{"id": "C36", "title": "Command lookup finds the first executable on PATH", "statement": "Looking up a command name returns the first PATH directory entry containing an executable of that name, repeated lookups agree with the file system, and changing PATH takes effect at once.", "quantifier": "every PATH, file system and sequence of lookups and changes", "why_tests_cant": "Caching makes the answer depend on history.", "anchors": ["dsh/src/environment/paths.rs: lookup, lookup_path_uncached, reload_path"]}
{"id": "C37", "title": "Command name completion offers the first matching name", "statement": "Prefix search over executable names returns a name with that prefix iff there is one, and it is the alphabetically first.", "quantifier": "every set of names and every prefix", "why_tests_cant": "Binary search over sorted list; all sets.", "anchors": ["dsh/src/environment/paths.rs: search_prefix"]}
{"id": "C38", "title": "Completion cache never serves stale or wrong candidates", "statement": "A lookup returns only live entries, whose candidates are those stored for a prefix of the input, filtered to match the input; the longest stored live prefix wins.", "quantifier": "every history of set/lookup/clock steps", "why_tests_cant": "Depends on time and history.", "anchors": ["dsh/src/completion/cache.rs: CompletionCache::{set,lookup,extend_ttl}"]}
{"id": "C39", "title": "Did-you-mean uses true edit distance", "statement": "The distance used for command suggestions is the minimum number of single character insertions, deletions and substitutions; suggestions are sorted by it, deduplicated, and within the threshold.", "quantifier": "every pair of strings", "why_tests_cant": "Optimality quantifies over all edit scripts.", "anchors": ["dsh/src/command_suggestion.rs: levenshtein_distance, find_similar_candidates"]}
{"id": "C40", "title": "Terminal newline translation is independent of chunking", "statement": "Output copied to the terminal has every bare LF turned into CRLF and nothing else changed, no matter how the stream is cut into read chunks.", "quantifier": "every byte stream and every way of cutting it into chunks", "why_tests_cant": "All chunk boundaries.", "anchors": ["dsh/src/process/io.rs: normalize_tty_newlines"]}
{"id": "C41", "title": "dmv never destroys a file without --force", "statement": "Without force, a batch rename either does nothing or moves each file to a distinct new name with contents preserved; no file is overwritten or lost.", "quantifier": "every directory contents, rename plan", "why_tests_cant": "All rename plans (chains, swaps, duplicates).", "anchors": ["dsh-builtin/src/dmv.rs: check_rename_conflicts, execute_dmv"]}
{"id": "C42", "title": "dmv's pattern matcher is the glob language", "statement": "The matcher accepts a name iff the name is in the language of the pattern ('*' any string, '?' one character), and never panics.", "quantifier": "every pattern and name", "why_tests_cant": "Backtracking matcher over all strings.", "anchors": ["dsh-builtin/src/dmv.rs: pattern_match_impl"]}
{"id": "C43", "title": "Inline suggestion rotation visits every candidate", "statement": "Cycling through suggestions forward visits each candidate once before repeating and backward is the inverse; the selected index is always valid; refreshed candidates contain no duplicates.", "quantifier": "every candidate list and every sequence of key presses", "why_tests_cant": "Unbounded histories.", "anchors": ["dsh/src/repl/suggestion_manager.rs"]}
{"id": "C44", "title": "Pipeline wiring", "statement": "In a pipeline the standard output of stage i is the standard input of stage i+1 and of nothing else; the first stage reads the job's input and the last writes the job's output; the shell closes its copies.", "quantifier": "every pipeline length and redirection", "why_tests_cant": "All lengths.", "anchors": ["dsh/src/process/job_process.rs: launch", "dsh/src/process/io.rs: create_pipe, handle_output_redirect"]}
{"id": "C45", "title": "Notebook export preserves what was run", "statement": "Commands and outputs appended to a notebook can be read back as the same blocks in the same order.", "quantifier": "every sequence of appended commands and outputs", "why_tests_cant": "Outputs are arbitrary text.", "anchors": ["dsh-types/src/notebook.rs: append_code, append_output, raw_content, parse"]}
{"id": "C46", "title": "Fish history import keeps every command", "statement": "Importing a fish history file yields every command in order with its time stamp.", "quantifier": "every sequence of commands written in fish's format", "why_tests_cant": "Commands are arbitrary strings.", "anchors": ["dsh/src/history_import.rs"]}
{"id": "C47", "title": "A redirect writes the file that was named", "statement": "The file opened by a redirection is the one the word after the operator stands for (quotes and escapes removed).", "quantifier": "every redirect target word", "why_tests_cant": "File names are arbitrary strings.", "anchors": ["dsh/src/shell/parse.rs", "dsh/src/process/io.rs: handle_output_redirect"]}
{"id": "C48", "title": "Adjacent pieces form one argument", "statement": "Quoted and unquoted pieces written without a blank between them are passed to the program as one argument.", "quantifier": "every sequence of adjacent quoted and unquoted pieces", "why_tests_cant": "Unbounded combinations of quoting styles.", "anchors": ["dsh/src/parser/shell.pest: args, span", "dsh/src/shell/parse.rs"]}
{"id": "C49", "title": "'&' affects only the command it follows", "statement": "A command is started in the background iff it (its pipeline) is followed by '&'.", "quantifier": "every command line", "why_tests_cant": "All list and pipeline shapes.", "anchors": ["dsh/src/parser/shell.pest: simple_command_bg, command", "dsh/src/shell/parse.rs: foreground flag"]}
{"id": "C50", "title": "Continuation lines are executed", "statement": "When the prompt asks for a continuation line because the input is incomplete, the commands of the continuation lines are run as if the line break were not there (or were a separator).", "quantifier": "every multi-line input", "why_tests_cant": "Interaction of the completeness check with the grammar on all inputs.", "anchors": ["dsh/src/repl/mod.rs", "dsh/src/parser/check.rs", "dsh/src/parser/shell.pest"]}
{"id": "C51", "title": "A word without '$' is passed literally", "statement": "A plain word that contains no expansion syntax reaches the program unchanged, whatever variables are set.", "quantifier": "every word and environment", "why_tests_cant": "Depends on the environment contents.", "anchors": ["dsh/src/parser/ast.rs: expand", "dsh/src/environment/variables.rs: get_var"]}
{"id": "C52", "title": "Expansion preserves the structure of the line", "statement": "Alias, variable, tilde and brace expansion replace words only: pipes, list operators, background marks, redirects and subshells of the line stay as written.", "quantifier": "every command line", "why_tests_cant": "All combinations of expansion with structure.", "anchors": ["dsh/src/parser/ast.rs: expand_alias_tilde"]}
{"id": "C53", "title": "$OUT[n] is the n-th most recent output", "statement": "On a command line, $OUT[n] stands for the output of the n-th most recent captured command.", "quantifier": "every n and every output history", "why_tests_cant": "Interaction of grammar and variable lookup.", "anchors": ["dsh/src/parser/shell.pest: variable", "dsh/src/environment/variables.rs: get_var"]}
{"id": "C54", "title": "A foreground job is not killed because of some other process", "statement": "While a job runs in the foreground the shell sends it a kill signal only on account of its own processes: the failure of a background job's process, or of an early stage of the pipeline, never kills the job being waited for.", "quantifier": "every pipeline, every set of other children, every order of their ends", "why_tests_cant": "Needs a foreign child to fail during the wait.", "anchors": ["dsh/src/process/job_wait.rs: wait_process_no_hang"]}
{"id": "C55", "title": "The shell never signals its own process group while waiting", "statement": "Signals sent while waiting for a foreground job reach only that job's processes, never the shell itself.", "quantifier": "every pipeline (including those starting with a builtin) and every schedule", "why_tests_cant": "Would kill the test process; depends on the exit order of the stages.", "anchors": ["dsh/src/process/job.rs: launch_process", "dsh/src/process/job_process.rs: launch", "dsh/src/process/job_wait.rs: wait_process_no_hang"]}
{"id": "C56", "title": "A job continued in the background is listed as running", "statement": "After bg has continued a stopped job, the job list shows it as running until it stops again or ends.", "quantifier": "every job and every later check", "why_tests_cant": "Depends on kernel wait reports (or their absence) after SIGCONT.", "anchors": ["dsh/src/proxy/builtin/jobs.rs: execute_bg", "dsh/src/process/process.rs: update_state"]}
{"id": "C57", "title": "fg continues every stopped process of the job", "statement": "Bringing a stopped job to the foreground sends the continue signal to all of its processes.", "quantifier": "every stopped pipeline", "why_tests_cant": "Needs real process groups.", "anchors": ["dsh/src/proxy/builtin/jobs.rs: execute_fg", "dsh/src/process/signal.rs: send_signal"]}
{"id": "C58", "title": "The caret is drawn where the text puts it", "statement": "On a terminal of any width into which the prompt and every single character fit, the row and column computed for the caret are those at which a terminal writing the prompt and the text before the caret would arrive: rows break only at newlines and where the next (possibly double-width) character does not fit, the column never exceeds the terminal width, and the number of lines reserved for the text equals the number of rows it fills.", "quantifier": "every edited text, terminal width, prompt width and assignment of display widths", "why_tests_cant": "Off-by-one wrapping shows only for particular combinations of width, wide characters and caret position.", "anchors": ["dsh/src/input/editor.rs: cursor_pos, line_count"]}
{"id": "C59", "title": "The AI's edit tool can create a file", "statement": "When the AI asks to write a path that does not exist yet, inside the workspace and not ignored, and the user agrees, the file exists afterwards with the given contents; for an existing file exactly its contents are replaced.", "quantifier": "every file system, path string and contents", "why_tests_cant": "Depends on how paths to missing files are rebuilt for every request.", "anchors": ["dsh-builtin/src/chatgpt/tool/edit.rs: run", "dsh-builtin/src/chatgpt/tool/mod.rs: resolve_with_existing_ancestor"]}
{"id": "C60", "title": "A declined edit changes nothing", "statement": "If the user declines a write requested by the AI, the file system is as before.", "quantifier": "every file system and request", "why_tests_cant": "All file systems and requests.", "anchors": ["dsh-builtin/src/chatgpt/tool/edit.rs: run"]}
{"id": "C61", "title": "Links of a served directory listing lead to the entries", "statement": "Following the link of an entry in a directory page of 'serve' shows that entry: the file, or the page of that directory.", "quantifier": "every served directory, page and entry name", "why_tests_cant": "All names and pages; needs the browser's URL resolution.", "anchors": ["dsh-builtin/src/serve/handlers.rs: serve_directory, serve_file_handler"]}
{"id": "C62", "title": "dmv inserts the captured texts", "statement": "The new name made by dmv is the replacement with every reference $0, $1, ... replaced by the text of that group, whatever the texts contain.", "quantifier": "every replacement and every group texts", "why_tests_cant": "All texts, including ones that look like references.", "anchors": ["dsh-builtin/src/dmv.rs: generate_replacement"]}
{"id": "C63", "title": "\"Always\" exempts exactly the commands shown", "statement": "Answering \"always\" to the guard's question stops it asking about those very commands and gives no other command a permission it did not have: neither another typed line, nor a command proposed by the AI, nor a call of the execute tool.", "quantifier": "every level, allowlist and pair of job lists", "why_tests_cant": "The effect of one answer on all later commands.", "anchors": ["dsh/src/shell/eval.rs: eval_str_with_foreground_context", "dsh/src/safety/mod.rs: check_jobs, check_command", "dsh-builtin/src/chatgpt/tool/execute.rs: allowlist_entry_matches"]}
{"id": "C64", "title": "Text sent to the AI is clean and bounded", "statement": "Cleaning a text for the AI never fails, removes all control and invisible characters and nothing else, and yields at most the number of bytes asked for.", "quantifier": "every text and limit", "why_tests_cant": "All texts, including multi-byte characters at the limit.", "anchors": ["dsh/src/safety/mod.rs: sanitize_ai_input"]}
{"id": "C65", "title": "Tool calls need agreement, and \"always\" covers one call", "statement": "A tool call of the AI that the guard wants confirmed is executed only if the user agrees (never if there is nobody to ask); \"always\" covers that tool with those arguments, and nothing else.", "quantifier": "every tool name, arguments, level, allowlist", "why_tests_cant": "All names and arguments, and the effect on later calls.", "anchors": ["dsh/src/safety/mod.rs: check_mcp_tool, mcp_allowlist_entry, is_allowlisted_mcp_call", "dsh/src/ai_features/service.rs"]}
{"id": "C66", "title": "A suggestion means what was approved", "statement": "The text that an approved AI suggestion puts on the command line runs exactly the program with the arguments that the guard approved.", "quantifier": "every program and argument list", "why_tests_cant": "All argument texts, through the whole line reader.", "anchors": ["dsh/src/ai_features/command.rs", "dsh/src/safety/mod.rs: check_command"]}
{"id": "C67", "title": "A command tool is judged like a typed line", "statement": "If a shell command would be asked about when typed, it is asked about when the AI passes it to a tool that runs shell commands.", "quantifier": "every command text and level", "why_tests_cant": "All command texts.", "anchors": ["dsh/src/safety/mod.rs: check_mcp_tool, extract_command"]}
{"id": "C68", "title": "`$OUT[n]` names entry n and nothing else does", "statement": "A variable name is taken as the n-th captured output exactly when it is OUT (or ERR) alone (n = 1) or OUT[n] with n written in decimal, with or without a leading dollar; every other name is an ordinary variable.", "quantifier": "every variable name and every number", "why_tests_cant": "All names and all numbers, including malformed and overflowing ones.", "anchors": ["dsh-types/src/output_history.rs: parse_output_var", "dsh/src/environment/variables.rs: get_var"]}
{"id": "C69", "title": "Up searches for what is typed", "statement": "Pressing Up with a line typed at the prompt shows only history entries that start with that line, and coming back down restores the typed line.", "quantifier": "every history, every typed line, every sequence of keys and edits", "why_tests_cant": "All interleavings of editing and navigation.", "anchors": ["dsh/src/repl/key_handlers/navigation.rs: handle_history_previous, handle_history_next"]}
{"id": "C70", "title": "Synchronising the history loses no command", "statement": "The periodic synchronisation with the history of other sessions keeps every command used in this session, adds those of the others, and never lists a command twice.", "quantifier": "every state of memory, table and pending writes", "why_tests_cant": "All interleavings of two sessions and the background writer.", "anchors": ["dsh/src/history/command_history.rs: reload"]}
{"id": "C71", "title": "The suggested command is the most recent one with that prefix", "statement": "After any sequence of commands, loads and synchronisations, the suggestion for a prefix is the most recent history entry starting with it, and there is none exactly if no entry starts with it, although the answer comes from a cache of recent commands first.", "quantifier": "every sequence of operations and every prefix", "why_tests_cant": "Cache coherence over unbounded operation sequences.", "anchors": ["dsh/src/history/command_history.rs: search_first, write_batch, load_recent, reload, prepend"]}
{"id": "C72", "title": "History search returns exactly the matching entries", "statement": "A history search returns exactly the entries that meet all given criteria (text regardless of case, success or failure, minimum duration, scope), newest first, cut at the limit.", "quantifier": "every sequence of operations and every query", "why_tests_cant": "Cache coherence and all combinations of criteria.", "anchors": ["dsh/src/history/command_history.rs: search_entries"]}
{"id": "C73", "title": "The shell starts with the whole recent history", "statement": "After the start-up loading in two steps the history holds the newest 10000 saved commands, oldest first.", "quantifier": "every saved table", "why_tests_cant": "All tables, including those with many equal times.", "anchors": ["dsh/src/lib.rs: run_interactive history thread", "dsh/src/history/command_history.rs: load_recent, load_older_than, prepend"]}
{"id": "C74", "title": "A history entry shows the outcome of its last use", "statement": "The exit status, duration and directory stored with a command are those of its most recent use.", "quantifier": "every sequence of uses and outcomes, every point of interruption", "why_tests_cant": "All interleavings of uses, outcomes and interruptions.", "anchors": ["dsh/src/history/command_history.rs: record_outcome, update_metadata_sync, write_batch_sync"]}
{"id": "C75", "title": "A visited directory is known after a restart", "statement": "Every directory that was visited and written to the directory history is known to z and to directory suggestions after the shell is started again.", "quantifier": "every history of visits, saves and restarts", "why_tests_cant": "Depends on fractions of seconds and on column types of the database; tests use whole numbers or one session.", "anchors": ["dsh/src/history/frecency_history.rs: from_file, save"]}
{"id": "C76", "title": "Cleaning the directory history lasts", "statement": "After z -c has removed directories that no longer exist, they are not offered again unless they are visited again.", "quantifier": "every history and every set of vanished directories", "why_tests_cant": "Needs cleaning, saving, synchronising and restarting in sequence.", "anchors": ["dsh/src/proxy/builtin/z.rs: execute", "dsh/src/history/frecency_history.rs: prune, save, reload"]}
{"id": "C77", "title": "Directory ranks survive a restart", "statement": "The order in which directories are listed (by recency, frequency or both) is the same before and after a restart of the shell.", "quantifier": "every saved history and every later start time", "why_tests_cant": "Floating point overflow for real clock values; tests use tiny time spans.", "anchors": ["dsh/src/history/frecency_history.rs: from_file", "dsh-frecency/src/stats.rs: set_frecency, get_frecency"]}
{"id": "C78", "title": "Visits are saved", "statement": "Every directory visited in a session is in the database after the next save.", "quantifier": "every history", "why_tests_cant": "Needs a restored entry to be visited at a real clock time; the failure is silent.", "anchors": ["dsh/src/history/frecency_history.rs: save, save_background", "dsh-frecency/src/store.rs: add"]}
{"id": "C79", "title": "Secrets given as options, bearer tokens and URL parameters do not reach the persisted history", "statement": "A command line that passes a secret through an option meant for it (--password, --token, --secret, --api-key, -p and the like, in any spelling the option allows), an Authorization: Bearer header, or a token parameter of a URL is not stored in skip mode, and in redact mode what is stored does not depend on the secret.", "quantifier": "every command line, every value, every place in the line", "why_tests_cant": "All texts before, after and inside the value; the four redaction passes rewrite each other's output.", "anchors": ["dsh/src/secrets.rs: OPTION_SECRET_PATTERN, AUTH_BEARER_PATTERN, QUERY_SECRET_PATTERN, redact_command, process_for_history"]}
{"id": "C80", "title": "A command without a secret is stored as typed", "statement": "A command line that contains no secret is stored in the history unchanged in every mode.", "quantifier": "every command line without a secret", "why_tests_cant": "A claim about all lines that are not secret; tests cover a handful.", "anchors": ["dsh/src/secrets.rs: is_sensitive_command, process_for_history"]}
{"id": "C81", "title": "Everything that reaches the history passes the secret filter", "statement": "Whatever way a command line takes into the history (running it, accepting a suggestion, importing the history of another shell), a secret in it is not stored or is hidden as the history mode says.", "quantifier": "every way into the history and every line", "why_tests_cant": "A claim about all writers of the history, not about one of them.", "anchors": ["dsh/src/shell/eval.rs: eval_str", "dsh/src/repl/mod.rs: learn_suggestion", "dsh/src/history_import.rs: import"]}
{"id": "C82", "title": "Comments are not code", "statement": "Text behind a semicolon, up to the end of its line, is never read or evaluated as Lisp code.", "quantifier": "every comment text, every place where white space may stand", "why_tests_cant": "Comment texts are arbitrary; the reader counts semicolons while skipping white space.", "anchors": ["dsh/src/lisp/parser.rs: skip_whitespace", "README.md: configuration examples"]}
{"id": "C83", "title": "Recording a macro keeps the configuration readable", "statement": "If the configuration file can be read, then after a macro has been saved to it the file can still be read, as the same expressions followed by the definition of the macro.", "quantifier": "every readable configuration, every macro name and list of recorded commands", "why_tests_cant": "Both the configuration and the commands are arbitrary texts, composed by a generator that does not share the reader's conventions.", "anchors": ["dsh/src/repl/macro_utils.rs", "dsh/src/lisp/mod.rs: run_config_lisp"]}
{"id": "C84", "title": "Function parameters are local", "statement": "While a Lisp function runs, each of its parameters names the argument of that call, and assigning to a parameter changes nothing outside the call.", "quantifier": "every function, every call, with any number of arguments", "why_tests_cant": "Depends on all surrounding scopes and on how many arguments are passed.", "anchors": ["dsh/src/lisp/interpreter.rs: call_function_or_macro", "dsh/src/lisp/model/env.rs"]}
{"id": "C85", "title": "Comparing Lisp values gives an answer", "statement": "Comparing two values with <, <=, >, >=, == or !=, or sorting a list, ends with an answer that agrees with equality of the values.", "quantifier": "all pairs of values, all lists", "why_tests_cant": "All pairs of values of an unbounded recursive type; the failing cases kill the test process instead of failing it.", "anchors": ["dsh/src/lisp/model/value.rs: PartialOrd, Ord, PartialEq", "dsh/src/lisp/default_environment.rs", "dsh/src/lisp/stdlib/list.rs: sort"]}
{"id": "C86", "title": "A Lisp expression does not end the shell", "statement": "Calculating with numbers, making a range of numbers and printing a function give a value or an error; they never abort the shell or run on without end.", "quantifier": "all integers, all functions", "why_tests_cant": "All pairs of 64-bit integers and all function bodies.", "anchors": ["dsh/src/lisp/stdlib/math.rs", "dsh/src/lisp/model/lambda.rs: Display", "dsh/src/lisp/model/value.rs: Div"]}
{"id": "C89", "title": "Integer arithmetic is exact", "statement": "Sums, differences and products of integers are the mathematical results, or an error when they cannot be represented.", "quantifier": "all lists of 64-bit integers", "why_tests_cant": "All lists of integers.", "anchors": ["dsh/src/lisp/stdlib/math.rs", "dsh/src/lisp/model/value.rs: Add, Sub, Mul"]}
{"id": "C87", "title": "Hooks get the command text and never run it", "statement": "A hook is called with exactly the text of the command line (and the status or cursor), and no part of that text is evaluated as Lisp code.", "quantifier": "every command line, every list of hooks", "why_tests_cant": "Command lines are arbitrary strings, spliced into Lisp source.", "anchors": ["dsh/src/shell/hooks.rs", "dsh/src/proxy/mod.rs: run_hook"]}
{"id": "C88", "title": "A failing configuration leaves nothing behind", "statement": "When loading or reloading the configuration fails, the settings of the shell and the Lisp names are as before loading.", "quantifier": "every configuration program, failing anywhere", "why_tests_cant": "All programs and all points of failure.", "anchors": ["dsh/src/lisp/mod.rs: run_config_lisp, EnvironmentSnapshot"]}
{"id": "C90", "title": "Assignments reach the programs", "statement": "After `set -x`, `export NAME=value`, `export NAME` and `set`, every program started afterwards sees for each name the value assigned last to it by a command that makes it visible.", "quantifier": "every sequence of assignments, every name", "why_tests_cant": "All interleavings of four commands and two stores.", "anchors": ["dsh-builtin/src/set.rs", "dsh-builtin/src/export.rs", "dsh/src/process/process.rs: prepare_execution"]}
{"id": "C91", "title": "`$NAME` is what was assigned last", "statement": "On a command line `$NAME` stands for the value assigned last to NAME, and a plain word never stands for anything but itself.", "quantifier": "every sequence of assignments, every name", "why_tests_cant": "All interleavings of assignments; the reading side depends on the spelling of names.", "anchors": ["dsh/src/environment/variables.rs: get_var", "dsh/src/proxy/builtin/var.rs"]}
{"id": "C92", "title": "A directory added with add_path stays searched", "statement": "After `add_path DIR`, commands in DIR are found until the end of the session, also by the programs started.", "quantifier": "every state, every later sequence of commands", "why_tests_cant": "Depends on what later directory changes and assignments do to the list.", "anchors": ["dsh-builtin/src/add_path.rs", "dsh/src/proxy/mod.rs: insert_path", "dsh/src/environment/paths.rs: reload_path"]}
{"id": "C93", "title": "A command with a slash names that file", "statement": "A command word that contains a slash is taken as the path of a file relative to the working directory, never searched in PATH.", "quantifier": "every command word, every file system", "why_tests_cant": "All words and directory contents.", "anchors": ["dsh/src/environment/paths.rs: lookup"]}
{"id": "C94", "title": "Environment files mean what they say", "statement": "The assignments of a `.env` or `.envrc` file are loaded as written, and no content of such a file ends the shell.", "quantifier": "every file", "why_tests_cant": "All texts.", "anchors": ["dsh/src/direnv.rs: read_env_config_file, read_envrc_config_file"]}
{"id": "C95", "title": "path_add puts a directory in front", "statement": "With `path_add DIR` in `.envrc`, DIR is searched first and the other directories as before.", "quantifier": "every directory, every PATH", "why_tests_cant": "All strings.", "anchors": ["dsh/src/direnv.rs: set_env"]}
{"id": "C96", "title": "include takes over the variables of a script", "statement": "After `include SCRIPT` every variable that is not protected has the value it had at the end of the script, and is unset if the script unset it.", "quantifier": "every script outcome, every state of the shell", "why_tests_cant": "Two environments are compared, of the process and of the shell, which may differ arbitrarily.", "anchors": ["dsh-builtin/src/include.rs: command"]}
{"id": "C97", "title": "pm activate reads the project files", "statement": "`pm activate` reads `.env` files as they are meant, puts directories in front of the search path for the shell and for programs, and does nothing the second time.", "quantifier": "every file of blank lines, comments and assignments; every state", "why_tests_cant": "All texts and states.", "anchors": ["dsh-builtin/src/project.rs: parse_dotenv_file, prepend_path"]}
{"id": "C98", "title": "cd - goes back", "statement": "`cd -` goes to the directory that was left by the last successful `cd`, and `cd -` again returns.", "quantifier": "every sequence of directory changes, successful or not", "why_tests_cant": "All histories.", "anchors": ["dsh-builtin/src/cd.rs: command", "dsh/src/proxy/mod.rs: changepwd"]}
{"id": "C99", "title": "Completions offered are those of this line", "statement": "The candidates offered for a line are those the sources would give now for this line, this cursor position, this directory and these files.", "quantifier": "every history of earlier completions, directory changes and changes of files", "why_tests_cant": "Depends on everything completed in the last seconds.", "anchors": ["dsh/src/completion/integrated.rs: complete", "dsh/src/completion/cache.rs"]}
{"id": "C100", "title": "The completion list is ranked and complete", "statement": "No text is shown twice, each with its best priority, ordered by priority, kind and text, at most as many as allowed, and none is missing unless the list is full of better ones.", "quantifier": "every list of candidates, scores and limit", "why_tests_cant": "All lists.", "anchors": ["dsh/src/completion/integrated.rs: deduplicate_and_sort"]}
{"id": "C101", "title": "History raises a candidate by its own text only", "statement": "The boost of a candidate depends only on its own text and the history, never on the other candidates; files and directories get none.", "quantifier": "every list of candidates, every history", "why_tests_cant": "All lists; the implementation scores all candidates in one pass.", "anchors": ["dsh/src/completion/integrated.rs: history_boost_scores"]}
{"id": "C102", "title": "Keys that move the caret do not change the line", "statement": "Left, Right, Ctrl-A, Ctrl-E and Ctrl-Right leave the text of the line as it is, or add to its end some or all of the grey text that is on the screen; nothing else.", "quantifier": "every sequence of keys, every history, every set of commands and files", "why_tests_cant": "Depends on what was typed, corrected and stored before; all sequences of keys.", "anchors": ["dsh/src/repl/render.rs: print_input", "dsh/src/repl/input_analysis.rs: analyze_input", "dsh/src/repl/key_handlers/completion.rs: handle_accept_completion"]}
{"id": "C103", "title": "The command history contains only commands that were run", "statement": "Every entry of the command history written by the shell is a line that the user ran.", "quantifier": "every sequence of keys", "why_tests_cant": "All sequences of keys.", "anchors": ["dsh/src/repl/mod.rs: accept_suggestion", "dsh/src/repl/mod.rs: learn_suggestion"]}
{"id": "C104", "title": "Accepting a suggestion word by word", "statement": "Each press of Ctrl-Right at the end of the line takes over exactly one further word of the suggestion (with the blanks around it), and pressing it again and again ends with the whole suggestion.", "quantifier": "every suggestion, every beginning typed", "why_tests_cant": "All texts.", "anchors": ["dsh/src/repl/completion.rs: next_word_chunk", "dsh/src/repl/mod.rs: accept_suggestion"]}
{"id": "C105", "title": "Automatic pairs type what the user types", "statement": "With automatic pairs on, typing a complete text leaves exactly that text in the line, and Backspace deletes one typed character (with its automatic partner).", "quantifier": "every text, every line and caret position", "why_tests_cant": "All texts.", "anchors": ["dsh/src/repl/key_action.rs: determine_key_action", "dsh/src/repl/key_handlers/editing.rs: handle_backspace"]}
{"id": "C106", "title": "Only `|!` outside of quotes hands a line to the AI", "statement": "Enter evaluates the line as typed by the shell itself; only a line with `|!` outside of quotes is an AI pipe.", "quantifier": "every line", "why_tests_cant": "All lines.", "anchors": ["dsh/src/repl/mod.rs: detect_ai_pipe", "dsh/src/repl/key_handlers/execution.rs: handle_execute"]}
{"id": "C107", "title": "The notification of a long command never ends the shell", "statement": "For every command line the text of the notification is made without a panic.", "quantifier": "every line", "why_tests_cant": "All texts with characters of several bytes at every position.", "anchors": ["dsh/src/repl/key_handlers/execution.rs: handle_execute"]}
{"id": "C108", "title": "A double press is two presses in a row", "statement": "Esc Esc (sudo) and Ctrl-C Ctrl-C (exit) act exactly when the same key is pressed twice in a row within the time, and toggling sudo twice gives the line back.", "quantifier": "every sequence of keys with every timing", "why_tests_cant": "All sequences and timings.", "anchors": ["dsh/src/repl/state.rs: on_pressed", "dsh/src/repl/handler.rs: handle_key_event", "dsh/src/repl/input_analysis.rs: toggle_sudo"]}
{"id": "C109", "title": "Pasting inserts the lines of the text", "statement": "Pasting puts the text before the caret with every line end (LF, CR LF, CR) as one LF, leaves the rest of the line, and runs nothing.", "quantifier": "every text, every line and caret position", "why_tests_cant": "All mixes of line ends.", "anchors": ["dsh/src/repl/key_handlers/editing.rs: handle_paste_event"]}
{"id": "C110", "title": "Playing a notebook runs what was recorded", "statement": "`notebook-play FILE` offers the commands recorded in FILE one after the other, and runs each accepted one as it was recorded, by this shell, until the user quits.", "quantifier": "every recorded session, every file name, every sequence of answers", "why_tests_cant": "All recorded commands and answers.", "anchors": ["dsh-builtin/src/notebook_play.rs: command, run_play", "dsh/src/proxy/mod.rs: dispatch", "dsh/src/proxy/external.rs: execute"]}
{"id": "C111", "title": "The statistics of commands are those of the commands run", "statement": "`timing` shows for every command how often it ran, how long it took in total, at most, at least and on average, and how often it failed: over all shells of the user, since the last `timing --clear`; a shell that is killed costs at most the last nine commands.", "quantifier": "every interleaving of sessions of any number of shells, every command, outcome, duration and time, kills at any point", "why_tests_cant": "All sequences of sessions and kills.", "anchors": ["dsh/src/command_timing.rs: record, save_to_file, save_to_file_if_due, load_from_file, extract_command_name", "dsh-builtin/src/command_timing.rs: command", "dsh/src/repl/key_handlers/execution.rs: handle_execute"]}
{"id": "C112", "title": "Tab completes from the directory that was typed", "statement": "For a word with a directory part and the beginning of a name, the candidates are exactly the entries of that directory, as it is now, that belong to the beginning, each written behind the directory part as typed; where a directory is wanted, only directories.", "quantifier": "every file system, every word, every sequence of earlier completions and directory changes, at any times", "why_tests_cant": "All histories of the two-second cache and all trees.", "anchors": ["dsh/src/completion/generators/filesystem.rs: generate_file_candidates_with_filter, generate_directory_candidates, split_dir_and_prefix", "dsh/src/completion/path.rs: path_completion_path_sync, scan_dir_candidates"]}
{"id": "C113", "title": "The grey path is the shortest continuation of the word", "statement": "While a path is typed, the grey text is an existing entry that continues the word: the shortest one, then the first in the alphabet, a directory after `cd`; and there is one whenever an entry continues the word.", "quantifier": "every file system, every word", "why_tests_cant": "All words and trees.", "anchors": ["dsh/src/completion/path.rs: path_completion_prefix_strict, path_completion_prefix_for_shell_token"]}
{"id": "C114", "title": "The commands of a line do not disturb each other", "statement": "In `a ; b`, `a && b` and `a || b` the standard streams of `b` are those it would have if it were typed alone: the terminal, or the files of its own redirects.", "quantifier": "every line, every kind of first command, with and without a terminal per job", "why_tests_cant": "All shapes of the first command.", "anchors": ["dsh/src/shell/eval.rs: eval_str", "dsh/src/process/job.rs: launch_process", "dsh/src/process/job_process.rs: launch", "dsh-types/src/lib.rs: Context::reset"]}
{"id": "C115", "title": "A redirect leaves the output in the file", "statement": "After `cmd > f` the file holds the output and nothing else; after `cmd >> f` it holds what was there before, if anything, and then the output; no other file changes.", "quantifier": "every output, every file system, every redirect of a single command", "why_tests_cant": "All contents and file states.", "anchors": ["dsh/src/process/redirect.rs: process", "dsh/src/process/io.rs: handle_output_redirect"]}
{"id": "C116", "title": "A chosen completion takes the place of the word under the caret", "statement": "Choosing a candidate replaces the word the caret is on (or the value in `--name=value`) by the candidate, leaves the rest of the line alone and never ends the shell.", "quantifier": "every line, caret position, word and candidate, from every source", "why_tests_cant": "All lines, positions and candidates.", "anchors": ["dsh/src/completion/integrated.rs: completion_replacement_range", "dsh/src/repl/key_handlers/completion.rs: handle_trigger_completion", "dsh/src/completion/parser.rs: parse"]}
{"id": "C117", "title": "Tab completes for the command and the argument the caret is on", "statement": "The candidates are those of the command that the word under the caret belongs to, and of the position of that word among its arguments.", "quantifier": "every line, every caret position", "why_tests_cant": "All lines of several commands and all positions.", "anchors": ["dsh/src/completion/parser.rs: analyze_tokens, determine_completion_context, argument_index"]}
{"id": "C118", "title": "The completion menu does what its keys say", "statement": "Arrows move the mark over the candidates, Enter inserts the marked one, cancelling leaves the line as it was, a character typed goes into the line at the caret; every candidate can be chosen.", "quantifier": "every list of candidates, every sequence of keys, every line", "why_tests_cant": "Unbounded key sequences.", "anchors": ["dsh/src/completion/ui.rs: run, interpret_event", "dsh/src/completion/display.rs: new_with_config, move_up, get_selected", "dsh/src/completion/framework.rs: continue_inline_input", "dsh/src/repl/key_handlers/completion.rs: handle_trigger_completion"]}
{"id": "C119", "title": "The completion menu shows what can be chosen", "statement": "Every candidate that can be marked is drawn, in a column of fixed width, within the width of the terminal.", "quantifier": "every list of candidates, names and descriptions of any width, every terminal width", "why_tests_cant": "All widths of terminals, names and descriptions.", "anchors": ["dsh/src/completion/display.rs: calculate_layout, render_all_items, get_formatted_display, truncate_to_width"]}
{"id": "C120", "title": "Running a saved command runs it", "statement": "`bookmark run`, `snippet run` and `task` have the saved command line executed by a shell, and report its success.", "quantifier": "every table of saved commands, every project, every command line", "why_tests_cant": "All commands and tables; the program executed is outside the process.", "anchors": ["dsh-builtin/src/bookmark.rs: run_bookmark", "dsh-builtin/src/snippet.rs: run_snippet", "dsh-builtin/src/task.rs: execute_task", "dsh/src/proxy/external.rs: execute"]}
{"id": "C121", "title": "Saved commands are kept, listed and shown as they were given", "statement": "What is added under a name stays under it through any later invocations until it is removed or edited; `bookmark add name` saves the last command; listing shows every entry and never ends the shell; every entry can be shown.", "quantifier": "every table, every sequence of invocations, every name and command", "why_tests_cant": "Unbounded sequences of invocations.", "anchors": ["dsh-builtin/src/bookmark.rs: command", "dsh-builtin/src/snippet.rs: command", "dsh/src/proxy/mod.rs: get_last_command"]}
{"id": "C122", "title": "safe-run executes only what the user agreed to", "statement": "With `safe-run`, nothing is executed before the user agrees to it, what is executed is the command given, word by word, and declining executes nothing.", "quantifier": "every command, every reply of the AI, every sequence of answers", "why_tests_cant": "All replies of a language model and all answers.", "anchors": ["dsh-builtin/src/safe_run.rs: command, inspect_and_run"]}
{"id": "C123", "title": "task runs the task that is asked for", "statement": "Every task of the project is detected, only tasks are, and each is run by its name, or by `source:name`.", "quantifier": "every project, every set of tasks, every name", "why_tests_cant": "All project files and names.", "anchors": ["dsh-builtin/src/task.rs: parse_options, select_task, detect_tasks_in_dir", "dsh-builtin/src/project_context.rs: detect_taskfile_tasks"]}
{"id": "C124", "title": "An alias stands for its text", "statement": "`alias name=command` defines an alias, `alias name` shows it in a form that defines it again, `alias` lists all, and an alias can be taken back; wherever a command name in a line is an alias, the line runs as if the text of the alias stood there, with its quotes, variables and further aliases.", "quantifier": "every line, every table of aliases, every sequence of invocations of `alias`, every name and text", "why_tests_cant": "All lines and tables; the line is rewritten as text and read again, so every combination of quotes, operators and blanks matters.", "anchors": ["dsh-builtin/src/alias.rs: command, set_alias_from_assignment", "dsh/src/parser/expansion.rs: expand_alias_tilde, check_expansion_needed", "dsh/src/proxy/mod.rs: get_alias, set_alias"]}
{"id": "C125", "title": "An abbreviation is expanded where its name was typed, and nowhere else", "statement": "When the blank or Enter is pressed right after a command name that is an abbreviation, that name is replaced by the expansion; other words, arguments, quoted text and the rest of the line stay. `abbr` keeps what was added until it is erased, and shows it in a form it accepts.", "quantifier": "every line and caret position, every table, every sequence of invocations of `abbr`", "why_tests_cant": "All lines, caret positions and tables; unbounded sessions.", "anchors": ["dsh-builtin/src/abbr.rs: command", "dsh/src/repl/handler.rs: ExpandAbbreviationAndInsertSpace", "dsh/src/repl/key_handlers/execution.rs: handle_execute", "dsh/src/input/editor.rs: get_current_word_for_abbr, replace_current_word"]}
{"id": "C126", "title": "Tab offers the subcommands, options and values the definition of the command gives", "statement": "For a command with a completion definition, Tab offers the subcommands possible at that place that begin with the word, the options of the command and of the subcommand that begin with the word and were not yet given, and the values an option accepts; what is chosen replaces the word it completes. The same holds behind a wrapper such as `sudo`.", "quantifier": "every definition, every chain of subcommands (also under other names), every word under the caret", "why_tests_cant": "All definitions and command lines; subcommands nest to any depth.", "anchors": ["dsh/src/completion/context.rs: correct_parsed_command_line", "dsh/src/completion/generator.rs: generate_candidates", "dsh/src/completion/generators/{subcommand,option,argument}.rs", "dsh/src/completion/integrated.rs"]}
{"id": "C127", "title": "`cmd |>` records exactly what the command wrote", "statement": "After a line that ends in `|>`, the recorded output `$OUT[1]` and the recorded error output `$ERR[1]` are what the commands of the line wrote to the two streams, character for character, and the line is recorded with its status.", "quantifier": "every command with its texts, every pipeline, every earlier record, with and without a terminal on the input", "why_tests_cant": "The texts and the number of stages are unbounded; which process holds which end of which pipe decides what is recorded.", "anchors": ["dsh/src/process/job.rs: launch with capture_output", "dsh/src/shell/eval.rs", "dsh-types/src/output_history.rs"]}
{"id": "C128", "title": "The output of an ordinary command is recorded", "statement": "Without `|>` too, what a foreground command printed can be reached afterwards as `$OUT[1]`, exactly as it was printed, with nothing the command did not print.", "quantifier": "every command with its texts on both streams, every earlier record, pty or not", "why_tests_cant": "Depends on the terminal layer between the command and the recorder, for texts of any content.", "anchors": ["dsh/src/process/job.rs", "dsh/src/process/job_process.rs", "dsh/src/shell/eval.rs"]}
{"id": "C129", "title": "A line that begins with a bar gives the last output to the command", "statement": "`| cmd` runs cmd with the last recorded output as its input.", "quantifier": "every recorded output, every command behind the bar", "why_tests_cant": "The test in the repository counts occurrences (at least two) that the typed line already contains, so it passes whatever happens.", "anchors": ["dsh/src/shell/eval.rs", "dsh/tests/special_pipes.rs"]}
{"id": "C130", "title": "`out` shows the recorded outputs", "statement": "`out`, `out n`, `out --list` and `out --clear` show, list and clear what was recorded, on the output of the command, so that it can be redirected or piped.", "quantifier": "every sequence of recorded outputs, every number, every line", "why_tests_cant": "Records hold any text; lines are cut at a byte number, which is an error or not depending on the characters.", "anchors": ["dsh-builtin/src/out.rs", "dsh-types/src/output_history.rs"]}
{"id": "C131", "title": "A directory alias of `z` leads to its directory", "statement": "After `z add name path` (or `z add name` in a directory), `z name` goes to that directory until the alias is changed or removed, whatever was done in between; `z aliases` lists each alias once with its path; a command that could not do what it was asked to says so with a status other than 0.", "quantifier": "every name and path, every sequence of commands in between, every directory from which `z name` is given", "why_tests_cant": "An invariant over all sequences of commands; the tests cover only the reading of the arguments.", "anchors": ["dsh/src/proxy/builtin/z.rs", "dsh/src/proxy/mod.rs: dir aliases", "dsh-builtin/src/z.rs"]}
{"id": "C132", "title": "`z words` goes to the visited directory that matches best", "statement": "`z words` goes to a directory visited before that matches the words and than which none matches better, by score and then by frecency; if none matches nothing changes and the status is 1; `z -` goes back to the directory one came from, and `z -l` lists the matches, best first.", "quantifier": "every directory history, every score of the matcher, every words, every file system", "why_tests_cant": "Maximality over histories of any length with ties; what the file system answers is not known in a test.", "anchors": ["dsh/src/proxy/builtin/z.rs", "dsh/src/history/frecency_history.rs: sort_by_match", "dsh-frecency/src/stats.rs"]}
{"id": "C133", "title": "JSON that is read into a table and written again is the same data", "statement": "`(json-stringify (json-parse s))` gives the same data as s: for an array of objects each object with its keys and values, for one object an array of it; the columns of the table are the names that occur, in the order of the text.", "quantifier": "every JSON text", "why_tests_cant": "Tests read a few small objects; empty arrays, large integers, nested values and mixed arrays occur in data from elsewhere.", "anchors": ["dsh/src/lisp/model/table.rs:130-197", "dsh/src/lisp/model/table.rs:282-296", "dsh/src/lisp/model/table.rs:496-593"]}
{"id": "C134", "title": "CSV that is read into a table and written again is the same file", "statement": "`(csv-stringify (csv-parse s))` gives the same fields as s, and `(json-stringify (csv-parse s))` and `(csv-stringify (json-parse s))` give the same values.", "quantifier": "every file with a header, every field", "why_tests_cant": "Tests have names and ages; identifiers with zeros in front, decimals with trailing zeros, repeated headers and words that read as numbers are not tried.", "anchors": ["dsh/src/lisp/model/table.rs:200-258"]}
{"id": "C135", "title": "Filters keep exactly the rows that meet the condition", "statement": "`table-where-cmp`, `table-where-eq` and `table-where-contains` keep exactly the rows whose cell meets the condition, in their order; `table-select`, `table-head` and `table-tail` keep exactly what they name.", "quantifier": "every table, column, operator and value", "why_tests_cant": "Filters that are right for integers and words can drop other rows without a message.", "anchors": ["dsh/src/lisp/model/table.rs:326-357", "dsh/src/lisp/model/table.rs:403-449", "dsh/src/lisp/stdlib/table.rs:174-218"]}
{"id": "C136", "title": "`table-order-by` sorts", "statement": "`(table-order-by t \"column\")` gives the same rows in ascending order of the column and `(table-order-by t \"column\" :desc)` in descending order, equal ones in their old order, rows without a value last.", "quantifier": "every table and column", "why_tests_cant": "Sortedness and stability are about all lists; mixed columns arise from data, not from test tables.", "anchors": ["dsh/src/lisp/model/table.rs:452-475", "dsh/src/lisp/stdlib/table.rs:220-240", "README.md:121-131"]}
{"id": "C137", "title": "`history` shows exactly the entries asked for", "statement": "`history` with options (--query, --scope, --status, --slow, --limit) and a search text shows exactly the recorded commands that meet all of them, the newest first, as many as asked; options it cannot understand are an error.", "quantifier": "every history, every command line", "why_tests_cant": "Tests parse a few option lists; combinations, misspelled values and missing values are not tried, and a filter that is silently dropped shows plausible output.", "anchors": ["dsh/src/proxy/builtin/history.rs:12-167", "dsh/src/history/command_history.rs:596-665"]}
{"id": "C138", "title": "`trigger` runs the command after every change of a matching file, and only then", "statement": "While `trigger pattern command` runs, each change of a file that matches is followed by a run of the command with the words given, the last state of the files is always followed by a run, nothing else runs it, runs do not overlap, and what they print is recorded.", "quantifier": "every sequence of reports with any times, every duration of the command", "why_tests_cant": "It is about all interleavings of changes and runs in time; tests do not wait for the debounce.", "anchors": ["dsh-builtin/src/trigger.rs:13-141", "dsh/src/proxy/mod.rs:366-387"]}
{"id": "C139", "title": "The prompt says where you are", "statement": "The directory shown in the prompt means the current directory: below the home directory it is shown from `~`, elsewhere as the whole path, in a repository as the name of its directory and the path in it; two directories are not shown alike.", "quantifier": "every directory, home directory and repository root", "why_tests_cant": "Tests look at a few paths; which paths contain the text of the home directory elsewhere is a question about all paths.", "anchors": ["dsh/src/prompt/modules/directory.rs:25-82"]}
{"id": "C140", "title": "The git part of the prompt counts what git reports", "statement": "For every report of `git status`, the numbers of staged, modified, deleted, renamed, untracked and conflicting files and of commits ahead and behind in the prompt are those of the report, and only a clean tree is shown without a mark.", "quantifier": "every report in the documented format", "why_tests_cant": "Reports are arbitrary sequences of lines with arbitrary file names; tests use a handful of lines.", "anchors": ["dsh/src/prompt/mod.rs:868-967", "dsh/src/prompt/modules/git.rs:20-73"]}
{"id": "C141", "title": "The git part of the prompt is about the repository of the current directory as it is now", "statement": "After each command and change of directory the prompt shows the branch and the changes of the repository that contains the current directory, and nothing outside repositories; one look at the repository happens at a time.", "quantifier": "every sequence of changes of directory, commands, looks and changes on the disk", "why_tests_cant": "It is about interleavings of a background task with changes of directory and about caches that outlive what they describe.", "anchors": ["dsh/src/prompt/mod.rs:337-376", "dsh/src/prompt/mod.rs:512-572", "dsh/src/prompt/mod.rs:603-665", "dsh/src/repl/mod.rs:887-923"]}
{"id": "C142", "title": "The versions and contexts in the prompt are the ones in force", "statement": "The language versions, the kubernetes and docker context and the AWS profile in the prompt are those in force in the current directory and environment; a program that fails is asked again only after growing delays, and not several times at once.", "quantifier": "every sequence of intervals, answers, failures and changes of directory", "why_tests_cant": "Delays, slow programs and changes during a lookup do not occur in tests.", "anchors": ["dsh/src/prompt/mod.rs:105-132", "dsh/src/prompt/mod.rs:720-818", "dsh/src/repl/mod.rs:740-818", "dsh/src/prompt/modules/aws.rs:24-27", "dsh/src/prompt/modules/kubernetes.rs:25-39", "dsh/src/prompt/modules/docker.rs:24-32"]}
{"id": "C143", "title": "The palette shows every action once and runs the chosen one", "statement": "The command palette lists the last action registered under each name exactly once, by category and name; choosing one runs that one, leaving it with Esc runs nothing, and whatever an action does the shell goes on with the terminal ready for editing.", "quantifier": "every sequence of registrations, every way to leave the picker, every result of an action", "why_tests_cant": "Tests register one action; the picker and failing actions are interactive.", "anchors": ["dsh/src/command_palette/mod.rs:35-77", "dsh/src/command_palette/mod.rs:128-180", "dsh/src/repl/key_handlers/auxiliary.rs:17-34", "dsh/src/repl/mod.rs:978-992"]}
{"id": "C144", "title": "A palette action acts on exactly what was chosen", "statement": "Kill, checkout, stash, docker, ports, push and pull, diff, open, ssh and jump act on the process, branch, stash, container, file, host or directory of the chosen line and on nothing else; a jump is a `cd`.", "quantifier": "every line printed by the programs asked", "why_tests_cant": "It depends on the format of lines of other programs, which tests do not vary.", "anchors": ["dsh/src/command_palette/actions/kill_process.rs:22-76", "dsh/src/command_palette/actions/git_checkout.rs:22-65", "dsh/src/command_palette/actions/git_stash.rs:61-101", "dsh/src/command_palette/actions/docker_containers.rs:69-123", "dsh/src/command_palette/actions/port_check.rs:70-94", "dsh/src/command_palette/actions/git_push_pull.rs:43-86", "dsh/src/command_palette/actions/git_diff.rs:79-90", "dsh/src/command_palette/actions/find_file.rs:66-81", "dsh/src/command_palette/actions/ssh_connect.rs:67-88", "dsh/src/command_palette/actions/jump_directory.rs:59-71"]}
{"id": "C145", "title": "The window title is safe and names the running program", "statement": "While a command runs in the foreground the terminal gets a title of one to 64 visible characters without control characters, which is the name of the last program of the pipeline (or the first word); nothing else reaches the terminal with it, and afterwards the title is `dsh` again.", "quantifier": "every pipeline and every name, including names with control characters", "why_tests_cant": "Tests look at six names and not at what a terminal does with the bytes.", "anchors": ["dsh/src/terminal/title.rs:9-76", "dsh/src/shell/eval.rs:21-42"]}
{"id": "C146", "title": "The terminal is told the current directory", "statement": "With every prompt the terminal learns the current directory, exactly, and nothing else.", "quantifier": "every directory name", "why_tests_cant": "Names with special characters are not tested, nor what a terminal reads.", "anchors": ["dsh/src/repl/render.rs:98-109"]}
{"id": "C147", "title": "Prompts and marks tell the truth", "statement": "The continuation prompt is shown exactly if the next line continues earlier ones; running a line runs all lines kept; what a command prints stands between the marks for its start and its end, the latter with its status.", "quantifier": "every sequence of edits, Enter, Alt+Enter, Ctrl+C and Ctrl+L, and every result", "why_tests_cant": "It is a property of whole sessions at a terminal.", "anchors": ["dsh/src/repl/key_handlers/execution.rs:15-347", "dsh/src/repl/render.rs:86-143", "dsh/src/repl/key_handlers/auxiliary.rs:37-45"]}
{"id": "C148", "title": "`read NAME` reads one line into a variable", "statement": "`read NAME` takes one line of input and stores it, without its newline, as the value of `$NAME`; all other variables stay, the rest of the input is left, the variable can be exported, and a missing name is an error message.", "quantifier": "every input, every name, every state of the variables", "why_tests_cant": "Tests do not run `read` on inputs of several lines or without a name.", "anchors": ["dsh/src/proxy/builtin/var.rs:39-58", "dsh-builtin/src/read.rs:12-22"]}
{"id": "C149", "title": "Builtins leave the descriptors of the shell alone", "statement": "After a builtin the input and output of the shell are open as before, and what was opened for the builtin has been closed exactly once.", "quantifier": "every source of input, every sequence of successful and failing writes", "why_tests_cant": "Descriptors closed twice or too early show only later, in other commands.", "anchors": ["dsh/src/proxy/builtin/var.rs:41-45", "dsh/src/process/job.rs:226-312", "dsh-types/src/lib.rs:194-206"]}
{"id": "C150", "title": "`set` sets what it is given and `export` lists what can be read back", "statement": "`set [-x] NAME VALUE` sets the variable to that value or fails with an error; `export` prints declarations which, read by a shell, give exactly the variables programs get.", "quantifier": "every name and value", "why_tests_cant": "Values that look like options or contain quotes are not tested.", "anchors": ["dsh-builtin/src/set.rs:20-54", "dsh-builtin/src/export.rs:6-19", "dsh/src/proxy/mod.rs:276-286"]}
{"id": "C151", "title": "The tools of the AI do not touch files ignored by git", "statement": "`read_file`, `edit`, `ls` and `search` refuse or leave out exactly the files and directories git ignores: those named by the ignore files of all directories of the work tree and by the lists of the user, and everything in an ignored directory.", "quantifier": "every work tree, every set of ignore files, every path", "why_tests_cant": "Tests use one ignore file in the directory of the shell; other directories, bad lines and searches started inside an ignored place are not tried.", "anchors": ["dsh-builtin/src/chatgpt/tool/gitignore.rs:6-53", "dsh-builtin/src/chatgpt/tool/read.rs:51-55", "dsh-builtin/src/chatgpt/tool/ls.rs:49-59", "dsh-builtin/src/chatgpt/tool/search.rs:77-114"]}
{"id": "C152", "title": "A long answer of a tool is cut openly", "statement": "An answer of a tool that fits the limit reaches the AI unchanged; of a longer one the longest beginning of whole characters that fits is passed on with a notice giving the number of characters left out, and a cut answer can be told from a whole one.", "quantifier": "every answer, every limit", "why_tests_cant": "Tests try ASCII answers and one with a single wide character.", "anchors": ["dsh-builtin/src/chatgpt/tool/mod.rs:77-96"]}
{"id": "C153", "title": "The coloured line is the line typed", "statement": "Whatever was typed, deleted or recalled before, drawing the input line writes exactly its characters, in order, each once, and never fails: the colours neither drop, repeat nor reorder text, nor cut outside of the line.", "quantifier": "every sequence of edits and redraws, every text, every set of known commands and paths", "why_tests_cant": "Tests draw a few ASCII lines; the ranges come from the grammar and are used to cut the text, so every text the grammar accepts matters, also with wide characters and line ends.", "anchors": ["dsh/src/input/editor.rs:594-692", "dsh/src/repl/render.rs:145-334", "dsh/src/parser/highlight.rs:36-114", "dsh/src/repl/input_analysis.rs:31-191"]}
{"id": "C154", "title": "The colours of the line tell the truth", "statement": "A command name is drawn in the colour for commands exactly if the shell can find the command the line runs, a text in the colour of a path only if it is a path, and a line of which a part cannot be read is marked as wrong; the colours are up to date whenever the line is drawn.", "quantifier": "every line, every set of known commands and paths, every sequence of edits and redraws", "why_tests_cant": "Tests look up one command or one path; spelling with backslashes, broken lines, deleting keys and commands that come to exist later are not tried.", "anchors": ["dsh/src/repl/input_analysis.rs:31-134", "dsh/src/repl/render.rs:145-232", "dsh/src/parser/highlight.rs:57-114"]}
{"id": "C155", "title": "`ga` stages exactly the files chosen", "statement": "After choosing files in the list of `ga`, exactly the chosen files are staged, whatever directory the user is in and however the files are named; nothing is staged if the choice is broken off.", "quantifier": "every work tree, every list of changes, every current directory, every choice", "why_tests_cant": "Tests parse two status lines; names git quotes, renames, names like options, subdirectories and breaking off need all lists and directories.", "anchors": ["dsh-builtin/src/ga.rs:41-175"]}
{"id": "C156", "title": "`gco` checks out the branch chosen", "statement": "After choosing a line in the list of `gco`, that branch is checked out, be it local or of a remote; nothing happens if the choice is broken off.", "quantifier": "every set of local and remote branches, every choice", "why_tests_cant": "Tests cut three names; remotes and branches with slashes, several remotes and names that exist twice are not tried.", "anchors": ["dsh-builtin/src/gco.rs:26-201"]}
{"id": "C157", "title": "`gwt` does to work trees what its options say", "statement": "The options of `gwt` mean the same in every order and combination; only the work tree named or chosen is removed, and only after it was chosen; a new work tree gets a directory of its own.", "quantifier": "every argument list, every list of work trees, every choice, every branch name", "why_tests_cant": "Tests parse a few option lists; the list of work trees, the removal and the directory names of different branches are not tried.", "anchors": ["dsh-builtin/src/gwt.rs:36-247", "dsh-builtin/src/gwt.rs:328-532"]}
{"id": "C158", "title": "`glog` checks out the commit of the line chosen", "statement": "The commit checked out is the one whose line of the log was chosen, whatever its author, subject or drawing; and only after the question was answered with yes.", "quantifier": "every line of the log with every drawing, colour, hash and subject; every answer", "why_tests_cant": "Tests cut four lines; the hash is found by its looks, so all drawings, subjects and lengths of hashes matter.", "anchors": ["dsh-builtin/src/glog.rs:20-59", "dsh-builtin/src/glog.rs:285-387"]}
{"id": "C159", "title": "`procs` signals the process highlighted", "statement": "Every table `procs` draws shows exactly the processes of a report of the system that match the filter; `x` and `X` signal the highlighted process and no other, no other key and no text typed into the filter signals any, and the highlight stays with its process until the user moves it.", "quantifier": "every sequence of keys and reports of the system, every filter", "why_tests_cant": "There are no tests; the table changes under the user every second, so all interleavings of reports and keys matter.", "anchors": ["dsh-builtin/src/procs.rs:27-252"]}
{"id": "C160", "title": "The explanation below the line is that of the option at the caret", "statement": "While a line is edited, the text shown below it is the description of the option the caret is on, as the command of that part of the line defines it; where there is no option nothing is shown.", "quantifier": "every line, every caret position, every set of definitions", "why_tests_cant": "Tests try four lines of git; subcommands, groups of letters, values, pipes, second names and wide characters are not tried together.", "anchors": ["dsh/src/argument_explainer.rs:35-165", "dsh/src/completion/parser.rs:102-158", "dsh/src/repl/mod.rs:442-449"]}
{"id": "C161", "title": "The explanation does not disturb the line", "statement": "Writing the explanation never changes the line being edited on the screen, and the explanation is there as long as it applies.", "quantifier": "every screen height, every position of the line, every sequence of redraws", "why_tests_cant": "Tests cannot see the screen: what `next line` does depends on the row, and a redraw clears what was written before.", "anchors": ["dsh/src/repl/mod.rs:442-479", "dsh/src/repl/render.rs:273-310"]}
{"id": "C162", "title": "Branches, remotes, working trees, contexts and namespaces offered by Tab are those there now", "statement": "Pressing Tab behind `git switch`, `git push`, `kubectl --context` and the like offers exactly the branches, remotes, working trees, contexts or namespaces that git or kubectl would list at this moment for this directory, those that fit the word.", "quantifier": "every line, directory and history of presses, answers and changes", "why_tests_cant": "Answers come from other programs in other threads, are remembered, and depend on when they arrive; tests call single functions with prepared memories.", "anchors": ["dsh/src/completion/dynamic.rs:159-258", "dsh/src/completion/dynamic.rs:301-329", "dsh/src/completion/dynamic.rs:370-454", "dsh/src/completion/dynamic.rs:483-565", "dsh/src/completion/dynamic.rs:652-692", "dsh/src/completion/dynamic.rs:760-789", "completions/git.json"]}
{"id": "C163", "title": "Services offered by Tab are those of the compose file", "statement": "Behind `docker compose up` and the like Tab offers exactly the services of the innermost compose file, as it is now, each once, those that fit the word.", "quantifier": "every compose file, directory and history of changes", "why_tests_cant": "Tests read one small file; the reader works on lines, not on YAML, and remembers by time and length.", "anchors": ["dsh/src/completion/dynamic.rs:260-299", "dsh/src/completion/dynamic.rs:456-481", "dsh/src/completion/dynamic.rs:615-650", "dsh/src/completion/dynamic.rs:871-939"]}
{"id": "C164", "title": "Tasks offered by Tab are those of the project and can be run", "statement": "Behind `task` Tab offers exactly the tasks of the project as it is now, and `task` with the name chosen runs that task.", "quantifier": "every project and history of changes", "why_tests_cant": "Tests use one file of one kind; which files are watched and names shared by two sources show only over all kinds and changes.", "anchors": ["dsh/src/completion/dynamic.rs:135-157", "dsh/src/completion/dynamic.rs:582-613", "dsh/src/completion/dynamic.rs:852-869", "dsh-builtin/src/project_context.rs:81-97"]}
{"id": "C165", "title": "Pressing Tab does not run what is typed", "statement": "Where a definition gives a script for the values, the words of the line are data for it: Tab runs the program of the definition and nothing the user has merely typed, and the lines it prints are the values offered.", "quantifier": "every template and every line", "why_tests_cant": "Tests fill in one harmless word; texts put into a shell command have to be looked at for all words.", "anchors": ["dsh/src/completion/generators/script.rs:23-160", "completions/kubectl.json:93"]}
{"id": "C166", "title": "The external completer cannot hold up the line", "statement": "Candidates printed by the external completer, a line for each, are offered as printed with their descriptions, and Tab goes on after the time limit at the latest.", "quantifier": "every output and every behaviour of the program over time", "why_tests_cant": "The tests start programs that end at once; who holds the pipe and for how long is outside of them.", "anchors": ["dsh/src/completion/dynamic.rs:331-368", "dsh/src/completion/dynamic.rs:694-752", "dsh/src/completion/dynamic.rs:941-1026"]}
{"id": "C167", "title": "The AI service is told the question and all that happened since", "statement": "In a conversation with tools every request has the question of the user and everything said and done since, some of it as a summary; each tool the service asks for is run once, in order, and its result is told under its name; the conversation ends.", "quantifier": "every service, every tool and every sequence of their answers", "why_tests_cant": "Tests answer with two or three prepared messages; summaries begin at 96000 characters and the messages they leave out matter for all later requests.", "anchors": ["dsh-builtin/src/chatgpt.rs:45-215", "dsh-builtin/src/chatgpt.rs:350-486"]}
{"id": "C168", "title": "Ctrl-C stops a conversation with the AI", "statement": "If the user presses Ctrl-C while a conversation runs, nothing more is asked and no further tool is run; a conversation nobody interrupted is not stopped.", "quantifier": "every conversation and every moment of a press", "why_tests_cant": "The mark is shared between threads and taken away by whoever looks first; tests do not press keys.", "anchors": ["dsh-openai/src/client.rs:197-242", "dsh/src/process/signal.rs:10-39", "dsh-builtin/src/chatgpt.rs:378-485"]}
{"id": "C169", "title": "An answer of the AI is shown", "statement": "If the service answers the question with a text and asks for no tool, that text is what the user gets.", "quantifier": "every conversation", "why_tests_cant": "Services differ in the fields of a message; tests use one form.", "anchors": ["dsh-builtin/src/chatgpt.rs:378-485"]}
{"id": "C170", "title": "Conversations go to the server that was set, with the key that was set", "statement": "Requests with the key and the conversation go to the address the user set and nowhere else, encrypted unless the user allows otherwise; key and model are the first that are set.", "quantifier": "every set of variables", "why_tests_cant": "Tests look at single variables; what is silently replaced shows only over all addresses.", "anchors": ["dsh-openai/src/config.rs:19-106", "dsh-builtin/src/chatgpt.rs:235-256"]}
{"id": "C171", "title": "The AI is told the skills there are", "statement": "The service is told the name and the description of each skill in the directory as it is now, and a file to read for it that is there.", "quantifier": "every directory, every text of a skill and every history of changes", "why_tests_cant": "Tests read one directory once; the list is remembered by a count and a time, and headers are YAML.", "anchors": ["dsh-builtin/src/chatgpt/skills.rs:14-310"]}
{"id": "C172", "title": "Everything the AI answers is shown", "statement": "All texts of an answer appear on the terminal in their order, with the addresses of links and images and the labels of footnotes; what cannot be formatted is shown as it is.", "quantifier": "every answer, however its parts are nested", "why_tests_cant": "Tests format a few short texts; what is left out shows only over all nestings.", "anchors": ["dsh-builtin/src/markdown.rs:31-63", "dsh-builtin/src/markdown.rs:76-197", "dsh-builtin/src/chatgpt.rs:275-279"]}
{"id": "C173", "title": "An answer of the AI keeps its shape", "statement": "Paragraphs, lists, quotes, code and tables of an answer have on the terminal the shape Markdown gives them: items one below the other with consecutive numbers, bars in front of quoted lines, code as it is, rows of tables on one line; a style ends where it ends in the answer.", "quantifier": "every answer, however its parts are nested", "why_tests_cant": "Newlines are kept pending and written later; only all orders of parts show where they pile up.", "anchors": ["dsh-builtin/src/markdown.rs:97-197", "dsh-builtin/src/markdown.rs:199-386"]}
{"id": "C174", "title": "An answer of the AI leaves the terminal plain", "statement": "At the end of an answer, and at the end of each of its lines, no colour is left on, and the answer itself cannot send sequences to the terminal.", "quantifier": "every answer", "why_tests_cant": "Tests look for single codes in the output.", "anchors": ["dsh-builtin/src/markdown.rs:236-340", "dsh-builtin/src/markdown.rs:388-479"]}
{"id": "C175", "title": "A tool the AI calls is the one it was told of", "statement": "Each function the AI is told of has one name, and calling it calls the tool of the server its description names, for as long as that server is there; a call of a name that is not there is reported as a failure.", "quantifier": "every sequence of adding, removing, connecting and re-reading servers, all labels and tool names", "why_tests_cant": "Names are made from labels and tools by cleaning and numbering; collisions appear only over all labels and sequences.", "anchors": ["dsh-builtin/src/chatgpt/mcp/mod.rs:401-443", "dsh-builtin/src/chatgpt/mcp/mod.rs:487-536", "dsh-builtin/src/chatgpt/mcp/mod.rs:847-877", "dsh-builtin/src/chatgpt/mcp/mod.rs:1047-1089", "dsh/src/ai_features/service.rs:230-234"]}
{"id": "C176", "title": "The tools of the AI are those the servers set have now", "statement": "After the configuration was read, the AI has the tools of exactly the servers set in it, all of them, as those servers have them now.", "quantifier": "every earlier state, every configuration, every answer of the servers", "why_tests_cant": "Tests start from an empty manager; changed, failing and remembered servers need earlier states.", "anchors": ["dsh-builtin/src/chatgpt/mcp/mod.rs:572-877", "dsh/src/environment/mcp.rs:8-23", "dsh/src/shell/mod.rs:261-299", "dsh-builtin/src/chatgpt/mcp/mod.rs:914-974"]}
{"id": "C177", "title": "`mcp` tells and does what it says", "statement": "`mcp status`, `mcp connect`, `mcp disconnect` and `mcp tools` tell the state of the servers there is, act on the server named, fail when they fail, and always answer.", "quantifier": "every state, every label and description", "why_tests_cant": "Tests use short ASCII labels and servers that answer.", "anchors": ["dsh-builtin/src/mcp.rs:12-135", "dsh/src/lisp/stdlib/mcp.rs:133-310", "dsh-builtin/src/chatgpt/mcp/mod.rs:284-391"]}
{"id": "C178", "title": "A definition `comp-gen` accepts is used by Tab", "statement": "When `comp-gen` succeeds, what it saved is a definition for the command asked for, and the next Tab for that command offers exactly what the definition says; a definition that cannot be used is refused and changes nothing.", "quantifier": "every text of the AI service that is JSON, every command name, all files there are", "why_tests_cant": "The check and the reader are two programs over unbounded trees; tests look at single definitions.", "anchors": ["dsh-builtin/src/comp_gen.rs:20-396", "dsh/src/completion/json_loader.rs:37-58", "dsh/src/completion/json_loader.rs:170-368", "dsh/src/completion/command.rs:6-160", "dsh/src/completion/integrated.rs:244-270"]}
{"id": "C179", "title": "A definition of others runs no scripts", "statement": "Tab runs no script out of a definition the AI wrote, or one that lies in the current directory.", "quantifier": "every definition at every depth, all files there are", "why_tests_cant": "Scripts can stand at any depth and in several places of a definition.", "anchors": ["dsh-builtin/src/comp_gen.rs:196-396", "dsh/src/completion/json_loader.rs:170-230", "dsh/src/completion/command.rs:60-145"]}
{"id": "C180", "title": "The definition used for a command is its own, newest one", "statement": "Tab for a command uses the definition of that command: the one of the user before the one built in, as it is now.", "quantifier": "every sequence of Tabs with every change of the files between them", "why_tests_cant": "What is remembered depends on all earlier Tabs.", "anchors": ["dsh/src/completion/json_loader.rs:37-58", "dsh/src/completion/json_loader.rs:170-368", "dsh/src/completion/integrated.rs:244-270", "dsh/src/completion/command.rs:6-60"]}
{"id": "C181", "title": "A suggestion of the AI continues the line as the AI answered", "statement": "What is shown in grey behind the line as a suggestion of the AI is the continuation the AI answered for that line where the user is now; accepted, the line is exactly that answer.", "quantifier": "every order of refreshes, answers and keys, every answer, every line", "why_tests_cant": "Answers come at any time after any number of later keys; tests look at one answer after one question.", "anchors": ["dsh/src/suggestion.rs:214-392", "dsh/src/suggestion.rs:556-866", "dsh/src/repl/repl_ai.rs:70-193"]}
{"id": "C182", "title": "The AI is asked about the newest line, and once", "statement": "While the user types, the AI is asked about the newest line there is; a line is asked about once, no question is lost, and the mark in the prompt tells whether an answer is awaited.", "quantifier": "every order of refreshes, steps of the worker and answers", "why_tests_cant": "The worker runs at the same time as the keys; every interleaving counts.", "anchors": ["dsh/src/suggestion.rs:394-404", "dsh/src/suggestion.rs:556-749", "dsh/src/repl/mod.rs:821-843", "dsh/src/repl/mod.rs:1053-1070"]}
{"id": "C183", "title": "The AI is asked only where it is allowed", "statement": "Lines are sent to the AI service only if suggestions are on and those of the AI are set, never for commands the AI is not to be asked about, and never with secrets that history would not keep.", "quantifier": "every order of settings, refreshes and keys, every line", "why_tests_cant": "What is sent depends on all settings and lines before.", "anchors": ["dsh/src/suggestion.rs:214-299", "dsh/src/repl/repl_ai.rs:70-193"]}
{"id": "C184", "title": "The explanation under the line is of that line", "statement": "The explanation of the AI that stands under the line is the answer to a question about exactly that line; a line left alone is asked about once and gets its explanation.", "quantifier": "every sequence of keys, pastes, timers and answers", "why_tests_cant": "Answers come after any number of keys of many kinds; a test presses one.", "anchors": ["dsh/src/repl/handler.rs:63-333", "dsh/src/repl/mod.rs:442-472", "dsh/src/repl/mod.rs:840-956", "dsh/src/repl/key_handlers/ai.rs:16-53", "dsh/src/ai_features/analysis.rs:37-61"]}
{"id": "C185", "title": "A fix offered is for the command that just failed", "statement": "What is offered on the empty line as a fix answers the last command, if it failed; it is run only when the user says so, and can be refused or asked for again.", "quantifier": "every sequence of commands, statuses, answers and keys", "why_tests_cant": "Answers overtake each other and later commands; tests set the field by hand.", "anchors": ["dsh/src/repl/repl_ai.rs:39-68", "dsh/src/repl/mod.rs:934-942", "dsh/src/repl/mod.rs:1071-1087", "dsh/src/repl/key_handlers/completion.rs:18-31", "dsh/src/ai_features/command.rs:156-234"]}
{"id": "C186", "title": "`aic` commits what was shown and agreed to", "statement": "`aic` commits only after \"yes\", with the message shown last and the changes it was written for; it ends when nobody answers, and its status tells whether a commit was made.", "quantifier": "every sequence of answers, edits and ends of input", "why_tests_cant": "The review is a loop over whatever the user types.", "anchors": ["dsh-builtin/src/commit_ai.rs:14-127"]}
{"id": "C187", "title": "A diagnosis is of the error and its command is applied as written", "statement": "Alt-d tells the AI the failed command and its error; what is applied of the answer is the first block of shell commands in it, exactly.", "quantifier": "every output, every answer", "why_tests_cant": "Outputs and answers are arbitrary texts.", "anchors": ["dsh/src/ai_features/ui.rs:175-203", "dsh/src/ai_features/analysis.rs:145-182", "dsh/src/repl/key_handlers/ai.rs:55-170"]}
{"id": "C188", "title": "`pm` keeps the projects registered, each once", "statement": "Every project the user registered and did not remove is there with its name and directory, each once; a command changes the project named and no other, and a failing command changes nothing.", "quantifier": "every sequence of commands, in one or several shells", "why_tests_cant": "Lists grow by sequences of commands, and other shells write the same file.", "anchors": ["dsh-builtin/src/project.rs:15-244", "dsh-builtin/src/project.rs:449-471", "dsh-types/src/project.rs:4-35"]}
{"id": "C189", "title": "`$DSH_PROJECT` is the innermost project one is in", "statement": "Wherever the user is, `$DSH_PROJECT` is the name of the innermost registered project that holds the directory, and nothing elsewhere; the hooks for a change of project are called once on entering another.", "quantifier": "every list of projects, every sequence of directories and commands", "why_tests_cant": "Nested projects and moves between them are unboundedly many.", "anchors": ["dsh-builtin/src/project.rs:103-126", "dsh/src/shell/hooks.rs:10-64", "dsh/src/proxy/mod.rs:90-112"]}
{"id": "C190", "title": "The prompt counts the notifications there are", "statement": "The numbers of GitHub notifications in the prompt are those of the unread notifications the user wants to see, by kind; nothing the user did not see is marked as read.", "quantifier": "every list of notifications, filter and sequence of checks", "why_tests_cant": "Notifications and failures of the service come in any order.", "anchors": ["dsh/src/github.rs:12-251", "dsh/src/prompt/mod.rs:413-457", "dsh/src/repl/mod.rs:187-243"]}
{"id": "C191", "title": "`gh-notify` offers the unread notifications and opens the chosen one", "statement": "`gh-notify` offers exactly the unread notifications (of the repositories asked for), opens the page of the one chosen, and marks it as read if asked, telling whether that worked.", "quantifier": "every answer of the service, filter and choice", "why_tests_cant": "Answers of the service are arbitrary JSON.", "anchors": ["dsh-builtin/src/gh_notify.rs:19-45", "dsh-builtin/src/gh_notify.rs:64-356"]}
{"id": "C192", "title": "Tab turns a question into a command and leaves the rest alone", "statement": "On `A |? question` outside of quotes Tab sends the question and nothing else to the AI and puts `| command` in its place with A as it was; `?? question` becomes the command. Only commands the guard lets pass are put on the line; for every other line, and if no command comes back, the line stays and the user learns why. One press asks one question and never ends the shell.", "quantifier": "every line, caret, service, answer and setting of the guard", "why_tests_cant": "Lines and answers are arbitrary texts.", "anchors": ["dsh/src/repl/mod.rs:1189-1225", "dsh/src/repl/key_handlers/completion.rs:65-100", "dsh/src/ai_features/command.rs:16-151", "dsh/src/ai_features/mod.rs:42-51"]}
{"id": "C193", "title": "`doctor` tells what a conversation uses, and not the key", "statement": "`doctor ai` shows the model and address conversations use and whether there is a key, without giving the key away; `doctor` runs the checks asked for.", "quantifier": "every set of variables", "why_tests_cant": "Tests look at one key; what is shown and what is used differ for values nobody thought of.", "anchors": ["dsh-builtin/src/doctor.rs:13-63", "dsh-builtin/src/doctor.rs:157-187", "dsh-builtin/src/doctor.rs:795-804", "dsh-openai/src/config.rs:19-97"]}
{"id": "C194", "title": "`doctor dev` lists the changed files and the checks for them", "statement": "Every changed file is listed by its name, and the commands proposed are exactly those for the packages that changed, each once.", "quantifier": "every state of the repository", "why_tests_cant": "File names are arbitrary texts, and git escapes them.", "anchors": ["dsh-builtin/src/doctor.rs:625-730"]}
{"id": "C195", "title": "`doctor` is right about skills and tools", "statement": "A skill is said to be installed exactly if its files are those of the repository, the summary says `ok` exactly if all are, and a tool is said to be there exactly if the shell finds it.", "quantifier": "every tree of files and PATH", "why_tests_cant": "Trees and paths are unbounded.", "anchors": ["dsh-builtin/src/doctor.rs:532-581", "dsh-builtin/src/doctor.rs:752-793", "dsh-builtin/src/doctor.rs:821-848"]}
{"id": "C196", "title": "The page of a directory shows its entries", "statement": "A reader of the page `serve` makes of a directory finds one link for each entry, leading to its name and showing it, directories first and both by name; names of files never become anything else of the page.", "quantifier": "every directory and every name", "why_tests_cant": "Names are arbitrary texts; what a browser makes of a page is not what tests look for in it.", "anchors": ["dsh-builtin/src/serve/handlers.rs:591-674"]}
{"id": "C197", "title": "`serve` serves what was asked for or says why not", "statement": "The server that runs has the directory, port and options of the arguments; wrong arguments and ports that cannot be had are said and end with a status of failure; every option does what its description says.", "quantifier": "all arguments, machines and requests", "why_tests_cant": "Combinations of arguments are unbounded, and ports are taken by other programs.", "anchors": ["dsh-builtin/src/serve/config.rs:45-158", "dsh-builtin/src/serve/mod.rs:21-84", "dsh-builtin/src/serve/server.rs:23-62", "dsh-builtin/src/serve/server.rs:145-196", "dsh-builtin/src/serve/handlers.rs:479-557"]}
{"id": "C198", "title": "`doctor project` tells the project as it is", "statement": "The root is the nearest directory that is marked; each language shown comes with the version wanted for the current directory and the file that says so; the files to activate are those that `pm activate` uses.", "quantifier": "every tree of directories and all texts of files", "why_tests_cant": "Trees, files and their order of precedence are unbounded.", "anchors": ["dsh-builtin/src/project_context.rs:63-393", "dsh-builtin/src/doctor.rs:265-313", "dsh-builtin/src/project.rs:379-445"]}
{"id": "C199", "title": "Configuration code cannot make programs load libraries unasked", "statement": "Unless the person has chosen the level `loose`, nothing that Lisp code of the configuration calls makes later programs find another value of a variable that makes them load libraries or run code; every other variable is set to the value given.", "quantifier": "every sequence of calls and every environment", "why_tests_cant": "Sequences of calls and names of variables are unbounded.", "anchors": ["dsh/src/lisp/builtin.rs:41-128", "dsh/src/lisp/builtin.rs:337-421", "dsh/src/safety/mod.rs:580-607"]}
{"id": "C200", "title": "`(command …)` runs the program asked for and answers its output", "statement": "The program run is the one named, with exactly the arguments given and the environment of the shell, and only if the guard allows it; the answer is its output, and a failure can be told from success.", "quantifier": "all arguments, environments and programs", "why_tests_cant": "Arguments, environments and outputs of programs are unbounded.", "anchors": ["dsh/src/lisp/builtin.rs:197-257"]}
{"id": "C201", "title": "Session secrets stay in the session", "statement": "A secret that was set is answered for its key until it is cleared, patterns added keep lines out of the history, and the value of a session secret is not written to the history.", "quantifier": "every sequence of calls and all lines", "why_tests_cant": "Which lines look like a secret depends on texts of any length.", "anchors": ["dsh/src/lisp/builtin.rs:498-640", "dsh/src/secrets.rs:1-260"]}
{"id": "C202", "title": "Settings made in Lisp are those in force", "statement": "A setting that is read is the one made last by a call that did not fail and the one the shell works with; a call that fails changes nothing; no argument is ignored.", "quantifier": "every sequence of calls and all arguments", "why_tests_cant": "Sequences of calls are unbounded.", "anchors": ["dsh/src/lisp/builtin.rs:41-195", "dsh/src/lisp/builtin.rs:337-421", "dsh/src/lisp/builtin.rs:498-640"]}
{"id": "C203", "title": "`(sh …)` answers the output of the line", "statement": "The answer is what the line writes to its standard output, whatever its length and however many commands it has, without the newlines at its end; what it writes to its standard error is not in it; a line that was not run is no answer; each argument of the call stays one argument of the command.", "quantifier": "all lines, outputs and states of the shell", "why_tests_cant": "Outputs, pipelines and open descriptors are unbounded.", "anchors": ["dsh/src/lisp/builtin.rs:260-335", "dsh/src/process/job.rs:226-330", "dsh/src/shell/eval.rs:43-409"]}
{"id": "C204", "title": "Commands of the first moments are kept", "statement": "The history is loaded in the background while the prompt is already there. Whatever the moment a command is used, it stays in the history of the session, it is written to the table and it is listed once with its full count; loading does not move the position of someone walking through the history.", "quantifier": "all tables, commands and interleavings of the loading thread, the user and the writer", "why_tests_cant": "The interleavings and the tables are unbounded.", "anchors": ["dsh/src/lib.rs:134-173", "dsh/src/history/command_history.rs:137-158", "dsh/src/history/command_history.rs:204-297", "dsh/src/history/command_history.rs:394-446", "dsh/src/history/command_history.rs:493-539"]}
{"id": "C205", "title": "`exit` leaves the shell", "statement": "Once `exit` has been run nothing more is run: neither the rest of the line nor the lines of a script that follow. The shell reports the status it was given. At the prompt it is left at once when there are no jobs, and with the second request when there are; it is not left unasked.", "quantifier": "all lines, scripts and sessions, with any commands and jobs", "why_tests_cant": "Lines, scripts and sessions are unbounded.", "anchors": ["dsh-builtin/src/lib.rs:747-753", "dsh/src/repl/mod.rs:1070-1121", "dsh/src/lib.rs:612-672", "dsh/src/repl/key_handlers/execution.rs:206"]}
{"id": "C206", "title": "Scripts, `-c` and `-l` run all they are given", "statement": "Every command of a script on the standard input is run, in order; a command may span lines, a program of it reads what follows in the script and takes nothing else from it. A script, `-c` and `-l` report the status of what they ran; all expressions given with `-l` are evaluated; of two options neither is dropped.", "quantifier": "all scripts, commands, expressions and states", "why_tests_cant": "Scripts and what programs read are unbounded.", "anchors": ["dsh/src/lib.rs:530-672", "dsh/src/lib.rs:250-257", "dsh/src/lisp/mod.rs:166-183"]}
{"id": "C207", "title": "A file that cannot be read does not disturb other directories", "statement": "When the environment file of an allowed directory cannot be read, the directory stays allowed and is loaded when the file can be read again; the other allowed directories are loaded and taken back as usual; a `cd` that reports failure has not changed the directory.", "quantifier": "all lists of allowed directories, files and walks", "why_tests_cant": "Walks and lists of directories are unbounded.", "anchors": ["dsh/src/direnv.rs:165-206", "dsh/src/proxy/mod.rs:90-112", "dsh/src/shell/hooks.rs:10-14"]}
{"id": "C208", "title": "Comments of deno.json are no tasks, strings are no comments", "statement": "The tasks offered are those the file has when its comments are taken out; the content of its strings is left alone, whatever is in them.", "quantifier": "all files of the format: code, strings with escapes, comments of both kinds", "why_tests_cant": "Files are unbounded.", "anchors": ["dsh-builtin/src/task.rs:442-468", "dsh-builtin/src/task.rs:509-514"]}
{"id": "C209", "title": "Completions the user defines are used", "statement": "After `(autocomplete NAME X)` Tab on a line of the command NAME offers the members of the list X, the output lines of the command X, or the answer of the function X given the line; lines of other commands are not affected; the latest definition counts.", "quantifier": "all definitions, lines and answers", "why_tests_cant": "Lines, lists and sequences of definitions are unbounded.", "anchors": ["dsh/src/lisp/interpreter.rs:180-231", "dsh/src/completion/selection.rs:119-262", "dsh/src/repl/key_handlers/completion.rs:118-260"]}
{"id": "C210", "title": "Tab offers the commands that can be run", "statement": "In command position Tab offers every command of the search path of the shell that belongs to the word typed, and nothing that cannot be run.", "quantifier": "all search paths, directories and words", "why_tests_cant": "Directories and their entries are unbounded.", "anchors": ["dsh/src/completion/generators/system.rs:14-218", "dsh/src/environment/paths.rs:101-116", "dsh/src/lib.rs:222-246", "dsh/src/lisp/builtin.rs:183-194"]}
{"id": "C211", "title": "Exported variables also hold for what the shell starts and looks at itself", "statement": "A variable exported, changed or taken away during a session is seen so by every program the shell starts, also by those of `safe-run`, `trigger` and by the editors, and by the parts of the shell that go by it; the three places that start an editor start the same one.", "quantifier": "all sessions of assignments, all names and values", "why_tests_cant": "Sequences of assignments are unbounded.", "anchors": ["dsh/src/proxy/mod.rs:366-387", "dsh/src/utils/editor.rs:9-40", "dsh/src/command_palette/actions/find_file.rs:69-77", "dsh-builtin/src/gwt.rs:589-607", "dsh/src/prompt/mod.rs:1111-1122", "dsh-builtin/src/gh_notify.rs:105-116", "dsh-builtin/src/chatgpt.rs:235-237"]}
{"id": "C212", "title": "A word is coloured as a path exactly if the path exists", "statement": "While a line is typed a word is drawn in the colour of existing paths exactly if it names an entry of its directory; directories are read in the background, each at most once at a time, and then known.", "quantifier": "all sessions of requests, readings and trees, all words", "why_tests_cant": "Sessions, trees and times are unbounded.", "anchors": ["dsh/src/completion/path.rs:223-328", "dsh/src/repl/input_analysis.rs:136-157"]}
{"id": "C213", "title": "gpr does what its options say", "statement": "`gpr -c` has exactly the pull request made whose title, text, base and kind were given; `gpr` checks out the request chosen among those of the repository; options and words that mean nothing are refused; the status tells whether what was asked for was done.", "quantifier": "all arguments, all repositories, all choices", "why_tests_cant": "Texts and lists of requests are unbounded.", "anchors": ["dsh-builtin/src/gpr.rs:23-267", "dsh-builtin/src/github_client.rs:25-88"]}
{"id": "C214", "title": "Directories entered are kept from the first moment", "statement": "Every directory entered in a session, from its first moment to its last, is known to `z` and the suggestions afterwards and stands in the saved history with all its visits, also if several sessions run and if a write is refused once.", "quantifier": "all sessions of visits, writes, readings and saves of other sessions, in every order", "why_tests_cant": "Orders of the threads and sessions are unbounded.", "anchors": ["dsh/src/lib.rs:176-191", "dsh/src/history/frecency_history.rs:57-168", "dsh/src/history/frecency_history.rs:203-302", "dsh/src/history/frecency_history.rs:327-345", "dsh/src/proxy/mod.rs:65-83", "dsh/src/repl/mod.rs:481-510"]}
{"id": "C215", "title": "Tab offers the users, groups, signals, interfaces and processes there are", "statement": "Where a user, group, signal, interface or process is wanted, Tab offers in order exactly those the system has that begin with the word typed, for processes also those whose name contains it.", "quantifier": "all files of users and groups, all words, all sessions of Tabs", "why_tests_cant": "Files, words and times are unbounded.", "anchors": ["dsh/src/completion/generators/user.rs:33-101", "dsh/src/completion/generators/group.rs:22-73", "dsh/src/completion/generators/signal.rs:5-73", "dsh/src/completion/generators/interface.rs:22-112", "dsh/src/completion/generators/process.rs:22-98"]}
{"id": "C216", "title": "Built-ins leave the streams of the shell as they were", "statement": "What a built-in writes arrives once, in order, where the stream led when the command began, and afterwards every stream of the shell leads where it led before, whether or not the system took the text and whether or not the built-in read its input.", "quantifier": "all tables of descriptors, all sequences of texts written, taken or refused, all files opened meanwhile", "why_tests_cant": "Refused writes and the files opened between two commands are unbounded.", "anchors": ["dsh-types/src/lib.rs:193-205", "dsh/src/proxy/builtin/var.rs:39-58", "dsh-builtin/src/eview.rs:23-61", "dsh/src/process/job.rs:301-326"]}
{"id": "C217", "title": "tm gives back the output chosen", "statement": "`tm` lists the recorded outputs so that each can be told apart, shows the output beside it, and writes what was recorded for the entry chosen, unchanged; leaving it without a choice is no success.", "quantifier": "all histories of outputs, all choices", "why_tests_cant": "Recorded outputs and choices are unbounded.", "anchors": ["dsh-builtin/src/tm.rs:14-123"]}
{"id": "C218", "title": "help tells of every built-in", "statement": "`help` names every built-in command once with its description, in a settled order and in columns; `help NAME` tells of NAME.", "quantifier": "all tables of built-ins in every order", "why_tests_cant": "The order of the table is that of a hash map.", "anchors": ["dsh-builtin/src/help.rs:11-32", "dsh-builtin/src/lib.rs:353-355", "dsh-builtin/src/lib.rs:731-740"]}
{"id": "C219", "title": "Databases of earlier versions are opened with all they hold", "statement": "A database of any earlier version is opened with every row it holds and gets the tables, columns and indexes the shell needs; opening it again changes nothing; only its owner can read it; a failure is told.", "quantifier": "all contents of the file, all moments at which another session holds the lock, any number of tries", "why_tests_cant": "Contents and locks are unbounded.", "anchors": ["dsh/src/db.rs:12-41", "dsh/src/db.rs:43-165"]}
{"id": "C220", "title": "The list of commands kept between sessions names the commands there are", "statement": "Commands known from the first prompt on are exactly the programs in the directories of the search path at that moment.", "quantifier": "all directories, times, search paths and changes between two sessions", "why_tests_cant": "Changes of directories and their times are unbounded.", "anchors": ["dsh/src/environment/mod.rs:288-383", "dsh/src/lib.rs:221-246", "dsh/src/environment/paths.rs:101-116"]}
{"id": "C221", "title": "The prompt comes back when the command has ended", "statement": "The prompt comes back as soon as the foreground command has ended or is stopped, whatever processes it leaves behind, and not before.", "quantifier": "all sequences of ends, stops, forks and closings of all processes", "why_tests_cant": "Orders of events of processes are unbounded.", "anchors": ["dsh/src/process/job.rs:143-196", "dsh/src/process/job_pty.rs:140-187", "dsh/src/process/io.rs:174-260"]}
{"id": "C222", "title": "Ctrl-C and the shell's own signals reach every process of the foreground pipeline", "statement": "Ctrl-C, and what the shell sends to the job when a stage fails, reach all processes of the pipeline in the foreground.", "quantifier": "any number of stages, every order in which the processes set themselves up", "why_tests_cant": "Orders of processes are unbounded and not under the control of a test.", "anchors": ["dsh/src/process/process.rs:240-301", "dsh/src/process/job.rs:220-352", "dsh/src/process/job_wait.rs:266-360"]}
{"id": "C223", "title": "dmv renames exactly the files the pattern stands for", "statement": "The files dmv renames are those whose names the pattern stands for, as the help describes it: *, **, ?, sets and groups.", "quantifier": "every pattern, all names, all directories", "why_tests_cant": "Patterns and names are unbounded.", "anchors": ["dsh-builtin/src/dmv.rs:190-274", "dsh-builtin/src/dmv.rs:276-309", "dsh-builtin/src/dmv.rs:323-368", "dsh-builtin/src/dmv.rs:426-462"]}
{"id": "C224", "title": "Ctrl-R finds every command of the history and changes the line only to the one chosen", "statement": "With Ctrl-R, or the palette, every command of the history can be found and put on the line; the line changes only to a command that was chosen, and leaving the finder leaves it as it was.", "quantifier": "all histories, all lines, everything typed and chosen in the finder", "why_tests_cant": "Histories and inputs are unbounded.", "anchors": ["dsh/src/repl/mod.rs:1127-1178", "dsh/src/completion/framework.rs:115-164", "dsh/src/command_palette/actions/search_history.rs:26-63"]}
{"id": "C225", "title": "The prompt reads keys in raw mode; commands and the terminal left behind have the mode of the start", "statement": "At every prompt the terminal is in raw mode; every command starts in the mode in which the shell was started; when the shell ends, or dsh -c is done, the terminal is back in that mode, whatever the commands did and whichever of them failed.", "quantifier": "all sequences of lines, substitutions, questions, finders and windows, all modes, all programs", "why_tests_cant": "Sequences of events and the failures in them are unbounded, and tests run without a terminal.", "anchors": ["dsh/src/shell/eval.rs:43-413", "dsh/src/shell/eval.rs:521-535", "dsh/src/process/job_pty.rs:18-52", "dsh/src/repl/mod.rs:993-1034", "dsh/src/ai_features/ui.rs:24-66", "dsh/src/repl/key_handlers/ai.rs:96-180"]}
{"id": "C226", "title": "gwt makes the work tree asked for or leaves everything as it was", "statement": "If gwt reports success there is one new work tree, beside the project and named after it, and the shell stands in it unless -n was given; if it reports a failure, the work trees and the place of the shell are as before. Work trees never take the place of anything.", "quantifier": "all sequences of uses with branches and pull requests, all outcomes of git, gh, the change of directory and the editor", "why_tests_cant": "Sequences and the failures in them are unbounded, and tests have neither gh nor a repository.", "anchors": ["dsh-builtin/src/gwt.rs:36-120", "dsh-builtin/src/gwt.rs:354-404", "dsh-builtin/src/gwt.rs:588-753"]}
{"id": "C227", "title": "Enter replaces the prompt and keeps what is above it", "statement": "When Enter replaces the prompt and the typed line by the short prompt, every row above the prompt stays on the screen and no row of the old prompt and line is left.", "quantifier": "all widths of the terminal, prompts, texts of any characters and lines, places of the caret and rows above", "why_tests_cant": "The rows depend on widths, wrapping and newlines without bound, and tests have no screen.", "anchors": ["dsh/src/repl/render.rs:454-488", "dsh/src/repl/key_handlers/execution.rs:66-94"]}
{"id": "C228", "title": "The hint beside the line tells what Tab and Enter do", "statement": "\"Tab to expand\" is shown just if Tab asks the AI about the line, \"Enter to analyze\" just if Enter runs the command and asks about its output; the hint covers nothing of what is on the row.", "quantifier": "all lines and lines before them, widths of the screen, configured services and grey continuations", "why_tests_cant": "Lines are unbounded and what the keys do is decided in other places than the hint.", "anchors": ["dsh/src/repl/render.rs:290-302", "dsh/src/repl/render.rs:377-452", "dsh/src/repl/key_handlers/execution.rs:21-55", "dsh/src/repl/key_handlers/completion.rs:63-97"]}
{"id": "C229", "title": "The output of commands in the background is shown", "statement": "Everything a command in the background writes is shown once and in the order in which it was written, and showing it does not keep the shell from the keys.", "quantifier": "all outputs: texts, bytes, silences and their places; all numbers of checks", "why_tests_cant": "When and in which pieces output arrives is unbounded and not under the control of a test.", "anchors": ["dsh/src/process/io.rs:17-119", "dsh/src/process/job_wait.rs:480-494", "dsh/src/shell/job.rs:138-162", "dsh/src/repl/key_handlers/auxiliary.rs:47-59"]}
{"id": "C230", "title": "`command |! question` asks about what the command did", "statement": "The command is run once and the service gets the command, its output, errors and outcome, and the question, each recognisable; the status of the command is kept; if the question cannot be asked, nothing is run or the output is shown.", "quantifier": "all commands, outputs, statuses and questions, with and without a service", "why_tests_cant": "Outputs are unbounded texts of other programs, and tests have no service.", "anchors": ["dsh/src/repl/mod.rs:1253-1324", "dsh/src/repl/key_handlers/execution.rs:50-55"]}
