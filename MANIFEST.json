{"claims": [
 {"property": "C01", "status": "proved", "theorems": ["Dsh.Editor.C01_editor_refines", "Dsh.Editor.C01_queries"], "note": "Display widths are a parameter."},
 {"property": "C02", "status": "proved", "theorems": ["Dsh.Editor.C02_kills", "Dsh.Editor.C02_motions", "Dsh.Editor.C02_click_nearest", "Dsh.Editor.C02_reachable"], "note": ""},
 {"property": "C03", "status": "partial", "theorems": ["Dsh.Shell.C03_line_meaning_partial", "Dsh.Shell.C03_tail_violated", "Dsh.Shell.C03_dropped_violated"], "note": "False in general (witnesses); proved for every line of the syntax in Parse/Syntax.lean under FitLine."},
 {"property": "C04", "status": "partial", "theorems": ["Dsh.Shell.C04_word", "Dsh.Shell.C04_argument_partial", "Dsh.Shell.C04_tilde_violated"], "note": "False for names starting with ~ (witness); proved end to end otherwise, unless the spelling is the name of a variable."},
 {"property": "C05", "status": "partial", "theorems": ["Dsh.Shell.C05_argument_partial", "Dsh.Shell.C05_quoted_violated"], "note": "False for names with escaped characters (witness); proved end to end for the others."},
 {"property": "C06", "status": "partial", "theorems": ["Dsh.ShellPath.C06_roundtrip_partial", "Dsh.ShellPath.C06_stable_partial", "Dsh.ShellPath.C06_open_quote_violated", "Dsh.ShellPath.C06_cut"], "note": "Proved for plain and closed quote styles; false for an open quote (witness)."},
 {"property": "C07", "status": "proved", "theorems": ["Dsh.Tokens.C07_tiling", "Dsh.Tokens.C07_slice", "Dsh.Tokens.C07_caret", "Dsh.Tokens.C07_separators"], "note": ""},
 {"property": "C08", "status": "partial", "theorems": ["Dsh.Incomplete.C08_incomplete_iff", "Dsh.Incomplete.C08_close", "Dsh.Incomplete.C08_escaped_operator_violated"], "note": "Exact characterisation of the scan proved; the trailing operator is tested on the raw text, so an escaped operator also asks for more (witness)."},
 {"property": "C09", "status": "partial", "theorems": ["Dsh.Shell.Brace.C09_product_partial", "Dsh.Shell.Brace.C09_no_braces", "Dsh.Shell.Brace.C09_single_violated"], "note": "Proved for groups with two or more alternatives, any nesting; single-alternative and unbalanced braces deviate (witness)."},
 {"property": "C10", "status": "partial", "theorems": ["Dsh.Shell.C10_value_partial", "Dsh.Shell.C10_argument_partial", "Dsh.Shell.C10_injection_violated"], "note": "False for values with special characters (witness); proved for tame values in every line of the syntax."},
 {"property": "C100", "status": "proved", "theorems": ["Dsh.Rank.C100_rank"], "note": "For all candidates, scores and limits."},
 {"property": "C101", "status": "proved", "theorems": ["Dsh.Rank.C101_boost"], "note": "For all candidates and histories."},
 {"property": "C102", "status": "partial", "theorems": ["Dsh.Line.C102_moves_partial", "Dsh.Line.C102_accept_partial", "Dsh.Line.C102_word_partial", "Dsh.Line.C102_second_command", "Dsh.Line.C102_stale", "Dsh.Line.C102_violated"], "note": "Holds directly after a deletion or when the history or the only word completes the line; refuted: Ctrl-E on `ls | gre` replaces the line by `grep`, and a completion stored for an earlier text replaces a line typed on."},
 {"property": "C103", "status": "partial", "theorems": ["Dsh.Line.C103_history_partial", "Dsh.Line.C103_learned", "Dsh.Line.C103_violated"], "note": "Holds for all sequences without Right; refuted: a suggestion accepted with Right is written to the history although it is never run."},
 {"property": "C104", "status": "proved", "theorems": ["Dsh.Line.C104_chunk", "Dsh.Line.C104_words"], "note": "For all suggestions that the sources keep offering."},
 {"property": "C105", "status": "partial", "theorems": ["Dsh.Keys.C105_before_partial", "Dsh.Keys.C105_balanced_partial", "Dsh.Keys.C105_backspace_partial", "Dsh.Keys.C105_undo_partial", "Dsh.Keys.C105_violated"], "note": "Holds for all texts with balanced brackets and no quotes, and Backspace always takes back one key; refuted for every text with a quote: quotes are never typed over."},
 {"property": "C106", "status": "partial", "theorems": ["Dsh.Keys.C106_plain_partial", "Dsh.Keys.C106_query_partial", "Dsh.Keys.C106_bypass", "Dsh.Keys.C106_violated"], "note": "Lines without `|!` are evaluated as typed, and `command |! \"query\"` is split as written; refuted: `|!` inside quotes is taken, and the text before it is run by sh."},
 {"property": "C107", "status": "partial", "theorems": ["Dsh.Keys.C107_exact_partial", "Dsh.Keys.C107_ascii_partial", "Dsh.Keys.C107_two_bytes", "Dsh.Keys.C107_violated"], "note": "Exactly when byte 47 begins a character or the line is short; refuted by a line with a character of two bytes there."},
 {"property": "C108", "status": "partial", "theorems": ["Dsh.Keys.C108_ctrlC_partial", "Dsh.Keys.C108_esc_partial", "Dsh.Keys.C108_toggle_partial", "Dsh.Keys.C108_violated"], "note": "Ctrl-C for all sequences; Esc while no other key is pressed; toggling twice is the identity unless the line begins with `sudo sudo `; refuted: Esc, another key, Esc toggles sudo."},
 {"property": "C109", "status": "proved", "theorems": ["Dsh.Keys.C109_paste", "Dsh.Keys.lines_exist"], "note": "For all texts and lines."},
 {"property": "C11", "status": "partial", "theorems": ["Dsh.Eval.C11_list_partial", "Dsh.Eval.C11_line_partial", "Dsh.Eval.C11_error_violated"], "note": "List semantics for every job list whose launches do not error, and end to end from the typed line; a launch error or unknown command aborts the rest (violated)."},
 {"property": "C110", "status": "partial", "theorems": ["Dsh.Note.C110_lines_partial", "Dsh.Note.C110_comments_partial", "Dsh.Note.C110_violated", "Dsh.Note.C110_sh", "Dsh.Note.C110_two_lines"], "note": "Commands of one line are offered in order up to the first quit and comments are skipped, were the file found; refuted: its own name is taken for the file, commands with a blank are run by sh, a command of two lines is run as two."},
 {"property": "C111", "status": "partial", "theorems": ["Dsh.Timing.C111_sessions_partial", "Dsh.Timing.C111_kill_partial", "Dsh.Timing.C111_average_partial", "Dsh.Timing.C111_name_partial", "Dsh.Timing.C111_violated", "Dsh.Timing.C111_clear_violated", "Dsh.Timing.C111_writing_violated", "Dsh.Timing.C111_name_violated"], "note": "Exact for shells one after the other, at most nine lost by a kill between writes; refuted for two shells at once, for a kill while writing, for `timing --clear` (undone by the shell it was typed in), and for lines with an assignment in front."},
 {"property": "C112", "status": "partial", "theorems": ["Dsh.Paths.C112_partial", "Dsh.Paths.C112_violated", "Dsh.Paths.C112_cd_violated", "Dsh.Paths.C112_up_violated", "Dsh.Paths.C112_hidden_violated", "Dsh.Paths.C112_dot_violated"], "note": "Exact when nothing was completed in the last two seconds in a directory whose text begins this one; refuted for every `d/s/` completed after `d/`, after changing the directory, for `../`, for hidden files `a/.`, and for `./p`."},
 {"property": "C113", "status": "partial", "theorems": ["Dsh.Paths.C113_partial", "Dsh.Paths.C113_exists_partial", "Dsh.Paths.C113_violated"], "note": "Holds for words with a directory part; refuted for every word in the working directory, with and without a slash at its end."},
 {"property": "C114", "status": "partial", "theorems": ["Dsh.Wire.C114_single_partial", "Dsh.Wire.C114_pipeline_violated", "Dsh.Wire.C114_script_violated", "Dsh.Wire.C114_redirect_violated", "Dsh.Wire.C114_stderr_violated", "Dsh.Wire.C114_background_violated"], "note": "Holds for lines of single commands without redirect; refuted behind every pipeline (the next command is not run), behind `>`, `>>`, `2>`, `2>>`, in scripts, and for `a ; b &`."},
 {"property": "C115", "status": "partial", "theorems": ["Dsh.Wire.C115_redirect_partial", "Dsh.Wire.C115_append_violated"], "note": "Holds once the copying task has ended (the shell does not wait for it), except that `>>` to a file that does not exist loses the output (refuted in general)."},
 {"property": "C116", "status": "partial", "theorems": ["Dsh.CmdLine.C116_range_partial", "Dsh.CmdLine.C116_word_partial", "Dsh.CmdLine.C116_gap_partial", "Dsh.CmdLine.C116_bytes_violated", "Dsh.CmdLine.C116_operator_violated", "Dsh.Pick.C116_older_partial", "Dsh.Pick.C116_calm_partial", "Dsh.Pick.C116_older_violated", "Dsh.Pick.C116_clock_violated", "Dsh.Pick.C116_blank_violated"], "note": "The range replaced is the word at the caret, or the value in it, for every line; what is looked up is that word on plain lines; with the older sources when the caret is at the end of the word. Refuted: characters of several bytes before the caret, words glued to operators, caret inside the word with the older sources, candidates beginning with the clock (panic), names with blanks from the older sources. Not modelled: the correction with definition files (context.rs)."},
 {"property": "C117", "status": "partial", "theorems": ["Dsh.CmdLine.C117_first_partial", "Dsh.CmdLine.C117_last_partial", "Dsh.CmdLine.C117_line_violated", "Dsh.CmdLine.C117_index_violated"], "note": "Holds for the first command of the line and for its last argument; refuted for every command behind an operator and for the caret on any argument but the last (arguments that look like paths)."},
 {"property": "C118", "status": "partial", "theorems": ["Dsh.Pick.C118_arrows_partial", "Dsh.Pick.C118_chosen_partial", "Dsh.Pick.C118_reach_partial", "Dsh.Pick.C118_enter_partial", "Dsh.Pick.C118_typed_partial", "Dsh.Pick.C118_hidden_violated", "Dsh.Pick.C118_q_violated", "Dsh.Pick.C118_control_violated", "Dsh.Pick.C118_second_violated", "Dsh.Pick.C118_cancel_violated", "Dsh.Pick.C118_middle_violated", "Dsh.Pick.C118_value_violated"], "note": "Arrows, Enter, reachability of all candidates shown and typing at the end of the line are proved for all key sequences. Refuted: `q`, keys with Control, cancelling (second menu, accepted suggestion), typing with the caret in the middle or in the value of an option, candidates past the limit. The fuzzy finder is outside the model."},
 {"property": "C119", "status": "partial", "theorems": ["Dsh.Pick.C119_cell_partial", "Dsh.Pick.C119_fits_partial", "Dsh.Pick.C119_all_partial", "Dsh.Pick.C119_hundred_violated", "Dsh.Pick.C119_marked_violated"], "note": "Cells have exactly the width of the column, cells drawn end within the terminal, menus of up to four columns draw everything. Refuted for more columns (the blank of the mark is not counted): on 100 columns every seventh candidate is invisible and can be chosen. Width of a text = sum of the widths of its characters."},
 {"property": "C12", "status": "partial", "theorems": ["Dsh.Eval.C12_failure_partial", "Dsh.Eval.C12_success_violated", "Dsh.Eval.C12_mapping_violated"], "note": "A failing builtin (positive code) has a non-zero status; a succeeding builtin has status 1 in every case (violated)."},
 {"property": "C120", "status": "partial", "theorems": ["Dsh.Saved.C120_run_violated", "Dsh.Saved.C120_violated", "Dsh.Saved.C120_partial", "Dsh.Saved.C120_task_violated"], "note": "Refuted for every saved command and every task: `sh` gets the arguments `sh -c line` and reads a file named `sh`. What holds: only that program is executed, once, and the status is that of the dispatch."},
 {"property": "C121", "status": "partial", "theorems": ["Dsh.Saved.C121_add_partial", "Dsh.Saved.C121_remove_partial", "Dsh.Saved.C121_kept_partial", "Dsh.Saved.C121_edit_partial", "Dsh.Saved.C121_last_violated", "Dsh.Saved.C121_words_violated", "Dsh.Saved.C121_list_partial", "Dsh.Saved.C121_list_violated", "Dsh.Saved.C121_show_violated", "Dsh.Saved.C121_show_partial"], "note": "Adding, removing, editing and keeping hold over all sessions; listing is complete and ordered when the commands are short or ASCII. Refuted: the command saved as the last one is the oldest, quoting is lost, listing panics within a character, names like `list` cannot be shown. Databases that fail are not modelled."},
 {"property": "C122", "status": "partial", "theorems": ["Dsh.Saved.C122_inspect_violated", "Dsh.Saved.C122_agree_partial", "Dsh.Saved.C122_no_partial", "Dsh.Saved.C122_yes_partial", "Dsh.Saved.C122_words_partial", "Dsh.Saved.C122_builtin_violated", "Dsh.Saved.C122_quotes_violated", "Dsh.Saved.C122_preview_violated", "Dsh.Saved.C122_unreadable_partial"], "note": "Declining executes nothing; agreeing executes the words given, once. Refuted: inspection executes the whole command before the user sees anything, the words are joined for it, built-ins get shifted arguments, the preview can panic."},
 {"property": "C123", "status": "partial", "theorems": ["Dsh.Saved.C123_qualified_partial", "Dsh.Saved.C123_run_partial", "Dsh.Saved.C123_chosen_partial", "Dsh.Saved.C123_two_partial", "Dsh.Saved.C123_colon_violated", "Dsh.Saved.C123_list_violated", "Dsh.Saved.C123_broken_violated", "Dsh.Saved.C123_blank_violated", "Dsh.Saved.C123_make_violated", "Dsh.Saved.C123_taskfile_violated", "Dsh.Saved.C123_taskfile_partial"], "note": "`source:name` reaches exactly the task detected, for every project; simple Taskfiles are read exactly. Refuted: names beginning with a source, tasks named list or help, one unreadable file hides all, names with blanks, make targets with prerequisites, keys and command lines of a Taskfile taken for tasks. JSON, TOML, make and just are parameters."},
 {"property": "C124", "status": "partial", "theorems": ["Dsh.Shell.C124_line_partial", "Dsh.Alias.C124_use_partial", "Dsh.Alias.C124_set_partial", "Dsh.Alias.C124_quoted_partial", "Dsh.Alias.C124_show_partial", "Dsh.Alias.C124_refused_partial", "Dsh.Alias.C124_list_partial", "Dsh.Alias.C124_remove_violated", "Dsh.Alias.C124_typed_violated", "Dsh.Alias.C124_quotes_violated", "Dsh.Alias.C124_once_violated"], "note": "Proved for every line of the syntax (pipelines, lists, redirects, `&`) and every alias that is one simple command without variables: the line runs with the words of the alias in place of the name. Defining, showing, listing and refusing hold over all sessions. Refuted: the usual spelling `alias ll='ls -l'` is refused, outer quotes are lost, variables, `~` and aliases inside an alias stay as they are, and an alias cannot be removed. Aliases that are pipelines or lists are not covered by the general theorem."},
 {"property": "C125", "status": "partial", "theorems": ["Dsh.Abbr.C125_space_partial", "Dsh.Abbr.C125_gap_partial", "Dsh.Abbr.C125_enter_partial", "Dsh.Abbr.C125_enter_lines_partial", "Dsh.Abbr.C125_total_partial", "Dsh.Abbr.C125_add_partial", "Dsh.Abbr.C125_erase_partial", "Dsh.Abbr.C125_kept_partial", "Dsh.Abbr.C125_list_partial", "Dsh.Abbr.C125_never_violated", "Dsh.Abbr.C125_position_violated", "Dsh.Abbr.C125_middle_violated", "Dsh.Abbr.C125_incomplete_violated", "Dsh.Abbr.C125_show_violated"], "note": "Proved over the editor model: exactly the word left of the caret is replaced, for every line, caret and table, on the blank and on Enter (also after continued lines), without panics; the table over all sessions. Refuted: arguments and quoted text are expanded too, a caret within a word expands its left part, names with `| & ; ( )` are accepted but never expanded, completeness is asked before the expansion, the form shown is refused."},
 {"property": "C126", "status": "partial", "theorems": ["Dsh.Defs.C126_sub_partial", "Dsh.Defs.C126_option_partial", "Dsh.Defs.C126_value_partial", "Dsh.Defs.C126_inline_partial", "Dsh.Defs.C126_wrapper_partial", "Dsh.Defs.C126_exact_violated", "Dsh.Defs.C126_exact_case_violated", "Dsh.Defs.C126_option_exact_violated", "Dsh.Defs.C126_dash_violated", "Dsh.Defs.C126_range_violated", "Dsh.Defs.C126_wrapper_violated", "Dsh.Defs.C126_argument_violated"], "note": "Proved from the typed text to the candidates: subcommands behind any chain of subcommands, options of command and last subcommand, values of options as the next word and behind `=`, and a command behind a wrapper. Refuted: a subcommand or option typed in full, long options with one dash, the range replaced behind `=`, wrapped commands whose names look like files or whose options carry `=`, the argument index in the gap behind a command with subcommands. Sources that run programs, ranking and lazy loading are not modelled."},
 {"property": "C127", "status": "partial", "theorems": ["Dsh.Record.C127_single_partial", "Dsh.Record.C127_out_partial", "Dsh.Record.C127_pipeline_violated", "Dsh.Record.C127_input_violated"], "note": "Proved for one program or builtin, in a terminal and in a script, up to the size an entry may have. Refuted: every pipeline of two or more stages that ends with a program (the last one is not run), and a command with an input file."},
 {"property": "C128", "status": "partial", "theorems": ["Dsh.Record.C128_out_partial", "Dsh.Record.C128_newline_violated", "Dsh.Record.C128_stderr_violated", "Dsh.Record.C128_silent_violated", "Dsh.Record.C128_nopty_violated"], "note": "Proved for pipelines of programs in a terminal whose output has no newline and no escape sequence and that write no errors. Refuted: newlines, error output, silent commands, no pty."},
 {"property": "C129", "status": "partial", "theorems": ["Dsh.Record.C129_wired_partial", "Dsh.Record.C129_pipe_violated", "Dsh.Eval.C129_line_partial"], "note": "Proved: the meaning of the line, and that the pipe is there. Refuted: the text of the last output goes to the terminal, and the programs behind the bar read nothing."},
 {"property": "C13", "status": "partial", "theorems": ["Dsh.Eval.C13_stopped_partial", "Dsh.Eval.C13_capture_violated", "Dsh.Jobs.C13_pipeline_violated"], "note": "A stopped job ends the list for plain launches; capture jobs and pipelines are violated."},
 {"property": "C130", "status": "partial", "theorems": ["Dsh.Record.C130_show_partial", "Dsh.Record.C130_list_partial", "Dsh.Record.C130_ten_violated", "Dsh.Record.C130_panic_violated", "Dsh.Record.C130_clear_violated", "Dsh.Record.C130_redirect_violated", "Dsh.Record.C130_pipe_violated"], "note": "Proved: the output shown for a number, and the list of up to ten outputs with short first lines. Refuted: more than ten outputs, panic for a long first line cut inside a character, --clear, redirects and pipes."},
 {"property": "C131", "status": "partial", "theorems": ["Dsh.Jump.C131_jump_partial", "Dsh.Jump.C131_aliases_partial", "Dsh.Jump.C131_relative_violated", "Dsh.Jump.C131_names_violated", "Dsh.Jump.C131_list_violated", "Dsh.Jump.C131_status_violated"], "note": "Proved over all sequences of commands for names that are not subcommands or options; refuted: relative paths, names of subcommands and options, -l and -i with an alias, status of failures."},
 {"property": "C132", "status": "partial", "theorems": ["Dsh.Jump.C132_best_partial", "Dsh.Jump.C132_list_partial", "Dsh.Jump.C132_back_partial", "Dsh.Jump.C132_gone_violated", "Dsh.Jump.C132_here_violated", "Dsh.Jump.C132_words_violated", "Dsh.Jump.C132_status_violated"], "note": "Proved for any matcher, without NaN frecencies and with the clock standing still during a command; refuted: best match gone, best match is the current directory, several words (given a matcher that wants each character of the pattern), status of -l and -i."},
 {"property": "C133", "status": "partial", "theorems": ["Dsh.Tbl.C133_round_partial", "Dsh.Tbl.C133_table_partial", "Dsh.Tbl.C133_empty_violated", "Dsh.Tbl.C133_big_violated", "Dsh.Tbl.C133_value_violated", "Dsh.Tbl.C133_order_violated"], "note": "Proved for all arrays of objects (and single objects) without empty arrays and integers from 2^63 on, nested to any depth, with the rows, cells and names of the table. Refuted: empty arrays become null, large integers change, other arrays become objects, columns are sorted."},
 {"property": "C134", "status": "partial", "theorems": ["Dsh.Tbl.C134_cells_partial", "Dsh.Tbl.C134_round_partial", "Dsh.Tbl.C134_json_partial", "Dsh.Tbl.C134_zero_violated", "Dsh.Tbl.C134_float_violated", "Dsh.Tbl.C134_header_violated", "Dsh.Tbl.C134_nan_violated"], "note": "Proved cell by cell for different names, as identity for texts that are no numbers and plain integers, and for JSON to CSV. Reading and writing of floats are parameters. Refuted: zeros in front, other spellings of floats, repeated names, words like nan."},
 {"property": "C135", "status": "partial", "theorems": ["Dsh.Tbl.C135_cmp_partial", "Dsh.Tbl.C135_text_partial", "Dsh.Tbl.C135_select_partial", "Dsh.Tbl.C135_float_violated", "Dsh.Tbl.C135_operator_violated", "Dsh.Tbl.C135_digits_violated", "Dsh.Tbl.C135_whole_violated"], "note": "Proved for columns of integers and of texts, and for columns and ends of any table. Refuted: floats, unknown operators, digits as text in CSV, whole floats."},
 {"property": "C136", "status": "partial", "theorems": ["Dsh.Tbl.C136_sorted_partial", "Dsh.Tbl.C136_stable_partial", "Dsh.Tbl.C136_missing_violated", "Dsh.Tbl.C136_mixed_violated", "Dsh.Tbl.C136_desc_violated"], "note": "Proved for columns of one kind with or without missing cells; stability for all tables. Refuted: missing cells in descending order, integers mixed with floats, and `:desc` as documented (with the evaluator of the model)."},
 {"property": "C137", "status": "partial", "theorems": ["Dsh.HistCmd.C137_shown_partial", "Dsh.HistCmd.C137_value_violated", "Dsh.HistCmd.C137_words_violated", "Dsh.HistCmd.C137_unknown_violated", "Dsh.HistCmd.C137_forgotten_violated", "Dsh.HistCmd.C137_again_violated"], "note": "Proved for the documented options, each at most once, in any order, with a search text. Refuted: misspelled values drop the filter, further words are ignored, unknown options are searched as text, a missing value is ignored and -n 0 is 1, a command run again loses its earlier outcome."},
 {"property": "C138", "status": "partial", "theorems": ["Dsh.Trig.C138_only_partial", "Dsh.Trig.C138_recent_partial", "Dsh.Trig.C138_order_partial", "Dsh.Trig.C138_soon_violated", "Dsh.Trig.C138_forever_violated", "Dsh.Trig.C138_access_violated", "Dsh.Trig.C138_dot_violated", "Dsh.Trig.C138_quotes_violated"], "note": "Proved for all reports and durations: runs only for matching paths, not overlapping, half a second apart, in order, recorded; a run not older than half a second for every report. Refuted: a change soon after a finished run is never answered, a command that touches such files runs for ever, opened files count, patterns with ./ never match, quoted words fall apart."},
 {"property": "C139", "status": "partial", "theorems": ["Dsh.Prm.C139_home_partial", "Dsh.Prm.C139_homeless_partial", "Dsh.Prm.C139_repo_partial", "Dsh.Prm.C139_sibling_violated", "Dsh.Prm.C139_inside_violated", "Dsh.Prm.C139_slash_violated", "Dsh.Prm.C139_top_violated"], "note": "Proved outside repositories where the home path occurs only at the beginning as whole names, without a home directory, and in repositories. Refuted: siblings of the home directory whose name begins like it, the home path further inside, a home directory /, a repository at /."},
 {"property": "C14", "status": "proved", "theorems": ["Dsh.Jobs.C14_last_stage", "Dsh.Jobs.C14_order", "Dsh.Jobs.C14_wait"], "note": "For every chain and schedule the recorded job status is the last news about the last stage, independent of the order of ends. That the wait may return before the last stage ended is C15."},
 {"property": "C140", "status": "partial", "theorems": ["Dsh.Prm.C140_counts_partial", "Dsh.Prm.C140_text_partial", "Dsh.Prm.C140_clean_partial", "Dsh.Prm.C140_hidden_violated", "Dsh.Prm.C140_utf8_violated", "Dsh.Prm.C140_diverged_violated"], "note": "Proved: counts for every report, the text, and clean trees for the usual letters. Refuted: type changes and intent to add are not shown, a file name that is not UTF-8 ends the reading, the numbers of diverged branches are not shown."},
 {"property": "C141", "status": "partial", "theorems": ["Dsh.Prm.C141_settled_partial", "Dsh.Prm.C141_single_partial", "Dsh.Prm.C141_late_violated", "Dsh.Prm.C141_return_violated", "Dsh.Prm.C141_nested_violated", "Dsh.Prm.C141_init_violated", "Dsh.Prm.C141_race_violated", "Dsh.Prm.C141_quick_violated", "Dsh.Prm.C141_detached_violated"], "note": "Proved for a disk that does not change, without nested repositories, with looks undisturbed by changes of directory; and that one look happens at a time. Refuted: one command late, return to a known repository, nested repositories, git init, a change of directory during the search, quick commands, detached heads."},
 {"property": "C142", "status": "partial", "theorems": ["Dsh.Prm.C142_said_partial", "Dsh.Prm.C142_stable_partial", "Dsh.Prm.C142_backoff_partial", "Dsh.Prm.C142_parts_partial", "Dsh.Prm.C142_sticky_violated", "Dsh.Prm.C142_profile_violated", "Dsh.Prm.C142_blank_violated", "Dsh.Prm.C142_pile_violated", "Dsh.Prm.C142_moved_violated"], "note": "Proved: what is shown was answered, stable answers are shown, delays after failures, different contexts look different. Refuted: contexts and profiles never change once shown, a blank profile, a program started again at each interval while it is slow, versions of the directory before."},
 {"property": "C143", "status": "partial", "theorems": ["Dsh.Pal.C143_list_partial", "Dsh.Pal.C143_choice_partial", "Dsh.Pal.C143_continue_partial", "Dsh.Pal.C143_history_violated", "Dsh.Pal.C143_escape_violated", "Dsh.Pal.C143_ends_violated"], "note": "Proved: the list, the choice, and that actions that succeed leave the loop as it was. Refuted: the name Search History, Esc (the item under the caret runs), a failing action ends the shell."},
 {"property": "C144", "status": "partial", "theorems": ["Dsh.Pal.C144_kill_partial", "Dsh.Pal.C144_port_partial", "Dsh.Pal.C144_stash_partial", "Dsh.Pal.C144_docker_partial", "Dsh.Pal.C144_push_partial", "Dsh.Pal.C144_whole_partial", "Dsh.Pal.C144_hosts_partial", "Dsh.Pal.C144_ss_violated", "Dsh.Pal.C144_several_violated", "Dsh.Pal.C144_escape_violated", "Dsh.Pal.C144_dates_violated", "Dsh.Pal.C144_exec_violated", "Dsh.Pal.C144_diff_violated", "Dsh.Pal.C144_editor_violated", "Dsh.Pal.C144_hosts_violated", "Dsh.Pal.C144_jump_violated"], "note": "Proved for the usual formats: processes, ports (lsof), stashes, containers, push and pull, names as whole words, hosts. Refuted: several processes, Esc, ss, dates in stash lists, a shell in a container, diffs below the top, editors with options, hosts with patterns or tabs, jumps."},
 {"property": "C145", "status": "partial", "theorems": ["Dsh.Ttl.C145_safe_partial", "Dsh.Ttl.C145_names_partial", "Dsh.Ttl.C145_fg_violated"], "note": "Proved for every job: size, no control characters, visible, exactly the title reaches the terminal, reset; the name for names that fit. Refuted: a program brought back with fg runs under the title fg."},
 {"property": "C146", "status": "partial", "theorems": ["Dsh.Ttl.C146_plain_partial", "Dsh.Ttl.C146_encoded_violated", "Dsh.Ttl.C146_injection_violated"], "note": "Proved for names without control characters and without % ? #. Refuted: these are not encoded, and control characters give the terminal other commands."},
 {"property": "C147", "status": "partial", "theorems": ["Dsh.Ttl.C147_marks_partial", "Dsh.Ttl.C147_prompt_partial", "Dsh.Ttl.C147_enter_partial", "Dsh.Ttl.C147_keep_partial", "Dsh.Ttl.C147_interrupt_violated", "Dsh.Ttl.C147_background_violated", "Dsh.Ttl.C147_ai_violated"], "note": "Proved over all sessions: marks around commands, marks of prompts, Enter runs all lines, the prompt unless Ctrl+C or an AI pipe without answer comes while lines are kept. Refuted: Ctrl+C leaves the continuation prompt, Alt+Enter runs the last line alone, AI pipes are not marked."},
 {"property": "C148", "status": "partial", "theorems": ["Dsh.EnvCmd.C148_line_partial", "Dsh.EnvCmd.C148_lines_violated", "Dsh.EnvCmd.C148_noname_violated", "Dsh.EnvCmd.C148_export_violated"], "note": "Proved: one line is stored whole, all else stays, bad input changes nothing. Refuted: several lines are all read, no name ends the shell, what was read cannot be exported."},
 {"property": "C149", "status": "partial", "theorems": ["Dsh.EnvCmd.C149_others_partial", "Dsh.EnvCmd.C149_read_violated", "Dsh.EnvCmd.C149_write_violated"], "note": "Proved for builtins other than read and for writes that succeed. Refuted: read closes the input of the shell and what was opened for it twice; a failed write closes the output."},
 {"property": "C15", "status": "partial", "theorems": ["Dsh.Jobs.C15_return_partial", "Dsh.Jobs.C15_no_hang", "Dsh.Jobs.C15_middle_violated"], "note": "No hang proved; no early return except after a middle stage succeeded (violated for three stages)."},
 {"property": "C150", "status": "partial", "theorems": ["Dsh.EnvCmd.C150_set_partial", "Dsh.EnvCmd.C150_listing_partial", "Dsh.EnvCmd.C150_set_violated", "Dsh.EnvCmd.C150_listing_violated", "Dsh.EnvCmd.C150_sysvars_violated"], "note": "Proved: names and values that do not look like options, flags in any place, --, help; listings of values without special characters read back exactly. Refuted: values with a dash, silent successes, values with quotes or dollars, variables set with set -x are not listed."},
 {"property": "C151", "status": "partial", "theorems": ["Dsh.Ign.C151_top_partial", "Dsh.Ign.C151_ls_partial", "Dsh.Ign.C151_search_partial", "Dsh.Ign.C151_search_violated", "Dsh.Ign.C151_other_violated", "Dsh.Ign.C151_bad_violated", "Dsh.Ign.C151_kept_violated"], "note": "Proved: with the shell at the top and a single good ignore file on the way, read_file and edit refuse exactly what git ignores; ls shows exactly what is not refused; a search started at a place that is not ignored looks at no ignored file. Refuted: search started at an ignored file or directory, ignore files of other directories and the lists of the user, one bad line, files brought back by a deeper ignore file."},
 {"property": "C152", "status": "partial", "theorems": ["Dsh.Ign.C152_answer_partial", "Dsh.Ign.C152_cut_partial", "Dsh.Ign.C152_args_partial", "Dsh.Ign.C152_count_violated"], "note": "Proved: unchanged if it fits, longest beginning otherwise, cut answers are longer than the limit and whole ones are not. Refuted: the notice speaks of characters and counts bytes."},
 {"property": "C153", "status": "proved", "theorems": ["Dsh.Paint.C153_drawn"], "note": "For every sequence of edits and redraws: the characters written are those of the line and nothing panics."},
 {"property": "C154", "status": "partial", "theorems": ["Dsh.Paint.C154_meaning_partial", "Dsh.Paint.C154_name_partial", "Dsh.Paint.C154_plain_partial", "Dsh.Paint.C154_error_violated", "Dsh.Paint.C154_escaped_violated", "Dsh.Paint.C154_delete_violated", "Dsh.Paint.C154_stale_violated"], "note": "Proved: every range is justified by its text and every character is written in the colour of its range; a name alone on the line is drawn known or unknown over its whole length. Refuted: no line is ever marked as wrong although a part may be unread; names with a backslash are looked up as typed; deleting keys draw the line without colours; an unchanged line keeps old colours."},
 {"property": "C155", "status": "partial", "theorems": ["Dsh.Git.C155_staged_partial", "Dsh.Git.C155_below_violated", "Dsh.Git.C155_written_violated", "Dsh.Git.C155_option_violated", "Dsh.Git.C155_abort_violated"], "note": "Proved: from the top directory, for names git writes plainly, exactly the chosen files are staged. Refuted: in a subdirectory other files or none; quoted and renamed names never; names like options; breaking off is ignored."},
 {"property": "C156", "status": "partial", "theorems": ["Dsh.Git.C156_branch_partial", "Dsh.Git.C156_remote_partial", "Dsh.Git.C156_abort_partial", "Dsh.Git.C156_shadow_violated", "Dsh.Git.C156_lost_violated", "Dsh.Git.C156_slash_violated", "Dsh.Git.C156_named_violated"], "note": "Proved: local branches, and remote branches with one remote and no local branch of the name; breaking off. Refuted: a remote branch with a local one of its name, with two remotes, remotes with a slash, a local branch named like a remote one."},
 {"property": "C157", "status": "partial", "theorems": ["Dsh.Git.C157_options_partial", "Dsh.Git.C157_listed_partial", "Dsh.Git.C157_remove_partial", "Dsh.Git.C157_add_partial", "Dsh.Git.C157_apart_partial", "Dsh.Git.C157_bare_violated", "Dsh.Git.C157_asked_violated", "Dsh.Git.C157_named_violated", "Dsh.Git.C157_same_violated"], "note": "Proved: the meaning of all options; the list of work trees; removal of the chosen one among several; the directory of a new one. Refuted: in a bare repository the first is not offered; a single one is removed unasked; the name behind -r is ignored; two branches may share a directory."},
 {"property": "C158", "status": "partial", "theorems": ["Dsh.Git.C158_commit_partial", "Dsh.Git.C158_hash_partial", "Dsh.Git.C158_asked_partial", "Dsh.Git.C158_short_violated"], "note": "Proved: for hashes of seven digits or more, with any drawing and colours; only hashes are checked out, only after yes. Refuted: shorter hashes, where a number in the subject is taken."},
 {"property": "C159", "status": "partial", "theorems": ["Dsh.Procs.C159_table_partial", "Dsh.Procs.C159_signal_partial", "Dsh.Procs.C159_reach_partial", "Dsh.Procs.C159_row_violated", "Dsh.Procs.C159_control_violated"], "note": "Proved for every run: the tables shown, the target of each signal, that all rows can be reached. Refuted: after a report the highlight is on another process; Ctrl-X signals, Ctrl-C does not leave."},
 {"property": "C16", "status": "partial", "theorems": ["Dsh.Jobs.C16_single_partial", "Dsh.Jobs.C16_nothing_lost_partial", "Dsh.Jobs.C16_pipeline_violated", "Dsh.Jobs.C16_builtin_violated"], "note": "Exact for tables of single-command jobs, nothing lost or doubled for all tables; violated for pipelines and background builtins."},
 {"property": "C160", "status": "partial", "theorems": ["Dsh.Explain.C160_long_partial", "Dsh.Explain.C160_short_partial", "Dsh.Explain.C160_sound_partial", "Dsh.Explain.C160_end_violated", "Dsh.Explain.C160_value_violated", "Dsh.Explain.C160_pipe_violated", "Dsh.Explain.C160_operand_violated", "Dsh.Explain.C160_alias_violated", "Dsh.Explain.C160_described_violated", "Dsh.Explain.C160_bytes_violated"], "note": "Proved: for every line what is shown describes an option named in the word at the caret; for lines of plain ASCII words, long options and letters are explained, innermost subcommand first. Refuted: behind the last letter; inside a value; behind a pipe or `--`; second names of subcommands; options without description; characters of several bytes."},
 {"property": "C161", "status": "partial", "theorems": ["Dsh.Explain.C161_drawn_partial", "Dsh.Explain.C161_again_partial", "Dsh.Explain.C161_below_partial", "Dsh.Explain.C161_bottom_violated", "Dsh.Explain.C161_rows_violated", "Dsh.Explain.C161_gone_violated"], "note": "Proved: a drawn line is on the screen, drawn again it takes its place, and with a free row below the explanation is written there alone. Refuted: on the last row it replaces the line; below a caret that is not on the last row of the line it replaces the next row; it vanishes with the next redraw."},
 {"property": "C162", "status": "partial", "theorems": ["Dsh.Live.C162_source_partial", "Dsh.Live.C162_repo_partial", "Dsh.Live.C162_fresh_partial", "Dsh.Live.C162_second_partial", "Dsh.Live.C162_lines_partial", "Dsh.Live.C162_worktrees_partial", "Dsh.Live.C162_question_partial", "Dsh.Live.C162_first_violated", "Dsh.Live.C162_stale_violated", "Dsh.Live.C162_old_violated", "Dsh.Live.C162_lost_violated", "Dsh.Live.C162_slow_violated", "Dsh.Live.C162_remote_violated", "Dsh.Live.C162_flag_violated", "Dsh.Live.C162_unlisted_violated", "Dsh.Live.C162_context_violated"], "note": "Proved for every history: values come from an answer of the right program for the right repository; asked once and answered in time the next press offers exactly the present list; lists are read as printed. Refuted: the first press offers nothing; old values are offered after any time; a failure forgets the values; a program that always needs more than 1.5 s is never heard; remotes with unusual names and `-u origin` mislead the branch; subcommands not in the definition; `--context` does not matter for namespaces."},
 {"property": "C163", "status": "partial", "theorems": ["Dsh.Sources.C163_names_partial", "Dsh.Sources.C163_once_partial", "Dsh.Sources.C163_file_partial", "Dsh.Sources.C163_fresh_partial", "Dsh.Sources.C163_heading_violated", "Dsh.Sources.C163_inline_violated", "Dsh.Sources.C163_nested_violated", "Dsh.Sources.C163_quoted_violated", "Dsh.Sources.C163_stale_violated"], "note": "Proved: files in block style give exactly their services; the innermost file is read; no name twice; a change of time or length is seen. Refuted: `services:` with a comment or in braces gives nothing; a comment behind the first name makes its keys services; a nested `services:`; quotes are kept; a change that keeps time and length is never seen."},
 {"property": "C164", "status": "partial", "theorems": ["Dsh.Sources.C164_fresh_partial", "Dsh.Sources.C164_run_partial", "Dsh.Sources.C164_unwatched_violated", "Dsh.Sources.C164_twice_violated"], "note": "Proved: the tasks of the project as long as the watched files tell its states apart; a name of one task without colon is run. Refuted: changes of files that are not watched are never seen; a name of two sources is offered twice and cannot be run."},
 {"property": "C165", "status": "partial", "theorems": ["Dsh.Sources.C165_script_partial", "Dsh.Sources.C165_harmless_partial", "Dsh.Sources.C165_output_partial", "Dsh.Sources.C165_run_violated", "Dsh.Sources.C165_eleventh_violated"], "note": "Proved: with words free of `$` the script is the template with its mentions filled in; with words of harmless letters `sh` gets the same operators, quotes and expansions whatever is typed; printed values are offered. Refuted: any word behind `kubectl get` is put into the script as it is, so Tab runs commands in backquotes; `$ARG_10`."},
 {"property": "C166", "status": "partial", "theorems": ["Dsh.Sources.C166_output_partial", "Dsh.Sources.C166_time_partial", "Dsh.Sources.C166_alone_violated", "Dsh.Sources.C166_held_violated"], "note": "Proved: what is printed is offered; if no other process holds the output the shell goes on within the limit. Refuted: as long as a process left behind holds the output Tab waits, for ever if it is never closed; a line with a description alone is offered as a value."},
 {"property": "C167", "status": "partial", "theorems": ["Dsh.Chat.C167_request_partial", "Dsh.Chat.C167_chain_partial", "Dsh.Chat.C167_calls_partial", "Dsh.Chat.C167_results_partial", "Dsh.Chat.C167_hundred_partial", "Dsh.Chat.C167_ends_partial", "Dsh.Chat.C167_forever_violated", "Dsh.Chat.C167_orphan_violated"], "note": "Proved for every service and all tools: requests are complete, what is left out was summed up and summaries pass on the earlier ones; every call is run once in order and its result told; at most 100 requests; with short messages the conversation ends. Refuted: one message of more than 96000 characters makes summaries for ever; results are sent without the message that asked for them."},
 {"property": "C168", "status": "partial", "theorems": ["Dsh.Chat.C168_press_partial", "Dsh.Chat.C168_tool_partial", "Dsh.Chat.C168_summary_violated", "Dsh.Chat.C168_tools_violated", "Dsh.Chat.C168_earlier_violated"], "note": "Proved: a press while the service is waited for ends the conversation at once; one during a tool ends it with the next request if no summary comes between. Refuted: during a summary the press ends the summary alone; during a tool all other calls of the message are still run; an earlier mark ends the next conversation."},
 {"property": "C169", "status": "partial", "theorems": ["Dsh.Chat.C169_answer_partial", "Dsh.Chat.C169_once_partial", "Dsh.Chat.C169_empty_violated"], "note": "Proved: the answer given back is the text of the last message, which asks for no tool; a first answer is given at once. Refuted: an empty list of tools makes the same question go out 100 times and the answer is lost."},
 {"property": "C17", "status": "partial", "theorems": ["Dsh.Jobs.C17_status_partial", "Dsh.Jobs.C17_shown_partial", "Dsh.Jobs.C17_status_lost_violated"], "note": "Status shown is the real one, and shown at the next check, unless a foreground wait reaps the process (violated)."},
 {"property": "C170", "status": "partial", "theorems": ["Dsh.Setup.C170_https_partial", "Dsh.Setup.C170_address_partial", "Dsh.Setup.C170_key_partial", "Dsh.Setup.C170_model_partial", "Dsh.Setup.C170_elsewhere_violated", "Dsh.Setup.C170_allowed_violated", "Dsh.Setup.C170_empty_violated", "Dsh.Setup.C170_blank_violated"], "note": "Proved: without permission every request goes to an https address; an https address set is used; key and model are the first set. Refuted: any other address is silently replaced by api.openai.com, key and conversation included; the permission is not heard as a shell variable; an empty key or model hides the others."},
 {"property": "C171", "status": "partial", "theorems": ["Dsh.Setup.C171_list_partial", "Dsh.Setup.C171_fresh_partial", "Dsh.Setup.C171_saved_partial", "Dsh.Setup.C171_description_partial", "Dsh.Setup.C171_text_partial", "Dsh.Setup.C171_path_partial", "Dsh.Setup.C171_stale_violated", "Dsh.Setup.C171_path_violated", "Dsh.Setup.C171_block_violated"], "note": "Proved: the list read has exactly the skills, sorted; it is the present one if count and newest time tell the states apart, so after a skill was saved; descriptions on one line and first lines of texts are told; the file named is there for directories. Refuted: replaced files; descriptions over several lines; the file named for a skill `name.md`."},
 {"property": "C172", "status": "partial", "theorems": ["Dsh.Md.C172_text_partial", "Dsh.Md.C172_fallback_partial", "Dsh.Md.C172_image_violated", "Dsh.Md.C172_footnote_violated"], "note": "Proved for all event sequences: what is written from the answer is all its texts in order with the addresses of links; texts that cannot be formatted are shown as they are. Refuted: addresses of images and labels of footnotes are not shown."},
 {"property": "C173", "status": "partial", "theorems": ["Dsh.Md.C173_paragraphs_partial", "Dsh.Md.C173_numbers_partial", "Dsh.Md.C173_quote_partial", "Dsh.Md.C173_behind_partial", "Dsh.Md.C173_apart_violated", "Dsh.Md.C173_bullet_violated", "Dsh.Md.C173_quote_violated", "Dsh.Md.C173_code_violated", "Dsh.Md.C173_table_violated"], "note": "Proved: paragraphs; numbers of items whatever the items contain; bars of quotes behind a paragraph; a paragraph is plain whatever is in front of it. Refuted: empty lines in and before short lists; bullets alone on a line; no bar for a quote at the beginning; blanks and a line more in code; cells of tables one below the other."},
 {"property": "C174", "status": "partial", "theorems": ["Dsh.Md.C174_plain_partial", "Dsh.Md.C174_raw_violated"], "note": "Proved: without ESC in the texts every sequence is complete and the terminal is plain at the end of each line and of the answer. Refuted: sequences of the answer are written raw."},
 {"property": "C175", "status": "partial", "theorems": ["Dsh.Mcp.C175_called_partial", "Dsh.Mcp.C175_told_partial", "Dsh.Mcp.C175_names_partial", "Dsh.Mcp.C175_stay_partial", "Dsh.Mcp.C175_others_partial", "Dsh.Mcp.C175_unknown_violated", "Dsh.Mcp.C175_moved_violated", "Dsh.Mcp.C175_long_violated"], "note": "Proved for every manager that can be reached: names differ and are allowed, each tool is told of with its server, and a call goes to the tool told of; names keep their meaning when other servers change and when the configuration is read again with the server unchanged. Refuted: a call of an unknown name is reported as executed; a name can go to another server after reading the configuration again; names have no greatest length."},
 {"property": "C176", "status": "partial", "theorems": ["Dsh.Mcp.C176_reload_partial", "Dsh.Mcp.C176_new_partial", "Dsh.Mcp.C176_gone_partial", "Dsh.Mcp.C176_load_partial", "Dsh.Mcp.C176_only_partial", "Dsh.Mcp.C176_stale_violated", "Dsh.Mcp.C176_old_violated", "Dsh.Mcp.C176_elsewhere_violated", "Dsh.Mcp.C176_clear_violated", "Dsh.Mcp.C176_again_violated", "Dsh.Mcp.C176_pages_violated", "Dsh.Mcp.C176_cache_violated"], "note": "Proved: if all servers answer, the servers after reading the configuration are those set; new servers get the tools they have now; servers not set are gone; loading with an empty memory. Refuted: unchanged servers are not asked again; changed servers that do not answer stay as they were, calls included; clearing keeps the tools; adding a label again changes nothing; further pages are not asked for; remembered tools are used for as long as the configuration is the same."},
 {"property": "C177", "status": "partial", "theorems": ["Dsh.Mcp.C177_connected_partial", "Dsh.Mcp.C177_error_partial", "Dsh.Mcp.C177_disconnect_partial", "Dsh.Mcp.C177_clip_partial", "Dsh.Mcp.C177_failed_violated", "Dsh.Mcp.C177_off_violated", "Dsh.Mcp.C177_nobody_violated", "Dsh.Mcp.C177_exit_violated", "Dsh.Mcp.C177_quote_violated", "Dsh.Mcp.C177_code_violated", "Dsh.Mcp.C177_panic_violated"], "note": "Proved: states after connecting and disconnecting; texts of ASCII characters in the list. Refuted: a failed connection leaves the server connected; a disconnected server is used as before; unknown labels can be disconnected; connecting always succeeds; labels with quotes are not passed on or run as code; the list of tools panics for labels of 31 or 32 letters."},
 {"property": "C178", "status": "partial", "theorems": ["Dsh.CompGen.C178_accepted_partial", "Dsh.CompGen.C178_used_partial", "Dsh.CompGen.C178_refused_partial", "Dsh.CompGen.C178_sound_partial", "Dsh.CompGen.C178_file_violated", "Dsh.CompGen.C178_type_violated", "Dsh.CompGen.C178_flag_violated", "Dsh.CompGen.C178_lost_violated"], "note": "Proved: each proper definition, at any depth, is accepted, saved and used by the next Tab as written, if the command has none yet; a failing comp-gen changes nothing, a succeeding one saves a definition for that command only; all names and flags ever offered are names and flags. Refuted: files as the AI is told to write them, unknown types and flags without dashes are accepted and make the definition useless; a working definition is overwritten by one that cannot be read."},
 {"property": "C179", "status": "partial", "theorems": ["Dsh.CompGen.C179_checked_partial", "Dsh.CompGen.C179_builtin_partial", "Dsh.CompGen.C179_script_violated", "Dsh.CompGen.C179_here_violated"], "note": "Proved: no script in arguments or types of values of an accepted definition, at any depth; commands that are built in take nothing from a directory. Refuted: a script as type of the argument of an option is accepted and used; definitions in the current directory are used, scripts included."},
 {"property": "C18", "status": "partial", "theorems": ["Dsh.Jobs.C18_spec", "Dsh.Jobs.C18_blank_spec", "Dsh.Jobs.C18_number", "Dsh.Jobs.C18_unique_partial", "Dsh.Jobs.C18_duplicate_violated"], "note": "Spec decision logic proved for all specs and tables; numbers are unique unless bg moves an older job (violated)."},
 {"property": "C180", "status": "partial", "theorems": ["Dsh.CompGen.C180_named_partial", "Dsh.CompGen.C180_later_partial", "Dsh.CompGen.C180_own_violated", "Dsh.CompGen.C180_old_violated", "Dsh.CompGen.C180_other_violated"], "note": "Proved over every sequence of Tabs: the definition used names the command and comes from a file there was; a missing definition is looked for again. Refuted: a definition of the user does not replace one built in; changes are not seen until the shell ends; a file can replace the definition of another command."},
 {"property": "C181", "status": "partial", "theorems": ["Dsh.AiSug.C181_answered_partial", "Dsh.AiSug.C181_forced_partial", "Dsh.AiSug.C181_verbatim_partial", "Dsh.AiSug.C181_shown_partial", "Dsh.AiSug.C181_empty_violated", "Dsh.AiSug.C181_elsewhere_violated", "Dsh.AiSug.C181_quote_violated", "Dsh.AiSug.C181_blank_violated", "Dsh.AiSug.C181_block_violated"], "note": "Proved over every history of events: each suggestion of the AI is the line and something more, stands on one line in an answer given at most ten seconds ago (eight for Alt-s) and begins with the line that was asked; plain answers are taken as they are and shown by the next refresh. Refuted: answers for another line are offered on the empty line; answers for another directory are shown; closing quotes are cut off; a line that begins with a blank never gets an answer; the first line of a block is thrown away."},
 {"property": "C182", "status": "partial", "theorems": ["Dsh.AiSug.C182_mark_partial", "Dsh.AiSug.C182_next_partial", "Dsh.AiSug.C182_line_partial", "Dsh.AiSug.C182_again_violated", "Dsh.AiSug.C182_same_violated", "Dsh.AiSug.C182_twice_violated", "Dsh.AiSug.C182_ahead_violated"], "note": "Proved over every interleaving: the mark is shown exactly while a request waits or is asked; a request that waits is the newest and the next to be asked; the request is for the line as it is with the directory, files and status of now. Refuted: the same line is sent again and again while nobody types, also after the answer that is to stop it; a tick while an answer is awaited sends the line twice; nothing is asked ahead when the directory changes."},
 {"property": "C183", "status": "partial", "theorems": ["Dsh.AiSug.C183_only_partial", "Dsh.AiSug.C183_unset_partial", "Dsh.AiSug.C183_known_partial", "Dsh.AiSug.C183_quiet_partial", "Dsh.AiSug.C183_off_violated", "Dsh.AiSug.C183_blocked_violated", "Dsh.AiSug.C183_secret_violated"], "note": "Proved: only lines that stood there and are not blank are sent, with the context of that time; nothing is sent while not set and Alt-s is not pressed; nothing for lines that history or file names go on with; with everything off nothing is shown or asked. Refuted: with suggestions off lines are sent and answers shown; so are lines of commands the AI is not to be asked about; secrets are sent."},
 {"property": "C184", "status": "partial", "theorems": ["Dsh.AiHelp.C184_same_partial", "Dsh.AiHelp.C184_mark_partial", "Dsh.AiHelp.C184_shown_partial", "Dsh.AiHelp.C184_once_partial", "Dsh.AiHelp.C184_asked_partial", "Dsh.AiHelp.C184_stale_violated", "Dsh.AiHelp.C184_stuck_violated", "Dsh.AiHelp.C184_paste_violated", "Dsh.AiHelp.C184_long_violated", "Dsh.AiHelp.C184_silent_violated"], "note": "Proved over every sequence of events with the usual keys: the explanation there is was answered for exactly the line there is; it is shown behind its mark; a line left alone is asked about, at most once, and shows the answer; only lines that stood there are asked about. Refuted: Ctrl-C, Alt-Enter, Ctrl-r, Tab, the palette, diagnoses, Ctrl-l, Esc Esc and pastes by the terminal leave the explanation of the old line, and the new one is then never explained; only the first 200 bytes are explained; a character across the 200th byte makes the line silent."},
 {"property": "C185", "status": "partial", "theorems": ["Dsh.AiHelp.C185_origin_partial", "Dsh.AiHelp.C185_unrun_partial", "Dsh.AiHelp.C185_comes_partial", "Dsh.AiHelp.C185_old_violated", "Dsh.AiHelp.C185_order_violated", "Dsh.AiHelp.C185_key_violated", "Dsh.AiHelp.C185_refuse_violated"], "note": "Proved over every sequence of events: a fix offered was answered for a command that was run and failed, and passed the guard; nothing but Enter and Alt-Enter runs anything; a failing command gets its fix, which is taken once. Refuted: an offer stays through any later commands; answers in another order offer the fix of the older command; Alt-f does nothing unless fixes are automatic; an offer cannot be refused."},
 {"property": "C186", "status": "partial", "theorems": ["Dsh.AiHelp.C186_message_partial", "Dsh.AiHelp.C186_unasked_partial", "Dsh.AiHelp.C186_shown_partial", "Dsh.AiHelp.C186_status_partial", "Dsh.AiHelp.C186_end_violated", "Dsh.AiHelp.C186_called_off_violated", "Dsh.AiHelp.C186_other_violated"], "note": "Proved for every sequence of answers: a commit has the message shown last, follows \"yes\" to it and ends the review; without \"yes\" none is made; edits are shown as given; status 0 means a commit or \"no\". Refuted: at the end of the input it asks for ever; a review called off has the status of a commit; what is committed is what is staged at \"yes\", not what the message was written for."},
 {"property": "C187", "status": "partial", "theorems": ["Dsh.AiHelp.C187_block_partial", "Dsh.AiHelp.C187_none_partial", "Dsh.AiHelp.C187_told_partial", "Dsh.AiHelp.C187_other_violated", "Dsh.AiHelp.C187_output_violated", "Dsh.AiHelp.C187_cut_violated", "Dsh.AiHelp.C187_panic_violated"], "note": "Proved: the first block, if it is one of shell commands, is applied exactly; without blocks nothing is; short plain commands and outputs are told as they are. Refuted: after a block of another language the prose behind it is applied; quoted output is applied; the end of long output is not told; a character across the 2000th byte of the output ends the shell."},
 {"property": "C188", "status": "partial", "theorems": ["Dsh.Projects.C188_unique_partial", "Dsh.Projects.C188_add_partial", "Dsh.Projects.C188_remove_partial", "Dsh.Projects.C188_work_partial", "Dsh.Projects.C188_fail_partial", "Dsh.Projects.C188_list_partial", "Dsh.Projects.C188_choice_partial", "Dsh.Projects.C188_gone_violated", "Dsh.Projects.C188_extra_violated", "Dsh.Projects.C188_torn_violated", "Dsh.Projects.C188_race_violated"], "note": "Proved over every sequence of events: no name and no directory is registered twice; `add`, `remove`, `work`, `jump` and `pj` do exactly what they say to the project named; failing `add`, `remove` and others change nothing; lists are complete and ordered by last use; `pj` goes to what was chosen. Refuted: `pm work` marks a project whose directory is gone as used; `pm remove A B` removes only `A`; a cut write loses all projects and makes every command fail from then on; of two projects registered at the same time one is lost."},
 {"property": "C189", "status": "partial", "theorems": ["Dsh.Projects.C189_inner_partial", "Dsh.Projects.C189_order_partial", "Dsh.Projects.C189_cd_partial", "Dsh.Projects.C189_hook_partial", "Dsh.Projects.C189_start_violated", "Dsh.Projects.C189_add_violated", "Dsh.Projects.C189_remove_violated", "Dsh.Projects.C189_settings_violated", "Dsh.Projects.C189_nested_violated"], "note": "Proved for all lists and directories: the project found is the innermost, independent of the order of the file; after every change of directory that worked the variable has its name; hooks are called once on entering another project. Refuted: not at the start of a shell, nor after registering or removing the project one is in, nor if the settings of the directory cannot be read, nor in a shell started with the variable in its environment."},
 {"property": "C19", "status": "partial", "theorems": ["Dsh.Jobs.C19_bg_partial", "Dsh.Jobs.C19_fg_others_partial", "Dsh.Jobs.C19_fg_violated", "Dsh.Jobs.C19_fg_foreign_violated", "Dsh.Jobs.C19_bg_violated"], "note": "Other jobs untouched; bg keeps the job when the signal can be sent; fg loses a job that stops again (violated)."},
 {"property": "C190", "status": "partial", "theorems": ["Dsh.GitHub.C190_counts_partial", "Dsh.GitHub.C190_filter_partial", "Dsh.GitHub.C190_marks_partial", "Dsh.GitHub.C190_shown_partial", "Dsh.GitHub.C190_quiet_partial", "Dsh.GitHub.C190_stale_violated", "Dsh.GitHub.C190_page_violated", "Dsh.GitHub.C190_filter_violated", "Dsh.GitHub.C190_unseen_violated", "Dsh.GitHub.C190_token_violated"], "note": "Proved: the counts by kind are those of what the service sent and is not settled; a filter of reasons counts exactly these; only closed reviews are marked; the prompt shows each kind with its number; nothing is asked outside of repositories. Refuted: old numbers stay without a sign while the service fails; only the first page is counted; other filters are ignored; notifications filtered out are marked as read; the token of the start is used for ever."},
 {"property": "C191", "status": "partial", "theorems": ["Dsh.GitHub.C191_offered_partial", "Dsh.GitHub.C191_open_partial", "Dsh.GitHub.C191_fails_violated", "Dsh.GitHub.C191_same_violated", "Dsh.GitHub.C191_said_violated", "Dsh.GitHub.C191_read_partial"], "note": "Proved, if notifications can be read: exactly the unread and matching ones are offered; the one chosen is opened and marked if asked, where lines differ. Refuted: no notification as GitHub sends it can be read (a field has another name), so the command fails whenever there are any; of two equal lines the first cannot be opened; that it is marked is said whatever the service answers."},
 {"property": "C192", "status": "partial", "theorems": ["Dsh.AiTab.C192_pipe_partial", "Dsh.AiTab.C192_line_partial", "Dsh.AiTab.C192_sent_partial", "Dsh.AiTab.C192_plain_partial", "Dsh.AiTab.C192_only_partial", "Dsh.AiTab.C192_keep_partial", "Dsh.AiTab.C192_short_partial", "Dsh.AiTab.C192_block_partial", "Dsh.AiTab.C192_raw_partial", "Dsh.AiTab.C192_quoted_violated", "Dsh.AiTab.C192_caret_violated", "Dsh.AiTab.C192_twice_violated", "Dsh.AiTab.C192_silent_violated", "Dsh.AiTab.C192_panic_violated", "Dsh.AiTab.C192_block_violated"], "note": "Proved for all lines, carets and services: the exact new line for both kinds of questions, what is sent, that lines without a question send nothing, that the line changes only to a command the guard lets pass, and that it and the caret stay otherwise; no panic up to 2000 bytes; how answers in and without code blocks are read. Refuted: a `|?` in quotes is taken; the caret does not matter; one press may ask twice; failures are silent; a long question ends the shell; a code block with a line end behind it is not read."},
 {"property": "C193", "status": "partial", "theorems": ["Dsh.Doctor.C193_hidden_partial", "Dsh.Doctor.C193_key_partial", "Dsh.Doctor.C193_model_partial", "Dsh.Doctor.C193_address_partial", "Dsh.Doctor.C193_sections_partial", "Dsh.Doctor.C193_short_violated", "Dsh.Doctor.C193_address_violated", "Dsh.Doctor.C193_model_violated", "Dsh.Doctor.C193_unset_violated"], "note": "Proved: what is shown of a key depends on its last four characters only; `ok` exactly if a request has a key that is not blank; model and address agree with those used unless blank, without https or with a slash at the end; the sections shown. Refuted: a key of up to four characters is shown whole; an address without https is shown as used while conversations go elsewhere; a blank model; a key taken away with `unset` is said to be missing and is used."},
 {"property": "C194", "status": "partial", "theorems": ["Dsh.Doctor.C194_files_partial", "Dsh.Doctor.C194_once_partial", "Dsh.Doctor.C194_tests_partial", "Dsh.Doctor.C194_checks_partial", "Dsh.Doctor.C194_renamed_violated", "Dsh.Doctor.C194_directory_violated", "Dsh.Doctor.C194_arrow_violated", "Dsh.Doctor.C194_escaped_violated"], "note": "Proved: the list read back from the output of git, for names without escapes and arrows; no command twice; tests, format and clippy exactly for the files listed. Refuted: the old place of a renamed file is left out; files in a new directory are not seen; names with an arrow or an escape are listed wrong."},
 {"property": "C195", "status": "partial", "theorems": ["Dsh.Doctor.C195_skill_partial", "Dsh.Doctor.C195_missing_partial", "Dsh.Doctor.C195_summary_partial", "Dsh.Doctor.C195_tool_partial", "Dsh.Doctor.C195_summary_violated", "Dsh.Doctor.C195_tool_violated"], "note": "Proved: a skill is ok exactly if both trees have the same readable files; the summary where all skills are there to compare with; a tool is the first in the PATH of the process. Refuted: the summary says ok if nothing could be compared; the PATH of the shell is not looked at."},
 {"property": "C196", "status": "partial", "theorems": ["Dsh.ServePage.C196_links_partial", "Dsh.ServePage.C196_tags_partial", "Dsh.ServePage.C196_markup_violated", "Dsh.ServePage.C196_quote_violated", "Dsh.ServePage.C196_reference_violated"], "note": "Proved against a reader of HTML written for it, for all directories whose names have no `<`, `\"` and `&`: the links, their order, and that there are no tags but those of the page. Refuted: a name that is a tag becomes that tag; a quote cuts the link; references are decoded."},
 {"property": "C197", "status": "partial", "theorems": ["Dsh.ServePage.C197_asked_partial", "Dsh.ServePage.C197_only_partial", "Dsh.ServePage.C197_failed_partial", "Dsh.ServePage.C197_refused_partial", "Dsh.ServePage.C197_cors_partial", "Dsh.ServePage.C197_usage_violated", "Dsh.ServePage.C197_bind_violated", "Dsh.ServePage.C197_extra_violated", "Dsh.ServePage.C197_ignored_violated", "Dsh.ServePage.C197_cors_violated"], "note": "Proved: the server asked for is the one that runs; nothing else is served than readable directories at free ports; failures have messages; scripts of other servers may read files and listings exactly with --cors. Refuted: messages with `Usage:` count as help; a taken port is silent with status 0; further directories are ignored; --verbose and --open do nothing; --cors does not reach the first page."},
 {"property": "C198", "status": "partial", "theorems": ["Dsh.Context.C198_root_partial", "Dsh.Context.C198_version_partial", "Dsh.Context.C198_found_partial", "Dsh.Context.C198_tools_partial", "Dsh.Context.C198_activations_partial", "Dsh.Context.C198_nearest_violated", "Dsh.Context.C198_absent_violated", "Dsh.Context.C198_hidden_violated", "Dsh.Context.C198_go_violated", "Dsh.Context.C198_activation_violated"], "note": "Proved: the root; every version shown is written in the nearest file of the name shown, about that language; where only one file says something it is shown; `.tool-versions` without a list for mise; the files to activate exactly. Refuted: a list for mise far above wins over the nearest file; a silent list hides those above; a file that does not exist is shown; Go is not seen inside of modules; files below the root are listed and not activated."},
 {"property": "C199", "status": "partial", "theorems": ["Dsh.Settings.C199_settings_partial", "Dsh.Settings.C199_refused_partial", "Dsh.Settings.C199_set_partial", "Dsh.Settings.C199_level_violated", "Dsh.Settings.C199_export_violated", "Dsh.Settings.C199_audit_violated"], "note": "Proved for all sequences of calls of the settings that do not lower the level; such calls fail and change nothing; other variables get exactly their value. Refuted: the code lowers the level itself; `export` is not asked about; LD_AUDIT is not in the list."},
 {"property": "C20", "status": "partial", "theorems": ["C20_push", "C20_order", "C20_get", "C20_size_partial", "C20_size_violated", "C20_capacity_violated", "truncate_spec"], "note": "Order, prefix-dropping and entry limits hold for every sequence of captures. The byte limit does not: the truncation marker is added after the limit has been applied and the newest entry is kept even when it alone is over the limit. A capacity of 0 entries never returns."},
 {"property": "C200", "status": "partial", "theorems": ["Dsh.Settings.C200_run_partial", "Dsh.Settings.C200_answer_partial", "Dsh.Settings.C200_dropped_violated", "Dsh.Settings.C200_environment_violated", "Dsh.Settings.C200_status_violated", "Dsh.Settings.C200_stderr_violated"], "note": "Proved: texts as arguments reach the program as they are, if the guard allows exactly that; the answer is the output without white space at its end. Refuted: other arguments are dropped; the environment is the one the shell was started with; the status is lost; error messages are answered as output."},
 {"property": "C201", "status": "partial", "theorems": ["Dsh.Settings.C201_get_partial", "Dsh.Settings.C201_pattern_partial", "Dsh.Settings.C201_line_violated", "Dsh.Settings.C201_value_violated"], "note": "Proved for all sequences of calls: get answers the last value set; an added pattern stays and keeps lines it matches out in the mode skip. Refuted: the line that sets a secret is stored in the history with its value; the values of session secrets are never looked for."},
 {"property": "C202", "status": "partial", "theorems": ["Dsh.Settings.C202_read_partial", "Dsh.Settings.C202_path_partial", "Dsh.Settings.C202_failed_partial", "Dsh.Settings.C202_variable_violated", "Dsh.Settings.C202_off_violated", "Dsh.Settings.C202_ignored_violated"], "note": "Proved for all sequences of calls: what is read is what was set last; the search path; calls that fail change nothing. Refuted: the variable that shows the level can be set without the level; `\"off\"` switches a preference on; extra arguments are ignored."},
 {"property": "C203", "status": "partial", "theorems": ["Dsh.Sh.C203_answer_partial", "Dsh.Sh.C203_list_violated", "Dsh.Sh.C203_long_violated", "Dsh.Sh.C203_refused_violated", "Dsh.Sh.C203_blank_violated", "Dsh.Sh.C203_words_violated", "Dsh.Sh.C203_terminal_violated"], "note": "Proved for every pipeline of programs and builtins, with and without a terminal of its own, and at most 64 KiB: the answer is the standard output of its last program without the newlines around it. Refuted: of several commands only the output of the first is answered; more output hangs the shell; refused lines answer the empty text; leading blank lines are lost; arguments with blanks are split; nothing is run without a terminal."},
 {"property": "C204", "status": "partial", "theorems": ["Dsh.HistStart.C204_kept_partial", "Dsh.HistStart.C204_loaded_partial", "Dsh.HistStart.C204_lost_violated", "Dsh.HistStart.C204_failed_violated", "Dsh.HistStart.C204_twice_violated", "Dsh.HistStart.C204_position_violated"], "note": "Proved for every interleaving: a command used after the first rows are in place stays in memory and reaches the table, and undisturbed loading gives the start of C73. Refuted: a command used before is nowhere afterwards; when loading fails nothing of the session is written; a command used while the older rows are under way is listed twice; the position is lost."},
 {"property": "C205", "status": "partial", "theorems": ["Dsh.Modes.C205_leaves_partial", "Dsh.Modes.C205_asked_partial", "Dsh.Modes.C205_word_partial", "Dsh.Modes.C205_twice_partial", "Dsh.Modes.C205_line_violated", "Dsh.Modes.C205_script_violated", "Dsh.Modes.C205_status_violated", "Dsh.Modes.C205_stuck_violated"], "note": "Proved: at the prompt a line that ran exit ends the shell when the job table is empty; the shell is not left unasked; the line `exit` alone ends a script. Refuted: what follows exit on a line or in a script is run; the status asked for is lost; while a job is in the table no number of exits leaves the shell, and in a release build no sequence of events does."},
 {"property": "C206", "status": "partial", "theorems": ["Dsh.Modes.C206_lines_partial", "Dsh.Modes.C206_command_partial", "Dsh.Modes.C206_refused_partial", "Dsh.Modes.C206_lisp_partial", "Dsh.Modes.C206_mode_partial", "Dsh.Modes.C206_status_violated", "Dsh.Modes.C206_split_violated", "Dsh.Modes.C206_stdin_violated", "Dsh.Modes.C206_eaten_violated", "Dsh.Modes.C206_first_violated", "Dsh.Modes.C206_both_violated"], "note": "Proved: the single lines of a script are evaluated in order, each in the state the one before left, when no program reads; -c reports the status of its line, -l of its expression. Refuted: a script always reports 0; commands over several lines are cut; programs find the standard input empty, or take the text of a long script; only the first expression of -l is evaluated; -c is dropped beside -l."},
 {"property": "C207", "status": "partial", "theorems": ["Dsh.Env.C207_all_partial", "Dsh.Env.C207_forgotten_violated", "Dsh.Env.C207_rest_violated", "Dsh.Env.C207_moved_violated"], "note": "Proved: with readable files cd succeeds, every allowed directory is kept and is loaded exactly when it is entered. Refuted: a directory whose file could not be read once is forgotten, its variables are never set again whatever follows; the directories after it in the list are not looked at; the failing cd has changed the directory."},
 {"property": "C208", "status": "partial", "theorems": ["Dsh.Jsonc.C208_comments_partial", "Dsh.Jsonc.C208_address_violated", "Dsh.Jsonc.C208_pattern_violated"], "note": "Proved for all files whose strings contain neither // nor /*: exactly the comments are taken out. Refuted: one string with // and no task of the file is offered, comments or not; everything between /* in one string and */ in another is dropped."},
 {"property": "C209", "status": "partial", "theorems": ["Dsh.AutoComp.C209_list_partial", "Dsh.AutoComp.C209_single_partial", "Dsh.AutoComp.C209_command_partial", "Dsh.AutoComp.C209_untouched_partial", "Dsh.AutoComp.C209_function_violated", "Dsh.AutoComp.C209_name_violated", "Dsh.AutoComp.C209_dash_violated", "Dsh.AutoComp.C209_longer_violated", "Dsh.AutoComp.C209_last_violated", "Dsh.AutoComp.C209_blank_violated", "Dsh.AutoComp.C209_engine_violated", "Dsh.AutoComp.C209_star_violated", "Dsh.AutoComp.C209_argument_violated", "Dsh.AutoComp.C209_hang_violated"], "note": "Proved: where no earlier definition fits and the engine has nothing, the members of a list and the output lines of a command are offered; lines no definition fits are completed as without definitions. Refuted: functions are not evaluated; a name is not looked up; a definition for a command with a dash is not used; it is used for longer command names; a second definition of a command is never used; a blank in front of the line hides definitions; the engine goes first; a single output line loses a star; a function cannot tell blanks from underscores; a function that changes a setting hangs the shell."},
 {"property": "C21", "status": "partial", "theorems": ["C21_walk", "C21_up_order", "C21_down_order", "C21_search_up_partial", "C21_search_down", "C21_search_walk_partial", "C21_inside_partial", "C21_oldest_violated", "C21_single_violated", "C21_overrun_violated"], "note": "Without a typed word the walk is exact for every key sequence. While searching: Down is exact; Up is exact when the two oldest entries match; otherwise the oldest match is skipped and at the oldest entry the position underflows (panic in debug builds, position 2^64-1 in release builds)."},
 {"property": "C210", "status": "partial", "theorems": ["Dsh.SysCmd.C210_only_partial", "Dsh.SysCmd.C210_all_partial", "Dsh.SysCmd.C210_kept_partial", "Dsh.SysCmd.C210_cut_violated", "Dsh.SysCmd.C210_path_violated", "Dsh.SysCmd.C210_vanish_violated", "Dsh.SysCmd.C210_stale_violated", "Dsh.SysCmd.C210_link_violated", "Dsh.SysCmd.C210_quick_violated"], "note": "Proved: without answers kept from before and on an unchanged path only commands are offered; where fewer than the maximum are offered, all that belong to the word are; what is kept is offered. Refuted: commands behind 500 others are left out; changes of PATH are not seen; commands of add_path in the configuration vanish after half a minute; new and removed commands are not noticed meanwhile; links that lead nowhere are offered; within two seconds only what was offered for the shorter word."},
 {"property": "C211", "status": "partial", "theorems": ["Dsh.Proc.C211_export_partial", "Dsh.Proc.C211_started_partial", "Dsh.Proc.C211_names_partial", "Dsh.Proc.C211_captured_violated", "Dsh.Proc.C211_missing_violated", "Dsh.Proc.C211_kept_violated", "Dsh.Proc.C211_editor_violated", "Dsh.Proc.C211_prompt_violated", "Dsh.Proc.C211_token_violated", "Dsh.Proc.C211_dropped_violated", "Dsh.Proc.C211_same_partial", "Dsh.Proc.C211_two_violated", "Dsh.Proc.C211_options_violated", "Dsh.Proc.C211_empty_violated"], "note": "Proved: after export programs of builtins and the AI settings see the value; at the start safe-run, trigger and the prompt see what programs see; one variable of one word gives one editor everywhere. Refuted: nothing set, exported or dropped reaches captured commands, editors, the names in the prompt or the GitHub token; a dropped password is still given to captured commands and a dropped setting stays in force; EDITOR and VISUAL give two editors; options in EDITOR break the palette; an empty VISUAL leaves no editor."},
 {"property": "C212", "status": "partial", "theorems": ["Dsh.Known.C212_only_partial", "Dsh.Known.C212_shown_partial", "Dsh.Known.C212_plain_violated", "Dsh.Known.C212_gone_violated", "Dsh.Known.C212_old_violated", "Dsh.Known.C212_once_partial", "Dsh.Known.C212_background_partial", "Dsh.Known.C212_below_violated"], "note": "Proved: in every session only entries read less than two seconds ago are coloured; when a reading ends exactly the first 500 entries are; at most one reading of a directory runs; asked again after it the entries are there. Refuted: names without a slash are never coloured; removed files and files of the directory left are; after two seconds nothing is; directories whose text begins with that of one just read are not read."},
 {"property": "C213", "status": "partial", "theorems": ["Dsh.Gpr.C213_create_partial", "Dsh.Gpr.C213_asked_partial", "Dsh.Gpr.C213_untitled_partial", "Dsh.Gpr.C213_outside_partial", "Dsh.Gpr.C213_offered_partial", "Dsh.Gpr.C213_lines_partial", "Dsh.Gpr.C213_checkout_partial", "Dsh.Gpr.C213_web_violated", "Dsh.Gpr.C213_unused_violated", "Dsh.Gpr.C213_number_violated", "Dsh.Gpr.C213_blank_violated", "Dsh.Gpr.C213_abort_violated", "Dsh.Gpr.C213_hundred_violated"], "note": "Proved: with a title gh is told exactly the request wanted, once, with the right status; asked titles; no title, no repository or no gh: nothing is run; all requests of the first hundred offered once in order with different lines; the chosen one is checked out. Refuted: -w drops -c; options without -c and numbers mean nothing; blank titles; status 0 when nothing is chosen; requests behind the first hundred."},
 {"property": "C214", "status": "partial", "theorems": ["Dsh.DirStart.C214_kept_partial", "Dsh.DirStart.C214_counted_partial", "Dsh.DirStart.C214_log_partial", "Dsh.DirStart.C214_first_violated", "Dsh.DirStart.C214_failed_violated", "Dsh.DirStart.C214_refused_violated", "Dsh.DirStart.C214_exit_violated", "Dsh.DirStart.C214_sessions_violated", "Dsh.DirStart.C214_counts_violated"], "note": "Proved: once the history is loaded and the writer can write, every directory entered is known and is in the table with the count the session began with and every visit since, and every visit is logged once in order, in every order of visits, writes and reloads. Refuted: directories entered before the loading ends are forgotten; after a failed loading nothing is written; a refused write is not repeated; leaving at once loses the last directory; another session overwrites the count; counts begin again at every start."},
 {"property": "C215", "status": "partial", "theorems": ["Dsh.SysNames.C215_users_partial", "Dsh.SysNames.C215_groups_partial", "Dsh.SysNames.C215_beginning_partial", "Dsh.SysNames.C215_fresh_partial", "Dsh.SysNames.C215_signals_partial", "Dsh.SysNames.C215_loopback_partial", "Dsh.SysNames.C215_processes_partial", "Dsh.SysNames.C215_system_violated", "Dsh.SysNames.C215_owner_violated", "Dsh.SysNames.C215_stale_violated", "Dsh.SysNames.C215_number_violated", "Dsh.SysNames.C215_realtime_violated", "Dsh.SysNames.C215_nogroup_violated"], "note": "Proved: users from 1000 on and root, groups, processes and signals offered are exactly those that fit, in order; every beginning of a name offers it; the loopback is last; what is offered was there less than the time of keeping ago. Refuted: other system users, groups behind a colon, names added within the time of keeping, real-time signals; numbers of signals stand for many; lines that are no groups are offered."},
 {"property": "C216", "status": "partial", "theorems": ["Dsh.Streams.C216_written_partial", "Dsh.Streams.C216_eview_partial", "Dsh.Streams.C216_pipe_partial", "Dsh.Streams.C216_refused_violated", "Dsh.Streams.C216_silent_violated", "Dsh.Streams.C216_read_violated", "Dsh.Streams.C216_twice_violated"], "note": "Proved: texts taken by the system arrive once and in order and no descriptor changes; eview leaves the descriptors alone and adds an end of line only where there is none; read behind a pipe closes the end of the pipe only. Refuted: a refused write closes the stream of the shell, what follows is lost or goes into the next file opened; read closes the input of the shell; an end of a pipe is closed twice."},
 {"property": "C217", "status": "partial", "theorems": ["Dsh.Tm.C217_chosen_partial", "Dsh.Tm.C217_empty_partial", "Dsh.Tm.C217_lines_partial", "Dsh.Tm.C217_preview_partial", "Dsh.Tm.C217_same_violated", "Dsh.Tm.C217_abort_violated", "Dsh.Tm.C217_words_violated"], "note": "Proved: the output and errors of the entry chosen are written each to its own, followed by at most one end of line; entries with the same line have the same time, command and status; output and errors are shown beside the list; without entries nobody is asked. Refuted: an end of line is added; giving up is a success; words are ignored."},
 {"property": "C218", "status": "partial", "theorems": ["Dsh.Tm.C218_all_partial", "Dsh.Tm.C218_order_violated", "Dsh.Tm.C218_name_violated", "Dsh.Tm.C218_columns_violated"], "note": "Proved: a reader of help finds every built-in with its description, whatever the order. Refuted: each order of the table gives another text; help NAME is help; long names break the columns."},
 {"property": "C219", "status": "partial", "theorems": ["Dsh.DbOpen.C219_kept_partial", "Dsh.DbOpen.C219_open_partial", "Dsh.DbOpen.C219_new_partial", "Dsh.DbOpen.C219_again_partial", "Dsh.DbOpen.C219_mode_partial", "Dsh.DbOpen.C219_twice_violated", "Dsh.DbOpen.C219_locked_violated", "Dsh.DbOpen.C219_public_violated", "Dsh.DbOpen.C219_protected_violated"], "note": "Proved: nothing in the file is lost, opened or not; a file without a command twice is opened and gets everything the shell needs; a second opening changes nothing; the permissions end as those of the owner. Refuted: a history with a command twice cannot be opened, however often; a lock during the migration leaves a column out unnoticed; a new file is open to others for a moment; a protected file is made writable."},
 {"property": "C22", "status": "partial", "theorems": ["C22_crash", "C22_batch_partial", "C22_memory", "C22_agree", "C22_reload_partial", "C22_restart_partial", "C22_failure_violated", "C22_tie_violated"], "note": "Crash atomicity given SQLite transactions, exact counts, one entry per command, agreement of memory and table for all interleavings with the writer thread, order on reload for increasing times. Not so: a failing statement is skipped silently and the rest committed; commands of the same second may come back in another order."},
 {"property": "C220", "status": "partial", "theorems": ["Dsh.Kept.C220_true_partial", "Dsh.Kept.C220_other_partial", "Dsh.Kept.C220_settled_partial", "Dsh.Kept.C220_first_partial", "Dsh.Kept.C220_chmod_violated", "Dsh.Kept.C220_second_violated", "Dsh.Kept.C220_between_violated", "Dsh.Kept.C220_early_violated"], "note": "Proved: if changes show in the time or length of a directory, a list taken is exactly what is there; a list for another search path is not taken; after the reading the names are those there were. Refuted: chmod does not show; changes in the same second; programs that arrive between reading and writing; a search path set before the reading ends."},
 {"property": "C221", "status": "partial", "theorems": ["Dsh.Return.C221_back_partial", "Dsh.Return.C221_only_partial", "Dsh.Return.C221_plain_partial", "Dsh.Return.C221_left_violated", "Dsh.Return.C221_stopped_violated"], "note": "Proved: the prompt comes when the command has ended or is stopped and nobody has the pseudo terminal open, and not before; without a pseudo terminal exactly when the command has ended or is stopped. Refuted: a process left behind with its streams, or a stopped command, keeps the prompt away."},
 {"property": "C222", "status": "partial", "theorems": ["Dsh.Groups.C222_plain_partial", "Dsh.Groups.C222_single_partial", "Dsh.Groups.C222_one_violated", "Dsh.Groups.C222_chance_violated", "Dsh.Groups.C222_kill_violated", "Dsh.Groups.C222_again_violated"], "note": "Proved: without a pseudo terminal all processes are reached, in whatever order they start; a single process always. Refuted: on a pseudo terminal every stage has a session and a group of its own; Ctrl-C reaches the one that came first, then nobody; the signals of the shell reach the first stage only."},
 {"property": "C223", "status": "partial", "theorems": ["Dsh.DmvPat.C223_names_partial", "Dsh.DmvPat.C223_deep_violated", "Dsh.DmvPat.C223_slash_violated", "Dsh.DmvPat.C223_set_violated", "Dsh.DmvPat.C223_nested_violated", "Dsh.DmvPat.C223_fixed_violated", "Dsh.DmvPat.C223_conflict_violated"], "note": "Proved: patterns of characters, stars, question marks and groups rename exactly the names they stand for in the current directory (one-byte characters). Refuted: patterns with **/ or any / rename nothing; sets are taken literally by the search; groups in groups are characters; a new name without reference is the same for all and refused for two files."},
 {"property": "C224", "status": "partial", "theorems": ["Dsh.HistPick.C224_line_partial", "Dsh.HistPick.C224_esc_partial", "Dsh.HistPick.C224_found_partial", "Dsh.HistPick.C224_limit_violated", "Dsh.HistPick.C224_widen_violated", "Dsh.HistPick.C224_only_violated", "Dsh.HistPick.C224_locked_violated", "Dsh.HistPick.C224_palette_partial", "Dsh.HistPick.C224_palette_violated"], "note": "Proved: the line stays or becomes a command of the history that contains it; every such command with fewer than 500 newer ones can be chosen; Esc leaves the line unless exactly one command contains it. Refuted: older commands; commands that do not contain the line, whatever is typed in the finder; a single match replaces the line unasked; nothing happens while the history is locked; the palette does not look at Esc (if the finder reports the item it stood on)."},
 {"property": "C225", "status": "partial", "theorems": ["Dsh.TtyModes.C225_left_partial", "Dsh.Modes.C225_prompt_partial", "Dsh.Modes.C225_again_partial", "Dsh.Modes.C225_prompt_violated", "Dsh.Modes.C225_changed_violated", "Dsh.Modes.C225_stty_violated", "Dsh.Modes.C225_command_partial", "Dsh.Modes.C225_command_violated"], "note": "Proved over all sessions, failures included: if no program leaves the terminal itself changed, every program starts in the mode of the start and it is put back at the end; without the named failures the prompt is raw, and one plain job makes it raw again. Refuted: failing |> and |: jobs, |: without a command, substitutions that cannot be started and the window of Alt-d leave the prompt in the mode of commands; a program without a pseudo terminal changes the mode for good; stty with a pseudo terminal has no effect; dsh -c leaves the terminal raw after a substitution in a line that is denied or does not parse."},
 {"property": "C226", "status": "partial", "theorems": ["Dsh.Worktree.C226_done_partial", "Dsh.Worktree.C226_failed_partial", "Dsh.Worktree.C226_apart_partial", "Dsh.Worktree.C226_failed_violated", "Dsh.Worktree.C226_nested_violated", "Dsh.Worktree.C226_pr_violated"], "note": "Proved: what success means; failures leave everything as it was unless something fails half-way; over all sequences no work tree is lost or put over anything. Refuted: a failing change of directory, editor, start of gh or removal leaves the new work tree behind and a second try is refused; from inside a work tree the next one is named after both; the branch pr-5 and pull request 5 share a directory."},
 {"property": "C227", "status": "partial", "theorems": ["Dsh.Transient.C227_exact_partial", "Dsh.Transient.C227_full_violated", "Dsh.Transient.C227_caret_violated", "Dsh.Transient.C227_newline_violated", "Dsh.Transient.C227_lines_violated", "Dsh.Transient.C227_abbr_violated", "Dsh.Transient.C227_zero_violated", "Dsh.Transient.C227_wide_violated"], "note": "Proved: for narrow characters, with the caret at the end and the last row not just full, exactly the prompt and the line are cleared. Refuted: a full last row, a caret in an earlier row and an abbreviation at the end clear rows above; newlines, commands of several lines and wide characters leave rows behind; a terminal without columns ends the shell."},
 {"property": "C228", "status": "partial", "theorems": ["Dsh.Hint.C228_tab_partial", "Dsh.Hint.C228_asks_partial", "Dsh.Hint.C228_enter_partial", "Dsh.Hint.C228_room_partial", "Dsh.Hint.C228_service_violated", "Dsh.Hint.C228_both_violated", "Dsh.Hint.C228_open_violated", "Dsh.Hint.C228_lines_violated", "Dsh.Hint.C228_narrow_violated", "Dsh.Hint.C228_ghost_violated"], "note": "Proved: the hint of Tab is there just for lines with a question, and with a service Tab then asks; for complete first lines without it the hint of Enter is there just if Enter asks; mark and line are never covered. Refuted: without a service the hint is shown too; the hint of Tab hides that Enter asks; open quotes make Enter wait; of several lines only the last is read; narrow screens have no hint; the grey continuation is covered."},
 {"property": "C229", "status": "partial", "theorems": ["Dsh.BgOut.C229_exact_partial", "Dsh.BgOut.C229_lines_partial", "Dsh.BgOut.C229_order_partial", "Dsh.BgOut.C229_unfinished_violated", "Dsh.BgOut.C229_bytes_violated", "Dsh.BgOut.C229_late_violated", "Dsh.BgOut.C229_streams_violated", "Dsh.BgOut.C229_endless_violated"], "note": "Proved: exactly what is shown of pieces with silences between them; whole lines are all shown; nothing is invented, repeated or reordered. Refuted: text without a newline before a silence is lost; a line with a byte that is no UTF-8 is lost, at the end with all behind it; what is printed late after the end is lost; standard error comes behind standard output; a command that never falls silent keeps the shell from showing it and from the keys."},
 {"property": "C23", "status": "partial", "theorems": ["secret_assignment_skipped", "secret_assignment_hidden", "stored_from_line", "glued_assignment_violated", "quoted_assignment_violated", "custom_pattern_violated", "redact_twice_violated", "ordinary_command_violated"], "note": "Shown for assignments behind white space: skip mode stores nothing, redact mode stores a line that does not depend on the value; stored text only consists of characters of the line and stars. Refuted: assignments glued to another one, quoted values with white space, lines only a user pattern calls secret, idempotence, other parts altered (mkdir -p)."},
 {"property": "C230", "status": "partial", "theorems": ["Dsh.AiPipe.C230_sent_partial", "Dsh.AiPipe.C230_read_partial", "Dsh.AiPipe.C230_fence_violated", "Dsh.AiPipe.C230_streams_violated", "Dsh.AiPipe.C230_status_violated", "Dsh.AiPipe.C230_service_violated", "Dsh.AiPipe.C230_shown_violated", "Dsh.AiPipe.C230_bound_violated", "Dsh.AiPipe.C230_signal_violated"], "note": "Proved: with a service one message with command, both streams and question is sent and the status kept; without backquotes the parts can be told apart. Refuted: output can pose as the question; errors and results look alike; the outcome is not told; without a service the command is run and its output lost; the output is never shown, cut or cleaned; signals give the status -1."},
 {"property": "C24", "status": "partial", "theorems": ["Dsh.Frec.store_stays_sorted", "Dsh.Frec.store_exact", "Dsh.Frec.prefix_range_exact", "Dsh.Frec.visits_counted", "Dsh.Frec.sorted_spec", "Dsh.Frec.truncate_spec", "Dsh.Frec.reload_sorted", "Dsh.Frec.reload_complete", "Dsh.Frec.search_prefix_best", "Dsh.Frec.effective_spec", "Dsh.Frec.load_sorted_iff", "Dsh.Frec.restart_sorted_violated"], "note": "Proved for any sequence of operations on a sorted store: names strictly ascending (each directory once), exact refinement to a map, prefix search exact, best offer, truncate keeps the best, synchronising keeps order and knows every saved directory. Fails after a restart: rows come back in the order they were last written, so the store can be unsorted (restart_sorted_violated: duplicate entries, missed prefix)."},
 {"property": "C25", "status": "partial", "theorems": ["Dsh.Lisp.C25_reading_ends", "Dsh.Lisp.C25_print_read_partial", "Dsh.Lisp.C25_print_injective_partial", "Dsh.Lisp.C25_string_violated", "Dsh.Lisp.C25_string_as_code_violated", "Dsh.Lisp.C25_float_violated", "Dsh.Lisp.C25_unwritable_strings_violated", "Dsh.Lisp.C25_accent_violated"], "note": "Proved: the reader always ends; values made of T, F, NIL, i64 integers, writable symbols and lists of them are read back, and print injectively. False for every string (printed without quotes), for whole floats, and some strings cannot be written at all."},
 {"property": "C26", "status": "partial", "theorems": ["Dsh.Lisp.C26_macro_read", "Dsh.Lisp.C26_macro_quote_violated", "Dsh.Lisp.C26_macro_backslash_violated", "Dsh.Lisp.C26_replay", "Dsh.Lisp.C26_replay_stops", "Dsh.Lisp.C26_special_name_violated", "Dsh.Lisp.C26_sh_name_violated"], "note": "The recorded text is read as the definition running the commands exactly when no command is empty, has a double quote or backslash or ends outside ASCII. The recorded text is read as the definition running the commands exactly when no command is empty, has a double quote or backslash or ends outside ASCII. Once read, evaluating the definition runs nothing and calling the macro runs exactly the commands in order, up to the first one that is an error, unless the name is a special form (an error) or \"sh\" (endless recursion)."},
 {"property": "C27", "status": "partial", "theorems": ["Dsh.Lisp.C27_lookup", "Dsh.Lisp.C27_define_here", "Dsh.Lisp.C27_define_other_name", "Dsh.Lisp.C27_define_elsewhere", "Dsh.Lisp.C27_define_outer", "Dsh.Lisp.C27_set_fails", "Dsh.Lisp.C27_set", "Dsh.Lisp.C27_set_here", "Dsh.Lisp.C27_undefine", "Dsh.Lisp.C27_extend", "Dsh.Lisp.C27_call_scope", "Dsh.Lisp.C27_eval_scopes", "Dsh.Lisp.C27_closure_partial", "Dsh.Lisp.C27_closure_violated", "Dsh.Lisp.C27_captured"], "note": "Lookup, define, set and undefine are exact for all scope chains; all programs keep scopes well formed and never re-nest them; calls do not depend on the scope of the caller for programs without macros, comma and the natives that take the scope of the caller; false with them."},
 {"property": "C28", "status": "partial", "theorems": ["Dsh.Lisp.C28_tail_partial", "Dsh.Lisp.C28_no_leak_partial", "Dsh.Lisp.C28_macro_violated", "Dsh.Lisp.C28_comma_violated", "Dsh.Lisp.C28_bound_violated", "Dsh.Lisp.C28_eval_violated"], "note": "Same result and effects with and without tail calls (both directions, including errors) for all programs without macros, comma and natives that look at the scope of the caller; witnesses that each exclusion is needed."},
 {"property": "C29", "status": "partial", "theorems": ["C29_command", "C29_asks_partial", "C29_strict", "C29_violated", "C29_substitution_violated", "C29_texts"], "note": "For every line of the modelled syntax: a plainly written dangerous command that starts a job (background command, or first of a pipeline) is asked about and without agreement nothing runs; exact decision for single commands; at the strict level nothing runs unasked unless every job is listed. Fails for commands behind | or &, quoted ones, prefixes (sudo), and command substitutions, which run before the guard is consulted."},
 {"property": "C30", "status": "partial", "theorems": ["C30_exact_partial", "C30_plain", "C30_flags_partial", "C30_violated"], "note": "Exact set of recognised flags; plain rm never asks. Fails for -Rf, -rv, -vr, -f, --force, abbreviations, and asks for rm -- -r."},
 {"property": "C31", "status": "partial", "theorems": ["Dsh.Fs.Tools.C31_links_violated", "Dsh.Fs.Tools.C31_read_partial", "Dsh.Fs.Tools.C31_list_partial", "Dsh.Fs.Tools.C31_edit_partial", "Dsh.Fs.Tools.C31_usable", "Dsh.Fs.Tools.C31_list_usable"], "note": "Containment of read, ls, search and edit for every request whose resolution stays within the link limit of the system; fails for requests over the limit (ELOOP is taken for \"does not exist\")."},
 {"property": "C32", "status": "partial", "theorems": ["C32_partial", "C32_eval_partial", "C32_violated", "C32_sources"], "note": "Whatever the word splitter: runs only with an entry for exactly this program and no or exactly these arguments (or after confirmation), never with shell metacharacters. Evaluators are recognised only in some spellings."},
 {"property": "C33", "status": "partial", "theorems": ["Dsh.Fs.Serve.C33_index_violated", "Dsh.Fs.Serve.C33_serve_partial", "Dsh.Fs.Serve.C33_served"], "note": "Containment holds for every request if no index page inside the served directory is a link; a linked index.html is followed out of it."},
 {"property": "C34", "status": "partial", "theorems": ["Dsh.Env.C34_programs_partial", "Dsh.Env.C34_builtins_partial", "Dsh.Env.C34_violated"], "note": "Programs from the command line get exactly one entry for each wanted name, and programs started by builtins exactly the wanted map; but `export NAME` of an inherited variable takes it away, for all names and states."},
 {"property": "C35", "status": "partial", "theorems": ["Dsh.Env.C35_restored_partial", "Dsh.Env.C35_violated"], "note": "For all walks with any number of nested directories, changing files and other assignments, the variables outside are those of a shell without directories, if the files only assign names not set before; names set before are lost, PATH becomes that of the process."},
 {"property": "C36", "status": "partial", "theorems": ["Dsh.Env.C36_lookup_partial", "Dsh.Env.C36_violated"], "note": "After a refresh, and until the files change or add_path is used, lookups find the first regular file along PATH; but answers stay until the next refresh whatever happens, files that cannot be executed count, and an exported PATH is ignored."},
 {"property": "C37", "status": "partial", "theorems": ["Dsh.Env.C37_prefix_partial", "Dsh.Env.C37_violated"], "note": "With the names collected at the start, the alphabetically first name with the prefix; every cd drops the names for good and then directories decide."},
 {"property": "C38", "status": "proved", "theorems": ["Dsh.Cache.C38_lookup", "Dsh.Cache.C38_miss", "Dsh.Cache.C38_live", "Dsh.Cache.C38_stored", "Dsh.Cache.C38_fits"], "note": "For all histories of stores, renewals and clock steps."},
 {"property": "C39", "status": "proved", "theorems": ["Dsh.Suggest.C39_distance_is_minimal", "Dsh.Suggest.C39_suggestions"], "note": ""},
 {"property": "C40", "status": "proved", "theorems": ["Dsh.Tty.C40_shown_is_translation", "Dsh.Tty.C40_chunking_irrelevant", "Dsh.Tty.C40_capture_is_raw", "Dsh.Tty.C40_no_bare_newline", "Dsh.Tty.C40_nothing_else_changed"], "note": ""},
 {"property": "C41", "status": "partial", "theorems": ["Dsh.Fs.Dmv.C41_violated", "Dsh.Fs.Dmv.C41_kept_partial", "Dsh.Fs.Dmv.C41_moved_partial", "Dsh.Fs.Dmv.C41_runs_partial"], "note": "Without force nothing is lost if the new names are plain and no target is a link, whatever the outcome, and if no source lies below another the run is all or nothing; fails for dangling links at the target, targets that differ only as text, and targets in a directory whose name is taken by a file (stops half-way)."},
 {"property": "C42", "status": "partial", "theorems": ["Dsh.Fs.Dmv.C42_violated", "Dsh.Fs.Dmv.C42_panic_violated", "Dsh.Fs.Dmv.C42_answer_partial", "Dsh.Fs.Dmv.C42_ascii_partial"], "note": "Every answer is right and ASCII names never panic; names with characters of several bytes panic in general; bracket sets are not implemented."},
 {"property": "C43", "status": "partial", "theorems": ["Dsh.Inline.C43_valid", "Dsh.Inline.C43_rotation_partial", "Dsh.Inline.C43_collected_partial", "Dsh.Inline.C43_violated"], "note": "Rotation visits each candidate once and comes back, and the selected one is always a candidate, for all histories of refreshes; refuted: the same text is offered twice with different sources and rotating changes nothing visible."},
 {"property": "C44", "status": "partial", "theorems": ["Dsh.Wire.C44_plain_partial", "Dsh.Wire.C44_redirect_partial", "Dsh.Wire.C44_nothing_else_violated", "Dsh.Wire.C44_input_violated", "Dsh.Wire.C44_output_violated", "Dsh.Wire.C44_stderr_violated"], "note": "Plain pipelines of programs of any length, with and without a terminal, and single commands with a redirect: right, except that every program also holds the read end of its own output (refuted for every pipeline). Refuted for pipelines with `<`, with any output redirect, and with `2>`. Missing: builtins as stages, background pipelines."},
 {"property": "C45", "status": "partial", "theorems": ["Dsh.Note.C45_roundtrip_partial", "Dsh.Note.C45_violated"], "note": "Read back exactly for all records without a line of backquotes; refuted for every output with such a line."},
 {"property": "C46", "status": "partial", "theorems": ["Dsh.Fish.C46_import_partial", "Dsh.Fish.import_all", "Dsh.Fish.C46_violated"], "note": "Every non-blank command in order with its time, for all histories fish writes; with exactly its text if it has no backslash, line break or surrounding white space. Every command with a backslash or line break is imported with another text; a path named cmd:... becomes a command."},
 {"property": "C47", "status": "partial", "theorems": ["Dsh.Shell.C47_redirect_quotes_violated", "Dsh.Shell.C03_line_meaning_partial"], "note": "False for quoted targets (witness); for plain targets see the line theorem."},
 {"property": "C48", "status": "partial", "theorems": ["Dsh.Shell.C48_adjacent_violated"], "note": "False (witness)."},
 {"property": "C49", "status": "partial", "theorems": ["Dsh.Shell.C49_background_violated", "Dsh.Shell.C03_line_meaning_partial"], "note": "False after a background pipeline (witness); true for lines of the syntax."},
 {"property": "C50", "status": "partial", "theorems": ["Dsh.Shell.C50_continuation_violated"], "note": "False (witness)."},
 {"property": "C51", "status": "partial", "theorems": ["Dsh.Shell.C51_plain_word_violated", "Dsh.Shell.C03_line_meaning_partial"], "note": "False (witness); true when no plain word is a variable name."},
 {"property": "C52", "status": "partial", "theorems": ["Dsh.Shell.C52_structure_violated", "Dsh.Shell.C52_subshell_violated", "Dsh.Shell.C03_line_meaning_partial"], "note": "False (witnesses); true for lines under FitLine."},
 {"property": "C53", "status": "partial", "theorems": ["Dsh.Shell.C53_out_index_violated"], "note": "False (witness)."},
 {"property": "C54", "status": "partial", "theorems": ["Dsh.Jobs.C54_quiet_partial", "Dsh.Jobs.C54_killed_violated"], "note": "No signal is sent if nothing fails; a foreign failure kills the foreground job (violated)."},
 {"property": "C55", "status": "partial", "theorems": ["Dsh.Jobs.C55_targets_partial", "Dsh.Jobs.C55_not_self_partial", "Dsh.Jobs.C55_self_kill_violated"], "note": "Signals go only to the job's group; with a builtin first that group is the shell's own (violated)."},
 {"property": "C56", "status": "partial", "theorems": ["Dsh.Jobs.C56_running_partial", "Dsh.Jobs.C56_bg_listed_violated", "Dsh.Jobs.C56_stays_stopped_violated"], "note": "A job never stopped is listed correctly; after bg of a stopped job every check lists it as stopped (violated)."},
 {"property": "C57", "status": "partial", "theorems": ["Dsh.Jobs.C57_single_partial", "Dsh.Jobs.C57_fg_continue_violated"], "note": "The group leader is continued; the other stages of a pipeline are not (violated)."},
 {"property": "C58", "status": "partial", "theorems": ["Dsh.Editor.C58_caret_partial", "Dsh.Editor.C58_lines_partial", "Dsh.Editor.C58_rows_exist"], "note": "Proved for every terminal into which the prompt fits; a prompt wider than the terminal is not covered."},
 {"property": "C59", "status": "partial", "theorems": ["Dsh.Fs.Tools.C59_create_violated", "Dsh.Fs.Tools.C59_overwrite_partial"], "note": "A new file is never created, whatever the request (the rebuilt path ends in a separator and the write fails with EISDIR); overwriting an existing file works and changes exactly that file."},
 {"property": "C60", "status": "partial", "theorems": ["Dsh.Fs.Tools.C60_decline_violated", "Dsh.Fs.Tools.C60_decline_partial"], "note": "The parent directories are made before the question; nothing else changes."},
 {"property": "C61", "status": "partial", "theorems": ["Dsh.Fs.Serve.C61_links_violated", "Dsh.Fs.Serve.C61_links_partial"], "note": "Holds for pages requested with a final slash and names of unreserved characters; fails without the slash and for names that need encoding."},
 {"property": "C62", "status": "partial", "theorems": ["Dsh.Fs.Dmv.C62_violated", "Dsh.Fs.Dmv.C62_substitute_partial"], "note": "Holds for fewer than ten groups with texts free of $; fails when an inserted text contains a reference, and for $10."},
 {"property": "C63", "status": "partial", "theorems": ["C63_again", "C63_typed_partial", "C63_violated"], "note": "Same texts pass at every level; other typed lines unchanged. A one-word line is also an entry for the program on the same list; texts include trailing blanks."},
 {"property": "C64", "status": "partial", "theorems": ["C64_partial", "C64_ascii_partial", "C64_violated"], "note": "Result exactly the clean characters, or a prefix within the limit plus a 14-byte marker; ASCII never panics. Panics when the limit falls inside a character; exceeds the limit by the marker."},
 {"property": "C65", "status": "partial", "theorems": ["C65_agreed", "C65_again", "C65_other_partial", "C65_violated"], "note": "Execution only by permission or agreement; always covers the same call; other calls unchanged if tool names have no colon. Fails for names with a colon."},
 {"property": "C66", "status": "partial", "theorems": ["C66_plain_partial", "C66_violated"], "note": "Plain words: the text runs exactly the approved command. Fails for arguments with operators or blanks."},
 {"property": "C67", "status": "partial", "theorems": ["C67_single_partial", "C67_missing", "C67_violated"], "note": "Texts that are one job get the same answer; missing commands are asked about. Fails for lists: only the first word is looked at."},
 {"property": "C68", "status": "proved", "theorems": ["C68_index", "C68_only"], "note": "Exact in both directions; the sign + is accepted before the digits (as by str::parse)."},
 {"property": "C69", "status": "partial", "theorems": ["C69_typed_partial", "C69_violated"], "note": "Holds from a prompt without a search under way; after a search the old word is kept when the line is changed."},
 {"property": "C70", "status": "partial", "theorems": ["C70_reload_partial", "C70_violated"], "note": "Rows and all local commands not older than the newest row are kept, without repetition. A local command not yet written disappears when another session has written a later one."},
 {"property": "C71", "status": "proved", "theorems": ["C71_search_first"], "note": "For every sequence of writes, loads, prepends, reloads and outcomes."},
 {"property": "C72", "status": "proved", "theorems": ["C72_search"], "note": "For every sequence of operations; lower-casing is an arbitrary function."},
 {"property": "C73", "status": "partial", "theorems": ["C73_startup_partial", "C73_violated"], "note": "Holds when no two rows have the same time; with equal times rows beyond the first 1000 are not loaded."},
 {"property": "C74", "status": "partial", "theorems": ["C74_outcome_partial", "C74_violated"], "note": "Holds once the outcome has been recorded; in between the row shows the outcome of the previous use."},
 {"property": "C75", "status": "partial", "theorems": ["Dsh.Frec.restart_knows_violated", "Dsh.Frec.restart_knows_partial"], "note": "Violated: last_accessed is stored with its fraction and from_file reads it as i64, dropping the row. restart_knows_partial says exactly which directories survive."},
 {"property": "C76", "status": "partial", "theorems": ["Dsh.Frec.cleaning_violated", "Dsh.Frec.cleaned_directory_returns", "Dsh.Frec.saved_directory_stays", "Dsh.Frec.clean_partial"], "note": "Violated: save only inserts or replaces rows, so a cleaned directory comes back at the next synchronisation (general theorem and witness). Holds until then (clean_partial)."},
 {"property": "C77", "status": "partial", "theorems": ["Dsh.Frec.ranks_survive_violated", "Dsh.Frec.restored_item", "Dsh.Frec.restored_order", "Dsh.Frec.saved_numbers_partial"], "note": "Violated for every database: restored entries get reference time 0, so their scores overflow to infinity and counts and times are not restored; every listing after a restart is in row order."},
 {"property": "C78", "status": "partial", "theorems": ["Dsh.Frec.visits_saved_violated", "Dsh.Frec.revisit_blocks_saving", "Dsh.Frec.save_works_iff", "Dsh.Frec.save_keeps_partial"], "note": "Violated: visiting a restored entry makes its score NaN, which the NOT NULL column refuses; the whole transaction fails from then on. Saving works exactly when no number is NaN (save_works_iff, save_keeps_partial)."},
 {"property": "C79", "status": "partial", "theorems": ["secret_option_skipped", "bearer_skipped", "url_parameter_skipped", "option_value_hidden_partial", "short_option_violated", "option_value_violated"], "note": "Skip mode shown for every place in the line; redact mode shown for options (word values, or quoted values without = behind white space, no other candidate option before). Refuted: -pSecret, quoted values behind =, an option swallowing the next one. Missing: redaction of bearer tokens and URL parameters in general."},
 {"property": "C80", "status": "partial", "theorems": ["ordinary_command_stored_partial", "ordinary_command_violated"], "note": "Shown for lines without = and : in which no dash is followed by p, t, s or a. Refuted by mkdir -p."},
 {"property": "C81", "status": "partial", "theorems": ["run_filtered_partial", "unfiltered_sources_violated"], "note": "Lines that are run are filtered; accepted suggestions and imported lines are written as they are."},
 {"property": "C82", "status": "partial", "theorems": ["Dsh.Lisp.C82_two_semicolons_partial", "Dsh.Lisp.C82_two_semicolons_read_partial", "Dsh.Lisp.C82_one_semicolon_violated", "Dsh.Lisp.C82_one_semicolon_read_violated", "Dsh.Lisp.C82_readme_violated", "Dsh.Lisp.C82_readme_words_violated"], "note": "True for comments with two semicolons; false for one semicolon: what follows is read as code, also in the README example."},
 {"property": "C83", "status": "partial", "theorems": ["Dsh.Lisp.C83_config_partial", "Dsh.Lisp.C83_config_violated", "Dsh.Lisp.C83_config_cut_violated"], "note": "Proved for commands without double quotes that are not empty and end in ASCII, and non-blank configurations ending in newlines; false for commands with a quote and a parenthesis."},
 {"property": "C84", "status": "partial", "theorems": ["Dsh.Lisp.C84_parameters_partial", "Dsh.Lisp.C84_missing_argument_violated", "Dsh.Lisp.C84_global_changed_violated"], "note": "True for calls with all arguments; a missing argument leaves the parameter naming the outer variable, which is then read and assigned."},
 {"property": "C85", "status": "partial", "theorems": ["Dsh.Lisp.C85_compare_violated", "Dsh.Lisp.C85_sort_violated", "Dsh.Lisp.C85_sort_partial", "Dsh.Lisp.C85_equal_partial", "Dsh.Lisp.C85_native_violated"], "note": "No ordering comparison ever ends, for any two values, and no list of two or more is ever sorted; == decides equality of values without native functions and floats; a native function is not equal to itself. The insertion sort stands for the standard library sort."},
 {"property": "C86", "status": "partial", "theorems": ["Dsh.Lisp.C86_division_violated", "Dsh.Lisp.C86_arithmetic_partial", "Dsh.Lisp.C86_range_partial", "Dsh.Lisp.C86_range_violated", "Dsh.Lisp.C86_print_function_partial", "Dsh.Lisp.C86_print_function_violated", "Dsh.Lisp.C86_empty_function_violated"], "note": "Division aborts exactly for divisor zero or the minimum divided by -1; range aborts or fills the memory when the end is below the start, and is exact otherwise; printing a function is right for ASCII bodies and aborts for bodies with an odd number of two-byte letters. Floats are not modelled."},
 {"property": "C87", "status": "partial", "theorems": ["Dsh.Lisp.C87_hook_read_partial", "Dsh.Lisp.C87_hooks_called_partial", "Dsh.Lisp.C87_code_violated", "Dsh.Lisp.C87_runs_violated"], "note": "The hook code is the intended call exactly when no text is empty, has a double quote or ends outside ASCII, and then all hooks are called in order with exactly the arguments; for a quoted part of the command, whatever is in it is evaluated as code (shown running a command)."},
 {"property": "C88", "status": "partial", "theorems": ["Dsh.Lisp.C88_rollback_partial", "Dsh.Lisp.C88_completion_violated", "Dsh.Lisp.C88_closure_violated"], "note": "For all programs: every restored setting and every global name is as before, and the Lisp state stays well formed; completions are never taken back, nor variables held by functions. What each native function does to each setting is left open."},
 {"property": "C89", "status": "partial", "theorems": ["Dsh.Lisp.C89_exact_partial", "Dsh.Lisp.C89_overflow_violated", "Dsh.Lisp.C89_single_sum_violated"], "note": "Exact as long as no intermediate result leaves the 64-bit range; beyond, release builds wrap silently and checked builds abort; the sum of one number is an error."},
 {"property": "C90", "status": "partial", "theorems": ["Dsh.Env.C90_assignments_partial", "Dsh.Env.C90_violated"], "note": "For all sequences in which each name is assigned in one of the two ways only; mixing `set -x` and `export` hides the later value."},
 {"property": "C91", "status": "partial", "theorems": ["Dsh.Env.C91_dollar_partial", "Dsh.Env.C91_violated"], "note": "`$NAME` follows `set -x` and `read`; `set` and `export` never change it, and a plain word equal to the name is replaced."},
 {"property": "C92", "status": "partial", "theorems": ["Dsh.Env.C92_add_path_partial", "Dsh.Env.C92_violated"], "note": "Found first until the next refresh; the next cd forgets the directory and programs never see it, for all states."},
 {"property": "C93", "status": "partial", "theorems": ["Dsh.Env.C93_path_partial", "Dsh.Env.C93_violated"], "note": "Holds for words starting with / or ./; all others, like ../x, are searched in PATH."},
 {"property": "C94", "status": "partial", "theorems": ["Dsh.Env.C94_assignments_partial", "Dsh.Env.C94_violated"], "note": "All files of assignments to capital names; a line without = (or without a space in .envrc) ends the shell, for all files."},
 {"property": "C95", "status": "partial", "theorems": ["Dsh.Env.C95_path_add_partial", "Dsh.Env.C95_violated"], "note": "Holds if written with a colon at the end; otherwise the two directory names are glued together, for all states and directories."},
 {"property": "C96", "status": "partial", "theorems": ["Dsh.Env.C96_include_partial", "Dsh.Env.C96_violated"], "note": "Holds for all scripts if nothing was changed since the shell was started; otherwise values equal to those of the process are not applied and later variables not unset."},
 {"property": "C97", "status": "partial", "theorems": ["Dsh.Env.C97_dotenv", "Dsh.Env.C97_path_partial", "Dsh.Env.C97_violated"], "note": "Reading of .env files proved for all files; search path proved without a PATH variable of the user, refuted for programs with one."},
 {"property": "C98", "status": "partial", "theorems": ["Dsh.Env.C98_dash_partial", "Dsh.Env.C98_violated"], "note": "For all sequences where failing changes name missing relative directories; any other failure makes the shell forget the previous directory."},
 {"property": "C99", "status": "partial", "theorems": ["Dsh.Cache.C99_fresh_partial", "Dsh.Cache.C99_violated"], "note": "Fresh when nothing alive is cached for a prefix of the line; refuted: the key is the line alone, without directory and cursor, every use renews the life, and candidates of an earlier word are offered for a later one."}
]}
