import Verif.Parse.Peg
/-!
The shell grammar `dsh/src/shell.pest`, rule by rule (line numbers of that file).
-/
namespace Dsh.Shell
open Dsh.Peg PExp

/-- Rule names of `shell.pest` (the derive generates `parser::Rule`). -/
inductive R where
  | sp | word_char | escape_sequence | word | variable | glob_char | glob_remaining_char | glob_word
  | brace_word | s_quoted | s_quoted_inner | literal_s_quoted | d_quoted | d_quoted_inner
  | literal_d_quoted | proc_subst_direction_in | proc_subst_direction | proc_subst | command_subst
  | subshell | group_list | quoted | stdin_redirect_direction_in | stdouterr_redirect_direction_out
  | stdouterr_redirect_direction_append | stderr_redirect_direction_out
  | stderr_redirect_direction_append | stdout_redirect_direction_out
  | stdout_redirect_direction_append | stdouterr_redirect_direction | stderr_redirect_direction
  | stdout_redirect_direction | stdin_redirect_direction | redirect | span | argv0 | args
  | background_op | capture_op | struct_pipe_op | pipeline_op | sequential_op | and_op | or_op
  | command_list_sep | simple_command | simple_command_bg | pipe_command | struct_pipe_command
  | lisp_expr | lisp_inner | capture_suffix | command | commands
deriving DecidableEq, Repr, Inhabited

/-- Characters that `word_char` excludes (shell.pest:3). -/
def metaChars : List Char :=
  ['|', '&', ';', ' ', '\t', '\r', '\n', '`', '{', '}', '<', '>', '(', ')', '$', '"', '\'', '*',
   '?', '[', ']', '\\']

/-- A literal of one character. -/
def ch (c : Char) : PExp R := .str [c]

/-- Rule bodies (shell.pest:1-73). -/
def body : R → PExp R
  -- 1
  | .sp => alts [ch ' ', ch '\t', ch '\r']
  -- 2-4
  | .word_char => .seq (.neg (alts (metaChars.map ch))) .any
  -- 5
  | .escape_sequence => .seq (ch '\\') .any
  -- 7
  | .word => plus (.alt (.rule .escape_sequence) (.rule .word_char))
  -- 8
  | .variable => .seq (ch '$') (.rule .word)
  -- 9
  | .glob_char => alts [ch '*', ch '?', ch '[']
  -- 10
  | .glob_remaining_char =>
    alts [.rule .word_char, .rule .glob_char, ch ']', ch '{', ch '}', .rule .escape_sequence]
  -- 11
  | .glob_word => seqs [.star (.alt (.rule .word_char) (.rule .escape_sequence)), .rule .glob_char,
      .star (.rule .glob_remaining_char)]
  -- 13
  | .brace_word =>
    seqs [.star (alts [.rule .word_char, .rule .escape_sequence, .rule .glob_char]), ch '{',
      .star (.rule .glob_remaining_char)]
  -- 15
  | .s_quoted => seqs [ch '\'', .star (.rule .s_quoted_inner), ch '\'']
  -- 16-18
  | .s_quoted_inner => .rule .literal_s_quoted
  -- 19
  | .literal_s_quoted => plus (alts [.str ['\\', '\''], .seq (.neg (ch '\'')) .any, .rule .sp])
  -- 21
  | .d_quoted => seqs [ch '"', .star (.rule .d_quoted_inner), ch '"']
  -- 22-24
  | .d_quoted_inner => .rule .literal_d_quoted
  -- 25-27
  | .literal_d_quoted =>
    plus (alts [.seq (.neg (alts [ch '"', ch '\\', ch '`', ch '$'])) .any, .seq (ch '\\') .any,
      .rule .sp])
  -- 29-30
  | .proc_subst_direction_in => .str ['<', '(']
  | .proc_subst_direction => .rule .proc_subst_direction_in
  -- 31
  | .proc_subst => seqs [.rule .proc_subst_direction, .rule .group_list, ch ')']
  -- 32
  | .command_subst => seqs [.str ['$', '('], .star (.rule .sp), .rule .group_list,
      .star (.rule .sp), ch ')']
  -- 33
  | .subshell => seqs [ch '(', .rule .group_list, ch ')']
  -- 34-36
  | .group_list => .rule .commands
  -- 38
  | .quoted => .alt (.rule .d_quoted) (.rule .s_quoted)
  -- 40-46
  | .stdin_redirect_direction_in => ch '<'
  | .stdouterr_redirect_direction_out => .str ['&', '>']
  | .stdouterr_redirect_direction_append => .str ['&', '>', '>']
  | .stderr_redirect_direction_out => .str ['2', '>']
  | .stderr_redirect_direction_append => .str ['2', '>', '>']
  | .stdout_redirect_direction_out => ch '>'
  | .stdout_redirect_direction_append => .str ['>', '>']
  -- 47-50
  | .stdouterr_redirect_direction =>
    .alt (.rule .stdouterr_redirect_direction_append) (.rule .stdouterr_redirect_direction_out)
  | .stderr_redirect_direction =>
    .alt (.rule .stderr_redirect_direction_append) (.rule .stderr_redirect_direction_out)
  | .stdout_redirect_direction =>
    .alt (.rule .stdout_redirect_direction_append) (.rule .stdout_redirect_direction_out)
  | .stdin_redirect_direction => .rule .stdin_redirect_direction_in
  -- 51
  | .redirect => seqs [alts [.rule .stdouterr_redirect_direction, .rule .stderr_redirect_direction,
      .rule .stdout_redirect_direction, .rule .stdin_redirect_direction], .star (.rule .sp),
      .rule .span]
  -- 52
  | .span => alts [.rule .quoted, .rule .glob_word, .rule .brace_word, .rule .word, .rule .variable,
      .rule .proc_subst, .rule .subshell, .rule .command_subst]
  -- 53
  | .argv0 => .rule .span
  -- 54
  | .args => plus (.seq (.star (.rule .sp)) (.alt (.rule .redirect) (.rule .span)))
  -- 56-62
  | .background_op => .seq (.neg (.str ['&', '&'])) (ch '&')
  | .capture_op => .str ['|', '>']
  | .struct_pipe_op => .str ['|', ':']
  | .pipeline_op => .seq (.neg (.alt (.str ['|', '>']) (.str ['|', ':']))) (ch '|')
  | .sequential_op => ch ';'
  | .and_op => .str ['&', '&']
  | .or_op => .str ['|', '|']
  -- 64
  | .command_list_sep => alts [.rule .sequential_op, .rule .and_op, .rule .or_op]
  -- 65
  | .simple_command => seqs [.star (.rule .sp), .rule .argv0, .star (.rule .args)]
  -- 66
  | .simple_command_bg => seqs [.rule .simple_command, .star (.rule .sp), .rule .background_op]
  -- 67
  | .pipe_command => seqs [.rule .pipeline_op, .star (.rule .sp),
      .alt (.rule .simple_command_bg) (.rule .simple_command), .star (.rule .sp)]
  -- 68
  | .struct_pipe_command => seqs [.rule .struct_pipe_op, .star (.rule .sp), .rule .lisp_expr,
      .star (.rule .sp)]
  -- 69
  | .lisp_expr => seqs [ch '(', .star (.rule .lisp_inner), ch ')']
  -- 70
  | .lisp_inner => .alt (.seq (.neg (.alt (ch ')') (ch '('))) .any) (.rule .lisp_expr)
  -- 71
  | .capture_suffix => .seq (.star (.rule .sp)) (.rule .capture_op)
  -- 72
  | .command => seqs [.star (.alt (.seq (.star (.rule .sp)) (.rule .simple_command_bg))
        (.rule .simple_command)), .star (.rule .sp),
      .star (.alt (.rule .struct_pipe_command) (.rule .pipe_command)),
      .opt (.rule .capture_suffix)]
  -- 73
  | .commands => .seq (.seq (.star (.rule .sp)) (.rule .command))
      (.star (seqs [.rule .command_list_sep, .star (.rule .sp), .rule .command]))

/-- Silent rules `_{ … }` (shell.pest:1,2,9,10,16,22,34,38,70). -/
def silent : R → Bool
  | .sp | .word_char | .glob_char | .glob_remaining_char | .s_quoted_inner | .d_quoted_inner
  | .group_list | .quoted | .lisp_inner => true
  | _ => false

/-- The grammar. -/
def G : Grammar R := ⟨body, silent⟩

/-- Rules that can match the empty string. -/
def null : R → Bool
  | .group_list | .command | .commands => true
  | _ => false

/-- Call order before consumption. -/
def rank : R → Nat
  | .sp | .word_char | .escape_sequence | .glob_char | .proc_subst_direction_in
  | .stdin_redirect_direction_in | .stdouterr_redirect_direction_out
  | .stdouterr_redirect_direction_append | .stderr_redirect_direction_out
  | .stderr_redirect_direction_append | .stdout_redirect_direction_out
  | .stdout_redirect_direction_append | .background_op | .capture_op | .struct_pipe_op
  | .pipeline_op | .sequential_op | .and_op | .or_op | .lisp_expr => 0
  | .variable | .subshell | .command_subst | .s_quoted | .d_quoted => 0
  | .word | .glob_remaining_char | .glob_word | .brace_word | .literal_s_quoted | .literal_d_quoted
  | .proc_subst_direction | .quoted | .stdouterr_redirect_direction | .stderr_redirect_direction
  | .stdout_redirect_direction | .stdin_redirect_direction | .command_list_sep | .pipe_command
  | .struct_pipe_command | .lisp_inner | .capture_suffix => 1
  | .s_quoted_inner | .d_quoted_inner | .proc_subst | .redirect => 2
  | .span => 3
  | .argv0 => 4
  | .args => 4
  | .simple_command => 5
  | .simple_command_bg => 6
  | .command => 7
  | .commands => 8
  | .group_list => 9

/-- The grammar is well-formed: no left recursion, no repetition of empty matches. -/
def wf : WF G where
  null := null
  rank := rank
  top := 10
  bodySize := 80
  null_ok := by intro r; cases r <;> decide
  star_ok := by intro r; cases r <;> decide
  rank_ok := by intro r; cases r <;> decide
  rank_lt := by intro r; cases r <;> decide
  size_ok := by intro r; cases r <;> decide

/-- `ShellParser::parse(Rule::commands, input)`. -/
def parseCommands (input : List Char) : Out R := parse wf .commands input

end Dsh.Shell
