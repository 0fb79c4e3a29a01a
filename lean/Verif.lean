import Verif.Io.TtyProps
import Verif.Suggest.Props
import Verif.Parse.Props
import Verif.Parse.Braces
import Verif.Parse.Incomplete
import Verif.Completion.ShellPathProps
import Verif.Completion.Tokens
import Verif.Editor.Props
import Verif.Editor.Layout
import Verif.Jobs.EvalProps
import Verif.Jobs.WaitProps
import Verif.Jobs.TableProps
import Verif.Fs.ToolProps
import Verif.Fs.ServeProps
import Verif.Fs.DmvProps
import Verif.Safety.AiProps
import Verif.Hist.Output
import Verif.Hist.Nav
import Verif.Hist.Store
import Verif.Dirs.FrecencyProps
import Verif.Secrets.Props
import Verif.Lisp.ReadProps
import Verif.Lisp.EvalProps
import Verif.Lisp.Natives
import Verif.Lisp.Hooks
import Verif.Lisp.Rollback
import Verif.Env.Vars
import Verif.Env.Path
import Verif.Env.Direnv
import Verif.Env.Activate
import Verif.Hist.Fish
import Verif.Completion.Cache
import Verif.Completion.Rank
import Verif.Repl.Suggest
import Verif.Repl.Line
import Verif.Repl.Keys
import Verif.Repl.Notebook
import Verif.Repl.Timing
import Verif.Completion.Paths
import Verif.Completion.Defs
import Verif.Completion.DefsProps
import Verif.Completion.CmdLineProps
import Verif.Completion.Menu
import Verif.Completion.MenuLayout
import Verif.Jobs.Wiring
import Verif.Jobs.WiringProps
import Verif.Jobs.WiringList
import Verif.Saved.Model
import Verif.Saved.Props
import Verif.Saved.SafeRun
import Verif.Saved.Tasks
import Verif.Parse.Alias
import Verif.Parse.AliasCmd
import Verif.Repl.Abbr
import Verif.Jobs.Record
import Verif.Jobs.RecordProps
import Verif.Dirs.Jump
import Verif.Dirs.JumpProps
import Verif.Lisp.Table
import Verif.Lisp.TableProps
import Verif.Hist.Listing
import Verif.Hist.ListingProps
import Verif.Dirs.Trigger
import Verif.Dirs.TriggerProps
import Verif.Prompt.Where
import Verif.Prompt.WhereProps
import Verif.Prompt.Git
import Verif.Prompt.GitProps
import Verif.Prompt.Track
import Verif.Prompt.TrackProps
import Verif.Prompt.Tools
import Verif.Prompt.ToolsProps
import Verif.Repl.Palette
import Verif.Repl.PaletteProps
import Verif.Repl.Title
import Verif.Repl.TitleProps
import Verif.Env.Commands
import Verif.Env.CommandsProps
import Verif.Safety.Ignore
import Verif.Safety.IgnoreProps
import Verif.Repl.Paint
import Verif.Repl.PaintProps
import Verif.Tools.Git
import Verif.Tools.GitProps
import Verif.Completion.Explain
import Verif.Completion.ExplainProps
import Verif.Tools.Procs
import Verif.Tools.ProcsProps
import Verif.Completion.Live
import Verif.Completion.LiveProps
import Verif.Completion.Sources
import Verif.Completion.SourcesProps
import Verif.Chat.Talk
import Verif.Chat.TalkProps
import Verif.Chat.Setup
import Verif.Chat.SetupProps
import Verif.Chat.Markdown
import Verif.Chat.MarkdownProps
import Verif.Chat.Mcp
import Verif.Chat.McpProps
import Verif.Completion.Generated
import Verif.Completion.GeneratedProps
import Verif.Repl.AiSuggest
import Verif.Repl.AiSuggestProps
import Verif.Repl.AiHelp
import Verif.Repl.AiHelpProps
import Verif.Repl.AiHelpMore
import Verif.Dirs.Projects
import Verif.Dirs.ProjectsProps
import Verif.Prompt.GitHub
import Verif.Prompt.GitHubProps
import Verif.Repl.AiTab
import Verif.Repl.AiTabProps
import Verif.Tools.Doctor
import Verif.Tools.DoctorProps
import Verif.Fs.ServePage
import Verif.Fs.ServePageProps
import Verif.Tools.Context
import Verif.Tools.ContextProps
import Verif.Lisp.Settings
import Verif.Lisp.SettingsProps
import Verif.Lisp.Sh
import Verif.Lisp.ShProps
import Verif.Hist.Start
import Verif.Hist.StartProps
import Verif.Repl.Modes
import Verif.Repl.ModesProps
import Verif.Env.DirenvFail
import Verif.Saved.Jsonc
import Verif.Completion.Autocomplete
import Verif.Completion.SysCommands
import Verif.Env.Process
import Verif.Completion.Known
import Verif.Tools.Gpr
import Verif.Dirs.Start
import Verif.Completion.SysNames
import Verif.Jobs.Streams
import Verif.Tools.Tm
import Verif.Hist.Open
import Verif.Completion.Kept
import Verif.Jobs.Return
import Verif.Jobs.Groups
import Verif.Fs.DmvPattern
import Verif.Hist.Pick
import Verif.Jobs.TtyModes
import Verif.Tools.Worktree
import Verif.Repl.Transient
import Verif.Repl.Hint
import Verif.Jobs.BgOutput
import Verif.Repl.AiPipe
