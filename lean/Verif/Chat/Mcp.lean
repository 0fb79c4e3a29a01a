import Verif.Jobs.Record
import Verif.Suggest.Model
/-!
# Servers with tools for the AI

`dsh-builtin/src/chatgpt/mcp/mod.rs` (here just mod.rs), `dsh/src/environment/mcp.rs`, `dsh/src/lisp/stdlib/mcp.rs`, `reload_mcp_config`
in `dsh/src/shell/mod.rs`.

Simplified: how a server is reached (`McpTransport`) is a number, and what it answers when it is asked for its
tools is a parameter of each operation: nothing, or the pages of its list. Arguments and results of tools are left
out, and so are warnings and times. A `HashMap` is a list of its entries, in the order they came.
-/
namespace Dsh.Mcp

abbrev Str := List Char

structure Tool where
  name : Str
  desc : Option Str
deriving DecidableEq

/-- `McpServerConfig` (dsh-types/src/mcp.rs:7-12). -/
structure Config where
  label : Str
  desc : Option Str
  way : Nat
deriving DecidableEq

/-- `McpServer` (mod.rs:62-67). -/
structure Server where
  conf : Config
  tools : List Tool
deriving DecidableEq

/-- `ToolBinding` (mod.rs:143-147) without the name it is stored under. -/
structure Bind where
  label : Str
  tool : Str
deriving DecidableEq

/-- `McpManager` (mod.rs:169-177): servers, what each function name stands for, servers found to answer, errors. -/
structure Mgr where
  servers : List Server := []
  binds : List (Str × Bind) := []
  online : List Str := []
  errs : List Str := []
deriving DecidableEq

/-- What servers answer: pages of tools. -/
abbrev World := Nat → Option (List (List Tool))

/-- `list_tools_via_transport` (mod.rs:914-974): one page is asked for. -/
def listTools (w : World) (way : Nat) : Option (List Tool) := (w way).map (fun ps => ps.headD [])

/-! ### Names -/

/-- `replace("__", "_")`. -/
def halve : Str → Str
  | '_' :: '_' :: cs => '_' :: halve cs
  | c :: cs => c :: halve cs
  | [] => []

/-- `contains("__")`. -/
def hasPair : Str → Bool
  | '_' :: '_' :: _ => true
  | _ :: cs => hasPair cs
  | [] => false

/-- The loop of mod.rs:1063-1065. -/
def squeeze : Nat → Str → Str
  | 0, s => s
  | n + 1, s => if hasPair s then squeeze n (halve s) else s

/-- `trim_matches('_')`. -/
def trimUnder (s : Str) : Str := ((s.dropWhile (· = '_')).reverse.dropWhile (· = '_')).reverse

/-- `sanitize_identifier` (mod.rs:1047-1073). -/
def sanitize (s : Str) : Str :=
  let r := s.map (fun c => if c.isAlphanum then c.toLower else '_')
  let r := if r.isEmpty then ['x'] else r
  let t := trimUnder (squeeze r.length r)
  if t.isEmpty then c!"mcp_tool" else t

/-- `unique_name` (mod.rs:1075-1089); the loop ends within one round more than there are names. -/
def uniqueName (base : Str) (used : List Str) : Str :=
  if base ∉ used then base
  else (((List.range (used.length + 1)).map (fun k => base ++ '_' :: Record.dec (k + 2))).find? (fun n => decide (n ∉ used))).getD base

/-- The name wanted for a tool (mod.rs:682-686). -/
def baseName (label tool : Str) : Str := c!"mcp__" ++ sanitize label ++ c!"__" ++ sanitize tool

/-- Names for the tools of a server (mod.rs:680-697, 855-873). -/
def bindAll (label : Str) : List Tool → List (Str × Bind) → List (Str × Bind)
  | [], bs => bs
  | t :: ts, bs => bindAll label ts (bs ++ [(uniqueName (baseName label t.name) (bs.map (·.1)), ⟨label, t.name⟩)])

/-! ### Changing the servers -/

/-- `register_server` (mod.rs:847-877). -/
def Mgr.register (m : Mgr) (s : Server) : Bool × Mgr :=
  if m.servers.any (fun x => decide (x.conf.label = s.conf.label)) then (false, m)
  else (true, { m with binds := bindAll s.conf.label s.tools m.binds, servers := m.servers ++ [s] })

/-- `add_server_blocking` (mod.rs:714-721). -/
def Mgr.add (w : World) (m : Mgr) (c : Config) : Bool × Mgr :=
  match listTools w c.way with
  | none => (false, m)
  | some ts => m.register ⟨c, ts⟩

/-- `remove_server` (mod.rs:724-735). -/
def Mgr.remove (m : Mgr) (label : Str) : Mgr :=
  if m.servers.any (fun x => decide (x.conf.label = label)) then
    { servers := m.servers.filter (fun x => decide (x.conf.label ≠ label)), binds := m.binds.filter (fun b => decide (b.2.label ≠ label)),
      online := m.online.filter (· ≠ label), errs := m.errs.filter (· ≠ label) }
  else m

/-- `replace_server_blocking` (mod.rs:737-746). -/
def Mgr.replace (w : World) (m : Mgr) (c : Config) : Bool × Mgr :=
  match listTools w c.way with
  | none => (false, m)
  | some ts => (m.remove c.label).register ⟨c, ts⟩

/-- The servers that count: labels are not blank, and the first with a label is taken (mod.rs:579-592, 761-775). -/
def valid : List Config → List Str → List Config
  | [], _ => []
  | c :: cs, seen =>
    if (trim c.label).isEmpty then valid cs seen
    else if c.label ∈ seen then valid cs seen
    else c :: valid cs (c.label :: seen)

/-- `server_configs` (mod.rs:267-276). -/
def Mgr.configs (m : Mgr) : List Config := m.servers.map (·.conf)

/-- One wanted server (mod.rs:790-815); `old` are the servers there were. -/
def Mgr.want (w : World) (old : List Config) (m : Mgr) (d : Config) : Mgr :=
  match old.find? (fun c => decide (c.label = d.label)) with
  | some c => if c = d then m else (m.replace w d).2
  | none => (m.add w d).2

/-- `sync_servers_blocking` (mod.rs:754-818). -/
def Mgr.sync (w : World) (m : Mgr) (desired : List Config) : Mgr :=
  let ds := valid desired []
  let gone := (m.configs.map (·.label)).filter (fun l => decide (l ∉ ds.map (·.label)))
  (sortBy (fun a b => Suggest.strLe a.label b.label) ds).foldl (Mgr.want w m.configs) ((sortBy Suggest.strLe gone).foldl Mgr.remove m)

/-- `McpToolCache` (mod.rs:77-79): for a label the hash of the configuration and the tools. -/
abbrev Cache := List (Str × Nat × List Tool)

def Cache.put (c : Cache) (label : Str) (e : Nat × List Tool) : Cache := (label, e) :: c.filter (fun x => decide (x.1 ≠ label))

/-- Tools of a server, remembered or asked for (mod.rs:600-624). -/
def toolsOf (w : World) (hash : Config → Nat) (cache : Cache) (c : Config) : Option (List Tool) :=
  match cache.lookup c.label with
  | some e => if e.1 = hash c then some e.2 else listTools w c.way
  | none => listTools w c.way

/-- `build_from_servers` (mod.rs:572-706): the manager and what is remembered. -/
def load (w : World) (hash : Config → Nat) (cache : Cache) (cs : List Config) : Mgr × Cache :=
  let servers := (valid cs []).filterMap (fun c => (toolsOf w hash cache c).map (fun ts => (⟨c, ts⟩ : Server)))
  ({ servers := servers, binds := servers.foldl (fun bs s => bindAll s.conf.label s.tools bs) [] },
    servers.foldl (fun k s => k.put s.conf.label (hash s.conf, s.tools)) cache)

/-! ### Being told of tools, and calling them -/

/-- The text about a tool (mod.rs:415-429). -/
def describe (c : Config) (t : Tool) : Str :=
  match c.desc, t.desc with
  | some a, some b =>
    if a ≠ [] then c!"MCP server `" ++ c.label ++ c!"` — " ++ a ++ c!"\nTool `" ++ t.name ++ c!"`: " ++ b
    else if b ≠ [] then c!"MCP server `" ++ c.label ++ c!"` tool `" ++ t.name ++ c!"`: " ++ b
    else c!"MCP server `" ++ c.label ++ c!"` tool `" ++ t.name ++ c!"`"
  | some a, none =>
    if a ≠ [] then c!"MCP server `" ++ c.label ++ c!"` — " ++ a ++ c!"\nTool `" ++ t.name ++ c!"`"
    else c!"MCP server `" ++ c.label ++ c!"` tool `" ++ t.name ++ c!"`"
  | none, some b =>
    if b ≠ [] then c!"MCP server `" ++ c.label ++ c!"` tool `" ++ t.name ++ c!"`: " ++ b
    else c!"MCP server `" ++ c.label ++ c!"` tool `" ++ t.name ++ c!"`"
  | none, none => c!"MCP server `" ++ c.label ++ c!"` tool `" ++ t.name ++ c!"`"

/-- `tool_definitions` (mod.rs:401-443): names and texts. -/
def Mgr.definitions (m : Mgr) : List (Str × Str) :=
  m.binds.filterMap (fun b =>
    (m.servers.find? (fun s => decide (s.conf.label = b.2.label))).bind (fun s =>
      (s.tools.find? (fun t => decide (t.name = b.2.tool))).map (fun t => (b.1, describe s.conf t))))

/-- `execute_tool` (mod.rs:487-536): the server and the tool that is called. -/
def Mgr.execute (m : Mgr) (f : Str) : Option (Nat × Str) :=
  match m.binds.lookup f with
  | none => none
  | some b => (m.servers.find? (fun s => decide (s.conf.label = b.label))).map (fun s => (s.conf.way, b.tool))

/-- What the AI is told of a call (ai_features/service.rs:230-234); `run` is what the tool answers. -/
def Mgr.told (run : Nat × Str → Str) (m : Mgr) (f : Str) : Str :=
  ((m.execute f).map run).getD c!"Tool executed successfully (no output)"

/-! ### Connections -/

inductive Status where
  | connected | error | disconnected
deriving DecidableEq

/-- The state of a server (mod.rs:284-315). -/
def Mgr.status (m : Mgr) (label : Str) : Status :=
  if label ∈ m.online then .connected else if label ∈ m.errs then .error else .disconnected

/-- `connect` (mod.rs:352-384). -/
def Mgr.connect (w : World) (m : Mgr) (label : Str) : Bool × Mgr :=
  match m.servers.find? (fun s => decide (s.conf.label = label)) with
  | none => (false, m)
  | some s =>
    match listTools w s.conf.way with
    | some _ => (true, { m with online := label :: m.online.filter (· ≠ label), errs := m.errs.filter (· ≠ label) })
    | none => (false, { m with errs := label :: m.errs.filter (· ≠ label) })

/-- `disconnect` (mod.rs:387-391). -/
def Mgr.disconnect (m : Mgr) (label : Str) : Bool × Mgr := (true, { m with online := m.online.filter (· ≠ label) })

/-- The expression of `mcp connect` (dsh-builtin/src/mcp.rs:83-90). -/
def connectCode (label : Str) : Str := c!"(mcp-connect \"" ++ label ++ c!"\")"

/-- `mcp connect` with a label the expression can hold: exit status and servers (dsh-builtin/src/mcp.rs:83-90,
proxy/builtin/lisp.rs:10-20). -/
def connectCommand (w : World) (m : Mgr) (label : Str) : Nat × Mgr := (0, (m.connect w label).2)

/-- The first bytes of a text; nothing if that is inside a character. -/
def takeBytes : Nat → Str → Option Str
  | 0, _ => some []
  | _ + 1, [] => none
  | n + 1, c :: cs => if c.utf8Size ≤ n + 1 then (takeBytes (n + 1 - c.utf8Size) cs).map (c :: ·) else none

def bytes (s : Str) : Nat := (s.map Char.utf8Size).sum

/-- The text in `mcp-list-tools` (lisp/stdlib/mcp.rs:164-169); nothing stands for a panic. -/
def clip (desc : Str) : Option Str :=
  if bytes desc > 50 then (takeBytes 47 desc).map (· ++ c!"...") else some desc

/-- `mcp-list-tools` (lisp/stdlib/mcp.rs:133-177): the lines. -/
def Mgr.listing (m : Mgr) : Option (List (Str × Str)) := m.definitions.mapM (fun d => (clip d.2).map (d.1, ·))

/-! ### The shell -/

/-- The servers set, whether the configuration is being read, and the manager. -/
structure Shell where
  wanted : List Config := []
  startup : Bool := false
  mgr : Mgr := {}

/-- `add_mcp_server` (environment/mcp.rs:13-23). -/
def Shell.add (w : World) (s : Shell) (c : Config) : Shell :=
  { s with mgr := if s.startup then s.mgr else (s.mgr.add w c).2, wanted := s.wanted ++ [c] }

/-- `clear_mcp_servers` (environment/mcp.rs:8-10). -/
def Shell.clear (s : Shell) : Shell := { s with wanted := [] }

/-- `reload_mcp_config` (shell/mod.rs:261-299), as if it were done at once. -/
def Shell.sync (w : World) (s : Shell) : Shell :=
  { s with mgr := if s.mgr.configs = s.wanted then s.mgr else s.mgr.sync w s.wanted }

/-- The configuration is read again (lisp/mod.rs:95-124, proxy/builtin/reload.rs:10-40); it adds these servers. -/
def Shell.reload (w : World) (s : Shell) (cs : List Config) : Shell :=
  let s1 := cs.foldl (Shell.add w) { s with startup := true, wanted := [] }
  ({ s1 with startup := s.startup } : Shell).sync w

end Dsh.Mcp
