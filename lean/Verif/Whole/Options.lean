/-!
# C100: the options of the command line (`src/options.go`, `src/Mods/dmt/dmt.go`)

The options are declared in a fixed order (`buildOptions`), the command line is read by the package `flag` of Go, and then the functions of all options
are called in the order of their declaration (`initOpts`). They set variables that are read by the rest of the program.

Simplifications. The package `flag` is modelled as documented; how it reads an integer is a parameter. `-debug` is read, but what it prints is not modelled. Arguments are
lists of characters. Files are written without errors.
-/

namespace Verif.Options

/-! ### Options -/

/-- The boolean options (src/options.go:107-428, src/Mods/dmt/dmt.go:58-59). -/
inductive BOpt where
  | silent | show_trace | wlogs | version | nd | one_step | exchanges | proof | pretty | dmt
  | noeq | type_proof | dmt_before_eq | ari | completeness | orocq | otptp | osctptp | olp | context
  | inner | preinner | assisted | sateq | eagereq | increq | chrono | incr | vec | print_id
  | quoted_pred | quiet | flatten | no_type_check | list_debuggers | polarized | presko
deriving DecidableEq

/-- The options with an integer (src/options.go:174-179, 245-250). -/
inductive IOpt where
  | l | core_limit
deriving DecidableEq

/-- The options with a text (src/options.go:108-113, 122-127, 151-162, 373-380). -/
inductive SOpt where
  | debug | log | cpuprofile | memprofile | proof_file
deriving DecidableEq

inductive Flag where
  | bool (o : BOpt)
  | int (o : IOpt)
  | str (o : SOpt)
deriving DecidableEq

/-- The names of the options. -/
def Flag.text : Flag → String
  | .bool .silent => "silent"
  | .bool .show_trace => "show_trace"
  | .bool .wlogs => "wlogs"
  | .bool .version => "version"
  | .bool .nd => "nd"
  | .bool .one_step => "one_step"
  | .bool .exchanges => "exchanges"
  | .bool .proof => "proof"
  | .bool .pretty => "pretty"
  | .bool .dmt => "dmt"
  | .bool .noeq => "noeq"
  | .bool .type_proof => "type_proof"
  | .bool .dmt_before_eq => "dmt_before_eq"
  | .bool .ari => "ari"
  | .bool .completeness => "completeness"
  | .bool .orocq => "orocq"
  | .bool .otptp => "otptp"
  | .bool .osctptp => "osctptp"
  | .bool .olp => "olp"
  | .bool .context => "context"
  | .bool .inner => "inner"
  | .bool .preinner => "preinner"
  | .bool .assisted => "assisted"
  | .bool .sateq => "sateq"
  | .bool .eagereq => "eagereq"
  | .bool .increq => "increq"
  | .bool .chrono => "chrono"
  | .bool .incr => "incr"
  | .bool .vec => "vec"
  | .bool .print_id => "print-id"
  | .bool .quoted_pred => "quoted_pred"
  | .bool .quiet => "quiet"
  | .bool .flatten => "flatten"
  | .bool .no_type_check => "no-type-check"
  | .bool .list_debuggers => "list-debuggers"
  | .bool .polarized => "polarized"
  | .bool .presko => "presko"
  | .int .l => "l"
  | .int .core_limit => "core_limit"
  | .str .debug => "debug"
  | .str .log => "log"
  | .str .cpuprofile => "cpuprofile"
  | .str .memprofile => "memprofile"
  | .str .proof_file => "proof_file"

abbrev Arg := List Char

def Flag.name (f : Flag) : Arg := f.text.toList

def allFlags : List Flag := [.bool .silent, .bool .show_trace, .bool .wlogs, .bool .version, .bool .nd, .bool .one_step, .bool .exchanges, .bool .proof, .bool .pretty, .bool .dmt, .bool .noeq, .bool .type_proof, .bool .dmt_before_eq, .bool .ari, .bool .completeness, .bool .orocq, .bool .otptp, .bool .osctptp, .bool .olp, .bool .context, .bool .inner, .bool .preinner, .bool .assisted, .bool .sateq, .bool .eagereq, .bool .increq, .bool .chrono, .bool .incr, .bool .vec, .bool .print_id, .bool .quoted_pred, .bool .quiet, .bool .flatten, .bool .no_type_check, .bool .list_debuggers, .bool .polarized, .bool .presko,
  .int .l, .int .core_limit, .str .debug, .str .log, .str .cpuprofile, .str .memprofile, .str .proof_file]

/-- The values of all options. -/
structure Vals where
  b : BOpt → Bool
  i : IOpt → Int
  s : SOpt → Arg

/-- The value of one option. -/
inductive Val where
  | b (x : Bool)
  | i (x : Int)
  | s (x : Arg)
deriving DecidableEq

/-- The default values. -/
def Flag.dflt : Flag → Val
  | .bool _ => .b false
  | .int _ => .i (-1)
  | .str .debug => .s "none".toList
  | .str .log => .s "logs".toList
  | .str .cpuprofile => .s []
  | .str .memprofile => .s []
  | .str .proof_file => .s "problem_proof".toList

def Vals.init : Vals := ⟨fun _ => false, fun _ => -1, fun o => match o with
  | .debug => "none".toList
  | .log => "logs".toList
  | .cpuprofile => []
  | .memprofile => []
  | .proof_file => "problem_proof".toList⟩

/-! ### Reading the command line (package `flag` of Go, as documented) -/

/-- `strconv.ParseBool`. -/
def parseBool (s : Arg) : Option Bool :=
  if s ∈ ["1", "t", "T", "true", "TRUE", "True"].map String.toList then some true
  else if s ∈ ["0", "f", "F", "false", "FALSE", "False"].map String.toList then some false
  else none

/-- The value of an option is set. -/
def Vals.set (v : Vals) : Flag → Val → Vals
  | .bool o, .b x => { v with b := fun p => if p = o then x else v.b p }
  | .int o, .i x => { v with i := fun p => if p = o then x else v.i p }
  | .str o, .s x => { v with s := fun p => if p = o then x else v.s p }
  | _, _ => v

/-- A text is split at its first `=`, which is not its first character. -/
def splitEq : Arg → Arg × Option Arg
  | [] => ([], none)
  | c :: s => match s with
    | '=' :: t => ([c], some t)
    | _ => let (a, r) := splitEq s; (c :: a, r)

def find (s : Arg) : Option Flag := allFlags.find? fun f => f.name = s

/-- The text of a value. -/
def parseVal (pInt : Arg → Option Int) : Flag → Arg → Option Val
  | .bool _, s => (parseBool s).map .b
  | .int _, s => (pInt s).map .i
  | .str _, s => some (.s s)

/-- What `parseOne` sees at the beginning of the arguments: nothing more to read, an option with or without `=`, or an error. -/
inductive Seen where
  | done
  | last
  | flag (name : Arg) (value : Option Arg)
  | bad

def see (s : Arg) : Seen :=
  match s with
  | '-' :: c :: r =>
    let name := if c = '-' then r else c :: r
    match name with
    | [] => .last
    | d :: _ => if d = '-' ∨ d = '=' then .bad else let (a, v) := splitEq name; .flag a v
  | _ => .done

/-- `flag.Parse`: the values and the arguments that are left; `none`: a message is printed and the program ends. -/
def parse (pInt : Arg → Option Int) : List Arg → Vals → Option (Vals × List Arg)
  | [], v => some (v, [])
  | s :: rest, v => match see s with
    | .done => some (v, s :: rest)
    | .last => some (v, rest)
    | .bad => none
    | .flag name val => match find name with
      | none => none
      | some f => match f, val with
        | .bool o, none => parse pInt rest (v.set (.bool o) (.b true))
        | f, some x => match parseVal pInt f x with
          | none => none
          | some y => parse pInt rest (v.set f y)
        | f, none => match rest with
          | [] => none
          | x :: rest => match parseVal pInt f x with
            | none => none
            | some y => parse pInt rest (v.set f y)

/-! ### The settings -/

/-- The search: the main one with its own rules or those of the assisted mode, or the incremental one (src/Search/search.go:55-75). -/
inductive Algo where
  | main (assisted : Bool)
  | incremental
deriving DecidableEq

inductive Sko where
  | outer | inner | preinner
deriving DecidableEq

inductive Eq' where
  | off | bse | sat
deriving DecidableEq

/-- The outputs for proofs (src/Search/print_proof.go:52-56). -/
inductive Fmt where
  | text | rocq | tptp | lambdapi
deriving DecidableEq

/-- The printer of formulas (src/AST/modular-printing.go:292-366): its connectives and what is done with identifiers. -/
structure Printer where
  rocq : Bool := false
  pretty : Bool := false
  ids : Bool := false
  quotes : Bool := false
deriving DecidableEq

/-- The variables that are set by the options (src/Glob/helper.go:51-98 and others). -/
structure Settings where
  silent : Bool := false
  quiet : Bool := false
  trace : Bool := false
  logName : Arg := []
  logTo : Option Arg := none
  version : Bool := false
  listDbg : Bool := false
  cpu : Arg := []
  mem : Arg := []
  algo : Algo := .main false
  assisted : Bool := false
  limit : Int := -1
  oneStep : Bool := false
  exchanges : Bool := false
  proof : Bool := false
  outs : List Fmt := []
  sc : Bool := false
  printer : Printer := {}
  dmt : Bool := false
  dmtMode : Bool × Bool := (false, false)
  tryEq : Bool := false
  eqStruct : Eq' := .off
  dmtFirst : Bool := false
  cores : Int := -1
  complete : Bool := false
  context : Bool := false
  sko : Sko := .outer
  eagerEq : Bool := false
  incrEq : Bool := false
  chrono : Bool := false
  proofFile : Arg := []
  flatten : Bool := false
  typeCheck : Bool := true

/-- `math.MaxInt`. -/
def maxInt : Int := 2 ^ 63 - 1

/-- A setting that is made if a boolean option is given. -/
def on (x : Bool) (f : Settings → Settings) (s : Settings) : Settings := if x then f s else s

/-- `doFunctions` for all options in the order of `buildOptions` (src/options.go:51-58, 90-97, 107-428). `-nd` ends the program
(src/Search/nonDestructiveSearch.go:50-55); `-ari` and `-type_proof` set variables that nothing reads (src/Glob/helper.go:238-244). -/
def steps (v : Vals) : List (Settings → Settings) := [
  on (v.b .silent) fun s => { s with silent := true },
  fun s => { s with logName := v.s .log },
  on (v.b .show_trace) fun s => { s with trace := true },
  on (v.b .wlogs) fun s => { s with logTo := some s.logName },
  on (v.b .version) fun s => { s with version := true },
  fun s => { s with cpu := v.s .cpuprofile },
  fun s => { s with mem := v.s .memprofile },
  on (v.i .l != -1) fun s => { s with limit := v.i .l },
  on (v.b .one_step) fun s => { s with oneStep := true },
  on (v.b .exchanges) fun s => { s with exchanges := true },
  on (v.b .proof) fun s => { s with proof := true, outs := s.outs ++ [.text] },
  on (v.b .pretty) fun s => { s with printer := { pretty := true } },
  on (v.b .dmt) fun s => { s with dmtMode := (v.b .polarized, v.b .presko) },
  fun s => { s with dmt := v.b .dmt },
  on (!v.b .noeq) fun s => { s with tryEq := true, eqStruct := .bse },
  on (v.b .dmt_before_eq) fun s => { s with dmtFirst := true },
  on (v.i .core_limit != -1) fun s => { s with cores := v.i .core_limit },
  on (v.b .completeness) fun s => { s with complete := true },
  on (v.b .orocq) fun s => { s with proof := true, outs := s.outs ++ [.rocq] },
  on (v.b .otptp) fun s => { s with proof := true, outs := s.outs ++ [.tptp] },
  on (v.b .osctptp) fun s => { s with sc := true, proof := true, outs := s.outs ++ [.tptp] },
  on (v.b .olp) fun s => { s with proof := true, outs := s.outs ++ [.lambdapi] },
  on (v.b .context) fun s => { s with context := true },
  on (v.b .inner) fun s => { s with sko := .inner },
  on (v.b .preinner) fun s => { s with sko := .preinner },
  on (v.b .assisted) fun s => { s with algo := .main true, assisted := true },
  on (v.b .sateq) fun s => { s with tryEq := true, eqStruct := .sat },
  on (v.b .eagereq) fun s => { s with eagerEq := true },
  on (v.b .increq) fun s => { s with incrEq := true },
  on (v.b .chrono) fun s => { s with chrono := true },
  on (v.b .incr) fun s => { s with algo := .incremental },
  fun s => { s with proofFile := v.s .proof_file },
  on (v.b .vec) fun s => { s with complete := false, limit := maxInt },
  on (v.b .print_id) fun s => { s with printer := { s.printer with ids := true } },
  on (v.b .quoted_pred) fun s => { s with printer := { s.printer with quotes := true } },
  on (v.b .quiet) fun s => { s with quiet := true },
  on (v.b .flatten) fun s => { s with flatten := true },
  on (v.b .no_type_check) fun s => { s with typeCheck := false },
  on (v.b .list_debuggers) fun s => { s with listDbg := true }]

def settings (v : Vals) : Settings := (steps v).foldl (fun s f => f s) {}

/-! ### What the program does with them -/

/-- What the settings are used for. -/
structure Run where
  /-- The problem file. -/
  problem : Arg
  algo : Algo
  /-- The bound of the first round, if it is not the number of quantifiers. -/
  bound : Option Int
  oneRound : Bool
  exchanges : Bool
  /-- Axioms are taken out of the formula as rewrite rules. -/
  consumed : Bool
  /-- Literals are rewritten, with polarities and with early Skolemisation. -/
  rewriting : Option (Bool × Bool)
  eq : Eq'
  dmtFirst : Bool
  eagerEq : Bool
  incrEq : Bool
  complete : Bool
  sko : Sko
  /-- The proofs that are printed: the format, the printer of formulas, and whether a TPTP proof has the names of SC-TPTP. -/
  outputs : List (Fmt × Printer × Bool)
  /-- The declarations before a Rocq proof. -/
  context : Bool
  chrono : Bool
  /-- The file for proofs, the file for logs. -/
  proofTo : Option Arg
  logTo : Option Arg
  /-- Logs are printed, with the places in the code. -/
  logs : Bool
  trace : Bool
  cores : Int
  cpu : Arg
  mem : Arg
  flatten : Bool
  typeCheck : Bool
  /-- Arithmetic functions are known to the type checker; the typing tree is printed. -/
  arith : Bool
  typeTree : Bool
deriving DecidableEq

/-- The outputs one after the other (`PrintProof`, src/Search/print_proof.go:58-71): Rocq's sets the printer for all that follow (src/Mods/rocq/output.go:63-66), and so do
the names of SC-TPTP, whichever TPTP output comes first (src/Mods/tptp/output.go:64-67). -/
def outputs (sc : Bool) : List Fmt → Printer → List (Fmt × Printer × Bool)
  | [], _ => []
  | f :: l, p =>
    let p := if f = .rocq then { rocq := true } else p
    (f, p, f == .tptp && sc) :: outputs sc l p

/-- How the settings are read: the rounds (src/Search/destructive.go:82-96, src/Search/incremental/search.go:24-30), the bound (src/main.go:155-157), exchanges
(src/Search/destructive.go:121, src/Search/exchanges.go:80, 135), rewriting (src/main.go:345, src/Search/destructive.go:425, 1248), equality
(src/Search/destructive.go:383-403, src/Mods/equality/bse/equality.go:55-69, src/Search/state.go:404), completeness (src/Search/child_management.go:284, 308); the incremental search reads
none of them. Skolemisation is shared (src/Core/skolemisation.go:92-128, src/Search/incremental/rules.go:471, 490), and so are the outputs. -/
def use (problem : Arg) (s : Settings) : Run :=
  let main := s.algo ≠ .incremental
  { problem := problem, algo := s.algo, bound := if main ∧ s.limit ≠ -1 then some s.limit else none, oneRound := main && s.oneStep,
    exchanges := main && s.exchanges, consumed := s.dmt, rewriting := if main ∧ s.dmt then some s.dmtMode else none,
    eq := if main ∧ s.tryEq then s.eqStruct else .off, dmtFirst := main && s.dmtFirst, eagerEq := main && s.eagerEq, incrEq := main && s.incrEq,
    complete := main && s.complete, sko := s.sko, outputs := if s.proof then outputs s.sc s.outs s.printer else [], context := s.context,
    chrono := s.chrono, proofTo := if s.logTo.isSome then some s.proofFile else none, logTo := s.logTo, logs := !s.silent && !s.quiet,
    trace := s.trace, cores := s.cores, cpu := s.cpu, mem := s.mem, flatten := s.flatten, typeCheck := s.typeCheck, arith := false, typeTree := false }

/-- What the program does. -/
inductive Outcome where
  /-- A message, and the end. -/
  | error
  /-- The version or the debuggers are printed. -/
  | version
  | debuggers
  | run (r : Run)
deriving DecidableEq

/-- With the values of the options: `main` (src/main.go:74-126); the assisted mode needs the main search (src/Mods/assisted/assistant.go:97-105). -/
def withVals (problem : Arg) (v : Vals) : Outcome :=
  if v.b .nd then .error else
    let s := settings v
    if s.version then .version
    else if s.listDbg then .debuggers
    else if s.assisted ∧ s.algo = .incremental then .error
    else .run (use problem s)

/-- `main` (src/main.go:74-104, 128-131) with the arguments of the command line (without the name of the program): the problem is the last one. -/
def start (pInt : Arg → Option Int) (args : List Arg) : Outcome :=
  match parse pInt args .init with
  | none => .error
  | some (v, _) => withVals (args.getLastD []) v

/-! ### Specification -/

/-- The value an option is given, or its default. -/
def value (L : List (Flag × Val)) (f : Flag) : Val := (L.lookup f).getD f.dflt

/-- An option that needs no value is given. -/
def gives (L : List (Flag × Val)) (o : BOpt) : Prop := value L (.bool o) = .b true

instance (L : List (Flag × Val)) (o : BOpt) : Decidable (gives L o) := by unfold gives; infer_instance

/-- How an option is written: with one or two `-`; a value follows after `=` or as the next argument, or there is none if the option is to be switched on. -/
inductive Written (pInt : Arg → Option Int) : List Arg → Flag → Val → Prop
  | on {o d} : d = "-".toList ∨ d = "--".toList → Written pInt [d ++ (Flag.bool o).name] (.bool o) (.b true)
  | bool {o d t x} : d = "-".toList ∨ d = "--".toList → (t = "true".toList ∧ x = true ∨ t = "false".toList ∧ x = false) →
      Written pInt [d ++ (Flag.bool o).name ++ '=' :: t] (.bool o) (.b x)
  | int {o d t x} : d = "-".toList ∨ d = "--".toList → pInt t = some x → Written pInt [d ++ (Flag.int o).name ++ '=' :: t] (.int o) (.i x)
  | intNext {o d t x} : d = "-".toList ∨ d = "--".toList → pInt t = some x → Written pInt [d ++ (Flag.int o).name, t] (.int o) (.i x)
  | str {o d t} : d = "-".toList ∨ d = "--".toList → Written pInt [d ++ (Flag.str o).name ++ '=' :: t] (.str o) (.s t)
  | strNext {o d t} : d = "-".toList ∨ d = "--".toList → Written pInt [d ++ (Flag.str o).name, t] (.str o) (.s t)

/-- A command line: options, then the file of the problem, which does not begin with `-`. -/
inductive Line (pInt : Arg → Option Int) (file : Arg) : List Arg → List (Flag × Val) → Prop
  | nil : file.head? ≠ some '-' → Line pInt file [file] []
  | cons {a f x args L} : Written pInt a f x → Line pInt file args L → Line pInt file (a ++ args) ((f, x) :: L)

/-- What the option is said to do (the texts of src/options.go:107-428 and USAGE.md). -/
def Effect (L : List (Flag × Val)) (r : Run) : Flag → Val → Prop
  | .bool o, .b true => match o with
    | .silent => r.logs = false
    | .quiet => r.logs = false
    | .show_trace => r.trace = true
    | .wlogs => value L (.str .log) = .s (r.logTo.getD []) ∧ r.logTo.isSome
    | .version => False
    | .list_debuggers => False
    | .nd => False
    | .one_step => r.oneRound = true
    | .exchanges => r.exchanges = true
    | .proof => ∃ p, (.text, p) ∈ r.outputs
    | .pretty => gives L .proof → ∃ p, (.text, p) ∈ r.outputs ∧ p.1.pretty = true
    | .print_id => gives L .proof → ∃ p, (.text, p) ∈ r.outputs ∧ p.1.ids = true
    | .quoted_pred => gives L .otptp ∨ gives L .osctptp → ∃ p, (.tptp, p) ∈ r.outputs ∧ p.1.quotes = true
    | .dmt => ∃ m, r.rewriting = some m
    | .polarized => gives L .dmt → ∃ p, r.rewriting = some (true, p)
    | .presko => gives L .dmt → ∃ p, r.rewriting = some (p, true)
    | .noeq => ¬ gives L .sateq → r.eq = .off
    | .sateq => r.eq = .sat
    | .eagereq => r.eq ≠ .off → r.eagerEq = true
    | .increq => r.eq ≠ .off → r.incrEq = true
    | .dmt_before_eq => gives L .dmt → r.eq ≠ .off → r.dmtFirst = true
    | .type_proof => r.typeTree = true
    | .ari => r.arith = true
    | .completeness => r.complete = true
    | .orocq => ∃ p, (.rocq, p) ∈ r.outputs ∧ p.1.rocq = true
    | .otptp => ∃ p, (.tptp, p) ∈ r.outputs ∧ p.1.rocq = false ∧ p.2 = false
    | .osctptp => ∃ p, (.tptp, p) ∈ r.outputs ∧ p.1.rocq = false ∧ p.2 = true
    | .olp => ∃ p, (.lambdapi, p) ∈ r.outputs ∧ p.1.rocq = false
    | .context => r.context = true
    | .inner => r.sko = .inner
    | .preinner => r.sko = .preinner
    | .assisted => r.algo = .main true
    | .incr => r.algo = .incremental
    | .chrono => r.chrono = true
    | .vec => r.bound = some maxInt ∧ r.complete = false
    | .flatten => r.flatten = true
    | .no_type_check => r.typeCheck = false
  | .bool _, _ => True
  | .int .l, .i n => n = -1 ∨ r.algo = .incremental ∨ r.bound = some n
  | .int .core_limit, .i n => r.cores = n
  | .str .debug, _ => True
  | .str .log, .s t => gives L .wlogs → r.logTo = some t
  | .str .cpuprofile, .s t => r.cpu = t
  | .str .memprofile, .s t => r.mem = t
  | .str .proof_file, .s t => gives L .wlogs → r.proofTo = some t
  | _, _ => False

/-- The combinations that are documented not to work: `-vec` with `-l` or `-completeness`, `-flatten` with proofs for other systems. -/
def Allowed (L : List (Flag × Val)) : Prop :=
  (gives L .vec → value L (.int .l) = .i (-1) ∧ ¬ gives L .completeness) ∧
  (gives L .flatten → ¬ gives L .orocq ∧ ¬ gives L .osctptp ∧ ¬ gives L .olp)

/-- What the options are said to do when the program does `out`: a message is allowed; `-version` and `-list-debuggers` print something else; equality is treated unless it is
switched off. -/
def Heeded (L : List (Flag × Val)) (file : Arg) : Outcome → Prop
  | .error => True
  | .version => gives L .version
  | .debuggers => gives L .list_debuggers
  | .run r => r.problem = file ∧ (∀ f x, (f, x) ∈ L → Effect L r f x) ∧ (¬ gives L .noeq → r.eq ≠ .off)

/-- **C100**: every option on the command line has its effect, whichever others are given and in whatever order, or there is a message. -/
def C100_statement : Prop := ∀ (pInt : Arg → Option Int) (file : Arg) (args : List Arg) (L : List (Flag × Val)),
  Line pInt file args L → (L.map (·.1)).Nodup → Allowed L → Heeded L file (start pInt args)

end Verif.Options
