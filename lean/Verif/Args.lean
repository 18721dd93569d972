import Verif.Cli
/-
Model of `src/main.rs` (the declaration of the command line) and of the way `run` in `src/lib.rs` takes its arguments from clap's matches.
How clap turns the words of a command line into matches is not modelled; `Spec/Args.lean` says what it guarantees about them.
-/
namespace M2S

/-- How an argument is given: a switch, a word at its place, or an option with a number of values. -/
inductive ArgKind
  | switch
  | word
  | option (values : Nat)
deriving DecidableEq, Repr

/-- An `@arg` of `clap_app!`. -/
structure ArgDef where
  name : String
  kind : ArgKind
  required : Bool
deriving DecidableEq, Repr

/-- A `clap_app!` with setting `SubcommandRequiredElseHelp`: switches before the subcommand; subcommands with their arguments. -/
structure App where
  args : List ArgDef
  subs : List (String × List ArgDef)
deriving DecidableEq, Repr

/-- `+required`. -/
def needed (name : String) : ArgDef := ⟨name, .word, true⟩

/-- `--bank_addrs #{3,3} +use_delimiter`, `src/main.rs:18,24,30`. -/
def bankAddrsArg : ArgDef := ⟨"bank_addrs", .option 3, false⟩

/-- The declaration in `src/main.rs:9-46`. -/
def app : App where
  args := [⟨"skip_optimization", .switch, false⟩, ⟨"verbose", .switch, false⟩]
  subs := [
    ("build_rom", [needed "MANIFEST", needed "ROM", bankAddrsArg]),
    ("all_overworld", [needed "INPUT", needed "ROM", bankAddrsArg]),
    ("file_select", [needed "INPUT", needed "ROM", bankAddrsArg]),
    ("dump_midi", [needed "INPUT"]),
    ("midi2json", [needed "INPUT", needed "OUTPUT"]),
    ("gen_fake_rom", [needed "INPUT", needed "OUTPUT"])]

/-- The `ArgMatches` of a subcommand: the values of the arguments that are present. -/
structure SubMatches where
  values : String → Option (List String)

/-- clap's `ArgMatches`: the switches that are present, the subcommand. -/
structure ArgMatches where
  switches : List String
  sub : Option (String × SubMatches)

/-- `is_present`. -/
def ArgMatches.isPresent (m : ArgMatches) (name : String) : Bool := m.switches.contains name

/-- `subcommand_matches`. -/
def ArgMatches.subcommandMatches (m : ArgMatches) (name : String) : Option SubMatches :=
  match m.sub with
  | some (n, s) => if n = name then some s else none
  | none => none

/-- `value_of`: the first value, if there is one. -/
def SubMatches.valueOf (s : SubMatches) (name : String) : Option String := (s.values name).bind List.head?

/-- `values_of`. -/
def SubMatches.valuesOf (s : SubMatches) (name : String) : Option (List String) := s.values name

/-- `.unwrap()` of two values in a row, then the rest of the branch. -/
def withTwo (a b : Option String) (fs : FS) (k : String → String → Res Unit × FS) : Res Unit × FS :=
  match a, b with
  | some a, some b => k a b
  | _, _ => (panicked, fs)

/-- `run`, `src/lib.rs:23-66`, from clap's matches. In the `midi2json` branch the `unwrap` of the output path comes after the conversion. -/
def Ext.runMatches (x : Ext) (fs : FS) (m : ArgMatches) : Res Unit × FS :=
  let optimize := !m.isPresent "skip_optimization"
  let verbose := m.isPresent "verbose"
  match m.subcommandMatches "build_rom" with
  | some s => withTwo (s.valueOf "MANIFEST") (s.valueOf "ROM") fs fun a b => x.run fs optimize verbose (.buildRom a b (s.valuesOf "bank_addrs"))
  | none =>
  match m.subcommandMatches "all_overworld" with
  | some s => withTwo (s.valueOf "INPUT") (s.valueOf "ROM") fs fun a b => x.run fs optimize verbose (.allOverworld a b (s.valuesOf "bank_addrs"))
  | none =>
  match m.subcommandMatches "file_select" with
  | some s => withTwo (s.valueOf "INPUT") (s.valueOf "ROM") fs fun a b => x.run fs optimize verbose (.fileSelect a b (s.valuesOf "bank_addrs"))
  | none =>
  match m.subcommandMatches "dump_midi" with
  | some s =>
    match s.valueOf "INPUT" with
    | some a => x.run fs optimize verbose (.dumpMidi a)
    | none => (panicked, fs)
  | none =>
  match m.subcommandMatches "midi2json" with
  | some s =>
    match s.valueOf "INPUT" with
    | some a =>
      match s.valueOf "OUTPUT" with
      | some b => x.run fs optimize verbose (.midi2json a b)
      | none => ((x.songFromMidiFile fs a defaultTempoAdjust optimize).bind fun _ => panicked, fs)
    | none => (panicked, fs)
  | none =>
  match m.subcommandMatches "gen_fake_rom" with
  | some s => withTwo (s.valueOf "INPUT") (s.valueOf "OUTPUT") fs fun a b => x.run fs optimize verbose (.genFakeRom a b (s.valuesOf "bank_addrs"))
  | none => (.ok (), fs)

end M2S
