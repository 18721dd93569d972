import Verif.Args
/-
What clap guarantees, and what a command line says.
-/
namespace M2S.CliSpec

/-- The number of values an argument has when it is present. -/
def valueCount : ArgKind → Nat
  | .switch => 0
  | .word => 1
  | .option n => n

/-- What clap guarantees about the matches it returns: only declared arguments are present, with the declared number of values; there is a subcommand, a declared one, and its required
arguments are present. (Otherwise clap prints a message and exits.) -/
structure Conforms (a : App) (m : ArgMatches) : Prop where
  switches : ∀ s ∈ m.switches, ∃ d ∈ a.args, d.name = s ∧ d.kind = .switch
  sub : ∃ name defs s, (name, defs) ∈ a.subs ∧ m.sub = some (name, s) ∧
    (∀ k vs, s.values k = some vs → ∃ d ∈ defs, d.name = k ∧ d.kind ≠ .switch ∧ vs.length = valueCount d.kind) ∧
    ∀ d ∈ defs, d.required = true → s.values d.name ≠ none

/-- The bank addresses on a command line. -/
def addrsArg : Option (List String) → List (String × List String)
  | none => []
  | some l => [("bank_addrs", l)]

/-- How the user writes a command: the subcommand and its named arguments. -/
def written : Cmd → String × List (String × List String)
  | .buildRom manifest rom addrs => ("build_rom", [("MANIFEST", [manifest]), ("ROM", [rom])] ++ addrsArg addrs)
  | .allOverworld input rom addrs => ("all_overworld", [("INPUT", [input]), ("ROM", [rom])] ++ addrsArg addrs)
  | .fileSelect input rom addrs => ("file_select", [("INPUT", [input]), ("ROM", [rom])] ++ addrsArg addrs)
  | .dumpMidi input => ("dump_midi", [("INPUT", [input])])
  | .midi2json input output => ("midi2json", [("INPUT", [input]), ("OUTPUT", [output])])
  | .genFakeRom input output addrs => ("gen_fake_rom", [("INPUT", [input]), ("OUTPUT", [output])] ++ addrsArg addrs)

/-- These matches say this command. -/
def Says (m : ArgMatches) (cmd : Cmd) : Prop :=
  ∃ s, m.sub = some ((written cmd).1, s) ∧ ∀ k, s.values k = (written cmd).2.lookup k

/-- The bank addresses of a command. -/
def addrsOf : Cmd → Option (List String)
  | .buildRom _ _ a => a
  | .allOverworld _ _ a => a
  | .fileSelect _ _ a => a
  | .genFakeRom _ _ a => a
  | _ => none

end M2S.CliSpec
