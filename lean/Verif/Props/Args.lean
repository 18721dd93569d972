import Verif.Spec.Args
import Verif.Props.Cli
/-
C89: the command line.
-/
namespace M2S
open CliSpec

theorem mem_of_lookup' {l : List (String × List String)} {k : String} {v : List String} (h : l.lookup k = some v) : (k, v) ∈ l := by
  induction l with
  | nil => simp at h
  | cons p l ih =>
    obtain ⟨a, b⟩ := p
    rw [List.lookup_cons] at h
    split at h
    · rename_i hk
      rw [beq_iff_eq] at hk
      cases h
      subst hk
      exact List.mem_cons_self ..
    · exact List.mem_cons_of_mem _ (ih h)

theorem one_value {s : SubMatches} {defs : List ArgDef} (h1 : ∀ k vs, s.values k = some vs → ∃ d ∈ defs, d.name = k ∧ d.kind ≠ .switch ∧ vs.length = valueCount d.kind)
    (h2 : ∀ d ∈ defs, d.required = true → s.values d.name ≠ none) (name : String) (hm : needed name ∈ defs) (hu : ∀ d ∈ defs, d.name = name → d.kind = .word) :
    ∃ a, s.values name = some [a] := by
  cases h : s.values name with
  | none => exact absurd h (h2 _ hm rfl)
  | some vs =>
    obtain ⟨d, hd, hn, -, hl⟩ := h1 name vs h
    rw [hu d hd hn] at hl
    obtain ⟨a, rfl⟩ := List.length_eq_one_iff.1 hl
    exact ⟨a, rfl⟩

theorem other_none {s : SubMatches} {defs : List ArgDef} (h1 : ∀ k vs, s.values k = some vs → ∃ d ∈ defs, d.name = k ∧ d.kind ≠ .switch ∧ vs.length = valueCount d.kind)
    (k : String) (hk : ∀ d ∈ defs, d.name ≠ k) : s.values k = none := by
  cases h : s.values k with
  | none => rfl
  | some vs =>
    obtain ⟨d, hd, hn, -⟩ := h1 k vs h
    exact absurd hn (hk d hd)

theorem bank_values {s : SubMatches} {defs : List ArgDef} (h1 : ∀ k vs, s.values k = some vs → ∃ d ∈ defs, d.name = k ∧ d.kind ≠ .switch ∧ vs.length = valueCount d.kind)
    (hu : ∀ d ∈ defs, d.name = "bank_addrs" → d.kind = .option 3) : ∀ l, s.values "bank_addrs" = some l → l.length = 3 := by
  intro l hl
  obtain ⟨d, hd, hn, -, hx⟩ := h1 _ _ hl
  rw [hu d hd hn] at hx
  exact hx

/-- The values of two required words and perhaps the bank addresses. -/
theorem agree_two {s : SubMatches} {defs : List ArgDef} (h1 : ∀ k vs, s.values k = some vs → ∃ d ∈ defs, d.name = k ∧ d.kind ≠ .switch ∧ vs.length = valueCount d.kind)
    (n1 n2 a b : String) (e1 : s.values n1 = some [a]) (e2 : s.values n2 = some [b]) (hne : n1 ≠ "bank_addrs" ∧ n2 ≠ "bank_addrs")
    (hd : ∀ d ∈ defs, d.name = n1 ∨ d.name = n2 ∨ d.name = "bank_addrs") (k : String) :
    s.values k = ([(n1, [a]), (n2, [b])] ++ addrsArg (s.values "bank_addrs")).lookup k := by
  by_cases k1 : k = n1
  · subst k1; simp [e1]
  by_cases k2 : k = n2
  · subst k2
    have b1 : (k == n1) = false := by simpa using k1
    simp [List.lookup_cons, e2, b1]
  by_cases k3 : k = "bank_addrs"
  · subst k3
    have b1 : ("bank_addrs" == n1) = false := by simpa using k1
    have b2 : ("bank_addrs" == n2) = false := by simpa using k2
    cases hb : s.values "bank_addrs" <;> simp [List.lookup_cons, b1, b2, addrsArg]
  · rw [other_none h1 k (fun d hdm he => by rcases hd d hdm with h | h | h <;> rw [h] at he <;> simp_all)]
    have b1 : (k == n1) = false := by simpa using k1
    have b2 : (k == n2) = false := by simpa using k2
    have b3 : (k == "bank_addrs") = false := by simpa using k3
    cases s.values "bank_addrs" <;> simp [List.lookup_cons, b1, b2, b3, addrsArg]

/-- **C89.** Whatever clap accepts according to the declaration in `main.rs` is a command, and `run` executes this command, optimising unless `-s` is given, and verbose if `-v` is given: no argument is
looked up under a wrong name, no required one is missing. Bank addresses are three. -/
theorem C89_runs (x : Ext) (fs : FS) (m : ArgMatches) (hm : Conforms app m) :
    ∃ cmd, Says m cmd ∧ (∀ l, addrsOf cmd = some l → l.length = 3) ∧
      x.runMatches fs m = x.run fs (!decide ("skip_optimization" ∈ m.switches)) (decide ("verbose" ∈ m.switches)) cmd := by
  obtain ⟨name, defs, s, h0, hs, h1, h2⟩ := hm.sub
  have p1 : m.isPresent "skip_optimization" = decide ("skip_optimization" ∈ m.switches) := by unfold ArgMatches.isPresent; rw [List.contains_eq_mem]
  have p2 : m.isPresent "verbose" = decide ("verbose" ∈ m.switches) := by unfold ArgMatches.isPresent; rw [List.contains_eq_mem]
  simp only [app, List.mem_cons, List.not_mem_nil, or_false, Prod.mk.injEq] at h0
  unfold Ext.runMatches ArgMatches.subcommandMatches
  simp only [p1, p2, hs]
  rcases h0 with ⟨rfl, rfl⟩ | ⟨rfl, rfl⟩ | ⟨rfl, rfl⟩ | ⟨rfl, rfl⟩ | ⟨rfl, rfl⟩ | ⟨rfl, rfl⟩
  · obtain ⟨a, ea⟩ := one_value h1 h2 "MANIFEST" (by simp) (by decide)
    obtain ⟨b, eb⟩ := one_value h1 h2 "ROM" (by simp) (by decide)
    refine ⟨.buildRom a b (s.values "bank_addrs"), ⟨s, hs, agree_two h1 _ _ _ _ ea eb (by decide) (by decide)⟩, bank_values h1 (by decide), ?_⟩
    simp [withTwo, SubMatches.valueOf, SubMatches.valuesOf, ea, eb]
  · obtain ⟨a, ea⟩ := one_value h1 h2 "INPUT" (by simp) (by decide)
    obtain ⟨b, eb⟩ := one_value h1 h2 "ROM" (by simp) (by decide)
    refine ⟨.allOverworld a b (s.values "bank_addrs"), ⟨s, hs, agree_two h1 _ _ _ _ ea eb (by decide) (by decide)⟩, bank_values h1 (by decide), ?_⟩
    simp [withTwo, SubMatches.valueOf, SubMatches.valuesOf, ea, eb]
  · obtain ⟨a, ea⟩ := one_value h1 h2 "INPUT" (by simp) (by decide)
    obtain ⟨b, eb⟩ := one_value h1 h2 "ROM" (by simp) (by decide)
    refine ⟨.fileSelect a b (s.values "bank_addrs"), ⟨s, hs, agree_two h1 _ _ _ _ ea eb (by decide) (by decide)⟩, bank_values h1 (by decide), ?_⟩
    simp [withTwo, SubMatches.valueOf, SubMatches.valuesOf, ea, eb]
  · obtain ⟨a, ea⟩ := one_value h1 h2 "INPUT" (by simp) (by decide)
    refine ⟨.dumpMidi a, ⟨s, hs, ?_⟩, by simp [addrsOf], ?_⟩
    · intro k
      by_cases hk : k = "INPUT"
      · subst hk; simp [written, ea]
      · have b1 : (k == "INPUT") = false := by simpa using hk
        rw [other_none h1 k (by intro d hd he; simp only [List.mem_singleton] at hd; subst hd; exact hk he.symm)]
        simp [written, List.lookup_cons, b1]
    · simp [SubMatches.valueOf, ea]
  · obtain ⟨a, ea⟩ := one_value h1 h2 "INPUT" (by simp) (by decide)
    obtain ⟨b, eb⟩ := one_value h1 h2 "OUTPUT" (by simp) (by decide)
    have e := agree_two h1 _ _ _ _ ea eb (by decide) (by decide)
    rw [other_none h1 "bank_addrs" (by decide)] at e
    refine ⟨.midi2json a b, ⟨s, hs, e⟩, by simp [addrsOf], ?_⟩
    simp [SubMatches.valueOf, ea, eb]
  · obtain ⟨a, ea⟩ := one_value h1 h2 "INPUT" (by simp) (by decide)
    obtain ⟨b, eb⟩ := one_value h1 h2 "OUTPUT" (by simp) (by decide)
    refine ⟨.genFakeRom a b (s.values "bank_addrs"), ⟨s, hs, agree_two h1 _ _ _ _ ea eb (by decide) (by decide)⟩, bank_values h1 (by decide), ?_⟩
    simp [withTwo, SubMatches.valueOf, SubMatches.valuesOf, ea, eb]

theorem lookup_addrs (a : Option (List String)) (n1 n2 : String) (v1 v2 : List String) (h : n1 ≠ "bank_addrs" ∧ n2 ≠ "bank_addrs") :
    ([(n1, v1), (n2, v2)] ++ addrsArg a).lookup "bank_addrs" = a := by
  have b1 : ("bank_addrs" == n1) = false := by simpa using Ne.symm h.1
  have b2 : ("bank_addrs" == n2) = false := by simpa using Ne.symm h.2
  cases a <;> simp [List.lookup_cons, b1, b2, addrsArg]

/-- **C89.** Matches say at most one command. -/
theorem C89_unambiguous (m : ArgMatches) (c c' : Cmd) (h : Says m c) (h' : Says m c') : c = c' := by
  obtain ⟨s, e1, e2⟩ := h
  obtain ⟨s', e1', e2'⟩ := h'
  rw [e1] at e1'
  simp only [Option.some.injEq, Prod.mk.injEq] at e1'
  obtain ⟨en, rfl⟩ := e1'
  have hl : ∀ k, (written c).2.lookup k = (written c').2.lookup k := fun k => (e2 k).symm.trans (e2' k)
  have kb := hl "bank_addrs"
  have k1 := hl "MANIFEST"
  have k2 := hl "ROM"
  have k3 := hl "INPUT"
  have k4 := hl "OUTPUT"
  cases c <;> cases c' <;> simp [written] at en
  all_goals
    simp only [written] at kb k1 k2 k3 k4
    first
      | (rw [lookup_addrs _ _ _ _ _ (by decide), lookup_addrs _ _ _ _ _ (by decide)] at kb
         simp [List.lookup_cons] at k1 k2 k3 k4
         simp_all)
      | (simp [List.lookup_cons] at k1 k2 k3 k4
         simp_all)

/-- **C89.** Every command can be given, with every combination of the two switches, except bank addresses for `gen_fake_rom`. -/
theorem C89_can_say_partial (optimize verbose : Bool) (cmd : Cmd) (h3 : ∀ l, addrsOf cmd = some l → l.length = 3) (hf : ∀ i o a, cmd = .genFakeRom i o a → a = none) :
    ∃ m, Conforms app m ∧ Says m cmd ∧ ("skip_optimization" ∈ m.switches ↔ optimize = false) ∧ ("verbose" ∈ m.switches ↔ verbose = true) := by
  refine ⟨⟨(if optimize then [] else ["skip_optimization"]) ++ (if verbose then ["verbose"] else []), some ((written cmd).1, ⟨fun k => (written cmd).2.lookup k⟩)⟩, ⟨?_, ?_⟩, ⟨_, rfl, fun _ => rfl⟩,
    by cases optimize <;> cases verbose <;> simp, by cases optimize <;> cases verbose <;> simp⟩
  · intro s hs
    rcases List.mem_append.1 hs with h | h
    · cases optimize <;> simp at h
      subst h; exact ⟨_, List.mem_cons_self .., rfl, rfl⟩
    · cases verbose <;> simp at h
      subst h; exact ⟨⟨"verbose", .switch, false⟩, by simp [app], rfl, rfl⟩
  · have two : ∀ (n1 n2 v1 v2 : String) (a : Option (List String)) (defs : List ArgDef), needed n1 ∈ defs → needed n2 ∈ defs → (a ≠ none → bankAddrsArg ∈ defs) →
        (∀ l, a = some l → l.length = 3) → ∀ k vs, ([(n1, [v1]), (n2, [v2])] ++ addrsArg a).lookup k = some vs → ∃ d ∈ defs, d.name = k ∧ d.kind ≠ .switch ∧ vs.length = valueCount d.kind := by
      intro n1 n2 v1 v2 a defs g1 g2 g3 g4 k vs hk
      have hmem := mem_of_lookup' hk
      rw [List.mem_append] at hmem
      rcases hmem with hmem | hmem
      · simp only [List.mem_cons, Prod.mk.injEq, List.not_mem_nil, or_false] at hmem
        rcases hmem with ⟨rfl, rfl⟩ | ⟨rfl, rfl⟩
        · exact ⟨_, g1, rfl, by simp [needed], rfl⟩
        · exact ⟨_, g2, rfl, by simp [needed], rfl⟩
      · cases a with
        | none => simp [addrsArg] at hmem
        | some l =>
          simp only [addrsArg, List.mem_singleton, Prod.mk.injEq] at hmem
          obtain ⟨rfl, rfl⟩ := hmem
          exact ⟨_, g3 (by simp), rfl, by simp [bankAddrsArg], g4 _ rfl⟩
    cases cmd with
    | buildRom a b l =>
      refine ⟨_, [needed "MANIFEST", needed "ROM", bankAddrsArg], _, by simp [app, written], rfl, two _ _ _ _ _ _ (by simp) (by simp) (by simp) h3, ?_⟩
      intro d hd hr
      simp only [List.mem_cons, List.not_mem_nil, or_false] at hd
      rcases hd with rfl | rfl | rfl
      · simp [needed, written]
      · simp [needed, written, List.lookup_cons]
      · simp [bankAddrsArg] at hr
    | allOverworld a b l =>
      refine ⟨_, [needed "INPUT", needed "ROM", bankAddrsArg], _, by simp [app, written], rfl, two _ _ _ _ _ _ (by simp) (by simp) (by simp) h3, ?_⟩
      intro d hd hr
      simp only [List.mem_cons, List.not_mem_nil, or_false] at hd
      rcases hd with rfl | rfl | rfl
      · simp [needed, written]
      · simp [needed, written, List.lookup_cons]
      · simp [bankAddrsArg] at hr
    | fileSelect a b l =>
      refine ⟨_, [needed "INPUT", needed "ROM", bankAddrsArg], _, by simp [app, written], rfl, two _ _ _ _ _ _ (by simp) (by simp) (by simp) h3, ?_⟩
      intro d hd hr
      simp only [List.mem_cons, List.not_mem_nil, or_false] at hd
      rcases hd with rfl | rfl | rfl
      · simp [needed, written]
      · simp [needed, written, List.lookup_cons]
      · simp [bankAddrsArg] at hr
    | dumpMidi a =>
      refine ⟨_, [needed "INPUT"], _, by simp [app, written], rfl, ?_, ?_⟩
      · intro k vs hk
        have hmem := mem_of_lookup' hk
        simp only [written, List.mem_singleton, Prod.mk.injEq] at hmem
        obtain ⟨rfl, rfl⟩ := hmem
        exact ⟨_, List.mem_singleton.2 rfl, rfl, by simp [needed], rfl⟩
      · intro d hd _
        simp only [List.mem_singleton] at hd
        subst hd
        simp [needed, written]
    | midi2json a b =>
      refine ⟨_, [needed "INPUT", needed "OUTPUT"], _, by simp [app, written], rfl, two _ _ _ _ none _ (by simp) (by simp) (by simp) (by simp), ?_⟩
      intro d hd hr
      simp only [List.mem_cons, List.not_mem_nil, or_false] at hd
      rcases hd with rfl | rfl
      · simp [needed, written]
      · simp [needed, written, List.lookup_cons]
    | genFakeRom a b l =>
      obtain rfl := hf a b l rfl
      refine ⟨_, [needed "INPUT", needed "OUTPUT"], _, by simp [app, written], rfl, two _ _ _ _ none _ (by simp) (by simp) (by simp) (by simp), ?_⟩
      intro d hd hr
      simp only [List.mem_cons, List.not_mem_nil, or_false] at hd
      rcases hd with rfl | rfl
      · simp [needed, written]
      · simp [needed, written, List.lookup_cons]

/-- **C89 is false of the code** for one command: `gen_fake_rom` looks up bank addresses, but `main.rs` does not declare the option for it, so a fake ROM always has the layout at the default
addresses. -/
theorem C89_fake_rom_false (m : ArgMatches) (hm : Conforms app m) (i o : String) (l : List String) : ¬ Says m (.genFakeRom i o (some l)) := by
  rintro ⟨s, e1, e2⟩
  obtain ⟨name, defs, s', h0, hs, h1, -⟩ := hm.sub
  rw [e1] at hs
  simp only [Option.some.injEq, Prod.mk.injEq] at hs
  obtain ⟨rfl, rfl⟩ := hs
  have e := e2 "bank_addrs"
  simp only [written] at e
  rw [lookup_addrs _ _ _ _ _ (by decide)] at e
  simp [app, written] at h0
  subst h0
  obtain ⟨d, hd, hn, -⟩ := h1 _ _ e
  revert hn
  simp only [List.mem_cons, List.not_mem_nil, or_false] at hd
  rcases hd with rfl | rfl <;> decide

/-- `midi2spc -v build_rom songs.json game.smc --bank_addrs 914,926,932`. -/
def demoMatches : ArgMatches := ⟨["verbose"], some ("build_rom", ⟨fun k => [("MANIFEST", ["songs.json"]), ("ROM", ["game.smc"]), ("bank_addrs", ["914", "926", "932"])].lookup k⟩)⟩

example : Says demoMatches (.buildRom "songs.json" "game.smc" (some ["914", "926", "932"])) := ⟨_, rfl, fun _ => rfl⟩

example : Conforms app demoMatches := by
  obtain ⟨m, h1, ⟨s, e1, e2⟩, h3, h4⟩ := C89_can_say_partial true true (.buildRom "songs.json" "game.smc" (some ["914", "926", "932"])) (by simp [addrsOf]) (by simp)
  obtain ⟨n, d, s', g1, g2, g3, g4⟩ := h1.sub
  have : s' = ⟨fun k => [("MANIFEST", ["songs.json"]), ("ROM", ["game.smc"]), ("bank_addrs", ["914", "926", "932"])].lookup k⟩ := by
    rw [e1] at g2
    simp only [Option.some.injEq, Prod.mk.injEq] at g2
    rw [← g2.2]
    cases s
    congr 1
    exact funext e2
  refine ⟨?_, n, d, s', g1, ?_, g3, g4⟩
  · intro s hs
    simp only [demoMatches, List.mem_singleton] at hs
    subst hs
    exact ⟨⟨"verbose", .switch, false⟩, by simp [app], rfl, rfl⟩
  · rw [e1] at g2
    simp only [Option.some.injEq, Prod.mk.injEq] at g2
    rw [← g2.1, this]; rfl

end M2S
