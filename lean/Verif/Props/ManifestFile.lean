import Verif.Proofs.JsonGrammar
import Verif.Props.Manifest
import Verif.Proofs.ParentPath
import Verif.Cli
/-
C109: which files are manifests, and what `build_rom` does with the others.
-/
namespace M2S

open Text JsonSpec ManifestSpec

/-- The entry of a song in a manifest. -/
def EntryOf (j : Json) (bank name : String) (e : Json) : Prop := ∃ b, Field j bank b ∧ Field b name e

/-- An entry with a field is there. -/
theorem entry_index {j v : Json} {bank name key : String} (h : Field ((j.index bank).index name) key v) : EntryOf j bank name ((j.index bank).index name) := by
  have hn : ∀ k : Json, ∀ key v, Field k key v → k ≠ .null := by
    rintro k key v ⟨a, b, rfl, -⟩ e
    cases e
  rcases index_cases (j.index bank) name with h1 | ⟨h1, -⟩
  · rcases index_cases j bank with h2 | ⟨h2, -⟩
    · exact ⟨_, h2, h1⟩
    · exact absurd h2 (hn _ _ _ h1)
  · exact absurd h1 (hn _ _ _ h)

theorem index_entry {j e : Json} {bank name : String} (h : EntryOf j bank name e) : (j.index bank).index name = e := by
  obtain ⟨b, h1, h2⟩ := h
  rw [index_field h1, index_field h2]

/-- What becomes of a file that denotes a value. -/
theorem load_denotes (x : Ext) (hx : x.parseJson = readJson) {fs : FS} {path dir : String} {t : List UInt8} {j : Json} (ht : fs path = some t) (hj : Denotes t j) (hd : x.parent path = some dir) :
    x.loadManifest fs path = manifestNew j dir := by
  unfold Ext.loadManifest
  rw [ht]
  simp only
  rw [hx, (readJson_iff t j).2 hj]
  simp only
  rw [hd]

/-- **C109.** A manifest that is read comes from a text that denotes a value, in which every song of the game has an entry; the slots are those of the game, each as its entry says. -/
theorem C109_slots (x : Ext) (hx : x.parseJson = readJson) (fs : FS) (path dir : String) (hd : x.parent path = some dir) (m : Manifest) (h : x.loadManifest fs path = .ok m) :
    ∃ t j, fs path = some t ∧ Denotes t j ∧
      List.Forall₂ (fun bank songs => List.Forall₂ (fun name d => ∃ e, EntryOf j bank.1 name e ∧ Slot dir e d) bank.2 songs) gameOrder m := by
  cases ht : fs path with
  | none => unfold Ext.loadManifest at h; rw [ht] at h; cases h
  | some t =>
    cases hj : readJson t with
    | none =>
      unfold Ext.loadManifest at h
      rw [ht] at h
      simp only at h
      rw [hx, hj] at h
      cases h
    | some j =>
      have hj := (readJson_iff t j).1 hj
      rw [load_denotes x hx ht hj hd] at h
      refine ⟨t, j, rfl, hj, (C46_slots j dir m h).imp fun bank songs hb => hb.imp fun name d hs => ?_⟩
      obtain ⟨p, -, hp, -⟩ := hs.input
      exact ⟨_, entry_index hp, hs⟩

/-- **C109.** A file is read as a manifest exactly if its text denotes a value in which every song of the game has an entry with a text as `input`. -/
theorem C109_accepted (x : Ext) (hx : x.parseJson = readJson) (fs : FS) (path dir : String) (hd : x.parent path = some dir) :
    (∃ m, x.loadManifest fs path = .ok m) ↔ ∃ t j, fs path = some t ∧ Denotes t j ∧
      ∀ bank ∈ gameOrder, ∀ name ∈ bank.2, ∃ e p, EntryOf j bank.1 name e ∧ Field e "input" (.str p) := by
  constructor
  · rintro ⟨m, h⟩
    obtain ⟨t, j, ht, hj, -⟩ := C109_slots x hx fs path dir hd m h
    rw [load_denotes x hx ht hj hd] at h
    refine ⟨t, j, ht, hj, fun bank hb name hn => ?_⟩
    obtain ⟨p, hp⟩ := (C46_accepted j dir).1.1 ⟨m, h⟩ bank hb name hn
    exact ⟨_, p, entry_index hp, hp⟩
  · rintro ⟨t, j, ht, hj, h⟩
    rw [load_denotes x hx ht hj hd]
    refine (C46_accepted j dir).1.2 fun bank hb name hn => ?_
    obtain ⟨e, p, he, hp⟩ := h bank hb name hn
    exact ⟨p, by rw [index_entry he]; exact hp⟩

/-- **C109.** The other files: one that is not there or is no JSON is reported, one that lacks an entry makes the program panic. -/
theorem C109_refused (x : Ext) (hx : x.parseJson = readJson) (fs : FS) (path dir : String) (hd : x.parent path = some dir) :
    (fs path = none → x.loadManifest fs path = .error (.err .io)) ∧
    (∀ t, fs path = some t → (¬ ∃ j, Denotes t j) → x.loadManifest fs path = .error (.err .conversion)) ∧
    (∀ t j, fs path = some t → Denotes t j → (∃ bank ∈ gameOrder, ∃ name ∈ bank.2, ¬ ∃ e p, EntryOf j bank.1 name e ∧ Field e "input" (.str p)) →
      x.loadManifest fs path = .error .panic) := by
  refine ⟨fun h => ?_, fun t ht h => ?_, fun t j ht hj h => ?_⟩
  · unfold Ext.loadManifest
    rw [h]
    rfl
  · unfold Ext.loadManifest
    rw [ht]
    simp only
    cases e : readJson t with
    | none => rw [hx, e]; rfl
    | some j => exact absurd ⟨j, (readJson_iff t j).1 e⟩ h
  · rw [load_denotes x hx ht hj hd]
    rcases (C46_accepted j dir).2 with ⟨m, hm⟩ | hp
    · obtain ⟨bank, hb, name, hn, h⟩ := h
      obtain ⟨p, hp⟩ := (C46_accepted j dir).1.1 ⟨m, hm⟩ bank hb name hn
      exact absurd ⟨_, p, entry_index hp, hp⟩ h
    · exact hp

/-- **C109.** `build_rom` with such a file changes no file, the ROM included. -/
theorem C109_untouched (x : Ext) (hx : x.parseJson = readJson) (fs : FS) (path dir : String) (hd : x.parent path = some dir) (rom : String) (addrs : Option (List String)) (optimize verbose : Bool)
    (h : ¬ ∃ t j, fs path = some t ∧ Denotes t j ∧ ∀ bank ∈ gameOrder, ∀ name ∈ bank.2, ∃ e p, EntryOf j bank.1 name e ∧ Field e "input" (.str p)) :
    (x.run fs optimize verbose (.buildRom path rom addrs)).2 = fs ∧ ∃ e, (x.run fs optimize verbose (.buildRom path rom addrs)).1 = .error e := by
  have hl : ∃ e, x.loadManifest fs path = .error e := by
    cases hm : x.loadManifest fs path with
    | error e => exact ⟨e, rfl⟩
    | ok m => exact absurd ((C109_accepted x hx fs path dir hd).1 ⟨m, hm⟩) h
  obtain ⟨e, hl⟩ := hl
  rw [Ext.run]
  cases readBankAddrs addrs with
  | error f => exact ⟨rfl, f, rfl⟩
  | ok a => rw [hl]; exact ⟨rfl, e, rfl⟩

/-- **C109.** Inputs are found from the directory of the manifest, wherever the program is started: a manifest `D/f` with the input `p` is about `D/p`, unless `p` starts at the root. -/
theorem C109_directory (x : Ext) (hx : x.parseJson = readJson) (hd : x.parent = pathParent) (fs : FS) (D f : String) (hf : '/' ∉ f.toList) (h0 : f ≠ "") (h1 : f ≠ ".") (m : Manifest)
    (h : x.loadManifest fs (D ++ "/" ++ f) = .ok m) : ∃ t j, fs (D ++ "/" ++ f) = some t ∧ Denotes t j ∧
      List.Forall₂ (fun bank songs => List.Forall₂ (fun name d => ∃ e p q, EntryOf j bank.1 name e ∧ Field e "input" (.str p) ∧ d.input = some q ∧
        (Rooted p → q = p) ∧ (¬ Rooted p → places q.toList = places D.toList ++ places p.toList ∧ (Rooted q ↔ Rooted (D ++ "/" ++ f)))) bank.2 songs) gameOrder m := by
  obtain ⟨dir, d1, d2, d3⟩ := parent_file D f hf h0 h1
  obtain ⟨t, j, ht, hj, hm⟩ := C109_slots x hx fs _ dir (by rw [hd]; exact d1) m h
  refine ⟨t, j, ht, hj, hm.imp fun bank songs hb => hb.imp fun name d he => ?_⟩
  obtain ⟨e, he, hs⟩ := he
  obtain ⟨p, q, h1, h2, h3⟩ := hs.input
  refine ⟨e, p, q, he, h1, h2, h3.1, fun hp => ?_⟩
  obtain ⟨g1, g2⟩ := resolves_places h3 hp
  exact ⟨by rw [g1, d2], g2.trans d3⟩

/-- **C109.** A manifest without a directory in its name: its inputs are taken as they are. -/
theorem C109_here (x : Ext) (hx : x.parseJson = readJson) (hd : x.parent = pathParent) (fs : FS) (f : String) (hf : '/' ∉ f.toList) (h0 : f ≠ "") (h1 : f ≠ ".") (m : Manifest)
    (h : x.loadManifest fs f = .ok m) : ∃ t j, fs f = some t ∧ Denotes t j ∧
      List.Forall₂ (fun bank songs => List.Forall₂ (fun name d => ∃ e p q, EntryOf j bank.1 name e ∧ Field e "input" (.str p) ∧ d.input = some q ∧
        places q.toList = places p.toList ∧ (Rooted q ↔ Rooted p)) bank.2 songs) gameOrder m := by
  obtain ⟨t, j, ht, hj, hm⟩ := C109_slots x hx fs _ "" (by rw [hd]; exact parent_plain f hf h0 h1) m h
  refine ⟨t, j, ht, hj, hm.imp fun bank songs hb => hb.imp fun name d he => ?_⟩
  obtain ⟨e, he, hs⟩ := he
  obtain ⟨p, q, h1, h2, h3⟩ := hs.input
  refine ⟨e, p, q, he, h1, h2, ?_⟩
  by_cases hp : Rooted p
  · rw [h3.1 hp]
    exact ⟨rfl, Iff.rfl⟩
  · obtain ⟨g1, g2⟩ := resolves_places h3 hp
    refine ⟨g1.trans (by rfl), g2.trans ⟨?_, fun h => absurd h hp⟩⟩
    rintro ⟨cs, e⟩
    exact absurd e (by simp)

/-- Directories of files. -/
example : ["a/b.json", "b.json", "/b.json", "a/b/", "a/./b", "./b", "/", "", "a/..", "//b", "a//b", "/.", "../b", "."].map pathParent =
    [some "a", some "", some "/", some "a", some "a", some ".", none, none, some "a", some "/", some "a", none, some "..", some ""] := by decide +kernel

/-- Texts with commas between them. -/
def commas : List (List UInt8) → List UInt8
  | [] => []
  | [t] => t
  | t :: ts => t ++ 44 :: commas ts

/-- The text of a bank: one entry for all its songs. -/
def bankText (names : List String) (entry : String) : List UInt8 := 123 :: commas (names.map fun n => quoted n ++ 58 :: ascii entry) ++ [125]

/-- A manifest with tempo factors in several forms. -/
def manifestText : List UInt8 :=
  ascii "{ \"ending\": " ++ bankText ["Staff", "Triforce", "Ending"] "{\"input\": \"e.mid\", \"loop\": false, \"tempoAdjust\": 25e-2}" ++
  ascii ", \"overworld\": " ++ bankText overworldSongs "{\"tempoAdjust\": 0.20, \"\\u0069nput\": \"o.mid\"}" ++
  ascii ", \"indoor\": " ++ bankText indoorSongs "{\"input\": \"\\/i.json\", \"tempoAdjust\": -1}" ++ ascii "}\n"

/-- Surroundings with the readers and path functions of the model. -/
def manifestExt : Ext where
  parseMidi _ := none
  parseJson := readJson
  printJson := writeJson
  extension := pathExtension
  parent := pathParent
  ord := id
  accept n := n

/-- A manifest, an empty object, half an object. -/
def manifestFS : FS := fun p =>
  if p = "/m/m.json" then some manifestText else if p = "/m/empty.json" then some (ascii "{}") else if p = "/m/half.json" then some (ascii "{") else none

/-- The manifest is read; `0.20` is the default `0.2f32`. -/
example : ((manifestExt.loadManifest manifestFS "/m/m.json").map fun m => m.map fun b => b.map fun d =>
      (d.input, d.loops, match d.tempoFactor, defaultTempoAdjust with | .fin q, .fin r => (q - r, q) | _, _ => (2, 2))) =
    .ok [List.replicate 15 (some "/m/o.mid", true, 0, 13421773 / 67108864), List.replicate 16 (some "/i.json", true, -80530637 / 67108864, -1),
      List.replicate 3 (some "/m/e.mid", false, 3355443 / 67108864, 1 / 4)] := by decide +kernel

/-- So it denotes a manifest in the sense of the grammar. -/
example : ∃ j, Denotes manifestText j ∧ ∀ bank ∈ gameOrder, ∀ name ∈ bank.2, ∃ e p, EntryOf j bank.1 name e ∧ Field e "input" (.str p) := by
  have h : ((manifestExt.loadManifest manifestFS "/m/m.json").toOption).isSome = true := by decide +kernel
  obtain ⟨m, hm⟩ : ∃ m, manifestExt.loadManifest manifestFS "/m/m.json" = .ok m := by
    cases e : manifestExt.loadManifest manifestFS "/m/m.json" with
    | ok m => exact ⟨m, rfl⟩
    | error f => rw [e] at h; cases h
  obtain ⟨t, j, ht, hj, h⟩ := (C109_accepted manifestExt rfl manifestFS "/m/m.json" "/m" (by decide +kernel)).1 ⟨m, hm⟩
  cases ht
  exact ⟨j, hj, h⟩

/-- The other files: no file, no JSON, no entries. -/
example : (manifestExt.run manifestFS false false (.buildRom "/m/none.json" "rom.sfc" none)).1 = .error (.err .io) ∧
    (manifestExt.run manifestFS false false (.buildRom "/m/half.json" "rom.sfc" none)).1 = .error (.err .conversion) ∧
    (manifestExt.run manifestFS false false (.buildRom "/m/empty.json" "rom.sfc" none)).1 = .error .panic := by decide +kernel

end M2S
