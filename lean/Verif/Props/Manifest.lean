import Verif.Proofs.Manifest
/-
C46: parsed manifests; C47: the two built-in manifests.
-/
namespace M2S
open ManifestSpec

/-! ## C46 -/

/-- **C46.** A parsed manifest has the game's banks and songs in the game's order; each slot is the one its entry describes. -/
theorem C46_slots (j : Json) (dir : String) (m : Manifest) (h : manifestNew j dir = .ok m) :
    List.Forall₂ (fun bank songs => List.Forall₂ (fun name d => Slot dir ((j.index bank.1).index name) d) bank.2 songs) gameOrder m := by
  unfold manifestNew at h
  rw [res_bind] at h
  obtain ⟨o, ho, h⟩ := h
  rw [res_bind] at h
  obtain ⟨i, hi, h⟩ := h
  rw [res_bind] at h
  obtain ⟨e, he, h⟩ := h
  rw [res_pure] at h
  subst h
  exact .cons ((mapM_forall₂ ho).imp fun _ _ h => songDef_slot h) (.cons ((mapM_forall₂ hi).imp fun _ _ h => songDef_slot h)
    (.cons ((mapM_forall₂ he).imp fun _ _ h => songDef_slot h) .nil))

/-- **C46.** The banks have 15, 16 and 3 songs. -/
theorem C46_counts (j : Json) (dir : String) (m : Manifest) (h : manifestNew j dir = .ok m) : m.map List.length = [15, 16, 3] := by
  have := C46_slots j dir m h
  clear h
  have h2 : m.map List.length = gameOrder.map fun b => b.2.length := by
    generalize gameOrder = g at this
    induction this with
    | nil => rfl
    | cons h _ ih => rw [List.map_cons, List.map_cons, ih, h.length_eq]
  rw [h2]
  rfl

/-- **C46.** The order of keys anywhere in the document makes no difference. -/
theorem C46_key_order (a b : Json) (dir : String) (h : Reordered a b) : manifestNew a dir = manifestNew b dir := by
  unfold manifestNew
  rw [reordered_bank (reordered_index h _), reordered_bank (reordered_index h _), reordered_bank (reordered_index h _)]

/-- **C46.** A manifest is accepted exactly if every slot of the game has an `input` text; otherwise there is a panic (the code never returns its `Err`). -/
theorem C46_accepted (j : Json) (dir : String) :
    ((∃ m, manifestNew j dir = .ok m) ↔ ∀ bank ∈ gameOrder, ∀ name ∈ bank.2, ∃ p, Field ((j.index bank.1).index name) "input" (.str p)) ∧
    ((∃ m, manifestNew j dir = .ok m) ∨ manifestNew j dir = .error .panic) := by
  have hstr : ∀ k : Json, (∃ p, Field k "input" (.str p)) ↔ ∃ d, songDefNew k dir = .ok d := by
    intro k
    constructor
    · rintro ⟨p, hp⟩
      unfold songDefNew
      rw [index_field hp]
      exact ⟨_, rfl⟩
    · rintro ⟨d, hd⟩
      obtain ⟨p, -, hp, -⟩ := (songDef_slot hd).input
      exact ⟨p, hp⟩
  have hall : ∀ (k : Json) (ns : List String), (∃ l, bankNew k ns dir = .ok l) ↔ ∀ n ∈ ns, ∃ p, Field (k.index n) "input" (.str p) := by
    intro k ns
    unfold bankNew
    induction ns with
    | nil => simp [pure, Except.pure]
    | cons n ns ih =>
      rw [List.mapM_cons]
      simp only [List.mem_cons, forall_eq_or_imp]
      rw [hstr, ← ih]
      constructor
      · rintro ⟨l, hl⟩
        rw [res_bind] at hl
        obtain ⟨d, hd, hl⟩ := hl
        rw [res_bind] at hl
        obtain ⟨ds, hds, -⟩ := hl
        exact ⟨⟨d, hd⟩, ds, hds⟩
      · rintro ⟨⟨d, hd⟩, ds, hds⟩
        exact ⟨d :: ds, by rw [hd, hds]; rfl⟩
  constructor
  · simp only [gameOrder, List.mem_cons, List.not_mem_nil, or_false, forall_eq_or_imp, forall_eq]
    have h1 := hall (j.index "overworld") overworldSongs
    have h2 := hall (j.index "indoor") indoorSongs
    have h3 := hall (j.index "ending") endingSongs
    simp only [overworldSongs, indoorSongs, endingSongs, List.mem_cons, List.not_mem_nil, or_false, forall_eq_or_imp, forall_eq] at h1 h2 h3
    rw [← h1, ← h2, ← h3]
    unfold manifestNew
    constructor
    · rintro ⟨m, h⟩
      rw [res_bind] at h
      obtain ⟨o, ho, h⟩ := h
      rw [res_bind] at h
      obtain ⟨i, hi, h⟩ := h
      rw [res_bind] at h
      obtain ⟨e, he, h⟩ := h
      exact ⟨⟨o, ho⟩, ⟨i, hi⟩, e, he⟩
    · rintro ⟨⟨o, ho⟩, ⟨i, hi⟩, e, he⟩
      exact ⟨[o, i, e], res_bind.mpr ⟨o, ho, res_bind.mpr ⟨i, hi, res_bind.mpr ⟨e, he, rfl⟩⟩⟩⟩
  · have hp : PanicOnly (manifestNew j dir) := by
      have hb : ∀ k ns, PanicOnly (bankNew k ns dir) := by
        intro k ns
        unfold bankNew
        refine panicOnly_mapM _ _ fun n => ?_
        unfold songDefNew
        split
        · exact panicOnly_panicked
        · exact panicOnly_ok _
      unfold manifestNew
      exact (hb _ _).bind fun _ _ => (hb _ _).bind fun _ _ => (hb _ _).bind fun _ _ => panicOnly_pure _
    cases h : manifestNew j dir with
    | ok m => exact .inl ⟨m, rfl⟩
    | error e => rw [hp e h]; exact .inr rfl

/-- A manifest with banks and keys in another order, one tempo and one loop flag given. -/
def demoManifest : Json :=
  .obj [("ending", .obj ((["Staff", "Triforce", "Ending"]).map fun n => (n, .obj [("loop", .bool false), ("input", .str (n ++ ".mid"))]))),
        ("indoor", .obj (indoorSongs.map fun n => (n, .obj [("input", .str "/abs/x.json")]))),
        ("overworld", .obj (overworldSongs.map fun n => (n, .obj [("tempoAdjust", .float (1 / 2)), ("input", .str "music/a.mid")])))]

example : (manifestNew demoManifest "/home/u").map (fun m => m.map fun b => b.map fun d => (d.input, d.loops)) =
    .ok [List.replicate 15 (some "/home/u/music/a.mid", true), List.replicate 16 (some "/abs/x.json", true),
      [(some "/home/u/Triforce.mid", false), (some "/home/u/Ending.mid", false), (some "/home/u/Staff.mid", false)]] := by decide +kernel

/-- Swapping two keys inside a bank is a reordering. -/
example (a b : Json) (rest : List (String × Json)) :
    Reordered (.obj (("ending", .obj [("Ending", a), ("Staff", b)]) :: rest)) (.obj (("ending", .obj [("Staff", b), ("Ending", a)]) :: rest)) :=
  .inside [] rest "ending" (.keys (.swap ..) (by simp))

/-! ## C47 -/

/-- **C47.** `file_select`: the slots of the game, in order; the one named File Select has the given song (looping), all others have none and do not loop. -/
theorem C47_file_select (p : String) :
    List.Forall₂ (fun bank songs => List.Forall₂ (fun name d => d.input = (if name = "File Select" then some p else none) ∧
      d.loops = decide (name = "File Select") ∧ (name = "File Select" → d.tempoFactor = .ofRat (1 / 5))) bank.2 songs) gameOrder (manifestFileSelect p) := by
  simp [gameOrder, manifestFileSelect, songDefDefault, songDefEmpty, defaultTempoAdjust]

/-- **C47.** There is exactly one such slot among the 34. -/
theorem C47_one_slot : ((gameOrder.flatMap (·.2)).filter (· = "File Select")).length = 1 ∧ (gameOrder.flatMap (·.2)).length = 34 := by decide

/-- **C47.** `all_overworld`: every one of the slots has the given song. -/
theorem C47_all_overworld (p : String) :
    List.Forall₂ (fun bank songs => List.Forall₂ (fun _ d => d.input = some p ∧ d.loops = true ∧ d.tempoFactor = .ofRat (1 / 5)) bank.2 songs)
      gameOrder (manifestSingleSong p) := by
  simp [gameOrder, manifestSingleSong, songDefDefault, defaultTempoAdjust]

/-- **C47.** Both have the bank sizes of a parsed manifest. -/
theorem C47_counts (p : String) (j : Json) (dir : String) (m : Manifest) (h : manifestNew j dir = .ok m) :
    (manifestFileSelect p).map List.length = m.map List.length ∧ (manifestSingleSong p).map List.length = m.map List.length := by
  rw [C46_counts j dir m h]
  exact ⟨rfl, rfl⟩

end M2S
