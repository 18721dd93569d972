import Verif.Proofs.ReportTrue
import Verif.Proofs.RomDemo
/-
C80: what the builder prints.
-/
namespace M2S
open RomSpec

/-- **C80 (no side effects).** Messages do not influence what is built: if all files have names, the outcome is that of the builder without messages. -/
theorem C80_outcome {Path : Type} (conv : Converter Path) (fileName : Path → Option String) (v : Bool) (bs : List (String × List (SongDef Path) × Nat × Nat)) (rom : Rom) (fs : Nat)
    (hn : ∀ b ∈ bs, ∀ d ∈ b.2.1, ∀ p, d.input = some p → (fileName p).isSome) :
    (tellBanks conv fileName v bs rom fs).result = writeBanks conv v (bs.map Prod.snd) rom fs := result_banks hn rom fs

/-- **C80 (silence).** Without `verbose` there are no messages, whatever the outcome. -/
theorem C80_silent {Path : Type} (conv : Converter Path) (fileName : Path → Option String) (bs : List (String × List (SongDef Path) × Nat × Nat)) (rom : Rom) (fs : Nat) :
    (tellBanks conv fileName false bs rom fs).lines = [] := silent_banks ..

/-- **C80 (one bank).** After a build that fits, the messages about a bank are true of the new ROM: where the bank starts and its first chunk's length; for every song, in order, where it is (ROM and ARAM agree), its
entry of the song table, the place of each track, the part, each of the part's pointers and each operand of a subroutine call; finally its name and, if the chunk was not
switched inside the song, its size. What is missing for the full statement, the sizes otherwise, is false, see below. -/
theorem C80_bank_partial {Path : Type} (conv : Converter Path) (fileName : Path → Option String) (name : String) (j : Job Path) (fs : Nat) (rom r : Rom)
    (hj : j.Ready conv (ofRom rom) fs) (hc : j.bank.Clean) (hn : ∀ d ∈ j.songs, ∀ p, d.input = some p → (fileName p).isSome)
    (h : (tellBank conv fileName true name j.songs rom j.base j.first fs).result = .ok r) :
    BankTold j.bank (ofRom r) fs name (j.songs.map (shownName fileName)) j.encoded (tellBank conv fileName true name j.songs rom j.base j.first fs).lines :=
  bank_told hj hc hn (by rw [← result_bank (name := name) hn]; exact h) fun _ _ => rfl

/-- **C80 (whole build).** The messages of a build are those of its banks, one after the other, and they are true of the finished ROM. -/
theorem C80_build_partial {Path : Type} (conv : Converter Path) (fileName : Path → Option String) (names : List String) (js : List (Job Path)) (rom r : Rom)
    (hlen : names.length = js.length) (hr : AllReady conv (ofRom rom) 0 js) (hs : HeadersSafe js) (hd : DataApart js) (hc : ∀ j ∈ js, j.bank.Clean)
    (hn : ∀ j ∈ js, ∀ d ∈ j.songs, ∀ p, d.input = some p → (fileName p).isSome)
    (h : (tellBanks conv fileName true (names.zip (js.map Job.args)) rom 0).result = .ok r) :
    ∃ reps : List (List Line), (tellBanks conv fileName true (names.zip (js.map Job.args)) rom 0).lines = reps.flatten ∧ reps.length = js.length ∧
      ∀ (pre : List (Job Path)) (j : Job Path) (post : List (Job Path)) (name : String) (rep : List Line), js = pre ++ j :: post →
        names[pre.length]? = some name → reps[pre.length]? = some rep →
        BankTold j.bank (ofRom r) (pre.map fun k => k.songs.length).sum name (j.songs.map (shownName fileName)) j.encoded rep := by
  have hmap : (names.zip (js.map Job.args)).map Prod.snd = js.map Job.args := List.map_snd_zip (by simp [hlen])
  have hnamed : ∀ b ∈ names.zip (js.map Job.args), Named fileName b.2.1 := by
    intro b hb
    have : b.2 ∈ js.map Job.args := by rw [← hmap]; exact List.mem_map_of_mem hb
    obtain ⟨j, hj, he⟩ := List.mem_map.mp this
    rw [← he]
    exact hn j hj
  rw [result_banks hnamed, hmap] at h
  obtain ⟨reps, hl, hrl, hall⟩ := banks_told hlen hr hs hn h
  refine ⟨reps, hl, hrl, ?_⟩
  intro pre j post name rep hj hnm hrep
  obtain ⟨rom', r', hready, hw, rfl, hagree⟩ := hall pre j post name rep hj hnm hrep
  rw [Nat.zero_add] at hready hw ⊢
  have hjm : j ∈ js := by rw [hj]; simp
  refine bank_told hready (hc j hjm) (hn j hjm) hw fun q hq => ?_
  refine hagree q fun i hi => ?_
  unfold DataApart at hd
  rw [hj, List.pairwise_append, List.pairwise_cons] at hd
  exact hd.2.1.1 i hi q hq

/-- File names for the examples. -/
def demoName : Nat → Option String := fun p => if p = 7 then none else some (if p = 0 then "zero.mid" else "one.mid")

/-- The messages about the bank of the examples: the third song's track is in the overflow chunk at 2B00. -/
example : (tellBank demoConv demoName true "Overworld" oneJob.songs (oneRom 100 30) oneJob.base oneJob.first 0).lines =
    [.bank "Overworld" 21 0 100,
     .song 27 0xd006 21, .track 51 0xd01e, .track 65 0xd02c, .track 75 0xd036, .part 35 0xd00e, .trackPointer 0xd01e 35, .trackPointer 0xd02c 37,
     .loopPointer 0xd036 61, .loopPointer 0xd036 71, .total "zero.mid" 51,
     .song 78 0xd039 23, .track 98 0xd04d, .part 82 0xd03d, .trackPointer 0 82, .total "[empty song]" 20,
     .song 98 0xd04d 25, .switched 23, .track 125 0x2b00, .part 102 0xd051, .trackPointer 0x2b00 102, .total "one.mid" 10] ∧
    (tellBank demoConv demoName true "Overworld" oneJob.songs (oneRom 100 30) oneJob.base oneJob.first 0).result.toOption.isSome := by decide +kernel

/-- That bank and the build of three banks meet the hypotheses. -/
example : oneJob.Ready demoConv (ofRom (oneRom 100 30)) 0 ∧ oneJob.bank.Clean ∧
    (∀ d ∈ oneJob.songs, ∀ p, d.input = some p → (demoName p).isSome) ∧
    AllReady demoConv (ofRom threeRom) 0 threeJobs ∧ HeadersSafe threeJobs ∧ DataApart threeJobs ∧ (∀ j ∈ threeJobs, j.bank.Clean) ∧
    (∀ j ∈ threeJobs, ∀ d ∈ j.songs, ∀ p, d.input = some p → (demoName p).isSome) ∧
    (tellBanks demoConv demoName true (["Overworld", "Indoor", "Ending"].zip (threeJobs.map Job.args)) threeRom 0).result.toOption.isSome := by
  refine ⟨oneJob_ready, oneJob_clean, ?_, threeJobs_ready, threeJobs_safe, threeJobs_apart, threeJobs_clean, ?_, by decide +kernel⟩
  · intro d hd p hp
    simp only [oneJob, slot, List.mem_cons, List.not_mem_nil, or_false] at hd
    rcases hd with rfl | rfl | rfl <;> cases hp <;> rfl
  · intro j hj d hd p hp
    simp only [threeJobs, List.mem_cons, List.not_mem_nil, or_false] at hj
    rcases hj with rfl | rfl | rfl <;> simp only [slot, List.mem_cons, List.not_mem_nil, or_false] at hd
    · rcases hd with rfl | rfl <;> cases hp; rfl
    · subst hd; cases hp; rfl
    · rcases hd with rfl | rfl <;> cases hp; rfl

/-- **C80 is false of the song sizes.** A song of 30 bytes, 20 of them in the song chunk and 10 in the overflow chunk, is reported with a "total track size in current bank" of 8: the
difference of offsets in different chunks. -/
theorem C80_size_false : (tellBank demoConv demoName true "Overworld" [slot (some 1) false] (oneRom 24 30) 0 0xd002 0).lines =
      [.bank "Overworld" 21 0 24, .song 23 0xd002 21, .switched 22, .track 49 0x2b00, .part 27 0xd006, .trackPointer 0x2b00 27, .total "one.mid" 8] ∧
    (tellBank demoConv demoName true "Overworld" [slot (some 1) false] (oneRom 24 30) 0 0xd002 0).result.toOption.isSome ∧
    EncodedOf demoConv (slot (some 1) false) (noteEncoded 1 false) ∧ (bankAt 12 24 30).In (ofRom (oneRom 24 30)) 0 ∧
    (songBlocks false (noteEncoded 1 false).tracks).map Block.size = [20, 10] :=
  ⟨by decide +kernel, by decide +kernel, noteEncoded_of_one _,
    ⟨by decide, .cons (by decide) (.cons (by decide) (.cons (by decide) (.cons (by decide) (.nil _)))), by decide, by decide, rfl, by decide⟩, by decide⟩

/-- **C80 is false of the switches.** The "data size before switch" is what is left of the song chunk from the last song's offset on: here 6 free bytes after 34 bytes of data. -/
theorem C80_switch_false : (tellBank demoConv demoName true "Overworld" [slot (some 1) false, slot (some 1) false] (oneRom 40 30) 0 0xd004 0).lines =
      [.bank "Overworld" 21 0 40, .song 25 0xd004 21, .track 45 0xd018, .part 29 0xd008, .trackPointer 0xd018 29, .total "one.mid" 30,
       .switched 6, .song 65 0x2b00 23, .track 85 0x2b14, .part 69 0x2b04, .trackPointer 0x2b14 69, .total "one.mid" 30] ∧
    (tellBank demoConv demoName true "Overworld" [slot (some 1) false, slot (some 1) false] (oneRom 40 30) 0 0xd004 0).result.toOption.isSome := by decide +kernel

/-! Paths without a name. -/

/-- **C80 (names).** A slot whose path has no file name (`unixFileName`: `..` at the end, or only dots and slashes) cannot be built, with or without `verbose`; if it is the first slot
of a bank that is in the ROM, the program panics, and does not even try to convert the file. -/
theorem C80_nameless {Path : Type} (conv : Converter Path) (fileName : Path → Option String) (v : Bool) (name : String) (songs : List (SongDef Path)) (rom : Rom) (base first fs : Nat) :
    ((∃ d ∈ songs, ∃ p, d.input = some p ∧ fileName p = none) → ∀ r, (tellBank conv fileName v name songs rom base first fs).result ≠ .ok r) ∧
    ∀ d ds p, songs = d :: ds → d.input = some p → fileName p = none → ∀ b : Bank, base + 8 < 2 ^ 24 → b.In (ofRom rom) base → 0xd000 ≤ first →
      (tellBank conv fileName v name songs rom base first fs).result = .error .panic := by
  constructor
  · intro h r hr
    unfold tellBank at hr
    simp only [result_bind, result_quiet, result_say, res_unit_bind, res_bind] at hr
    obtain ⟨w, -, so, -, st, hst, -⟩ := hr
    exact nameless_songs songs _ h st hst
  · rintro d ds p rfl hp hf b hb hin hfirst
    obtain ⟨w, hw, -⟩ := bankIn_found hb hin
    have hso : subU first aramBase = .ok (first - aramBase) := subU_ok.mpr ⟨hfirst, rfl⟩
    unfold tellBank
    simp only [result_bind, result_quiet, result_say, res_unit_bind, hw, List.foldlM_cons]
    have hn : slotName fileName d = .error .panic := by unfold slotName; rw [hp]; simp only [hf]; rfl
    rw [hn]
    show (subU first aramBase >>= fun _ => _) = _
    rw [hso]
    rfl

/-! Names of files. -/

theorem parts_ne_nil : ∀ a, pathParts a ≠ [] := by
  intro a
  cases a with
  | nil => simp [pathParts]
  | cons c cs =>
    unfold pathParts
    split_ifs
    · simp
    · split <;> simp

theorem parts_slash (a b : List Char) : pathParts (a ++ '/' :: b) = pathParts a ++ pathParts b := by
  induction a with
  | nil => simp [pathParts]
  | cons c a ih =>
    rw [List.cons_append, pathParts, pathParts, ih]
    split_ifs
    · rfl
    · cases h : pathParts a with
      | nil => exact absurd h (parts_ne_nil a)
      | cons n ns => rfl

theorem parts_plain (n : List Char) (h : '/' ∉ n) : pathParts n = [n] := by
  induction n with
  | nil => rfl
  | cons c n ih =>
    simp only [List.mem_cons, not_or] at h
    rw [pathParts, if_neg (fun e => h.1 e.symm), ih h.2]

/-- **C80 (names).** The name that is shown is what follows the last slash, if that is neither empty nor `.` nor `..`, for paths with and without directories. -/
theorem C80_named (dir name : String) (h1 : '/' ∉ name.toList) (h2 : name ≠ "") (h3 : name ≠ ".") (h4 : name ≠ "..") :
    unixFileName (dir ++ "/" ++ name) = some name ∧ unixFileName name = some name := by
  have e2 : name.toList ≠ [] := fun e => h2 (by rw [← String.ofList_toList (s := name), e])
  have e3 : name.toList ≠ ['.'] := fun e => h3 (by rw [← String.ofList_toList (s := name), e])
  have e4 : name.toList ≠ ['.', '.'] := fun e => h4 (by rw [← String.ofList_toList (s := name), e])
  have key : ∀ l : List (List Char), ((l ++ [name.toList]).filter fun n => n ≠ [] ∧ n ≠ ['.']).getLast? = some name.toList := by
    intro l
    rw [List.filter_append, List.filter_cons, if_pos (by simp [e2, e3]), List.filter_nil, List.getLast?_concat]
  constructor
  · unfold unixFileName
    have : (dir ++ "/" ++ name).toList = dir.toList ++ '/' :: name.toList := by simp
    rw [this, parts_slash, parts_plain _ h1, key]
    simp [e4]
  · unfold unixFileName
    rw [parts_plain _ h1, show ([name.toList] : List (List Char)) = [] ++ [name.toList] from rfl, key]
    simp [e4]

/-- **C80 (names).** Slashes and `/.` at the end do not count; after `/..` there is no name. -/
theorem C80_name_end (path : String) : unixFileName (path ++ "/") = unixFileName path ∧ unixFileName (path ++ "/.") = unixFileName path ∧ unixFileName (path ++ "/..") = none := by
  have e1 : (path ++ "/").toList = path.toList ++ '/' :: [] := by simp
  have e2 : (path ++ "/.").toList = path.toList ++ '/' :: ['.'] := by simp
  have e3 : (path ++ "/..").toList = path.toList ++ '/' :: ['.', '.'] := by simp
  unfold unixFileName
  rw [e1, e2, e3, parts_slash, parts_slash, parts_slash, parts_plain [] (by decide), parts_plain ['.'] (by decide), parts_plain ['.', '.'] (by decide)]
  simp [List.filter_append]

/-- A name that is shown is a plain name. -/
theorem C80_name_plain (path name : String) (h : unixFileName path = some name) : '/' ∉ name.toList ∧ name ≠ "" ∧ name ≠ "." ∧ name ≠ ".." := by
  have hp : ∀ (a : List Char) n, n ∈ pathParts a → '/' ∉ n := by
    intro a
    induction a with
    | nil => intro n hn; simp [pathParts] at hn; subst hn; simp
    | cons c a ih =>
      intro n hn
      rw [pathParts] at hn
      split_ifs at hn with hc
      · rcases List.mem_cons.1 hn with rfl | hn
        · simp
        · exact ih n hn
      · cases hq : pathParts a with
        | nil => exact absurd hq (parts_ne_nil a)
        | cons x xs =>
          rw [hq] at hn ih
          rcases List.mem_cons.1 hn with rfl | hn
          · have := ih x (List.mem_cons_self ..)
            simp only [List.mem_cons, not_or]
            exact ⟨fun e => hc e.symm, this⟩
          · exact ih n (List.mem_cons_of_mem _ hn)
  unfold unixFileName at h
  split at h
  · cases h
  · rename_i n hn
    split_ifs at h with hd
    simp only [Option.some.injEq] at h
    subst h
    have hm := List.mem_of_getLast? hn
    obtain ⟨m1, m2⟩ := List.mem_filter.1 hm
    simp only [decide_eq_true_eq] at m2
    rw [String.toList_ofList]
    refine ⟨hp _ _ m1, fun e => m2.1 ?_, fun e => m2.2 ?_, fun e => hd ?_⟩ <;> · rw [← String.toList_ofList (l := n), e]; rfl

/-- Paths without a name: `..` and `songs/..` and `/`; but `songs/.` is called `songs`. -/
example : unixFileName ".." = none ∧ unixFileName "songs/.." = none ∧ unixFileName "/" = none ∧ unixFileName "." = none ∧ unixFileName "songs/." = some "songs" ∧
    unixFileName "/music/./title.mid" = some "title.mid" ∧ unixFileName "title.mid//" = some "title.mid" := by decide +kernel

/-- A bank whose second slot has no name: the first song is reported, then the program panics. -/
example : (tellBank demoConv demoName true "Ending" [slot none false, slot (some 7) false] (oneRom 100 30) 0 0xd006 0).result = .error .panic ∧
    (tellBank demoConv demoName true "Ending" [slot none false, slot (some 7) false] (oneRom 100 30) 0 0xd006 0).lines =
      [.bank "Ending" 21 0 100, .song 27 0xd006 21, .track 47 0xd01a, .part 31 0xd00a, .trackPointer 0 31, .total "[empty song]" 20] := by decide +kernel

end M2S
