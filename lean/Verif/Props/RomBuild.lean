import Verif.Proofs.RomDemo
/-
Building banks: C39 (size), C40 (only the song chunks change), C41 (following the pointers), C43 (building twice), C44 (the fit check),
C49 (empty songs).
-/
namespace M2S
open RomSpec

/-! ## C39 -/

/-- **C39.** A build leaves the length of the image unchanged. -/
theorem C39_size {Path : Type} (conv : Converter Path) (v : Bool) (banks : List (List (SongDef Path))) (addrs : List Nat) (rom r : Rom)
    (h : buildRom conv v banks addrs rom = .ok r) : r.length = rom.length := by
  unfold buildRom at h
  generalize banks.zip (addrs.zip bankFirstSongAddrs) = jobs at h
  generalize 0 = fs at h
  induction jobs generalizing rom fs with
  | nil => cases h; rfl
  | cons j jobs ih =>
    obtain ⟨songs, base, first⟩ := j
    rw [writeBanks, res_bind] at h
    obtain ⟨r1, h1, h⟩ := h
    obtain ⟨w, ps, c, -, -, -, -, -, rfl⟩ := writeBank_ok.mp h1
    rw [ih _ _ h, applyW_length]

/-- **C39.** The same for the file: whatever the outcome, and however many bytes the operating system stores, its length stays. -/
theorem C39_file {Path : Type} (conv : Converter Path) (v : Bool) (banks : List (List (SongDef Path))) (addrs : List Nat) (accepted : Nat)
    (file : List UInt8) : (romWrite conv v banks addrs accepted file).2.length = file.length := by
  unfold romWrite
  split
  · rfl
  · rename_i r h
    have := C39_size conv v banks addrs file r h
    simp only [List.length_append, List.length_take, List.length_drop]
    omega

/-- A build that fails; for one that succeeds see C44. -/
example : (buildRom demoConv true [[slot (some 20) true, slot (some 20) true], [], []] [0, 12, 24] threeRom) = .error (.err .doesNotFit) := by decide +kernel

/-! ## C40 -/

/-- **C40 (one bank).** If the songs fit (`Fits`), building a bank changes nothing outside the data of its song chunk and overflow chunk. What is missing for the
full statement is false of the code, see the witnesses below. -/
theorem C40_bank_partial {Path : Type} (conv : Converter Path) (v : Bool) (j : Job Path) (fs : Nat) (rom r : Rom) (hj : j.Ready conv (ofRom rom) fs)
    (h : writeBank conv v j.songs rom j.base j.first fs = .ok r) : ∀ q, r[q]? ≠ rom[q]? → j.bank.Data q := by
  intro q hq
  by_contra hd
  obtain ⟨B, hB⟩ := built_of_ok hj.addr hj.bank hj.songs hj.fits h
  exact hq (hB.unchanged hj.fits.start hd)

/-- **C40 (whole build).** If the songs of all banks fit and no song data lies over chunk headers or bank pointers, a build changes nothing outside
the data of the song chunks and overflow chunks, and afterwards all banks have the same chunks as before. -/
theorem C40_build_partial {Path : Type} (conv : Converter Path) (v : Bool) (js : List (Job Path)) (addrs : List Nat) (rom r : Rom)
    (haddrs : addrs = js.map Job.base) (hfirst : bankFirstSongAddrs = js.map Job.first)
    (hr : AllReady conv (ofRom rom) 0 js) (hs : HeadersSafe js) (h : buildRom conv v (js.map Job.songs) addrs rom = .ok r) :
    (∀ q, r[q]? ≠ rom[q]? → ∃ j ∈ js, j.bank.Data q) ∧ ∀ j ∈ js, j.bank.In (ofRom r) j.base := by
  have hz : (js.map Job.songs).zip (addrs.zip bankFirstSongAddrs) = js.map Job.args := by
    rw [haddrs, hfirst, List.zip_map', List.zip_map']; rfl
  unfold buildRom at h
  rw [hz] at h
  obtain ⟨-, hout, -⟩ := writeBanks_built hr hs h
  have hun : ∀ q, (∀ j ∈ js, ¬ j.bank.Data q) → r[q]? = rom[q]? := hout
  constructor
  · intro q hq
    by_contra hd
    exact hq (hun q fun j hj hdj => hd ⟨j, hj, hdj⟩)
  · intro j hj
    have hin : ∀ {js : List (Job Path)} {fs : Nat}, AllReady conv (ofRom rom) fs js → ∀ j ∈ js, j.bank.In (ofRom rom) j.base := by
      intro js
      induction js with
      | nil => intro fs _ j hj; cases hj
      | cons k js ih =>
        intro fs h j hj
        rcases List.mem_cons.mp hj with rfl | hj
        · exact h.1.bank
        · exact ih h.2 j hj
    exact bankIn_congr (hin hr j hj) fun q hq => hun q fun k hk hd => hs k hk j hj q hd hq

/-- `oneJob` is ready and its build succeeds. -/
example : oneJob.Ready demoConv (ofRom (oneRom 100 30)) 0 ∧
    (writeBank demoConv false oneJob.songs (oneRom 100 30) oneJob.base oneJob.first 0).toOption.isSome := ⟨oneJob_ready, by decide +kernel⟩

/-- A build of three banks that meets all hypotheses (also those of C41 and C43); it succeeds by C44. -/
example : [0, 12, 24] = threeJobs.map Job.base ∧ bankFirstSongAddrs = threeJobs.map Job.first ∧ AllReady demoConv (ofRom threeRom) 0 threeJobs ∧
    HeadersSafe threeJobs ∧ DataApart threeJobs ∧ ∀ j ∈ threeJobs, j.bank.Clean :=
  ⟨rfl, rfl, threeJobs_ready, threeJobs_safe, threeJobs_apart, threeJobs_clean⟩

/-- The ROM of the following witness after the build. -/
def clobberedRom : Rom := (writeBank demoConv false [slot (some 1) false] (oneRom 22 4) 0 0xd002 0).toOption.getD []

/-- **C40 is false without `Fits.rest`:** after the switch to the overflow chunk the code does not check that the block fits there. If it is the
last one of the bank, the build succeeds and overwrites what follows the chunk, here the end mark of the chunk list. -/
theorem C40_last_block_false : (bankAt 12 22 4).In (ofRom (oneRom 22 4)) 0 ∧
    writeBank demoConv false [slot (some 1) false] (oneRom 22 4) 0 0xd002 0 = .ok clobberedRom ∧
    ∃ q, clobberedRom[q]? ≠ (oneRom 22 4)[q]? ∧ ¬ (bankAt 12 22 4).Data q ∧ (bankAt 12 22 4).Meta 0 q := by
  refine ⟨⟨by decide, .cons (by decide) (.cons (by decide) (.cons (by decide) (.cons (by decide) (.nil _)))), by decide, by decide, rfl, by decide⟩,
    by decide +kernel, 51, by decide +kernel, ?_, ?_⟩
  · simp [Bank.Data, bankAt, ChunkInfo.data, ChunkInfo.next]
  · right; right; right
    exact ⟨⟨51, 0, 0x0800⟩, by decide, by decide, by decide⟩

/-! ## C41 -/

/-- **C41 (one bank).** After a build that fits, upload the bank to ARAM (over any contents `a0`): for every slot `k`, the song table entry
leads to the song, its header to the part, with the loop mark or the end mark, the part's pointers to the tracks, whose bytes are the encoded ones
with every subroutine call leading to the called track. -/
theorem C41_bank_partial {Path : Type} (conv : Converter Path) (v : Bool) (j : Job Path) (fs : Nat) (rom r : Rom) (hj : j.Ready conv (ofRom rom) fs)
    (hc : j.bank.Clean) (h : writeBank conv v j.songs rom j.base j.first fs = .ok r) (a0 : Mem) (k : Nat) (e : Encoded) (hk : j.encoded[k]? = some e) :
    ∃ T addr, word (upload (ofRom r) j.bank.chunks a0) (0xd000 + 2 * (fs + k)) = some T ∧
      SongAt (upload (ofRom r) j.bank.chunks a0) T e addr := by
  obtain ⟨B, hB⟩ := built_of_ok hj.addr hj.bank hj.songs hj.fits h
  obtain ⟨vs, vo⟩ := bank_view (m := ofRom r) (a0 := a0) hc.songs hc.over
  have h1 := hj.fits.table
  have h2 := hj.fits.start
  exact hB.song_at hj.bank.songs (by omega) vs vo hc.top hc.overTop hc.overPage hk

/-- **C41 (whole build).** The same for every bank of a build; songs are numbered through all banks. -/
theorem C41_build_partial {Path : Type} (conv : Converter Path) (v : Bool) (js : List (Job Path)) (addrs : List Nat) (rom r : Rom)
    (haddrs : addrs = js.map Job.base) (hfirst : bankFirstSongAddrs = js.map Job.first)
    (hr : AllReady conv (ofRom rom) 0 js) (hs : HeadersSafe js) (hd : DataApart js) (h : buildRom conv v (js.map Job.songs) addrs rom = .ok r)
    (pre : List (Job Path)) (j : Job Path) (post : List (Job Path)) (hj : js = pre ++ j :: post) (hc : j.bank.Clean)
    (a0 : Mem) (k : Nat) (e : Encoded) (hk : j.encoded[k]? = some e) :
    ∃ T addr, word (upload (ofRom r) j.bank.chunks a0) (0xd000 + 2 * ((pre.map fun i => i.songs.length).sum + k)) = some T ∧
      SongAt (upload (ofRom r) j.bank.chunks a0) T e addr := by
  have hz : (js.map Job.songs).zip (addrs.zip bankFirstSongAddrs) = js.map Job.args := by
    rw [haddrs, hfirst, List.zip_map', List.zip_map']; rfl
  unfold buildRom at h
  rw [hz] at h
  obtain ⟨-, -, hall⟩ := writeBanks_built hr hs h
  obtain ⟨rom', r', B, hB, hagree⟩ := hall pre j post hj
  have hready : ∀ {js : List (Job Path)} {fs : Nat} {pre post : List (Job Path)} {j : Job Path}, AllReady conv (ofRom rom) fs js → js = pre ++ j :: post →
      j.Ready conv (ofRom rom) (fs + (pre.map fun k => k.songs.length).sum) := by
    intro js
    induction js with
    | nil => intro fs pre post j _ h; simp at h
    | cons i js ih =>
      intro fs pre post j h hj
      cases pre with
      | nil =>
        simp only [List.nil_append, List.cons.injEq] at hj
        obtain ⟨rfl, -⟩ := hj
        simpa using h.1
      | cons p pre =>
        simp only [List.cons_append, List.cons.injEq] at hj
        obtain ⟨rfl, hj⟩ := hj
        rw [List.map_cons, List.sum_cons, ← Nat.add_assoc]
        exact ih h.2 hj
  have hjr := hready hr hj
  have hsame : ∀ q, j.bank.Data q → ofRom r q = ofRom r' q := by
    intro q hq
    refine hagree q fun i hi => ?_
    unfold DataApart at hd
    rw [hj, List.pairwise_append, List.pairwise_cons] at hd
    exact hd.2.1.1 i hi q hq
  obtain ⟨vs, vo⟩ := bank_view (m := ofRom r) (a0 := a0) hc.songs hc.over
  have h1 := hjr.fits.table
  have h2 := hjr.fits.start
  rw [Nat.zero_add] at hB hjr h1
  refine hB.song_at hjr.bank.songs (by omega) ?_ ?_ hc.top hc.overTop hc.overPage hk
  · intro i hi
    rw [vs i hi]
    refine hsame _ (.inl ⟨by omega, ?_⟩)
    unfold ChunkInfo.next ChunkInfo.data; omega
  · intro i hi
    rw [vo i hi]
    refine hsame _ (.inr ⟨by omega, ?_⟩)
    unfold ChunkInfo.next ChunkInfo.data; omega

/-- What the example's build leaves in ARAM: the third song is at D04D, its track in the overflow chunk at 2B00; the first song loops. -/
example : ∃ r, writeBank demoConv false oneJob.songs (oneRom 100 30) oneJob.base oneJob.first 0 = .ok r ∧ oneJob.bank.Clean ∧
    word (upload (ofRom r) oneJob.bank.chunks fun _ => none) 0xd004 = some 0xd04d ∧
    word (upload (ofRom r) oneJob.bank.chunks fun _ => none) 0xd04d = some 0xd051 ∧
    word (upload (ofRom r) oneJob.bank.chunks fun _ => none) 0xd051 = some 0x2b00 ∧
    word (upload (ofRom r) oneJob.bank.chunks fun _ => none) 0xd00a = some 0xd006 :=
  ⟨(writeBank demoConv false oneJob.songs (oneRom 100 30) oneJob.base oneJob.first 0).toOption.getD [],
    by decide +kernel, oneJob_clean, by decide +kernel, by decide +kernel, by decide +kernel, by decide +kernel⟩

/-- The ROM of the following witness after the build. -/
def miscalledRom : Rom := (writeBank demoConv false [slot (some 0) false] (oneRom 45 40) 0 0xd002 0).toOption.getD []

/-- **C41 is false without `Fits.calls`:** when a track with a subroutine call is the one that does not fit into the base chunk, the call's address is
written to the place in the base chunk where the track would have been, and the call in the track keeps the address D000. All other conditions are met. -/
theorem C41_switch_call_false : (bankAt 12 45 40).In (ofRom (oneRom 45 40)) 0 ∧ (bankAt 12 45 40).Clean ∧
    EncodedOf demoConv (slot (some 0) false) (callEncoded false) ∧ total (takeFit (45 - 2) (blocks [callEncoded false])).2 ≤ 40 ∧
    writeBank demoConv false [slot (some 0) false] (oneRom 45 40) 0 0xd002 0 = .ok miscalledRom ∧
    ¬ ∃ T addr, word (upload (ofRom miscalledRom) (bankAt 12 45 40).chunks fun _ => none) 0xd000 = some T ∧
      SongAt (upload (ofRom miscalledRom) (bankAt 12 45 40).chunks fun _ => none) T (callEncoded false) addr := by
  refine ⟨⟨by decide, .cons (by decide) (.cons (by decide) (.cons (by decide) (.cons (by decide) (.nil _)))), by decide, by decide, rfl, by decide⟩,
    ⟨by decide, by decide, by decide, by decide, by decide⟩, callEncoded_of _, by decide, by decide +kernel, ?_⟩
  rintro ⟨T, addr, hT, hS⟩
  have hT' : word (upload (ofRom miscalledRom) (bankAt 12 45 40).chunks fun _ => none) 0xd000 = some 0xd002 := by decide +kernel
  rw [hT'] at hT
  obtain rfl : 0xd002 = T := Option.some.inj hT
  obtain ⟨P, hP, -, hptr⟩ := hS.part
  have hP' : word (upload (ofRom miscalledRom) (bankAt 12 45 40).chunks fun _ => none) 0xd002 = some 0xd006 := by decide +kernel
  rw [hP'] at hP
  obtain rfl : 0xd006 = P := Option.some.inj hP
  have h1 := hptr 1 (by decide)
  have h1' : word (upload (ofRom miscalledRom) (bankAt 12 45 40).chunks fun _ => none) (0xd006 + 2 * 1) = some 0x2b00 := by decide +kernel
  rw [h1'] at h1
  have ha : addr 1 = 0x2b00 := (Option.some.inj h1).symm
  obtain ⟨-, ht1⟩ : 0x100 ≤ addr 1 ∧ TrackAt _ addr (addr 1) _ := hS.tracks 1 _ rfl
  obtain ⟨-, ht2⟩ : 0x100 ≤ addr 2 ∧ TrackAt _ addr (addr 2) _ := hS.tracks 2 _ rfl
  rw [ha] at ht1
  have e6 := ht1 6 (by decide)
  have e7 := ht1 7 (by decide)
  have e6' : upload (ofRom miscalledRom) (bankAt 12 45 40).chunks (fun _ => none) (0x2b00 + 6) = some 0 := by decide +kernel
  have e7' : upload (ofRom miscalledRom) (bankAt 12 45 40).chunks (fun _ => none) (0x2b00 + 7) = some 0xd0 := by decide +kernel
  rw [e6'] at e6
  rw [e7'] at e7
  have f6 : (0 : UInt8) = UInt8.ofNat (addr 2) := Option.some.inj e6
  have f7 : (0xd0 : UInt8) = UInt8.ofNat (addr 2 / 256) := Option.some.inj e7
  have g6 := congrArg UInt8.toNat f6
  have g7 := congrArg UInt8.toNat f7
  rw [UInt8.toNat_ofNat'] at g6 g7
  have g6' : addr 2 % 256 = 0 := g6.symm
  have g7' : addr 2 / 256 % 256 = 0xd0 := g7.symm
  have e0 := ht2 0 (by decide)
  have e0' : upload (ofRom miscalledRom) (bankAt 12 45 40).chunks (fun _ => none) (addr 2 + 0) = some 48 := e0
  by_cases hd : addr 2 = 0xd000
  · rw [hd] at e0'
    have : upload (ofRom miscalledRom) (bankAt 12 45 40).chunks (fun _ => none) (0xd000 + 0) = some 2 := by decide +kernel
    rw [this] at e0'
    exact absurd e0' (by decide)
  · have hge : 0x10000 ≤ addr 2 := by omega
    simp only [Bank.chunks, bankAt, List.cons_append, List.nil_append, upload] at e0'
    rw [if_neg (by omega), if_neg (by omega), if_neg (by omega), if_neg (by omega)] at e0'
    cases e0'

/-! ## C43 -/

/-- **C43.** Building again on the output of a build that fits gives the same image again. -/
theorem C43_twice_partial {Path : Type} (conv : Converter Path) (v : Bool) (js : List (Job Path)) (addrs : List Nat) (rom r : Rom)
    (haddrs : addrs = js.map Job.base) (hfirst : bankFirstSongAddrs = js.map Job.first)
    (hr : AllReady conv (ofRom rom) 0 js) (hs : HeadersSafe js) (h : buildRom conv v (js.map Job.songs) addrs rom = .ok r) :
    buildRom conv v (js.map Job.songs) addrs r = .ok r := by
  have hz : (js.map Job.songs).zip (addrs.zip bankFirstSongAddrs) = js.map Job.args := by
    rw [haddrs, hfirst, List.zip_map', List.zip_map']; rfl
  unfold buildRom at h ⊢
  rw [hz] at h ⊢
  obtain ⟨ws, rfl, hi⟩ := writeBanks_indep hr hs h
  obtain ⟨-, hout, -⟩ := writeBanks_built hr hs h
  rw [hi (applyW rom ws) (applyW_length _ _) (allReady_congr hr fun j hj q hq => hout q fun k hk hd => hs k hk j hj q hd hq), applyW_idem]

/-- **C43.** The general reason, for one bank on any ROM: the writes depend on the ROM only through the chunks found, so building again can give something else only
if the build has changed the chunk list itself. -/
theorem C43_bank {Path : Type} (conv : Converter Path) (v : Bool) (songs : List (SongDef Path)) (base first fs : Nat) (b : Bank) (rom r : Rom)
    (hb : base + 8 < 2 ^ 24) (hin : b.In (ofRom rom) base) (h : writeBank conv v songs rom base first fs = .ok r) (hin' : b.In (ofRom r) base) :
    writeBank conv v songs r base first fs = .ok r := by
  obtain ⟨ws, rfl, hi⟩ := writeBank_indep hb hin h
  rw [hi _ (applyW_length _ _) hin', applyW_idem]

/-- **C43 is false without `Fits.rest`:** the build of `C40_last_block_false` with a longer song succeeds once; a second build on its output panics, because the end mark of the
chunk list is gone. -/
theorem C43_last_block_false : ∃ r, writeBank demoConv false [slot (some 12) false] (oneRom 22 4) 0 0xd002 0 = .ok r ∧
    writeBank demoConv false [slot (some 12) false] r 0 0xd002 0 = .error .panic :=
  ⟨(writeBank demoConv false [slot (some 12) false] (oneRom 22 4) 0 0xd002 0).toOption.getD [], by decide +kernel, by decide +kernel⟩

/-! ## C44 -/

/-- **C44.** "Does not fit" is reported only if the blocks that do not fit into the base chunk really are larger than the overflow chunk. -/
theorem C44_no_false_alarm {Path : Type} (conv : Converter Path) (v : Bool) (songs : List (SongDef Path)) (es : List Encoded) (base first fs : Nat) (b : Bank)
    (rom : Rom) (hb : base + 8 < 2 ^ 24) (hin : b.In (ofRom rom) base) (hes : List.Forall₂ (EncodedOf conv) songs es) (hstart : first - 0xd000 ≤ b.songs.len)
    (h : writeBank conv v songs rom base first fs = .error (.err .doesNotFit)) :
    b.over.len < total (takeFit (b.songs.len - (first - 0xd000)) (blocks es)).2 := by
  obtain ⟨w, hw, e1, e2, e3, e4, e5⟩ := bankIn_found hb hin
  have hov : w.overflowAram ≠ aramBase := by rw [e5]; exact hin.later b.over (List.mem_cons_self ..)
  have hbase : (startCur w first).InBase w := ⟨rfl, rfl, rfl⟩
  have hle : (startCur w first).off ≤ (startCur w first).len := by
    simp only [startCur]; rw [e2]; exact hstart
  have hlen : (startCur w first).len - (startCur w first).off = b.songs.len - (first - 0xd000) := by
    simp only [startCur]; rw [e2]; rfl
  by_cases hfirst : aramBase ≤ first
  · rcases placeBank_cases (conv := conv) (w := w) (v := v) (c := startCur w first) (t := w.baseAddr + 2 * fs) hes (.inl ⟨hbase, hle⟩) with
      ⟨ps, c', hps⟩ | ⟨-, hst⟩
    · exfalso
      have := panicOnly_writeBank hw hps _ h
      cases this
    · have := (stuck_takeFit hov hbase hle hst).1
      rw [hlen, e4] at this
      exact this
  · exfalso
    unfold writeBank at h
    rw [hw] at h
    simp only [bind, Except.bind, subU, if_neg hfirst, panicked] at h
    cases h

/-- Both outcomes at the boundary: the blocks for the overflow chunk have 30 bytes; a chunk of 30 bytes is enough, one of 29 is not. -/
example : (writeBank demoConv false [slot (some 0) true, slot (some 1) false, slot (some 1) false] (oneRom 100 30) 0 0xd006 0).toOption.isSome ∧
    writeBank demoConv false [slot (some 0) true, slot (some 1) false, slot (some 1) false] (oneRom 100 29) 0 0xd006 0 = .error (.err .doesNotFit) ∧
    (bankAt 12 100 29).In (ofRom (oneRom 100 29)) 0 ∧
    total (takeFit (100 - 6) (blocks [callEncoded true, noteEncoded 1 false, noteEncoded 1 false])).2 = 30 :=
  ⟨by decide +kernel, by decide +kernel,
   ⟨by decide, .cons (by decide) (.cons (by decide) (.cons (by decide) (.cons (by decide) (.nil _)))), by decide, by decide, rfl, by decide⟩, by decide⟩

/-- **C44.** A build that succeeds has all blocks inside the two chunks, except in one case that the code does not check: a single block, the last of the bank, goes
to the overflow chunk. -/
theorem C44_success_partial {Path : Type} (conv : Converter Path) (v : Bool) (songs : List (SongDef Path)) (es : List Encoded) (base first fs : Nat) (b : Bank)
    (rom r : Rom) (hb : base + 8 < 2 ^ 24) (hin : b.In (ofRom rom) base) (hes : List.Forall₂ (EncodedOf conv) songs es) (hstart : first - 0xd000 ≤ b.songs.len)
    (h : writeBank conv v songs rom base first fs = .ok r) :
    total (takeFit (b.songs.len - (first - 0xd000)) (blocks es)).2 ≤ b.over.len ∨ (takeFit (b.songs.len - (first - 0xd000)) (blocks es)).2.length = 1 := by
  obtain ⟨w, ps, c, hw, hfirst, hpl, -, -, -⟩ := writeBank_ok.mp h
  obtain ⟨w', hw', e1, e2, e3, e4, e5⟩ := bankIn_found hb hin
  rw [hw] at hw'
  cases hw'
  obtain ⟨hrun, -⟩ := placeBank_run _ hpl
  have henc : ps.map PlacedSong.enc = es := forall₂_det EncodedOf.det (placeBank_enc _ hpl) hes
  have hle : (startCur w first).off ≤ (startCur w first).len := by
    simp only [startCur]; rw [e2]; exact hstart
  have hlen : (startCur w first).len - (startCur w first).off = b.songs.len - (first - 0xd000) := by
    simp only [startCur]; rw [e2]; rfl
  obtain ⟨x, y, -, ht, -, -, -, hy⟩ := hrun.split ⟨rfl, rfl, rfl⟩ hle
  rw [items_blocks, henc, hlen] at ht
  rw [ht]
  rw [e4] at hy
  rcases hy with hy | hy
  · left; exact hy
  · have : y.length = 0 ∨ y.length = 1 := by omega
    rcases this with h0 | h1
    · left
      rw [List.length_eq_zero_iff.mp h0]
      simp [total]
    · right
      simpa using h1

/-- **C44.** Songs that fit are accepted: if the indices in the songs are valid and the two chunks lie inside the ROM, the build succeeds. -/
theorem C44_fits_ok {Path : Type} (conv : Converter Path) (v : Bool) (j : Job Path) (fs : Nat) (rom : Rom) (hj : j.Ready conv (ofRom rom) fs)
    (hfirst : 0xd000 ≤ j.first)
    (hidx : ∀ e ∈ j.encoded, (∀ t ∈ e.part, t < e.tracks.length) ∧ ∀ o ∈ e.tracks, ∀ r ∈ o.refs, r.targetTrack < e.tracks.length)
    (hrom : j.bank.songs.next ≤ rom.length ∧ j.bank.over.next ≤ rom.length) :
    ∃ r, writeBank conv v j.songs rom j.base j.first fs = .ok r := by
  obtain ⟨w, hw, e1, e2, e3, e4, e5⟩ := bankIn_found hj.addr hj.bank
  have hov : w.overflowAram ≠ aramBase := by rw [e5]; exact hj.bank.later j.bank.over (List.mem_cons_self ..)
  have hbase : (startCur w j.first).InBase w := ⟨rfl, rfl, rfl⟩
  have hle : (startCur w j.first).off ≤ (startCur w j.first).len := by
    simp only [startCur]; rw [e2]; exact hj.fits.start
  have hlen : (startCur w j.first).len - (startCur w j.first).off = j.bank.songs.len - (j.first - 0xd000) := by
    simp only [startCur]; rw [e2]; rfl
  rcases placeBank_cases (conv := conv) (w := w) (v := v) (c := startCur w j.first) (t := w.baseAddr + 2 * fs) hj.songs (.inl ⟨hbase, hle⟩) with
      ⟨ps, c', hps⟩ | ⟨-, hst⟩
  · have hL := laid_of_placed hj.addr hj.bank hj.songs hj.fits hw hfirst hps
    refine ⟨_, writeBank_ok.mpr ⟨w, ps, c', hw, hfirst, hps, ?_, ?_, rfl⟩⟩
    · intro s hs
      have henc : s.enc ∈ j.encoded := by rw [← hL.enc]; exact List.mem_map.mpr ⟨s, hs, rfl⟩
      obtain ⟨h1, h2⟩ := hidx _ henc
      have hl : s.enc.tracks.length = s.tracks.length := by simp [PlacedSong.enc]
      rw [hl] at h1 h2
      exact ⟨h1, fun p hp r hr => h2 p.out (List.mem_map.mpr ⟨p, hp, rfl⟩) r hr⟩
    · intro x hx
      rcases hL.range hj.fits.start hx with ⟨-, h⟩ | ⟨-, h⟩ <;> omega
  · exfalso
    have := (stuck_takeFit hov hbase hle hst).1
    rw [hlen, e4] at this
    have := hj.fits.rest
    omega

/-- `oneJob` meets the hypotheses. -/
example : oneJob.Ready demoConv (ofRom (oneRom 100 30)) 0 ∧ 0xd000 ≤ oneJob.first ∧
    (∀ e ∈ oneJob.encoded, (∀ t ∈ e.part, t < e.tracks.length) ∧ ∀ o ∈ e.tracks, ∀ r ∈ o.refs, r.targetTrack < e.tracks.length) ∧
    oneJob.bank.songs.next ≤ (oneRom 100 30).length ∧ oneJob.bank.over.next ≤ (oneRom 100 30).length := ⟨oneJob_ready, by decide +kernel⟩

/-- **C44 is false in one case:** the build of `C40_last_block_false` succeeds, though the track has 10 bytes and the overflow chunk 4. -/
theorem C44_last_block_false : (bankAt 12 22 4).In (ofRom (oneRom 22 4)) 0 ∧ EncodedOf demoConv (slot (some 1) false) (noteEncoded 1 false) ∧
    writeBank demoConv false [slot (some 1) false] (oneRom 22 4) 0 0xd002 0 = .ok clobberedRom ∧
    total (takeFit (22 - 2) (blocks [noteEncoded 1 false])).2 = 10 :=
  ⟨C40_last_block_false.1, noteEncoded_of_one _, C40_last_block_false.2.1, by decide⟩

/-! ## C49 -/

/-- **C49.** A slot without input, at any position in a bank that is built, gets a song whose part has eight null pointers; the song takes only the
room of its header and part. -/
theorem C49_empty_slot {Path : Type} (conv : Converter Path) (v : Bool) (j : Job Path) (fs : Nat) (rom r : Rom) (hj : j.Ready conv (ofRom rom) fs)
    (hc : j.bank.Clean) (h : writeBank conv v j.songs rom j.base j.first fs = .ok r) (a0 : Mem) (k : Nat) (d : SongDef Path) (hk : j.songs[k]? = some d)
    (hd : d.input = none) :
    (∃ T P, word (upload (ofRom r) j.bank.chunks a0) (0xd000 + 2 * (fs + k)) = some T ∧ word (upload (ofRom r) j.bank.chunks a0) T = some P ∧
      ∀ i < 8, word (upload (ofRom r) j.bank.chunks a0) (P + 2 * i) = some 0) ∧
    ∃ e, j.encoded[k]? = some e ∧ ∀ o ∈ e.tracks, o.bytes = [] := by
  obtain ⟨input, f, l⟩ := d
  subst hd
  have hlen := hj.songs.length_eq
  obtain ⟨hk', hkd⟩ := List.getElem?_eq_some_iff.mp hk
  have he := List.Forall₂.get hj.songs hk' (by omega)
  simp only [List.get_eq_getElem, hkd] at he
  have hee : j.encoded[k]'(by omega) = emptyEncoded l := EncodedOf.det _ _ _ he (emptyEncoded_of l f)
  have hek : j.encoded[k]? = some (emptyEncoded l) := by rw [List.getElem?_eq_getElem (by omega), hee]
  obtain ⟨T, addr, hT, hS⟩ := C41_bank_partial conv v j fs rom r hj hc h a0 k _ hek
  obtain ⟨P, hP, -, hptr⟩ := hS.part
  refine ⟨⟨T, P, hT, hP, ?_⟩, _, hek, by simp [emptyEncoded]⟩
  intro i hi
  rw [hptr i hi]
  have h0 : addr 0 = 0 := hS.tracks 0 _ rfl
  cases i with
  | zero => simp [emptyEncoded, h0]
  | succ i => simp [emptyEncoded]

/-- `oneJob` has an empty slot between two songs. -/
example : oneJob.Ready demoConv (ofRom (oneRom 100 30)) 0 ∧ oneJob.bank.Clean ∧ ∃ d, oneJob.songs[1]? = some d ∧ d.input = none :=
  ⟨oneJob_ready, oneJob_clean, _, rfl, rfl⟩

end M2S
