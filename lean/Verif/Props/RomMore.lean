import Verif.Proofs.Verbose
import Verif.Proofs.RomFree
import Verif.Props.RomBuild
/-
Building banks, continued: C57 (verbose), C58 (what is not song data: the rest of the song table, free space).
-/
namespace M2S
open RomSpec

/-! ## C57 -/

/-- **C57 (one bank).** `verbose` does not change what is built, unless the program panics because of it. -/
theorem C57_bank {Path : Type} (conv : Converter Path) (songs : List (SongDef Path)) (rom : Rom) (base first fs : Nat) :
    writeBank conv true songs rom base first fs = writeBank conv false songs rom base first fs ∨
    writeBank conv true songs rom base first fs = .error .panic := writeBank_orPanic ..

/-- **C57 (one bank).** If the song chunk has room for the song table (for whatever is before the first song), the outcomes are the same, whether it is a
new ROM, an error or a panic. -/
theorem C57_bank_same {Path : Type} (conv : Converter Path) (songs : List (SongDef Path)) (rom : Rom) (base first fs : Nat) (b : Bank)
    (hb : base + 8 < 2 ^ 24) (hin : b.In (ofRom rom) base) (hroom : first - 0xd000 ≤ b.songs.len) :
    writeBank conv true songs rom base first fs = writeBank conv false songs rom base first fs := by
  refine writeBank_same conv songs rom base first fs fun w hw => ?_
  obtain ⟨w', hw', -, e2, -⟩ := bankIn_found hb hin
  rw [hw] at hw'
  cases hw'
  rw [e2]
  exact hroom

/-- **C57 (whole build).** The same for a build of all banks. -/
theorem C57_build {Path : Type} (conv : Converter Path) (banks : List (List (SongDef Path))) (addrs : List Nat) (rom : Rom) :
    buildRom conv true banks addrs rom = buildRom conv false banks addrs rom ∨ buildRom conv true banks addrs rom = .error .panic :=
  writeBanks_orPanic ..

/-- **C57 (whole build).** If the songs of all banks fit and no song data lies over chunk headers or bank pointers, `verbose` changes nothing. -/
theorem C57_build_same {Path : Type} (conv : Converter Path) (js : List (Job Path)) (addrs : List Nat) (rom : Rom)
    (haddrs : addrs = js.map Job.base) (hfirst : bankFirstSongAddrs = js.map Job.first) (hr : AllReady conv (ofRom rom) 0 js) (hs : HeadersSafe js) :
    buildRom conv true (js.map Job.songs) addrs rom = buildRom conv false (js.map Job.songs) addrs rom := by
  have hz : (js.map Job.songs).zip (addrs.zip bankFirstSongAddrs) = js.map Job.args := by
    rw [haddrs, hfirst, List.zip_map', List.zip_map']; rfl
  unfold buildRom
  rw [hz]
  clear hz haddrs hfirst
  generalize 0 = fs at hr ⊢
  induction js generalizing rom fs with
  | nil => rfl
  | cons j js ih =>
    rw [List.map_cons, Job.args, writeBanks, writeBanks, C57_bank_same conv j.songs rom j.base j.first fs j.bank hr.1.addr hr.1.bank hr.1.fits.start]
    cases h1 : writeBank conv false j.songs rom j.base j.first fs with
    | error e => rfl
    | ok r1 =>
      obtain ⟨B, hB⟩ := built_of_ok hr.1.addr hr.1.bank hr.1.songs hr.1.fits h1
      refine ih r1 (fun a ha b hb => hs a (List.mem_cons_of_mem _ ha) b (List.mem_cons_of_mem _ hb)) _ ?_
      refine allReady_congr hr.2 fun k hk q hq => hB.unchanged hr.1.fits.start fun hd => ?_
      exact hs j (List.mem_cons_self ..) k (List.mem_cons_of_mem _ hk) q hd hq

/-- **C44 (whole build).** Songs that fit are accepted: if the songs of all banks fit, no song data lies over chunk headers or bank pointers, the indices in the songs are valid and all song chunks lie
inside the ROM, a build succeeds. -/
theorem C44_build_ok {Path : Type} (conv : Converter Path) (v : Bool) (js : List (Job Path)) (addrs : List Nat) (rom : Rom)
    (haddrs : addrs = js.map Job.base) (hfirst : bankFirstSongAddrs = js.map Job.first) (hr : AllReady conv (ofRom rom) 0 js) (hs : HeadersSafe js)
    (hidx : ∀ j ∈ js, ∀ e ∈ j.encoded, (∀ t ∈ e.part, t < e.tracks.length) ∧ ∀ o ∈ e.tracks, ∀ r ∈ o.refs, r.targetTrack < e.tracks.length)
    (hrom : ∀ j ∈ js, j.bank.songs.next ≤ rom.length ∧ j.bank.over.next ≤ rom.length) :
    ∃ r, buildRom conv v (js.map Job.songs) addrs rom = .ok r := by
  have hz : (js.map Job.songs).zip (addrs.zip bankFirstSongAddrs) = js.map Job.args := by
    rw [haddrs, hfirst, List.zip_map', List.zip_map']; rfl
  have hd : ∀ j ∈ js, 0xd000 ≤ j.first := by
    intro j hj
    have : j.first ∈ bankFirstSongAddrs := by rw [hfirst]; exact List.mem_map_of_mem hj
    simp only [bankFirstSongAddrs, List.mem_cons, List.not_mem_nil, or_false] at this
    omega
  unfold buildRom
  rw [hz]
  clear hz haddrs hfirst
  generalize 0 = fs at hr ⊢
  induction js generalizing rom fs with
  | nil => exact ⟨rom, rfl⟩
  | cons j js ih =>
    obtain ⟨r1, h1⟩ := C44_fits_ok conv v j fs rom hr.1 (hd j (List.mem_cons_self ..)) (hidx j (List.mem_cons_self ..)) (hrom j (List.mem_cons_self ..))
    obtain ⟨w, ps, c, -, -, -, -, -, hr1⟩ := writeBank_ok.mp h1
    have hlen : r1.length = rom.length := by rw [hr1, applyW_length]
    obtain ⟨B, hB⟩ := built_of_ok hr.1.addr hr.1.bank hr.1.songs hr.1.fits h1
    obtain ⟨r, hr'⟩ := ih r1 (fun a ha b hb => hs a (List.mem_cons_of_mem _ ha) b (List.mem_cons_of_mem _ hb)) (fun a ha => hidx a (List.mem_cons_of_mem _ ha))
      (fun a ha => by rw [hlen]; exact hrom a (List.mem_cons_of_mem _ ha)) (fun a ha => hd a (List.mem_cons_of_mem _ ha)) _
      (allReady_congr hr.2 fun k hk q hq => hB.unchanged hr.1.fits.start fun hd => hs j (List.mem_cons_self ..) k (List.mem_cons_of_mem _ hk) q hd hq)
    refine ⟨r, ?_⟩
    rw [List.map_cons, Job.args, writeBanks, h1]
    exact hr'

example : (∀ j ∈ threeJobs, ∀ e ∈ j.encoded, (∀ t ∈ e.part, t < e.tracks.length) ∧ ∀ o ∈ e.tracks, ∀ r ∈ o.refs, r.targetTrack < e.tracks.length) ∧
    ∀ j ∈ threeJobs, j.bank.songs.next ≤ threeRom.length ∧ j.bank.over.next ≤ threeRom.length := ⟨by decide, by decide +kernel⟩

/-- A build that meets the hypotheses and succeeds. -/
example : AllReady demoConv (ofRom threeRom) 0 threeJobs ∧ HeadersSafe threeJobs ∧ ∃ r, buildRom demoConv true (threeJobs.map Job.songs) [0, 12, 24] threeRom = .ok r :=
  ⟨threeJobs_ready, threeJobs_safe, C44_build_ok demoConv true threeJobs _ threeRom rfl rfl threeJobs_ready threeJobs_safe (by decide) (by decide +kernel)⟩

/-- **C57, the panic.** When the first song's address is behind the end of the song chunk, the message about the switch of chunks subtracts a larger number from a
smaller one: the program panics with `verbose` and succeeds without. -/
theorem C57_verbose_panics : writeBank demoConv true [slot (some 1) false] (oneRom 4 60) 0 0xd006 0 = .error .panic ∧
    (writeBank demoConv false [slot (some 1) false] (oneRom 4 60) 0 0xd006 0).toOption.isSome := by decide +kernel

/-! ## C58 -/

/-- **C58 (one bank).** After a build that fits, the entries of the song table before the bank's first song are as they were, those behind its last song
(up to the first song's data) are 0, and the free space behind the stored blocks is as it was, in the song chunk and in the overflow chunk. -/
theorem C58_bank {Path : Type} (conv : Converter Path) (v : Bool) (j : Job Path) (fs : Nat) (rom r : Rom) (hj : j.Ready conv (ofRom rom) fs)
    (h : writeBank conv v j.songs rom j.base j.first fs = .ok r) :
    (∀ q, j.bank.songs.data ≤ q → q < j.bank.songs.data + 2 * fs → r[q]? = rom[q]?) ∧
    (∀ q, j.bank.songs.data + 2 * (fs + j.songs.length) ≤ q → q < j.bank.songs.data + (j.first - 0xd000) → r[q]? = some 0) ∧
    (∀ q, j.bank.songs.data + (j.first - 0xd000) + total (takeFit (j.bank.songs.len - (j.first - 0xd000)) (blocks j.encoded)).1 ≤ q →
      q < j.bank.songs.next → r[q]? = rom[q]?) ∧
    (∀ q, j.bank.over.data + total (takeFit (j.bank.songs.len - (j.first - 0xd000)) (blocks j.encoded)).2 ≤ q →
      q < j.bank.over.next → r[q]? = rom[q]?) := writeBank_rest hj.addr hj.bank hj.songs hj.fits h

/-- **C58 (whole build).** The same for every bank of a build; songs are numbered through all banks. -/
theorem C58_build {Path : Type} (conv : Converter Path) (v : Bool) (js : List (Job Path)) (addrs : List Nat) (rom r : Rom)
    (haddrs : addrs = js.map Job.base) (hfirst : bankFirstSongAddrs = js.map Job.first)
    (hr : AllReady conv (ofRom rom) 0 js) (hs : HeadersSafe js) (hd : DataApart js) (h : buildRom conv v (js.map Job.songs) addrs rom = .ok r)
    (pre : List (Job Path)) (j : Job Path) (post : List (Job Path)) (hj : js = pre ++ j :: post) :
    (∀ q, j.bank.songs.data ≤ q → q < j.bank.songs.data + 2 * (pre.map fun i => i.songs.length).sum → r[q]? = rom[q]?) ∧
    (∀ q, j.bank.songs.data + 2 * ((pre.map fun i => i.songs.length).sum + j.songs.length) ≤ q → q < j.bank.songs.data + (j.first - 0xd000) → r[q]? = some 0) ∧
    (∀ q, j.bank.songs.data + (j.first - 0xd000) + total (takeFit (j.bank.songs.len - (j.first - 0xd000)) (blocks j.encoded)).1 ≤ q →
      q < j.bank.songs.next → r[q]? = rom[q]?) ∧
    (∀ q, j.bank.over.data + total (takeFit (j.bank.songs.len - (j.first - 0xd000)) (blocks j.encoded)).2 ≤ q →
      q < j.bank.over.next → r[q]? = rom[q]?) := by
  have hz : (js.map Job.songs).zip (addrs.zip bankFirstSongAddrs) = js.map Job.args := by
    rw [haddrs, hfirst, List.zip_map', List.zip_map']; rfl
  unfold buildRom at h
  rw [hz] at h
  obtain ⟨rom', r', hready, hw, h1, h2⟩ := writeBanks_each hr hs h pre j post hj
  rw [Nat.zero_add] at hready hw
  have hap : ∀ q, j.bank.Data q → (∀ k ∈ pre, ¬ k.bank.Data q) ∧ ∀ k ∈ post, ¬ k.bank.Data q := by
    intro q hq
    unfold DataApart at hd
    rw [hj, List.pairwise_append, List.pairwise_cons] at hd
    exact ⟨fun k hk hkq => hd.2.2 k hk j (List.mem_cons_self ..) q hkq hq, fun k hk => hd.2.1.1 k hk q hq⟩
  have hf := hready.fits
  have ht := hf.table
  have hst := hf.start
  have hlen : j.encoded.length = j.songs.length := hready.songs.length_eq.symm
  have hsame : ∀ q, j.bank.Data q → r'[q]? = rom'[q]? → r[q]? = rom[q]? := fun q hq e => by rw [h2 q (hap q hq).2, e, h1 q (hap q hq).1]
  have hsd : ∀ q, j.bank.songs.data ≤ q → q < j.bank.songs.data + j.bank.songs.len → j.bank.Data q := fun q a b => .inl ⟨a, b⟩
  obtain ⟨k1, k2, k3, k4⟩ := C58_bank conv v j _ rom' r' hready hw
  refine ⟨fun q a b => ?_, fun q a b => ?_, fun q a b => ?_, fun q a b => ?_⟩
  · exact hsame q (hsd q a (by omega)) (k1 q a b)
  · rw [h2 q (hap q (hsd q (by omega) (by omega))).2]; exact k2 q a b
  · exact hsame q (hsd q (by omega) b) (k3 q a b)
  · exact hsame q (.inr ⟨by omega, b⟩) (k4 q a b)

/-- **C58 (in ARAM).** Uploading the bank: table entries behind the bank's last song are 0, the engine's mark for no song. -/
theorem C58_table {Path : Type} (conv : Converter Path) (v : Bool) (j : Job Path) (fs : Nat) (rom r : Rom) (hj : j.Ready conv (ofRom rom) fs)
    (hc : j.bank.Clean) (h : writeBank conv v j.songs rom j.base j.first fs = .ok r) (a0 : Mem) (k : Nat) (hk : fs + j.songs.length ≤ k)
    (hk2 : 2 * k + 1 < j.first - 0xd000) : word (upload (ofRom r) j.bank.chunks a0) (0xd000 + 2 * k) = some 0 := by
  obtain ⟨-, hz, -⟩ := C58_bank conv v j fs rom r hj h
  obtain ⟨vs, -⟩ := bank_view (m := ofRom r) (a0 := a0) hc.songs hc.over
  have hroom := hj.fits.start
  have h0 := hz (j.bank.songs.data + 2 * k) (by omega) (by omega)
  have h1 := hz (j.bank.songs.data + (2 * k + 1)) (by omega) (by omega)
  have e0 := vs (2 * k) (by omega)
  have e1 := vs (2 * k + 1) (by omega)
  rw [hj.bank.songs] at e0 e1
  unfold word
  rw [e0, show 0xd000 + 2 * k + 1 = 0xd000 + (2 * k + 1) by omega, e1]
  simp only [ofRom, h0, h1]
  rfl

/-- The first bank of `threeJobs` has 27 table entries, two songs, and 32 free bytes or more behind its songs. -/
example : (threeJobs[0]?.map fun j => (j.first - 0xd000) / 2) = some 27 ∧ (threeJobs[0]?.map fun j => j.songs.length) = some 2 ∧
    ((buildRom demoConv false (threeJobs.map Job.songs) [0, 12, 24] threeRom).toOption.bind fun r => r[45 + 4]?) = some 0 ∧
    threeRom[45 + 4]? = some 0xcc := by decide +kernel

end M2S
