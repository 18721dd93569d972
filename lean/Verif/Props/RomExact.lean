import Verif.Proofs.RomExact
import Verif.Props.RomBuild
/-
Property C94: exactly which banks are refused because they do not fit.
-/
namespace M2S
open RomSpec

/-- **C94.** Let `rest` be the blocks of a bank (song headers and tracks) from the first one on that does not fit into the song chunk behind its predecessors. If no block has more
than `K` bytes and the ROM has that many bytes behind the two chunks, writing the bank never panics: it is refused exactly if `rest` has two or more blocks and is larger than the
overflow chunk, and otherwise succeeds. -/
theorem C94_bank {Path : Type} (conv : Converter Path) (v : Bool) (songs : List (SongDef Path)) (es : List Encoded) (base first fs : Nat) (b : Bank) (rom : Rom) (K : Nat)
    (hb : base + 8 < 2 ^ 24) (hin : b.In (ofRom rom) base) (hes : List.Forall₂ (EncodedOf conv) songs es) (hv : ∀ e ∈ es, e.Valid)
    (hfirst : 0xd000 ≤ first) (hstart : first - 0xd000 ≤ b.songs.len)
    (hK : ∀ x ∈ blocks es, x.size ≤ K) (h1 : b.songs.next + K ≤ rom.length) (h2 : b.over.next + K ≤ rom.length)
    (h3 : b.songs.data + 2 * (fs + songs.length) ≤ rom.length) :
    (writeBank conv v songs rom base first fs = .error (.err .doesNotFit) ↔
      b.over.len < total (takeFit (b.songs.len - (first - 0xd000)) (blocks es)).2 ∧ 2 ≤ (takeFit (b.songs.len - (first - 0xd000)) (blocks es)).2.length) ∧
    ((∃ r, writeBank conv v songs rom base first fs = .ok r) ↔
      total (takeFit (b.songs.len - (first - 0xd000)) (blocks es)).2 ≤ b.over.len ∨ (takeFit (b.songs.len - (first - 0xd000)) (blocks es)).2.length = 1) := by
  obtain ⟨w, hw, e1, e2, e3, e4, e5⟩ := bankIn_found hb hin
  have hov : w.overflowAram ≠ aramBase := by rw [e5]; exact hin.later b.over (List.mem_cons_self ..)
  have hbase : (startCur w first).InBase w := ⟨rfl, rfl, rfl⟩
  have hle : (startCur w first).off ≤ (startCur w first).len := by
    simp only [startCur]; rw [e2]; exact hstart
  have hlen : (startCur w first).len - (startCur w first).off = b.songs.len - (first - 0xd000) := by
    simp only [startCur]; rw [e2]; rfl
  have hfine : Fine (writeBank conv v songs rom base first fs) := bank_fine hw hfirst (by rw [e2]; exact hstart) hes hv hK
    ⟨by rw [e1, e2]; exact h1, by rw [e3, e4]; exact h2⟩ (by rw [e1]; exact h3)
  have hok := fun r => C44_success_partial conv v songs es base first fs b rom r hb hin hes hstart
  have hno : writeBank conv v songs rom base first fs = .error (.err .doesNotFit) →
      b.over.len < total (takeFit (b.songs.len - (first - 0xd000)) (blocks es)).2 ∧ 2 ≤ (takeFit (b.songs.len - (first - 0xd000)) (blocks es)).2.length := by
    intro h
    rcases placeBank_cases (conv := conv) (w := w) (v := v) (c := startCur w first) (t := w.baseAddr + 2 * fs) hes (.inl ⟨hbase, hle⟩) with
      ⟨ps, c', hps⟩ | ⟨-, hst⟩
    · exfalso
      have := panicOnly_writeBank hw hps _ h
      cases this
    · have := stuck_takeFit hov hbase hle hst
      rw [hlen, e4] at this
      exact this
  constructor
  · refine ⟨hno, fun h => ?_⟩
    rcases hfine with ⟨r, hr⟩ | hr
    · have := hok r hr; omega
    · exact hr
  · constructor
    · rintro ⟨r, hr⟩; exact hok r hr
    · intro h
      rcases hfine with hr | hr
      · exact hr
      · have := hno hr; omega

/-- **C94 needs the bytes behind the chunks:** a last block that is larger than the overflow chunk is written over what follows, and if the ROM ends there, the build panics. -/
theorem C94_end_of_rom_false : writeBank demoConv false [slot (some 200) false] (oneRom 22 4) 0 0xd002 0 = .error .panic ∧
    (takeFit (22 - 2) (blocks [noteEncoded 200 false])).2.length = 1 := by decide +kernel

theorem RomSpec.Job.Sound.ready {Path : Type} {conv : Converter Path} {rom : Rom} {K fs : Nat} {j : Job Path} (h : j.Sound conv rom K fs) (hf : total j.rest ≤ j.bank.over.len) :
    j.Ready conv (ofRom rom) fs :=
  ⟨h.addr, h.bank, h.songs, ⟨h.table, h.start, hf, fun e he => (h.valid e he).1, h.calls⟩⟩

theorem RomSpec.Job.Sound.outcome {Path : Type} {conv : Converter Path} {rom : Rom} {K fs : Nat} {j : Job Path} (h : j.Sound conv rom K fs) (v : Bool) :
    (writeBank conv v j.songs rom j.base j.first fs = .error (.err .doesNotFit) ↔ j.bank.over.len < total j.rest) ∧
    ((∃ r, writeBank conv v j.songs rom j.base j.first fs = .ok r) ↔ total j.rest ≤ j.bank.over.len) := by
  have hlen := h.songs.length_eq
  have hnext : j.bank.songs.next = j.bank.songs.data + j.bank.songs.len := rfl
  obtain ⟨h1, h2⟩ := C94_bank conv v j.songs j.encoded j.base j.first fs j.bank rom K h.addr h.bank h.songs h.valid h.first h.start h.sizes h.behind h.behindOver
    (by have := h.table; have := h.start; have := h.behind; omega)
  rw [h1, h2]
  have hl := h.last
  have h0 : j.rest.length = 0 → total j.rest = 0 := by
    intro h0
    rw [List.length_eq_zero_iff] at h0
    rw [h0]; rfl
  show (j.bank.over.len < total j.rest ∧ 2 ≤ j.rest.length ↔ _) ∧ (total j.rest ≤ _ ∨ j.rest.length = 1 ↔ _)
  constructor
  · constructor
    · exact fun h => h.1
    · intro h; refine ⟨h, ?_⟩; by_contra; have : j.rest.length = 0 ∨ j.rest.length = 1 := by omega
      rcases this with h' | h'
      · have := h0 h'; omega
      · have := hl h'; omega
  · constructor
    · rintro (h | h)
      · exact h
      · exact hl h
    · exact .inl

theorem allSound_congr {Path : Type} {conv : Converter Path} {K : Nat} {m m' : Rom} (hlen : m'.length = m.length) : ∀ {js : List (Job Path)} {fs : Nat},
    AllSound conv m K fs js → (∀ j ∈ js, ∀ q, j.bank.Meta j.base q → m'[q]? = m[q]?) → AllSound conv m' K fs js := by
  intro js
  induction js with
  | nil => exact fun _ _ => trivial
  | cons j js ih =>
    intro fs h hm
    exact ⟨⟨h.1.addr, bankIn_congr h.1.bank (hm j (List.mem_cons_self ..)), h.1.songs, h.1.valid, h.1.first, h.1.table, h.1.start, h.1.sizes, hlen ▸ h.1.behind, hlen ▸ h.1.behindOver, h.1.calls,
      h.1.last⟩, ih h.2 fun k hk => hm k (List.mem_cons_of_mem _ hk)⟩

theorem writeBanks_outcome {Path : Type} {conv : Converter Path} {v : Bool} {K : Nat} : ∀ {js : List (Job Path)} {fs : Nat} {rom : Rom}, AllSound conv rom K fs js → HeadersSafe js →
    ((∀ j ∈ js, total j.rest ≤ j.bank.over.len) → ∃ r, writeBanks conv v (js.map Job.args) rom fs = .ok r) ∧
    ((∃ j ∈ js, j.bank.over.len < total j.rest) → writeBanks conv v (js.map Job.args) rom fs = .error (.err .doesNotFit)) := by
  intro js
  induction js with
  | nil => exact fun _ _ => ⟨fun _ => ⟨_, rfl⟩, by simp⟩
  | cons j js ih =>
    intro fs rom hs hh
    obtain ⟨o1, o2⟩ := hs.1.outcome v
    have hgo : ∀ r1, writeBank conv v j.songs rom j.base j.first fs = .ok r1 → total j.rest ≤ j.bank.over.len →
        AllSound conv r1 K (fs + j.songs.length) js := by
      intro r1 h1 hf
      obtain ⟨B, hB⟩ := built_of_ok hs.1.addr hs.1.bank hs.1.songs (hs.1.ready hf).fits h1
      exact allSound_congr hB.length hs.2 fun k hk q hq => hB.unchanged hs.1.start fun hd => hh j (List.mem_cons_self ..) k (List.mem_cons_of_mem _ hk) q hd hq
    have hh' : HeadersSafe js := fun a ha b hb => hh a (List.mem_cons_of_mem _ ha) b (List.mem_cons_of_mem _ hb)
    rw [List.map_cons, Job.args, writeBanks]
    by_cases hf : total j.rest ≤ j.bank.over.len
    · obtain ⟨r1, h1⟩ := o2.mpr hf
      obtain ⟨i1, i2⟩ := ih (hgo r1 h1 hf) hh'
      rw [h1]
      refine ⟨fun h => i1 fun k hk => h k (List.mem_cons_of_mem _ hk), ?_⟩
      rintro ⟨k, hk, hlt⟩
      rcases List.mem_cons.mp hk with rfl | hk
      · omega
      · exact i2 ⟨k, hk, hlt⟩
    · rw [o1.mpr (by omega)]
      exact ⟨fun h => absurd (h j (List.mem_cons_self ..)) hf, fun _ => rfl⟩

/-- **C94 (whole build).** A build whose jobs are sound in all other respects is refused exactly if in some bank the blocks that do not fit into the song chunk are larger than the overflow chunk, and
succeeds otherwise. -/
theorem C94_build {Path : Type} (conv : Converter Path) (v : Bool) (js : List (Job Path)) (addrs : List Nat) (rom : Rom) (K : Nat)
    (haddrs : addrs = js.map Job.base) (hfirst : bankFirstSongAddrs = js.map Job.first) (hr : AllSound conv rom K 0 js) (hs : HeadersSafe js) :
    (buildRom conv v (js.map Job.songs) addrs rom = .error (.err .doesNotFit) ↔ ∃ j ∈ js, j.bank.over.len < total j.rest) ∧
    ((∃ r, buildRom conv v (js.map Job.songs) addrs rom = .ok r) ↔ ∀ j ∈ js, total j.rest ≤ j.bank.over.len) := by
  have hz : (js.map Job.songs).zip (addrs.zip bankFirstSongAddrs) = js.map Job.args := by
    rw [haddrs, hfirst, List.zip_map', List.zip_map']; rfl
  unfold buildRom
  rw [hz]
  obtain ⟨h1, h2⟩ := writeBanks_outcome (v := v) hr hs
  by_cases h : ∃ j ∈ js, j.bank.over.len < total j.rest
  · have h' := h2 h
    refine ⟨⟨fun _ => h, fun _ => h'⟩, ⟨fun ⟨r, hr⟩ => ?_, fun hall => ?_⟩⟩
    · rw [h'] at hr; cases hr
    · obtain ⟨j, hj, hlt⟩ := h; have := hall j hj; omega
  · have h3 : ∀ j ∈ js, total j.rest ≤ j.bank.over.len := fun j hj => by by_contra hlt; exact h ⟨j, hj, by omega⟩
    have h' := h1 h3
    refine ⟨⟨fun he => ?_, fun h'' => absurd h'' h⟩, ⟨fun _ => h3, fun _ => h'⟩⟩
    obtain ⟨r, hr⟩ := h'; rw [he] at hr; cases hr

/-- Both outcomes at the boundary, with the theorem's hypotheses: 64 more bytes follow the chunks; the blocks for the overflow chunk have 30 bytes. -/
example : (bankAt 12 100 29).In (ofRom (oneRom 100 29 ++ List.replicate 64 0)) 0 ∧
    (∀ e ∈ [callEncoded true, noteEncoded 1 false, noteEncoded 1 false], e.Valid) ∧
    (∀ x ∈ blocks [callEncoded true, noteEncoded 1 false, noteEncoded 1 false], x.size ≤ 32) ∧
    (bankAt 12 100 29).songs.next + 32 ≤ (oneRom 100 29 ++ List.replicate 64 0).length ∧
    (bankAt 12 100 29).over.next + 32 ≤ (oneRom 100 29 ++ List.replicate 64 0).length ∧
    total (takeFit (100 - 6) (blocks [callEncoded true, noteEncoded 1 false, noteEncoded 1 false])).2 = 30 ∧
    2 ≤ (takeFit (100 - 6) (blocks [callEncoded true, noteEncoded 1 false, noteEncoded 1 false])).2.length ∧
    writeBank demoConv false [slot (some 0) true, slot (some 1) false, slot (some 1) false] (oneRom 100 29 ++ List.replicate 64 0) 0 0xd006 0 = .error (.err .doesNotFit) ∧
    (writeBank demoConv false [slot (some 0) true, slot (some 1) false, slot (some 1) false] (oneRom 100 30 ++ List.replicate 64 0) 0 0xd006 0).toOption.isSome :=
  ⟨⟨by decide +kernel, .cons (by decide +kernel) (.cons (by decide +kernel) (.cons (by decide +kernel) (.cons (by decide +kernel) (.nil _)))), by decide, by decide, rfl, by decide⟩,
   by unfold Encoded.Valid; decide +kernel, by decide +kernel, by decide +kernel, by decide +kernel, by decide +kernel, by decide +kernel, by decide +kernel, by decide +kernel⟩

/-- The build of `threeJobs`, and one with more songs in the last bank. -/
def crowdedJobs : List (Job Nat) :=
  [⟨[slot (some 0) true, slot none false], 0, 0xd036, bankAt 36 114 40, [callEncoded true, emptyEncoded false]⟩,
   ⟨[slot (some 1) false], 12, 0xd046, bankAt 207 114 40, [noteEncoded 1 false]⟩,
   ⟨[slot none true, slot (some 1) true, slot (some 1) true, slot (some 1) true], 24, 0xd046, bankAt 378 114 40, [emptyEncoded true, noteEncoded 1 true, noteEncoded 1 true, noteEncoded 1 true]⟩]

example : AllSound demoConv (threeRom ++ List.replicate 64 0) 32 0 threeJobs ∧ (∀ j ∈ threeJobs, total j.rest ≤ j.bank.over.len) ∧
    AllSound demoConv (threeRom ++ List.replicate 64 0) 32 0 crowdedJobs ∧ HeadersSafe crowdedJobs ∧
    (∃ j ∈ crowdedJobs, j.bank.over.len < total j.rest) ∧
    buildRom demoConv true (crowdedJobs.map Job.songs) [0, 12, 24] (threeRom ++ List.replicate 64 0) = .error (.err .doesNotFit) := by
  have hsame : HeadersSafe crowdedJobs := by
    unfold HeadersSafe crowdedJobs
    simp only [List.mem_cons, List.not_mem_nil, or_false, forall_eq_or_imp, forall_eq, Bank.Data, bankAt, ChunkInfo.data, ChunkInfo.next,
      Bank.Meta, Skeleton, Bank.chunks, List.cons_append, List.nil_append, exists_eq_or_imp, exists_eq_left, lorom]
    refine ⟨⟨?_, ?_, ?_⟩, ⟨?_, ?_, ?_⟩, ?_, ?_, ?_⟩ <;> intro q <;> omega
  have hin : ∀ p ∈ [(36, 0), (207, 12), (378, 24)], (bankAt p.1 114 40).In (ofRom (threeRom ++ List.replicate 64 0)) p.2 := by
    simp only [List.mem_cons, List.not_mem_nil, or_false, forall_eq_or_imp, forall_eq]
    refine ⟨?_, ?_, ?_⟩ <;>
    exact ⟨by decide +kernel, .cons (by decide +kernel) (.cons (by decide +kernel) (.cons (by decide +kernel) (.cons (by decide +kernel) (.nil _)))),
      by decide, by decide, rfl, by decide⟩
  refine ⟨⟨⟨by decide, hin (36, 0) (by decide), .cons (callEncoded_of _) (.cons (emptyEncoded_of _ _) .nil), ?_, ?_, ?_, ?_, ?_, ?_, ?_, ?_, ?_⟩,
      ⟨by decide, hin (207, 12) (by decide), .cons (noteEncoded_of_one _) .nil, ?_, ?_, ?_, ?_, ?_, ?_, ?_, ?_, ?_⟩,
      ⟨by decide, hin (378, 24) (by decide), .cons (emptyEncoded_of _ _) (.cons (noteEncoded_of_one _) .nil), ?_, ?_, ?_, ?_, ?_, ?_, ?_, ?_, ?_⟩, trivial⟩, by decide +kernel,
    ⟨⟨by decide, hin (36, 0) (by decide), .cons (callEncoded_of _) (.cons (emptyEncoded_of _ _) .nil), ?_, ?_, ?_, ?_, ?_, ?_, ?_, ?_, ?_⟩,
      ⟨by decide, hin (207, 12) (by decide), .cons (noteEncoded_of_one _) .nil, ?_, ?_, ?_, ?_, ?_, ?_, ?_, ?_, ?_⟩,
      ⟨by decide, hin (378, 24) (by decide), .cons (emptyEncoded_of _ _) (.cons (noteEncoded_of_one _) (.cons (noteEncoded_of_one _) (.cons (noteEncoded_of_one _) .nil))), ?_, ?_, ?_, ?_, ?_, ?_, ?_, ?_, ?_⟩, trivial⟩,
    hsame, by decide +kernel, by decide +kernel⟩ <;>
  first
  | decide +kernel
  | (unfold Encoded.Valid; decide +kernel)

end M2S
