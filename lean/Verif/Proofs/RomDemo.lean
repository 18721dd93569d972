import Verif.Proofs.RomJobs
/-
Small ROMs, songs and builds for the examples and witnesses of Props/RomBuild.lean.
-/
namespace M2S
open RomSpec

/-- A chunk of `len` bytes for the ARAM address `aram * 256`. -/
def romChunk (len : Nat) (aram fill : UInt8) : List UInt8 := [UInt8.ofNat len, 0, 0, aram] ++ List.replicate len fill

/-- The operands of the loading instructions for the chunk list at position `p`. -/
def romPtr (p : Nat) : List UInt8 := [UInt8.ofNat p, 0, 0, 0, UInt8.ofNat (0x80 + p / 256), 0, 0, 0, 0, 0, 0, 0]

/-- A bank of four chunks: one byte for 0800, a song chunk, an overflow chunk for 2b00, the end mark. -/
def romBank (baseLen overLen : Nat) : List UInt8 :=
  romChunk 1 0x08 0xaa ++ romChunk baseLen 0xd0 0xcc ++ romChunk overLen 0x2b 0xdd ++ [0, 0, 0, 8]

/-- The chunks of `romBank` at position `p`. -/
def bankAt (p baseLen overLen : Nat) : Bank :=
  ⟨p, [⟨p, 1, 0x0800⟩], ⟨p + 5, baseLen, 0xd000⟩, ⟨p + 9 + baseLen, overLen, 0x2b00⟩, [⟨p + 13 + baseLen + overLen, 0, 0x0800⟩]⟩

/-- A ROM with one bank and other data behind it. -/
def oneRom (baseLen overLen : Nat) : Rom := romPtr 12 ++ romBank baseLen overLen ++ List.replicate 20 0x77

/-- A song with one track of `n` notes. -/
def noteSong (n : Nat) : Song := ⟨[[0]], [List.replicate n ⟨some 24, none, none, .note 0x80⟩]⟩

/-- A song of two tracks, each calling the third. -/
def callSong : Song :=
  ⟨[[0, 1]], [[⟨some 24, some 10, some 7, .note 0xa4⟩, ⟨some 0, some 0, some 0, .callLoop 2 3⟩],
    [⟨some 12, some 15, none, .note 0x80⟩, ⟨some 0, some 0, some 0, .callLoop 2 3⟩], [⟨some 48, none, none, .rest⟩]]⟩

/-- A converter: input 0 is `callSong`, input `n` a song of `n` notes. -/
def demoConv : Converter Nat := fun p _ => if p = 0 then .ok callSong else .ok (noteSong p)

/-- A slot. -/
def slot (p : Option Nat) (loops : Bool) : SongDef Nat := ⟨p, F32.ofRat 1, loops⟩

def callEncoded (loops : Bool) : Encoded := ⟨loops, [0, 1],
  [⟨[250, 25, 229, 200, 237, 200, 24, 122, 164, 239, 0, 208, 3, 0], [⟨2, 10⟩]⟩, ⟨[237, 200, 12, 127, 128, 239, 0, 208, 3, 0], [⟨2, 6⟩]⟩,
   ⟨[48, 201, 0], []⟩]⟩

def noteEncoded (n : Nat) (loops : Bool) : Encoded := ⟨loops, [0], [⟨[250, 25, 229, 200, 237, 200, 24, 125] ++ List.replicate n 0x80 ++ [0], []⟩]⟩

def emptyEncoded (loops : Bool) : Encoded := ⟨loops, [0], [⟨[], []⟩]⟩

theorem callEncoded_of (l : Bool) : EncodedOf demoConv (slot (some 0) l) (callEncoded l) :=
  ⟨callSong, by rfl, rfl, by rfl, .cons (by decide) (.cons (by decide) (.cons (by decide) .nil))⟩

theorem noteEncoded_of_one (l : Bool) : EncodedOf demoConv (slot (some 1) l) (noteEncoded 1 l) :=
  ⟨noteSong 1, by rfl, rfl, by rfl, .cons (by decide) .nil⟩

theorem emptyEncoded_of {Path : Type} {conv : Converter Path} (l : Bool) (f : F32) : EncodedOf conv ⟨none, f, l⟩ (emptyEncoded l) :=
  ⟨⟨[[0]], [[]]⟩, by simp only [loadSong]; decide +kernel, rfl, by rfl, .cons (by decide) .nil⟩

/-- A job: a looping song with subroutine calls, an empty slot, and a song whose track goes to the overflow chunk. -/
def oneJob : Job Nat :=
  ⟨[slot (some 0) true, slot none false, slot (some 1) false], 0, 0xd006, bankAt 12 100 30, [callEncoded true, emptyEncoded false, noteEncoded 1 false]⟩

theorem oneJob_ready : oneJob.Ready demoConv (ofRom (oneRom 100 30)) 0 where
  addr := by decide
  bank := ⟨by decide, .cons (by decide) (.cons (by decide) (.cons (by decide) (.cons (by decide) (.nil _)))), by decide, by decide, rfl, by decide⟩
  songs := .cons (callEncoded_of _) (.cons (emptyEncoded_of _ _) (.cons (noteEncoded_of_one _) .nil))
  fits := ⟨by decide, by decide, by decide, by decide, by decide⟩

instance (c d : ChunkInfo) : Decidable (c.Apart d) := by unfold ChunkInfo.Apart; infer_instance

theorem oneJob_clean : oneJob.bank.Clean := ⟨by decide, by decide, by decide, by decide, by decide⟩

/-- A ROM with three banks. -/
def threeRom : Rom := romPtr 36 ++ romPtr 207 ++ romPtr 378 ++ romBank 114 40 ++ romBank 114 40 ++ romBank 114 40

/-- A build of three banks, two of them using their overflow chunks. -/
def threeJobs : List (Job Nat) :=
  [⟨[slot (some 0) true, slot none false], 0, 0xd036, bankAt 36 114 40, [callEncoded true, emptyEncoded false]⟩,
   ⟨[slot (some 1) false], 12, 0xd046, bankAt 207 114 40, [noteEncoded 1 false]⟩,
   ⟨[slot none true, slot (some 1) true], 24, 0xd046, bankAt 378 114 40, [emptyEncoded true, noteEncoded 1 true]⟩]

theorem threeJobs_ready : AllReady demoConv (ofRom threeRom) 0 threeJobs := by
  refine ⟨⟨by decide, ?_, .cons (callEncoded_of _) (.cons (emptyEncoded_of _ _) .nil), ⟨by decide, by decide, by decide, by decide, by decide⟩⟩,
    ⟨by decide, ?_, .cons (noteEncoded_of_one _) .nil, ⟨by decide, by decide, by decide, by decide, by decide⟩⟩,
    ⟨by decide, ?_, .cons (emptyEncoded_of _ _) (.cons (noteEncoded_of_one _) .nil), ⟨by decide, by decide, by decide, by decide, by decide⟩⟩, trivial⟩ <;>
  exact ⟨by decide +kernel, .cons (by decide +kernel) (.cons (by decide +kernel) (.cons (by decide +kernel) (.cons (by decide +kernel) (.nil _)))),
    by decide, by decide, rfl, by decide⟩

theorem threeJobs_clean : ∀ j ∈ threeJobs, j.bank.Clean := by
  intro j hj
  simp only [threeJobs, List.mem_cons, List.not_mem_nil, or_false] at hj
  rcases hj with rfl | rfl | rfl <;> exact ⟨by decide, by decide, by decide, by decide, by decide⟩

theorem threeJobs_apart : DataApart threeJobs := by
  unfold DataApart threeJobs
  simp only [List.pairwise_cons, List.mem_cons, List.not_mem_nil, or_false, forall_eq_or_imp, forall_eq, IsEmpty.forall_iff, implies_true,
    List.Pairwise.nil, and_true, Bank.Data, bankAt, ChunkInfo.data, ChunkInfo.next]
  refine ⟨⟨?_, ?_⟩, ?_⟩ <;> intro q <;> omega

theorem threeJobs_safe : HeadersSafe threeJobs := by
  unfold HeadersSafe threeJobs
  simp only [List.mem_cons, List.not_mem_nil, or_false, forall_eq_or_imp, forall_eq, Bank.Data, bankAt, ChunkInfo.data, ChunkInfo.next,
    Bank.Meta, Skeleton, Bank.chunks, List.cons_append, List.nil_append, exists_eq_or_imp, exists_eq_left, lorom]
  refine ⟨⟨?_, ?_, ?_⟩, ⟨?_, ?_, ?_⟩, ?_, ?_, ?_⟩ <;> intro q <;> omega

end M2S
