import Verif.Cli
import Verif.Props.Json
import Verif.Props.MidiPlayback
/-
Builds with converters and slots that give the same songs.
-/
namespace M2S

/-- Two slots with the same song. -/
def SameSlot {P Q : Type} (conv : Converter P) (conv' : Converter Q) (d : SongDef P) (d' : SongDef Q) : Prop :=
  loadSong conv d = loadSong conv' d' ∧ d.loops = d'.loops

theorem songLoop_congr {P Q : Type} {conv : Converter P} {conv' : Converter Q} {w : Walk} {v : Bool} {ds : List (SongDef P)} {ds' : List (SongDef Q)}
    (h : List.Forall₂ (SameSlot conv conv') ds ds') : ∀ st,
    ds.foldlM (fun st d => loadSong conv d >>= fun song => writeSong w v st song d.loops) st =
    ds'.foldlM (fun st d => loadSong conv' d >>= fun song => writeSong w v st song d.loops) st := by
  induction h with
  | nil => intro st; rfl
  | cons h1 t ih =>
    intro st
    rw [List.foldlM_cons, List.foldlM_cons, h1.1, h1.2]
    exact congrArg _ (funext ih)

theorem writeBank_congr {P Q : Type} {conv : Converter P} {conv' : Converter Q} {v : Bool} {ds : List (SongDef P)} {ds' : List (SongDef Q)}
    (h : List.Forall₂ (SameSlot conv conv') ds ds') (rom : Rom) (a f n : Nat) : writeBank conv v ds rom a f n = writeBank conv' v ds' rom a f n := by
  unfold writeBank
  simp only [songLoop_congr h]

theorem writeBanks_congr {P Q : Type} {conv : Converter P} {conv' : Converter Q} {v : Bool} : ∀ {js : List (List (SongDef P) × Nat × Nat)}
    {js' : List (List (SongDef Q) × Nat × Nat)}, List.Forall₂ (fun a b => List.Forall₂ (SameSlot conv conv') a.1 b.1 ∧ a.2 = b.2) js js' → ∀ (rom : Rom) (n : Nat),
    writeBanks conv v js rom n = writeBanks conv' v js' rom n := by
  intro js js' h
  induction h with
  | nil => intro rom n; rfl
  | @cons a b js js' h1 t ih =>
    intro rom n
    obtain ⟨a1, a2, a3⟩ := a
    obtain ⟨b1, b2, b3⟩ := b
    obtain ⟨h2, h3⟩ := h1
    simp only at h2 h3
    cases h3
    rw [writeBanks, writeBanks, writeBank_congr h2, h2.length_eq]
    exact congrArg _ (funext fun r => ih r _)

theorem buildRom_congr {P Q : Type} {conv : Converter P} {conv' : Converter Q} {v : Bool} {bs : List (List (SongDef P))} {bs' : List (List (SongDef Q))}
    (h : List.Forall₂ (List.Forall₂ (SameSlot conv conv')) bs bs') (addrs : List Nat) (rom : Rom) : buildRom conv v bs addrs rom = buildRom conv' v bs' addrs rom := by
  unfold buildRom
  refine writeBanks_congr ?_ rom 0
  generalize addrs.zip bankFirstSongAddrs = zs
  induction h generalizing zs with
  | nil => exact .nil
  | cons h1 t ih =>
    cases zs with
    | nil => exact .nil
    | cons z zs => exact .cons ⟨h1, rfl⟩ (ih zs)

/-- A converted song has track numbers of 64 bits if it has at most that many tracks. -/
theorem song_indexed {m : MidiHandler} {f : F32} {opt : Bool} {s : Song} (h : songFromMidi m f opt = .ok s) (hl : s.tracks.length ≤ 2 ^ 64) : s.Indexed := by
  obtain ⟨top, h1, h2, h3, h4, h5⟩ := song_structure m f opt s h
  constructor
  · intro p hp t ht
    rw [h3, List.mem_singleton] at hp
    subst hp
    rw [List.mem_range] at ht
    omega
  · intro tr htr c hc t k hk
    obtain ⟨-, -, body, hb, -⟩ := h5 tr htr c hc t k hk
    have := (List.getElem?_eq_some_iff.mp hb).1
    omega

end M2S
