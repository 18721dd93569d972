import Verif.ReadReport
import Verif.Spec.Polyphony
/-
When the messages of the reader are true: each message in terms of the file and of the messages before it.
-/
namespace M2S.MidiSpec

/-- The channel a "find base voice" message names. -/
def findsFor : ReadLine → Option (Fin 16)
  | .find c => some c
  | _ => none

/-- The channel whose base voice is being looked for: the one the last "find base voice" message names. -/
def lookingFor (pre : List ReadLine) : Option (Fin 16) := (pre.filterMap findsFor).getLast?

/-- The voice a "trying" message for channel `c` names. -/
def triesFor (c : Fin 16) : ReadLine → Option (Fin 8)
  | .trying c' v => if c' = c then some v else none
  | _ => none

/-- The voice channel `c` is on: the last one tried for it. -/
def placed (pre : List ReadLine) (c : Fin 16) : Option (Fin 8) := (pre.filterMap (triesFor c)).getLast?

/-- The messages since the last "find base voice" message for channel `c`. -/
def sinceFind (pre : List ReadLine) (c : Fin 16) : List ReadLine := (pre.reverse.takeWhile fun l => l ≠ .find c).reverse

/-- The voices a "non-overlapping voices" message lists. -/
def listed : ReadLine → Option (List (Fin 8))
  | .candidates vs => some vs
  | _ => none

/-- The voices listed as possible in the current attempt for channel `c`: the first list since its "find base voice" message. -/
def offered (pre : List ReadLine) (c : Fin 16) : Option (List (Fin 8)) :=
  ((sinceFind pre c).filterMap listed).head?

/-- The voices tried in the current attempt for channel `c`. -/
def tried (pre : List ReadLine) (c : Fin 16) : List (Fin 8) := (sinceFind pre c).filterMap (triesFor c)

/-- Notes of the two channels sound at the same time. -/
def AtOnce (l : List (Message × Nat)) (c c' : Fin 16) : Prop := ∃ t, SoundsOn l c t ∧ SoundsOn l c' t

/-- Channel `c` can go to voice `v`: it never sounds together with one of the earlier channels on `v`. -/
def CanShare (l : List (Message × Nat)) (pre : List ReadLine) (c : Fin 16) (v : Fin 8) : Prop :=
  ∀ c' < c, placed pre c' = some v → ¬ AtOnce l c c'

/-- None of the channels before `c` with a note message after time 0 is on voice `v`. -/
def Untouched (l : List (Message × Nat)) (pre : List ReadLine) (c : Fin 16) (v : Fin 8) : Prop :=
  ∀ c' < c, placed pre c' = some v → ∀ m ∈ ofChannel l c', (starts m.1 || ends m.1) = true → m.2 = 0

/-- The voice has one of the notes listed. -/
def Occupied (active : List (List (UInt8 × Fin 8))) (v : Fin 8) : Prop := ∃ ns ∈ active, ∃ n, (n, v) ∈ ns

/-- The message `x`, printed after the messages `pre`, is true of the file at `path` with the parser's callbacks `calls`. -/
def Truthful (path : String) (calls : List Callback) (pre : List ReadLine) : ReadLine → Prop
  -- the first message names the file
  | .reading p => pre = [] ∧ p = path
  -- the tracks of the file are announced one after the other
  | .track i => pre = .reading path :: (List.range i).map .track ∧ i < (split calls).2.length
  -- channels are handled in order: after all tracks, or after the preceding channel has been put on a voice
  | .find c => (c = 0 ∧ pre = .reading path :: (List.range (split calls).2.length).map .track) ∨
      ∃ c' v, c.val = c'.val + 1 ∧ pre.getLast? = some (.trying c' v)
  -- the interval belongs to an earlier channel on that voice, its number of notes is that of the file, and the current channel sounds during the interval
  | .overlaps v i => ∃ c, lookingFor pre = some c ∧ i.channel < c ∧ placed pre i.channel = some v ∧
      (∀ t, i.start ≤ t → t < i.stop → sounding (ofChannel (file calls) i.channel) t = i.voices) ∧
      ∃ t, i.start ≤ t ∧ t < i.stop ∧ SoundsOn (file calls) c t ∧ SoundsOn (file calls) i.channel t
  -- the voices listed, in ascending order, are those the channel can share; of the untouched ones only the first
  | .candidates vs => ∃ c, lookingFor pre = some c ∧ vs.Pairwise (· < ·) ∧ (∀ v ∈ vs, CanShare (file calls) pre c v) ∧
      ∀ v, CanShare (file calls) pre c v → v ∈ vs ∨ (Untouched (file calls) pre c v ∧ ∃ w ∈ vs, w < v ∧ Untouched (file calls) pre c w)
  -- the voices listed are tried in their order
  | .trying c v => ∃ vs, offered pre c = some vs ∧ tried pre c ++ [v] <+: vs
  -- a note of the channel starts at that time; the base voices are those tried last; the notes listed are held, the base voice has one of them, and no note
  -- from before is missing
  | .occupied c t bases active => ∃ n, (∃ a ∈ file calls, starts a.1 = true ∧ noteOf a.1 = some (c, n) ∧ a.2 = t) ∧
      (bases.length = 16 ∧ ∀ c', placed pre c' = bases[c'.val]?) ∧ (∃ b, placed pre c = some b ∧ Occupied active b) ∧ active.length = 16 ∧
      (∀ (c' : Fin 16) ns n' v, active[c'.val]? = some ns → (n', v) ∈ ns → (c', n') ∈ heldAt (file calls) t) ∧
      ∀ (c' : Fin 16) ns n', active[c'.val]? = some ns → (c', n') ≠ (c, n) →
        (∃ a ∈ file calls, starts a.1 = true ∧ noteOf a.1 = some (c', n') ∧ a.2 < t ∧ ¬ EndedBy (file calls) a t) → ∃ v, (n', v) ∈ ns
  -- the voice is the first one that is no channel's base voice and has no note
  | .chosen v => ∃ c t bases active, pre.getLast? = some (.occupied c t bases active) ∧ v ∉ bases ∧ ¬ Occupied active v ∧
      ∀ w < v, w ∈ bases ∨ Occupied active w
  -- not a message of the reader
  | .best _ => False

end M2S.MidiSpec
