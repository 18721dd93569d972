import Verif.Spec.Orchestra
import Verif.Proofs.Tones
import Verif.Props.Lengths
/-
Notes of safe lengths are not fused into ones that are too long.
-/
namespace M2S
open Timing Nspc MidiSpec

/-- Notes heard before a list of commands are kept, except that ties at its beginning prolong the last. -/
theorem listen_suffix : ∀ (cs : List PCmd) (fl : Bool) (t : Nat) (ys : List Span), grouped fl cs →
    (fl = false → ys <:+ (cs.foldl listen (t, ys)).2) ∧ ys.tail <:+ (cs.foldl listen (t, ys)).2 := by
  intro cs
  induction cs with
  | nil => intro fl t ys _; exact ⟨fun _ => List.suffix_refl _, List.tail_suffix _⟩
  | cons c cs ih =>
    intro fl t ys hg
    obtain ⟨d, v, u, cmd⟩ := c
    have plain : ∀ (t' : Nat), grouped false cs → (fl = false → ys <:+ (cs.foldl listen (t', ys)).2) ∧ ys.tail <:+ (cs.foldl listen (t', ys)).2 := fun t' hg => by
      have := (ih false t' ys hg).1 rfl
      exact ⟨fun _ => this, (List.tail_suffix _).trans this⟩
    cases cmd
    case note p =>
      obtain ⟨-, hg⟩ := hg
      have := (ih true (t + units ⟨d, v, u, .note p⟩) (⟨t, t + units ⟨d, v, u, .note p⟩, p, v⟩ :: ys) hg).2
      exact ⟨fun _ => this, (List.tail_suffix _).trans this⟩
    case tie =>
      obtain ⟨hb, -, hg⟩ := hg
      refine ⟨fun h => absurd (h.symm.trans hb) (by decide), ?_⟩
      cases ys with
      | nil => exact List.nil_suffix
      | cons y ys => exact (ih true (t + units ⟨d, v, u, .tie⟩) ({ y with stop := t + units ⟨d, v, u, .tie⟩ } :: ys) hg).2
    all_goals
      simp only [List.foldl_cons, listen]
      exact plain _ hg.2

theorem fused_short {a b : List PCmd} (h : Fused a b) : ∀ (fl : Bool) (t : Nat) (ys : List Span), grouped fl a → (∀ c ∈ a, durOk c) →
    (∀ y ∈ (a.foldl listen (t, ys)).2, FuseSafe (y.stop - y.start)) → ∀ c ∈ b, c.command.isNote = true → ∀ d ∈ c.duration, d < 0x80 := by
  induction h with
  | nil => intro _ _ _ _ _ _ c hc; cases hc
  | @keep c a b _ ih =>
    intro fl t ys hg hd hy x hx hn
    rcases List.mem_cons.1 hx with rfl | hx
    · intro d hdd
      have := hd x List.mem_cons_self
      obtain ⟨d', v, u, cmd⟩ := x
      cases cmd <;> try cases hn
      obtain ⟨e, he, -, h2⟩ := this
      simp only at he hdd
      subst he
      simp only [Option.mem_def, Option.some.injEq] at hdd
      subst hdd
      exact UInt8.lt_iff_toNat_lt.2 (by have : (0x80 : UInt8).toNat = 128 := rfl; omega)
    · have hg' : ∃ fl, grouped fl a := by
        obtain ⟨d, v, u, cmd⟩ := c
        cases cmd <;> first | exact ⟨_, hg.2.2⟩ | exact ⟨_, hg.2⟩
      obtain ⟨fl', hg'⟩ := hg'
      exact ih fl' _ _ hg' (fun y hy => hd y (List.mem_cons_of_mem _ hy)) hy x hx hn
  | @fuse p dn dr q dt vn sn vr sr a b h1 h2 h3 h4 _ ih =>
    intro fl t ys hg hd hy x hx hn
    obtain ⟨d1, e1, -, b1⟩ := hd _ List.mem_cons_self
    obtain ⟨d2, e2, -, b2⟩ := hd ⟨some dr, vr, sr, .rest⟩ (by simp)
    simp only [Option.some.injEq] at e1 e2
    subst e1 e2
    obtain ⟨-, -, hg⟩ := hg
    rcases List.mem_cons.1 hx with rfl | hx
    · intro d hdd
      simp only [Option.mem_def, Option.some.injEq] at hdd
      subst hdd
      have hm : (⟨t, t + dn.toNat, p, vn⟩ : Span) ∈ ((⟨some dn, vn, sn, .note p⟩ :: ⟨some dr, vr, sr, .rest⟩ :: a).foldl listen (t, ys)).2 :=
        ((listen_suffix a false (t + dn.toNat + dr.toNat) (⟨t, t + dn.toNat, p, vn⟩ :: ys) hg).1 rfl).subset List.mem_cons_self
      have hs := hy _ hm
      simp only at hs
      rw [Nat.add_sub_cancel_left] at hs
      by_contra hlt
      have h128 : 128 ≤ dt.toNat := by
        by_contra h
        exact hlt (UInt8.lt_iff_toNat_lt.2 (by have : (0x80 : UInt8).toNat = 128 := rfl; omega))
      obtain ⟨s1, s2⟩ := hs (by omega) dr.toNat (by omega) (by omega)
      rw [← h1] at s1 s2
      rcases h4 with h4 | ⟨-, h4⟩
      · exact s1 ⟨q.toNat, by rw [h4, Nat.mul_comm]⟩
      · omega
    · exact ih false _ _ hg (fun y hy => hd y (by simp [hy])) hy x hx hn

/-- No note of a converted voice whose notes have safe lengths is too long. -/
theorem track_short (evs : List TMsg) (tpb G T : Nat) (f : F32) (h24 : 24 ∣ tpb) (hp : 0 < tpb) (hp2 : tpb < 65536) (hG : G + 3525 ≤ exactTicks tpb)
    (hG2 : 24 * (G + 1) ≤ 32511 * tpb) (hT : T < 2 ^ 31) (hv : voiceOk tpb G T 0 0 none evs = true) (hpr : programsBetweenNotes false evs = true) (hno : noPortamento evs = true)
    (hsafe : ∀ n ∈ midiNotes none evs, ∀ k ∈ unitLengths tpb n.on n.off, FuseSafe k)
    (cs : List PCmd) (h : trackNew evs tpb T f = .ok cs) : ∀ c ∈ cs, c.command.isNote = true → ∀ d ∈ c.duration, d < 0x80 := by
  obtain ⟨st, cs0, cs', g1, g2, g3, g4, g5, g6⟩ := trackNew_state evs tpb G T f hp hp2 hG hT hv
  rw [h] at g3
  injection g3 with g3
  subst g3
  have hnear := (g6 hG2 hpr).2 hno
  have hgr := grouped_finish tpb T st cs0 (grouped_loop tpb f evs {} st ⟨rfl, by simp⟩ hno trivial g1) g2
  have hslack : slack tpb = 0 := by unfold slack; rw [if_pos (by omega)]
  rw [hslack, Nat.zero_mul] at hnear
  refine fused_short g4 false 0 [] hgr (fun c hc => (g5 c hc).dur) ?_
  intro y hy
  have hy : y ∈ spans cs0 := List.mem_reverse.2 hy
  generalize spans cs0 = S at hnear hy
  generalize midiNotes none evs = N at hnear hsafe
  rename_i hy0
  clear g6 hpr hno hgr hv h g1 hy0
  induction hnear with
  | nil => cases hy
  | @cons x n S N hn _ ih =>
    rcases List.mem_cons.1 hy with rfl | hy
    · refine hsafe n (by simp) _ ?_
      obtain ⟨n1, n2, n3, n4, -, -⟩ := hn
      have e1 : y.stop = (24 * n.off + tpb - 1) / tpb := by
        symm
        rw [Nat.div_eq_iff hp]
        have : y.stop * tpb + tpb - 1 = y.stop * tpb + (tpb - 1) := by omega
        constructor <;> omega
      have e2 : y.start = 24 * n.on / tpb ∨ y.start = (24 * n.on + tpb - 1) / tpb := by
        by_cases hc : y.start * tpb ≤ 24 * n.on
        · left
          symm
          rw [Nat.div_eq_iff hp]
          constructor <;> omega
        · right
          symm
          rw [Nat.div_eq_iff hp]
          constructor <;> omega
      unfold unitLengths
      rw [← e1]
      rcases e2 with e2 | e2 <;> rw [← e2] <;> simp
    · exact ih hy fun n hn => hsafe n (by simp [hn])

/-! ## The notes of the voices -/

theorem pairs_notes (evs : List TMsg) (h : evs.foldlM tidyStep none = some none) (n : MidiNote) (hn : n ∈ midiNotes none evs) : ∃ p ∈ pairs evs, p.1.2 = n.on ∧ p.2 = some n.off := by
  have h1 := (tidy_notes evs).1 h
  have h2 := (voiceTones_ends (fun _ => (none, none)) evs).1 h
  have e1 : (startsOf evs).map (·.1) = (pairs evs).map fun p => p.1.2 := by
    clear h h1 h2 hn
    induction evs with
    | nil => rfl
    | cons m evs ih =>
      unfold startsOf at *
      rw [pairs, List.filterMap_cons, List.map_append, ← ih]
      by_cases hs : starts m.1 = true
      · obtain ⟨x, hx⟩ : ∃ x, noteOf m.1 = some x := by
          obtain ⟨m, t⟩ := m
          rcases m with ⟨dl, e, data⟩ | ⟨dl, e⟩ | ⟨dl, data⟩ | _ <;> try cases hs
          cases e <;> first | exact ⟨_, rfl⟩ | cases hs
        simp [hs, hx]
      · simp [hs]
  have e2 : (voiceTones (fun _ => (none, none)) evs).map (·.2) = (pairs evs).map (·.2) := by
    clear h h1 h2 hn e1
    induction evs with
    | nil => rfl
    | cons m evs ih =>
      rw [voiceTones_cons, pairs, List.map_append, List.map_append, ih]
      by_cases hs : starts m.1 = true
      · obtain ⟨x, hx⟩ := Option.isSome_iff_exists.1 (starts_sound m (none, none) hs)
        simp [hs, hx]
      · simp [hs, plain_sound m (none, none) (by simpa using hs)]
  rw [e2] at h2
  rw [← h1, List.map_map] at e1
  obtain ⟨i, hi, rfl⟩ := List.getElem_of_mem hn
  have hl : (pairs evs).length = (midiNotes none evs).length := by simpa using congrArg List.length h2
  refine ⟨(pairs evs)[i]'(by omega), List.getElem_mem _, ?_, ?_⟩
  · have := List.getElem_of_eq e1 (i := i) (by simpa using hi)
    simpa using this.symm
  · have := List.getElem_of_eq h2 (i := i) (by simpa [hl] using hi)
    simpa using this

/-- The notes of the voices are those of the file. -/
theorem voice_notes (ord : EnumOrder) (calls : List Callback) (h : MidiHandler) (hr : readMidi ord calls = .ok h) (hs : Sane h.ticksPerBeat (file calls)) (v : Fin 8)
    (ht : (h.voices v).foldlM tidyStep none = some none) (n : MidiNote) (hn : n ∈ midiNotes none (h.voices v)) :
    ∃ a ∈ file calls, starts a.1 = true ∧ a.2 = n.on ∧ endOf (file calls) a = some n.off := by
  obtain ⟨p, hp, p1, p2⟩ := pairs_notes _ ht n hn
  have := (pairs_perm ord calls h hr hs).mem_iff.1 (List.mem_flatMap.2 ⟨v, List.mem_finRange v, hp⟩)
  obtain ⟨a, ha, rfl⟩ := List.mem_map.1 this
  obtain ⟨a1, a2⟩ := List.mem_filter.1 ha
  exact ⟨a, a1, a2, p1, p2⟩

/-- A tidy file of safe lengths is converted to a song without notes that are too long. -/
theorem song_short (ord : EnumOrder) (ho : ∀ l, (ord l).Perm l) (calls : List Callback) (m : MidiHandler) (hread : readMidi ord calls = .ok m)
    (hsane : Sane m.ticksPerBeat (file calls)) (htidy : Tidy (file calls)) (hslide : ∀ x ∈ file calls, noSlides x.1 = true)
    (h24 : 24 ∣ m.ticksPerBeat) (hp : 0 < m.ticksPerBeat) (hp2 : m.ticksPerBeat < 65536)
    (hG : m.maxTime + 3525 ≤ exactTicks m.ticksPerBeat) (hG2 : 24 * (m.maxTime + 1) ≤ 32511 * m.ticksPerBeat)
    (hsafe : SafeLengths m.ticksPerBeat (file calls)) (f : F32) (s : Song) (hsong : songFromMidi m f false = .ok s) :
    ∀ tr ∈ s.tracks, ∀ c ∈ tr, c.command.isNote = true → ∀ d ∈ c.duration, d < 0x80 := by
  have hT : m.maxTime < 2 ^ 31 := by have := exactTicks_le m.ticksPerBeat; omega
  have hv := C63_voices ord calls m hread hsane
  obtain ⟨v1, -, -, -⟩ := C64_voices ord ho calls m hread hsane htidy
  have hfold := tidy_fold ord ho calls m hread hsane htidy
  have hno := voices_noSlides ord calls m hread hslide
  unfold songFromMidi voiceTracks at hsong
  simp only [res_bind, res_pure, Bool.false_eq_true, if_false] at hsong
  obtain ⟨ts, ⟨us, h1, rfl⟩, rfl⟩ := hsong
  intro tr htr
  rw [List.mem_filter] at htr
  obtain ⟨v, -, hn⟩ := mapM_mem _ _ _ h1 tr htr.1
  refine track_short (m.voices v) _ m.maxTime m.maxTime f h24 hp hp2 hG hG2 hT (hv v) (v1 v) (hno v) ?_ tr hn
  intro n hnn k hk
  obtain ⟨a, a1, a2, a3, a4⟩ := voice_notes ord calls m hread hsane v (hfold v) n hnn
  rw [← a3] at hk
  exact hsafe a a1 a2 n.off a4 k hk

end M2S
