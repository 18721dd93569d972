import Verif.Proofs.ReleaseTrack
/-
Whole songs without overflow checks.
-/
namespace M2S
open MidiSpec

/-- A message that is not accepted reaches a voice as it is. -/
theorem rejected_step (ord : EnumOrder) (base : Fin 16 → Fin 8) (k : Ctl) (m : Message) (o : List (Fin 8 × Message)) (k' : Ctl) (hm : accepted m = false)
    (he : emit ord base k m = some (o, k')) : ∃ p ∈ o, p.2 = m := by
  cases m with
  | metaEvent d e data =>
    cases e with
    | setTempo =>
      simp only [emit, Option.some.injEq, Prod.mk.injEq] at he
      exact ⟨(0, _), by rw [← he.1]; simp, rfl⟩
    | other x => cases hm
  | sysEx d data => cases hm
  | trackChange => cases hm
  | midiEvent d e =>
    cases e with
    | programChange ch q =>
      simp only [emit, Option.some.injEq, Prod.mk.injEq] at he
      rw [← he.1]
      unfold outChannel
      by_cases ha : (ord (k.active ch)).any (fun p => p.2 = base ch) = true
      · obtain ⟨p, hp, -⟩ := List.any_eq_true.1 ha
        exact ⟨(p.2, _), List.mem_append_left _ (List.mem_map.2 ⟨p, hp, rfl⟩), rfl⟩
      · rw [if_neg ha]
        exact ⟨(base ch, _), by simp, rfl⟩
    | _ => cases hm

theorem accepted_emits (ord : EnumOrder) (base : Fin 16 → Fin 8) (seq : List TMsg) (os : List (Fin 8 × TMsg)) (k : Ctl)
    (he : emits ord base (ctl0 base) seq = some (os, k)) : (∀ p ∈ os, accepted p.2.1 = true) ↔ ∀ m ∈ seq, accepted m.1 = true := by
  constructor
  · have key : ∀ m ∈ seq, accepted m.1 = false → ∃ p ∈ os, p.2.1 = m.1 := by
      refine emits_nil_induct ord base (fun done outs _ => ∀ m ∈ done, accepted m.1 = false → ∃ p ∈ outs, p.2.1 = m.1) ?_ seq _ k os (by simp) he
      intro done outs k m t o k' ih h1 x hx hr
      rcases List.mem_append.1 hx with hx | hx
      · obtain ⟨p, hp, e⟩ := ih x hx hr
        exact ⟨p, List.mem_append_left _ hp, e⟩
      · rw [List.mem_singleton] at hx
        subst hx
        obtain ⟨p, hp, e⟩ := rejected_step ord base k m o k' hr h1
        exact ⟨(p.1, (p.2, t)), List.mem_append_right _ (List.mem_map.2 ⟨p, hp, rfl⟩), e⟩
    intro h m hm
    cases hr : accepted m.1 with
    | true => rfl
    | false =>
      obtain ⟨p, hp, e⟩ := key m hm hr
      have := h p hp
      rw [e, hr] at this
      exact this
  · intro h
    refine kept_emits accepted ?_ ord base seq os k h he
    intro d e hd
    cases e <;> first | rfl | cases hd | skip
    simp only [isNoteOrDrum, decide_eq_true_eq] at hd
    simp [accepted, hd]

/-- The facts about a file read without overflow checks. -/
theorem release_voices (ord : EnumOrder) (calls : List Callback) (h : MidiHandler) (hr : Release.readMidi ord calls = .ok h) :
    (∀ v, ∀ m ∈ h.voices v, ∀ d ch n w, m.1 = .midiEvent d (.noteOn ch n w) → w ≠ 0) ∧ (∀ v, Alternates (h.voices v)) ∧
    ((∀ v, ∀ m ∈ h.voices v, accepted m.1 = true) ↔ ∀ m ∈ file calls, accepted m.1 = true) := by
  have hh : ∃ h0, calls.foldlM MidiHandler.handle ({} : MidiHandler) = .ok h0 := by
    unfold Release.readMidi at hr
    rw [res_bind] at hr
    obtain ⟨h0, h1, -⟩ := hr
    exact ⟨h0, h1⟩
  obtain ⟨h0, h1⟩ := hh
  have hf := handle_headers calls _ _ h1
  have ht := ((handle_tracks calls {} h0 h1).1 rfl).2
  rcases release_read ord calls hf ht with e | ⟨h', seq, outs, k, e, s0, s1, s2, s3, s4⟩
  · rw [hr] at e; cases e
  rw [hr] at e; cases e
  have hperm : (seq.map (·.2)).Perm (((file calls).map wrapTime).filter fun m => (home m.1).isSome) := by
    refine (channels_perm seq).symm.trans (List.Perm.trans ?_ (ofChannel_perm _))
    apply List.Perm.flatMap_left
    intro c _
    rw [s1, s0]
    exact sort_perm _
  refine ⟨?_, ?_, ?_⟩
  · intro v m hm
    rw [s4] at hm
    obtain ⟨p, hp, rfl⟩ := List.mem_map.1 hm
    exact starts_velocity ord _ _ _ _ s3 p (List.mem_of_mem_filter hp)
  · intro v
    obtain ⟨s, g1, -⟩ := (held_emits ord _ _ _ _ s3).hold v
    rw [s4]
    unfold Alternates
    rw [show false = (none : Option (Fin 16 × UInt8)).isSome from rfl, hold_alt endOk _ _ _ g1]; rfl
  · have e1 : (∀ v, ∀ m ∈ h.voices v, accepted m.1 = true) ↔ ∀ p ∈ outs, accepted p.2.1 = true := by
      constructor
      · intro g p hp
        refine g p.1 p.2 ?_
        rw [s4]
        exact List.mem_map.2 ⟨p, List.mem_filter.2 ⟨hp, by simp⟩, rfl⟩
      · intro g v m hm
        rw [s4] at hm
        obtain ⟨p, hp, rfl⟩ := List.mem_map.1 hm
        exact g p (List.mem_of_mem_filter hp)
    rw [e1, accepted_emits ord _ _ _ _ s3]
    constructor
    · intro g m hm
      by_cases hs : (home m.1).isSome = true
      · exact g (wrapTime m) (hperm.mem_iff.2 (List.mem_filter.2 ⟨List.mem_map_of_mem hm, hs⟩))
      · obtain ⟨m, t⟩ := m
        cases m with
        | trackChange => rfl
        | metaEvent d e data => exact absurd rfl hs
        | sysEx d data => exact absurd rfl hs
        | midiEvent d e => exact absurd rfl hs
    · intro g m hm
      obtain ⟨x, hx, rfl⟩ := List.mem_map.1 (List.mem_of_mem_filter (hperm.mem_iff.1 hm))
      exact g x hx

end M2S
