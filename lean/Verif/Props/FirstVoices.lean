import Verif.Spec.FirstVoices
import Verif.Proofs.FirstVoices
import Verif.Props.Failures
/-
Property C95: which voices the channels get.
-/
namespace M2S
open MidiSpec

theorem comesFirst_iff (f g : Fin 16 → Fin 8) : NotAfter ((List.finRange 16).map f) ((List.finRange 16).map g) ↔ ComesFirst f g := by
  have get : ∀ (k : Fin 16 → Fin 8) (pre : List (Fin 8)) x s, (List.finRange 16).map k = pre ++ x :: s → ∃ h : pre.length < 16,
      k ⟨pre.length, h⟩ = x ∧ ∀ c' : Fin 16, c' < ⟨pre.length, h⟩ → some (k c') = pre[(c' : Nat)]? := by
    intro k pre x s e
    have hl : pre.length < 16 := by
      have := congrArg List.length e
      simp only [List.length_map, List.length_finRange, List.length_append, List.length_cons] at this
      omega
    have at' : ∀ c : Fin 16, some (k c) = (pre ++ x :: s)[(c : Nat)]? := by
      intro c
      rw [← e]
      simp
    refine ⟨hl, ?_, fun c' hc => ?_⟩
    · have := at' ⟨pre.length, hl⟩
      simpa using this
    · rw [at' c', List.getElem?_append_left (by exact hc)]
  constructor
  · rintro (h | ⟨pre, a, b, r, s, h1, h2, hab⟩)
    · left
      funext c
      exact List.map_inj_left.1 h c (List.mem_finRange c)
    · obtain ⟨hl, a1, a2⟩ := get f pre a r h1
      obtain ⟨hl', b1, b2⟩ := get g pre b s h2
      refine .inr ⟨⟨pre.length, hl⟩, by rw [a1, b1]; exact hab, fun c' hc => ?_⟩
      exact Option.some.inj ((a2 c' hc).trans (b2 c' hc).symm)
  · rintro (rfl | ⟨c, h, hc⟩)
    · exact .inl rfl
    · refine .inr ⟨((List.finRange 16).take c).map f, f c, g c, ((List.finRange 16).drop (c + 1)).map f, ((List.finRange 16).drop (c + 1)).map g, ?_, ?_, h⟩
      · rw [← List.map_cons, ← List.map_append]
        congr 1
        conv_lhs => rw [← List.take_append_drop c (List.finRange 16)]
        rw [List.drop_eq_getElem_cons (by simp)]
        simp
      · have e : ((List.finRange 16).take c).map f = ((List.finRange 16).take c).map g := by
          apply List.map_congr_left
          intro c' hm
          apply hc
          obtain ⟨i, hi, rfl⟩ := List.mem_iff_getElem.1 hm
          simp only [List.length_take, List.length_finRange] at hi
          simp only [List.getElem_take, List.getElem_finRange]
          rw [Fin.lt_def]
          simp only [Fin.val_cast]
          omega
        rw [e, ← List.map_cons, ← List.map_append]
        congr 1
        conv_lhs => rw [← List.take_append_drop c (List.finRange 16)]
        rw [List.drop_eq_getElem_cons (by simp)]
        simp

theorem fits_separates {l : List TMsg} {ivs : Fin 16 → List VoiceInterval} (hf : ScanFacts l ivs) (f : Fin 16 → Fin 8) :
    Fits ((List.finRange 16).map ivs) (fun _ => []) ((List.finRange 16).map f) ↔ Separates l f := by
  rw [fits_channels]
  unfold Separates
  refine forall_congr' fun c => forall_congr' fun c' => imp_congr_right fun _ => imp_congr_right fun _ => ?_
  rw [noClash_iff _ _ (hf.pos c) (hf.pos c')]
  simp only [hf.sounds]
  push Not
  rfl

/-- The search finds the choice of voices that comes first among those that separate the channels. -/
theorem search_first {l : List TMsg} {ivs : Fin 16 → List VoiceInterval} (hf : ScanFacts l ivs) (bs : List (Fin 8))
    (h : findBaseVoices ((List.finRange 16).map ivs) (fun _ => []) = some bs) :
    Separates l (fun c => bs.getD c 0) ∧ ∀ f, Separates l f → ComesFirst (fun c => bs.getD c 0) f := by
  have e := find_getD ivs bs h
  constructor
  · rw [← fits_separates hf, ← e]
    exact find_sound _ _ _ h
  · intro f hs
    rw [← comesFirst_iff, ← e]
    exact find_least _ _ _ _ h ((fits_separates hf f).2 hs)

theorem comesFirst_antisymm {f g : Fin 16 → Fin 8} (h : ComesFirst f g) (h' : ComesFirst g f) : f = g := by
  rcases h with h | ⟨c, h1, h2⟩
  · exact h
  · rcases h' with h' | ⟨d, h3, h4⟩
    · exact h'.symm
    · exfalso
      rcases lt_trichotomy c d with hl | rfl | hl
      · rw [h4 c hl] at h1; exact lt_irrefl _ h1
      · exact lt_irrefl _ (lt_trans h1 h3)
      · rw [h2 d hl] at h3; exact lt_irrefl _ h3

/-- **C95.** The voices of the channels separate them, and of all choices of voices that do so, they are the one that comes first: the first channel has the lowest voice
possible, the second the lowest voice possible after that, and so on. -/
theorem C95_first (ord : EnumOrder) (calls : List Callback) (h : MidiHandler) (hr : readMidi ord calls = .ok h) :
    Separates (file calls) (fun c => (h.channels c).baseVoice) ∧ ∀ f, Separates (file calls) f → ComesFirst (fun c => (h.channels c).baseVoice) f := by
  obtain ⟨-, -, ivs, bs, -, h2, -, h4, h5, -⟩ := readMidi_ok ord calls h hr
  simp only [h5]
  exact search_first (scan_facts _ ivs _ h2) bs h4

/-- **C95**, uniquely: a choice of voices that separates the channels and comes first is the one made. -/
theorem C95_unique (ord : EnumOrder) (calls : List Callback) (h : MidiHandler) (hr : readMidi ord calls = .ok h) (f : Fin 16 → Fin 8) (hf : Separates (file calls) f)
    (hg : ∀ g, Separates (file calls) g → ComesFirst f g) (c : Fin 16) : (h.channels c).baseVoice = f c :=
  congrFun (comesFirst_antisymm ((C95_first ord calls h hr).2 f hf) (hg _ (C95_first ord calls h hr).1)) c

/-- **C95 (silent).** A channel that never sounds gets the first voice. -/
theorem C95_silent (ord : EnumOrder) (calls : List Callback) (h : MidiHandler) (hr : readMidi ord calls = .ok h) (c : Fin 16) (hc : ∀ t, ¬ SoundsOn (file calls) c t) :
    (h.channels c).baseVoice = 0 := by
  obtain ⟨h1, h2⟩ := C95_first ord calls h hr
  by_contra h0
  have hs : Separates (file calls) (Function.update (fun c => (h.channels c).baseVoice) c 0) := by
    intro a b hab he t
    rintro ⟨x, y⟩
    have ha : a ≠ c := fun e => hc t (e ▸ x)
    have hb : b ≠ c := fun e => hc t (e ▸ y)
    rw [Function.update_of_ne ha, Function.update_of_ne hb] at he
    exact h1 a b hab he t ⟨x, y⟩
  rcases h2 _ hs with e | ⟨d, d1, -⟩
  · have := congrFun e c
    rw [Function.update_self] at this
    exact h0 this
  · by_cases hd : d = c
    · subst hd
      rw [Function.update_self] at d1
      exact absurd d1 (by simp)
    · rw [Function.update_of_ne hd] at d1
      exact lt_irrefl _ d1

/-- Exchanging two voices everywhere still separates the channels. -/
theorem separates_swap {l : List TMsg} {f : Fin 16 → Fin 8} (hf : Separates l f) (u w : Fin 8) : Separates l fun c => Equiv.swap u w (f c) := by
  intro a b hab he
  exact hf a b hab ((Equiv.swap u w).injective he)

/-- **C95 (no gaps).** Voices are taken up in order: a channel's voice is the first, or an earlier channel has the voice before. In particular channel `c` has one of the
voices up to `c`. -/
theorem C95_gapless (ord : EnumOrder) (calls : List Callback) (h : MidiHandler) (hr : readMidi ord calls = .ok h) (c : Fin 16) (u : Fin 8) (hu : u < (h.channels c).baseVoice) :
    ∃ c' < c, (h.channels c').baseVoice = u := by
  obtain ⟨h1, h2⟩ := C95_first ord calls h hr
  by_contra hc
  push Not at hc
  have key := h2 _ (separates_swap h1 u (h.channels c).baseVoice)
  rcases key with e | ⟨d, d1, d2⟩
  · have := congrFun e c
    rw [Equiv.swap_apply_right] at this
    exact absurd hu (by rw [this]; exact lt_irrefl _)
  · simp only at d1 d2
    -- at the first difference the exchange can only have lowered the voice
    by_cases hdc : d ≤ c
    · by_cases hdu : (h.channels d).baseVoice = u
      · rcases lt_or_eq_of_le hdc with hl | rfl
        · exact hc d hl hdu
        · rw [hdu] at hu; exact lt_irrefl _ hu
      · by_cases hdw : (h.channels d).baseVoice = (h.channels c).baseVoice
        · rw [hdw, Equiv.swap_apply_right] at d1
          exact lt_irrefl _ (lt_trans hu d1)
        · rw [Equiv.swap_apply_of_ne_of_ne hdu hdw] at d1
          exact lt_irrefl _ d1
    · have := d2 c (lt_of_not_ge hdc)
      rw [Equiv.swap_apply_right] at this
      rw [this] at hu
      exact lt_irrefl _ hu

theorem C95_low (ord : EnumOrder) (calls : List Callback) (h : MidiHandler) (hr : readMidi ord calls = .ok h) (c : Fin 16) : ((h.channels c).baseVoice : Nat) ≤ c := by
  have H : ∀ n (c : Fin 16), (c : Nat) = n → ((h.channels c).baseVoice : Nat) ≤ c := by
    intro n
    induction n using Nat.strong_induction_on with
    | _ n ih =>
      intro c hn
      by_contra hc
      obtain ⟨c', hl, he⟩ := C95_gapless ord calls h hr c ⟨(h.channels c).baseVoice - 1, by omega⟩ (by rw [Fin.lt_def]; show ((h.channels c).baseVoice : Nat) - 1 < _; omega)
      have := ih c' (by rw [← hn]; exact hl) c' rfl
      rw [he] at this
      simp only at this
      have : (c' : Nat) < c := hl
      omega
  exact H c c rfl

/-- Three channels; the last sounds together with the first but not with the second, so it takes the voice of the second. -/
def passedCalls : List Callback :=
  [ .header 1 480, .trackChange, .midiEvent 5 (.noteOn 2 60 100), .midiEvent 0 (.noteOn 3 64 100), .midiEvent 10 (.noteOff 3 64 0), .midiEvent 0 (.noteOn 7 60 100),
    .midiEvent 10 (.noteOff 7 60 0), .midiEvent 0 (.noteOff 2 60 0) ]

example : (readMidi id passedCalls).map (fun h => ((h.channels 2).baseVoice, (h.channels 3).baseVoice, (h.channels 7).baseVoice)) = .ok (0, 1, 1) := by
  decide +kernel

end M2S
