import Verif.Proofs.Size
import Verif.Proofs.Emission
/-
How many bytes' worth of messages the dealing to voices produces.
-/
namespace M2S
open MidiSpec

/-- Facts about the state while dealing: remembered messages are of the right kinds, sounding notes of a channel are on different voices. -/
structure DealOk (k : Ctl) : Prop where
  lasts : Lasts k
  quiet : ∀ c m, k.lastCtrl c = some m → glideOn m = false
  apart : ∀ c, ((k.active c).map (·.2)).Nodup

theorem dealOk_init (base : Fin 16 → Fin 8) : DealOk (ctl0 base) := ⟨lasts_init base, by simp [ctl0], by simp [ctl0]⟩

theorem apart_close (k : Ctl) (h : ∀ c, ((k.active c).map (·.2)).Nodup) (ch : Fin 16) (n : UInt8) : ∀ c, (((ctlClose k ch n).active c).map (·.2)).Nodup := by
  intro c
  unfold ctlClose
  split
  · simp only
    by_cases hc : c = ch
    · subst hc
      rw [Function.update_self]
      exact (h c).sublist (List.filter_sublist.map _)
    · rw [Function.update_of_ne hc]; exact h c
  · exact h c

theorem apart_open (k : Ctl) (h : ∀ c, ((k.active c).map (·.2)).Nodup) (d : Nat) (ch : Fin 16) (n : UInt8) (v : Fin 8) (hv : voiceBusy k.active v = false) :
    ∀ c, (((ctlOpen k d ch n v).active c).map (·.2)).Nodup := by
  intro c
  unfold ctlOpen
  simp only
  by_cases hc : c = ch
  · subst hc
    rw [Function.update_self, insertNote, List.map_cons, List.nodup_cons]
    refine ⟨?_, (h c).sublist (List.filter_sublist.map _)⟩
    intro hm
    obtain ⟨p, hp, rfl⟩ := List.mem_map.1 hm
    rw [voiceBusy_false] at hv
    exact hv c p.1 ((mem_removeNote _ _ _).1 hp).1
  · rw [Function.update_of_ne hc]; exact h c

/-- A message to a channel goes to at most eight voices. -/
theorem outChannel_length (ord : EnumOrder) (ho : ∀ l, (ord l).Perm l) (base : Fin 16 → Fin 8) (k : Ctl) (h : ∀ c, ((k.active c).map (·.2)).Nodup) (ch : Fin 16) (m : Message) :
    (outChannel ord base k ch m).length ≤ 8 := by
  have hn : ((ord (k.active ch)).map (·.2)).Nodup := ((ho _).map _).nodup_iff.2 (h ch)
  have key : ((outChannel ord base k ch m).map (·.1)).Nodup := by
    unfold outChannel
    rw [List.map_append, List.map_map]
    have e : ((ord (k.active ch)).map ((fun p : Fin 8 × Message => p.1) ∘ fun p => (p.2, m))) = (ord (k.active ch)).map (·.2) := rfl
    rw [e]
    split_ifs with hb
    · simpa using hn
    · refine List.Nodup.append hn (by simp) ?_
      intro v hv hv2
      simp only [List.map_cons, List.map_nil, List.mem_singleton] at hv2
      subst hv2
      obtain ⟨p, hp, hpe⟩ := List.mem_map.1 hv
      apply hb
      rw [List.any_eq_true]
      exact ⟨p, hp, by simpa using hpe⟩
  have := key.length_le_card
  simpa using this

def worth (glide : Bool) (o : List (Fin 8 × Message)) : Nat := (o.map fun p => eventBytes glide p.2).sum

theorem worth_append (glide : Bool) (a b : List (Fin 8 × Message)) : worth glide (a ++ b) = worth glide a + worth glide b := by simp [worth]

theorem worth_channel (glide : Bool) (ord : EnumOrder) (ho : ∀ l, (ord l).Perm l) (base : Fin 16 → Fin 8) (k : Ctl) (h : ∀ c, ((k.active c).map (·.2)).Nodup) (ch : Fin 16) (m : Message) :
    worth glide (outChannel ord base k ch m) ≤ 8 * eventBytes glide m := by
  have hm : ∀ p ∈ outChannel ord base k ch m, p.2 = m := by
    intro p hp
    unfold outChannel at hp
    rw [List.mem_append] at hp
    rcases hp with hp | hp
    · obtain ⟨q, -, rfl⟩ := List.mem_map.1 hp; rfl
    · split_ifs at hp
      · simp at hp
      · simp only [List.mem_singleton] at hp; rw [hp]
  have e : worth glide (outChannel ord base k ch m) = (outChannel ord base k ch m).length * eventBytes glide m := by
    unfold worth
    rw [List.map_congr_left (g := fun _ => eventBytes glide m) (fun p hp => by rw [hm p hp]), List.map_const', List.sum_replicate, smul_eq_mul]
  rw [e]
  exact Nat.mul_le_mul_right _ (outChannel_length ord ho base k h ch m)

theorem worth_opt (glide : Bool) (v : Fin 8) (m : Option Message) (b : Nat) (h : ∀ x, m = some x → eventBytes glide x ≤ b) : worth glide (outOpt v m) ≤ b := by
  cases m with
  | none => simp [worth, outOpt]
  | some x => simpa [worth, outOpt] using h x rfl

theorem worth_close (glide : Bool) (k : Ctl) (d : Nat) (ch : Fin 16) (n v : UInt8) : worth glide (outClose k d ch n v) ≤ 3 := by
  unfold outClose
  split <;> simp [worth, eventBytes]

theorem deal_worth (glide : Bool) (ord : EnumOrder) (ho : ∀ l, (ord l).Perm l) (base : Fin 16 → Fin 8) (k : Ctl) (m : Message) (o : List (Fin 8 × Message)) (k' : Ctl)
    (h : DealOk k) (he : emit ord base k m = some (o, k')) :
    DealOk k' ∧ worth glide o ≤ messageBytes glide m ∧ ∀ p ∈ o, glideOn p.2 = true → glideOn m = true := by
  have hl := lasts_step ord base k m o k' h.lasts he
  have chanM : ∀ (ch : Fin 16) (m : Message), ∀ p ∈ outChannel ord base k ch m, p.2 = m := by
    intro ch m p hp
    unfold outChannel at hp
    rw [List.mem_append] at hp
    rcases hp with hp | hp
    · obtain ⟨q, -, rfl⟩ := List.mem_map.1 hp; rfl
    · split_ifs at hp
      · simp at hp
      · simp only [List.mem_singleton] at hp; rw [hp]
  have chan : ∀ ch, worth glide (outChannel ord base k ch m) ≤ 8 * eventBytes glide m := fun ch => worth_channel glide ord ho base k h.apart ch m
  have closeG : ∀ d ch n v, ∀ p ∈ outClose k d ch n v, glideOn p.2 = false := by
    intro d ch n v p hp
    unfold outClose at hp
    split at hp
    · simp only [List.mem_singleton] at hp; rw [hp]; rfl
    · simp at hp
  cases m with
  | metaEvent d e data =>
    cases e <;> simp only [emit, Option.some.injEq, Prod.mk.injEq] at he <;> obtain ⟨rfl, rfl⟩ := he <;>
      exact ⟨h, by simp [worth, messageBytes, eventBytes], by simp⟩
  | sysEx d data =>
    simp only [emit, Option.some.injEq, Prod.mk.injEq] at he
    obtain ⟨rfl, rfl⟩ := he
    exact ⟨h, by simp [worth, messageBytes, eventBytes], by simp⟩
  | trackChange =>
    simp only [emit, Option.some.injEq, Prod.mk.injEq] at he
    obtain ⟨rfl, rfl⟩ := he
    exact ⟨h, by simp [worth], by simp⟩
  | midiEvent d e =>
    cases e with
    | unknown ch =>
      simp only [emit, Option.some.injEq, Prod.mk.injEq] at he
      obtain ⟨rfl, rfl⟩ := he
      exact ⟨h, by simp [worth], by simp⟩
    | polyphonicKeyPressure ch n v =>
      simp only [emit] at he
      split at he <;> (simp only [Option.some.injEq, Prod.mk.injEq] at he; obtain ⟨rfl, rfl⟩ := he; exact ⟨h, by simp [worth, messageBytes, eventBytes], by simp⟩)
    | channelPressure ch v =>
      simp only [emit, Option.some.injEq, Prod.mk.injEq] at he
      obtain ⟨rfl, rfl⟩ := he
      refine ⟨h, ?_, fun p hp hg => by rwa [chanM ch _ p hp] at hg⟩
      exact (chan ch).trans (by simp [messageBytes, eventBytes])
    | pitchBendChange ch v =>
      simp only [emit, Option.some.injEq, Prod.mk.injEq] at he
      obtain ⟨rfl, rfl⟩ := he
      refine ⟨⟨hl, h.quiet, h.apart⟩, ?_, fun p hp hg => by rwa [chanM ch _ p hp] at hg⟩
      exact (chan ch).trans (by simp [messageBytes, eventBytes])
    | programChange ch v =>
      simp only [emit, Option.some.injEq, Prod.mk.injEq] at he
      obtain ⟨rfl, rfl⟩ := he
      refine ⟨⟨hl, h.quiet, h.apart⟩, ?_, fun p hp hg => by rwa [chanM ch _ p hp] at hg⟩
      exact (chan ch).trans (by simp [messageBytes, eventBytes])
    | controlChange ch c v =>
      simp only [emit, Option.some.injEq, Prod.mk.injEq] at he
      obtain ⟨rfl, he⟩ := he
      refine ⟨⟨hl, ?_, ?_⟩, ?_, fun p hp hg => by rwa [chanM ch _ p hp] at hg⟩
      · rw [← he]
        split_ifs with h7
        · intro c' m hm
          rcases update_some hm with ⟨-, rfl⟩ | hm
          · simp [glideOn, h7]
          · exact h.quiet c' m hm
        · exact h.quiet
      · rw [← he]
        split_ifs <;> exact h.apart
      · refine (chan ch).trans ?_
        simp only [messageBytes, eventBytes]
        split_ifs <;> omega
    | noteOff ch n v =>
      simp only [emit] at he
      split at he
      · simp only [Option.some.injEq, Prod.mk.injEq] at he
        obtain ⟨rfl, rfl⟩ := he
        refine ⟨⟨hl, ?_, apart_close k h.apart ch n⟩, by simp [worth, messageBytes, eventBytes], by simp [glideOn]⟩
        obtain ⟨e1, -⟩ := ctlClose_last k ch n
        rw [e1]; exact h.quiet
      · simp only [Option.some.injEq, Prod.mk.injEq] at he
        obtain ⟨rfl, rfl⟩ := he
        exact ⟨h, by simp [worth], by simp⟩
    | noteOn ch n v =>
      obtain ⟨e1, -⟩ := ctlClose_last k ch n
      simp only [emit] at he
      split_ifs at he with hv
      · split at he
        · simp at he
        · rename_i w hw
          simp only [Option.some.injEq, Prod.mk.injEq] at he
          obtain ⟨rfl, rfl⟩ := he
          refine ⟨⟨hl, ?_, apart_open _ (apart_close k h.apart ch n) d ch n w (chooseVoice_free base _ ch w hw)⟩, ?_, ?_⟩
          · show ∀ c m, (ctlClose k ch n).lastCtrl c = some m → _
            rw [e1]; exact h.quiet
          · have hv0 : v ≠ 0 := by rintro rfl; simp at hv
            have s1 : worth glide (outSwitch k ch w) ≤ 6 := by
              unfold outSwitch
              split_ifs
              · rw [worth_append, worth_append]
                have a := worth_opt glide w (k.lastCtrl ch) 2 (fun x hx => by
                  obtain ⟨d', c', y', rfl⟩ := h.lasts.ctrl ch x hx
                  simp only [eventBytes]; split_ifs <;> omega)
                have b := worth_opt glide w (k.lastProg ch) 4 (fun x hx => by
                  obtain ⟨d', c', rfl⟩ := h.lasts.prog ch x hx
                  simp [eventBytes])
                have c := worth_opt glide w (k.lastBend ch) 0 (fun x hx => by
                  obtain ⟨d', c', rfl⟩ := h.lasts.bend ch x hx
                  simp [eventBytes])
                omega
              · simp [worth]
            have s2 : worth glide (outPerc k d ch n w) ≤ if ch = 9 then 4 else 0 := by
              unfold outPerc
              by_cases h9 : ch = 9
              · rw [if_pos h9]; split_ifs <;> simp [worth, eventBytes]
              · rw [if_neg h9, if_neg (fun hh => h9 hh.1)]; simp [worth]
            have s3 := worth_close glide k d ch n v
            rw [worth_append, worth_append, worth_append]
            have s4 : worth glide [(w, .midiEvent d (.noteOn ch (drumNote ch n) v))] = if glide then 6 else 2 := by simp [worth, eventBytes]
            simp only [messageBytes, if_neg hv0]
            omega
          · intro p hp hg
            rw [List.mem_append, List.mem_append, List.mem_append] at hp
            exfalso
            rcases hp with hp | ((hp | hp) | hp)
            · rw [closeG _ _ _ _ p hp] at hg; simp at hg
            · unfold outSwitch at hp
              split_ifs at hp
              · have opt : ∀ (x : Option Message), (∀ y, x = some y → glideOn y = false) → p ∈ outOpt w x → False := by
                  intro x hx hp
                  cases x with
                  | none => simp [outOpt] at hp
                  | some y =>
                    simp only [outOpt, Option.map_some, Option.toList_some, List.mem_singleton] at hp
                    rw [hp, hx y rfl] at hg
                    simp at hg
                rw [List.mem_append, List.mem_append] at hp
                rcases hp with (hp | hp) | hp
                · exact opt _ (h.quiet ch) hp
                · exact opt _ (fun y hy => by obtain ⟨_, _, rfl⟩ := h.lasts.prog ch y hy; rfl) hp
                · exact opt _ (fun y hy => by obtain ⟨_, _, rfl⟩ := h.lasts.bend ch y hy; rfl) hp
              · simp at hp
            · unfold outPerc at hp
              split_ifs at hp
              · simp only [List.mem_singleton] at hp; rw [hp] at hg; simp [glideOn] at hg
              · simp at hp
            · simp only [List.mem_singleton] at hp; rw [hp] at hg; simp [glideOn] at hg
      · simp only [Option.some.injEq, Prod.mk.injEq] at he
        obtain ⟨rfl, rfl⟩ := he
        have hv0 : v = 0 := by
          by_contra hne
          apply hv
          rw [gt_iff_lt, UInt8.lt_iff_toNat_lt]
          have : v.toNat ≠ 0 := fun h0 => hne (UInt8.toNat_inj.1 (by simpa using h0))
          simp; omega
        refine ⟨⟨hl, by rw [e1]; exact h.quiet, apart_close k h.apart ch n⟩, ?_, fun p hp hg => by rw [closeG _ _ _ _ p hp] at hg; simp at hg⟩
        simp only [messageBytes, if_pos hv0]
        exact worth_close ..

theorem emits_worth (glide : Bool) (ord : EnumOrder) (ho : ∀ l, (ord l).Perm l) (base : Fin 16 → Fin 8) (seq : List TMsg) (os : List (Fin 8 × TMsg)) (k : Ctl)
    (he : emits ord base (ctl0 base) seq = some (os, k)) :
    (os.map fun p => eventBytes glide p.2.1).sum ≤ (seq.map fun m => messageBytes glide m.1).sum ∧ ∀ p ∈ os, glideOn p.2.1 = true → ∃ m ∈ seq, glideOn m.1 = true := by
  refine (emits_nil_induct ord base (fun done outs k => DealOk k ∧ (outs.map fun p => eventBytes glide p.2.1).sum ≤ (done.map fun m => messageBytes glide m.1).sum ∧
    ∀ p ∈ outs, glideOn p.2.1 = true → ∃ m ∈ done, glideOn m.1 = true) ?_ seq _ k os ⟨dealOk_init base, by simp, by simp⟩ he).2
  rintro done outs k m t o k' ⟨hk, h1, h2⟩ h3
  obtain ⟨a1, a2, a3⟩ := deal_worth glide ord ho base k m o k' hk h3
  refine ⟨a1, ?_, ?_⟩
  · rw [List.map_append, List.sum_append, List.map_append, List.sum_append, List.map_map]
    unfold worth at a2
    simp only [Function.comp_def, List.map_cons, List.map_nil, List.sum_cons, List.sum_nil]
    omega
  · intro p hp hg
    rcases List.mem_append.1 hp with hp | hp
    · obtain ⟨x, hx, hxg⟩ := h2 p hp hg
      exact ⟨x, by simp [hx], hxg⟩
    · obtain ⟨q, hq, rfl⟩ := List.mem_map.1 hp
      exact ⟨(m, t), by simp, a3 q hq hg⟩

end M2S
