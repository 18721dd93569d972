import Verif.Spec.TempoFactor
import Verif.Proofs.Res
import Verif.Song
/-
C87: two conversions of the same voice with different tempo factors, side by side.
-/
namespace M2S
open Nspc

/-- Two computations that fail alike, or succeed with related results. -/
def InStep {α β : Type} (P : α → β → Prop) : Res α → Res β → Prop
  | .ok a, .ok b => P a b
  | .error e, .error e' => e = e'
  | _, _ => False

theorem inStep_refl {α : Type} {P : α → α → Prop} (h : ∀ a, P a a) (x : Res α) : InStep P x x := by cases x with | ok a => exact h a | error e => rfl

theorem inStep_bind {α β γ δ : Type} {P : α → β → Prop} {Q : γ → δ → Prop} {x : Res α} {y : Res β} {f : α → Res γ} {g : β → Res δ} (h : InStep P x y)
    (hf : ∀ a b, P a b → InStep Q (f a) (g b)) : InStep Q (x >>= f) (y >>= g) := by
  cases x with
  | ok a => cases y with
    | ok b => exact hf a b h
    | error e => exact h.elim
  | error e => cases y with
    | ok b => exact h.elim
    | error e' => exact h

theorem inStep_same {α γ δ : Type} {Q : γ → δ → Prop} (x : Res α) {f : α → Res γ} {g : α → Res δ} (hf : ∀ a, InStep Q (f a) (g a)) :
    InStep Q (x >>= f) (x >>= g) :=
  inStep_bind (P := Eq) (inStep_refl (fun _ => rfl) x) fun a _ h => h ▸ hf a

theorem inStep_foldlM {α β γ : Type} {P : α → β → Prop} {f : α → γ → Res α} {g : β → γ → Res β} : ∀ (l : List γ),
    (∀ x ∈ l, ∀ a b, P a b → InStep P (f a x) (g b x)) → ∀ a b, P a b → InStep P (l.foldlM f a) (l.foldlM g b) := by
  intro l
  induction l with
  | nil => intro _ a b hab; exact hab
  | cons x l ih =>
    intro h a b hab
    rw [List.foldlM_cons, List.foldlM_cons]
    exact inStep_bind (h x (by simp) a b hab) fun a b hab => ih (fun y hy => h y (by simp [hy])) a b hab

theorem inStep_mapM {γ α β : Type} {P : α → β → Prop} {f : γ → Res α} {g : γ → Res β} : ∀ (l : List γ), (∀ x ∈ l, InStep P (f x) (g x)) →
    InStep (List.Forall₂ P) (l.mapM f) (l.mapM g) := by
  intro l
  induction l with
  | nil => intro _; exact .nil
  | cons x l ih =>
    intro h
    rw [List.mapM_cons, List.mapM_cons]
    refine inStep_bind (h x (by simp)) fun a b hab => ?_
    refine inStep_bind (ih fun y hy => h y (by simp [hy])) fun as bs hs => ?_
    exact .cons hab hs

section
variable {us : List Nat} {f g : F32}

theorem retimed_refl {c : PCmd} (h : ∀ p, c.command ≠ .tempo p) : Retimed us f g c c := .inl ⟨rfl, h⟩

theorem retimed_all {l : List PCmd} (h : ∀ c ∈ l, ∀ p, c.command ≠ .tempo p) : List.Forall₂ (Retimed us f g) l l := by
  induction l with
  | nil => exact .nil
  | cons c l ih => exact .cons (retimed_refl (h c (by simp))) (ih fun x hx => h x (by simp [hx]))

theorem forall₂_append' {α β : Type} {R : α → β → Prop} {a : List α} {b : List β} {c : List α} {d : List β} (h : List.Forall₂ R a b) (h' : List.Forall₂ R c d) :
    List.Forall₂ R (a ++ c) (b ++ d) := by
  induction h with
  | nil => exact h'
  | cons h _ ih => exact .cons h ih

theorem retimed_last {l l' : List PCmd} (h : List.Forall₂ (Retimed us f g) l l') :
    (l.getLast? = none ∧ l'.getLast? = none) ∨ ∃ c c', l.getLast? = some c ∧ l'.getLast? = some c' ∧ Retimed us f g c c' := by
  induction h with
  | nil => exact .inl ⟨rfl, rfl⟩
  | cons h hs ih =>
    right
    rcases ih with ⟨h1, h2⟩ | ⟨c, c', h1, h2, h3⟩
    · rw [List.getLast?_eq_none_iff] at h1 h2
      subst h1 h2
      exact ⟨_, _, rfl, rfl, h⟩
    · refine ⟨c, c', ?_, ?_, h3⟩
      · rw [List.getLast?_cons, h1]; rfl
      · rw [List.getLast?_cons, h2]; rfl

theorem retimed_slide {c c' : PCmd} (h : Retimed us f g c c') : c.isSlide = c'.isSlide := by
  rcases h with ⟨rfl, -⟩ | ⟨u, -, rfl, rfl⟩ <;> rfl

theorem retimed_pitch {c c' : PCmd} (h : Retimed us f g c c') (d n : UInt8) : c.createPitchSlide d n = c'.createPitchSlide d n := by
  rcases h with ⟨rfl, -⟩ | ⟨u, -, rfl, rfl⟩ <;> rfl

/-- Two converter states that differ in tempos only. -/
structure SideBySide (us : List Nat) (f g : F32) (a b : TrackState) : Prop where
  commands : List.Forall₂ (Retimed us f g) a.commands b.commands
  rest : { a with commands := [] } = { b with commands := [] }

theorem inStep_insertRest {l l' : List PCmd} (h : List.Forall₂ (Retimed us f g) l l') (a t tpb : Nat) :
    InStep (fun x y => List.Forall₂ (Retimed us f g) x.1 y.1 ∧ x.2 = y.2) (insertRest l a t tpb) (insertRest l' a t tpb) := by
  unfold insertRest
  split_ifs
  · refine inStep_same _ fun d => ?_
    refine inStep_same _ fun t => ?_
    refine ⟨?_, rfl⟩
    have hrep : List.Forall₂ (Retimed us f g) (List.replicate d.overflowCount (restCmd 0x7f)) (List.replicate d.overflowCount (restCmd 0x7f)) :=
      retimed_all fun c hc p => by rw [List.eq_of_mem_replicate hc]; simp [restCmd]
    have h1 := forall₂_append' h hrep
    dsimp only
    split_ifs
    · exact forall₂_append' h1 (.cons (retimed_refl (by simp [restCmd])) .nil)
    · exact h1
  · exact ⟨h, rfl⟩

theorem state_fields {a b : TrackState} (h : { a with commands := [] } = { b with commands := [] }) :
    a.noteStart = b.noteStart ∧ a.noteVelocity = b.noteVelocity ∧ a.lastNoteEnd = b.lastNoteEnd ∧ a.portamento = b.portamento ∧ a.portTime = b.portTime := by
  obtain ⟨a1, a2, a3, a4, a5, a6⟩ := a
  obtain ⟨b1, b2, b3, b4, b5, b6⟩ := b
  simpa using h

theorem inStep_noteOff (tpb : Nat) {a b : TrackState} (h : SideBySide us f g a b) (n : UInt8) (t : Nat) :
    InStep (SideBySide us f g) (trackNoteOff tpb a n t) (trackNoteOff tpb b n t) := by
  obtain ⟨h1, h2⟩ := h
  obtain ⟨e1, e2, e3, e4, e5⟩ := state_fields h2
  unfold trackNoteOff
  rw [← e1]
  cases a.noteStart with
  | none => exact ⟨h1, h2⟩
  | some start =>
    dsimp only
    refine inStep_same _ fun dt => ?_
    refine inStep_same _ fun d => ?_
    have hp : (a.commands.getLast?).any PCmd.isSlide = (b.commands.getLast?).any PCmd.isSlide := by
      rcases retimed_last h1 with ⟨q1, q2⟩ | ⟨c, c', q1, q2, q3⟩
      · rw [q1, q2]
      · rw [q1, q2]; exact retimed_slide q3
    rw [hp]
    have fin : ∀ cmd : Command, (∀ p, cmd ≠ .tempo p) → InStep (SideBySide us f g)
        (addU32 start d.quantizedTicks >>= fun t => pure { a with
          commands := a.commands ++ ⟨some (if d.overflowCount > 0 then 0x7f else d.length), some (a.noteVelocity / 8), some 7, cmd⟩ :: noteTies d
          lastNoteEnd := t
          noteStart := none })
        (addU32 start d.quantizedTicks >>= fun t => pure { b with
          commands := b.commands ++ ⟨some (if d.overflowCount > 0 then 0x7f else d.length), some (b.noteVelocity / 8), some 7, cmd⟩ :: noteTies d
          lastNoteEnd := t
          noteStart := none }) := by
      intro cmd hc
      refine inStep_same _ fun t => ?_
      refine ⟨?_, ?_⟩
      · refine forall₂_append' h1 (.cons ?_ ?_)
        · rw [e2]; exact retimed_refl hc
        · refine retimed_all fun c hc p => ?_
          unfold noteTies at hc
          obtain ⟨i, -, rfl⟩ := List.mem_map.1 hc
          simp
      · simp [e2, e4, e5]
    cases Option.any PCmd.isSlide b.commands.getLast? with
    | true => exact fin .tie (by simp)
    | false => exact inStep_same _ fun x => fin (.note x) (by simp)

theorem inStep_noteOn (tpb : Nat) {a b : TrackState} (h : SideBySide us f g a b) (n v : UInt8) (t : Nat) :
    InStep (SideBySide us f g) (trackNoteOn tpb a n v t) (trackNoteOn tpb b n v t) := by
  obtain ⟨h1, h2⟩ := h
  obtain ⟨e1, e2, e3, e4, e5⟩ := state_fields h2
  unfold trackNoteOn
  rw [← e1, ← e3, ← e4, ← e5]
  refine inStep_bind (inStep_insertRest h1 _ _ _) ?_
  rintro ⟨l, t1⟩ ⟨l', _⟩ ⟨hl, rfl⟩
  dsimp only at hl ⊢
  have fin : ∀ x y, List.Forall₂ (Retimed us f g) x y → InStep (SideBySide us f g)
      (if a.noteStart.isSome then failed .moreThanOneVoice
        else pure { a with commands := x, lastNoteEnd := t1, noteStart := some t1, noteVelocity := v })
      (if a.noteStart.isSome then failed .moreThanOneVoice
        else pure { b with commands := y, lastNoteEnd := t1, noteStart := some t1, noteVelocity := v }) := by
    intro x y hxy
    split_ifs
    · rfl
    · exact ⟨hxy, by simp [e4, e5]⟩
  rcases retimed_last hl with ⟨q1, q2⟩ | ⟨c, c', q1, q2, q3⟩
  · rw [q1, q2]; rw [← e4, ← e5] at fin; exact fin _ _ hl
  · rw [q1, q2]
    dsimp only
    cases hp : a.portamento with
    | false => rw [← e4, ← e5, hp] at fin; exact fin _ _ hl
    | true =>
      rw [← e4, ← e5, hp] at fin
      refine inStep_same _ fun d => ?_
      refine inStep_same _ fun x => ?_
      rw [retimed_pitch q3]
      refine fin _ _ (forall₂_append' hl (retimed_all ?_))
      intro c0 hc0 p
      unfold PCmd.createPitchSlide at hc0
      split at hc0
      · simp at hc0
      · rw [Option.mem_toList, Option.map_eq_some_iff] at hc0
        obtain ⟨d, -, rfl⟩ := hc0
        simp

theorem inStep_step (tpb : Nat) {a b : TrackState} (h : SideBySide us f g a b) (ev : Message × Nat) (hu : ∀ u, beatOf ev.1 = some u → u ∈ us) :
    InStep (SideBySide us f g) (trackStep tpb f a ev) (trackStep tpb g b ev) := by
  obtain ⟨e1, e2, e3, e4, e5⟩ := state_fields h.rest
  have keep : InStep (SideBySide us f g) (.ok a) (.ok b) := h
  obtain ⟨m, t⟩ := ev
  unfold trackStep
  cases m with
  | metaEvent d k data =>
    cases k with
    | setTempo =>
      dsimp only
      match data, hu with
      | [], _ => rfl
      | [_], _ => rfl
      | [_, _], _ => rfl
      | x :: y :: z :: more, hu =>
        refine ⟨forall₂_append' h.commands (.cons (.inr ⟨_, hu _ rfl, rfl, rfl⟩) .nil), h.rest⟩
    | other => exact keep
  | sysEx d data => exact keep
  | trackChange => exact keep
  | midiEvent d e =>
    dsimp only
    cases e with
    | noteOff c n v => exact inStep_noteOff tpb h n t
    | noteOn c n v => exact inStep_noteOn tpb h n v t
    | controlChange c k d =>
      dsimp only
      unfold trackControl
      split_ifs
      · refine ⟨h.commands, ?_⟩
        simp [e1, e2, e3, e4, e5]
      · refine inStep_same _ fun v => ?_
        exact ⟨forall₂_append' h.commands (.cons (retimed_refl (by simp [plainCmd])) .nil), h.rest⟩
      · refine ⟨h.commands, ?_⟩
        simp [e1, e2, e3, e4, e5]
      · refine ⟨h.commands, ?_⟩
        simp [e1, e2, e3, e5]
      · exact h
    | programChange c p =>
      dsimp only
      unfold trackProgram
      rw [← e3]
      refine inStep_bind (inStep_insertRest h.commands _ _ _) ?_
      rintro ⟨l, t1⟩ ⟨l', _⟩ ⟨hl, rfl⟩
      dsimp only at hl ⊢
      have fin : ∀ i, SideBySide us f g { a with commands := l ++ [plainCmd (.setInstrument i)], lastNoteEnd := t1 }
          { b with commands := l' ++ [plainCmd (.setInstrument i)], lastNoteEnd := t1 } := fun i =>
        ⟨forall₂_append' hl (.cons (retimed_refl (by simp [plainCmd])) .nil), by simp [e1, e2, e4, e5]⟩
      split_ifs
      · exact fin _
      · cases Instr.instrumentMap[p.toNat]? with
        | none => rfl
        | some i => exact fin _
    | _ => exact keep

theorem inStep_sustain : ∀ (n : Nat) (l l' : List PCmd), l.length ≤ n → List.Forall₂ (Retimed us f g) l l' →
    InStep (List.Forall₂ (Retimed us f g)) (sustainPass l) (sustainPass l') := by
  intro n
  induction n with
  | zero =>
    intro l l' hn h
    cases h with
    | nil => exact .nil
    | cons h hs => simp at hn
  | succ n ih =>
    intro l l' hn h
    cases h with
    | nil => exact .nil
    | cons h hs =>
      rename_i c c' l l'
      cases hs with
      | nil => exact .cons h .nil
      | cons h2 hs =>
        rename_i m m' l l'
        rw [sustainPass, sustainPass]
        have hset : InStep (fun x y => Retimed us f g x.1 y.1 ∧ x.2 = y.2) (c.setSustain m) (c'.setSustain m') := by
          rcases h with ⟨rfl, hc⟩ | ⟨u, hu, rfl, rfl⟩
          · rcases h2 with ⟨rfl, -⟩ | ⟨u, hu, rfl, rfl⟩
            · have : ∀ r, c.setSustain m = .ok r → ∀ p, r.1.command ≠ .tempo p := by
                intro r hr p
                unfold PCmd.setSustain at hr
                split at hr
                · rename_i hcn _
                  split at hr
                  · dsimp only at hr
                    split_ifs at hr
                    · cases hr
                    · cases hr; simp [hcn]
                    · cases hr; exact hc p
                  · cases hr
                · cases hr; exact hc p
              cases hs : c.setSustain m with
              | error e => rfl
              | ok r => exact ⟨retimed_refl (this r hs), rfl⟩
            · have e : ∀ b, c.setSustain ⟨none, none, none, .tempo b⟩ = .ok (c, false) := by
                intro b
                unfold PCmd.setSustain
                split
                · rename_i _ h; cases h
                · rfl
              rw [e, e]
              exact ⟨retimed_refl hc, rfl⟩
          · exact ⟨.inr ⟨u, hu, rfl, rfl⟩, rfl⟩
        refine inStep_bind hset ?_
        rintro ⟨x, b⟩ ⟨y, _⟩ ⟨hxy, rfl⟩
        dsimp only at hxy ⊢
        simp only [List.length_cons] at hn
        have fin : ∀ l1 l2, List.Forall₂ (Retimed us f g) l1 l2 → InStep (List.Forall₂ (Retimed us f g)) (.ok (x :: l1)) (.ok (y :: l2)) :=
          fun l1 l2 hl => List.Forall₂.cons hxy hl
        split_ifs
        · exact inStep_bind (ih _ _ (by omega) hs) fin
        · exact inStep_bind (ih _ _ (by simp only [List.length_cons]; omega) (.cons h2 hs)) fin

/-- **The converter, side by side.** -/
theorem inStep_trackNew (events : List (Message × Nat)) (tpb maxTime : Nat) (hu : ∀ e ∈ events, ∀ u, beatOf e.1 = some u → u ∈ us) :
    InStep (List.Forall₂ (Retimed us f g)) (trackNew events tpb maxTime f) (trackNew events tpb maxTime g) := by
  unfold trackNew
  refine inStep_bind (inStep_foldlM events (fun ev hev a b hab => inStep_step tpb hab ev (hu ev hev)) {} {} ⟨.nil, rfl⟩) ?_
  intro a b hab
  obtain ⟨h1, h2⟩ := hab
  obtain ⟨e1, e2, e3, e4, e5⟩ := state_fields h2
  have he : a.commands.isEmpty = b.commands.isEmpty := by
    generalize a.commands = x at h1
    generalize b.commands = y at h1
    cases h1 <;> rfl
  rw [he, e3]
  split_ifs
  · exact .nil
  · refine inStep_bind (inStep_insertRest h1 _ _ _) fun x y hxy => ?_
    exact inStep_bind (P := List.Forall₂ (Retimed us f g)) hxy.1 fun l l' hl => inStep_sustain _ l l' (Nat.le_refl _) hl
  · exact inStep_bind (P := List.Forall₂ (Retimed us f g)) h1 fun l l' hl => inStep_sustain _ l l' (Nat.le_refl _) hl

theorem inStep_voiceTracks (h : MidiHandler) (hu : ∀ v, ∀ e ∈ h.voices v, ∀ u, beatOf e.1 = some u → u ∈ us) :
    InStep (List.Forall₂ (List.Forall₂ (Retimed us f g))) (voiceTracks h f) (voiceTracks h g) := by
  unfold voiceTracks
  refine inStep_bind (inStep_mapM _ fun v _ => inStep_trackNew _ _ _ (hu v)) fun ts ts' hts => ?_
  induction hts with
  | nil => exact .nil
  | cons h _ ih =>
    show List.Forall₂ _ _ _
    rename_i t t' _ _ _
    have he : t.isEmpty = t'.isEmpty := by cases h <;> rfl
    rw [List.filter_cons, List.filter_cons, he]
    split_ifs
    · exact .cons h ih
    · exact ih

end

end M2S
