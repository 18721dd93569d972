import Verif.Spec.Lengths
import Verif.Proofs.Sound
import Verif.Proofs.Reading
import Verif.Props.Sane
/-
Ends of notes: from the file to the voices.
-/
namespace M2S
open MidiSpec Timing

/-- Starts in a list, each with a tag and with the time of the next stop of the same tag. -/
def openings {α κ : Type} [DecidableEq κ] (start : α → Option (κ × TMsg)) (stop : α → Option (κ × Nat)) : List α → List (κ × TMsg × Option Nat)
  | [] => []
  | a :: l => (start a).toList.map (fun x => (x.1, x.2, l.findSome? fun b => (stop b).bind fun y => if y.1 = x.1 then some y.2 else none)) ++ openings start stop l

/-- A stop closes the open entries of its tag. -/
def closeBy {κ : Type} [DecidableEq κ] (s : Option (κ × Nat)) (x : κ × TMsg × Option Nat) : κ × TMsg × Option Nat :=
  (x.1, x.2.1, x.2.2.or (s.bind fun y => if y.1 = x.1 then some y.2 else none))

theorem openings_snoc {α κ : Type} [DecidableEq κ] (start : α → Option (κ × TMsg)) (stop : α → Option (κ × Nat)) (l : List α) (a : α) :
    openings start stop (l ++ [a]) = (openings start stop l).map (closeBy (stop a)) ++ (start a).toList.map fun x => (x.1, x.2, none) := by
  induction l with
  | nil => simp [openings]
  | cons b l ih =>
    rw [List.cons_append, openings, ih, openings, List.map_append, List.append_assoc]
    congr 1
    rw [List.map_map]
    apply List.map_congr_left
    intro x _
    simp [closeBy, List.findSome?_append]

theorem closeBy_none {κ : Type} [DecidableEq κ] : closeBy (none : Option (κ × Nat)) = id := by
  funext ⟨a, b, c⟩
  simp [closeBy]

theorem openings_plain {α κ : Type} [DecidableEq κ] (start : α → Option (κ × TMsg)) (stop : α → Option (κ × Nat)) (l o : List α) (h : ∀ a ∈ o, start a = none ∧ stop a = none) :
    openings start stop (l ++ o) = openings start stop l := by
  induction o using List.reverseRecOn with
  | nil => simp
  | append_singleton o a ih =>
    rw [← List.append_assoc, openings_snoc, (h a (by simp)).1, (h a (by simp)).2, ih fun b hb => h b (by simp [hb])]
    rw [closeBy_none, List.map_id]
    exact List.append_nil _

/-- Notes of the file: the tag is the key. -/
def keyStart (a : TMsg) : Option (Option (Fin 16 × UInt8) × TMsg) := if starts a.1 then some (noteOf a.1, (drum a.1, a.2)) else none

def keyStop (a : TMsg) : Option (Option (Fin 16 × UInt8) × Nat) := if (noteOf a.1).isSome then some (noteOf a.1, a.2) else none

/-- Notes of the voices: the tag is the voice. -/
def voiceStart (p : Fin 8 × TMsg) : Option (Fin 8 × TMsg) := if starts p.2.1 then some (p.1, p.2) else none

def voiceStop (p : Fin 8 × TMsg) : Option (Fin 8 × Nat) := if ends p.2.1 then some (p.1, p.2.2) else none

/-- The notes of the file and the notes of the voices, side by side: those still open are active. -/
def Matched (done : List TMsg) (outs : List (Fin 8 × TMsg)) (k : Ctl) : Prop :=
  ∃ S : List (Option (Fin 16 × UInt8) × Fin 8 × TMsg × Option Nat),
    openings keyStart keyStop done = S.map (fun x => (x.1, x.2.2)) ∧ openings voiceStart voiceStop outs = S.map (·.2) ∧
    ∀ x ∈ S, x.2.2.2 = none → ∃ c n, x.1 = some (c, n) ∧ (n, x.2.1) ∈ k.active c

theorem plain_none {p : Fin 8 × TMsg} (h : Plain p.2.1) : voiceStart p = none ∧ voiceStop p = none := by
  simp [voiceStart, voiceStop, h.1, h.2]

/-- A message that is about no note changes nothing. -/
theorem matched_quiet (done : List TMsg) (outs o : List (Fin 8 × TMsg)) (k k' : Ctl) (a : TMsg) (h : Matched done outs k) (ha : noteOf a.1 = none) (ho : ∀ p ∈ o, Plain p.2.1)
    (hk : k'.active = k.active) : Matched (done ++ [a]) (outs ++ o) k' := by
  obtain ⟨S, h1, h2, h3⟩ := h
  refine ⟨S, ?_, ?_, ?_⟩
  · rw [openings_plain, h1]
    intro b hb
    rw [List.mem_singleton.1 hb]
    have : starts a.1 = false := by
      by_contra hs
      unfold starts at hs
      split at hs
      · rename_i e; rw [e] at ha; simp [noteOf] at ha
      · exact hs rfl
    simp [keyStart, keyStop, ha, this]
  · rw [openings_plain, h2]
    exact fun p hp => plain_none (ho p hp)
  · rw [hk]; exact h3

/-- A message about a note closes it. -/
theorem matched_close (done : List TMsg) (outs : List (Fin 8 × TMsg)) (k : Ctl) (hh : Held outs k) (h : Matched done outs k) (ch : Fin 16) (n : UInt8) (t : Nat)
    (o : List (Fin 8 × TMsg)) (ho : match (k.active ch).lookup n with
      | some v => ∃ m, o = [(v, (m, t))] ∧ ends m = true ∧ starts m = false
      | none => o = []) :
    ∃ S : List (Option (Fin 16 × UInt8) × Fin 8 × TMsg × Option Nat),
      (openings keyStart keyStop done).map (closeBy (some (some (ch, n), t))) = S.map (fun x => (x.1, x.2.2)) ∧ openings voiceStart voiceStop (outs ++ o) = S.map (·.2) ∧
      ∀ x ∈ S, x.2.2.2 = none → ∃ c n', x.1 = some (c, n') ∧ (n', x.2.1) ∈ (ctlClose k ch n).active c := by
  obtain ⟨S, h1, h2, h3⟩ := h
  refine ⟨S.map fun x => (x.1, x.2.1, x.2.2.1, x.2.2.2.or (if x.1 = some (ch, n) then some t else none)), ?_, ?_, ?_⟩
  · rw [h1, List.map_map, List.map_map]
    apply List.map_congr_left
    rintro ⟨a, b, c, d⟩ _
    simp only [Function.comp, closeBy, Option.bind_some, Prod.mk.injEq, true_and]
    simp only [eq_comm]
  · cases hl : (k.active ch).lookup n with
    | none =>
      rw [hl] at ho
      subst ho
      rw [List.append_nil, h2, List.map_map]
      apply List.map_congr_left
      rintro ⟨a, b, c, d⟩ hx
      cases d with
      | some d => simp
      | none =>
        obtain ⟨c', n', e1, e2⟩ := h3 _ hx rfl
        simp only at e1 e2
        subst e1
        have : ¬ (c', n') = (ch, n) := by
          intro e
          simp only [Prod.mk.injEq] at e
          obtain ⟨rfl, rfl⟩ := e
          exact lookup_none hl _ e2 rfl
        simp [this]
    | some v =>
      rw [hl] at ho
      obtain ⟨m, rfl, e1, e2⟩ := ho
      have hs : voiceStart (v, (m, t)) = none := by simp [voiceStart, e2]
      have ht : voiceStop (v, (m, t)) = some (v, t) := by simp [voiceStop, e1]
      rw [openings_snoc, hs, ht, h2]
      simp only [Option.toList_none, List.map_nil, List.append_nil, List.map_map]
      apply List.map_congr_left
      rintro ⟨a, b, c, d⟩ hx
      simp only [Function.comp, closeBy, Option.bind_some, Prod.mk.injEq, true_and]
      cases d with
      | some d => simp
      | none =>
        obtain ⟨c', n', e1, e2⟩ := h3 _ hx rfl
        simp only at e1 e2
        subst e1
        simp only [Option.none_or, Option.some.injEq]
        have : v = b ↔ (c', n') = (ch, n) := by
          constructor
          · rintro rfl
            obtain ⟨g1, g2⟩ := hh.uniq _ _ _ _ e2 (lookup_some hl) rfl
            simp only [Prod.mk.injEq] at g2
            rw [g1, g2.1]
          · intro e
            simp only [Prod.mk.injEq] at e
            obtain ⟨rfl, rfl⟩ := e
            have := hh.keys _ _ _ e2 (lookup_some hl) rfl
            simp only [Prod.mk.injEq, true_and] at this
            exact this.symm
        by_cases hv : v = b
        · rw [if_pos hv, if_pos (this.1 hv)]
        · rw [if_neg hv, if_neg fun e => hv (this.2 e)]
  · intro x hx hn
    obtain ⟨⟨a, b, c, d⟩, hy, rfl⟩ := List.mem_map.1 hx
    simp only [Option.or_eq_none_iff] at hn
    obtain ⟨rfl, hn⟩ := hn
    obtain ⟨c', n', e1, e2⟩ := h3 _ hy rfl
    simp only at e1 e2
    subst e1
    refine ⟨c', n', rfl, ?_⟩
    have hne : (c', n') ≠ (ch, n) := by
      rintro e
      rw [if_pos (by rw [e])] at hn
      cases hn
    simp only
    unfold ctlClose
    split
    · by_cases hc : c' = ch
      · subst hc
        simp only [Function.update_self, mem_removeNote]
        exact ⟨e2, fun e => hne (by rw [show n' = n from e])⟩
      · simpa [Function.update_of_ne hc] using e2
    · exact e2

theorem matched_step (ord : EnumOrder) (base : Fin 16 → Fin 8) (done : List TMsg) (outs : List (Fin 8 × TMsg)) (k : Ctl) (m : Message) (t : Nat) (o : List (Fin 8 × Message)) (k' : Ctl)
    (hh : Held outs k) (h : Matched done outs k) (he : emit ord base k m = some (o, k')) : Matched (done ++ [(m, t)]) (outs ++ o.map fun p => (p.1, (p.2, t))) k' := by
  have quiet : noteOf m = none → (∀ p ∈ o, Plain p.2) → k'.active = k.active → Matched (done ++ [(m, t)]) (outs ++ o.map fun p => (p.1, (p.2, t))) k' := by
    intro h1 h2 h3
    refine matched_quiet done outs _ k k' (m, t) h h1 ?_ h3
    intro p hp
    obtain ⟨q, hq, rfl⟩ := List.mem_map.1 hp
    exact h2 q hq
  have chan : ∀ (ch : Fin 16) (m : Message), Plain m → ∀ p ∈ outChannel ord base k ch m, Plain p.2 := by
    intro ch m hm p hp
    unfold outChannel at hp
    rcases List.mem_append.1 hp with hp | hp
    · obtain ⟨q, -, rfl⟩ := List.mem_map.1 hp
      exact hm
    · split_ifs at hp
      · simp at hp
      · simp only [List.mem_singleton] at hp; subst hp; exact hm
  have finish : ∀ ch n (a : TMsg) (w : List (Fin 8 × TMsg)), noteOf a.1 = some (ch, n) → starts a.1 = false →
      (match (k.active ch).lookup n with
      | some v => ∃ m, w = [(v, (m, a.2))] ∧ ends m = true ∧ starts m = false
      | none => w = []) → Matched (done ++ [a]) (outs ++ w) (ctlClose k ch n) := by
    intro ch n a w h1 h2 h3
    obtain ⟨S, g1, g2, g3⟩ := matched_close done outs k hh h ch n a.2 w h3
    refine ⟨S, ?_, g2, g3⟩
    rw [openings_snoc]
    simp only [keyStart, keyStop, h1, h2, Option.isSome_some, if_true, Bool.false_eq_true, if_false, Option.toList_none, List.map_nil, List.append_nil]
    exact g1
  cases m with
  | metaEvent d e data =>
    cases e <;> simp only [emit, Option.some.injEq, Prod.mk.injEq] at he <;> obtain ⟨rfl, rfl⟩ := he
    · exact quiet rfl (by simp [Plain, starts, ends]) rfl
    · exact quiet rfl (by simp) rfl
  | sysEx d data =>
    simp only [emit, Option.some.injEq, Prod.mk.injEq] at he
    obtain ⟨rfl, rfl⟩ := he
    exact quiet rfl (by simp [Plain, starts, ends]) rfl
  | trackChange =>
    simp only [emit, Option.some.injEq, Prod.mk.injEq] at he
    obtain ⟨rfl, rfl⟩ := he
    exact quiet rfl (by simp) rfl
  | midiEvent d e =>
    cases e with
    | unknown ch =>
      simp only [emit, Option.some.injEq, Prod.mk.injEq] at he
      obtain ⟨rfl, rfl⟩ := he
      exact quiet rfl (by simp) rfl
    | polyphonicKeyPressure ch n v =>
      simp only [emit] at he
      split at he <;> simp only [Option.some.injEq, Prod.mk.injEq] at he <;> obtain ⟨rfl, rfl⟩ := he
      · exact quiet rfl (by simp [Plain, starts, ends]) rfl
      · exact quiet rfl (by simp) rfl
    | channelPressure ch v =>
      simp only [emit, Option.some.injEq, Prod.mk.injEq] at he
      obtain ⟨rfl, rfl⟩ := he
      exact quiet rfl (chan ch _ ⟨rfl, rfl⟩) rfl
    | programChange ch v =>
      simp only [emit, Option.some.injEq, Prod.mk.injEq] at he
      obtain ⟨rfl, rfl⟩ := he
      exact quiet rfl (chan ch _ ⟨rfl, rfl⟩) rfl
    | pitchBendChange ch v =>
      simp only [emit, Option.some.injEq, Prod.mk.injEq] at he
      obtain ⟨rfl, rfl⟩ := he
      exact quiet rfl (chan ch _ ⟨rfl, rfl⟩) rfl
    | controlChange ch c v =>
      simp only [emit, Option.some.injEq, Prod.mk.injEq] at he
      obtain ⟨rfl, rfl⟩ := he
      refine quiet rfl (chan ch _ ⟨rfl, rfl⟩) ?_
      split_ifs <;> rfl
    | noteOff ch n v =>
      simp only [emit] at he
      have hc : (∃ w, (k.active ch).lookup n = some w) ∨ (k.active ch).lookup n = none := by cases (k.active ch).lookup n <;> simp
      rcases hc with ⟨w, hw⟩ | hw
      · rw [hw] at he
        simp only [Option.some.injEq, Prod.mk.injEq] at he
        obtain ⟨rfl, rfl⟩ := he
        refine finish ch n (_, t) _ rfl rfl ?_
        rw [hw]
        exact ⟨_, rfl, rfl, rfl⟩
      · rw [hw] at he
        simp only [Option.some.injEq, Prod.mk.injEq] at he
        obtain ⟨rfl, rfl⟩ := he
        have e : ctlClose k ch n = k := by unfold ctlClose; rw [hw]
        have := finish ch n (Message.midiEvent d (.noteOff ch n v), t) [] rfl rfl (by rw [hw])
        rw [e] at this
        exact this
    | noteOn ch n vel =>
      simp only [emit] at he
      have hcl : match (k.active ch).lookup n with
          | some v => ∃ m, ((outClose k d ch n vel).map fun p => (p.1, ((p.2, t) : TMsg))) = [(v, (m, t))] ∧ ends m = true ∧ starts m = false
          | none => ((outClose k d ch n vel).map fun p => (p.1, ((p.2, t) : TMsg))) = [] := by
        unfold outClose
        cases (k.active ch).lookup n with
        | none => rfl
        | some v => exact ⟨_, rfl, rfl, rfl⟩
      by_cases hv : vel > 0
      · have hv0 : vel ≠ 0 := by rintro rfl; simp at hv
        rw [if_pos hv] at he
        split at he
        · cases he
        · rename_i v hchoose
          simp only [Option.some.injEq, Prod.mk.injEq] at he
          obtain ⟨rfl, rfl⟩ := he
          obtain ⟨S, g1, g2, g3⟩ := matched_close done outs k hh h ch n t _ hcl
          have hdr : drum (.midiEvent d (.noteOn ch n vel)) = .midiEvent d (.noteOn ch (drumNote ch n) vel) := by rw [drumNote_eq]; rfl
          refine ⟨S ++ [(some (ch, n), v, (.midiEvent d (.noteOn ch (drumNote ch n) vel), t), none)], ?_, ?_, ?_⟩
          · rw [openings_snoc, List.map_append]
            have e1 : keyStop (Message.midiEvent d (.noteOn ch n vel), t) = some (some (ch, n), t) := rfl
            have e2 : keyStart (Message.midiEvent d (.noteOn ch n vel), t) = some (some (ch, n), (.midiEvent d (.noteOn ch (drumNote ch n) vel), t)) := by
              simp only [keyStart, starts, hv0, ne_eq, not_false_eq_true, decide_true, if_true, hdr, noteOf]
            rw [e1, e2, g1]
            rfl
          · have e3 : voiceStart (v, (Message.midiEvent d (.noteOn ch (drumNote ch n) vel), t)) = some (v, (.midiEvent d (.noteOn ch (drumNote ch n) vel), t)) := by
              simp [voiceStart, starts, hv0]
            have e4 : voiceStop (v, (Message.midiEvent d (.noteOn ch (drumNote ch n) vel), t)) = none := by simp [voiceStop, ends, hv0]
            rw [List.map_append, List.map_append, ← List.append_assoc, ← List.append_assoc, List.map_singleton, openings_snoc, e3, e4, openings_plain, g2, List.map_append]
            · rw [closeBy_none, List.map_id]; rfl
            · intro p hp
              obtain ⟨q, hq, rfl⟩ := List.mem_map.1 hp
              apply plain_none
              simp only
              rcases List.mem_append.1 hq with hq | hq
              · exact plain_outSwitch outs k hh ch v q hq
              · unfold outPerc at hq
                split_ifs at hq
                · simp only [List.mem_singleton] at hq; subst hq; exact ⟨rfl, rfl⟩
                · simp at hq
          · intro x hx hn
            rcases List.mem_append.1 hx with hx | hx
            · obtain ⟨c', n', e1, e2⟩ := g3 x hx hn
              refine ⟨c', n', e1, ?_⟩
              simp only [ctlOpen]
              by_cases hc : c' = ch
              · subst hc
                simp only [Function.update_self, insertNote, List.mem_cons, mem_removeNote]
                refine .inr ⟨e2, ?_⟩
                obtain ⟨-, g⟩ := close_active k c' n c' n' x.2.1 e2
                intro e
                exact g (by rw [show n' = n from e])
              · rw [Function.update_of_ne hc]; exact e2
            · rw [List.mem_singleton.1 hx]
              exact ⟨ch, n, rfl, by simp [ctlOpen, insertNote]⟩
      · have hv0 : vel = 0 := by
          by_contra hne
          exact hv (UInt8.pos_iff_ne_zero.2 hne)
        rw [if_neg hv] at he
        simp only [Option.some.injEq, Prod.mk.injEq] at he
        obtain ⟨rfl, rfl⟩ := he
        exact finish ch n (_, t) _ rfl (by simp [starts, hv0]) hcl

theorem matched_emits (ord : EnumOrder) (base : Fin 16 → Fin 8) (seq : List TMsg) (os : List (Fin 8 × TMsg)) (k : Ctl) (he : emits ord base (ctl0 base) seq = some (os, k)) :
    Matched seq os k := by
  refine (emits_nil_induct ord base (fun done outs k => Held outs k ∧ Matched done outs k) ?_ seq _ k os ⟨held_init base, [], rfl, rfl, by simp⟩ he).2
  rintro done outs k m t o k' ⟨i1, i2⟩ h1
  exact ⟨held_step ord base outs k m t o k' i1 h1, matched_step ord base done outs k m t o k' i1 i2 h1⟩

/-- The notes of a voice: each start with the time of the next end. -/
def pairs : List TMsg → List (TMsg × Option Nat)
  | [] => []
  | m :: l => (if starts m.1 then [(m, l.findSome? fun b => if ends b.1 then some b.2 else none)] else []) ++ pairs l

theorem openings_voice (outs : List (Fin 8 × TMsg)) (v : Fin 8) : onVoice (openings voiceStart voiceStop outs) v = pairs (onVoice outs v) := by
  induction outs with
  | nil => rfl
  | cons p outs ih =>
    have hfind : ∀ l : List (Fin 8 × TMsg), (l.findSome? fun b => (voiceStop b).bind fun y => if y.1 = v then some y.2 else none) =
        (onVoice l v).findSome? fun b => if ends b.1 then some b.2 else none := by
      intro l
      induction l with
      | nil => rfl
      | cons q l ih2 =>
        by_cases hq : q.1 = v
        · have : onVoice (q :: l) v = q.2 :: onVoice l v := by simp [onVoice, hq]
          rw [this, List.findSome?_cons, List.findSome?_cons, ih2]
          by_cases he : ends q.2.1 = true
          · simp [voiceStop, he, hq]
          · simp [voiceStop, he]
        · have : onVoice (q :: l) v = onVoice l v := by simp [onVoice, hq]
          rw [this, List.findSome?_cons, ← ih2]
          by_cases he : ends q.2.1 = true
          · simp [voiceStop, he, hq]
          · simp [voiceStop, he]
    rw [openings, onVoice_append, ih]
    by_cases hp : p.1 = v
    · have : onVoice (p :: outs) v = p.2 :: onVoice outs v := by simp [onVoice, hp]
      rw [this, pairs]
      congr 1
      by_cases hs : starts p.2.1 = true
      · have e : voiceStart p = some (v, p.2) := by simp [voiceStart, hs, hp]
        rw [e, if_pos hs]
        simp only [Option.toList_some, List.map_cons, List.map_nil, hfind]
        simp [onVoice]
      · have e : voiceStart p = none := by simp [voiceStart, hs]
        rw [e, if_neg hs]
        rfl
    · have : onVoice (p :: outs) v = onVoice outs v := by simp [onVoice, hp]
      rw [this]
      by_cases hs : starts p.2.1 = true
      · have e : voiceStart p = some (p.1, p.2) := by simp [voiceStart, hs]
        rw [e]
        simp [onVoice, hp]
      · have e : voiceStart p = none := by simp [voiceStart, hs]
        rw [e]
        rfl

theorem min?_perm {a b : List Nat} (h : a.Perm b) : a.min? = b.min? := by
  cases hb : b.min? with
  | none =>
    rw [List.min?_eq_none_iff] at hb ⊢
    subst hb
    exact h.eq_nil
  | some x =>
    rw [List.min?_eq_some_iff] at hb ⊢
    exact ⟨h.mem_iff.2 hb.1, fun y hy => hb.2 y (h.mem_iff.1 hy)⟩

theorem endOf_perm {a b : List TMsg} (h : a.Perm b) (x : TMsg) : endOf a x = endOf b x := min?_perm ((h.filter _).map _)

/-- In the order of dealing, a note is over at the next message about its key. -/
theorem endOf_next (pre post : List TMsg) (a : TMsg) (ha : starts a.1 = true)
    (hpre : ∀ m ∈ pre, m.2 ≤ a.2) (hpost : ∀ m ∈ post, noteOf m.1 = noteOf a.1 → a.2 < m.2) (hsort : post.Pairwise fun x y => x.2 ≤ y.2) :
    endOf (pre ++ a :: post) a = post.findSome? fun b => (keyStop b).bind fun y => if y.1 = noteOf a.1 then some y.2 else none := by
  obtain ⟨κ, hκ⟩ : ∃ κ, noteOf a.1 = some κ := by
    obtain ⟨m, t⟩ := a
    unfold starts at ha
    split at ha
    · rename_i e; simp only at e; rw [e]; exact ⟨_, rfl⟩
    · cases ha
  unfold endOf
  have e1 : (pre ++ a :: post).filter (fun m => noteOf m.1 = noteOf a.1 ∧ a.2 < m.2) = post.filter fun m => noteOf m.1 = noteOf a.1 := by
    rw [List.filter_append, List.filter_cons, if_neg (by simp), List.filter_eq_nil_iff.2 ?_, List.nil_append]
    · apply List.filter_congr
      intro m hm
      by_cases h : noteOf m.1 = noteOf a.1
      · simp [h, hpost m hm h]
      · simp [h]
    · intro m hm
      have := hpre m hm
      simp only [decide_eq_true_eq, not_and]
      intro _
      omega
  rw [e1]
  clear e1 hpost hpre
  rw [List.min?_eq_head?]
  · induction post with
    | nil => rfl
    | cons b post ih =>
      rw [List.findSome?_cons]
      by_cases h : noteOf b.1 = noteOf a.1
      · have e2 : keyStop b = some (noteOf a.1, b.2) := by simp [keyStop, h, hκ]
        rw [List.filter_cons_of_pos (by simpa using h), e2]
        simp
      · have e2 : ((keyStop b).bind fun y => if y.1 = noteOf a.1 then some y.2 else none) = none := by
          unfold keyStop
          split_ifs
          · simp [h]
          · rfl
        rw [List.filter_cons_of_neg (by simpa using h), e2]
        exact ih hsort.of_cons
  · rw [List.pairwise_map]
    exact (hsort.filter _).imp fun h => by simpa using h

theorem openings_seq (rest : List TMsg) : ∀ (pre : List TMsg), (pre ++ rest).Pairwise (fun x y => x.2 ≤ y.2) →
    (∀ a x b y c, pre ++ rest = a ++ x :: b ++ y :: c → starts x.1 = true → noteOf y.1 = noteOf x.1 → x.2 < y.2) →
    (openings keyStart keyStop rest).map (·.2) = (rest.filter fun m => starts m.1).map fun m => ((drum m.1, m.2), endOf (pre ++ rest) m) := by
  induction rest with
  | nil => intros; rfl
  | cons a rest ih =>
    intro pre h1 h2
    have e : pre ++ a :: rest = (pre ++ [a]) ++ rest := by simp
    have h3 := ih (pre ++ [a]) (by rw [← e]; exact h1) (by rw [← e]; exact h2)
    rw [← e] at h3
    rw [openings, List.map_append, h3]
    by_cases ha : starts a.1 = true
    · rw [List.filter_cons_of_pos (by simpa using ha)]
      have e2 : keyStart a = some (noteOf a.1, (drum a.1, a.2)) := by simp [keyStart, ha]
      rw [e2, List.map_cons, endOf_next pre rest a ha]
      · rfl
      · intro m hm
        rw [List.pairwise_append] at h1
        exact h1.2.2 m hm a (by simp)
      · intro m hm hn
        obtain ⟨b, c, rfl⟩ := List.append_of_mem hm
        exact h2 pre a b m c (by simp) ha hn
      · rw [List.pairwise_append, List.pairwise_cons] at h1
        exact h1.2.1.2
    · rw [List.filter_cons_of_neg (by simpa using ha)]
      have e2 : keyStart a = none := by simp [keyStart, ha]
      rw [e2]
      rfl

/-- The notes of the voices, with their ends, are those of the file. -/
theorem pairs_perm (ord : EnumOrder) (calls : List Callback) (h : MidiHandler) (hr : readMidi ord calls = .ok h) (hs : Sane h.ticksPerBeat (file calls)) :
    ((List.finRange 8).flatMap fun v => pairs (h.voices v)).Perm (((file calls).filter fun m => starts m.1).map fun m => ((drum m.1, m.2), endOf (file calls) m)) := by
  obtain ⟨seq, outs, k, s1, s2, s3, s4⟩ := read_emits ord calls h hr
  have hperm := read_perm ord calls h hr seq s1
  obtain ⟨S, m1, m2, -⟩ := matched_emits ord _ _ _ _ s3
  have e1 : (fun v => pairs (h.voices v)) = fun v => onVoice (openings voiceStart voiceStop outs) v := by
    funext v
    rw [openings_voice, s4]
  rw [e1]
  refine (voices_perm _).trans ?_
  have e2 : (openings voiceStart voiceStop outs).map (·.2) = (openings keyStart keyStop (seq.map (·.2))).map (·.2) := by
    rw [m1, m2, List.map_map, List.map_map]; rfl
  have hnd : (((seq.map (·.2)).filter fun m => starts m.1).map fun m => (noteOf m.1, m.2)).Nodup := by
    refine (((hperm.filter _).map _).nodup_iff).2 ?_
    rw [List.filter_filter]
    refine List.Nodup.sublist ?_ hs.once
    apply List.Sublist.map
    apply List.monotone_filter_right
    intro m hm
    simp only [Bool.and_eq_true] at hm
    exact hm.1
  rw [e2, openings_seq _ [] (by simpa using merge_times s2) ?_]
  · have e3 : ∀ m, starts m.1 = true → endOf ([] ++ seq.map (·.2)) m = endOf (file calls) m := by
      intro m hm
      rw [List.nil_append, endOf_perm hperm]
      unfold endOf
      rw [List.filter_filter]
      congr 2
      apply List.filter_congr
      intro x _
      by_cases hx : noteOf x.1 = noteOf m.1
      · have : (home x.1).isSome = true := by
          obtain ⟨κ, hκ⟩ : ∃ κ, noteOf m.1 = some κ := by
            obtain ⟨m, t⟩ := m
            unfold starts at hm
            split at hm
            · rename_i e; simp only at e; rw [e]; exact ⟨_, rfl⟩
            · cases hm
          rw [hκ] at hx
          unfold noteOf at hx
          split at hx
          · rename_i e; rw [e]; rfl
          · rename_i e; rw [e]; rfl
          · cases hx
        simp [this]
      · simp [hx]
    have e4 : ((seq.map (·.2)).filter fun m => starts m.1).map (fun m => ((drum m.1, m.2), endOf ([] ++ seq.map (·.2)) m)) =
        ((seq.map (·.2)).filter fun m => starts m.1).map fun m => ((drum m.1, m.2), endOf (file calls) m) := by
      apply List.map_congr_left
      intro m hm
      rw [e3 m (List.mem_filter.1 hm).2]
    rw [e4]
    refine ((hperm.filter _).map _).trans (.of_eq ?_)
    rw [List.filter_filter]
    congr 1
    apply List.filter_congr
    intro m _
    by_cases hm : starts m.1 = true
    · simp [hm, (starts_rank hm).2]
    · simp [hm]
  · intro a x b y c hab hx hn
    rw [List.nil_append] at hab
    obtain ⟨sa, sb, hs1, ha', hb'⟩ := List.map_eq_append_iff.1 hab
    obtain ⟨sa1, sa2, hs2, ha1, ha2⟩ := List.map_eq_append_iff.1 ha'
    obtain ⟨p, sa3, rfl, hp, hb⟩ := List.map_eq_cons_iff.1 ha2
    obtain ⟨q, sb3, rfl, hq, hc⟩ := List.map_eq_cons_iff.1 hb'
    subst hs2 hs1
    have hord : MergeOrder p q := by
      rw [List.pairwise_append] at s2
      exact s2.2.2 p (by simp) q (by simp)
    unfold MergeOrder at hord
    rw [hp, hq] at hord
    rcases hord with hlt | ⟨heq, hrank⟩
    · exact hlt
    · exfalso
      have hy : starts y.1 = true := by
        have hrx := (starts_rank hx).1
        by_contra hy
        have : rank y.1 < 2 := by
          unfold rank
          split_ifs <;> first | omega | (exfalso; simp_all)
        omega
      rw [hab, List.filter_append, List.filter_append, List.filter_cons_of_pos (by simpa using hx), List.filter_cons_of_pos (by simpa using hy), List.map_append, List.map_append, List.nodup_append] at hnd
      exact hnd.2.2 (noteOf x.1, x.2) (by simp) (noteOf y.1, y.2) (by simp) (by rw [hn, heq])

end M2S
