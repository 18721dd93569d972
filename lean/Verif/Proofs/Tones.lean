import Verif.Spec.Lengths
import Verif.Proofs.Sound
import Verif.Proofs.Lengths
/-
How long the notes of a converted voice last.
-/
namespace M2S
open Timing Nspc MidiSpec

/-- Ties follow notes and ties, notes have sustain 7, nothing else has one. The flag: the last command was a note or a tie. -/
def grouped : Bool → List PCmd → Prop
  | _, [] => True
  | b, c :: cs => match c.command with
    | .note _ => c.sustain = some 7 ∧ grouped true cs
    | .tie => b = true ∧ c.sustain = none ∧ grouped true cs
    | _ => c.sustain = none ∧ grouped false cs

/-- A list that can follow any other. -/
def Starter (x : List PCmd) : Prop := ∀ b, grouped b x

theorem grouped_append (x : List PCmd) (hx : Starter x) : ∀ (cs : List PCmd) (b : Bool), grouped b cs → grouped b (cs ++ x) := by
  intro cs
  induction cs with
  | nil => intro b _; exact hx b
  | cons c cs ih =>
    intro b h
    obtain ⟨d, v, s, cmd⟩ := c
    cases cmd <;> first | exact ⟨h.1, ih _ h.2⟩ | exact ⟨h.1, h.2.1, ih _ h.2.2⟩

theorem starter_plain (c : PCmd) (h : timed c.command = false) (hs : c.sustain = none) : Starter [c] := by
  intro b
  obtain ⟨d, v, u, cmd⟩ := c
  cases cmd <;> first | exact ⟨hs, trivial⟩ | cases h

theorem starter_note (d v : Option UInt8) (n : UInt8) (ts : List PCmd) (h : grouped true ts) : Starter (⟨d, v, some 7, .note n⟩ :: ts) := fun _ => ⟨rfl, h⟩

theorem starter_rests (rs : List PCmd) (h : ∀ c ∈ rs, c.command = .rest ∧ c.sustain = none) : Starter rs := by
  induction rs with
  | nil => intro b; trivial
  | cons c rs ih =>
    intro b
    have h1 := h c List.mem_cons_self
    have h2 := ih fun x hx => h x (List.mem_cons_of_mem _ hx)
    unfold grouped
    rw [h1.1]
    exact ⟨h1.2, h2 false⟩

theorem grouped_ties (ts : List PCmd) (h : ∀ c ∈ ts, c.command = .tie ∧ c.sustain = none) : grouped true ts := by
  induction ts with
  | nil => trivial
  | cons c ts ih =>
    have h1 := h c List.mem_cons_self
    have h2 := ih fun x hx => h x (List.mem_cons_of_mem _ hx)
    unfold grouped
    rw [h1.1]
    exact ⟨rfl, h1.2, h2⟩

theorem insertRest_starter (cs cs' : List PCmd) (e t p e' : Nat) (h : insertRest cs e t p = .ok (cs', e')) : ∃ rs, cs' = cs ++ rs ∧ Starter rs := by
  unfold insertRest at h
  split_ifs at h with hgt
  · simp only [res_bind, res_pure, Prod.mk.injEq] at h
    obtain ⟨d, hd, t', ht', h1, rfl⟩ := h
    refine ⟨restsOf d, ?_, starter_rests _ ?_⟩
    · rw [← h1]; unfold restsOf; split_ifs <;> simp
    · intro c hc
      unfold restsOf at hc
      rw [List.mem_append] at hc
      rcases hc with hc | hc
      · rw [List.eq_of_mem_replicate hc]; exact ⟨rfl, rfl⟩
      · split_ifs at hc
        · simp only [List.mem_singleton] at hc; subst hc; exact ⟨rfl, rfl⟩
        · simp at hc
  · simp only [res_pure, Prod.mk.injEq] at h
    obtain ⟨rfl, rfl⟩ := h
    exact ⟨[], by simp, fun _ => trivial⟩

theorem grouped_step (p : Nat) (f : F32) (st st' : TrackState) (ev : Message × Nat) (hl : Level st) (hg : grouped false st.commands)
    (h : trackStep p f st ev = .ok st') : grouped false st'.commands := by
  obtain ⟨m, t⟩ := ev
  have same : st' = st → grouped false st'.commands := by rintro rfl; exact hg
  rcases m with ⟨dl, e, data⟩ | ⟨dl, e⟩ | ⟨dl, data⟩ | _
  · rcases e with _ | k
    · simp only [trackStep, res_bind, res_pure] at h
      obtain ⟨u, -, rfl⟩ := h
      exact grouped_append _ (starter_plain _ rfl rfl) _ _ hg
    · simp only [trackStep, Except.ok.injEq] at h
      exact same h.symm
  · rcases e with ⟨ch, n, v⟩ | ⟨ch, n, v⟩ | ⟨ch, n, v⟩ | ⟨ch, c, d⟩ | ⟨ch, pr⟩ | ⟨ch, pr⟩ | ⟨ch, x⟩ | ⟨ch⟩
    · -- note off
      simp only [trackStep, trackNoteOff] at h
      cases hns : st.noteStart with
      | none =>
        rw [hns] at h
        simp only [Except.ok.injEq] at h
        exact same h.symm
      | some start =>
        rw [hns] at h
        have hnt : (st.commands.getLast?).any PCmd.isSlide = false := by
          cases hg : st.commands.getLast? with
          | none => rfl
          | some c => exact hl.slides c (List.mem_of_getLast? hg)
        simp only [hnt, Bool.false_eq_true, if_false, res_bind, res_pure] at h
        obtain ⟨dt, -, d, -, n', hn', cmd, rfl, t', -, rfl⟩ := h
        refine grouped_append _ (starter_note _ _ _ _ (grouped_ties _ ?_)) _ _ hg
        intro c hc
        simp only [noteTies, List.mem_map] at hc
        obtain ⟨i, -, rfl⟩ := hc
        exact ⟨rfl, rfl⟩
    · -- note on
      simp only [trackStep, trackNoteOn, res_bind] at h
      obtain ⟨⟨cs1, e'⟩, hr, h⟩ := h
      have h : (if st.noteStart.isSome then failed .moreThanOneVoice
          else (pure { st with commands := cs1, lastNoteEnd := e', noteStart := some e', noteVelocity := v } : Res TrackState)) = .ok st' := by
        simp only [hl.off, Bool.false_eq_true, if_false] at h
        split at h
        · simpa only [res_bind, res_pure, exists_eq_left', hl.off] using h
        · simpa only [res_bind, res_pure, exists_eq_left', hl.off] using h
      split_ifs at h with hns
      · cases h
      simp only [res_pure] at h
      subst h
      obtain ⟨rs, rfl, hrs⟩ := insertRest_starter _ _ _ _ _ _ hr
      exact grouped_append _ hrs _ _ hg
    · simp only [trackStep, Except.ok.injEq] at h
      exact same h.symm
    · -- control change
      simp only [trackStep, trackControl] at h
      split_ifs at h with h5 h7 h37 h65
      · simp only [Except.ok.injEq] at h
        subst h
        exact hg
      · simp only [res_bind, res_pure] at h
        obtain ⟨v, hv, rfl⟩ := h
        exact grouped_append _ (starter_plain _ rfl rfl) _ _ hg
      all_goals
        simp only [Except.ok.injEq] at h
        subst h
        exact hg
    · -- program change
      simp only [trackStep, trackProgram, res_bind] at h
      obtain ⟨⟨cs1, e'⟩, hr, h⟩ := h
      obtain ⟨rs, rfl, hrs⟩ := insertRest_starter _ _ _ _ _ _ hr
      have h : ∃ i, st'.commands = (st.commands ++ rs) ++ [plainCmd (.setInstrument i)] := by
        split_ifs at h with h9
        · simp only [res_bind, res_pure] at h
          obtain ⟨i, -, rfl⟩ := h
          exact ⟨i, rfl⟩
        · cases hg : Instr.instrumentMap[pr.toNat]? with
          | none => rw [hg] at h; cases h
          | some j =>
            rw [hg] at h
            simp only [res_bind, res_pure] at h
            obtain ⟨i, -, rfl⟩ := h
            exact ⟨i, rfl⟩
      obtain ⟨i, h⟩ := h
      rw [h]
      exact grouped_append _ (starter_plain _ rfl rfl) _ _ (grouped_append _ hrs _ _ hg)
    all_goals
      simp only [trackStep, Except.ok.injEq] at h
      exact same h.symm
  all_goals
    simp only [trackStep, Except.ok.injEq] at h
    exact same h.symm

theorem grouped_loop (p : Nat) (f : F32) (evs : List (Message × Nat)) : ∀ (st st' : TrackState), Level st → noPortamento evs = true → grouped false st.commands →
    evs.foldlM (trackStep p f) st = .ok st' → grouped false st'.commands := by
  induction evs with
  | nil =>
    intro st st' _ _ hg h
    simp only [List.foldlM_nil, res_pure] at h
    subst h
    exact hg
  | cons ev evs ih =>
    intro st st' hl hno hg h
    rw [List.foldlM_cons, res_bind] at h
    obtain ⟨st1, h1, h2⟩ := h
    rw [noPortamento_cons, Bool.and_eq_true] at hno
    obtain ⟨hl1, -⟩ := strike_step (none, none) p f st st1 ev evs hl hno.1 h1
    exact ih st1 st' hl1 hno.2 (grouped_step p f st st1 ev hl hg h1) h2

theorem grouped_finish (p T : Nat) (st : TrackState) (cs0 : List PCmd) (hg : grouped false st.commands) (hf : finish p T st cs0) : grouped false cs0 := by
  rcases hf with ⟨-, rfl⟩ | ⟨-, e, h2⟩
  · trivial
  · obtain ⟨rs, rfl, hrs⟩ := insertRest_starter _ _ _ _ _ _ h2
    exact grouped_append _ hrs _ _ hg

theorem asked_some {d : UInt8} (h : 1 ≤ d.toNat) (x : UInt8) : (asked (some d)).getD x = d := by
  have : d ≠ 0 := by
    rintro rfl
    simp at h
  simp [asked, this]

/-- The fused notes ring until the ends of the notes they come from. -/
theorem fused_rings {a b : List PCmd} (h : Fused a b) : ∀ (fl : Bool) (t : Nat) (s : Settings) (l : List Tone) (ys : List Span) (dur vel sus : UInt8), grouped fl a →
    (∀ c ∈ a, durOk c) → List.Forall₂ (fun x y => Rings x y.stop) l ys → (fl = true → ∃ x l', l = x :: l' ∧ x.sus = 7) →
    List.Forall₂ (fun x y => Rings x y.stop) ((intended Engine.noAddr b dur vel sus).foldl hear (t, s, l)).2.2 (a.foldl listen (t, ys)).2 := by
  induction h with
  | nil => intro fl t s l ys dur vel sus _ _ h _; exact h
  | keep c _ ih =>
    intro fl t s l ys dur vel sus hg hd hf hfl
    have hdc := hd c List.mem_cons_self
    have ih := fun fl t s l ys dur vel sus hg => ih fl t s l ys dur vel sus hg fun x hx => hd x (List.mem_cons_of_mem _ hx)
    obtain ⟨d, v, u, cmd⟩ := c
    cases cmd
    case note p =>
      obtain ⟨d', hd', h1, -⟩ := hdc
      simp only at hd'
      subst hd'
      obtain ⟨hu, hg⟩ := hg
      simp only at hu
      subst hu
      simp only [intended, List.foldl_cons, hear, listen, asked_some h1]
      have e7 : (asked (some (7 : UInt8))).getD sus = 7 := rfl
      rw [e7]
      refine ih true _ _ _ _ _ _ _ hg (.cons ⟨?_, ?_, ?_, ?_⟩ hf) fun _ => ⟨_, _, rfl, rfl⟩
      · simp
      · simp [units]
      · exact le_refl 7
      · right
        refine ⟨rfl, ?_⟩
        simp only [units, Option.map_some, Option.getD_some]
        omega
    case tie =>
      obtain ⟨d', hd', h1, -⟩ := hdc
      simp only at hd'
      subst hd'
      obtain ⟨hb, hu, hg⟩ := hg
      obtain ⟨x, l', rfl, hx⟩ := hfl hb
      cases hf with
      | @cons _ y _ ys' hxy hf =>
        simp only [intended, List.foldl_cons, hear, listen, asked_some h1]
        refine ih true _ _ _ _ _ _ _ hg (.cons ⟨?_, ?_, ?_, ?_⟩ hf) fun _ => ⟨_, _, rfl, hx⟩
        · simp
        · simp [units]
        · exact hxy.sustain
        · right
          refine ⟨hx, ?_⟩
          simp only [units, Option.map_some, Option.getD_some]
          omega
    case rest =>
      obtain ⟨d', hd', h1, -⟩ := hdc
      simp only at hd'
      subst hd'
      simp only [intended, List.foldl_cons, hear, listen, asked_some h1]
      exact ih false _ _ _ _ _ _ _ hg.2 hf (by simp)
    all_goals
      have hd0 : d = none := hdc
      subst hd0
      simp only [intended, List.foldl_cons, hear, listen]
      exact ih false _ _ _ _ _ _ _ hg.2 hf (by simp)
  | fuse p dn dr q dt vn sn vr sr h1 h2 h3 h4 _ ih =>
    intro fl t s l ys dur vel sus hg hd hf hfl
    obtain ⟨d1, e1, b1, -⟩ := hd _ List.mem_cons_self
    simp only [Option.some.injEq] at e1
    subst e1
    have ih := fun fl t s l ys dur vel sus hg => ih fl t s l ys dur vel sus hg fun x hx => hd x (List.mem_cons_of_mem _ (List.mem_cons_of_mem _ hx))
    have hq : 1 ≤ q.toNat := by
      rcases h4 with h4 | ⟨rfl, -⟩
      · by_contra h0
        have : q.toNat = 0 := by omega
        rw [this] at h4
        omega
      · decide
    obtain ⟨-, -, hg⟩ := hg
    simp only [intended, List.foldl_cons, hear, listen, asked_some hq, asked_some (d := dt) (by omega)]
    have et : t + dt.toNat = t + units ⟨some dn, vn, sn, .note p⟩ + units ⟨some dr, vr, sr, .rest⟩ := by simp [units]; omega
    rw [← et]
    refine ih false _ _ _ _ _ _ _ hg (.cons ⟨?_, ?_, h2, ?_⟩ hf) (by simp)
    · simp
    · simp [units]; omega
    · simp only [units, Option.map_some, Option.getD_some]
      have e1 : t + dn.toNat - t = dn.toNat := by omega
      have e2 : t + dt.toNat - t = dt.toNat := by omega
      rw [e1, e2]
      exact h4

theorem hear_sounds (l : List Ev) : ∀ (t : Nat) (s : Settings) (x : List Tone), (l.foldl hear (t, s, x)).2.2.reverse.map Tone.sound = x.reverse.map Tone.sound ++ heardSounds t s l := by
  induction l with
  | nil => intros; simp [heardSounds]
  | cons e l ih =>
    intro t s x
    cases e <;> simp only [List.foldl_cons, heardSounds]
    case tie d => cases x <;> simp [hear, ih]
    all_goals simp [hear, ih]

theorem heardTones_sounds (l : List Ev) : (heardTones l).map Tone.sound = heardSounds 0 (none, none) l := hear_sounds l 0 (none, none) []

/-- The pieces of the notes can be told from the timing. -/
theorem hear_timing (l : List Ev) : ∀ (t : Nat) (s : Settings) (x y : List Tone), x.map (fun a => (a.last, a.stop)) = y.map (fun a => (a.last, a.stop)) →
    ((l.map Ev.timing).foldl hear (t, s, x)).2.2.map (fun a => (a.last, a.stop)) = (l.foldl hear (t, s, y)).2.2.map fun a => (a.last, a.stop) := by
  induction l with
  | nil => intro t s x y h; exact h
  | cons e l ih =>
    intro t s x y h
    cases e <;> simp only [List.map_cons, List.foldl_cons, Ev.timing]
    case tie d =>
      cases x with
      | nil =>
        cases y with
        | nil => exact ih _ _ _ _ rfl
        | cons b y => cases h
      | cons a x =>
        cases y with
        | nil => cases h
        | cons b y =>
          simp only [List.map_cons, List.cons.injEq] at h
          exact ih _ _ _ _ (by simp [h.2])
    all_goals exact ih _ _ _ _ (by simp [h])

theorem heardTones_timing (l : List Ev) : (heardTones (l.map Ev.timing)).map (fun a => (a.last, a.stop)) = (heardTones l).map fun a => (a.last, a.stop) := by
  unfold heardTones
  rw [List.map_reverse, List.map_reverse, hear_timing l 0 (none, none) [] [] rfl]

theorem hear_cmds (cs : List Command) (s : Settings) : ∃ s', ((cs.map fun c => Ev.cmd (encodeCmd Engine.noAddr c).1 (encodeCmd Engine.noAddr c).2).foldl hear (0, s, [])) = (0, s', []) := by
  induction cs generalizing s with
  | nil => exact ⟨s, rfl⟩
  | cons c cs ih => exact ih _

/-- The end of a note, in units, for an end in ticks: never early and less than one unit late. -/
def EndsAt (tpb : Nat) (exact : Prop) (x : Tone) (off : Nat) : Prop :=
  ∃ stop : Nat, (24 * off / tpb : ℚ) ≤ stop ∧ (stop : ℚ) < 24 * off / tpb + 1 ∧ x.last ≤ stop ∧ stop ≤ x.stop ∧ (exact → Rings x stop)

/-- The ends of the notes heard of a converted voice. -/
theorem channel_ends (evs : List TMsg) (tpb G T : Nat) (f : F32) (h24 : 24 ∣ tpb) (hp : 0 < tpb) (hp2 : tpb < 65536) (hG : G + 3525 ≤ exactTicks tpb)
    (hG2 : 24 * (G + 1) ≤ 32511 * tpb) (hT : T < 2 ^ 31) (hv : voiceOk tpb G T 0 0 none evs = true) (hpr : programsBetweenNotes false evs = true) (hno : noPortamento evs = true)
    (cs : List PCmd) (h : trackNew evs tpb T f = .ok cs) (pre : List Command) (l l' : List Ev)
    (hl : l = pre.map (fun c => Ev.cmd (encodeCmd Engine.noAddr c).1 (encodeCmd Engine.noAddr c).2) ++ intended Engine.noAddr cs 0 13 7)
    (htm : l'.map Ev.timing = l.map Ev.timing) (exact : Prop) (hex : exact → l' = l) :
    List.Forall₂ (EndsAt tpb exact) (heardTones l') ((midiNotes none evs).map MidiNote.off) := by
  obtain ⟨st, cs0, cs', g1, g2, g3, g4, g5, g6⟩ := trackNew_state evs tpb G T f hp hp2 hG hT hv
  rw [h] at g3
  injection g3 with g3
  subst g3
  have hnear := (g6 hG2 hpr).2 hno
  have hgr := grouped_finish tpb T st cs0 (grouped_loop tpb f evs {} st ⟨rfl, by simp⟩ hno trivial g1) g2
  have hr : List.Forall₂ (fun x y => Rings x y.stop) (heardTones l) (spans cs0) := by
    unfold heardTones spans
    rw [hl, List.foldl_append]
    obtain ⟨s', hs'⟩ := hear_cmds pre (none, none)
    rw [hs']
    exact List.forall₂_reverse_iff.2 (fused_rings g4 false 0 s' [] [] 0 13 7 hgr (fun c hc => (g5 c hc).dur) .nil (by simp))
  have hsame : (heardTones l').map (fun a => (a.last, a.stop)) = (heardTones l).map fun a => (a.last, a.stop) := by
    rw [← heardTones_timing, htm, heardTones_timing]
  have hslack : slack tpb = 0 := by unfold slack; rw [if_pos (by omega)]
  rw [hslack, Nat.zero_mul] at hnear
  have hpq : (0 : ℚ) < tpb := by exact_mod_cast hp
  have hex : exact → heardTones l' = heardTones l := fun h => by rw [hex h]
  generalize heardTones l = A at hr hsame hex
  generalize heardTones l' = A' at hsame hex
  generalize spans cs0 = S at hr hnear
  generalize midiNotes none evs = N at hnear
  induction hr generalizing A' N with
  | nil =>
    cases hnear
    cases A' with
    | nil => exact .nil
    | cons a A' => cases hsame
  | @cons a y A S hay _ ih =>
    cases hnear with
    | @cons _ n _ N hn hnear =>
      cases A' with
      | nil => cases hsame
      | cons a' A' =>
        simp only [List.map_cons, List.cons.injEq, Prod.mk.injEq] at hsame
        refine .cons ⟨y.stop, ?_, ?_, ?_, ?_, fun h => ?_⟩ (ih A' hsame.2 (fun h => (List.cons.inj (hex h)).2) N hnear)
        · have h1 := hn.stopEarly
          have q : (24 * n.off : ℚ) ≤ y.stop * tpb := by exact_mod_cast h1
          rw [div_le_iff₀ hpq]
          exact q
        · have h1 := hn.stopLate
          rw [Nat.add_zero] at h1
          have q : (y.stop * tpb : ℚ) < 24 * n.off + tpb := by exact_mod_cast h1
          have : (y.stop : ℚ) - 1 < 24 * n.off / tpb := by rw [lt_div_iff₀ hpq]; linarith
          linarith
        · rw [hsame.1.1]; exact hay.after
        · rw [hsame.1.2]; exact hay.before
        · rw [(List.cons.inj (hex h)).1]; exact hay

end M2S
