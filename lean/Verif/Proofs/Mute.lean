import Verif.Spec.Mute
import Verif.Props.Retime
import Verif.Proofs.ReadReportDeal
/-
The messages of a file with muted channels.
-/
namespace M2S
open MidiSpec

theorem noteOf_withDelta (d : Nat) (m : Message) : noteOf (withDelta d m) = noteOf m := by
  cases m with
  | midiEvent _ e => cases e <;> rfl
  | _ => rfl

theorem redelta_countP {l l' : List TMsg} (h : Redelta l l') (p : TMsg → Bool) (hp : ∀ m d, p (withDelta d m.1, m.2) = p m) : l'.countP p = l.countP p := by
  rw [List.countP_eq_length_filter, List.countP_eq_length_filter]
  exact (redelta_filter h p hp).length_eq.symm

theorem muted_redelta (on : Fin 16 → Bool) (calls : List Callback) : Redelta ((file calls).filter fun m => audible on m.1) (file (muted on calls)) :=
  (without_redelta (audible on) calls).1

theorem muted_readable (on : Fin 16 → Bool) (calls : List Callback) (hr : Readable calls) : Readable (muted on calls) := (without_redelta (audible on) calls).2 hr

theorem muted_base (on : Fin 16 → Bool) (calls : List Callback) : timeBase (muted on calls) = timeBase calls := timeBase_fileOf _ _

/-- Notes of a channel are audible if the channel is on. -/
theorem audible_note {on : Fin 16 → Bool} {m : Message} {c : Fin 16} (h : starts m = true ∨ ends m = true) (hc : home m = some c) : audible on m = on c := by
  have hs : isSystem m = false := by
    cases m <;> simp [starts, ends, isSystem] at h ⊢
  unfold audible
  rw [hs, hc]
  simp

/-- What is counted by note is the same for the notes of the channels that are on. -/
theorem muted_count (on : Fin 16 → Bool) (calls : List Callback) (p : TMsg → Bool) (hp : ∀ m d, p (withDelta d m.1, m.2) = p m)
    (hon : ∀ m, p m = true → audible on m.1 = true) : (file (muted on calls)).countP p = (file calls).countP p := by
  rw [redelta_countP (muted_redelta on calls) p hp, List.countP_filter]
  apply List.countP_congr
  intro m _
  simp only [Bool.and_eq_true]
  exact ⟨fun h => h.1, fun h => ⟨h, hon m h⟩⟩

/-- Messages of the file with muted channels are audible messages of the file, up to delta times; and the other way around. -/
theorem muted_mem {on : Fin 16 → Bool} {calls : List Callback} {m' : TMsg} (h : m' ∈ file (muted on calls)) :
    ∃ m ∈ file calls, audible on m.1 = true ∧ m'.2 = m.2 ∧ ∃ d, m'.1 = withDelta d m.1 := by
  obtain ⟨m, h1, h2, h3⟩ := (redelta_mem (muted_redelta on calls)).2 m' h
  obtain ⟨h1, h4⟩ := List.mem_filter.1 h1
  exact ⟨m, h1, h4, h2, h3⟩

theorem mem_muted {on : Fin 16 → Bool} {calls : List Callback} {m : TMsg} (h : m ∈ file calls) (ha : audible on m.1 = true) :
    ∃ m' ∈ file (muted on calls), m'.2 = m.2 ∧ ∃ d, m'.1 = withDelta d m.1 :=
  (redelta_mem (muted_redelta on calls)).1 m (List.mem_filter.2 ⟨h, ha⟩)

/-- Notes of a channel, counted. -/
theorem muted_channel (on : Fin 16 → Bool) (calls : List Callback) (c : Fin 16) (p : TMsg → Bool) (hp : ∀ m d, p (withDelta d m.1, m.2) = p m)
    (hn : ∀ m, p m = true → starts m.1 = true ∨ ends m.1 = true) :
    (ofChannel (file (muted on calls)) c).countP p = if on c then (ofChannel (file calls) c).countP p else 0 := by
  unfold ofChannel
  rw [List.countP_filter, List.countP_filter]
  split_ifs with hc
  · refine muted_count on calls _ ?_ ?_
    · intro m d
      rw [hp, home_withDelta]
    · intro m h
      simp only [Bool.and_eq_true, decide_eq_true_eq] at h
      rw [audible_note (hn m h.1) h.2, hc]
  · rw [List.countP_eq_zero]
    intro m' hm' h
    simp only [Bool.and_eq_true, decide_eq_true_eq] at h
    obtain ⟨m, -, ha, -, d, e⟩ := muted_mem hm'
    have := hn m' h.1
    rw [e, starts_withDelta, ends_withDelta] at this
    rw [e, home_withDelta] at h
    rw [audible_note this h.2] at ha
    exact hc ha

theorem muted_startsBy (on : Fin 16 → Bool) (calls : List Callback) (c : Fin 16) (t : Nat) :
    startsBy (ofChannel (file (muted on calls)) c) t = if on c then startsBy (ofChannel (file calls) c) t else 0 :=
  muted_channel on calls c _ (fun m d => by simp only [starts_withDelta]) fun m h => by simp only [Bool.and_eq_true] at h; exact .inl h.1

theorem muted_endsBy (on : Fin 16 → Bool) (calls : List Callback) (c : Fin 16) (t : Nat) :
    endsBy (ofChannel (file (muted on calls)) c) t = if on c then endsBy (ofChannel (file calls) c) t else 0 :=
  muted_channel on calls c _ (fun m d => by simp only [ends_withDelta]) fun m h => by simp only [Bool.and_eq_true] at h; exact .inr h.1

theorem muted_stray {on : Fin 16 → Bool} {calls : List Callback} (h : StrayEnd (file (muted on calls))) : StrayEnd (file calls) := by
  obtain ⟨c, t, h⟩ := h
  refine ⟨c, t, ?_⟩
  rw [muted_endsBy, muted_channel on calls c _ (fun m d => by simp only [starts_withDelta]) (fun m h => by simp only [Bool.and_eq_true] at h; exact .inl h.1)] at h
  split_ifs at h
  · exact h
  · omega

theorem muted_sounding (on : Fin 16 → Bool) (calls : List Callback) (c : Fin 16) (t : Nat) :
    sounding (ofChannel (file (muted on calls)) c) t = if on c then sounding (ofChannel (file calls) c) t else 0 := by
  unfold sounding
  rw [muted_startsBy, muted_endsBy]
  split_ifs <;> rfl

theorem muted_soundsOn (on : Fin 16 → Bool) (calls : List Callback) (c : Fin 16) (t : Nat) :
    SoundsOn (file (muted on calls)) c t ↔ on c = true ∧ SoundsOn (file calls) c t := by
  unfold SoundsOn
  rw [muted_sounding]
  constructor
  · rintro ⟨h1, m', hm', h2, h3⟩
    obtain ⟨hm', hc⟩ := List.mem_filter.1 hm'
    split_ifs at h1 with hon
    · obtain ⟨m, g1, -, g2, d, g3⟩ := muted_mem hm'
      rw [g3, home_withDelta] at hc
      rw [g3, starts_withDelta, ends_withDelta] at h2
      exact ⟨hon, h1, m, List.mem_filter.2 ⟨g1, hc⟩, h2, by rw [← g2]; exact h3⟩
    · omega
  · rintro ⟨hon, h1, m, hm, h2, h3⟩
    obtain ⟨hm, hc⟩ := List.mem_filter.1 hm
    rw [if_pos hon]
    refine ⟨h1, ?_⟩
    obtain ⟨m', g1, g2, d, g3⟩ := mem_muted (on := on) hm (by
      rw [audible_note (by simpa using h2) (by simpa using hc), hon])
    exact ⟨m', List.mem_filter.2 ⟨g1, by rw [g3, home_withDelta]; exact hc⟩, by rw [g3, starts_withDelta, ends_withDelta]; exact h2, by rw [g2]; exact h3⟩

theorem muted_separates {on : Fin 16 → Bool} {calls : List Callback} {f : Fin 16 → Fin 8} (h : Separates (file calls) f) : Separates (file (muted on calls)) f := by
  intro c c' hne he t
  rw [muted_soundsOn, muted_soundsOn]
  rintro ⟨⟨-, h1⟩, -, h2⟩
  exact h c c' hne he t ⟨h1, h2⟩

theorem muted_paired {on : Fin 16 → Bool} {calls : List Callback} (h : Paired (file calls)) : Paired (file (muted on calls)) := by
  constructor
  · intro e' he' hends
    obtain ⟨e, h1, ha, h2, d, h3⟩ := muted_mem he'
    rw [h3, ends_withDelta] at hends
    obtain ⟨c, n, hn⟩ := note_some (.inr hends)
    have hon : on c = true := by rw [← ha]; exact (audible_note (.inr hends) (home_note hn)).symm
    have key : ∀ m : TMsg, (starts m.1 = true ∨ ends m.1 = true) → noteOf m.1 = noteOf e.1 → audible on m.1 = true := by
      intro m hm hne
      rw [audible_note hm (home_note (hne.trans hn)), hon]
    rw [h3, h2]
    simp only [noteOf_withDelta]
    rw [muted_count on calls _ (fun m d => by simp only [ends_withDelta, noteOf_withDelta]) (fun m hm => by
        simp only [Bool.and_eq_true, decide_eq_true_eq] at hm; exact key m (.inr hm.1.1) hm.1.2),
      muted_count on calls _ (fun m d => by simp only [starts_withDelta, noteOf_withDelta]) (fun m hm => by
        simp only [Bool.and_eq_true, decide_eq_true_eq] at hm; exact key m (.inl hm.1.1) hm.1.2)]
    exact h.ended e h1 hends
  · intro a' ha' hst
    obtain ⟨a, h1, hau, h2, d, h3⟩ := muted_mem ha'
    rw [h3, starts_withDelta] at hst
    obtain ⟨e, g1, g2, g3, g4⟩ := h.closed a h1 hst
    obtain ⟨c, n, hn⟩ := note_some (.inl hst)
    obtain ⟨e', k1, k2, d', k3⟩ := mem_muted (on := on) g1 (by
      rw [audible_note (.inr g2) (home_note (g3.trans hn)), ← hau]; exact (audible_note (.inl hst) (home_note hn)).symm)
    exact ⟨e', k1, by rw [k3, ends_withDelta]; exact g2, by rw [k3, h3, noteOf_withDelta, noteOf_withDelta]; exact g3, by rw [k2, h2]; exact g4⟩

theorem muted_endedBy {on : Fin 16 → Bool} {calls : List Callback} {a a' : TMsg} (hst : starts a.1 = true) (hau : audible on a.1 = true) (h2 : a'.2 = a.2)
    (h3 : ∃ d, a'.1 = withDelta d a.1) (t : Nat) : EndedBy (file (muted on calls)) a' t ↔ EndedBy (file calls) a t := by
  obtain ⟨d, h3⟩ := h3
  obtain ⟨c, n, hn⟩ := note_some (.inl hst)
  constructor
  · rintro ⟨e', g1, g2, g3, g4, g5⟩
    obtain ⟨e, k1, -, k2, d', k3⟩ := muted_mem g1
    rw [k3, h3, noteOf_withDelta, noteOf_withDelta] at g3
    rw [k3, ends_withDelta] at g2
    exact ⟨e, k1, g2, g3, by omega, by omega⟩
  · rintro ⟨e, g1, g2, g3, g4, g5⟩
    obtain ⟨e', k1, k2, d', k3⟩ := mem_muted (on := on) g1 (by
      rw [audible_note (.inr g2) (home_note (g3.trans hn)), ← hau]; exact (audible_note (.inl hst) (home_note hn)).symm)
    exact ⟨e', k1, by rw [k3, ends_withDelta]; exact g2, by rw [k3, h3, noteOf_withDelta, noteOf_withDelta]; exact g3, by omega, by omega⟩

theorem muted_held {on : Fin 16 → Bool} {calls : List Callback} {t : Nat} {x : Fin 16 × UInt8} (h : x ∈ heldAt (file (muted on calls)) t) : x ∈ heldAt (file calls) t := by
  obtain ⟨a', h1, h2, h3, h4, h5⟩ := (mem_heldAt _ t x).1 h
  obtain ⟨a, g1, g2, g3, d, g4⟩ := muted_mem h1
  rw [g4, starts_withDelta] at h2
  rw [g4, noteOf_withDelta] at h3
  exact (mem_heldAt _ t x).2 ⟨a, g1, h2, h3, by omega, fun h => h5 ((muted_endedBy h2 g2 g3 ⟨d, g4⟩ t).2 h)⟩

theorem heldAt_nodup (l : List TMsg) (t : Nat) : (heldAt l t).Nodup := List.nodup_dedup _

theorem muted_chords {on : Fin 16 → Bool} {calls : List Callback} {c : Fin 16} (h : Chords (file (muted on calls)) c) : Chords (file calls) c := by
  obtain ⟨a', h1, h2, h3⟩ := h
  obtain ⟨a, g1, g2, g3, d, g4⟩ := muted_mem h1
  rw [g4, starts_withDelta] at h2
  refine ⟨a, g1, h2, le_trans h3 ?_⟩
  rw [g3]
  refine (List.Nodup.subperm ((heldAt_nodup _ _).filter _) ?_).length_le
  intro x hx
  obtain ⟨hx, hc⟩ := List.mem_filter.1 hx
  exact List.mem_filter.2 ⟨muted_held hx, hc⟩

theorem muted_playing {on : Fin 16 → Bool} {calls : List Callback} : (playing (file (muted on calls))).length ≤ (playing (file calls)).length := by
  refine List.Sublist.length_le (List.monotone_filter_right _ ?_)
  intro c hc
  simp only [decide_eq_true_eq] at hc ⊢
  obtain ⟨a', h1, h2, h3⟩ := hc
  obtain ⟨a, g1, g2, g3, d, g4⟩ := muted_mem h1
  rw [g4, starts_withDelta] at h2
  rw [g4, home_withDelta] at h3
  exact ⟨a, g1, h2, h3⟩

theorem muted_few {on : Fin 16 → Bool} {calls : List Callback} (h : FewVoices (file calls)) : FewVoices (file (muted on calls)) := by
  refine ⟨le_trans muted_playing h.1, ?_⟩
  intro a' h1 h2
  obtain ⟨a, g1, g2, g3, d, g4⟩ := muted_mem h1
  rw [g4, starts_withDelta] at h2
  have := h.2 a g1 h2
  have h3 : ((heldAt (file (muted on calls)) a'.2).filter fun x => Chords (file (muted on calls)) x.1).length ≤ ((heldAt (file calls) a.2).filter fun x => Chords (file calls) x.1).length := by
    rw [g3]
    refine (List.Nodup.subperm ((heldAt_nodup _ _).filter _) ?_).length_le
    intro x hx
    obtain ⟨hx, hc⟩ := List.mem_filter.1 hx
    refine List.mem_filter.2 ⟨muted_held hx, ?_⟩
    simp only [decide_eq_true_eq] at hc ⊢
    exact muted_chords hc
  have := muted_playing (on := on) (calls := calls)
  omega

/-! ## The notes in processing order -/

/-- A note message of a channel that is on. -/
def soundOf (on : Fin 16 → Bool) (m : TMsg) : Bool := (starts m.1 || ends m.1) && (home m.1).any on

theorem soundOf_bare (on : Fin 16 → Bool) (m : TMsg) (d : Nat) : soundOf on (withDelta d m.1, m.2) = soundOf on m := by
  unfold soundOf
  rw [starts_withDelta, ends_withDelta, home_withDelta]

theorem place_withDelta (m : TMsg) (d : Nat) : place (withDelta d m.1, m.2) = place m := by
  unfold place homeNo
  rw [rank_withDelta, home_withDelta]

/-- The note messages of the channels that are on come in the same order as in the whole file. -/
theorem muted_merged (on : Fin 16 → Bool) (calls : List Callback) (sa sb : List (Fin 16 × TMsg))
    (ha : ∀ c, (sa.filter fun p => p.1 = c).map (·.2) = sortMessages (ofChannel (file calls) c)) (ha' : sa.Pairwise MergeOrder)
    (hb : ∀ c, (sb.filter fun p => p.1 = c).map (·.2) = sortMessages (ofChannel (file (muted on calls)) c)) (hb' : sb.Pairwise MergeOrder) :
    ((sa.map (·.2)).filter (soundOf on)).map (bare id) = ((sb.map (·.2)).filter (soundOf on)).map (bare id) := by
  have mem : ∀ (x : List Callback) (s : List (Fin 16 × TMsg)), (∀ c, (s.filter fun p => p.1 = c).map (·.2) = sortMessages (ofChannel (file x) c)) →
      ∀ p ∈ s, homeNo p.2.1 = p.1.val + 1 := by
    intro x s h p hp
    have : p.2 ∈ sortMessages (ofChannel (file x) p.1) := by
      rw [← h p.1]
      exact List.mem_map.2 ⟨p, List.mem_filter.2 ⟨hp, by simp⟩, rfl⟩
    have h1 : home p.2.1 = some p.1 := by simpa [ofChannel] using List.of_mem_filter ((sort_perm _).mem_iff.1 this)
    unfold homeNo
    rw [h1]
  have sorted : ∀ (x : List Callback) (s : List (Fin 16 × TMsg)), (∀ c, (s.filter fun p => p.1 = c).map (·.2) = sortMessages (ofChannel (file x) c)) → s.Pairwise MergeOrder →
      (((s.map (·.2)).filter (soundOf on)).map (bare id)).Pairwise fun m m' => place m ≤ place m' := by
    intro x s h hp
    rw [List.pairwise_map]
    refine List.Pairwise.filter _ ?_
    rw [List.pairwise_map]
    refine hp.imp_of_mem ?_
    intro p q hp hq hpq
    have h1 := mem x s h p hp
    have h2 := mem x s h q hq
    show place (withDelta 0 p.2.1, p.2.2) ≤ place (withDelta 0 q.2.1, q.2.2)
    rw [place_withDelta, place_withDelta]
    unfold place
    rw [h1, h2]
    simp only [Prod.Lex.toLex_le_toLex]
    rcases hpq with h | ⟨h, h' | ⟨h', h''⟩⟩
    · exact .inl h
    · exact .inr ⟨h, .inl h'⟩
    · exact .inr ⟨h, .inr ⟨h', by have : p.1.val ≤ q.1.val := h''; omega⟩⟩
  have cls : ∀ (x : List Callback) (s : List (Fin 16 × TMsg)), (∀ c, (s.filter fun p => p.1 = c).map (·.2) = sortMessages (ofChannel (file x) c)) →
      ∀ t r, (∀ c : Fin 16, (((s.map (·.2)).filter (soundOf on)).map (bare id)).filter (fun m => place m = toLex (t, toLex (r, c.val + 1))) =
        (((ofChannel (file x) c).filter fun m => m.2 = t ∧ rank m.1 = r).filter (soundOf on)).map (bare id)) ∧
        ∀ n, (∀ c : Fin 16, n ≠ c.val + 1) → (((s.map (·.2)).filter (soundOf on)).map (bare id)).filter (fun m => place m = toLex (t, toLex (r, n))) = [] := by
    intro x s h t r
    have hn := mem x s h
    have hpl : ∀ m : TMsg, place (bare id m) = place m := fun m => place_withDelta m 0
    refine ⟨fun c => ?_, fun n hne => ?_⟩
    · rw [List.filter_map, ← sort_stable, ← h c]
      congr 1
      rw [List.filter_map, List.filter_map, List.filter_map, List.filter_map, List.filter_filter, List.filter_filter, List.filter_filter]
      congr 1
      apply List.filter_congr
      intro p hp
      simp only [Function.comp, hpl]
      have : decide (place p.2 = toLex (t, toLex (r, c.val + 1))) = (decide (p.2.2 = t ∧ rank p.2.1 = r) && decide (p.1 = c)) := by
        rw [← Bool.decide_and, decide_eq_decide, place_eq, hn p hp, and_assoc, Fin.ext_iff]
        omega
      rw [this]
      cases soundOf on p.2 <;> simp
    · rw [List.filter_eq_nil_iff]
      intro e he
      obtain ⟨m, hm, rfl⟩ := List.mem_map.1 he
      obtain ⟨p, hp, rfl⟩ := List.mem_map.1 (List.mem_of_mem_filter hm)
      rw [decide_eq_true_eq, hpl, place_eq, hn p hp]
      rintro ⟨-, -, h3⟩
      exact hne p.1 h3.symm
  refine sorted_classes place _ _ (sorted calls sa ha ha') (sorted _ sb hb hb') fun x => ?_
  obtain ⟨t, y, rfl⟩ : ∃ t y, x = toLex (t, y) := ⟨(ofLex x).1, (ofLex x).2, rfl⟩
  obtain ⟨r, c, rfl⟩ : ∃ r c, y = toLex (r, c) := ⟨(ofLex y).1, (ofLex y).2, rfl⟩
  by_cases hc : ∃ d : Fin 16, c = d.val + 1
  · obtain ⟨d, rfl⟩ := hc
    rw [(cls calls sa ha t r).1 d, (cls _ sb hb t r).1 d]
    have e : ((ofChannel (file calls) d).filter fun m => m.2 = t ∧ rank m.1 = r).filter (soundOf on) =
        ((file calls).filter fun m => audible on m.1).filter fun m => decide (home m.1 = some d) && decide (m.2 = t ∧ rank m.1 = r) && soundOf on m := by
      unfold ofChannel
      rw [List.filter_filter, List.filter_filter, List.filter_filter]
      apply List.filter_congr
      intro m _
      have : soundOf on m = true → audible on m.1 = true := by
        intro h
        unfold soundOf at h
        unfold audible
        simp only [Bool.and_eq_true] at h
        rw [h.2, Bool.or_true]
      cases h1 : soundOf on m
      · simp
      · rw [this h1]
        simp [Bool.and_comm]
    have e2 : ((ofChannel (file (muted on calls)) d).filter fun m => m.2 = t ∧ rank m.1 = r).filter (soundOf on) =
        (file (muted on calls)).filter fun m => decide (home m.1 = some d) && decide (m.2 = t ∧ rank m.1 = r) && soundOf on m := by
      unfold ofChannel
      rw [List.filter_filter, List.filter_filter]
      apply List.filter_congr
      intro m _
      cases soundOf on m <;> simp [Bool.and_comm]
    rw [e, e2]
    refine (redelta_bare (redelta_filter (muted_redelta on calls) _ ?_)).symm
    intro m d
    simp only [home_withDelta, rank_withDelta, soundOf_bare]
  · have hc : ∀ d : Fin 16, c ≠ d.val + 1 := fun d hd => hc ⟨d, hd⟩
    rw [(cls calls sa ha t r).2 c hc, (cls _ sb hb t r).2 c hc]

/-! ## Dealing out the notes -/

/-- The note `x` has been started and not ended since. -/
def Pending (done : List TMsg) (x : Fin 16 × UInt8) : Prop :=
  ∃ pre a post, done = pre ++ a :: post ∧ starts a.1 = true ∧ noteOf a.1 = some x ∧ ∀ e ∈ post, ends e.1 = true → noteOf e.1 ≠ some x

theorem pending_filter {p : TMsg → Bool} {x : Fin 16 × UInt8} (hp : ∀ m : TMsg, (starts m.1 = true ∨ ends m.1 = true) → noteOf m.1 = some x → p m = true) (l : List TMsg) :
    Pending (l.filter p) x ↔ Pending l x := by
  constructor
  · rintro ⟨pre, a, post, h1, h2, h3, h4⟩
    rw [List.filter_eq_append_iff] at h1
    obtain ⟨l1, l2, rfl, -, h1⟩ := h1
    rw [List.filter_eq_cons_iff] at h1
    obtain ⟨l3, l4, rfl, -, -, h6⟩ := h1
    refine ⟨l1 ++ l3, a, l4, by simp, h2, h3, ?_⟩
    intro e he hends hn
    refine h4 e ?_ hends hn
    rw [← h6]
    exact List.mem_filter.2 ⟨he, hp e (.inr hends) hn⟩
  · rintro ⟨pre, a, post, rfl, h2, h3, h4⟩
    refine ⟨pre.filter p, a, post.filter p, ?_, h2, h3, fun e he => h4 e (List.mem_of_mem_filter he)⟩
    rw [List.filter_append, List.filter_cons_of_pos (hp a (.inl h2) h3)]

theorem pending_bare {x : Fin 16 × UInt8} (l : List TMsg) : Pending (l.map (bare id)) x ↔ Pending l x := by
  constructor
  · rintro ⟨pre, a, post, h1, h2, h3, h4⟩
    rw [List.map_eq_append_iff] at h1
    obtain ⟨l1, l2, rfl, -, h1⟩ := h1
    rw [List.map_eq_cons_iff] at h1
    obtain ⟨a', l3, rfl, rfl, rfl⟩ := h1
    refine ⟨l1, a', l3, rfl, ?_, ?_, ?_⟩
    · simpa [bare, starts_withDelta] using h2
    · simpa [bare, noteOf_withDelta] using h3
    · intro e he hends
      have := h4 (bare id e) (List.mem_map_of_mem he) (by simpa [bare, ends_withDelta] using hends)
      simpa [bare, noteOf_withDelta] using this
  · rintro ⟨pre, a, post, rfl, h2, h3, h4⟩
    refine ⟨pre.map (bare id), bare id a, post.map (bare id), by simp, ?_, ?_, ?_⟩
    · simpa [bare, starts_withDelta] using h2
    · simpa [bare, noteOf_withDelta] using h3
    · intro e he
      obtain ⟨e', he', rfl⟩ := List.mem_map.1 he
      intro hends
      have := h4 e' he' (by simpa [bare, ends_withDelta] using hends)
      simpa [bare, noteOf_withDelta] using this

/-- As long as dealing succeeds, at most eight notes are pending. -/
theorem pending_eight (ord : EnumOrder) (base : Fin 16 → Fin 8) (seq done rest : List TMsg) (r : List (Fin 8 × TMsg) × Ctl) (he : emits ord base (ctl0 base) seq = some r)
    (hs : seq = done ++ rest) (xs : List (Fin 16 × UInt8)) (hd : xs.Nodup) (hx : ∀ x ∈ xs, Pending done x) : xs.length ≤ 8 := by
  obtain ⟨os, k, hk⟩ : ∃ os k, emits ord base (ctl0 base) done = some (os, k) := by
    rw [hs] at he
    clear hs hx
    revert r
    generalize ctl0 base = k0
    induction done generalizing k0 with
    | nil => intro r he; exact ⟨[], k0, rfl⟩
    | cons m ms ih =>
      intro r he
      obtain ⟨m, t⟩ := m
      rw [List.cons_append, emits] at he
      cases h1 : emit ord base k0 m with
      | none => rw [h1] at he; cases he
      | some y =>
        obtain ⟨o, k1⟩ := y
        rw [h1] at he
        simp only at he
        cases h2 : emits ord base k1 (ms ++ rest) with
        | none => rw [h2] at he; cases he
        | some z =>
          obtain ⟨os, k, hk⟩ := ih k1 z h2
          exact ⟨_, k, by rw [emits, h1]; simp only; rw [hk]⟩
  have hinv := emits_nil_induct ord base (fun done outs k => Held outs k ∧ Kept done k)
    (fun done outs k m t o k' h he => ⟨held_step ord base outs k m t o k' h.1 he, keep_step ord base done k m t o k' h.2 he⟩) done (ctl0 base) k os
    ⟨held_init base, by
      intro pre a post c n e
      simp at e⟩ hk
  obtain ⟨hheld, hkept⟩ := hinv
  have hv : ∀ x : Fin 16 × UInt8, ∃ v : Fin 8, x ∈ xs → (x.2, v) ∈ k.active x.1 := by
    intro x
    by_cases h : x ∈ xs
    · obtain ⟨pre, a, post, h1, h2, h3, h4⟩ := hx x h
      obtain ⟨v, hv⟩ := hkept pre a post x.1 x.2 h1 h2 h3 h4
      exact ⟨v, fun _ => hv⟩
    · exact ⟨0, fun h' => absurd h' h⟩
  choose v hv using hv
  have hnd : (xs.map v).Nodup := by
    rw [List.nodup_map_iff_inj_on hd]
    intro x h y h' e
    obtain ⟨h1, h2⟩ := hheld.uniq x.1 y.1 _ _ (hv x h) (hv y h') e
    simp only [Prod.mk.injEq] at h2
    exact Prod.ext h1 h2.1
  have := (List.Nodup.subperm hnd (l₂ := List.finRange 8) fun w _ => List.mem_finRange w).length_le
  simpa using this

/-- If all channels have the same base voice, dealing fails only if nine notes are pending. -/
theorem deal_one (ord : EnumOrder) (seq : List TMsg) (hno : ∀ done rest, seq = done ++ rest → ∀ xs : List (Fin 16 × UInt8), xs.Nodup → (∀ x ∈ xs, Pending done x) → xs.length ≤ 8) :
    ∃ r, emits ord (fun _ => 0) (ctl0 fun _ => 0) seq = some r := by
  suffices H : ∀ rest done outs k, seq = done ++ rest → Held outs k → Since done k → ∃ r, emits ord (fun _ => 0) k rest = some r from
    H seq [] [] _ rfl (held_init _) ⟨by simp [ctl0]⟩
  intro rest
  induction rest with
  | nil => intro done outs k _ _ _; exact ⟨_, rfl⟩
  | cons m rest ih =>
    intro done outs k hs hheld hsince
    obtain ⟨m, t⟩ := m
    cases he : emit ord (fun _ => 0) k m with
    | some r =>
      obtain ⟨o, k'⟩ := r
      obtain ⟨r, hr⟩ := ih (done ++ [(m, t)]) _ k' (by rw [hs]; simp) (held_step ord _ outs k m t o k' hheld he) (since_step ord _ done k m t o k' hsince he)
      obtain ⟨os, k2⟩ := r
      exact ⟨(o.map (fun p => (p.1, (p.2, t))) ++ os, k2), by simp only [emits, he, hr]⟩
    | none =>
      exfalso
      obtain ⟨ch, n, h1, h2, h3⟩ := emit_none ord _ k m he
      unfold chooseVoice at h3
      have hbusy : ∀ v : Fin 8, voiceBusy (ctlClose k ch n).active v = true := by
        split_ifs at h3 with hb
        rw [List.find?_eq_none] at h3
        intro v
        by_cases hv : v = 0
        · rw [hv]; exact hb
        · have := h3 v (List.mem_finRange v)
          by_contra hvb
          apply this
          simp only [Bool.and_eq_true, Bool.not_eq_true']
          refine ⟨?_, by simpa using hvb⟩
          rw [List.any_eq_false]
          intro c _
          simpa using fun h => hv h.symm
      have hk : ∀ v : Fin 8, ∃ x : Fin 16 × UInt8, (x.2, v) ∈ (ctlClose k ch n).active x.1 := fun v => by
        obtain ⟨c, x, hx⟩ := (voiceBusy_iff _ _).1 (hbusy v)
        exact ⟨(c, x), hx⟩
      choose x hx using hk
      have hx' := fun v => close_active k ch n _ _ v (hx v)
      have hinj : Function.Injective x := by
        intro v w e
        have h1 := (hx' v).1
        have h2 := (hx' w).1
        rw [e] at h1
        have := hheld.keys _ _ _ h1 h2 rfl
        simp only [Prod.mk.injEq, true_and] at this
        exact this
      have := hno (done ++ [(m, t)]) rest (by rw [hs]; simp) ((ch, n) :: (List.finRange 8).map x) (by
        rw [List.nodup_cons]
        refine ⟨?_, (List.nodup_map_iff hinj).2 (List.nodup_finRange 8)⟩
        intro hm
        obtain ⟨v, -, e⟩ := List.mem_map.1 hm
        exact (hx' v).2 e) (by
        intro y hy
        rcases List.mem_cons.1 hy with rfl | hy
        · exact ⟨done, (m, t), [], rfl, h1, h2, by simp⟩
        · obtain ⟨v, -, rfl⟩ := List.mem_map.1 hy
          obtain ⟨pre, a, post, rfl, e2, e3, e4⟩ := hsince.since _ _ _ (hx' v).1
          refine ⟨pre, a, post ++ [(m, t)], by simp, e2, e3, ?_⟩
          intro e he' hends
          rcases List.mem_append.1 he' with he' | he'
          · exact e4 e he' hends
          · simp only [List.mem_singleton] at he'
            subst he'
            exfalso
            revert hends h1
            cases m with
            | midiEvent d e => cases e <;> simp [starts, ends]
            | _ => simp [starts])
      simp at this

end M2S
