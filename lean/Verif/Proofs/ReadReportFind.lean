import Verif.Proofs.ReadReport
/-
The messages of the search for base voices are true.
-/
namespace M2S
open MidiSpec

/-- Each line is right given the lines before it. -/
def AllGood (P : List ReadLine → ReadLine → Prop) : List ReadLine → List ReadLine → Prop
  | _, [] => True
  | pre, x :: ls => P pre x ∧ AllGood P (pre ++ [x]) ls

theorem good_append (P : List ReadLine → ReadLine → Prop) (a b : List ReadLine) : ∀ pre, AllGood P pre (a ++ b) ↔ AllGood P pre a ∧ AllGood P (pre ++ a) b := by
  induction a with
  | nil => intro pre; simp [AllGood]
  | cons x a ih =>
    intro pre
    rw [List.cons_append]
    simp only [AllGood]
    rw [ih, List.append_assoc, and_assoc]
    rfl

theorem good_all (P : List ReadLine → ReadLine → Prop) : ∀ (ls pre : List ReadLine), AllGood P pre ls → ∀ a x b, ls = a ++ x :: b → P (pre ++ a) x := by
  intro ls pre h a x b e
  subst e
  exact ((good_append P a (x :: b) pre).1 h).2.1

/-! Reading the log. -/

theorem placed_append (a b : List ReadLine) (c : Fin 16) : placed (a ++ b) c = (placed b c).or (placed a c) := by
  unfold placed
  rw [List.filterMap_append, List.getLast?_append]

theorem placed_none (a : List ReadLine) (c : Fin 16) (h : ∀ x ∈ a, triesFor c x = none) : placed a c = none := by
  unfold placed
  rw [List.filterMap_eq_nil_iff.2 h]
  rfl

theorem placed_skip (a b : List ReadLine) (c : Fin 16) (h : ∀ x ∈ b, triesFor c x = none) : placed (a ++ b) c = placed a c := by
  rw [placed_append, placed_none b c h]; rfl

/-- A line of the search for the channels from `k` on. -/
def Later (k : Nat) : ReadLine → Prop
  | .find c => k ≤ c.val
  | .trying c _ => k ≤ c.val
  | .overlaps _ _ => True
  | .candidates _ => True
  | _ => False

theorem later_mono {k j : Nat} (h : k ≤ j) {x : ReadLine} (hx : Later j x) : Later k x := by
  cases x <;> simp only [Later] at hx ⊢ <;> omega

theorem later_tries {k : Nat} {x : ReadLine} (hx : Later k x) (c : Fin 16) (hc : c.val < k) : triesFor c x = none := by
  cases x with
  | trying c' v =>
    simp only [Later] at hx
    simp only [triesFor]
    rw [if_neg]
    rintro rfl
    omega
  | _ => rfl

theorem later_find {k : Nat} {x : ReadLine} (hx : Later k x) (c : Fin 16) (hc : c.val < k) : x ≠ .find c := by
  rintro rfl
  simp only [Later] at hx
  omega

theorem since_find (pre rest : List ReadLine) (c : Fin 16) (h : ∀ x ∈ rest, x ≠ .find c) : sinceFind (pre ++ .find c :: rest) c = rest := by
  unfold sinceFind
  rw [List.reverse_append, List.reverse_cons, List.append_assoc, List.takeWhile_append_of_pos]
  · simp
  · intro x hx
    simpa using h x (List.mem_reverse.1 hx)

theorem looking_find (pre rest : List ReadLine) (c : Fin 16) (h : ∀ x ∈ rest, ∀ c', x ≠ .find c') : lookingFor (pre ++ .find c :: rest) = some c := by
  unfold lookingFor
  rw [List.filterMap_append, List.getLast?_append, List.filterMap_cons]
  have : rest.filterMap findsFor = [] := by
    rw [List.filterMap_eq_nil_iff]
    intro x hx
    cases x with
    | find c' => exact absurd rfl (h _ hx c')
    | _ => rfl
  rw [this]
  rfl

/-! The intervals and the file. -/

/-- The interval lists describe the channels of the file. -/
structure ScanFacts (l : List TMsg) (ivs : Fin 16 → List VoiceInterval) : Prop where
  chan : ∀ c, ∀ i ∈ ivs c, i.channel = c
  pos : ∀ c, ∀ i ∈ ivs c, i.start < i.stop
  voices : ∀ c, ∀ i ∈ ivs c, ∀ t, i.start ≤ t → t < i.stop → sounding (ofChannel l c) t = i.voices
  sounds : ∀ c t, SoundsAt (ivs c) t ↔ SoundsOn l c t
  empty : ∀ c, ivs c = [] ↔ ∀ m ∈ ofChannel l c, (starts m.1 || ends m.1) = true → m.2 = 0

theorem scan_facts (l : List TMsg) (ivs : Fin 16 → List VoiceInterval) (mt : Nat) (hs : scanChannels (fun c => sortMessages (ofChannel l c)) 0 = .ok (ivs, mt)) :
    ScanFacts l ivs := by
  obtain ⟨k1, -⟩ := scanChannels_ok _ (fun c => before_time (sort_pairwise _)) 0 ivs mt hs
  have hv : ∀ c, ∀ i ∈ ivs c, ∀ t, i.start ≤ t → t < i.stop → sounding (ofChannel l c) t = i.voices := by
    intro c i hi t h1 h2
    obtain ⟨m1, st, e, sc⟩ := k1 c
    have := sc.voices i (by rw [e]; exact hi) t h1 h2
    rw [startsBy_perm (sort_perm _), endsBy_perm (sort_perm _)] at this
    unfold sounding
    omega
  refine ⟨?_, ?_, hv, ?_, ?_⟩
  · intro c i hi
    obtain ⟨m1, st, e, sc⟩ := k1 c
    exact sc.chan i (by rw [e]; exact hi)
  · intro c i hi
    obtain ⟨m1, st, e, sc⟩ := k1 c
    exact ((chain_le _ _ _ sc.chain).2 i (by rw [e]; exact hi)).1
  · intro c t
    obtain ⟨m1, st, e, sc⟩ := k1 c
    constructor
    · rintro ⟨i, hi, h1, h2, h3⟩
      have hle := ((chain_le _ _ _ sc.chain).2 i (by rw [e]; exact hi)).2
      refine ⟨by rw [hv c i hi t h1 h2]; omega, ?_⟩
      rcases sc.last with h | ⟨m, hm, g1, g2⟩
      · omega
      · exact ⟨m, (sort_perm _).mem_iff.1 hm, g1, by omega⟩
    · rintro ⟨h1, m, hm, h2, h3⟩
      have hb := sc.before m ((sort_perm _).mem_iff.2 hm) h2
      obtain ⟨i, hi, g1, g2⟩ := chain_cover _ _ _ t sc.chain (Nat.zero_le _) (by omega)
      rw [e] at hi
      refine ⟨i, hi, g1, g2, ?_⟩
      rw [hv c i hi t g1 g2] at h1
      omega
  · intro c
    obtain ⟨m1, st, e, sc⟩ := k1 c
    constructor
    · intro h m hm hn
      have hb := sc.before m ((sort_perm _).mem_iff.2 hm) hn
      have := sc.chain
      rw [e, h] at this
      simp only [Chain] at this
      omega
    · intro h
      cases hi : ivs c with
      | nil => rfl
      | cons i is =>
        exfalso
        have hp := (chain_le _ _ _ sc.chain).2 i (by rw [e, hi]; simp)
        rcases sc.last with h' | ⟨m, hm, g1, g2⟩
        · omega
        · have := h m ((sort_perm _).mem_iff.1 hm) g1
          omega

/-- The intervals held against channel number `k` are those of the earlier channels, on the voices they are on. -/
def Held16 (ivs : Fin 16 → List VoiceInterval) (pre : List ReadLine) (k : Nat) (active : ActiveIntervals) : Prop :=
  ∀ v i, i ∈ active v ↔ ∃ c' : Fin 16, c'.val < k ∧ placed pre c' = some v ∧ i ∈ ivs c'

theorem clash_share {l : List TMsg} {ivs : Fin 16 → List VoiceInterval} (hf : ScanFacts l ivs) (pre : List ReadLine) (c : Fin 16) (active : ActiveIntervals)
    (ha : Held16 ivs pre c.val active) (v : Fin 8) : NoClash (ivs c) (active v) ↔ CanShare l pre c v := by
  rw [noClash_iff _ _ (hf.pos c) (by
    intro i hi
    obtain ⟨c', -, -, h⟩ := (ha v i).1 hi
    exact hf.pos c' i h)]
  unfold CanShare AtOnce
  constructor
  · rintro h c' hc hp ⟨t, h1, h2⟩
    obtain ⟨i, hi, g⟩ := (hf.sounds c' t).2 h2
    exact h ⟨t, (hf.sounds c t).2 h1, i, (ha v i).2 ⟨c', hc, hp, hi⟩, g⟩
  · rintro h ⟨t, h1, i, hi, g⟩
    obtain ⟨c', hc, hp, hi'⟩ := (ha v i).1 hi
    exact h c' hc hp ⟨t, (hf.sounds c t).1 h1, (hf.sounds c' t).1 ⟨i, hi', g⟩⟩

theorem empty_untouched {l : List TMsg} {ivs : Fin 16 → List VoiceInterval} (hf : ScanFacts l ivs) (pre : List ReadLine) (c : Fin 16) (active : ActiveIntervals)
    (ha : Held16 ivs pre c.val active) (v : Fin 8) : active v = [] ↔ Untouched l pre c v := by
  unfold Untouched
  constructor
  · intro h c' hc hp
    rw [← hf.empty c']
    apply List.eq_nil_iff_forall_not_mem.2
    intro i hi
    have := (ha v i).2 ⟨c', hc, hp, hi⟩
    rw [h] at this
    cases this
  · intro h
    apply List.eq_nil_iff_forall_not_mem.2
    intro i hi
    obtain ⟨c', hc, hp, hi'⟩ := (ha v i).1 hi
    rw [(hf.empty c').2 (h c' hc hp)] at hi'
    cases hi'

/-! The voices offered. -/

/-- The loop over the voices: messages true, the list ascending, sound and complete. -/
structure Offers (P : List ReadLine → ReadLine → Prop) (pre : List ReadLine) (ch : List VoiceInterval) (active : ActiveIntervals) (done : List (Fin 8))
    (st : List ReadLine × List (Fin 8) × Bool) : Prop where
  good : AllGood P pre st.1
  lines : ∀ x ∈ st.1, ∃ v i, x = .overlaps v i
  asc : st.2.1.Pairwise (· < ·)
  seen : ∀ v ∈ st.2.1, v ∈ done
  sound : ∀ v ∈ st.2.1, NoClash ch (active v)
  full : ∀ v ∈ done, NoClash ch (active v) → v ∈ st.2.1 ∨ (active v = [] ∧ ∃ w ∈ st.2.1, w < v ∧ active w = [])
  flag : st.2.2 = true → ∃ w ∈ st.2.1, active w = []

theorem valid_fold (P : List ReadLine → ReadLine → Prop) (pre : List ReadLine) (ch : List VoiceInterval) (active : ActiveIntervals)
    (hP : ∀ ls, (∀ x ∈ ls, ∃ v i, x = ReadLine.overlaps v i) → ∀ v i, overlappingInterval ch (active v) = some i → P (pre ++ ls) (.overlaps v i)) :
    ∀ (l done : List (Fin 8)) (st : List ReadLine × List (Fin 8) × Bool), (done ++ l).Pairwise (· < ·) → Offers P pre ch active done st →
      Offers P pre ch active (done ++ l) (l.foldl (tellVoice true ch active) st) := by
  intro l
  induction l with
  | nil => intro done st _ h; rw [List.append_nil]; exact h
  | cons v l ih =>
    intro done st hp h
    rw [List.foldl_cons, show done ++ v :: l = (done ++ [v]) ++ l by simp]
    rw [show done ++ v :: l = (done ++ [v]) ++ l by simp] at hp
    refine ih _ _ hp ?_
    have hlt : ∀ w ∈ done, w < v := by
      have := (List.pairwise_append.1 hp).1
      intro w hw
      exact (List.pairwise_append.1 this).2.2 w hw v (by simp)
    unfold tellVoice
    simp only
    split_ifs with hc
    · cases ho : overlappingInterval ch (active v) with
      | some i =>
        refine ⟨?_, ?_, h.asc, fun w hw => by simp [h.seen w hw], h.sound, ?_, h.flag⟩
        · show AllGood P pre (st.1 ++ [.overlaps v i])
          rw [good_append]
          exact ⟨h.good, hP _ h.lines v i ho, trivial⟩
        · intro x hx
          rcases List.mem_append.1 hx with hx | hx
          · exact h.lines x hx
          · simp only [shown, if_true, List.mem_singleton] at hx
            exact ⟨v, i, hx⟩
        · intro w hw hn
          rcases List.mem_append.1 hw with hw | hw
          · exact h.full w hw hn
          · simp only [List.mem_singleton] at hw
            subst hw
            rw [(overlapping_none _ _).2 hn] at ho
            cases ho
      | none =>
        have hn := (overlapping_none _ _).1 ho
        refine ⟨h.good, h.lines, ?_, ?_, ?_, ?_, ?_⟩
        · exact List.pairwise_append.2 ⟨h.asc, by simp, fun a ha b hb => by
            simp only [List.mem_singleton] at hb
            subst hb
            exact hlt a (h.seen a ha)⟩
        · intro w hw
          rcases List.mem_append.1 hw with hw | hw
          · simp [h.seen w hw]
          · simp only [List.mem_singleton] at hw
            simp [hw]
        · intro w hw
          rcases List.mem_append.1 hw with hw | hw
          · exact h.sound w hw
          · simp only [List.mem_singleton] at hw
            rw [hw]; exact hn
        · intro w hw hn
          rcases List.mem_append.1 hw with hw | hw
          · rcases h.full w hw hn with g | ⟨g, u, hu, g1⟩
            · exact .inl (by simp [g])
            · exact .inr ⟨g, u, by simp [hu], g1⟩
          · simp only [List.mem_singleton] at hw
            exact .inl (by simp [hw])
        · intro hf
          simp only [Bool.or_eq_true] at hf
          rcases hf with hf | hf
          · obtain ⟨w, hw, g⟩ := h.flag hf
            exact ⟨w, by simp [hw], g⟩
          · exact ⟨v, by simp, List.isEmpty_iff.1 hf⟩
    · simp only [Bool.or_eq_true, Bool.not_eq_true', not_or, Bool.not_eq_false] at hc
      obtain ⟨w, hw, g⟩ := h.flag hc.1
      refine ⟨h.good, h.lines, h.asc, fun w hw => by simp [h.seen w hw], h.sound, ?_, h.flag⟩
      intro u hu hn
      rcases List.mem_append.1 hu with hu | hu
      · exact h.full u hu hn
      · simp only [List.mem_singleton] at hu
        subst hu
        exact .inr ⟨List.isEmpty_iff.1 hc.2, w, hw, hlt w (h.seen w hw), g⟩

theorem valid_good (P : List ReadLine → ReadLine → Prop) (pre : List ReadLine) (ch : List VoiceInterval) (active : ActiveIntervals)
    (hP : ∀ ls, (∀ x ∈ ls, ∃ v i, x = ReadLine.overlaps v i) → ∀ v i, overlappingInterval ch (active v) = some i → P (pre ++ ls) (.overlaps v i)) :
    ∃ os, (tellValid true ch active).1 = os ++ [.candidates (tellValid true ch active).2] ∧ AllGood P pre os ∧ (∀ x ∈ os, ∃ v i, x = ReadLine.overlaps v i) ∧
      (tellValid true ch active).2.Pairwise (· < ·) ∧ (∀ v ∈ (tellValid true ch active).2, NoClash ch (active v)) ∧
      ∀ v, NoClash ch (active v) → v ∈ (tellValid true ch active).2 ∨ (active v = [] ∧ ∃ w ∈ (tellValid true ch active).2, w < v ∧ active w = []) := by
  have := valid_fold P pre ch active hP (List.finRange 8) [] ([], [], false) (by decide) ⟨trivial, by simp, by simp, by simp, by simp, by simp, by simp⟩
  rw [tellValid_step]
  exact ⟨_, rfl, this.good, this.lines, this.asc, this.sound, fun v => this.full v (by simp)⟩

/-! The search. -/

theorem truthful_overlaps {path : String} {calls : List Callback} {ivs : Fin 16 → List VoiceInterval} (hf : ScanFacts (file calls) ivs) (pre : List ReadLine) (c : Fin 16)
    (active : ActiveIntervals) (ha : Held16 ivs pre c.val active) (ls : List ReadLine) (hls : ∀ x ∈ ls, ∃ v i, x = ReadLine.overlaps v i) (v : Fin 8) (i : VoiceInterval)
    (ho : overlappingInterval (ivs c) (active v) = some i) : Truthful path calls (pre ++ [.find c] ++ ls) (.overlaps v i) := by
  unfold overlappingInterval at ho
  obtain ⟨x, hx, hy⟩ := List.exists_of_findSome?_eq_some ho
  have hi := List.mem_of_find?_eq_some hy
  have hcl := List.find?_some hy
  obtain ⟨c', hc, hp, hi'⟩ := (ha v i).1 hi
  have hch := hf.chan c' i hi'
  rw [List.append_assoc]
  refine ⟨c, looking_find pre ls c ?_, by rw [hch]; exact hc, ?_, by rw [hch]; exact hf.voices c' i hi', ?_⟩
  · intro x hx c'' e
    obtain ⟨v, i, e'⟩ := hls x hx
    rw [e'] at e
    cases e
  · rw [hch, placed_skip _ _ _ ?_]
    · exact hp
    · intro x hx
      rcases List.mem_cons.1 hx with rfl | hx
      · rfl
      · obtain ⟨v, i, rfl⟩ := hls x hx
        rfl
  · unfold intervalsClash at hcl
    simp only [Bool.and_eq_true, decide_eq_true_eq] at hcl
    obtain ⟨⟨⟨h1, h2⟩, h3⟩, h4⟩ := hcl
    have px := hf.pos c x hx
    have pi := hf.pos c' i hi'
    refine ⟨max x.start i.start, le_max_right _ _, by omega, ?_, ?_⟩
    · exact (hf.sounds c _).1 ⟨x, hx, le_max_left _ _, by omega, h1⟩
    · rw [hch]
      exact (hf.sounds c' _).1 ⟨i, hi', le_max_right _ _, by omega, h2⟩

/-- What the search for the channels from `k` on says. -/
structure Search (path : String) (calls : List Callback) (pre : List ReadLine) (k : Nat) (r : List ReadLine × Option (List (Fin 8))) : Prop where
  good : AllGood (Truthful path calls) pre r.1
  later : ∀ x ∈ r.1, Later k x
  found : ∀ bs, r.2 = some bs → bs.length = 16 - k ∧ ∀ c : Fin 16, k ≤ c.val → placed r.1 c = bs[c.val - k]?
  lost : r.2 = none → r.1.getLast? = some (.candidates [])

theorem find_good {path : String} {calls : List Callback} {ivs : Fin 16 → List VoiceInterval} (hf : ScanFacts (file calls) ivs) :
    ∀ (chs : List (Fin 16 × List VoiceInterval)) (k : Nat) (pre : List ReadLine) (active : ActiveIntervals), k ≤ 16 →
      chs = ((List.finRange 16).drop k).map (fun c => (c, ivs c)) → Held16 ivs pre k active →
      (∀ c : Fin 16, c.val = k → Truthful path calls pre (.find c)) → Search path calls pre k (tellFind true chs active) := by
  intro chs
  induction chs with
  | nil =>
    intro k pre active hk he ha hp
    have hk16 : k = 16 := by
      have := congrArg List.length he
      simp at this
      omega
    subst hk16
    refine ⟨trivial, by simp [tellFind], ?_, by simp [tellFind]⟩
    intro bs hb
    simp only [tellFind, Option.some.injEq] at hb
    subst hb
    exact ⟨rfl, fun c hc => absurd c.isLt (by omega)⟩
  | cons x chs ih =>
    intro k pre active hk he ha hp
    have hk16 : k < 16 := by
      have := congrArg List.length he
      simp at this
      omega
    rw [List.drop_eq_getElem_cons (by simpa using hk16), List.map_cons] at he
    simp only [List.cons.injEq] at he
    obtain ⟨rfl, he⟩ := he
    obtain ⟨c, hck⟩ : ∃ c : Fin 16, c = (List.finRange 16)[k]'(by simpa using hk16) := ⟨_, rfl⟩
    rw [← hck]
    have hc : c.val = k := by rw [hck]; simp
    rw [tellFind]
    show Search path calls pre k (([.find c] : List ReadLine) ++ (tellValid true (ivs c) active).1 ++ (tellTries true c (fun v => tellFind true chs (Function.update active v (active v ++ ivs c)))
      (tellValid true (ivs c) active).2).1, (tellTries true c (fun v => tellFind true chs (Function.update active v (active v ++ ivs c))) (tellValid true (ivs c) active).2).2)
    rw [← hc] at ha
    obtain ⟨os, e1, g1, g2, g3, g4, g5⟩ := valid_good (Truthful path calls) (pre ++ [.find c]) (ivs c) active
      (fun ls hls v i ho => truthful_overlaps hf pre c active ha ls hls v i ho)
    generalize (tellValid true (ivs c) active).2 = full at *
    rw [e1]
    -- the messages before the first attempt
    have hcand : Truthful path calls (pre ++ [.find c] ++ os) (.candidates full) := by
      rw [List.append_assoc]
      have hpl : ∀ c', placed (pre ++ ([.find c] ++ os)) c' = placed pre c' := by
        intro c'
        apply placed_skip
        intro x hx
        rcases List.mem_cons.1 hx with rfl | hx
        · rfl
        · obtain ⟨v, i, rfl⟩ := g2 x hx
          rfl
      have hs : ∀ v, CanShare (file calls) (pre ++ ([.find c] ++ os)) c v ↔ NoClash (ivs c) (active v) := by
        intro v
        rw [clash_share hf pre c active ha v]
        unfold CanShare
        simp only [hpl]
      have hu : ∀ v, Untouched (file calls) (pre ++ ([.find c] ++ os)) c v ↔ active v = [] := by
        intro v
        rw [empty_untouched hf pre c active ha v]
        unfold Untouched
        simp only [hpl]
      refine ⟨c, looking_find pre os c ?_, g3, ?_, ?_⟩
      · intro x hx c'' e
        obtain ⟨v, i, e'⟩ := g2 x hx
        rw [e'] at e
        cases e
      · intro v hv
        exact (hs v).2 (g4 v hv)
      · intro v hv
        rcases g5 v ((hs v).1 hv) with h | ⟨h, w, hw, h1, h2⟩
        · exact .inl h
        · exact .inr ⟨(hu v).2 h, w, hw, h1, (hu w).2 h2⟩
    have hhead : AllGood (Truthful path calls) pre ([.find c] ++ (os ++ [.candidates full])) := by
      rw [good_append, good_append]
      exact ⟨⟨hp c hc, trivial⟩, g1, hcand, trivial⟩
    have hosl : ∀ x ∈ os ++ [ReadLine.candidates full], ∀ c' : Fin 16, triesFor c' x = none ∧ ∀ c'', x ≠ .find c'' := by
      intro x hx c'
      rcases List.mem_append.1 hx with hx | hx
      · obtain ⟨v, i, rfl⟩ := g2 x hx
        exact ⟨rfl, by simp⟩
      · simp only [List.mem_singleton] at hx
        subst hx
        exact ⟨rfl, by simp⟩
    -- the attempts
    have tries : ∀ (vs : List (Fin 8)) (T : List ReadLine), (∀ x ∈ T, Later (k + 1) x ∨ ∃ v, x = .trying c v) → T.filterMap (triesFor c) ++ vs = full →
        AllGood (Truthful path calls) (pre ++ ([.find c] ++ (os ++ [.candidates full])) ++ T)
            (tellTries true c (fun v => tellFind true chs (Function.update active v (active v ++ ivs c))) vs).1 ∧
          (∀ x ∈ (tellTries true c (fun v => tellFind true chs (Function.update active v (active v ++ ivs c))) vs).1, Later (k + 1) x ∨ ∃ v, x = .trying c v) ∧
          (∀ bs, (tellTries true c (fun v => tellFind true chs (Function.update active v (active v ++ ivs c))) vs).2 = some bs → bs.length = 16 - k ∧
            ∀ c' : Fin 16, k ≤ c'.val → placed (tellTries true c (fun v => tellFind true chs (Function.update active v (active v ++ ivs c))) vs).1 c' = bs[c'.val - k]?) ∧
          ((tellTries true c (fun v => tellFind true chs (Function.update active v (active v ++ ivs c))) vs).2 = none → vs ≠ [] →
            (tellTries true c (fun v => tellFind true chs (Function.update active v (active v ++ ivs c))) vs).1.getLast? = some (.candidates [])) := by
      intro vs
      induction vs with
      | nil => intro T _ _; exact ⟨trivial, by simp [tellTries], by simp [tellTries], by simp⟩
      | cons v vs ihv =>
        intro T hT hfull
        have hTc : ∀ x ∈ T, x ≠ .find c := by
          intro x hx
          rcases hT x hx with h | ⟨v, rfl⟩
          · exact later_find h c (by omega)
          · simp
        have htry : Truthful path calls (pre ++ ([.find c] ++ (os ++ [.candidates full])) ++ T) (.trying c v) := by
          have hsf : sinceFind (pre ++ ([.find c] ++ (os ++ [.candidates full])) ++ T) c = os ++ [.candidates full] ++ T := by
            rw [show pre ++ ([.find c] ++ (os ++ [.candidates full])) ++ T = pre ++ .find c :: (os ++ [.candidates full] ++ T) by simp]
            apply since_find
            intro x hx
            rcases List.mem_append.1 hx with hx | hx
            · exact (hosl x hx c).2 c
            · exact hTc x hx
          refine ⟨full, ?_, ?_⟩
          · unfold offered
            rw [hsf, List.filterMap_append, List.filterMap_append]
            have : os.filterMap listed = [] := by
              rw [List.filterMap_eq_nil_iff]
              intro x hx
              obtain ⟨v, i, rfl⟩ := g2 x hx
              rfl
            rw [this]
            rfl
          · unfold tried
            rw [hsf, List.filterMap_append]
            have : (os ++ [ReadLine.candidates full]).filterMap (triesFor c) = [] := by
              rw [List.filterMap_eq_nil_iff]
              intro x hx
              exact (hosl x hx c).1
            rw [this, List.nil_append, ← hfull]
            exact ⟨vs, by simp⟩
        -- the channels after this one
        have hpl : ∀ c' : Fin 16, c'.val < k → placed (pre ++ ([.find c] ++ (os ++ [.candidates full])) ++ T ++ [.trying c v]) c' = placed pre c' := by
          intro c' hc'
          rw [List.append_assoc, List.append_assoc]
          apply placed_skip
          intro x hx
          rcases List.mem_append.1 hx with hx | hx
          · rcases List.mem_cons.1 hx with rfl | hx
            · rfl
            · exact (hosl x hx c').1
          · rcases List.mem_append.1 hx with hx | hx
            · rcases hT x hx with h | ⟨w, rfl⟩
              · exact later_tries h c' (by omega)
              · simp only [triesFor]
                rw [if_neg]
                rintro rfl
                omega
            · simp only [List.mem_singleton] at hx
              subst hx
              simp only [triesFor]
              rw [if_neg]
              rintro rfl
              omega
        have hplc : placed (pre ++ ([.find c] ++ (os ++ [.candidates full])) ++ T ++ [.trying c v]) c = some v := by
          rw [placed_append]
          simp [placed, triesFor]
        have hnext := ih (k + 1) (pre ++ ([.find c] ++ (os ++ [.candidates full])) ++ T ++ [.trying c v]) (Function.update active v (active v ++ ivs c)) (by omega) he
          (by
            intro w i
            have hlt : ∀ c' : Fin 16, c'.val < k + 1 ↔ c'.val < k ∨ c' = c := by
              intro c'
              rw [Fin.ext_iff]
              omega
            rw [show (∃ c' : Fin 16, c'.val < k + 1 ∧ placed (pre ++ ([.find c] ++ (os ++ [.candidates full])) ++ T ++ [.trying c v]) c' = some w ∧ i ∈ ivs c') ↔
                (∃ c' : Fin 16, c'.val < k ∧ placed pre c' = some w ∧ i ∈ ivs c') ∨ (v = w ∧ i ∈ ivs c) from ?_]
            · rw [← hc, ← ha w i]
              by_cases hw : w = v
              · subst hw
                rw [Function.update_self, List.mem_append]
                tauto
              · rw [Function.update_of_ne hw]
                constructor
                · exact .inl
                · rintro (h | ⟨h, -⟩)
                  · exact h
                  · exact absurd h.symm hw
            · constructor
              · rintro ⟨c', h1, h2, h3⟩
                rcases (hlt c').1 h1 with h | rfl
                · rw [hpl c' h] at h2
                  exact .inl ⟨c', h, h2, h3⟩
                · rw [hplc] at h2
                  exact .inr ⟨by simpa using h2, h3⟩
              · rintro (⟨c', h1, h2, h3⟩ | ⟨rfl, h⟩)
                · exact ⟨c', by omega, by rw [hpl c' h1]; exact h2, h3⟩
                · exact ⟨c, by omega, hplc, h⟩)
          (by
            intro c' hc'
            exact .inr ⟨c, v, by omega, by rw [List.getLast?_append]; rfl⟩)
        have hgo : AllGood (Truthful path calls) (pre ++ ([.find c] ++ (os ++ [.candidates full])) ++ T)
            ([.trying c v] ++ (tellFind true chs (Function.update active v (active v ++ ivs c))).1) := by
          rw [good_append]
          exact ⟨⟨htry, trivial⟩, hnext.good⟩
        have hlines : ∀ x ∈ ([.trying c v] ++ (tellFind true chs (Function.update active v (active v ++ ivs c))).1 : List ReadLine), Later (k + 1) x ∨ ∃ v, x = .trying c v := by
          intro x hx
          rcases List.mem_cons.1 hx with rfl | hx
          · exact .inr ⟨v, rfl⟩
          · exact .inl (hnext.later x hx)
        have hfm : ([.trying c v] ++ (tellFind true chs (Function.update active v (active v ++ ivs c))).1 : List ReadLine).filterMap (triesFor c) = [v] := by
          rw [List.filterMap_append]
          have : (tellFind true chs (Function.update active v (active v ++ ivs c))).1.filterMap (triesFor c) = [] := by
            rw [List.filterMap_eq_nil_iff]
            intro x hx
            exact later_tries (hnext.later x hx) c (by omega)
          rw [this]
          simp [triesFor]
        rw [tellTries]
        have hfd := hnext.found
        have hlo := hnext.lost
        have hlt := hnext.later
        clear hnext
        cases hr : tellFind true chs (Function.update active v (active v ++ ivs c)) with
        | mk ls r =>
          rw [hr] at hgo hlines hfm hfd hlo hlt
          simp only at hgo hlines hfm hfd hlo hlt
          cases r with
          | some bs =>
            refine ⟨hgo, hlines, ?_, by simp⟩
            intro bs' hb
            simp only [Option.some.injEq] at hb
            subst hb
            obtain ⟨l1, l2⟩ := hfd bs rfl
            refine ⟨by rw [List.length_cons, l1]; omega, ?_⟩
            intro c' hc'
            show placed ([.trying c v] ++ ls) c' = _
            rw [placed_append]
            by_cases hcc : c' = c
            · rw [hcc, placed_none ls c (fun x hx => later_tries (hlt x hx) c (by omega)), hc]
              simp [placed, triesFor]
            · have hgt : k + 1 ≤ c'.val := by
                have : c'.val ≠ c.val := fun e => hcc (Fin.ext e)
                omega
              rw [l2 c' hgt, show c'.val - k = (c'.val - (k + 1)) + 1 by omega, List.getElem?_cons_succ]
              rw [List.getElem?_eq_getElem (by rw [l1]; omega)]
              rfl
          | none =>
            obtain ⟨i1, i2, i3, i4⟩ := ihv (T ++ ([.trying c v] ++ ls)) (by
                intro x hx
                rcases List.mem_append.1 hx with hx | hx
                · exact hT x hx
                · exact hlines x hx) (by rw [List.filterMap_append, hfm, List.append_assoc]; exact hfull)
            refine ⟨?_, ?_, ?_, ?_⟩
            · show AllGood _ _ (([.trying c v] ++ ls) ++ _)
              rw [good_append]
              refine ⟨hgo, ?_⟩
              rw [List.append_assoc _ T]
              exact i1
            · intro x hx
              rcases List.mem_append.1 hx with hx | hx
              · exact hlines x hx
              · exact i2 x hx
            · intro bs hb
              obtain ⟨l1, l2⟩ := i3 bs hb
              refine ⟨l1, ?_⟩
              intro c' hc'
              show placed (([.trying c v] ++ ls) ++ _) c' = _
              rw [placed_append, l2 c' hc', List.getElem?_eq_getElem (by rw [l1]; omega)]
              rfl
            · intro hn _
              show (([.trying c v] ++ ls : List ReadLine) ++ _).getLast? = _
              rw [List.getLast?_append]
              cases vs with
              | nil =>
                show (([] : List ReadLine)).getLast?.or _ = _
                show ([.trying c v] ++ ls : List ReadLine).getLast? = _
                rw [List.getLast?_append, hlo rfl]
                rfl
              | cons w vs => rw [i4 hn (by simp)]; rfl
    obtain ⟨t1, t2, t3, t4⟩ := tries full [] (by simp) rfl
    rw [List.append_nil] at t1
    refine ⟨?_, ?_, ?_, ?_⟩
    · show AllGood _ _ (([.find c] ++ (os ++ [.candidates full])) ++ _)
      rw [good_append]
      exact ⟨hhead, t1⟩
    · intro x hx
      rcases List.mem_append.1 hx with hx | hx
      · rcases List.mem_append.1 hx with hx | hx
        · simp only [List.mem_singleton, shown, if_true] at hx
          subst hx
          show k ≤ c.val
          omega
        · rcases List.mem_append.1 hx with hx | hx
          · obtain ⟨v, i, rfl⟩ := g2 x hx
            trivial
          · simp only [List.mem_singleton] at hx
            subst hx
            trivial
      · rcases t2 x hx with h | ⟨v, rfl⟩
        · exact later_mono (by omega) h
        · show k ≤ c.val
          omega
    · intro bs hb
      obtain ⟨l1, l2⟩ := t3 bs hb
      refine ⟨l1, ?_⟩
      intro c' hc'
      show placed (([.find c] ++ (os ++ [.candidates full])) ++ _) c' = _
      rw [placed_append, l2 c' hc', List.getElem?_eq_getElem (by rw [l1]; omega)]
      rfl
    · intro hn
      show (([.find c] ++ (os ++ [.candidates full]) : List ReadLine) ++ _).getLast? = _
      rw [List.getLast?_append]
      cases full with
      | nil =>
        show ([.find c] ++ (os ++ [.candidates []]) : List ReadLine).getLast? = _
        rw [List.getLast?_append, List.getLast?_append]
        rfl
      | cons w vs => rw [t4 hn (by simp)]; rfl

end M2S
