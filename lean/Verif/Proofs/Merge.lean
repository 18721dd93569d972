import Verif.Proofs.Routing
/-
The merge of the channels in `channels_to_voices`.
-/
namespace M2S
open MidiSpec

/-- The least channel with the least key. -/
theorem nextChannel_min (rem : ChanMsgs) :
    (∀ i, keyLt (headKey (rem i)) (headKey (rem (nextChannel rem))) = false) ∧
    (∀ i, i < nextChannel rem → keyLt (headKey (rem (nextChannel rem))) (headKey (rem i)) = true) := by
  have key : ∀ (l seen : List (Fin 16)) (best : Fin 16), l.Pairwise (· < ·) → (∀ j ∈ seen, ∀ i ∈ l, j < i) → best ∈ seen →
      (∀ j ∈ seen, keyLt (headKey (rem j)) (headKey (rem best)) = false ∧ (j < best → keyLt (headKey (rem best)) (headKey (rem j)) = true)) →
      ∀ j, (j ∈ seen ∨ j ∈ l) →
        keyLt (headKey (rem j)) (headKey (rem (l.foldl (fun best i => if keyLt (headKey (rem i)) (headKey (rem best)) then i else best) best))) = false ∧
        (j < (l.foldl (fun best i => if keyLt (headKey (rem i)) (headKey (rem best)) then i else best) best) →
          keyLt (headKey (rem (l.foldl (fun best i => if keyLt (headKey (rem i)) (headKey (rem best)) then i else best) best))) (headKey (rem j)) = true) := by
    intro l
    induction l with
    | nil =>
      intro seen best _ _ _ h j hj
      simp only [List.not_mem_nil, or_false] at hj
      exact h j hj
    | cons i l ih =>
      intro seen best hl hs hb h j hj
      obtain ⟨hl1, hl2⟩ := List.pairwise_cons.1 hl
      rw [List.foldl_cons]
      apply ih (i :: seen) _ hl2
      · intro a ha b hb
        rcases List.mem_cons.1 ha with rfl | ha
        · exact hl1 b hb
        · exact hs a ha b (by simp [hb])
      · split_ifs
        · simp
        · simp [hb]
      · intro a ha
        have hib := hs best hb i (by simp)
        by_cases hlt : keyLt (headKey (rem i)) (headKey (rem best)) = true
        · rw [if_pos hlt]
          rcases List.mem_cons.1 ha with rfl | ha
          · refine ⟨?_, fun h => absurd h (lt_irrefl _)⟩
            simp [keyLt]
          · obtain ⟨h1, h2⟩ := h a ha
            unfold keyLt at *
            simp only [decide_eq_true_eq, decide_eq_false_iff_not] at *
            refine ⟨by omega, fun _ => by omega⟩
        · rw [if_neg hlt]
          rcases List.mem_cons.1 ha with rfl | ha
          · refine ⟨by simpa using hlt, fun hx => absurd hx (by omega)⟩
          · exact h a ha
      · simp only [List.mem_cons] at hj ⊢; tauto
  have := key ((List.finRange 15).map Fin.succ) [0] 0 (by decide) (by decide) (by simp) (by
    intro j hj
    simp only [List.mem_singleton] at hj
    subst hj
    simp [keyLt])
  have e : nextChannel rem = ((List.finRange 15).map Fin.succ).foldl (fun best i => if keyLt (headKey (rem i)) (headKey (rem best)) then i else best) 0 := by
    unfold nextChannel
    rw [List.finRange_succ, List.foldl_cons]
    congr 1
    split_ifs <;> rfl
  rw [← e] at this
  have all : ∀ j : Fin 16, j ∈ [(0 : Fin 16)] ∨ j ∈ (List.finRange 15).map Fin.succ := by decide
  exact ⟨fun i => (this i (all i)).1, fun i => (this i (all i)).2⟩

theorem sum_update (l : List (Fin 16)) (hl : l.Nodup) (c : Fin 16) (hc : c ∈ l) (f g : Fin 16 → Nat) (h : ∀ i, i ≠ c → f i = g i) :
    (l.map f).sum + g c = (l.map g).sum + f c := by
  have hp := List.perm_cons_erase hc
  rw [(hp.map f).sum_nat, (hp.map g).sum_nat, List.map_cons, List.map_cons, List.sum_cons, List.sum_cons]
  have : (l.erase c).map f = (l.erase c).map g := by
    apply List.map_congr_left
    intro i hi
    apply h
    rintro rfl
    exact (List.Nodup.mem_erase_iff hl).1 hi |>.1 rfl
  rw [this]; omega

theorem countP_sum (l : List (Fin 16)) (p : Fin 16 → Bool) : l.countP p = (l.map fun i => if p i then 1 else 0).sum := by
  induction l with
  | nil => rfl
  | cons i l ih => rw [List.countP_cons, List.map_cons, List.sum_cons, ih]; omega

/-- Number of exhausted channels. -/
def emptyCount (rem : ChanMsgs) : Nat := (List.finRange 16).countP fun c => (rem c).isEmpty

theorem emptyCount_update (rem : ChanMsgs) (c : Fin 16) (m : TMsg) (ms : List TMsg) (h : rem c = m :: ms) :
    emptyCount (Function.update rem c ms) = if ms.isEmpty then emptyCount rem + 1 else emptyCount rem := by
  unfold emptyCount
  rw [countP_sum, countP_sum]
  have := sum_update (List.finRange 16) (List.nodup_finRange 16) c (List.mem_finRange c)
    (fun i => if (Function.update rem c ms i).isEmpty then 1 else 0) (fun i => if (rem i).isEmpty then 1 else 0)
    (by intro i hi; simp [Function.update_of_ne hi])
  simp only [Function.update_self, h, List.isEmpty_cons, Bool.false_eq_true, if_false] at this
  by_cases hm : ms.isEmpty = true
  · rw [if_pos hm] at this ⊢; omega
  · rw [if_neg hm] at this ⊢; omega

theorem countMsgs_update (rem : ChanMsgs) (c : Fin 16) (m : TMsg) (ms : List TMsg) (h : rem c = m :: ms) :
    countMsgs rem = countMsgs (Function.update rem c ms) + 1 := by
  unfold countMsgs
  have := sum_update (List.finRange 16) (List.nodup_finRange 16) c (List.mem_finRange c)
    (fun i => (Function.update rem c ms i).length) (fun i => (rem i).length)
    (by intro i hi; simp [Function.update_of_ne hi])
  simp only [Function.update_self, h, List.length_cons] at this
  omega

theorem emptyCount_lt (rem : ChanMsgs) : emptyCount rem < 16 ↔ ∃ c, rem c ≠ [] := by
  have hle : emptyCount rem ≤ 16 := by
    have := List.countP_le_length (p := fun c => (rem c).isEmpty) (l := List.finRange 16)
    simpa [emptyCount] using this
  have heq : emptyCount rem = 16 ↔ ∀ c, rem c = [] := by
    have := List.countP_eq_length (p := fun c => (rem c).isEmpty) (l := List.finRange 16)
    simpa [emptyCount] using this
  constructor
  · intro h
    by_contra hc
    push Not at hc
    have := heq.2 hc
    omega
  · rintro ⟨c, hc⟩
    by_contra hn
    exact hc (heq.1 (by omega) c)

theorem rank_le (m : Message) : rank m ≤ 2 := by unfold rank; split_ifs <;> omega

/-- The merge loop with any way to handle an event. -/
def mergeWith {M : Type → Type} [Monad M] (stuck beyond : M DealState) (f : DealState → TMsg → M DealState) : Nat → ChanMsgs → Nat → DealState → M DealState
  | fuel, rem, done, st =>
    if done < 16 then
      match fuel with
      | 0 => stuck
      | fuel + 1 =>
        match rem (nextChannel rem) with
        | [] => beyond
        | m :: ms => do
          let st ← f st m
          mergeWith stuck beyond f fuel (Function.update rem (nextChannel rem) ms) (if ms.isEmpty then done + 1 else done) st
    else pure st

theorem mergeLoop_with (ord : EnumOrder) (base : Fin 16 → Fin 8) : ∀ (n : Nat) (rem : ChanMsgs) (done : Nat) (st : DealState),
    mergeLoop ord base n rem done st = mergeWith (.error .diverged) panicked (dealEvent ord base) n rem done st := by
  intro n
  induction n with
  | zero => intro rem done st; rw [mergeLoop, mergeWith]; rfl
  | succ n ih =>
    intro rem done st
    rw [mergeLoop, mergeWith]
    simp only [ih]
    rfl

/-- The merge loop processes one interleaving of the channels, ordered by time, rank and channel. -/
theorem merge_with (n : Nat) : ∀ (rem : ChanMsgs), countMsgs rem = n → (∀ c, (rem c).Pairwise Before) → (∀ c, ∀ m ∈ rem c, m.2 < 2 ^ 32) →
    ∃ seq : List (Fin 16 × TMsg), (∀ c, (seq.filter fun p => p.1 = c).map (·.2) = rem c) ∧ seq.Pairwise MergeOrder ∧
      ∀ {M : Type → Type} [Monad M] (stuck beyond : M DealState) (f : DealState → TMsg → M DealState) (st : DealState),
        mergeWith stuck beyond f n rem (emptyCount rem) st = (seq.map (·.2)).foldlM f st := by
  induction n with
  | zero =>
    intro rem hn hs ht
    have hall : ∀ c, rem c = [] := by
      intro c
      cases h : rem c with
      | nil => rfl
      | cons m ms => have := countMsgs_update rem c m ms h; omega
    refine ⟨[], by simp [hall], by simp, ?_⟩
    intro M _ stuck beyond f st
    have : ¬ emptyCount rem < 16 := by rw [emptyCount_lt]; push Not; exact hall
    unfold mergeWith
    rw [if_neg this]
    rfl
  | succ n ih =>
    intro rem hn hs ht
    have hlt : emptyCount rem < 16 := by
      rw [emptyCount_lt]
      by_contra hc
      push Not at hc
      simp [countMsgs, hc] at hn
    obtain ⟨c0, hc0⟩ := (emptyCount_lt rem).1 hlt
    obtain ⟨min1, min2⟩ := nextChannel_min rem
    generalize hcdef : nextChannel rem = c at min1 min2
    -- the chosen channel is not exhausted
    obtain ⟨m, ms, hc⟩ : ∃ m ms, rem c = m :: ms := by
      cases h : rem c with
      | cons m ms => exact ⟨m, ms, rfl⟩
      | nil =>
        exfalso
        have := min1 c0
        rw [h] at this
        cases h0 : rem c0 with
        | nil => exact hc0 h0
        | cons m0 ms0 =>
          rw [h0] at this
          have h1 := ht c0 m0 (by rw [h0]; simp)
          have h2 := rank_le m0.1
          simp only [keyLt, headKey, sortKey, priority_rank, decide_eq_false_iff_not] at this
          omega
    have hsub : ∀ c', ∀ x ∈ Function.update rem c ms c', x ∈ rem c' := by
      intro c' x hx
      by_cases hcc : c' = c
      · subst hcc; rw [hc]; simp at hx; simp [hx]
      · rwa [Function.update_of_ne hcc] at hx
    obtain ⟨seq, s1, s2, s3⟩ := ih (Function.update rem c ms) (by have := countMsgs_update rem c m ms hc; omega)
      (by
        intro c'
        by_cases hcc : c' = c
        · subst hcc
          have := hs c'
          rw [hc] at this
          simpa using (List.pairwise_cons.1 this).2
        · rw [Function.update_of_ne hcc]; exact hs c')
      (fun c' x hx => ht c' x (hsub c' x hx))
    refine ⟨(c, m) :: seq, ?_, ?_, ?_⟩
    · intro c'
      by_cases hcc : c = c'
      · subst hcc
        have := s1 c
        simp only [Function.update_self] at this
        simp [this, hc]
      · have := s1 c'
        rw [Function.update_of_ne (Ne.symm hcc)] at this
        simp [hcc, this]
    · rw [List.pairwise_cons]
      refine ⟨?_, s2⟩
      rintro ⟨c', x⟩ hx
      have hmem : x ∈ Function.update rem c ms c' := by
        rw [← s1 c']
        exact List.mem_map.2 ⟨(c', x), List.mem_filter.2 ⟨hx, by simp⟩, rfl⟩
      by_cases hcc : c' = c
      · subst hcc
        have := hs c'
        rw [hc] at this
        have hb := (List.pairwise_cons.1 this).1 x (by simpa using hmem)
        unfold Before at hb
        unfold MergeOrder
        simp only
        omega
      · rw [Function.update_of_ne hcc] at hmem
        cases hr : rem c' with
        | nil => rw [hr] at hmem; simp at hmem
        | cons y ys =>
          rw [hr] at hmem
          have hyx : Before y x := by
            rcases List.mem_cons.1 hmem with rfl | hm
            · right; exact ⟨rfl, le_refl _⟩
            · have := hs c'
              rw [hr] at this
              exact (List.pairwise_cons.1 this).1 x hm
          have k1 := min1 c'
          have k2 := min2 c'
          rw [hr, hc] at k1 k2
          simp only [keyLt, headKey, sortKey, priority_rank, decide_eq_false_iff_not, decide_eq_true_eq] at k1 k2
          unfold Before at hyx
          unfold MergeOrder
          simp only
          have : c < c' ∨ c' < c := by omega
          omega
    · intro M _ stuck beyond f st
      rw [mergeWith, if_pos hlt]
      simp only [hcdef, hc, List.map_cons, List.foldlM_cons]
      rw [← emptyCount_update rem c m ms hc]
      congr 1
      funext st1
      exact s3 stuck beyond f st1

theorem merge_seq (n : Nat) (rem : ChanMsgs) (hn : countMsgs rem = n) (hs : ∀ c, (rem c).Pairwise Before) (ht : ∀ c, ∀ m ∈ rem c, m.2 < 2 ^ 32) :
    ∃ seq : List (Fin 16 × TMsg), (∀ c, (seq.filter fun p => p.1 = c).map (·.2) = rem c) ∧ seq.Pairwise MergeOrder ∧
      ∀ ord base st, mergeLoop ord base n rem (emptyCount rem) st = (seq.map (·.2)).foldlM (dealEvent ord base) st := by
  obtain ⟨seq, s1, s2, s3⟩ := merge_with n rem hn hs ht
  exact ⟨seq, s1, s2, fun ord base st => by rw [mergeLoop_with, s3]⟩

end M2S
