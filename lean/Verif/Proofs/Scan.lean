import Verif.Proofs.BaseVoices
/-
The interval scan in terms of the file: success and sounding notes.
-/
namespace M2S
open MidiSpec

theorem before_time {l : List TMsg} (h : l.Pairwise Before) : l.Pairwise fun a b => a.2 ≤ b.2 := by
  refine h.imp ?_
  intro a b hab
  rcases hab with h | h <;> omega

theorem startsBy_perm {l l' : List TMsg} (h : l.Perm l') (t : Nat) : startsBy l t = startsBy l' t := h.countP_eq _
theorem endsBy_perm {l l' : List TMsg} (h : l.Perm l') (t : Nat) : endsBy l t = endsBy l' t := h.countP_eq _

/-- The scan of a sorted channel succeeds exactly if at every instant no more notes have ended than were started strictly before. -/
theorem scan_sorted (i : Fin 16) (s : List TMsg) (hs : s.Pairwise Before) (st : ScanState) (h0 : st.active = 0) :
    (∃ st', s.foldlM (scanMessage i) st = .ok st') ↔ ∀ t, endsBy s t ≤ s.countP fun m => starts m.1 && m.2 < t := by
  rw [scan_succeeds, h0]
  constructor
  · intro h t
    -- the prefix of everything before the notes starting at `t`
    have key : ∀ (s : List TMsg), s.Pairwise Before → ∃ k,
        ((s.take k).countP fun m => ends m.1) = endsBy s t ∧ ((s.take k).countP fun m => starts m.1) = s.countP fun m => starts m.1 && m.2 < t := by
      intro s
      induction s with
      | nil => intro _; exact ⟨0, by simp [endsBy]⟩
      | cons m s ih =>
        intro hp
        obtain ⟨h1, h2⟩ := List.pairwise_cons.1 hp
        by_cases hm : m.2 < t ∨ (m.2 = t ∧ ends m.1 = true)
        · obtain ⟨k, k1, k2⟩ := ih h2
          refine ⟨k + 1, ?_, ?_⟩
          · simp only [List.take_succ_cons, List.countP_cons, endsBy, k1]
            have : m.2 ≤ t := by omega
            simp [this]
          · simp only [List.take_succ_cons, List.countP_cons, k2]
            rcases hm with hm | ⟨hm, he⟩
            · simp [hm]
            · have hss : starts m.1 = false := by
                unfold ends at he; unfold starts
                split at he <;> simp_all
              simp [hss]
        · refine ⟨0, ?_, ?_⟩
          · simp only [List.take_zero, List.countP_nil]
            symm
            unfold endsBy
            rw [List.countP_eq_zero]
            intro x hx
            simp only [Bool.and_eq_true, decide_eq_true_eq, not_and, not_le]
            intro hex
            rcases List.mem_cons.1 hx with rfl | hx
            · by_contra hc
              exact hm (by have : x.2 = t ∨ x.2 < t := by omega
                           rcases this with h | h
                           · exact .inr ⟨h, hex⟩
                           · exact .inl h)
            · have hb := h1 x hx
              by_contra hc
              push Not at hc hm
              rcases hb with hb | ⟨hb, hr⟩
              · omega
              · have hmt : m.2 = t := by omega
                have := hm.2 hmt
                unfold rank at hr
                rw [if_neg this, if_pos hex] at hr
                split_ifs at hr <;> omega
          · simp only [List.take_zero, List.countP_nil]
            symm
            rw [List.countP_eq_zero]
            intro x hx
            simp only [Bool.and_eq_true, decide_eq_true_eq, not_and, not_lt]
            intro _
            rcases List.mem_cons.1 hx with rfl | hx
            · omega
            · have hb := h1 x hx
              rcases hb with hb | ⟨hb, hr⟩ <;> omega
    obtain ⟨k, k1, k2⟩ := key s hs
    have := h k
    omega
  · intro h k
    cases hk : (s.take k).reverse with
    | nil =>
      rw [List.reverse_eq_nil_iff] at hk
      simp [hk]
    | cons m rest =>
      have htk : s.take k = rest.reverse ++ [m] := by
        rw [← List.reverse_reverse (s.take k), hk]; simp
      have hdec : s = s.take k ++ s.drop k := (List.take_append_drop k s).symm
      have hall : ∀ x ∈ s.take k, x.2 ≤ m.2 := by
        intro x hx
        rw [htk] at hx
        have hp : (rest.reverse ++ [m]).Pairwise Before := by rw [← htk]; exact hs.sublist (List.take_sublist _ _)
        rcases List.mem_append.1 hx with hx | hx
        · rcases (List.pairwise_append.1 hp).2.2 x hx m (by simp) with h | h <;> omega
        · simp only [List.mem_singleton] at hx; rw [hx]
      have hdrop : ∀ x ∈ s.drop k, m.2 ≤ x.2 := by
        intro x hx
        have hp : (s.take k ++ s.drop k).Pairwise Before := by rw [← hdec]; exact hs
        rcases (List.pairwise_append.1 hp).2.2 m (by rw [htk]; simp) x hx with h | h <;> omega
      have h1 : ((s.take k).countP fun x => ends x.1) ≤ endsBy s m.2 := by
        have : endsBy s m.2 = endsBy (s.take k) m.2 + endsBy (s.drop k) m.2 := by
          conv_lhs => rw [hdec]
          unfold endsBy
          rw [List.countP_append]
        rw [this]
        have : ((s.take k).countP fun x => ends x.1) = endsBy (s.take k) m.2 := by
          unfold endsBy
          apply List.countP_congr
          intro x hx
          have := hall x hx
          simp [this]
        omega
      have h2 : (s.countP fun x => starts x.1 && x.2 < m.2) ≤ (s.take k).countP fun x => starts x.1 := by
        conv_lhs => rw [hdec]
        rw [List.countP_append]
        have : ((s.drop k).countP fun x => starts x.1 && x.2 < m.2) = 0 := by
          rw [List.countP_eq_zero]
          intro x hx
          have := hdrop x hx
          simp only [Bool.and_eq_true, decide_eq_true_eq, not_and, not_lt]
          intro _; exact this
        rw [this, Nat.add_zero]
        apply List.countP_mono_left
        intro x _
        simp +contextual
      have := h m.2
      omega

end M2S
