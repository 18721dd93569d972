import Verif.Proofs.BaseVoices
/-
The search for base voices finds the first assignment in the lexicographic order.
-/
namespace M2S
open MidiSpec

/-- The voices tried are tried in ascending order, and an unused voice is left out only if a lower unused one is tried. -/
theorem valid_ascending (ch : List VoiceInterval) (active : ActiveIntervals) : (validVoices ch active).Pairwise (· < ·) ∧
    ∀ v, NoClash ch (active v) → v ∈ validVoices ch active ∨ (active v = [] ∧ ∃ w ∈ validVoices ch active, w < v ∧ active w = []) := by
  unfold validVoices
  suffices H : ∀ (l : List (Fin 8)) (st : List (Fin 8) × Bool), l.Pairwise (· < ·) → st.1.Pairwise (· < ·) → (∀ v ∈ st.1, ∀ w ∈ l, v < w) →
      (st.2 = true → ∃ w ∈ st.1, active w = []) →
      ∀ st', st' = (l.foldl (fun (st : List (Fin 8) × Bool) i =>
        let empty := (active i).isEmpty
        if !st.2 || !empty then
          match overlappingInterval ch (active i) with
          | some _ => st
          | none => (st.1 ++ [i], st.2 || empty)
        else st) st) → st'.1.Pairwise (· < ·) ∧ (∀ w ∈ st.1, w ∈ st'.1) ∧
        ∀ v ∈ l, NoClash ch (active v) → v ∈ st'.1 ∨ (active v = [] ∧ ∃ w ∈ st'.1, w < v ∧ active w = []) from by
    obtain ⟨h1, -, h3⟩ := H (List.finRange 8) ([], false) (by decide) .nil (by simp) (by simp) _ rfl
    exact ⟨h1, fun v => h3 v (List.mem_finRange v)⟩
  intro l
  induction l with
  | nil => rintro st - h - - st' rfl; exact ⟨h, fun w hw => hw, by simp⟩
  | cons i l ih =>
    intro st hl hs hb he st' hst
    rw [List.pairwise_cons] at hl
    rw [List.foldl_cons] at hst
    simp only at hst
    by_cases hc : (!st.2 || !(active i).isEmpty) = true
    · rw [if_pos hc] at hst
      cases ho : overlappingInterval ch (active i) with
      | some x =>
        rw [ho] at hst
        obtain ⟨k0, k1, k2⟩ := ih st hl.2 hs (fun v hv w hw => hb v hv w (by simp [hw])) he st' hst
        refine ⟨k0, k1, ?_⟩
        intro v hm hv
        rcases List.mem_cons.1 hm with rfl | hm
        · rw [(overlapping_none _ _).2 hv] at ho; cases ho
        · exact k2 v hm hv
      | none =>
        rw [ho] at hst
        obtain ⟨k0, k1, k2⟩ := ih (st.1 ++ [i], st.2 || (active i).isEmpty) hl.2
          (by
            rw [List.pairwise_append]
            exact ⟨hs, by simp, fun v hv w hw => by rw [List.mem_singleton] at hw; subst hw; exact hb v hv w (by simp)⟩)
          (by
            intro v hv w hw
            rcases List.mem_append.1 hv with hv | hv
            · exact hb v hv w (by simp [hw])
            · rw [List.mem_singleton] at hv; subst hv; exact hl.1 w hw)
          (by
            simp only [Bool.or_eq_true, List.isEmpty_iff]
            rintro (h1 | h1)
            · obtain ⟨w, hw, h2⟩ := he h1
              exact ⟨w, by simp [hw], h2⟩
            · exact ⟨i, by simp, h1⟩) st' hst
        refine ⟨k0, fun w hw => k1 w (by simp [hw]), ?_⟩
        intro v hm hv
        rcases List.mem_cons.1 hm with rfl | hm
        · exact .inl (k1 v (by simp))
        · exact k2 v hm hv
    · rw [if_neg hc] at hst
      obtain ⟨k0, k1, k2⟩ := ih st hl.2 hs (fun v hv w hw => hb v hv w (by simp [hw])) he st' hst
      refine ⟨k0, k1, ?_⟩
      intro v hm hv
      rcases List.mem_cons.1 hm with rfl | hm
      · simp only [Bool.or_eq_true, Bool.not_eq_true', not_or, Bool.not_eq_false, List.isEmpty_iff] at hc
        obtain ⟨w, hw, h2⟩ := he hc.1
        exact .inr ⟨hc.2, w, k1 w hw, hb w hw v (by simp), h2⟩
      · exact k2 v hm hv

/-- Of two unused voices either will do. -/
theorem fits_swap (chs : List (List VoiceInterval)) (ch : List VoiceInterval) (active : ActiveIntervals) (v w : Fin 8) (hv : active v = []) (hw : active w = [])
    (vs : List (Fin 8)) (h : Fits chs (Function.update active v (active v ++ ch)) vs) :
    Fits chs (Function.update active w (active w ++ ch)) (vs.map (Equiv.swap v w)) := by
  have := fits_perm (Equiv.swap v w) _ _ _ h
  have e : (Function.update active v (active v ++ ch)) ∘ (Equiv.swap v w).symm = Function.update active w (active w ++ ch) := by
    funext x
    simp only [Equiv.symm_swap, Function.comp]
    by_cases hx : x = w
    · subst hx; simp [hv, hw]
    · rw [Function.update_of_ne hx]
      by_cases hxv : x = v
      · subst hxv
        rw [Equiv.swap_apply_left, Function.update_of_ne (Ne.symm hx), hw, hv]
      · rw [Equiv.swap_apply_of_ne_of_ne hxv hx, Function.update_of_ne hxv]
  rw [e] at this
  exact this

/-- The first list comes before the second in the lexicographic order, or is the same. -/
def NotAfter (vs ws : List (Fin 8)) : Prop := vs = ws ∨ ∃ pre a b r s, vs = pre ++ a :: r ∧ ws = pre ++ b :: s ∧ a < b

theorem notAfter_antisymm {vs ws : List (Fin 8)} (h : NotAfter vs ws) (h' : NotAfter ws vs) : vs = ws := by
  rcases h with h | ⟨pre, a, b, r, s, rfl, rfl, hab⟩
  · exact h
  · rcases h' with h' | ⟨p, c, d, x, y, h1, h2, hcd⟩
    · exact h'.symm
    · exfalso
      induction pre generalizing p with
      | nil =>
        cases p with
        | nil =>
          simp only [List.nil_append, List.cons.injEq] at h1 h2
          obtain ⟨rfl, -⟩ := h1
          obtain ⟨rfl, -⟩ := h2
          exact absurd (lt_trans hab hcd) (lt_irrefl _)
        | cons z p =>
          simp only [List.nil_append, List.cons_append, List.cons.injEq] at h1 h2
          rw [h1.1, h2.1] at hab
          exact absurd hab (lt_irrefl _)
      | cons z pre ih =>
        cases p with
        | nil =>
          simp only [List.nil_append, List.cons_append, List.cons.injEq] at h1 h2
          rw [← h1.1, ← h2.1] at hcd
          exact absurd hcd (lt_irrefl _)
        | cons z' p =>
          simp only [List.cons_append, List.cons.injEq] at h1 h2
          exact ih p h1.2 h2.2

/-- The assignment found comes first among those that fit. -/
theorem find_least (chs : List (List VoiceInterval)) : ∀ (active : ActiveIntervals) (vs ws : List (Fin 8)),
    findBaseVoices chs active = some vs → Fits chs active ws → NotAfter vs ws := by
  induction chs with
  | nil =>
    intro active vs ws h hw
    simp only [findBaseVoices, Option.some.injEq] at h
    subst h
    cases ws with
    | nil => exact .inl rfl
    | cons w ws => exact hw.elim
  | cons ch chs ih =>
    intro active vs ws h hw
    cases ws with
    | nil => exact hw.elim
    | cons w ws =>
      obtain ⟨w1, w2⟩ := hw
      rw [findBaseVoices, List.findSome?_eq_some_iff] at h
      obtain ⟨l1, v, l2, hl, h1, h2⟩ := h
      rw [Option.map_eq_some_iff] at h1
      obtain ⟨vs', h3, rfl⟩ := h1
      obtain ⟨a1, a2⟩ := valid_ascending ch active
      -- a tried voice with a completion is not below `v`
      have key : ∀ u ∈ validVoices ch active, ∀ us, Fits chs (Function.update active u (active u ++ ch)) us → v ≤ u := by
        intro u hu us hf
        obtain ⟨r, hr⟩ := find_complete chs _ us hf
        rw [hl] at hu a1
        rcases List.mem_append.1 hu with hu | hu
        · have := h2 u hu
          rw [hr] at this
          cases this
        · rcases List.mem_cons.1 hu with rfl | hu
          · exact le_refl _
          · rw [List.pairwise_append, List.pairwise_cons] at a1
            exact le_of_lt (a1.2.1.1 u hu)
      have hvw : v ≤ w := by
        rcases a2 w w1 with hm | ⟨e0, u, hu, huw, eu⟩
        · exact key w hm ws w2
        · exact le_trans (key u hu _ (fits_swap chs ch active w u e0 eu ws w2)) (le_of_lt huw)
      rcases lt_or_eq_of_le hvw with h | rfl
      · exact .inr ⟨[], v, w, vs', ws, rfl, rfl, h⟩
      · rcases ih _ _ _ h3 w2 with rfl | ⟨pre, a, b, r, s, rfl, rfl, hab⟩
        · exact .inl rfl
        · exact .inr ⟨v :: pre, a, b, r, s, rfl, rfl, hab⟩

end M2S
