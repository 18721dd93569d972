import Verif.Proofs.Intervals
import Mathlib.Logic.Equiv.Basic
/-
The base-voice search.
-/
namespace M2S
open MidiSpec

/-- No interval of one list clashes with one of the other. -/
def NoClash (a b : List VoiceInterval) : Prop := ∀ x ∈ a, ∀ y ∈ b, intervalsClash x y = false

theorem noClash_symm (a b : List VoiceInterval) (h : NoClash a b) : NoClash b a := by
  intro x hx y hy
  have := h y hy x hx
  unfold intervalsClash at this ⊢
  simp only [Bool.and_eq_false_iff, decide_eq_false_iff_not] at this ⊢
  omega

theorem overlapping_none (a b : List VoiceInterval) : overlappingInterval a b = none ↔ NoClash a b := by
  unfold overlappingInterval NoClash
  simp only [List.findSome?_eq_none_iff, List.find?_eq_none]
  simp

/-- Two lists of non-empty intervals clash iff both have a note sounding at some instant. -/
theorem noClash_iff (a b : List VoiceInterval) (ha : ∀ i ∈ a, i.start < i.stop) (hb : ∀ i ∈ b, i.start < i.stop) :
    NoClash a b ↔ ¬ ∃ t, SoundsAt a t ∧ SoundsAt b t := by
  constructor
  · rintro h ⟨t, ⟨x, hx, x1, x2, x3⟩, ⟨y, hy, y1, y2, y3⟩⟩
    have := h x hx y hy
    unfold intervalsClash at this
    simp only [Bool.and_eq_false_iff, decide_eq_false_iff_not] at this
    omega
  · intro h x hx y hy
    by_contra hc
    have hc : intervalsClash x y = true := by simpa using hc
    unfold intervalsClash at hc
    simp only [Bool.and_eq_true, decide_eq_true_eq] at hc
    have h1 := ha x hx
    have h2 := hb y hy
    exact h ⟨max x.start y.start, ⟨x, hx, by omega, by omega, by omega⟩, ⟨y, hy, by omega, by omega, by omega⟩⟩

theorem valid_sound (ch : List VoiceInterval) (active : ActiveIntervals) : ∀ v ∈ validVoices ch active, NoClash ch (active v) := by
  unfold validVoices
  suffices H : ∀ (l : List (Fin 8)) (st : List (Fin 8) × Bool), (∀ v ∈ st.1, NoClash ch (active v)) →
      ∀ v ∈ (l.foldl (fun (st : List (Fin 8) × Bool) i =>
        let empty := (active i).isEmpty
        if !st.2 || !empty then
          match overlappingInterval ch (active i) with
          | some _ => st
          | none => (st.1 ++ [i], st.2 || empty)
        else st) st).1, NoClash ch (active v) from H _ _ (by simp)
  intro l
  induction l with
  | nil => intro st h; exact h
  | cons i l ih =>
    intro st h
    rw [List.foldl_cons]
    apply ih
    simp only
    split_ifs
    · cases ho : overlappingInterval ch (active i) with
      | some _ => exact h
      | none =>
        intro v hv
        rcases List.mem_append.1 hv with hv | hv
        · exact h v hv
        · simp only [List.mem_singleton] at hv
          subst hv
          exact (overlapping_none _ _).1 ho
    · exact h

/-- A voice that fits is tried, or another unused one is tried and it is unused itself. -/
theorem valid_complete (ch : List VoiceInterval) (active : ActiveIntervals) (v : Fin 8) (hv : NoClash ch (active v)) :
    v ∈ validVoices ch active ∨ (active v = [] ∧ ∃ w ∈ validVoices ch active, active w = []) := by
  unfold validVoices
  suffices H : ∀ (l : List (Fin 8)) (st : List (Fin 8) × Bool), (st.2 = true → ∃ w ∈ st.1, active w = []) →
      ∀ st', st' = (l.foldl (fun (st : List (Fin 8) × Bool) i =>
        let empty := (active i).isEmpty
        if !st.2 || !empty then
          match overlappingInterval ch (active i) with
          | some _ => st
          | none => (st.1 ++ [i], st.2 || empty)
        else st) st) → (∀ w ∈ st.1, w ∈ st'.1) ∧ (v ∈ l → v ∈ st'.1 ∨ (active v = [] ∧ ∃ w ∈ st'.1, active w = [])) from
    (H _ ([], false) (by simp) _ rfl).2 (List.mem_finRange v)
  intro l
  induction l with
  | nil => rintro st h st' rfl; exact ⟨fun w hw => hw, by simp⟩
  | cons i l ih =>
    intro st h st' hst
    rw [List.foldl_cons] at hst
    simp only at hst
    by_cases hb : (!st.2 || !(active i).isEmpty) = true
    · rw [if_pos hb] at hst
      cases ho : overlappingInterval ch (active i) with
      | some x =>
        rw [ho] at hst
        obtain ⟨k1, k2⟩ := ih st h st' hst
        refine ⟨k1, ?_⟩
        intro hm
        rcases List.mem_cons.1 hm with rfl | hm
        · rw [(overlapping_none _ _).2 hv] at ho; cases ho
        · exact k2 hm
      | none =>
        rw [ho] at hst
        obtain ⟨k1, k2⟩ := ih (st.1 ++ [i], st.2 || (active i).isEmpty) (by
          simp only [Bool.or_eq_true, List.isEmpty_iff]
          rintro (h1 | h1)
          · obtain ⟨w, hw, h2⟩ := h h1
            exact ⟨w, by simp [hw], h2⟩
          · exact ⟨i, by simp, h1⟩) st' hst
        refine ⟨fun w hw => k1 w (by simp [hw]), ?_⟩
        intro hm
        rcases List.mem_cons.1 hm with rfl | hm
        · exact .inl (k1 v (by simp))
        · exact k2 hm
    · rw [if_neg hb] at hst
      obtain ⟨k1, k2⟩ := ih st h st' hst
      refine ⟨k1, ?_⟩
      intro hm
      rcases List.mem_cons.1 hm with rfl | hm
      · simp only [Bool.or_eq_true, Bool.not_eq_true', not_or, Bool.not_eq_false, List.isEmpty_iff] at hb
        obtain ⟨w, hw, h2⟩ := h hb.1
        exact .inr ⟨hb.2, w, k1 w hw, h2⟩
      · exact k2 hm

/-- An assignment that fits, step by step. -/
def Fits : List (List VoiceInterval) → ActiveIntervals → List (Fin 8) → Prop
  | [], _, [] => True
  | ch :: chs, active, v :: vs => NoClash ch (active v) ∧ Fits chs (Function.update active v (active v ++ ch)) vs
  | _, _, _ => False

theorem fits_perm (σ : Equiv.Perm (Fin 8)) : ∀ (chs : List (List VoiceInterval)) (active : ActiveIntervals) (vs : List (Fin 8)),
    Fits chs active vs → Fits chs (active ∘ σ.symm) (vs.map σ) := by
  intro chs
  induction chs with
  | nil =>
    intro active vs h
    cases vs with
    | nil => trivial
    | cons v vs => exact h.elim
  | cons ch chs ih =>
    intro active vs h
    cases vs with
    | nil => exact h.elim
    | cons v vs =>
      obtain ⟨h1, h2⟩ := h
      refine ⟨by simpa using h1, ?_⟩
      have := ih _ _ h2
      have e : (Function.update active v (active v ++ ch)) ∘ σ.symm
          = Function.update (active ∘ σ.symm) (σ v) ((active ∘ σ.symm) (σ v) ++ ch) := by
        funext x
        by_cases hx : x = σ v
        · subst hx; simp
        · have : σ.symm x ≠ v := by rintro rfl; simp at hx
          simp [Function.update_of_ne hx, Function.update_of_ne this]
      rw [e] at this
      exact this

theorem find_sound (chs : List (List VoiceInterval)) : ∀ (active : ActiveIntervals) (vs : List (Fin 8)),
    findBaseVoices chs active = some vs → Fits chs active vs := by
  induction chs with
  | nil => intro active vs h; simp only [findBaseVoices, Option.some.injEq] at h; subst h; trivial
  | cons ch chs ih =>
    intro active vs h
    rw [findBaseVoices, List.findSome?_eq_some_iff] at h
    obtain ⟨l1, v, l2, hl, h1, -⟩ := h
    rw [Option.map_eq_some_iff] at h1
    obtain ⟨vs', h2, rfl⟩ := h1
    exact ⟨valid_sound ch active v (by rw [hl]; simp), ih _ _ h2⟩

theorem find_complete (chs : List (List VoiceInterval)) : ∀ (active : ActiveIntervals) (vs : List (Fin 8)),
    Fits chs active vs → ∃ vs', findBaseVoices chs active = some vs' := by
  induction chs with
  | nil => intro active vs _; exact ⟨[], rfl⟩
  | cons ch chs ih =>
    intro active vs h
    cases vs with
    | nil => exact h.elim
    | cons v vs =>
      obtain ⟨h1, h2⟩ := h
      -- some tried voice succeeds
      have tried : ∃ w ∈ validVoices ch active, ∃ ws, Fits chs (Function.update active w (active w ++ ch)) ws := by
        rcases valid_complete ch active v h1 with hv | ⟨hv, w, hw, hw0⟩
        · exact ⟨v, hv, vs, h2⟩
        · refine ⟨w, hw, vs.map (Equiv.swap v w), ?_⟩
          have := fits_perm (Equiv.swap v w) _ _ _ h2
          have e : (Function.update active v (active v ++ ch)) ∘ (Equiv.swap v w).symm = Function.update active w (active w ++ ch) := by
            funext x
            simp only [Equiv.symm_swap, Function.comp]
            by_cases hx : x = w
            · subst hx; simp [hv, hw0]
            · rw [Function.update_of_ne hx]
              by_cases hxv : x = v
              · subst hxv
                rw [Equiv.swap_apply_left, Function.update_of_ne (Ne.symm hx), hw0, hv]
              · rw [Equiv.swap_apply_of_ne_of_ne hxv hx, Function.update_of_ne hxv]
          rw [e] at this
          exact this
      obtain ⟨w, hw, ws, hws⟩ := tried
      obtain ⟨vs', hvs'⟩ := ih _ _ hws
      cases hf : findBaseVoices (ch :: chs) active with
      | some r => exact ⟨r, rfl⟩
      | none =>
        rw [findBaseVoices, List.findSome?_eq_none_iff] at hf
        have := hf w hw
        rw [hvs'] at this
        cases this

theorem fits_iff (chs : List (List VoiceInterval)) : ∀ (active : ActiveIntervals) (vs : List (Fin 8)), Fits chs active vs ↔
    chs.length = vs.length ∧ (∀ p ∈ chs.zip vs, NoClash p.1 (active p.2)) ∧ (chs.zip vs).Pairwise fun p q => p.2 = q.2 → NoClash q.1 p.1 := by
  induction chs with
  | nil => intro active vs; cases vs <;> simp [Fits]
  | cons ch chs ih =>
    intro active vs
    cases vs with
    | nil => simp [Fits]
    | cons v vs =>
      simp only [Fits, ih, List.length_cons, Nat.add_right_cancel_iff, List.zip_cons_cons, List.mem_cons, forall_eq_or_imp, List.pairwise_cons]
      have key : ∀ p : List VoiceInterval × Fin 8, NoClash p.1 (Function.update active v (active v ++ ch) p.2) ↔ NoClash p.1 (active p.2) ∧ (v = p.2 → NoClash p.1 ch) := by
        rintro ⟨a, w⟩
        by_cases hw : w = v
        · subst hw
          simp only [Function.update_self, forall_const]
          unfold NoClash
          simp only [List.mem_append]
          constructor
          · intro h; exact ⟨fun x hx y hy => h x hx y (.inl hy), fun x hx y hy => h x hx y (.inr hy)⟩
          · rintro ⟨h1, h2⟩ x hx y (hy | hy)
            · exact h1 x hx y hy
            · exact h2 x hx y hy
        · simp [Function.update_of_ne hw, Ne.symm hw]
      simp only [key]
      constructor
      · rintro ⟨h1, h2, h3, h4⟩
        exact ⟨h2, ⟨h1, fun p hp => (h3 p hp).1⟩, fun p hp => (h3 p hp).2, h4⟩
      · rintro ⟨h1, ⟨h2, h3⟩, h4, h5⟩
        exact ⟨h2, h1, fun p hp => ⟨h3 p hp, h4 p hp⟩, h5⟩

/-- For the 16 channels. -/
theorem fits_channels (ivs : Fin 16 → List VoiceInterval) (f : Fin 16 → Fin 8) :
    Fits ((List.finRange 16).map ivs) (fun _ => []) ((List.finRange 16).map f) ↔ ∀ c c', c ≠ c' → f c = f c' → NoClash (ivs c) (ivs c') := by
  rw [fits_iff, List.zip_map', List.pairwise_map]
  constructor
  · rintro ⟨-, -, h⟩ c c' hne heq
    rw [List.pairwise_iff_getElem] at h
    have key : ∀ a b : Fin 16, a < b → f a = f b → NoClash (ivs b) (ivs a) := by
      intro a b hab e
      have := h a b (by simp) (by simp) hab
      simp only [List.getElem_finRange] at this
      exact this e
    rcases lt_or_gt_of_ne hne with hlt | hlt
    · exact noClash_symm _ _ (key c c' hlt heq)
    · exact key c' c hlt heq.symm
  · intro h
    refine ⟨by simp, ?_, ?_⟩
    · intro p _ x _ y hy; simp at hy
    · exact (List.nodup_finRange 16).imp fun {a b} hab (heq : f a = f b) => h b a (Ne.symm hab) heq.symm

theorem find_getD (ivs : Fin 16 → List VoiceInterval) (bs : List (Fin 8)) (h : findBaseVoices ((List.finRange 16).map ivs) (fun _ => []) = some bs) :
    bs = (List.finRange 16).map fun c : Fin 16 => bs.getD c 0 := by
  have := ((fits_iff _ _ _).1 (find_sound _ _ _ h)).1
  simp only [List.length_map, List.length_finRange] at this
  apply List.ext_getElem
  · simp [← this]
  · intro i h1 h2
    simp only [List.getElem_map, List.getElem_finRange]
    simp [List.getD_eq_getElem?_getD, List.getElem?_eq_getElem h1]

end M2S
