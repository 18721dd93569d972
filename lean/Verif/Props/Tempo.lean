import Verif.Proofs.F32
import Verif.Proofs.Res
import Verif.Track
/-
Property C30: the tempo byte.
-/
namespace M2S

/-- Beats per minute as computed for a nonzero tempo value: a positive integer. -/
theorem bpm_eq (usec : Nat) (h0 : 0 < usec) (h : usec < 2 ^ 24) :
    ((F32.fin 60000000).div (F32.ofNat usec)).ceil = .fin ⌈rnd (60000000 / usec)⌉ ∧ (1 : ℤ) ≤ ⌈rnd (60000000 / usec)⌉ := by
  have hu : (0 : ℚ) < usec := by exact_mod_cast h0
  have hu1 : (1 : ℚ) ≤ usec := by exact_mod_cast h0
  have huu : (usec : ℚ) ≤ 2 ^ 24 := by exact_mod_cast h.le
  have h1 : (1 : ℚ) ≤ 60000000 / usec := by rw [le_div_iff₀ hu]; norm_num at huu ⊢; linarith
  have hr1 : (1 : ℚ) ≤ rnd (60000000 / usec) := by
    have := rnd_mono (a := (1 : ℕ)) (by norm_num) (by simpa using h1)
    rw [rnd_natCast 1 (by norm_num)] at this
    simpa using this
  have h2 : (60000000 / usec : ℚ) ≤ (2 ^ 26 : ℚ) := by
    rw [div_le_iff₀ hu]; norm_num; linarith
  have hr2 : rnd (60000000 / usec) < 2 ^ 128 := by
    have h3 := rnd_mono (by linarith) h2
    have h4 : rnd (2 ^ 26) = 2 ^ 26 := by
      refine rnd_exact (e := 26) ?_ 1 (by norm_num)
      rw [ulpExp_of_pos (by norm_num), log_of_binade (L := 26) (by norm_num) (by norm_num)]
      norm_num
    rw [h4] at h3
    exact lt_of_le_of_lt h3 (by norm_num)
  refine ⟨?_, ?_⟩
  · rw [ofNat_fin usec h.le]
    simp only [F32.div]
    rw [if_neg hu.ne', ofRat_fin (by linarith) hr2]
    rfl
  · have : (1 : ℚ) ≤ ⌈rnd (60000000 / usec)⌉ := le_trans hr1 (Int.le_ceil _)
    exact_mod_cast this

theorem bpm_zero : ((F32.fin 60000000).div (F32.ofNat 0)).ceil = .inf false := by
  rw [ofNat_fin 0 (by norm_num)]
  simp [F32.div, F32.ceil]

theorem toUnsigned_le (m : Nat) (x : F32) : x.toUnsigned m ≤ m := by
  cases x with
  | fin q => exact min_le_right _ _
  | inf s => cases s <;> simp [F32.toUnsigned]
  | nan => simp [F32.toUnsigned]

theorem tempoByte_toNat (usec : Nat) (f : F32) :
    (tempoByte usec f).toNat = ((((F32.fin 60000000).div (F32.ofNat usec)).ceil).mul f).toUnsigned 255 := by
  unfold tempoByte
  rw [UInt8.toNat_ofNat']
  have := toUnsigned_le 255 ((((F32.fin 60000000).div (F32.ofNat usec)).ceil).mul f)
  omega

theorem ofRat_nonpos {q : ℚ} (h : q ≤ 0) (m : Nat) : (F32.ofRat q).toUnsigned m = 0 := by
  unfold F32.ofRat
  split_ifs with h1
  · have hq : q < 0 := by
      rcases lt_or_eq_of_le h with h | h
      · exact h
      · rw [h, rnd_zero] at h1; norm_num at h1
    simp [F32.toUnsigned, hq]
  · simp [F32.toUnsigned, Nat.floor_of_nonpos (rnd_nonpos h)]

theorem ofRat_mono {a b : ℚ} (ha : 0 ≤ a) (hab : a ≤ b) (m : Nat) : (F32.ofRat a).toUnsigned m ≤ (F32.ofRat b).toUnsigned m := by
  have hr := rnd_mono ha hab
  have h0 := rnd_nonneg ha
  have h0b := rnd_nonneg (le_trans ha hab)
  unfold F32.ofRat
  rw [abs_of_nonneg h0, abs_of_nonneg h0b]
  by_cases h1 : 2 ^ 128 ≤ rnd b
  · rw [if_pos h1]
    have : ¬ b < 0 := not_lt.2 (le_trans ha hab)
    simp only [this, decide_false, F32.toUnsigned, Bool.false_eq_true, if_false]
    exact toUnsigned_le m _
  · rw [if_neg h1, if_neg (fun h => h1 (le_trans h hr))]
    exact min_le_min_right m (Nat.floor_mono hr)

/-- **C30.** For every tempo factor (any `f32`, also negative, infinite or NaN) and all 24-bit tempo values: a shorter beat never gives a smaller tempo byte. -/
theorem C30_tempo_monotone (f : F32) (u v : Nat) (huv : u ≤ v) (hv : v < 2 ^ 24) : (tempoByte v f).toNat ≤ (tempoByte u f).toNat := by
  rw [tempoByte_toNat, tempoByte_toNat]
  rcases Nat.eq_zero_or_pos v with rfl | hv0
  · rw [show u = 0 by omega]
  obtain ⟨ev, pv⟩ := bpm_eq v hv0 hv
  rw [ev]
  have pvq : (1 : ℚ) ≤ ⌈rnd (60000000 / v)⌉ := by exact_mod_cast pv
  rcases Nat.eq_zero_or_pos u with rfl | hu0
  · rw [bpm_zero]
    cases f with
    | nan => simp [F32.mul, F32.toUnsigned]
    | inf s =>
      have : ¬ ((⌈rnd (60000000 / v)⌉ : ℤ) : ℚ) = 0 := by linarith
      have h2 : ¬ ((⌈rnd (60000000 / v)⌉ : ℤ) : ℚ) < 0 := by linarith
      simp only [F32.mul]
      rw [if_neg this]
      simp only [h2, decide_false]
      cases s <;> exact Nat.le_refl _
    | fin b =>
      rcases lt_trichotomy b 0 with hb | hb | hb
      · have : ((⌈rnd (60000000 / v)⌉ : ℤ) : ℚ) * b ≤ 0 := by nlinarith
        simp only [F32.mul]
        rw [ofRat_nonpos this]
        exact Nat.zero_le _
      · subst hb
        simp only [F32.mul, mul_zero]
        rw [ofRat_nonpos (le_refl 0)]
        exact Nat.zero_le _
      · simp only [F32.mul]
        rw [if_neg hb.ne']
        have : ¬ b < 0 := not_lt.2 hb.le
        simp only [this, decide_false, Bool.xor_false, F32.toUnsigned, Bool.false_eq_true, if_false]
        exact toUnsigned_le 255 _
  · obtain ⟨eu, pu⟩ := bpm_eq u hu0 (by omega)
    rw [eu]
    have puq : (1 : ℚ) ≤ ⌈rnd (60000000 / u)⌉ := by exact_mod_cast pu
    have hle : ((⌈rnd (60000000 / v)⌉ : ℤ) : ℚ) ≤ ⌈rnd (60000000 / u)⌉ := by
      have huq : (0 : ℚ) < u := by exact_mod_cast hu0
      have hvu : (u : ℚ) ≤ v := by exact_mod_cast huv
      have h1 : (60000000 : ℚ) / v ≤ 60000000 / u := div_le_div_of_nonneg_left (by norm_num) huq hvu
      have h2 : rnd (60000000 / v) ≤ rnd (60000000 / u) := rnd_mono (by positivity) h1
      exact_mod_cast Int.ceil_le_ceil h2
    cases f with
    | nan => simp [F32.mul, F32.toUnsigned]
    | inf s =>
      have a1 : ¬ ((⌈rnd (60000000 / v)⌉ : ℤ) : ℚ) = 0 := by linarith
      have a2 : ¬ ((⌈rnd (60000000 / v)⌉ : ℤ) : ℚ) < 0 := by linarith
      have a3 : ¬ ((⌈rnd (60000000 / u)⌉ : ℤ) : ℚ) = 0 := by linarith
      have a4 : ¬ ((⌈rnd (60000000 / u)⌉ : ℤ) : ℚ) < 0 := by linarith
      simp only [F32.mul]
      rw [if_neg a1, if_neg a3]
      simp only [a2, a4, decide_false]
      exact Nat.le_refl _
    | fin b =>
      rcases le_total b 0 with hb | hb
      · have : ((⌈rnd (60000000 / v)⌉ : ℤ) : ℚ) * b ≤ 0 := by nlinarith
        simp only [F32.mul]
        rw [ofRat_nonpos this]
        exact Nat.zero_le _
      · simp only [F32.mul]
        exact ofRat_mono (by positivity) (mul_le_mul_of_nonneg_right hle hb) 255

/-- **C30**, accuracy: the tempo byte is the tempo in beats per minute times the factor, up to rounding the tempo up to whole beats per minute and the product down (and
1/1000 for `f32`), as long as it fits a byte. -/
theorem C30_tempo_accuracy (q : ℚ) (hq : 1 / 65536 ≤ q) (u : Nat) (h0 : 0 < u) (hu : u < 2 ^ 24) (hx : ((60000000 : ℚ) / u + 1) * q < 256) :
    (60000000 : ℚ) / u * q - 1 - 1 / 1000 < (tempoByte u (.fin q)).toNat ∧ ((tempoByte u (.fin q)).toNat : ℚ) < ((60000000 : ℚ) / u + 1) * q + 1 / 1000 := by
  rw [tempoByte_toNat]
  obtain ⟨e, pm⟩ := bpm_eq u h0 hu
  rw [e]
  have hu0 : (0 : ℚ) < u := by exact_mod_cast h0
  set x : ℚ := 60000000 / u with hxdef
  have hu2 : (u : ℚ) < 2 ^ 24 := by exact_mod_cast hu
  have hx1 : 1 ≤ x := by rw [hxdef, le_div_iff₀ hu0]; norm_num at hu2 ⊢; linarith
  have hx2 : x < 2 ^ 24 - 1 := by nlinarith
  have hceil : (0 : ℤ) ≤ ⌈x⌉ := Int.ceil_nonneg (by linarith)
  have hc1 := Int.ceil_lt_add_one x
  have hc2 := Int.le_ceil x
  obtain ⟨n, hn⟩ := Int.eq_ofNat_of_zero_le hceil
  have hnx : (n : ℚ) = ⌈x⌉ := by rw [hn]; rfl
  have hn2 : n ≤ 2 ^ 24 := by
    have : (n : ℚ) < 2 ^ 24 := by rw [hnx]; linarith
    exact_mod_cast this.le
  set m : ℤ := ⌈rnd x⌉ with hm
  have hm1 : (m : ℚ) < x + 1 := by
    have h1 : rnd x ≤ n := by
      rw [← rnd_natCast n hn2]
      exact rnd_mono (by linarith) (by rw [hnx]; exact hc2)
    have h2 : m ≤ n := Int.ceil_le.2 (by exact_mod_cast h1)
    have h3 : (m : ℚ) ≤ n := by exact_mod_cast h2
    linarith
  have hm2 : x - x * 2 ^ (-24 : ℤ) ≤ m := by
    have h1 := rnd_err (q := x) (le_trans (by norm_num) hx1)
    have h2 := Int.le_ceil (rnd x)
    have h3 := (abs_le.1 h1).1
    linarith
  have hm3 : (1 : ℚ) ≤ m := by exact_mod_cast pm
  have hq0 : 0 < q := lt_of_lt_of_le (by norm_num) hq
  have hmq : (m : ℚ) * q < 256 := by nlinarith
  have hmq0 : q ≤ (m : ℚ) * q := by nlinarith
  have herr := abs_le.1 (rnd_err (q := m * q) (le_trans (le_trans (by norm_num) hq) hmq0))
  norm_num at herr hm2
  have hr0 : 0 ≤ rnd (m * q) := rnd_nonneg (by linarith)
  have hr1 : rnd (m * q) < 257 := by linarith
  have hv : F32.ofRat (m * q) = .fin (rnd (m * q)) := ofRat_fin hr0 (lt_trans hr1 (by norm_num))
  simp only [F32.mul, hv, F32.toUnsigned]
  have hr2 : rnd (m * q) ≤ 256 := by
    have h1 := rnd_mono (a := m * q) (b := (256 : ℕ)) (by linarith) (by push_cast; linarith)
    rw [rnd_natCast 256 (by norm_num)] at h1
    exact_mod_cast h1
  have f1 := Nat.floor_le hr0
  have f2 := Nat.lt_floor_add_one (rnd (m * q))
  have hxq : x * q < 256 := by nlinarith
  have hmx : x * q - x * q * (1 / 16777216) ≤ m * q := by nlinarith
  constructor
  · rcases le_total ⌊rnd (m * q)⌋₊ 255 with h | h
    · rw [min_eq_left h]
      linarith
    · rw [min_eq_right h]
      push_cast
      linarith
  · have : ((min ⌊rnd (m * q)⌋₊ 255 : ℕ) : ℚ) ≤ ⌊rnd (m * q)⌋₊ := by exact_mod_cast min_le_left _ _
    nlinarith

example : (1 : ℚ) / 65536 ≤ 13421773 / 67108864 ∧ ((60000000 : ℚ) / 500000 + 1) * (13421773 / 67108864) < 256 := by norm_num

/-- **C30**, the event: the three data bytes give the tempo value, and the tempo byte is what the event appends. -/
theorem C30_tempo_event (tpb : Nat) (f : F32) (st : TrackState) (dl t : Nat) (a b c : UInt8) (more : List UInt8) :
    ∃ st', trackStep tpb f st (.metaEvent dl .setTempo (a :: b :: c :: more), t) = .ok st' ∧
      st'.commands = st.commands ++ [⟨none, none, none, .tempo (tempoByte (a.toNat * 65536 + b.toNat * 256 + c.toNat) f)⟩] ∧
      a.toNat * 65536 + b.toNat * 256 + c.toNat < 2 ^ 24 := by
  refine ⟨_, rfl, rfl, ?_⟩
  have := a.toNat_lt
  have := b.toNat_lt
  have := c.toNat_lt
  omega

/-- The default factor 0.2 (as `f32`): 120 bpm give tempo 24; the extremes saturate. -/
example : tempoByte 500000 (.fin (13421773 / 67108864)) = 24 ∧ tempoByte 1 (.fin (13421773 / 67108864)) = 255 ∧ tempoByte 0 (.fin (13421773 / 67108864)) = 255 ∧
    tempoByte 16777215 (.fin (13421773 / 67108864)) = 0 := by
  decide +kernel

end M2S
