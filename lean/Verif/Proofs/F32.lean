import Verif.F32
import Mathlib.Tactic.Linarith
import Mathlib.Tactic.Ring
import Mathlib.Tactic.NormNum
import Mathlib.Tactic.Positivity
import Mathlib.Tactic.FieldSimp
import Mathlib.Tactic.LinearCombination
import Mathlib.Algebra.Order.Field.Power
/-
Facts about binary32 rounding.
-/
namespace M2S

theorem roundEven_of_near (x : ℚ) (j : ℤ) (h : |x - j| < 1 / 2) : roundEven x = j := by
  rw [abs_lt] at h
  unfold roundEven
  have hf1 := Int.floor_le x
  have hf2 := Int.lt_floor_add_one x
  rcases le_or_gt (j : ℚ) x with hx | hx
  · have : ⌊x⌋ = j := by rw [Int.floor_eq_iff]; constructor <;> linarith
    simp only [this]
    rw [if_pos (by linarith)]
  · have : ⌊x⌋ = j - 1 := by rw [Int.floor_eq_iff]; push_cast; constructor <;> linarith
    simp only [this]
    push_cast
    rw [if_neg (by linarith), if_pos (by linarith)]
    ring

theorem roundEven_of_tie (x : ℚ) (j : ℤ) (hj : j % 2 = 0) (h : |x - j| ≤ 1 / 2) : roundEven x = j := by
  rcases lt_or_eq_of_le h with h | h
  · exact roundEven_of_near x j h
  · unfold roundEven
    rcases abs_eq (by norm_num : (0 : ℚ) ≤ 1 / 2) |>.1 h with h | h
    · have : ⌊x⌋ = j := by rw [Int.floor_eq_iff]; constructor <;> linarith
      simp only [this]
      rw [if_neg (by linarith), if_neg (by linarith), if_pos hj]
    · have : ⌊x⌋ = j - 1 := by rw [Int.floor_eq_iff]; push_cast; constructor <;> linarith
      simp only [this]
      push_cast
      rw [if_neg (by linarith), if_neg (by linarith), if_neg (by omega)]
      ring

theorem roundEven_int (j : ℤ) : roundEven j = j := roundEven_of_near _ _ (by norm_num)

theorem roundEven_err (x : ℚ) : |x - roundEven x| ≤ 1 / 2 := by
  unfold roundEven
  have hf1 := Int.floor_le x
  have hf2 := Int.lt_floor_add_one x
  dsimp only
  rw [abs_le]
  split_ifs <;> push_cast <;> constructor <;> linarith

theorem roundEven_mono {x y : ℚ} (h : x ≤ y) : roundEven x ≤ roundEven y := by
  have hfl := Int.floor_le_floor h
  rcases lt_or_eq_of_le hfl with hlt | heq
  · have h1 : roundEven x ≤ ⌊x⌋ + 1 := by unfold roundEven; dsimp only; split_ifs <;> omega
    have h2 : ⌊y⌋ ≤ roundEven y := by unfold roundEven; dsimp only; split_ifs <;> omega
    omega
  · unfold roundEven
    dsimp only
    rw [← heq]
    split_ifs <;> first | omega | (exfalso; linarith)

/-- The logarithm from the binade. -/
theorem log_of_binade {q : ℚ} {L : ℤ} (h1 : 2 ^ L ≤ q) (h2 : q < 2 ^ (L + 1)) : Int.log 2 q = L := by
  have hq : 0 < q := lt_of_lt_of_le (by positivity) h1
  apply le_antisymm
  · have := (Int.lt_zpow_iff_log_lt (b := 2) (by norm_num) hq (x := L + 1)).1 (by exact_mod_cast h2)
    omega
  · exact (Int.zpow_le_iff_le_log (b := 2) (by norm_num) hq).1 (by exact_mod_cast h1)

theorem binade_of_pos {q : ℚ} (hq : 0 < q) : (2 : ℚ) ^ Int.log 2 q ≤ q ∧ q < 2 ^ (Int.log 2 q + 1) := by
  constructor
  · exact_mod_cast Int.zpow_log_le_self (b := 2) (by norm_num) hq
  · exact_mod_cast Int.lt_zpow_succ_log_self (b := 2) (by norm_num) q

theorem rnd_of_binade {q : ℚ} {L : ℤ} (h1 : 2 ^ L ≤ q) (h2 : q < 2 ^ (L + 1)) (hL : -126 ≤ L) :
    rnd q = roundEven (q / 2 ^ (L - 23)) * 2 ^ (L - 23) := by
  have hq : 0 < q := lt_of_lt_of_le (by positivity) h1
  unfold rnd ulpExp
  rw [abs_of_pos hq, log_of_binade h1 h2, max_eq_left hL]

/-- Multiples of the unit in the last place of anything at least as large are not changed by rounding. -/
theorem rnd_exact {q : ℚ} {e : ℤ} (he : ulpExp q ≤ e) (m : ℤ) (hq : q = m * 2 ^ e) : rnd q = q := by
  unfold rnd
  obtain ⟨n, hn⟩ : ∃ n : ℕ, e = ulpExp q + n := ⟨(e - ulpExp q).toNat, by omega⟩
  have h2 : (2 : ℚ) ^ e = 2 ^ ulpExp q * 2 ^ n := by
    rw [hn, zpow_add₀ (by norm_num), zpow_natCast]
  have hp : (2 : ℚ) ^ ulpExp q ≠ 0 := by positivity
  have : q / 2 ^ ulpExp q = ((m * 2 ^ n : ℤ) : ℚ) := by
    push_cast
    rw [div_eq_iff hp]
    conv_lhs => rw [hq, h2]
    ring
  rw [this, roundEven_int]
  push_cast
  conv_rhs => rw [hq, h2]
  ring

theorem rnd_zero : rnd 0 = 0 := by simp [rnd, show roundEven 0 = 0 from by simpa using roundEven_int 0]

/-- Integers up to `2^24` are binary32 values. -/
theorem rnd_natCast (n : ℕ) (hn : n ≤ 2 ^ 24) : rnd n = n := by
  rcases Nat.eq_zero_or_pos n with rfl | hpos
  · simpa using rnd_zero
  rcases Nat.lt_or_ge n (2 ^ 24) with h | h
  · have hq : (0 : ℚ) < n := by exact_mod_cast hpos
    apply rnd_exact (e := 0) _ n (by simp)
    unfold ulpExp
    rw [abs_of_pos hq]
    have : Int.log 2 (n : ℚ) < 24 := by
      rw [← Int.lt_zpow_iff_log_lt (b := 2) (by norm_num) hq]
      exact_mod_cast h
    omega
  · have : n = 2 ^ 24 := le_antisymm hn h
    subst this
    rw [rnd_of_binade (L := 24) (by norm_num) (by norm_num) (by norm_num)]
    have := roundEven_int (2 ^ 23)
    norm_num at this ⊢
    rw [this]
    norm_num

theorem rnd_two_pow_28 : rnd (2 ^ 28) = 2 ^ 28 := by
  rw [rnd_of_binade (L := 28) (by norm_num) (by norm_num) (by norm_num)]
  have := roundEven_int (2 ^ 23)
  norm_num at this ⊢
  rw [this]
  norm_num

theorem rnd_nonpos {q : ℚ} (h : q ≤ 0) : rnd q ≤ 0 := by
  unfold rnd
  have h1 : q / 2 ^ ulpExp q ≤ (0 : ℤ) := by
    rw [Int.cast_zero]; exact div_nonpos_of_nonpos_of_nonneg h (by positivity)
  have h2 := roundEven_mono h1
  rw [roundEven_int] at h2
  exact mul_nonpos_of_nonpos_of_nonneg (by exact_mod_cast h2) (by positivity)

theorem rnd_nonneg {q : ℚ} (h : 0 ≤ q) : 0 ≤ rnd q := by
  unfold rnd
  have h1 : ((0 : ℤ) : ℚ) ≤ q / 2 ^ ulpExp q := by
    rw [Int.cast_zero]; exact div_nonneg h (by positivity)
  have h2 := roundEven_mono h1
  rw [roundEven_int] at h2
  exact mul_nonneg (by exact_mod_cast h2) (by positivity)

theorem ulpExp_of_pos {q : ℚ} (h : 0 < q) : ulpExp q = max (Int.log 2 q) (-126) - 23 := by
  unfold ulpExp; rw [abs_of_pos h]

/-- Rounding is monotone (on non-negative values). -/
theorem rnd_mono {a b : ℚ} (ha : 0 ≤ a) (hab : a ≤ b) : rnd a ≤ rnd b := by
  rcases eq_or_lt_of_le ha with h0 | ha
  · rw [← h0, rnd_zero]; exact rnd_nonneg (h0 ▸ hab)
  have hb : 0 < b := lt_of_lt_of_le ha hab
  have hlog : Int.log 2 a ≤ Int.log 2 b := Int.log_mono_right ha hab
  rcases eq_or_lt_of_le (show ulpExp a ≤ ulpExp b by rw [ulpExp_of_pos ha, ulpExp_of_pos hb]; omega) with he | he
  · unfold rnd
    rw [he]
    have h : a / 2 ^ ulpExp b ≤ b / 2 ^ ulpExp b := by
      apply div_le_div_of_nonneg_right hab; positivity
    have := roundEven_mono h
    have : ((roundEven (a / 2 ^ ulpExp b) : ℤ) : ℚ) ≤ roundEven (b / 2 ^ ulpExp b) := by exact_mod_cast this
    apply mul_le_mul_of_nonneg_right this; positivity
  · -- `a` is below the binade of `b`
    set L := Int.log 2 b with hL
    have hLb := (binade_of_pos hb).1
    rw [← hL] at hLb
    have haL : a < 2 ^ L := by
      have : Int.log 2 a < L := by rw [ulpExp_of_pos ha, ulpExp_of_pos hb] at he; omega
      exact_mod_cast (Int.lt_zpow_iff_log_lt (b := 2) (by norm_num) ha).2 this
    have hgen : ∀ e : ℤ, e ≤ L → ∃ z : ℤ, (2 : ℚ) ^ L / 2 ^ e = z ∧ (z : ℚ) * 2 ^ e = 2 ^ L := by
      intro e hle
      refine ⟨2 ^ (L - e).toNat, ?_, ?_⟩
      · rw [← zpow_sub₀ (by norm_num)]
        push_cast
        rw [← zpow_natCast, Int.toNat_of_nonneg (by omega)]
      · push_cast
        rw [← zpow_natCast, Int.toNat_of_nonneg (by omega), ← zpow_add₀ (by norm_num)]
        congr 1; ring
    have heb : ulpExp b ≤ L := by rw [ulpExp_of_pos hb] at he ⊢; rw [ulpExp_of_pos ha] at he; omega
    calc rnd a ≤ 2 ^ L := by
          obtain ⟨z, h1, h2⟩ := hgen (ulpExp a) (by omega)
          unfold rnd
          rw [← h2]
          apply mul_le_mul_of_nonneg_right _ (by positivity)
          have : a / 2 ^ ulpExp a ≤ (z : ℚ) := by
            rw [← h1]; apply div_le_div_of_nonneg_right haL.le; positivity
          have := roundEven_mono this
          rw [roundEven_int] at this
          exact_mod_cast this
      _ ≤ rnd b := by
          obtain ⟨z, h1, h2⟩ := hgen (ulpExp b) heb
          unfold rnd
          rw [← h2]
          apply mul_le_mul_of_nonneg_right _ (by positivity)
          have : (z : ℚ) ≤ b / 2 ^ ulpExp b := by
            rw [← h1]; apply div_le_div_of_nonneg_right hLb; positivity
          have := roundEven_mono this
          rw [roundEven_int] at this
          exact_mod_cast this

/-- The relative error of rounding in the normal range. -/
theorem rnd_err {q : ℚ} (h : 2 ^ (-126 : ℤ) ≤ q) : |rnd q - q| ≤ q * 2 ^ (-24 : ℤ) := by
  have hq : 0 < q := lt_of_lt_of_le (by positivity) h
  obtain ⟨h1, h2⟩ := binade_of_pos hq
  set L := Int.log 2 q with hL
  have hL126 : -126 ≤ L := (Int.zpow_le_iff_le_log (b := 2) (by norm_num) hq).1 (by exact_mod_cast h)
  rw [rnd_of_binade h1 h2 hL126]
  have hu : (0 : ℚ) < 2 ^ (L - 23) := by positivity
  have herr := roundEven_err (q / 2 ^ (L - 23))
  have hrw : (roundEven (q / 2 ^ (L - 23)) : ℚ) * 2 ^ (L - 23) - q =
      -((q / 2 ^ (L - 23) - roundEven (q / 2 ^ (L - 23))) * 2 ^ (L - 23)) := by
    field_simp
    ring
  rw [hrw, abs_neg, abs_mul, abs_of_pos hu]
  calc _ ≤ 1 / 2 * 2 ^ (L - 23) := mul_le_mul_of_nonneg_right herr hu.le
    _ = 2 ^ L * 2 ^ (-24 : ℤ) := by
        rw [← zpow_add₀ (by norm_num), show (1 / 2 : ℚ) = 2 ^ (-1 : ℤ) by norm_num, ← zpow_add₀ (by norm_num)]
        congr 1; ring
    _ ≤ q * 2 ^ (-24 : ℤ) := mul_le_mul_of_nonneg_right h1 (by positivity)

/-- Kahan's theorem for the divisor 24 = 16 + 8: dividing by 24 and multiplying by 24, both rounded, is the identity. -/
theorem rnd_div_mul_24 (k : ℕ) (hk : k < 2 ^ 23) : rnd (rnd (k / 24) * 24) = k := by
  rcases Nat.eq_zero_or_pos k with rfl | hpos
  · simp [rnd_zero]
  have hkq : (0 : ℚ) < k := by exact_mod_cast hpos
  have hk1 : (1 : ℚ) ≤ k := by exact_mod_cast hpos
  have hx : (0 : ℚ) < (k : ℚ) / 24 := by positivity
  obtain ⟨h1, h2⟩ := binade_of_pos hx
  set L := Int.log 2 ((k : ℚ) / 24) with hL
  have hLlo : -5 ≤ L := by
    apply (Int.zpow_le_iff_le_log (b := 2) (by norm_num) hx).1
    norm_num
    linarith
  have hLhi : L ≤ 18 := by
    have : L < 19 := by
      apply (Int.lt_zpow_iff_log_lt (b := 2) (by norm_num) hx).1
      have : (k : ℚ) < 8388608 := by exact_mod_cast hk
      norm_num
      linarith
    omega
  set u : ℚ := 2 ^ (L - 23) with hu
  have hupos : 0 < u := by positivity
  have hpow : ∀ (n : ℕ), (2 : ℚ) ^ (L - 23 + n) = u * 2 ^ n := by
    intro n; rw [zpow_add₀ (by norm_num), zpow_natCast]
  have e23 : (2 : ℚ) ^ L = u * 2 ^ 23 := by rw [← hpow 23]; congr 1; norm_num
  have e24 : (2 : ℚ) ^ (L + 1) = u * 2 ^ 24 := by rw [← hpow 24]; congr 1; norm_num; ring
  -- `k = K u` with `K` a multiple of 32
  obtain ⟨n, hn⟩ : ∃ n : ℕ, L - 23 + (5 + n : ℕ) = 0 := ⟨(18 - L).toNat, by push_cast; omega⟩
  have hun : u * 2 ^ (5 + n) = 1 := by rw [← hpow, hn, zpow_zero]
  set K : ℤ := k * 2 ^ n * 32 with hK
  have hKu : (K : ℚ) * u = k := by
    rw [hK]; push_cast
    have : (2 : ℚ) ^ (5 + n) = 32 * 2 ^ n := by rw [pow_add]; norm_num
    rw [this] at hun
    linear_combination (k : ℚ) * hun
  have hlo : 24 * 2 ^ 23 ≤ K := by
    have : (24 * 2 ^ 23 : ℚ) ≤ K := by
      rw [e23] at h1
      have : u * (24 * 2 ^ 23) ≤ u * K := by linarith
      exact le_of_mul_le_mul_left this hupos
    exact_mod_cast this
  have hhi : K < 24 * 2 ^ 24 := by
    have : (K : ℚ) < 24 * 2 ^ 24 := by
      rw [e24] at h2
      have : u * K < u * (24 * 2 ^ 24) := by linarith
      exact lt_of_mul_lt_mul_left this hupos.le
    exact_mod_cast this
  -- the quotient
  have hq : (k : ℚ) / 24 / u = K / 24 := by rw [← hKu]; field_simp
  have hr : rnd ((k : ℚ) / 24) = roundEven ((K : ℚ) / 24) * u := by
    rw [rnd_of_binade h1 h2 (by omega), ← hu, hq]
  set M := roundEven ((K : ℚ) / 24) with hM
  have herr := roundEven_err ((K : ℚ) / 24)
  rw [← hM, abs_le] at herr
  have hd1 : 24 * M - K ≤ 12 := by
    have : (24 * M - K : ℚ) ≤ 12 := by linarith
    exact_mod_cast this
  have hd2 : -12 ≤ 24 * M - K := by
    have : (-12 : ℚ) ≤ 24 * M - K := by linarith
    exact_mod_cast this
  have hd : 24 * M - K = 0 ∨ 24 * M - K = 8 ∨ 24 * M - K = -8 := by omega
  have hx24 : rnd ((k : ℚ) / 24) * 24 = (24 * M : ℤ) * u := by rw [hr]; push_cast; ring
  rw [hx24]
  have hdq : |((24 * M : ℤ) : ℚ) - K| ≤ 8 := by
    rw [abs_le]
    constructor
    · have : -8 ≤ 24 * M - K := by omega
      exact_mod_cast this
    · have : 24 * M - K ≤ 8 := by omega
      exact_mod_cast this
  rcases lt_or_ge (24 * M) (2 ^ 28) with hc | hc
  · -- unit 16 u
    have hb1 : (2 : ℚ) ^ (L + 4) ≤ (24 * M : ℤ) * u := by
      rw [show L + 4 = L - 23 + (27 : ℕ) by push_cast; ring, hpow]
      have : (2 : ℚ) ^ 27 ≤ (24 * M : ℤ) := by
        have : (2 : ℤ) ^ 27 ≤ 24 * M := by omega
        exact_mod_cast this
      rw [mul_comm]
      exact mul_le_mul_of_nonneg_right this hupos.le
    have hb2 : ((24 * M : ℤ) : ℚ) * u < 2 ^ (L + 4 + 1) := by
      rw [show L + 4 + 1 = L - 23 + (28 : ℕ) by push_cast; ring, hpow, mul_comm]
      exact mul_lt_mul_of_pos_left (by exact_mod_cast hc) hupos
    rw [rnd_of_binade hb1 hb2 (by omega), show L + 4 - 23 = L - 23 + (4 : ℕ) by push_cast; ring, hpow]
    have : roundEven (((24 * M : ℤ) : ℚ) * u / (u * 2 ^ 4)) = K / 16 := by
      apply roundEven_of_tie
      · omega
      · have hdiv : (((K / 16 : ℤ)) : ℚ) = K / 16 := by
          have : (16 : ℤ) * (K / 16) = K := by omega
          have : (16 : ℚ) * ((K / 16 : ℤ) : ℚ) = K := by exact_mod_cast this
          linarith
        rw [hdiv]
        have : ((24 * M : ℤ) : ℚ) * u / (u * 2 ^ 4) - K / 16 = (((24 * M : ℤ) : ℚ) - K) / 16 := by
          rw [mul_comm _ u, mul_div_mul_left _ _ hupos.ne']; ring
        rw [this, abs_div, abs_of_pos (by norm_num : (0 : ℚ) < 16)]
        linarith
    rw [this]
    have h16 : (16 : ℚ) * ((K / 16 : ℤ) : ℚ) = K := by
      have : (16 : ℤ) * (K / 16) = K := by omega
      exact_mod_cast this
    rw [← hKu, ← h16]; ring
  · -- unit 32 u
    have hb1 : (2 : ℚ) ^ (L + 5) ≤ (24 * M : ℤ) * u := by
      rw [show L + 5 = L - 23 + (28 : ℕ) by push_cast; ring, hpow]
      have : (2 : ℚ) ^ 28 ≤ (24 * M : ℤ) := by exact_mod_cast hc
      rw [mul_comm]
      exact mul_le_mul_of_nonneg_right this hupos.le
    have hb2 : ((24 * M : ℤ) : ℚ) * u < 2 ^ (L + 5 + 1) := by
      rw [show L + 5 + 1 = L - 23 + (29 : ℕ) by push_cast; ring, hpow, mul_comm]
      apply mul_lt_mul_of_pos_left _ hupos
      have : 24 * M < 2 ^ 29 := by omega
      exact_mod_cast this
    rw [rnd_of_binade hb1 hb2 (by omega), show L + 5 - 23 = L - 23 + (5 : ℕ) by push_cast; ring, hpow]
    have h32 : (32 : ℚ) * ((K / 32 : ℤ) : ℚ) = K := by
      have : (32 : ℤ) * (K / 32) = K := by omega
      exact_mod_cast this
    have : roundEven (((24 * M : ℤ) : ℚ) * u / (u * 2 ^ 5)) = K / 32 := by
      apply roundEven_of_near
      have : ((24 * M : ℤ) : ℚ) * u / (u * 2 ^ 5) - ((K / 32 : ℤ) : ℚ) = (((24 * M : ℤ) : ℚ) - K) / 32 := by
        rw [mul_comm _ u, mul_div_mul_left _ _ hupos.ne', ← h32]; ring
      rw [this, abs_div, abs_of_pos (by norm_num : (0 : ℚ) < 32)]
      linarith
    rw [this, ← hKu, ← h32]; ring

theorem ofRat_fin {q : ℚ} (h0 : 0 ≤ rnd q) (h : rnd q < 2 ^ 128) : F32.ofRat q = .fin (rnd q) := by
  unfold F32.ofRat
  rw [abs_of_nonneg h0, if_neg (by linarith)]

theorem ofNat_fin (n : ℕ) (hn : n ≤ 2 ^ 24) : F32.ofNat n = .fin n := by
  unfold F32.ofNat
  have h := rnd_natCast n hn
  rw [ofRat_fin (by rw [h]; positivity), h]
  rw [h]
  have : (n : ℚ) ≤ 2 ^ 24 := by exact_mod_cast hn
  norm_num at this ⊢
  linarith

/-- The two roundings together keep the result strictly between the neighbouring integers. -/
theorem quantize_between (t p k g : ℕ) (ht : t < 349525 * g) (hp : 0 < p) (hp2 : p < 65536) (hg : 0 < g)
    (h1 : k * p + g ≤ 24 * t) (h2 : 24 * t + g ≤ (k + 1) * p) :
    (k : ℚ) < rnd (rnd ((t : ℚ) / p) * 24) ∧ rnd (rnd ((t : ℚ) / p) * 24) < (k + 1 : ℕ) := by
  have hpq : (0 : ℚ) < p := by exact_mod_cast hp
  have ht0 : 0 < t := by omega
  have htq : (1 : ℚ) ≤ t := by exact_mod_cast ht0
  have hp65 : (p : ℚ) ≤ 65536 := by exact_mod_cast hp2.le
  have h1' : (k : ℚ) * p + g ≤ 24 * t := by exact_mod_cast h1
  have h2' : 24 * (t : ℚ) + g ≤ (k + 1) * p := by exact_mod_cast h2
  have ht' : (t : ℚ) ≤ 349525 * g := by exact_mod_cast ht.le
  have hgq : (1 : ℚ) ≤ g := by exact_mod_cast hg
  set x : ℚ := (t : ℚ) / p with hx
  have hxp : x * p = t := by rw [hx]; field_simp
  have hxlo : 1 / 65536 ≤ x := by
    rw [hx, div_le_div_iff₀ (by norm_num) hpq]
    linarith
  have hx0 : 0 < x := by linarith
  have e1 := rnd_err (q := x) (by norm_num; linarith)
  set q := rnd x with hq
  rw [abs_le] at e1
  have hqlo : 1 / 131072 ≤ q := by
    have : x * 2 ^ (-24 : ℤ) ≤ x / 2 := by
      have : (2 : ℚ) ^ (-24 : ℤ) ≤ 1 / 2 := by norm_num
      nlinarith
    have h := e1.1
    set y := x * 2 ^ (-24 : ℤ)
    linarith
  have e2 := rnd_err (q := q * 24) (by norm_num; linarith)
  rw [abs_le] at e2
  have hc : (2 : ℚ) ^ (-24 : ℤ) = 1 / 16777216 := by norm_num
  rw [hc] at e1 e2
  push_cast
  constructor
  · have hlow : 24 * x * (1 - 1 / 16777216) * (1 - 1 / 16777216) ≤ rnd (q * 24) := by
      nlinarith [e1.1, e2.1]
    have : (k : ℚ) * p < rnd (q * 24) * p := by
      have : 24 * x * (1 - 1 / 16777216) * (1 - 1 / 16777216) * p ≤ rnd (q * 24) * p :=
        mul_le_mul_of_nonneg_right hlow hpq.le
      have e : 24 * x * (1 - 1 / 16777216) * (1 - 1 / 16777216) * p = 24 * (x * p) * ((1 - 1 / 16777216) * (1 - 1 / 16777216)) := by ring
      rw [e, hxp] at this
      linarith
    exact lt_of_mul_lt_mul_right this hpq.le
  · have hup : rnd (q * 24) ≤ 24 * x * (1 + 1 / 16777216) * (1 + 1 / 16777216) := by
      nlinarith [e1.2, e2.2]
    have : rnd (q * 24) * p < ((k : ℚ) + 1) * p := by
      have : rnd (q * 24) * p ≤ 24 * x * (1 + 1 / 16777216) * (1 + 1 / 16777216) * p :=
        mul_le_mul_of_nonneg_right hup hpq.le
      have e : 24 * x * (1 + 1 / 16777216) * (1 + 1 / 16777216) * p = 24 * (x * p) * ((1 + 1 / 16777216) * (1 + 1 / 16777216)) := by ring
      rw [e, hxp] at this
      linarith
    exact lt_of_mul_lt_mul_right this hpq.le

end M2S
