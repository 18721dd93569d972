import Verif.Proofs.F32
import Verif.Spec.Timing
import Verif.Track
/-
The length computation: exactness, splitting, rests and the commands of one note.
-/
namespace M2S
open Timing

/-- The mathematical length in units, rounded down or up. -/
def exactLength (ticks tpb : Nat) (ceil : Bool) : Nat :=
  if ceil then (24 * ticks + tpb - 1) / tpb else 24 * ticks / tpb

theorem exactTicks_ge (p : Nat) : 349525 ≤ exactTicks p := by
  have : 0 < Nat.gcd 24 p := Nat.gcd_pos_of_pos_left _ (by norm_num)
  unfold exactTicks
  omega

theorem exactTicks_le (p : Nat) : exactTicks p ≤ 8388600 := by
  have : Nat.gcd 24 p ≤ 24 := Nat.gcd_le_left _ (by norm_num)
  unfold exactTicks
  omega

theorem quantizedLength_eq (t p : Nat) (ht : t < exactTicks p) (hp : 0 < p) (hp2 : p < 65536) (c : Bool) :
    quantizedLength t p c = exactLength t p c := by
  have hmax := exactTicks_le p
  have hg0 : 0 < Nat.gcd 24 p := Nat.gcd_pos_of_pos_left _ (by norm_num)
  have hgp : Nat.gcd 24 p ∣ p := Nat.gcd_dvd_right _ _
  have hg24 : Nat.gcd 24 p ∣ 24 * t := (Nat.gcd_dvd_left 24 p).mul_right t
  have hpq : (p : ℚ) ≠ 0 := by exact_mod_cast hp.ne'
  have hpq0 : (0 : ℚ) < p := by exact_mod_cast hp
  have htq : (0 : ℚ) ≤ (t : ℚ) := by positivity
  -- the bound that keeps us away from overflow
  have hx : (0 : ℚ) ≤ (t : ℚ) / p := by positivity
  have hx2 : (t : ℚ) / p ≤ (8388600 : ℕ) := by
    rw [div_le_iff₀ hpq0]
    have : (t : ℚ) ≤ (8388600 : ℕ) := by exact_mod_cast (ht.le.trans hmax)
    have : (1 : ℚ) ≤ p := by exact_mod_cast hp
    push_cast at *
    nlinarith
  have hq0 : 0 ≤ rnd ((t : ℚ) / p) := rnd_nonneg hx
  have hq1 : rnd ((t : ℚ) / p) ≤ 8388600 := by
    have := rnd_mono hx hx2
    rw [rnd_natCast 8388600 (by norm_num)] at this
    exact_mod_cast this
  have hm0 : 0 ≤ rnd (rnd ((t : ℚ) / p) * 24) := rnd_nonneg (by positivity)
  have hm1 : rnd (rnd ((t : ℚ) / p) * 24) ≤ 2 ^ 28 := by
    have h : rnd ((t : ℚ) / p) * 24 ≤ 2 ^ 28 := by linarith
    have := rnd_mono (by positivity) h
    rwa [rnd_two_pow_28] at this
  have hval : (F32.ofNat t |>.div (F32.ofNat p) |>.mul (F32.ofNat 24)) = .fin (rnd (rnd ((t : ℚ) / p) * 24)) := by
    rw [ofNat_fin t (by omega), ofNat_fin p (by omega), ofNat_fin 24 (by norm_num)]
    simp only [F32.div, if_neg hpq]
    rw [ofRat_fin hq0 (by norm_num; linarith)]
    simp only [F32.mul]
    push_cast
    rw [ofRat_fin hm0 (by norm_num; linarith)]
  unfold quantizedLength
  simp only [hval]
  set m := rnd (rnd ((t : ℚ) / p) * 24) with hm
  -- the integer part
  have key : (∃ k : ℕ, 24 * t = k * p ∧ m = k) ∨ (∃ k : ℕ, k * p < 24 * t ∧ 24 * t < (k + 1) * p ∧ (k : ℚ) < m ∧ m < (k + 1 : ℕ)) := by
    have hdm := Nat.div_add_mod (24 * t) p
    have hlt := Nat.mod_lt (24 * t) hp
    rcases Nat.eq_zero_or_pos (24 * t % p) with h | h
    · left
      refine ⟨24 * t / p, by rw [mul_comm (24 * t / p)]; omega, ?_⟩
      have hk : (24 * t / p) * p = 24 * t := by rw [mul_comm (24 * t / p)]; omega
      have : (t : ℚ) / p = ((24 * t / p : ℕ) : ℚ) / 24 := by
        have : ((24 * t / p : ℕ) : ℚ) * p = 24 * t := by exact_mod_cast hk
        field_simp
        linarith
      rw [hm, this]
      apply rnd_div_mul_24
      have h1 : 24 * t / p ≤ 24 * t / Nat.gcd 24 p := Nat.div_le_div_left (Nat.le_of_dvd hp hgp) hg0
      have h2 : 24 * t / Nat.gcd 24 p < 2 ^ 23 := by
        rw [Nat.div_lt_iff_lt_mul hg0]
        unfold exactTicks at ht
        omega
      omega
    · right
      have h1 : (24 * t / p) * p < 24 * t := by rw [mul_comm (24 * t / p)]; omega
      have h2 : 24 * t < (24 * t / p + 1) * p := by rw [Nat.add_mul, mul_comm (24 * t / p)]; omega
      have hkp : Nat.gcd 24 p ∣ (24 * t / p) * p := hgp.mul_left _
      have hkp1 : Nat.gcd 24 p ∣ (24 * t / p + 1) * p := hgp.mul_left _
      have d1 : Nat.gcd 24 p ≤ 24 * t - (24 * t / p) * p := Nat.le_of_dvd (by omega) (Nat.dvd_sub hg24 hkp)
      have d2 : Nat.gcd 24 p ≤ (24 * t / p + 1) * p - 24 * t := Nat.le_of_dvd (by omega) (Nat.dvd_sub hkp1 hg24)
      exact ⟨24 * t / p, h1, h2, quantize_between t p _ _ ht hp hp2 hg0 (by omega) (by omega)⟩
  have hbound : ∀ k : ℕ, k * p ≤ 24 * t → k < 2 ^ 32 - 2 := by
    intro k hk
    have : k * 1 ≤ k * p := Nat.mul_le_mul_left k hp
    omega
  rcases key with ⟨k, hk, hmk⟩ | ⟨k, h1, h2, h3, h4⟩
  · have hkb := hbound k hk.ge
    have hfl : 24 * t / p = k := by rw [hk, Nat.mul_div_cancel _ hp]
    have hce : (24 * t + p - 1) / p = k := by
      rw [hk, Nat.div_eq_iff hp]
      constructor
      · omega
      · omega
    cases c <;> simp [exactLength, F32.floor, F32.ceil, F32.toUnsigned, hmk, hfl, hce] <;> omega
  · have hkb := hbound k h1.le
    have hfl : 24 * t / p = k := by
      rw [Nat.div_eq_iff hp]
      constructor
      · omega
      · rw [Nat.add_mul] at h2; omega
    have hce : (24 * t + p - 1) / p = k + 1 := by
      rw [Nat.div_eq_iff hp]
      rw [Nat.add_mul] at h2 ⊢
      omega
    have f1 : ⌊m⌋ = (k : ℤ) := by
      rw [Int.floor_eq_iff]; push_cast at *; constructor <;> linarith
    have f2 : ⌈m⌉ = (k + 1 : ℤ) := by
      rw [Int.ceil_eq_iff]; push_cast at *; constructor <;> linarith
    have e2 : ⌊((k : ℚ) + 1)⌋₊ = k + 1 := by
      have := Nat.floor_natCast (R := ℚ) (k + 1); push_cast at this; exact this
    cases c <;> simp [exactLength, F32.floor, F32.ceil, F32.toUnsigned, f1, f2, hfl, hce, e2] <;> omega

theorem exactLength_lt (t p : Nat) (ht : t < exactTicks p) (hp : 0 < p) (hp2 : p < 65536) (c : Bool) :
    exactLength t p c * p < 2 ^ 28 := by
  have := exactTicks_le p
  unfold exactLength
  have h1 := Nat.div_mul_le_self (24 * t + p - 1) p
  have h2 := Nat.div_mul_le_self (24 * t) p
  cases c <;> simp <;> omega

theorem getDuration_eq (t p : Nat) (ht : t < exactTicks p) (hp : 0 < p) (hp2 : p < 65536) (c : Bool) :
    getDuration t p c = .ok (splitLength (exactLength t p c) (exactLength t p c * p / 24)) := by
  have := exactLength_lt t p ht hp hp2 c
  simp only [getDuration, quantizedLength_eq t p ht hp hp2, mulU32]
  rw [if_pos (by omega)]
  rfl

theorem total_nil : total [] = 0 := rfl

theorem total_cons (c : PCmd) (cs : List PCmd) : total (c :: cs) = units c + total cs := by simp [total]

theorem total_append (a b : List PCmd) : total (a ++ b) = total a + total b := by
  simp [total]

theorem total_replicate (n : Nat) (c : PCmd) : total (List.replicate n c) = n * units c := by
  simp [total]

/-- The rests emitted for a length. -/
def restsOf (d : Duration) : List PCmd :=
  List.replicate d.overflowCount (restCmd 0x7f) ++ if d.length > 0 then [restCmd d.length] else []

theorem splitLength_ticks (q x : Nat) : (splitLength q x).quantizedTicks = x := by
  unfold splitLength
  dsimp only
  split_ifs <;> rfl

/-- The split, in numbers. -/
theorem splitLength_spec (q x : Nat) (hq : q ≤ 32512) :
    (splitLength q x).overflowCount * 127 + (splitLength q x).length.toNat = q ∧
    (splitLength q x).length.toNat ≤ 127 ∧ (0 < q → 0 < (splitLength q x).length.toNat) ∧
    (splitLength q x).overflowCount ≤ 255 := by
  unfold splitLength
  dsimp only
  split_ifs with h1 h2
  · simp only [show (0x7f : UInt8).toNat = 127 from rfl]
    omega
  · simp only [UInt8.toNat_ofNat']
    omega
  · simp only [UInt8.toNat_ofNat']
    omega

theorem units_rest (d : UInt8) : units (restCmd d) = d.toNat := rfl

theorem total_restsOf (d : Duration) : total (restsOf d) = d.overflowCount * 127 + d.length.toNat := by
  unfold restsOf
  rw [total_append, total_replicate, units_rest]
  split_ifs with h
  · simp [total, units_rest]
  · simp only [total_nil]
    have : d.length.toNat = 0 := by simp [UInt8.lt_iff_toNat_lt] at h; simp [h]
    rw [this]; rfl

theorem restsOf_mem (d : Duration) (hd : d.length.toNat ≤ 127) :
    ∀ c ∈ restsOf d, ∃ u : UInt8, c = restCmd u ∧ 1 ≤ u.toNat ∧ u.toNat ≤ 127 := by
  intro c hc
  unfold restsOf at hc
  rw [List.mem_append] at hc
  rcases hc with hc | hc
  · exact ⟨0x7f, List.eq_of_mem_replicate hc, by decide, by decide⟩
  · split_ifs at hc with h
    · simp only [List.mem_singleton] at hc
      refine ⟨d.length, hc, ?_, hd⟩
      simp [UInt8.lt_iff_toNat_lt] at h
      omega
    · simp at hc

/-- `insert_rest` in the exact range. -/
theorem insertRest_eq (cs : List PCmd) (e t p : Nat) (ht : t - e < exactTicks p) (ht2 : t < 2 ^ 31) (hp : 0 < p) (hp2 : p < 65536) :
    insertRest cs e t p = .ok (
      if t > e then
        (cs ++ restsOf (splitLength (24 * (t - e) / p) (24 * (t - e) / p * p / 24)), e + 24 * (t - e) / p * p / 24)
      else (cs, e)) := by
  unfold insertRest
  split_ifs with h
  · rw [getDuration_eq (t - e) p (by omega) hp hp2]
    simp only [exactLength, Bool.false_eq_true, if_false]
    have hadd : e + 24 * (t - e) / p * p / 24 < 2 ^ 32 := by
      have := Nat.div_mul_le_self (24 * (t - e)) p
      omega
    simp only [bind, Except.bind, splitLength_ticks, addU32, if_pos hadd, pure, Except.pure, restsOf]
    split_ifs <;> simp
  · rfl

/-- The commands emitted for a note. -/
def noteGroup (cmd : Command) (vel : UInt8) (d : Duration) : List PCmd :=
  ⟨some (if d.overflowCount > 0 then 0x7f else d.length), some (vel / 8), some 7, cmd⟩ :: noteTies d

theorem noteTies_succ (k : Nat) (l : UInt8) (x : Nat) :
    noteTies ⟨l, x, k + 1⟩ = List.replicate k ⟨some 0x7f, none, none, .tie⟩ ++ [⟨some l, none, none, .tie⟩] := by
  unfold noteTies
  rw [List.range_succ, List.map_append, List.map_singleton]
  congr 1
  · apply List.ext_getElem
    · simp
    · intro i h1 h2
      simp at h1
      simp [h1]
  · simp

theorem total_noteGroup (cmd : Command) (vel : UInt8) (d : Duration) :
    total (noteGroup cmd vel d) = d.overflowCount * 127 + d.length.toNat := by
  obtain ⟨l, x, k⟩ := d
  unfold noteGroup
  cases k with
  | zero => simp [total, units, noteTies]
  | succ k =>
    rw [noteTies_succ]
    rw [total_cons, total_append, total_replicate]
    simp [total, units]
    omega

theorem noteGroup_mem (cmd : Command) (vel : UInt8) (d : Duration) (h0 : 0 < d.length.toNat) (h1 : d.length.toNat ≤ 127) :
    ∀ c ∈ noteGroup cmd vel d, (c.command = cmd ∨ c.command = .tie) ∧ ∃ u : UInt8, c.duration = some u ∧ 1 ≤ u.toNat ∧ u.toNat ≤ 127 := by
  intro c hc
  unfold noteGroup at hc
  rw [List.mem_cons] at hc
  rcases hc with rfl | hc
  · refine ⟨.inl rfl, _, rfl, ?_⟩
    split_ifs
    · decide
    · exact ⟨h0, h1⟩
  · simp only [noteTies, List.mem_map] at hc
    obtain ⟨i, -, rfl⟩ := hc
    refine ⟨.inr rfl, _, rfl, ?_⟩
    split_ifs
    · decide
    · exact ⟨h0, h1⟩

end M2S
