import Mathlib.Algebra.BigOperators.Intervals
import Mathlib.Algebra.Order.BigOperators.Group.Finset
import Mathlib.Algebra.Order.Group.MinMax
import Mathlib.Tactic.Linarith
import Mathlib.Tactic.Ring
import Mathlib.Tactic.FieldSimp
import Verif.Spec.Clock
/-
The engine's clock: when units begin.
-/
namespace M2S
open Timing

theorem clock_acc (tempo : Nat → Nat) (acc : Nat) (ha : acc < 256) (ht : ∀ n, tempo n ≤ 255) (p : Nat) : (clock tempo acc p).2 < 256 := by
  induction p with
  | zero => exact ha
  | succ p ih =>
    show (poll tempo (clock tempo acc p)).2 < 256
    unfold poll
    have := ht (clock tempo acc p).1
    split_ifs
    · assumption
    · show _ - 256 < 256
      omega

/-- From one unit to the next. -/
theorem clock_next (tempo : Nat → Nat) (acc : Nat) (n : Nat) (h0 : 0 < tempo n) : ∀ (g p a : Nat), 256 - a ≤ g → a < 256 → clock tempo acc p = (n, a) →
    ∃ k a', 0 < k ∧ clock tempo acc (p + k) = (n + 1, a') ∧ a' < tempo n ∧ a + k * tempo n = 256 + a' ∧ ∀ i < k, (clock tempo acc (p + i)).1 = n := by
  intro g
  induction g with
  | zero => intro p a h1 h2; omega
  | succ g ih =>
    intro p a h1 h2 h3
    have hs : clock tempo acc (p + 1) = poll tempo (n, a) := by show poll tempo (clock tempo acc p) = _; rw [h3]
    unfold poll at hs
    by_cases hlt : a + tempo n < 256
    · simp only [hlt, if_true] at hs
      obtain ⟨k, a', k0, k1, k2, k3, k4⟩ := ih (p + 1) (a + tempo n) (by omega) hlt hs
      refine ⟨k + 1, a', by omega, by rw [← k1]; congr 1; omega, k2, by rw [Nat.add_mul]; omega, ?_⟩
      intro i hi
      cases i with
      | zero => rw [Nat.add_zero, h3]
      | succ i => have := k4 i (by omega); rw [← this]; congr 2; omega
    · simp only [hlt, if_false] at hs
      refine ⟨1, a + tempo n - 256, by omega, hs, by omega, by omega, ?_⟩
      intro i hi
      have : i = 0 := by omega
      subst this
      rw [Nat.add_zero, h3]

/-- How long `n` units should take, in polls. -/
def ideal (tempo : Nat → Nat) (n : Nat) : ℚ := ∑ i ∈ Finset.range n, unitPolls (tempo i)

/-- How much the length of units varies until unit `n`. -/
def varied (tempo : Nat → Nat) (n : Nat) : ℚ := ∑ i ∈ Finset.range n, |unitPolls (tempo (i + 1)) - unitPolls (tempo i)|

theorem varied_nonneg (tempo : Nat → Nat) (n : Nat) : 0 ≤ varied tempo n := Finset.sum_nonneg fun _ _ => abs_nonneg _

theorem unit_begins (tempo : Nat → Nat) (acc : Nat) (ha : acc < 256) (ht : ∀ n, tempo n ≤ 255) (h0 : ∀ n, 0 < tempo n) (n : Nat) :
    ∃ p a, clock tempo acc p = (n + 1, a) ∧ a < tempo n ∧ (∀ q < p, (clock tempo acc q).1 < n + 1) ∧
      |(p : ℚ) - ideal tempo (n + 1) - a / tempo n + acc / tempo 0| ≤ varied tempo n := by
  induction n with
  | zero =>
    obtain ⟨k, a', -, k1, k2, k3, k4⟩ := clock_next tempo acc 0 (h0 0) _ 0 acc le_rfl ha rfl
    rw [Nat.zero_add] at k1
    refine ⟨k, a', k1, k2, ?_, ?_⟩
    · intro q hq
      have := k4 q hq
      rw [Nat.zero_add] at this
      omega
    · have hq : (0 : ℚ) < tempo 0 := by exact_mod_cast h0 0
      have k3' : (acc : ℚ) + k * tempo 0 = 256 + a' := by exact_mod_cast k3
      have : (k : ℚ) - ideal tempo 1 - a' / tempo 0 + acc / tempo 0 = 0 := by
        simp only [ideal, Finset.sum_range_one, unitPolls]
        field_simp
        linarith
      rw [Nat.zero_add, this]
      simp [varied]
  | succ n ih =>
    obtain ⟨p, a, h1, h2, h3, h4⟩ := ih
    have ha' : a < 256 := by have := ht n; omega
    obtain ⟨k, a', k0, k1, k2, k3, k4⟩ := clock_next tempo acc (n + 1) (h0 _) _ p a le_rfl ha' h1
    refine ⟨p + k, a', k1, k2, ?_, ?_⟩
    · intro q hq
      by_cases hqp : q < p
      · have := h3 q hqp; omega
      · have := k4 (q - p) (by omega)
        rw [show p + (q - p) = q by omega] at this
        omega
    · have hq : (0 : ℚ) < tempo n := by exact_mod_cast h0 n
      have hq1 : (0 : ℚ) < tempo (n + 1) := by exact_mod_cast h0 (n + 1)
      have k3' : (a : ℚ) + k * tempo (n + 1) = 256 + a' := by exact_mod_cast k3
      have hk : (k : ℚ) = unitPolls (tempo (n + 1)) + a' / tempo (n + 1) - a / tempo (n + 1) := by
        unfold unitPolls
        field_simp
        linarith
      have hi : ideal tempo (n + 1 + 1) = ideal tempo (n + 1) + unitPolls (tempo (n + 1)) := Finset.sum_range_succ _ _
      have hvv : varied tempo (n + 1) = varied tempo n + |unitPolls (tempo (n + 1)) - unitPolls (tempo n)| := Finset.sum_range_succ _ _
      have e : ((p + k : Nat) : ℚ) - ideal tempo (n + 1 + 1) - a' / tempo (n + 1) + acc / tempo 0 =
          ((p : ℚ) - ideal tempo (n + 1) - a / tempo n + acc / tempo 0) + a / 256 * (unitPolls (tempo n) - unitPolls (tempo (n + 1))) := by
        rw [hi]
        push_cast
        rw [hk]
        unfold unitPolls
        ring
      rw [e, hvv]
      refine (abs_add_le _ _).trans (add_le_add h4 ?_)
      rw [abs_mul, abs_sub_comm (unitPolls (tempo (n + 1)))]
      have : |(a : ℚ) / 256| ≤ 1 := by
        rw [abs_of_nonneg (by positivity), div_le_one (by norm_num)]
        exact_mod_cast ha'.le
      calc |(a : ℚ) / 256| * _ ≤ 1 * |unitPolls (tempo n) - unitPolls (tempo (n + 1))| := mul_le_mul_of_nonneg_right this (abs_nonneg _)
        _ = _ := one_mul _

theorem begins_unique {tempo : Nat → Nat} {acc n p q : Nat} (hp : Begins tempo acc n p) (hq : Begins tempo acc n q) : p = q := by
  rcases Nat.lt_trichotomy p q with h | h | h
  · have := hq.2 p h; have := hp.1; omega
  · exact h
  · have := hp.2 q h; have := hq.1; omega

/-- Every unit begins, at its ideal time up to a poll, the first unit and the variation. -/
theorem begins_ideal (tempo : Nat → Nat) (acc : Nat) (ha : acc < 256) (ht : ∀ n, tempo n ≤ 255) (h0 : ∀ n, 0 < tempo n) (n : Nat) :
    ∃ p, Begins tempo acc n p ∧ ideal tempo n - unitPolls (tempo 0) - varied tempo (n - 1) ≤ p ∧ (p : ℚ) ≤ ideal tempo n + 1 + varied tempo (n - 1) := by
  have hpos : ∀ k, (0 : ℚ) < tempo k := fun k => by exact_mod_cast h0 k
  cases n with
  | zero =>
    refine ⟨0, ⟨rfl, fun q hq => by omega⟩, ?_, ?_⟩
    · have : 0 ≤ unitPolls (tempo 0) := by unfold unitPolls; have := hpos 0; positivity
      simp [ideal, varied]; exact this
    · simp [ideal, varied]
  | succ n =>
    obtain ⟨p, a, h1, h2, h3, h4⟩ := unit_begins tempo acc ha ht h0 n
    refine ⟨p, ⟨by rw [h1], h3⟩, ?_, ?_⟩
    all_goals
      rw [abs_le] at h4
      rw [Nat.add_sub_cancel]
      have e1 : (a : ℚ) / tempo n ≤ 1 := by rw [div_le_one (hpos n)]; exact_mod_cast h2.le
      have e2 : 0 ≤ (a : ℚ) / tempo n := by have := hpos n; positivity
      have e3 : 0 ≤ (acc : ℚ) / tempo 0 := by have := hpos 0; positivity
      have e4 : (acc : ℚ) / tempo 0 ≤ unitPolls (tempo 0) := by
        unfold unitPolls
        exact div_le_div_of_nonneg_right (by exact_mod_cast ha.le) (hpos 0).le
      linarith [h4.1, h4.2]

/-! Sums over values in force. -/

theorem inForce_map {α β : Type} (g : α → β) (start : α) (cs : List (Nat × α)) (n : Nat) :
    inForce (g start) (cs.map fun c => (c.1, g c.2)) n = g (inForce start cs n) := by
  have h : ∀ k, ((cs.map fun c => (c.1, g c.2)).filter fun c => decide (c.1 = k)).getLast?.map Prod.snd = ((cs.filter fun c => decide (c.1 = k)).getLast?.map Prod.snd).map g := by
    intro k
    rw [List.filter_map, List.getLast?_map, Option.map_map, Option.map_map]
    rfl
  induction n with
  | zero => unfold inForce; rw [h]; cases (cs.filter fun c => decide (c.1 = 0)).getLast? <;> rfl
  | succ n ih => unfold inForce; rw [h, ih]; cases (cs.filter fun c => decide (c.1 = n + 1)).getLast? <;> rfl

theorem inForce_congr {α : Type} (start : α) (cs ds : List (Nat × α)) (h : ∀ k, (cs.filter fun c => decide (c.1 = k)) = ds.filter fun c => decide (c.1 = k)) (n : Nat) :
    inForce start cs n = inForce start ds n := by
  induction n with
  | zero => unfold inForce; rw [h]
  | succ n ih => unfold inForce; rw [h, ih]

theorem inForce_before {α : Type} (b : α) (c : Nat) (cs : List (Nat × α)) (hs : ∀ x ∈ cs, c ≤ x.1) (k : Nat) (hk : k < c) : inForce b cs k = b := by
  have hnone : ∀ k < c, (cs.filter fun x => decide (x.1 = k)) = [] := by
    intro k hk
    rw [List.filter_eq_nil_iff]
    intro x hx
    have := hs x hx
    simp only [decide_eq_true_eq]
    omega
  induction k with
  | zero => unfold inForce; rw [hnone 0 hk]; rfl
  | succ k ih => unfold inForce; rw [hnone _ hk, ih (by omega)]; rfl

theorem inForce_cons {α : Type} (start b : α) (c : Nat) (cs : List (Nat × α)) (hs : ∀ x ∈ cs, c ≤ x.1) (n : Nat) :
    inForce start ((c, b) :: cs) n = if n < c then start else inForce b cs n := by
  have hnone : ∀ k < c, (cs.filter fun x => decide (x.1 = k)) = [] := by
    intro k hk
    rw [List.filter_eq_nil_iff]
    intro x hx
    have := hs x hx
    simp only [decide_eq_true_eq]
    omega
  have hlast : ∀ l : List (Nat × α), (((c, b) :: l).getLast?.map Prod.snd) = some ((l.getLast?.map Prod.snd).getD b) := by
    intro l
    cases l with
    | nil => rfl
    | cons x l => rw [List.getLast?_cons_cons, List.getLast?_eq_some_getLast (List.cons_ne_nil _ _)]; rfl
  have hbefore : ∀ k < c, inForce b cs k = b := fun k hk => inForce_before b c cs hs k hk
  induction n with
  | zero =>
    unfold inForce
    rw [List.filter_cons]
    by_cases h : c = 0
    · subst h
      rw [if_pos (by simp), hlast, if_neg (by omega)]
      rfl
    · rw [if_neg (by simpa using h), if_pos (by omega), hnone 0 (by omega)]
      rfl
  | succ n ih =>
    unfold inForce
    rw [List.filter_cons]
    by_cases h : c = n + 1
    · subst h
      rw [if_pos (by simp), hlast, if_neg (by omega)]
      show ((List.filter _ cs).getLast?.map Prod.snd).getD b = _
      rw [hbefore n (by omega)]
    · rw [if_neg (by simpa using h), ih]
      by_cases hn : n + 1 < c
      · rw [if_pos hn, if_pos (by omega), hnone _ hn]
        rfl
      · rw [if_neg hn, if_neg (by omega)]

/-- The values in force, summed: a sum over the changes. -/
def summed (a : ℚ) (n : Nat) : List (Nat × ℚ) → ℚ
  | [] => a * n
  | (c, b) :: cs => summed b n cs + (a - b) * (min n c : Nat)

theorem sum_inForce (a : ℚ) (cs : List (Nat × ℚ)) (hs : cs.Pairwise fun x y => x.1 ≤ y.1) (n : Nat) : ∑ x ∈ Finset.range n, inForce a cs x = summed a n cs := by
  induction cs generalizing a with
  | nil =>
    have : ∀ x, inForce a [] x = a := fun x => by induction x with
      | zero => rfl
      | succ x ih => unfold inForce; exact ih
    simp [this, summed, mul_comm]
  | cons x cs ih =>
    obtain ⟨c, b⟩ := x
    obtain ⟨h1, h2⟩ := List.pairwise_cons.1 hs
    rw [summed, ← ih b h2]
    have : ∀ k, inForce a ((c, b) :: cs) k = inForce b cs k + if k < c then a - b else 0 := by
      intro k
      rw [inForce_cons a b c cs h1]
      split_ifs with hk
      · have : inForce b cs k = b := inForce_before b c cs h1 k hk
        rw [this]; ring
      · ring
    rw [Finset.sum_congr rfl fun k _ => this k, Finset.sum_add_distrib, ← Finset.sum_filter, Finset.sum_const, nsmul_eq_mul]
    have hc : ((Finset.range n).filter fun k => k < c).card = min n c := by
      rw [show (Finset.range n).filter (fun k => k < c) = Finset.range (min n c) by ext k; simp, Finset.card_range]
    rw [hc]
    ring

/-- Values in force at approximately the same times have approximately the same sums. -/
theorem summed_near (tpb : Nat) (hp : 0 < tpb) (n t : Nat) (hn : |(n : ℚ) - 24 * t / tpb| ≤ 1) (a : ℚ) {cs ds : List (Nat × ℚ)}
    (h : List.Forall₂ (fun x y => x.2 = y.2 ∧ |(x.1 : ℚ) - 24 * y.1 / tpb| ≤ 1) cs ds) :
    |summed a n cs - 24 / tpb * summed a t ds| ≤ |a| + 2 * variation a (cs.map Prod.snd) := by
  have hpq : (0 : ℚ) < tpb := by exact_mod_cast hp
  induction h generalizing a with
  | nil =>
    have : summed a n [] - 24 / tpb * summed a t [] = a * (n - 24 * t / tpb) := by unfold summed; ring
    rw [this, abs_mul]
    simp only [List.map_nil, variation]
    have := mul_le_mul_of_nonneg_left hn (abs_nonneg a)
    linarith
  | @cons x y cs ds hxy _ ih =>
    obtain ⟨c, b⟩ := x
    obtain ⟨c', b'⟩ := y
    obtain ⟨rfl, hc⟩ := hxy
    simp only at hc
    have hmin : |((min n c : Nat) : ℚ) - 24 / tpb * (min t c' : Nat)| ≤ 1 := by
      have e : (24 : ℚ) / tpb * ((min t c' : Nat) : ℚ) = min ((24 : ℚ) * t / tpb) ((24 : ℚ) * c' / tpb) := by
        rw [Nat.cast_min, mul_min_of_nonneg _ _ (by positivity)]
        congr 1 <;> ring
      rw [e, Nat.cast_min]
      exact (abs_min_sub_min_le_max _ _ _ _).trans (max_le hn hc)
    have e : summed a n ((c, b) :: cs) - 24 / tpb * summed a t ((c', b) :: ds) =
        (summed b n cs - 24 / tpb * summed b t ds) + (a - b) * ((min n c : Nat) - 24 / tpb * (min t c' : Nat)) := by
      simp only [summed]
      ring
    rw [e]
    refine (abs_add_le _ _).trans ?_
    have h1 := ih b
    have h2 : |(a - b) * (((min n c : Nat) : ℚ) - 24 / tpb * (min t c' : Nat))| ≤ |b - a| := by
      rw [abs_mul, abs_sub_comm a b]
      have := mul_le_mul_of_nonneg_left hmin (abs_nonneg (b - a))
      linarith
    have h3 : |b| ≤ |a| + |b - a| := by
      have := abs_add_le a (b - a)
      rwa [show a + (b - a) = b by ring] at this
    simp only [List.map_cons, variation]
    linarith

theorem variation_nonneg (a : ℚ) (l : List ℚ) : 0 ≤ variation a l := by
  induction l generalizing a with
  | nil => exact le_rfl
  | cons b l ih => exact add_nonneg (abs_nonneg _) (ih b)

/-- The values in force vary no more than the values. -/
theorem inForce_variation (a : ℚ) (cs : List (Nat × ℚ)) (hs : cs.Pairwise fun x y => x.1 ≤ y.1) (n : Nat) :
    |inForce a cs 0 - a| + ∑ i ∈ Finset.range n, |inForce a cs (i + 1) - inForce a cs i| ≤ variation a (cs.map Prod.snd) := by
  induction cs generalizing a with
  | nil =>
    have : ∀ x, inForce a [] x = a := fun x => by induction x with
      | zero => rfl
      | succ x ih => unfold inForce; exact ih
    simp [this, variation]
  | cons x cs ih =>
    obtain ⟨c, b⟩ := x
    obtain ⟨h1, h2⟩ := List.pairwise_cons.1 hs
    have hf := inForce_cons a b c cs h1
    have hb : ∀ k < c, inForce b cs k = b := fun k hk => by
      have := inForce_before b c cs h1 k hk
      exact this
    have ih := ih b h2
    simp only [List.map_cons, variation]
    refine le_trans ?_ (add_le_add_right ih |b - a|)
    have key : ∀ n, |inForce a ((c, b) :: cs) 0 - a| + ∑ i ∈ Finset.range n, |inForce a ((c, b) :: cs) (i + 1) - inForce a ((c, b) :: cs) i| ≤
        (if n < c then 0 else |b - a|) + (|inForce b cs 0 - b| + ∑ i ∈ Finset.range n, |inForce b cs (i + 1) - inForce b cs i|) := by
      intro n
      induction n with
      | zero =>
        simp only [Finset.range_zero, Finset.sum_empty, add_zero]
        rw [hf 0]
        split_ifs with h0
        · simp
        · have := abs_add_le (inForce b cs 0 - b) (b - a)
          rw [show inForce b cs 0 - b + (b - a) = inForce b cs 0 - a by ring] at this
          linarith
      | succ n ih =>
        rw [Finset.sum_range_succ, Finset.sum_range_succ, hf (n + 1), hf n]
        by_cases h3 : n + 1 < c
        · rw [if_pos h3, if_pos (by omega), if_pos h3]
          rw [if_pos (by omega)] at ih
          have := abs_nonneg (inForce b cs (n + 1) - inForce b cs n)
          rw [sub_self, abs_zero]
          linarith
        · rw [if_neg h3, if_neg h3]
          by_cases h4 : n < c
          · rw [if_pos h4] at ih ⊢
            rw [hb n h4]
            have := abs_add_le (inForce b cs (n + 1) - b) (b - a)
            rw [show inForce b cs (n + 1) - b + (b - a) = inForce b cs (n + 1) - a by ring] at this
            linarith
          · rw [if_neg h4] at ih ⊢
            linarith
    have := key n
    split_ifs at this
    · linarith [abs_nonneg (b - a)]
    · linarith

end M2S
