import Verif.Proofs.Duration
/-
The fusing of notes and rests.
-/
namespace M2S
open Timing

theorem setSustain_note (p n r : UInt8) (vn sn vr sr : Option UInt8) (h : 0 < n.toNat + r.toNat) :
    PCmd.setSustain ⟨some n, vn, sn, .note p⟩ ⟨some r, vr, sr, .rest⟩ = .ok (
      if (n.toNat * 8) % (n.toNat + r.toNat) = 0 ∨ n.toNat > r.toNat * 16 then
        (⟨some (UInt8.ofNat (n.toNat + r.toNat)), vn, some (UInt8.ofNat (min (n.toNat * 8 / (n.toNat + r.toNat)) 7)), .note p⟩, true)
      else (⟨some n, vn, sn, .note p⟩, false)) := by
  simp only [PCmd.setSustain]
  rw [if_neg (by omega)]
  split_ifs <;> rfl

/-- A timed command as the converter makes them. -/
def durOk (c : PCmd) : Prop :=
  match c.command with
  | .note _ | .rest | .tie => ∃ d : UInt8, c.duration = some d ∧ 1 ≤ d.toNat ∧ d.toNat ≤ 127
  | _ => c.duration = none

theorem sus_bounds (n r : Nat) (h0 : 0 < n + r) (h : (n * 8) % (n + r) = 0 ∨ n > r * 16) :
    8 * n ≤ (min (n * 8 / (n + r)) 7 + 1) * (n + r) ∧ min (n * 8 / (n + r)) 7 * (n + r) ≤ 8 * n := by
  have h1 := Nat.div_mul_le_self (n * 8) (n + r)
  have h2 := Nat.lt_div_mul_add h0 (a := n * 8)
  constructor
  · rcases le_total (n * 8 / (n + r)) 7 with h7 | h7
    · rw [min_eq_left h7, Nat.add_mul]; omega
    · rw [min_eq_right h7]; omega
  · calc min (n * 8 / (n + r)) 7 * (n + r) ≤ n * 8 / (n + r) * (n + r) := Nat.mul_le_mul_right _ (Nat.min_le_left _ _)
      _ ≤ 8 * n := by omega

theorem sus_exact (n r : Nat) (h0 : 0 < n + r) (h : (n * 8) % (n + r) = 0 ∨ n > r * 16) :
    8 * n = min (n * 8 / (n + r)) 7 * (n + r) ∨ min (n * 8 / (n + r)) 7 = 7 ∧ 7 * (n + r) ≤ 8 * n := by
  rcases le_total (n * 8 / (n + r)) 7 with h7 | h7
  · rw [min_eq_left h7]
    rcases h with h | h
    · left
      have := Nat.div_add_mod (n * 8) (n + r)
      rw [h, Nat.mul_comm (n + r)] at this
      omega
    · right
      have h8 : 7 * (n + r) ≤ n * 8 := by omega
      have h9 : 7 ≤ n * 8 / (n + r) := (Nat.le_div_iff_mul_le h0).2 h8
      omega
  · rw [min_eq_right h7]
    right
    have := Nat.div_mul_le_self (n * 8) (n + r)
    have h9 : 7 * (n + r) ≤ n * 8 := (Nat.le_div_iff_mul_le h0).1 h7
    omega

/-- What a successful `set_sustain` did. -/
theorem setSustain_cases (c n c' : PCmd) (b : Bool) (h : c.setSustain n = .ok (c', b)) :
    (b = false ∧ c' = c) ∨
    (b = true ∧ ∃ (p dn dr : UInt8) (vn sn vr sr : Option UInt8),
      c = ⟨some dn, vn, sn, .note p⟩ ∧ n = ⟨some dr, vr, sr, .rest⟩ ∧ 0 < dn.toNat + dr.toNat ∧
      ((dn.toNat * 8) % (dn.toNat + dr.toNat) = 0 ∨ dn.toNat > dr.toNat * 16) ∧
      c' = ⟨some (UInt8.ofNat (dn.toNat + dr.toNat)), vn, some (UInt8.ofNat (min (dn.toNat * 8 / (dn.toNat + dr.toNat)) 7)), .note p⟩) := by
  obtain ⟨dc, vc, sc, cc⟩ := c
  obtain ⟨dn, vn, sn, cn⟩ := n
  by_cases hc : ∃ p, cc = .note p
  · obtain ⟨p, rfl⟩ := hc
    by_cases hn : cn = .rest
    · subst hn
      rcases dc with _ | dc
      · simp [PCmd.setSustain, panicked] at h
      rcases dn with _ | dn
      · simp [PCmd.setSustain, panicked] at h
      by_cases h0 : dc.toNat + dn.toNat = 0
      · simp only [PCmd.setSustain, if_pos h0, panicked] at h
        simp at h
      rw [setSustain_note _ _ _ _ _ _ _ (by omega)] at h
      split_ifs at h with hf
      · right
        simp only [Except.ok.injEq, Prod.mk.injEq] at h
        exact ⟨h.2.symm, p, dc, dn, vc, sc, vn, sn, rfl, rfl, by omega, hf, h.1.symm⟩
      · left
        simp only [Except.ok.injEq, Prod.mk.injEq] at h
        exact ⟨h.2.symm, h.1.symm⟩
    · left
      have : PCmd.setSustain ⟨dc, vc, sc, .note p⟩ ⟨dn, vn, sn, cn⟩ = .ok (⟨dc, vc, sc, .note p⟩, false) := by
        cases cn <;> first | rfl | exact absurd rfl hn
      rw [this] at h
      simp only [Except.ok.injEq, Prod.mk.injEq] at h
      exact ⟨h.2.symm, h.1.symm⟩
  · left
    have : PCmd.setSustain ⟨dc, vc, sc, cc⟩ ⟨dn, vn, sn, cn⟩ = .ok (⟨dc, vc, sc, cc⟩, false) := by
      cases cc <;> first | rfl | exact absurd ⟨_, rfl⟩ hc
    rw [this] at h
    simp only [Except.ok.injEq, Prod.mk.injEq] at h
    exact ⟨h.2.symm, h.1.symm⟩

/-- With durations as the converter makes them `set_sustain` succeeds. -/
theorem setSustain_ok (c n : PCmd) (hc : durOk c) (hn : durOk n) : ∃ r, c.setSustain n = .ok r := by
  obtain ⟨dc, vc, sc, cc⟩ := c
  obtain ⟨dn, vn, sn, cn⟩ := n
  by_cases h1 : ∃ p, cc = .note p
  · obtain ⟨p, rfl⟩ := h1
    by_cases h2 : cn = .rest
    · subst h2
      obtain ⟨d, rfl, hd, -⟩ := hc
      obtain ⟨d', hd', -, -⟩ := hn
      simp only at hd'
      subst hd'
      exact ⟨_, setSustain_note _ _ _ _ _ _ _ (by omega)⟩
    · cases cn <;> first | exact ⟨_, rfl⟩ | exact absurd rfl h2
  · cases cc <;> first | exact ⟨_, rfl⟩ | exact absurd ⟨_, rfl⟩ h1

theorem sustainPass_ok (cs : List PCmd) (h : ∀ c ∈ cs, durOk c) : ∃ r, sustainPass cs = .ok r := by
  induction cs using sustainPass.induct with
  | case1 => exact ⟨_, rfl⟩
  | case2 c => exact ⟨_, rfl⟩
  | case3 c n rest ih1 ih2 =>
    obtain ⟨⟨c', b⟩, hs⟩ := setSustain_ok c n (h c (by simp)) (h n (by simp))
    unfold sustainPass
    simp only [hs, bind, Except.bind]
    cases b with
    | true =>
      obtain ⟨r, hr⟩ := ih1 (fun x hx => h x (by simp [hx]))
      simp only [if_true, hr]
      exact ⟨_, rfl⟩
    | false =>
      obtain ⟨r, hr⟩ := ih2 (fun x hx => h x (by simpa using Or.inr (by simpa using hx)))
      simp only [Bool.false_eq_true, if_false, hr]
      exact ⟨_, rfl⟩

/-- The pass only fuses, provided no fused duration exceeds a byte. -/
theorem sustainPass_fused (cs r : List PCmd) (h : ∀ c ∈ cs, durOk c) (hr : sustainPass cs = .ok r) : Fused cs r := by
  induction cs using sustainPass.induct generalizing r with
  | case1 => cases hr; exact .nil
  | case2 c => cases hr; exact .keep c .nil
  | case3 c n rest ih1 ih2 =>
    unfold sustainPass at hr
    rcases hs : c.setSustain n with _ | ⟨c', b⟩
    · rw [hs] at hr; simp [bind, Except.bind] at hr
    rw [hs] at hr
    simp only [bind, Except.bind] at hr
    rcases setSustain_cases c n c' b hs with ⟨rfl, rfl⟩ | ⟨rfl, p, dn, dr, vn, sn, vr, sr, rfl, rfl, h0, hf, rfl⟩
    · simp only [Bool.false_eq_true, if_false] at hr
      rcases ht : sustainPass (n :: rest) with _ | t
      · rw [ht] at hr; simp at hr
      · rw [ht] at hr
        simp only [pure, Except.pure, Except.ok.injEq] at hr
        subst hr
        exact .keep _ (ih2 t (fun x hx => h x (by simpa using Or.inr (by simpa using hx))) ht)
    · simp only [if_true] at hr
      rcases ht : sustainPass rest with _ | t
      · rw [ht] at hr; simp at hr
      · rw [ht] at hr
        simp only [pure, Except.pure, Except.ok.injEq] at hr
        subst hr
        obtain ⟨d1, e1, -, b1⟩ := h _ List.mem_cons_self
        obtain ⟨d2, e2, -, b2⟩ := h _ (List.mem_cons_of_mem _ List.mem_cons_self)
        simp only [Option.some.injEq] at e1 e2
        subst e1 e2
        have hd : (UInt8.ofNat (dn.toNat + dr.toNat)).toNat = dn.toNat + dr.toNat := by
          rw [UInt8.toNat_ofNat']; omega
        have hm : (UInt8.ofNat (min (dn.toNat * 8 / (dn.toNat + dr.toNat)) 7)).toNat = min (dn.toNat * 8 / (dn.toNat + dr.toNat)) 7 := by
          rw [UInt8.toNat_ofNat']
          have := Nat.min_le_right (dn.toNat * 8 / (dn.toNat + dr.toNat)) 7
          exact Nat.mod_eq_of_lt (by omega)
        refine .fuse p dn dr _ _ vn sn vr sr hd (by rw [hm]; exact Nat.min_le_right _ _) (by rw [hd]; exact h0) ?_
          (ih1 t (fun x hx => h x (by simp [hx])) ht)
        rw [hm, hd]
        exact (sus_exact dn.toNat dr.toNat h0 hf).imp_right fun e => ⟨UInt8.toNat_inj.1 (by rw [hm]; exact e.1), e.2⟩

theorem fused_total {a b : List PCmd} (h : Fused a b) : total b = total a := by
  induction h with
  | nil => rfl
  | keep c _ ih => rw [total_cons, total_cons, ih]
  | fuse p dn dr s dt vn sn vr sr hd _ _ _ _ ih => simp [total_cons, units, ih, hd]; omega

theorem fused_onsets {a b : List PCmd} (h : Fused a b) (t : Nat) : onsets t b = onsets t a := by
  induction h generalizing t with
  | nil => rfl
  | keep c _ ih => simp only [onsets, ih]
  | fuse p dn dr s dt vn sn vr sr hd _ _ _ _ ih =>
    simp only [onsets, ih, units, Option.map_some, Option.getD_some, hd]
    simp [Nat.add_assoc]

/-- Velocities of the notes survive. -/
theorem fused_velocities {a b : List PCmd} (h : Fused a b) :
    (b.filter (fun c => c.command ≠ .rest)).map (fun c => (c.velocity, c.command)) =
      (a.filter (fun c => c.command ≠ .rest)).map (fun c => (c.velocity, c.command)) := by
  induction h with
  | nil => rfl
  | keep c _ ih =>
    simp only [List.filter_cons]
    split_ifs
    · rw [List.map_cons, List.map_cons, ih]
    · exact ih
  | fuse p dn dr s dt vn sn vr sr hd _ _ _ _ ih =>
    simpa using ih

end M2S
