import Verif.Spec.Damage
import Verif.Proofs.Counts
/-
Loop extraction step by step: what calls can stand for.
-/
namespace M2S

theorem Round.candidate {top : Nat} {tracks out : List (List PCmd)} {s : Sequence} (h : Round top tracks s out) : Candidate (tracks.take top) s := by
  obtain ⟨tree, h1, h2, -⟩ := h
  obtain ⟨tree', seqs, h3, h4, h5⟩ := candidates_ok tracks top
  rw [h1] at h3; cases h3
  unfold bestSequence at h2
  rw [h4, res_bind] at h2
  obtain ⟨a, ha, h2⟩ := h2
  cases ha
  rw [res_bind] at h2
  obtain ⟨b, hb, h2⟩ := h2
  rw [res_pure] at h2
  have hm := bestOf_spec seqs b hb
  cases b with
  | none => cases h2
  | some p =>
    simp only [Option.map_some, Option.some.injEq] at h2
    have hs : s ∈ seqs := by
      rw [← h2]; exact (hm.2 p.1 p.2 rfl).1
    exact h5 s hs

theorem Extracted.refl (s : List PCmd) (k : Nat) (a : List PCmd) : Extracted s k a a := by
  induction a with
  | nil => exact .done
  | cons c a ih => exact .keep c ih

theorem Extracted.before {s : List PCmd} {k : Nat} {a b : List PCmd} (p : List PCmd) (h : Extracted s k a b) : Extracted s k (p ++ a) (p ++ b) := by
  induction p with
  | nil => exact h
  | cons c p ih => exact .keep c ih

/-- What the locations of a sequence say about one track. -/
structure PlaceOk (tr s : List PCmd) (l : Location) : Prop where
  first : s <+: tr.drop l.cmdIdx
  second : 2 ≤ l.repeatCount.toNat → s <+: tr.drop (l.cmdIdx + s.length)
  fourth : l.repeatCount.toNat = 4 → s <+: tr.drop (l.cmdIdx + s.length * 3)
  one : 1 ≤ l.repeatCount.toNat
  four : l.repeatCount.toNat ≤ 4

theorem prefix_drop {s l : List PCmd} (h : s <+: l) : l = s ++ l.drop s.length := by
  obtain ⟨r, rfl⟩ := h
  rw [List.drop_left]

theorem extractTrack_extracted (tr s : List PCmd) (hs : s ≠ []) (k : Nat) (ls : List Location) : ∀ last out, (∀ l ∈ ls, PlaceOk tr s l) →
    extractTrack tr s.length k ls last = .ok out → Extracted s k (tr.drop last) out := by
  induction ls with
  | nil =>
    intro last out _ h
    simp only [extractTrack, res_ok] at h
    subst h
    split
    · exact Extracted.refl ..
    · rw [List.drop_of_length_le (by omega)]; exact .done
  | cons l ls ih =>
    intro last out hp h
    simp only [extractTrack, res_bind, res_pure] at h
    obtain ⟨before, hb, rest, h2, rfl⟩ := h
    have hr := ih _ rest (fun x hx => hp x (by simp [hx])) h2
    obtain ⟨p1, p2, p4, n1, n4⟩ := hp l (by simp)
    have hbef : last ≤ l.cmdIdx ∧ l.cmdIdx ≤ tr.length ∧ before = (tr.take l.cmdIdx).drop last := by
      unfold slice at hb
      split_ifs at hb with hc
      · rw [res_ok] at hb; exact ⟨hc.1, hc.2, hb.symm⟩
      · cases hb
    obtain ⟨b1, b2, b3⟩ := hbef
    have hd : tr.drop last = before ++ tr.drop l.cmdIdx := by
      have e : tr = tr.take l.cmdIdx ++ tr.drop l.cmdIdx := (List.take_append_drop _ _).symm
      rw [e, List.drop_append_of_le_length (by rw [List.length_take]; omega), ← e, b3]
    rw [hd]
    apply Extracted.before
    have e1 := prefix_drop p1
    rw [List.drop_drop] at e1
    have ha : ∀ n : Nat, l.repeatCount.toNat = n → l.repeatCount = UInt8.ofNat n := by
      rintro n rfl; simp
    rcases (show l.repeatCount.toNat = 1 ∨ l.repeatCount.toNat = 2 ∨ l.repeatCount.toNat = 3 ∨ l.repeatCount.toNat = 4 by omega) with e | e | e | e
    · rw [e, Nat.mul_one] at hr
      have := Extracted.call 1 (.inl rfl) hr
      rw [show copies (1 : UInt8).toNat s = s by simp [copies]] at this
      rw [ha 1 e, e1]
      exact this
    · rw [e] at hr
      have e2 := prefix_drop (p2 (by omega))
      rw [List.drop_drop] at e2
      have := Extracted.call 2 (.inr rfl) hr
      rw [show copies (2 : UInt8).toNat s = s ++ s by simp [copies, List.replicate]] at this
      rw [ha 2 e, e1, e2, show l.cmdIdx + s.length + s.length = l.cmdIdx + s.length * 2 by omega, ← List.append_assoc]
      exact this
    · rw [e] at hr
      have e2 := prefix_drop (p2 (by omega))
      rw [List.drop_drop] at e2
      have e3 : tr.drop (l.cmdIdx + s.length * 2) = (tr.drop (l.cmdIdx + s.length * 2)).take s.length ++ tr.drop (l.cmdIdx + s.length * 3) := by
        conv_lhs => rw [← List.take_append_drop s.length (tr.drop (l.cmdIdx + s.length * 2))]
        rw [List.drop_drop, show l.cmdIdx + s.length * 2 + s.length = l.cmdIdx + s.length * 3 by omega]
      have := Extracted.third ((tr.drop (l.cmdIdx + s.length * 2)).take s.length) (by
        rw [List.length_take, List.length_drop]
        by_cases hl : l.cmdIdx + s.length * 3 ≤ tr.length
        · left; omega
        · right
          have : 0 < s.length := List.length_pos_of_ne_nil hs
          exact ⟨by omega, List.drop_of_length_le (by omega)⟩) hr
      rw [show copies 2 s = s ++ s by simp [copies, List.replicate]] at this
      rw [ha 3 e, e1, e2, show l.cmdIdx + s.length + s.length = l.cmdIdx + s.length * 2 by omega, e3]
      simp only [List.append_assoc] at this ⊢
      exact this
    · rw [e] at hr
      have e2 := prefix_drop (p2 (by omega))
      rw [List.drop_drop] at e2
      have e3 : tr.drop (l.cmdIdx + s.length * 2) = (tr.drop (l.cmdIdx + s.length * 2)).take s.length ++ tr.drop (l.cmdIdx + s.length * 3) := by
        conv_lhs => rw [← List.take_append_drop s.length (tr.drop (l.cmdIdx + s.length * 2))]
        rw [List.drop_drop, show l.cmdIdx + s.length * 2 + s.length = l.cmdIdx + s.length * 3 by omega]
      have e4 := prefix_drop (p4 e)
      rw [List.drop_drop, show l.cmdIdx + s.length * 3 + s.length = l.cmdIdx + s.length * 4 by omega] at e4
      have := Extracted.fourth ((tr.drop (l.cmdIdx + s.length * 2)).take s.length) (by
        have h1 := (p4 e).length_le
        rw [List.length_drop] at h1
        have : 0 < s.length := List.length_pos_of_ne_nil hs
        rw [List.length_take, List.length_drop]
        omega) hr
      rw [show copies 2 s = s ++ s by simp [copies, List.replicate]] at this
      rw [ha 4 e, e1, e2, show l.cmdIdx + s.length + s.length = l.cmdIdx + s.length * 2 by omega, e3, e4]
      simp only [List.append_assoc] at this ⊢
      exact this

theorem Candidate.extracted {top : Nat} {tracks out : List (List PCmd)} {s : Sequence} (hc : Candidate (tracks.take top) s) (g2 : 3 < s.commands.length)
    (he : extractSequence tracks s top = .ok out) :
    4 ≤ s.commands.length ∧ (∀ c ∈ s.commands, c.isCall = false) ∧ ∃ new, out = new ++ tracks.drop top ++ [s.commands] ∧
      List.Forall₂ (Extracted s.commands tracks.length) (tracks.take top) new := by
  have g1 := hc.1
  obtain ⟨new, h1, h2, h3⟩ := extractSequence_inv tracks s top out he
  refine ⟨g2, ?_, new, h1, ?_⟩
  · intro c hm
    have := eligible_no_call (g1.eligible c hm)
    unfold PCmd.isCall
    split
    · rename_i t n e; exact absurd e (this t n)
    · rfl
  · rw [List.forall₂_iff_get]
    refine ⟨h2.symm, fun i hi hi' => ?_⟩
    obtain ⟨o, ho, hx⟩ := h3 i _ (List.getElem?_eq_getElem hi)
    have hoe : new[i] = o := by
      rw [List.getElem?_eq_getElem hi'] at ho; exact Option.some.inj ho
    have := extractTrack_extracted _ s.commands g1.ne tracks.length _ 0 o (fun l hl => ?_) hx
    · rw [List.drop_zero] at this
      simp only [List.get_eq_getElem]
      rw [hoe]; exact this
    · obtain ⟨hl, ht⟩ := List.mem_filter.1 hl
      have ht : l.trackIdx = i := by simpa using ht
      obtain ⟨os, hst⟩ := hc.2 l hl
      have occ : ∀ j, Occurs (tracks.take top) s.commands l.trackIdx j → s.commands <+: (tracks.take top)[i].drop j := by
        rintro j ⟨tr, e, hp⟩
        rw [ht, List.getElem?_eq_getElem hi] at e
        rw [Option.some.inj e]; exact hp
      exact ⟨occ _ (g1.occurs l hl), fun h => occ _ (g1.twice l hl h), fun h => occ _ (hst.fourth h), g1.once l hl, hst.le⟩

theorem Round.extracted {top : Nat} {tracks out : List (List PCmd)} {s : Sequence} (htop : top ≤ tracks.length) (h : Round top tracks s out) :
    4 ≤ s.commands.length ∧ (∀ c ∈ s.commands, c.isCall = false) ∧ ∃ new, out = new ++ tracks.drop top ++ [s.commands] ∧
      List.Forall₂ (Extracted s.commands tracks.length) (tracks.take top) new := by
  have hc := h.candidate
  obtain ⟨-, g2, -⟩ := h.facts htop
  obtain ⟨tree, -, -, he⟩ := h
  exact hc.extracted g2 he

theorem optimizeFuel_rounds (top fuel : Nat) : ∀ tracks out : List (List PCmd), top ≤ tracks.length → optimizeFuel fuel tracks top = .ok out → Rounds top tracks out := by
  induction fuel with
  | zero => intro tracks out _ h; cases h
  | succ fuel ih =>
    intro tracks out htop h
    rcases optimizeFuel_succ fuel tracks out top h with ⟨rfl, -⟩ | ⟨s, tracks1, hr, h⟩
    · exact .done _
    · obtain ⟨h1, h2, new, h3, h4⟩ := hr.extracted htop
      have hlen := (hr.facts htop).2.2.2.1
      have := ih tracks1 out (by omega) h
      rw [h3] at this
      exact .round s.commands new h1 h2 h4 this

/-! ## What remains to be undone -/

/-- As `Played`, with the calls of tracks below `k` left alone. -/
inductive PlayedAt (out : List (List PCmd)) (k : Nat) : List PCmd → List PCmd → Prop
  | done : PlayedAt out k [] []
  | keep {a b : List PCmd} (c : PCmd) (hc : ∀ t n, c.command = .callLoop t n → t < k) (h : PlayedAt out k a b) : PlayedAt out k (c :: a) (c :: b)
  | call {a b : List PCmd} (c : PCmd) (t : Nat) (n : UInt8) (hc : c.command = .callLoop t n) (ht : k ≤ t) (hn : n.toNat ≤ 2) (h : PlayedAt out k a b) :
      PlayedAt out k (copies n.toNat (out.getD t []) ++ a) (c :: b)
  | third {a b : List PCmd} (c : PCmd) (t : Nat) (n : UInt8) (x : List PCmd) (hc : c.command = .callLoop t n) (ht : k ≤ t) (hn : 3 ≤ n.toNat) (h : PlayedAt out k a b) :
      PlayedAt out k (copies 2 (out.getD t []) ++ x ++ copies (n.toNat - 3) (out.getD t []) ++ a) (c :: b)

theorem Extracted.nil_left {s : List PCmd} {k : Nat} {a b : List PCmd} (hs : s ≠ []) (h : Extracted s k a b) (ha : a = []) : b = [] := by
  cases h with
  | done => rfl
  | keep c h => cases ha
  | call n hn h =>
    exfalso
    rcases hn with rfl | rfl
    · simp [copies] at ha; exact hs ha.1
    · simp [copies, List.replicate] at ha; exact hs ha.1
  | third x hx h =>
    exfalso
    simp [copies, List.replicate] at ha; exact hs ha.1
  | fourth x hx h =>
    exfalso
    simp [copies, List.replicate] at ha; exact hs ha.1

theorem Extracted.split {s : List PCmd} {k : Nat} {a b : List PCmd} (h : Extracted s k a b) : ∀ u v : List PCmd, b = u ++ v →
    ∃ a1 a2, a = a1 ++ a2 ∧ Extracted s k a1 u ∧ Extracted s k a2 v := by
  induction h with
  | done =>
    intro u v hb
    obtain ⟨rfl, rfl⟩ := List.append_eq_nil_iff.1 hb.symm
    exact ⟨[], [], rfl, .done, .done⟩
  | @keep a b c h ih =>
    intro u v hb
    cases u with
    | nil => exact ⟨[], _, rfl, .done, by rw [← (by simpa using hb : c :: b = v)]; exact .keep c h⟩
    | cons d u =>
      obtain ⟨rfl, rfl⟩ := List.cons.inj hb
      obtain ⟨a1, a2, rfl, h1, h2⟩ := ih u v rfl
      exact ⟨c :: a1, a2, rfl, .keep c h1, h2⟩
  | @call a b n hn h ih =>
    intro u v hb
    cases u with
    | nil => exact ⟨[], _, rfl, .done, by rw [← (by simpa using hb : _ :: b = v)]; exact .call n hn h⟩
    | cons d u =>
      obtain ⟨rfl, rfl⟩ := List.cons.inj hb
      obtain ⟨a1, a2, rfl, h1, h2⟩ := ih u v rfl
      exact ⟨_, a2, (List.append_assoc ..).symm, .call n hn h1, h2⟩
  | @third a b x hx h ih =>
    intro u v hb
    cases u with
    | nil => exact ⟨[], _, rfl, .done, by rw [← (by simpa using hb : _ :: b = v)]; exact .third x hx h⟩
    | cons d u =>
      obtain ⟨rfl, rfl⟩ := List.cons.inj hb
      obtain ⟨a1, a2, rfl, h1, h2⟩ := ih u v rfl
      refine ⟨_, a2, (List.append_assoc ..).symm, .third x ?_ h1, h2⟩
      rcases hx with hx | ⟨hx, hn⟩
      · exact .inl hx
      · exact .inr ⟨hx, (List.append_eq_nil_iff.1 hn).1⟩
  | @fourth a b x hx h ih =>
    intro u v hb
    cases u with
    | nil => exact ⟨[], _, rfl, .done, by rw [← (by simpa using hb : _ :: b = v)]; exact .fourth x hx h⟩
    | cons d u =>
      obtain ⟨rfl, rfl⟩ := List.cons.inj hb
      obtain ⟨a1, a2, rfl, h1, h2⟩ := ih u v rfl
      exact ⟨_, a2, (List.append_assoc ..).symm, .fourth x hx h1, h2⟩

/-- Commands that are no calls stand for themselves. -/
theorem Extracted.plain {s : List PCmd} {k : Nat} {a b : List PCmd} (h : Extracted s k a b) (hb : ∀ c ∈ b, c.isCall = false) : a = b := by
  induction h with
  | done => rfl
  | keep c h ih => rw [ih fun d hd => hb d (by simp [hd])]
  | call n hn h ih => cases hb _ (List.mem_cons_self ..)
  | third x hx h ih => cases hb _ (List.mem_cons_self ..)
  | fourth x hx h ih => cases hb _ (List.mem_cons_self ..)

theorem copies_plain {n : Nat} {s : List PCmd} (h : ∀ c ∈ s, c.isCall = false) : ∀ c ∈ copies n s, c.isCall = false := fun c hc => h c (mem_copies hc)

/-- Undoing one more round. -/
theorem PlayedAt.undo {out : List (List PCmd)} {k : Nat} {s : List PCmd} (hk : out.getD k [] = s) (hsub : ∀ t, k < t → ∀ c ∈ out.getD t [], c.isCall = false)
    {b o : List PCmd} (h : PlayedAt out (k + 1) b o) : ∀ a, Extracted s k a b → (∀ c ∈ a, ∀ t n, c.command = .callLoop t n → t < k) → PlayedAt out k a o := by
  induction h with
  | done =>
    intro a ha _
    cases ha
    exact .done
  | keep c hc h ih =>
    intro a ha ht
    cases ha with
    | keep _ ha => exact .keep c (ht c (by simp)) (ih _ ha fun d hd => ht d (by simp [hd]))
    | call n hn ha =>
      subst hk
      refine .call _ k n rfl le_rfl ?_ (ih _ ha fun d hd => ht d (by simp [hd]))
      rcases hn with rfl | rfl <;> decide
    | @third a _ x hx ha =>
      subst hk
      have := PlayedAt.third (⟨some 0, some 0, some 0, .callLoop k 3⟩ : PCmd) k 3 x rfl le_rfl (by decide) (ih _ ha fun d hd => ht d (by simp [hd]))
      rw [show (3 : UInt8).toNat - 3 = 0 from rfl, show ∀ y, copies 0 y = [] from fun _ => rfl, List.append_nil] at this
      exact this
    | @fourth a _ x hx ha =>
      subst hk
      have := PlayedAt.third (⟨some 0, some 0, some 0, .callLoop k 4⟩ : PCmd) k 4 x rfl le_rfl (by decide) (ih _ ha fun d hd => ht d (by simp [hd]))
      rw [show (4 : UInt8).toNat - 3 = 1 from rfl, show ∀ y, copies 1 y = y from fun _ => by simp [copies]] at this
      exact this
  | call c t n hc htk hn h ih =>
    intro a ha ht
    obtain ⟨a1, a2, rfl, h1, h2⟩ := ha.split _ _ rfl
    rw [h1.plain (copies_plain (hsub t (by omega)))]
    exact .call c t n hc (by omega) hn (ih _ h2 fun d hd => ht d (by simp [hd]))
  | third c t n x hc htk hn h ih =>
    intro a ha ht
    obtain ⟨a1, a2, rfl, h1, h2⟩ := ha.split _ _ rfl
    obtain ⟨a3, a4, rfl, h3, h4⟩ := h1.split _ _ rfl
    obtain ⟨a5, a6, rfl, h5, h6⟩ := h3.split _ _ rfl
    rw [h5.plain (copies_plain (hsub t (by omega))), h4.plain (copies_plain (hsub t (by omega)))]
    exact .third c t n a6 hc (by omega) hn (ih _ h2 fun d hd => ht d (by simp [hd]))

theorem PlayedAt.refl (out : List (List PCmd)) (k : Nat) (a : List PCmd) (h : ∀ c ∈ a, ∀ t n, c.command = .callLoop t n → t < k) : PlayedAt out k a a := by
  induction a with
  | nil => exact .done
  | cons c a ih => exact .keep c (h c (by simp)) (ih fun d hd => h d (by simp [hd]))

/-- Calls name tracks there are, and subroutines contain none. -/
structure CallsOk (top : Nat) (tracks : List (List PCmd)) : Prop where
  call : ∀ tr ∈ tracks, ∀ c ∈ tr, ∀ t n, c.command = .callLoop t n → t < tracks.length
  sub : ∀ t, top ≤ t → ∀ c ∈ tracks.getD t [], c.isCall = false

theorem Extracted.calls {s : List PCmd} {k : Nat} {a b : List PCmd} (h : Extracted s k a b) (ha : ∀ c ∈ a, ∀ t n, c.command = .callLoop t n → t < k) :
    ∀ c ∈ b, ∀ t n, c.command = .callLoop t n → t < k + 1 := by
  induction h with
  | done => simp
  | keep c h ih =>
    intro d hd t n hc
    rcases List.mem_cons.1 hd with rfl | hd
    · have := ha d (by simp) t n hc; omega
    · exact ih (fun x hx => ha x (by simp [hx])) d hd t n hc
  | call m hm h ih =>
    intro d hd t n hc
    rcases List.mem_cons.1 hd with rfl | hd
    · cases hc; omega
    · exact ih (fun x hx => ha x (by simp [hx])) d hd t n hc
  | third x hx h ih =>
    intro d hd t n hc
    rcases List.mem_cons.1 hd with rfl | hd
    · cases hc; omega
    · exact ih (fun x hx => ha x (by simp [hx])) d hd t n hc
  | fourth x hx h ih =>
    intro d hd t n hc
    rcases List.mem_cons.1 hd with rfl | hd
    · cases hc; omega
    · exact ih (fun x hx => ha x (by simp [hx])) d hd t n hc

theorem getD_round (new tracks : List (List PCmd)) (s : List PCmd) (top : Nat) (hl : new.length = top) (ht : top ≤ tracks.length) (t : Nat) :
    (new ++ tracks.drop top ++ [s]).getD t [] = if t < top then new.getD t [] else if t < tracks.length then tracks.getD t [] else if t = tracks.length then s else [] := by
  simp only [List.getD_eq_getElem?_getD]
  split_ifs with h1 h2 h3
  · rw [List.append_assoc, List.getElem?_append_left (by omega)]
  · rw [List.append_assoc, List.getElem?_append_right (by omega), List.getElem?_append_left (by rw [List.length_drop]; omega), List.getElem?_drop, hl, show top + (t - top) = t by omega]
  · rw [List.getElem?_append_right (by rw [List.length_append, List.length_drop]; omega), List.length_append, List.length_drop, show t - (new.length + (tracks.length - top)) = 0 by omega]
    rfl
  · rw [List.getElem?_eq_none (by simp only [List.length_append, List.length_drop, List.length_singleton]; omega)]
    rfl

/-- Undoing all rounds. -/
theorem Rounds.undo {top : Nat} {tracks out : List (List PCmd)} (h : Rounds top tracks out) (ht : top ≤ tracks.length) (hc : CallsOk top tracks) :
    tracks.length ≤ out.length ∧ CallsOk top out ∧ (∀ t, top ≤ t → t < tracks.length → out.getD t [] = tracks.getD t []) ∧
      ∀ i < top, PlayedAt out tracks.length (tracks.getD i []) (out.getD i []) := by
  induction h with
  | done tracks =>
    refine ⟨le_rfl, hc, fun _ _ _ => rfl, fun i hi => PlayedAt.refl _ _ _ fun c hm t n e => ?_⟩
    refine hc.call (tracks.getD i []) ?_ c hm t n e
    rw [List.getD_eq_getElem?_getD, List.getElem?_eq_getElem (by omega)]; exact List.getElem_mem _
  | @round tracks out s new hs hcs hn h ih =>
    have hl : new.length = top := by rw [← hn.length_eq, List.length_take]; omega
    have hlen : (new ++ tracks.drop top ++ [s]).length = tracks.length + 1 := by
      simp only [List.length_append, List.length_drop, List.length_singleton]; omega
    have hg := getD_round new tracks s top hl ht
    have hex : ∀ i < top, Extracted s tracks.length (tracks.getD i []) (new.getD i []) := by
      intro i hi
      have := (List.forall₂_iff_get.1 hn).2 i (by rw [List.length_take]; omega) (by omega)
      simp only [List.get_eq_getElem, List.getElem_take] at this
      rw [List.getD_eq_getElem?_getD, List.getElem?_eq_getElem (by omega), List.getD_eq_getElem?_getD, List.getElem?_eq_getElem (by omega)]
      exact this
    have hmem : ∀ i < tracks.length, tracks.getD i [] ∈ tracks := by
      intro i hi
      rw [List.getD_eq_getElem?_getD, List.getElem?_eq_getElem hi]; exact List.getElem_mem _
    have hcall : ∀ i < tracks.length, ∀ c ∈ tracks.getD i [], ∀ t n, c.command = .callLoop t n → t < tracks.length := fun i hi => hc.call _ (hmem i hi)
    obtain ⟨i1, i2, i3, i4⟩ := ih (by rw [hlen]; omega) (by
      constructor
      · rw [hlen]
        intro tr htr c hm t n e
        rw [List.mem_append, List.mem_append] at htr
        rcases htr with (htr | htr) | htr
        · obtain ⟨i, hi, rfl⟩ := List.getElem_of_mem htr
          refine (hex i (by omega)).calls (hcall i (by omega)) c ?_ t n e
          rw [List.getD_eq_getElem?_getD, List.getElem?_eq_getElem hi]; exact hm
        · have := hc.call tr (List.mem_of_mem_drop htr) c hm t n e
          omega
        · rw [List.mem_singleton] at htr
          subst htr
          have := hcs c hm
          simp [PCmd.isCall, e] at this
      · intro t htt
        rw [hg, if_neg (by omega)]
        split_ifs
        · exact hc.sub t htt
        · exact hcs
        · simp)
    rw [hlen] at i1 i3 i4
    refine ⟨by omega, i2, fun t h1 h2 => ?_, fun i hi => ?_⟩
    · rw [i3 t h1 (by omega), hg, if_neg (by omega), if_pos h2]
    · have hk : out.getD tracks.length [] = s := by
        rw [i3 _ ht (by omega), hg, if_neg (by omega), if_neg (by omega), if_pos rfl]
      have hi4 := i4 i hi
      rw [hg, if_pos hi] at hi4
      exact hi4.undo hk (fun t h1 => i2.sub t (by omega)) _ (hex i hi) (hcall i (by omega))

theorem PlayedAt.played {out : List (List PCmd)} {k : Nat} {a o : List PCmd} (h : PlayedAt out k a o) (ha : ∀ c ∈ a, c.isCall = false) : Played out a o := by
  induction h with
  | done => exact .done
  | keep c hc h ih => exact .keep c (ha c (by simp)) (ih fun d hd => ha d (by simp [hd]))
  | call c t n hc ht hn h ih => exact .call c t n hc hn (ih fun d hd => ha d (by simp [hd]))
  | third c t n x hc ht hn h ih => exact .third c t n x hc hn (ih fun d hd => ha d (by simp [hd]))

/-! ## Consequences -/

theorem expandCmd_plain (out : List (List PCmd)) (c : PCmd) (h : c.isCall = false) : expandCmd out c = [c] := by
  unfold expandCmd
  split
  · rename_i t n e; simp [PCmd.isCall, e] at h
  · rfl

theorem expand_cons (out : List (List PCmd)) (c : PCmd) (b : List PCmd) : expand out (c :: b) = expandCmd out c ++ expand out b := List.flatMap_cons

/-- A stretch of the optimised track without higher counts stands for its expansion; what precedes and follows it is played by what precedes and follows it. -/
theorem Played.split {out : List (List PCmd)} {a b : List PCmd} (h : Played out a b) : ∀ u v, b = u ++ v → ∃ a1 a2, a = a1 ++ a2 ∧ Played out a1 u ∧ Played out a2 v := by
  induction h with
  | done =>
    intro u v hb
    obtain ⟨rfl, rfl⟩ := List.append_eq_nil_iff.1 hb.symm
    exact ⟨[], [], rfl, .done, .done⟩
  | @keep a b c hc h ih =>
    intro u v hb
    cases u with
    | nil => exact ⟨[], _, rfl, .done, by rw [← (by simpa using hb : c :: b = v)]; exact .keep c hc h⟩
    | cons d u =>
      obtain ⟨rfl, rfl⟩ := List.cons.inj hb
      obtain ⟨a1, a2, rfl, h1, h2⟩ := ih u v rfl
      exact ⟨c :: a1, a2, rfl, .keep c hc h1, h2⟩
  | @call a b c t n hc hn h ih =>
    intro u v hb
    cases u with
    | nil => exact ⟨[], _, rfl, .done, by rw [← (by simpa using hb : c :: b = v)]; exact .call c t n hc hn h⟩
    | cons d u =>
      obtain ⟨rfl, rfl⟩ := List.cons.inj hb
      obtain ⟨a1, a2, rfl, h1, h2⟩ := ih u v rfl
      exact ⟨_, a2, (List.append_assoc ..).symm, .call c t n hc hn h1, h2⟩
  | @third a b c t n x hc hn h ih =>
    intro u v hb
    cases u with
    | nil => exact ⟨[], _, rfl, .done, by rw [← (by simpa using hb : c :: b = v)]; exact .third c t n x hc hn h⟩
    | cons d u =>
      obtain ⟨rfl, rfl⟩ := List.cons.inj hb
      obtain ⟨a1, a2, rfl, h1, h2⟩ := ih u v rfl
      exact ⟨_, a2, (List.append_assoc ..).symm, .third c t n x hc hn h1, h2⟩

theorem Played.exact {out : List (List PCmd)} {a b : List PCmd} (h : Played out a b) (hb : ∀ c ∈ b, ∀ t n, c.command = .callLoop t n → n.toNat ≤ 2) : a = expand out b := by
  induction h with
  | done => rfl
  | keep c hc h ih => rw [expand_cons, expandCmd_plain _ _ hc, ← ih fun d hd => hb d (by simp [hd])]; rfl
  | call c t n hc hn h ih =>
    rw [expand_cons, ← ih fun d hd => hb d (by simp [hd])]
    simp only [expandCmd, hc]
  | third c t n x hc hn h ih =>
    have := hb c (by simp) t n hc
    omega

theorem Rounds.damage {tracks out : List (List PCmd)} (h : Rounds tracks.length tracks out) (hcalls : ∀ tr ∈ tracks, ∀ c ∈ tr, c.isCall = false) (i : Nat)
    (hi : i < tracks.length) : Played out (tracks.getD i []) (out.getD i []) := by
  have hmem : tracks.getD i [] ∈ tracks := by
    rw [List.getD_eq_getElem?_getD, List.getElem?_eq_getElem hi]; exact List.getElem_mem _
  refine (h.undo le_rfl ⟨fun tr htr c hc t n e => ?_, fun t ht => ?_⟩).2.2.2 i hi |>.played (hcalls _ hmem)
  · have := hcalls tr htr c hc
    simp [PCmd.isCall, e] at this
  · rw [List.getD_eq_getElem?_getD, List.getElem?_eq_none ht]; simp

end M2S
