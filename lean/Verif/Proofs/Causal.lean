import Verif.Spec.Causal
import Verif.Props.Layout
import Verif.Proofs.Held
/-
Reading and converting the beginning of a file.
-/
namespace M2S
open MidiSpec

/-- The messages before `T` are processed in an order that depends only on the messages before `T`. -/
theorem earlier_merged (T : Nat) (a b : List Callback) (hab : earlier T (file a) = earlier T (file b)) (sa sb : List (Fin 16 × TMsg))
    (ha : ∀ c, (sa.filter fun p => p.1 = c).map (·.2) = sortMessages (ofChannel (file a) c)) (ha' : sa.Pairwise MergeOrder)
    (hb : ∀ c, (sb.filter fun p => p.1 = c).map (·.2) = sortMessages (ofChannel (file b) c)) (hb' : sb.Pairwise MergeOrder) :
    earlier T (sa.map (·.2)) = earlier T (sb.map (·.2)) := by
  have mem : ∀ (x : List Callback) (s : List (Fin 16 × TMsg)), (∀ c, (s.filter fun p => p.1 = c).map (·.2) = sortMessages (ofChannel (file x) c)) →
      ∀ p ∈ s, homeNo p.2.1 = p.1.val + 1 := by
    intro x s h p hp
    have : p.2 ∈ sortMessages (ofChannel (file x) p.1) := by
      rw [← h p.1]
      exact List.mem_map.2 ⟨p, List.mem_filter.2 ⟨hp, by simp⟩, rfl⟩
    have h1 : home p.2.1 = some p.1 := by simpa [ofChannel] using List.of_mem_filter ((sort_perm _).mem_iff.1 this)
    unfold homeNo
    rw [h1]
  have sorted : ∀ (x : List Callback) (s : List (Fin 16 × TMsg)), (∀ c, (s.filter fun p => p.1 = c).map (·.2) = sortMessages (ofChannel (file x) c)) → s.Pairwise MergeOrder →
      (earlier T (s.map (·.2))).Pairwise fun m m' => place m ≤ place m' := by
    intro x s h hp
    refine List.Pairwise.filter _ ?_
    rw [List.pairwise_map]
    refine hp.imp_of_mem ?_
    intro p q hp hq hpq
    have h1 := mem x s h p hp
    have h2 := mem x s h q hq
    unfold place
    rw [h1, h2]
    simp only [Prod.Lex.toLex_le_toLex]
    rcases hpq with h | ⟨h, h' | ⟨h', h''⟩⟩
    · exact .inl h
    · exact .inr ⟨h, .inl h'⟩
    · exact .inr ⟨h, .inr ⟨h', by have : p.1.val ≤ q.1.val := h''; omega⟩⟩
  have cls : ∀ (x : List Callback) (s : List (Fin 16 × TMsg)), (∀ c, (s.filter fun p => p.1 = c).map (·.2) = sortMessages (ofChannel (file x) c)) →
      ∀ t r, (∀ c : Fin 16, (earlier T (s.map (·.2))).filter (fun m => place m = toLex (t, toLex (r, c.val + 1))) =
        (earlier T (file x)).filter (fun m => decide (home m.1 = some c) && decide (m.2 = t ∧ rank m.1 = r))) ∧
        ∀ n, (∀ c : Fin 16, n ≠ c.val + 1) → (earlier T (s.map (·.2))).filter (fun m => place m = toLex (t, toLex (r, n))) = [] := by
    intro x s h t r
    have hn := mem x s h
    refine ⟨fun c => ?_, fun n hne => ?_⟩
    · have e : (earlier T (file x)).filter (fun m => decide (home m.1 = some c) && decide (m.2 = t ∧ rank m.1 = r)) =
          earlier T ((ofChannel (file x) c).filter fun m => m.2 = t ∧ rank m.1 = r) := by
        unfold earlier ofChannel
        rw [List.filter_filter, List.filter_filter, List.filter_filter]
        apply List.filter_congr
        intro m _
        cases decide (m.2 < T) <;> cases decide (home m.1 = some c) <;> simp
      rw [e, ← sort_stable, ← h c]
      unfold earlier
      rw [List.filter_map, List.filter_map, List.filter_map, List.filter_map, List.filter_filter, List.filter_filter, List.filter_filter]
      congr 1
      apply List.filter_congr
      intro p hp
      simp only [Function.comp]
      have : decide (place p.2 = toLex (t, toLex (r, c.val + 1))) = (decide (p.2.2 = t ∧ rank p.2.1 = r) && decide (p.1 = c)) := by
        rw [← Bool.decide_and, decide_eq_decide, place_eq, hn p hp, and_assoc, Fin.ext_iff]
        omega
      rw [this]
      cases decide (p.2.2 < T) <;> simp
    · rw [List.filter_eq_nil_iff]
      intro e he
      obtain ⟨p, hp, rfl⟩ := List.mem_map.1 (List.mem_of_mem_filter he)
      rw [decide_eq_true_eq, place_eq, hn p hp]
      rintro ⟨-, -, h3⟩
      exact hne p.1 h3.symm
  refine sorted_classes place _ _ (sorted a sa ha ha') (sorted b sb hb hb') fun x => ?_
  obtain ⟨t, y, rfl⟩ : ∃ t y, x = toLex (t, y) := ⟨(ofLex x).1, (ofLex x).2, rfl⟩
  obtain ⟨r, c, rfl⟩ : ∃ r c, y = toLex (r, c) := ⟨(ofLex y).1, (ofLex y).2, rfl⟩
  by_cases hc : ∃ d : Fin 16, c = d.val + 1
  · obtain ⟨d, rfl⟩ := hc
    rw [(cls a sa ha t r).1 d, (cls b sb hb t r).1 d, hab]
  · have hne : ∀ d : Fin 16, c ≠ d.val + 1 := fun d e => hc ⟨d, e⟩
    rw [(cls a sa ha t r).2 c hne, (cls b sb hb t r).2 c hne]

/-- In a list in order of time the messages before `T` come first. -/
theorem earlier_split (T : Nat) : ∀ (l : List TMsg), l.Pairwise (fun a b => a.2 ≤ b.2) → l = earlier T l ++ l.filter fun m => T ≤ m.2
  | [], _ => rfl
  | m :: l, h => by
    obtain ⟨h1, h2⟩ := List.pairwise_cons.1 h
    unfold earlier
    by_cases hm : m.2 < T
    · rw [List.filter_cons, if_pos (by simpa using hm), List.filter_cons, if_neg (by simpa using hm), List.cons_append]
      exact congrArg (m :: ·) (earlier_split T l h2)
    · have e1 : (m :: l).filter (fun m => m.2 < T) = [] := by
        rw [List.filter_eq_nil_iff]
        intro x hx
        rcases List.mem_cons.1 hx with rfl | hx
        · simpa using hm
        · have := h1 x hx; simp; omega
      have e2 : (m :: l).filter (fun m => decide (T ≤ m.2)) = m :: l := by
        rw [List.filter_eq_self]
        intro x hx
        rcases List.mem_cons.1 hx with rfl | hx
        · simpa using hm
        · have := h1 x hx; simp; omega
      rw [e1, e2, List.nil_append]

/-- Dealing a list deals its parts one after the other. -/
theorem emits_parts (ord : EnumOrder) (base : Fin 16 → Fin 8) (x y : List TMsg) : ∀ k os k', emits ord base k (x ++ y) = some (os, k') →
    ∃ o1 k1 o2, emits ord base k x = some (o1, k1) ∧ emits ord base k1 y = some (o2, k') ∧ os = o1 ++ o2 := by
  induction x with
  | nil => intro k os k' h; exact ⟨[], k, os, rfl, h, rfl⟩
  | cons mt ms ih =>
    intro k os k' h
    obtain ⟨m, t⟩ := mt
    rw [List.cons_append, emits] at h
    rw [emits]
    cases h1 : emit ord base k m with
    | none => rw [h1] at h; cases h
    | some r =>
      obtain ⟨o, k1⟩ := r
      rw [h1] at h
      simp only at h ⊢
      cases h2 : emits ord base k1 (ms ++ y) with
      | none => rw [h2] at h; cases h
      | some r =>
        obtain ⟨os', k2⟩ := r
        rw [h2] at h
        simp only [Option.some.injEq, Prod.mk.injEq] at h
        obtain ⟨rfl, rfl⟩ := h
        obtain ⟨o1, k3, o2, g1, g2, rfl⟩ := ih k1 os' k2 h2
        exact ⟨o.map (fun p => (p.1, (p.2, t))) ++ o1, k3, o2, by rw [g1], g2, by simp⟩

/-- What dealing puts on a voice before `T` comes from the messages before `T`. -/
theorem emits_earlier (ord : EnumOrder) (base : Fin 16 → Fin 8) (T : Nat) (k : Ctl) (seq : List TMsg) (hs : seq.Pairwise fun a b => a.2 ≤ b.2) (os : List (Fin 8 × TMsg)) (k' : Ctl)
    (h : emits ord base k seq = some (os, k')) : ∃ o1 k1, emits ord base k (earlier T seq) = some (o1, k1) ∧
      ∀ v, (onVoice os v).Pairwise (fun a b => a.2 ≤ b.2) ∧ earlier T (onVoice os v) = onVoice o1 v := by
  have hord := (emits_times ord base seq k os k' h).2 hs
  rw [earlier_split T seq hs] at h
  obtain ⟨o1, k1, o2, h1, h2, rfl⟩ := emits_parts ord base _ _ k os k' h
  refine ⟨o1, k1, h1, fun v => ⟨?_, ?_⟩⟩
  · unfold onVoice
    rw [List.pairwise_map]
    exact hord.filter _
  · have e1 := (emits_times ord base _ k o1 k1 h1).1
    have e2 := (emits_times ord base _ k1 o2 k' h2).1
    unfold earlier onVoice
    rw [List.filter_append, List.map_append, List.filter_append]
    have g1 : ((o1.filter fun p => p.1 = v).map (·.2)).filter (fun m => decide (m.2 < T)) = (o1.filter fun p => p.1 = v).map (·.2) := by
      rw [List.filter_eq_self]
      intro m hm
      obtain ⟨p, hp, rfl⟩ := List.mem_map.1 hm
      obtain ⟨x, hx, hx'⟩ := e1 p (List.mem_of_mem_filter hp)
      rw [← hx']
      exact (List.mem_filter.1 hx).2
    have g2 : ((o2.filter fun p => p.1 = v).map (·.2)).filter (fun m => decide (m.2 < T)) = [] := by
      rw [List.filter_eq_nil_iff]
      intro m hm
      obtain ⟨p, hp, rfl⟩ := List.mem_map.1 hm
      obtain ⟨x, hx, hx'⟩ := e2 p (List.mem_of_mem_filter hp)
      rw [← hx']
      have := (List.mem_filter.1 hx).2
      simp only [decide_eq_true_eq] at this ⊢
      omega
    rw [g1, g2, List.append_nil]

/-- The sustain pass changes neither pitch nor velocity. -/
theorem setSustain_same (c n c' : PCmd) (f : Bool) (h : c.setSustain n = .ok (c', f)) : c'.velocity = c.velocity ∧ c'.command = c.command := by
  unfold PCmd.setSustain at h
  split at h
  · split at h
    · simp only at h
      split at h
      · cases h
      · split at h
        · cases h; exact ⟨rfl, rfl⟩
        · cases h; exact ⟨rfl, rfl⟩
    · cases h
  · cases h; exact ⟨rfl, rfl⟩

/-- The sustain pass over the beginning of a track. -/
theorem sustainPass_begin (x y t : List PCmd) (h : sustainPass (x ++ y) = .ok t) : ∃ t0, sustainPass x = .ok t0 ∧ BeginsLike t0 t := by
  induction hn : x.length using Nat.strong_induction_on generalizing x t with
  | _ n ih =>
    match x with
    | [] => exact ⟨[], rfl, ⟨List.nil_prefix, List.nil_prefix⟩⟩
    | [c] =>
      refine ⟨[c], rfl, ⟨List.nil_prefix, ?_⟩⟩
      cases y with
      | nil => simp only [List.append_nil, sustainPass] at h; cases h; exact List.prefix_refl _
      | cons d y =>
        rw [List.cons_append, List.nil_append, sustainPass] at h
        cases hs : c.setSustain d with
        | error e => rw [hs] at h; cases h
        | ok r =>
          obtain ⟨c', f⟩ := r
          rw [hs] at h
          change (if f = true then sustainPass y >>= fun u => pure (c' :: u) else sustainPass (d :: y) >>= fun u => pure (c' :: u)) = .ok t at h
          obtain ⟨h1, h2⟩ := setSustain_same c d c' f hs
          obtain ⟨u, rfl⟩ : ∃ u, t = c' :: u := by
            split at h
            · cases hu : sustainPass y with
              | error e => rw [hu] at h; cases h
              | ok u => rw [hu] at h; cases h; exact ⟨u, rfl⟩
            · cases hu : sustainPass (d :: y) with
              | error e => rw [hu] at h; cases h
              | ok u => rw [hu] at h; cases h; exact ⟨u, rfl⟩
          rw [List.map_cons, List.map_cons, h1, h2]
          exact List.cons_prefix_cons.2 ⟨rfl, List.nil_prefix⟩
    | c :: d :: x =>
      rw [List.cons_append, List.cons_append, sustainPass] at h
      rw [sustainPass]
      cases hs : c.setSustain d with
      | error e => rw [hs] at h; cases h
      | ok r =>
        obtain ⟨c', f⟩ := r
        rw [hs] at h
        change (if f = true then sustainPass (x ++ y) >>= fun u => pure (c' :: u) else sustainPass (d :: (x ++ y)) >>= fun u => pure (c' :: u)) = .ok t at h
        change ∃ t0, (if f = true then sustainPass x >>= fun u => pure (c' :: u) else sustainPass (d :: x) >>= fun u => pure (c' :: u)) = .ok t0 ∧ BeginsLike t0 t
        have wrap : ∀ t0 u, BeginsLike t0 u → BeginsLike (c' :: t0) (c' :: u) := by
          intro t0 u hb
          constructor
          · cases t0 with
            | nil => exact List.nil_prefix
            | cons e t0 =>
              rw [List.dropLast_cons₂]
              exact List.cons_prefix_cons.2 ⟨rfl, hb.commands⟩
          · exact List.cons_prefix_cons.2 ⟨rfl, hb.last⟩
        cases f with
        | true =>
          simp only [if_true] at h ⊢
          cases hu : sustainPass (x ++ y) with
          | error e => rw [hu] at h; cases h
          | ok u =>
            rw [hu] at h
            cases h
            obtain ⟨t0, g1, g2⟩ := ih x.length (by simp at hn; omega) x u hu rfl
            exact ⟨c' :: t0, by rw [g1]; rfl, wrap t0 u g2⟩
        | false =>
          simp only [Bool.false_eq_true, if_false] at h ⊢
          cases hu : sustainPass (d :: (x ++ y)) with
          | error e => rw [hu] at h; cases h
          | ok u =>
            rw [hu] at h
            cases h
            obtain ⟨t0, g1, g2⟩ := ih (d :: x).length (by simp at hn ⊢; omega) (d :: x) u hu rfl
            exact ⟨c' :: t0, by rw [g1]; rfl, wrap t0 u g2⟩

end M2S
