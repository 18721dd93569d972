import Verif.Proofs.JsonText
import Verif.Spec.JsonGrammar
import Mathlib.Data.List.TakeWhile
/-
Lemmas: the reader of JSON texts accepts what the grammar allows.
-/
namespace M2S.Text

open JsonSpec

theorem blank_spaces {w : List UInt8} (h : Blank w) : ∀ b ∈ w, isSpace b = true := fun b hb => (space_iff b).2 (h b hb)

theorem next_blank {w : List UInt8} (h : Blank w) (t : List UInt8) : next (w ++ t) = next t := next_spaces w t (blank_spaces h)

/-- What `next` finds. -/
theorem next_some {t r : List UInt8} {b : UInt8} (h : next t = some (b, r)) : ∃ w, t = w ++ b :: r ∧ Blank w := by
  induction t with
  | nil => simp [next, skip] at h
  | cons c t ih =>
    by_cases hc : isSpace c = true
    · rw [next_space hc] at h
      obtain ⟨w, e, hw⟩ := ih h
      exact ⟨c :: w, by rw [e]; rfl, by
        intro x hx
        rcases List.mem_cons.1 hx with rfl | hx
        · exact (space_iff _).1 hc
        · exact hw x hx⟩
    · rw [next_cons (by simpa using hc)] at h
      simp only [Option.some.injEq, Prod.mk.injEq] at h
      obtain ⟨rfl, rfl⟩ := h
      exact ⟨[], rfl, by intro x hx; cases hx⟩

theorem skip_nil {t : List UInt8} : skip t = [] ↔ Blank t := by
  induction t with
  | nil => simp [skip, Blank]
  | cons x b ih =>
    unfold skip at ih ⊢
    rw [List.dropWhile_cons]
    by_cases hx : isSpace x = true
    · rw [if_pos hx, ih]
      unfold Blank
      rw [List.forall_mem_cons]
      exact ⟨fun h => ⟨(space_iff x).1 hx, h⟩, fun h => h.2⟩
    · rw [if_neg hx]
      refine ⟨fun h => absurd h (by simp), fun h => absurd ((space_iff x).2 (h x (List.mem_cons_self ..))) hx⟩

/-! Rows of digits. -/

theorem digit_of {b : UInt8} (h : isDigit b = true) : b.toNat - 48 < 10 ∧ b = UInt8.ofNat (48 + (b.toNat - 48)) ∧ (b.toNat - 48 = 0 → b = 48) := by
  simp only [isDigit, Bool.and_eq_true, decide_eq_true_eq, UInt8.le_iff_toNat_le] at h
  have h1 : (48 : UInt8).toNat = 48 := rfl
  have h2 : (57 : UInt8).toNat = 57 := rfl
  refine ⟨by omega, ?_, ?_⟩
  · apply UInt8.toNat_inj.1
    rw [UInt8.toNat_ofNat']
    omega
  · intro h0
    apply UInt8.toNat_inj.1
    omega

theorem digitsValue_snoc (ds : List UInt8) (d : UInt8) : digitsValue (ds ++ [d]) = 10 * digitsValue ds + (d.toNat - 48) := by
  unfold digitsValue
  rw [List.foldl_append]
  rfl

theorem digits_row (ds : List UInt8) : ds ≠ [] → (∀ b ∈ ds, isDigit b = true) → ¬ (1 < ds.length ∧ ds.head? = some 48) →
    Row ds (digitsValue ds) ∧ (ds.head? ≠ some 48 → digitsValue ds ≠ 0) := by
  induction ds using List.reverseRecOn with
  | nil => intro h; exact absurd rfl h
  | append_singleton ds d ih =>
    intro _ hd hz
    obtain ⟨d1, d2, d3⟩ := digit_of (hd d (by simp))
    rw [digitsValue_snoc]
    by_cases he : ds = []
    · subst he
      have : digitsValue [] = 0 := rfl
      rw [this]
      simp only [List.nil_append, List.head?_cons, Nat.mul_zero, Nat.zero_add, ne_eq, Option.some.injEq]
      refine ⟨?_, fun h h0 => h (d3 h0)⟩
      have := Row.one d1
      rwa [← d2] at this
    · have hh : (ds ++ [d]).head? = ds.head? := by cases ds with | nil => exact absurd rfl he | cons a l => rfl
      have hl : 0 < ds.length := List.length_pos_iff.2 he
      rw [hh] at hz ⊢
      have hn : ds.head? ≠ some 48 := fun h => hz ⟨by simp; omega, h⟩
      obtain ⟨r, v⟩ := ih he (fun b hb => hd b (by simp [hb])) fun h => hn h.2
      refine ⟨?_, fun _ => by have := v hn; omega⟩
      have := Row.more r (v hn) d1
      rwa [← d2] at this

theorem row_digits {ds : List UInt8} {n : Nat} (h : Row ds n) :
    ds ≠ [] ∧ (∀ b ∈ ds, isDigit b = true) ∧ digitsValue ds = n ∧ (ds.head? = some 48 → ds.length = 1 ∧ n = 0) := by
  induction h with
  | @one d h =>
    obtain ⟨h1, h2⟩ := digit_byte h
    refine ⟨by simp, by simpa using h1, ?_, ?_⟩
    · change 10 * 0 + _ = _
      omega
    · intro h3
      simp only [List.head?_cons, Option.some.injEq] at h3
      rw [h3] at h2
      exact ⟨rfl, h2.symm⟩
  | @more t n d r hn h ih =>
    obtain ⟨i1, i2, i3, i4⟩ := ih
    obtain ⟨h1, h2⟩ := digit_byte h
    refine ⟨by simp, ?_, by rw [digitsValue_snoc, i3, h2], ?_⟩
    · intro b hb
      rcases List.mem_append.1 hb with hb | hb
      · exact i2 b hb
      · rw [List.mem_singleton.1 hb]; exact h1
    · intro h3
      have : (t ++ [UInt8.ofNat (48 + d)]).head? = t.head? := by cases t with | nil => exact absurd rfl i1 | cons a l => rfl
      rw [this] at h3
      exact absurd (i4 h3).2 hn

theorem readDigits_row {ds : List UInt8} {n : Nat} (hr : Row ds n) {rest : List UInt8} (h : Stop rest) : readDigits (ds ++ rest) = some (n, rest) := by
  obtain ⟨h1, h2, h4, h3⟩ := row_digits hr
  have hs : rest.takeWhile isDigit = [] ∧ rest.dropWhile isDigit = rest := by
    cases rest with
    | nil => exact ⟨rfl, rfl⟩
    | cons b t =>
      have := (h b rfl).1
      exact ⟨List.takeWhile_cons_of_neg (by simp [this]), List.dropWhile_cons_of_neg (by simp [this])⟩
  have ht : (ds ++ rest).takeWhile isDigit = ds := by rw [List.takeWhile_append_of_pos h2, hs.1, List.append_nil]
  have hd : (ds ++ rest).dropWhile isDigit = rest := by rw [List.dropWhile_append_of_pos h2, hs.2]
  unfold readDigits
  simp only [ht, hd, h4]
  rw [if_neg]
  rintro (hc | ⟨hc1, hc2⟩ | hc | hc | hc)
  · exact h1 hc
  · have := (h3 hc2).1; omega
  · exact (h _ hc).2.1 rfl
  · exact (h _ hc).2.2.1 rfl
  · exact (h _ hc).2.2.2 rfl

theorem readDigits_some {t r : List UInt8} {n : Nat} (h : readDigits t = some (n, r)) : ∃ ds, t = ds ++ r ∧ Row ds n := by
  unfold readDigits at h
  simp only at h
  by_cases hc : t.takeWhile isDigit = [] ∨ (1 < (t.takeWhile isDigit).length ∧ (t.takeWhile isDigit).head? = some 48) ∨ (t.dropWhile isDigit).head? = some 46 ∨
      (t.dropWhile isDigit).head? = some 69 ∨ (t.dropWhile isDigit).head? = some 101
  · rw [if_pos hc] at h; cases h
  · rw [if_neg hc] at h
    simp only [Option.some.injEq, Prod.mk.injEq] at h
    obtain ⟨rfl, rfl⟩ := h
    refine ⟨_, List.takeWhile_append_dropWhile.symm, (digits_row _ (fun e => hc (Or.inl e)) (fun b hb => List.mem_takeWhile_imp hb) fun e => hc (Or.inr (Or.inl e))).1⟩

theorem readWord_some {w : String} {j x : Json} {t r : List UInt8} (h : readWord w j t = some (x, r)) : x = j ∧ t = ascii w ++ r := by
  unfold readWord at h
  by_cases hp : (ascii w).isPrefixOf t = true
  · rw [if_pos hp] at h
    simp only [Option.some.injEq, Prod.mk.injEq] at h
    obtain ⟨rfl, rfl⟩ := h
    obtain ⟨u, rfl⟩ := List.isPrefixOf_iff_prefix.1 hp
    exact ⟨rfl, by rw [List.drop_left]⟩
  · rw [if_neg hp] at h; cases h

theorem readInt_some {t r : List UInt8} {x : Json} (h : readInt t = some (x, r)) : ∃ v, t = v ++ r ∧ Value v x := by
  unfold readInt at h
  by_cases hm : t.head? = some 45
  · rw [if_pos hm] at h
    obtain ⟨t, rfl⟩ : ∃ u, t = 45 :: u := by
      cases t with
      | nil => cases hm
      | cons a l => simp only [List.head?_cons, Option.some.injEq] at hm; exact ⟨l, by rw [hm]⟩
    simp only [List.tail_cons] at h
    cases hd : readDigits t with
    | none => rw [hd] at h; cases h
    | some p =>
      obtain ⟨n, rest⟩ := p
      rw [hd] at h
      simp only at h
      by_cases hn : n ≠ 0 ∧ n ≤ 2 ^ 63
      · rw [if_pos hn] at h
        simp only [Option.some.injEq, Prod.mk.injEq] at h
        obtain ⟨rfl, rfl⟩ := h
        obtain ⟨ds, rfl, hr⟩ := readDigits_some hd
        exact ⟨45 :: ds, rfl, .neg hr hn.1 hn.2⟩
      · rw [if_neg hn] at h; cases h
  · rw [if_neg hm] at h
    cases hd : readDigits t with
    | none => rw [hd] at h; cases h
    | some p =>
      obtain ⟨n, rest⟩ := p
      rw [hd] at h
      simp only at h
      by_cases hn : n < 2 ^ 64
      · rw [if_pos hn] at h
        simp only [Option.some.injEq, Prod.mk.injEq] at h
        obtain ⟨rfl, rfl⟩ := h
        obtain ⟨ds, rfl, hr⟩ := readDigits_some hd
        exact ⟨ds, rfl, .int hr hn⟩
      · rw [if_neg hn] at h; cases h

/-! Numbers with a fraction or an exponent. -/

theorem row_split {ds rest : List UInt8} (h : ∀ b ∈ ds, isDigit b = true) (hs : ∀ b, rest.head? = some b → isDigit b = false) :
    (ds ++ rest).takeWhile isDigit = ds ∧ (ds ++ rest).dropWhile isDigit = rest := by
  have hs : rest.takeWhile isDigit = [] ∧ rest.dropWhile isDigit = rest := by
    cases rest with
    | nil => exact ⟨rfl, rfl⟩
    | cons b t =>
      have := hs b rfl
      exact ⟨List.takeWhile_cons_of_neg (by simp [this]), List.dropWhile_cons_of_neg (by simp [this])⟩
  exact ⟨by rw [List.takeWhile_append_of_pos h, hs.1, List.append_nil], by rw [List.dropWhile_append_of_pos h, hs.2]⟩

theorem readRow_some {t ds r : List UInt8} (h : readRow t = some (ds, r)) : t = ds ++ r ∧ ds ≠ [] ∧ ∀ b ∈ ds, isDigit b = true := by
  unfold readRow at h
  by_cases hc : t.takeWhile isDigit = []
  · rw [if_pos hc] at h; cases h
  · rw [if_neg hc] at h
    simp only [Option.some.injEq, Prod.mk.injEq] at h
    obtain ⟨rfl, rfl⟩ := h
    exact ⟨List.takeWhile_append_dropWhile.symm, hc, fun b hb => List.mem_takeWhile_imp hb⟩

theorem readRow_of {ds rest : List UInt8} (hd : ds ≠ []) (h : ∀ b ∈ ds, isDigit b = true) (hs : ∀ b, rest.head? = some b → isDigit b = false) :
    readRow (ds ++ rest) = some (ds, rest) := by
  obtain ⟨h1, h2⟩ := row_split h hs
  unfold readRow
  rw [h1, h2, if_neg hd]

theorem numeral_of (ds : List UInt8) : ds ≠ [] → (∀ b ∈ ds, isDigit b = true) → Numeral ds (digitsValue ds) ds.length := by
  induction ds using List.reverseRecOn with
  | nil => intro h; exact absurd rfl h
  | append_singleton ds d ih =>
    intro _ hd
    obtain ⟨d1, d2, -⟩ := digit_of (hd d (by simp))
    rw [digitsValue_snoc, List.length_append, List.length_singleton]
    by_cases he : ds = []
    · subst he
      have := Numeral.one d1
      rw [← d2] at this
      have e : digitsValue [] = 0 := rfl
      rw [e]
      simpa using this
    · have := Numeral.more (ih he fun b hb => hd b (by simp [hb])) d1
      rwa [← d2] at this

theorem numeral_digits {ds : List UInt8} {n k : Nat} (h : Numeral ds n k) : ds ≠ [] ∧ (∀ b ∈ ds, isDigit b = true) ∧ digitsValue ds = n ∧ ds.length = k := by
  induction h with
  | @one d h =>
    obtain ⟨h1, h2⟩ := digit_byte h
    refine ⟨by simp, by simpa using h1, ?_, rfl⟩
    change 10 * 0 + _ = _
    omega
  | @more t n k d r h ih =>
    obtain ⟨i1, i2, i3, i4⟩ := ih
    obtain ⟨h1, h2⟩ := digit_byte h
    refine ⟨by simp, ?_, by rw [digitsValue_snoc, i3, h2], by simp [i4]⟩
    intro b hb
    rcases List.mem_append.1 hb with hb | hb
    · exact i2 b hb
    · rw [List.mem_singleton.1 hb]; exact h1

theorem cons_of_head {t : List UInt8} {b : UInt8} (h : t.head? = some b) : t = b :: t.tail := by
  cases t with
  | nil => cases h
  | cons a l => simp only [List.head?_cons, Option.some.injEq] at h; rw [h]; rfl

theorem readFrac_some {t ds r : List UInt8} (h : readFrac t = some (ds, r)) :
    ∃ u, t = u ++ r ∧ Frac u (digitsValue ds / 10 ^ ds.length) ∧ (u = [] → ds = []) := by
  unfold readFrac at h
  by_cases hc : t.head? = some 46
  · rw [if_pos hc] at h
    obtain ⟨e, h1, h2⟩ := readRow_some h
    exact ⟨46 :: ds, by rw [cons_of_head hc, e]; rfl, .some (numeral_of ds h1 h2), fun e => by cases e⟩
  · rw [if_neg hc] at h
    simp only [Option.some.injEq, Prod.mk.injEq] at h
    obtain ⟨rfl, rfl⟩ := h
    refine ⟨[], rfl, ?_, fun _ => rfl⟩
    have : ((digitsValue [] : Nat) : ℚ) / 10 ^ ([] : List UInt8).length = 0 := by simp [digitsValue]
    rw [this]
    exact .none

theorem readFrac_of {u : List UInt8} {f : ℚ} (h : Frac u f) {rest : List UInt8} (hs : ∀ b, rest.head? = some b → isDigit b = false ∧ b ≠ 46) :
    ∃ ds, readFrac (u ++ rest) = some (ds, rest) ∧ (digitsValue ds / 10 ^ ds.length : ℚ) = f ∧ (ds = [] → u = []) := by
  cases h with
  | none =>
    refine ⟨[], ?_, by simp [digitsValue], fun _ => rfl⟩
    rw [List.nil_append, readFrac, if_neg fun hc => (hs _ hc).2 rfl]
  | @some t n k r =>
    obtain ⟨h1, h2, h3, h4⟩ := numeral_digits r
    refine ⟨t, ?_, by rw [h3, h4], fun e => absurd e h1⟩
    rw [List.cons_append, readFrac, List.head?_cons, if_pos rfl, List.tail_cons]
    exact readRow_of h1 h2 fun b hb => (hs b hb).1

theorem readExpo_some {t r : List UInt8} {e : Option Int} (h : readExpo t = some (e, r)) :
    ∃ x, t = x ++ r ∧ Expo x (e.getD 0) ∧ (x = [] → e = none) := by
  unfold readExpo at h
  by_cases hc : t.head? = some 69 ∨ t.head? = some 101
  · rw [if_pos hc] at h
    obtain ⟨b, hb, ht⟩ : ∃ b, (b = 69 ∨ b = 101) ∧ t = b :: t.tail := by
      rcases hc with hc | hc
      · exact ⟨69, Or.inl rfl, cons_of_head hc⟩
      · exact ⟨101, Or.inr rfl, cons_of_head hc⟩
    rw [ht]
    generalize t.tail = t at h
    by_cases hm : t.head? = some 45
    · rw [if_pos hm] at h
      obtain ⟨⟨ds, q⟩, hr, e1⟩ := Option.map_eq_some_iff.1 h
      simp only [Prod.mk.injEq] at e1
      obtain ⟨rfl, rfl⟩ := e1
      obtain ⟨e2, h1, h2⟩ := readRow_some hr
      exact ⟨b :: 45 :: ds, by rw [cons_of_head hm, e2]; rfl, .minus hb (numeral_of ds h1 h2), fun e => by cases e⟩
    · rw [if_neg hm] at h
      by_cases hp : t.head? = some 43
      · rw [if_pos hp] at h
        obtain ⟨⟨ds, q⟩, hr, e1⟩ := Option.map_eq_some_iff.1 h
        simp only [Prod.mk.injEq] at e1
        obtain ⟨rfl, rfl⟩ := e1
        obtain ⟨e2, h1, h2⟩ := readRow_some hr
        exact ⟨b :: 43 :: ds, by rw [cons_of_head hp, e2]; rfl, .plus hb (numeral_of ds h1 h2), fun e => by cases e⟩
      · rw [if_neg hp] at h
        obtain ⟨⟨ds, q⟩, hr, e1⟩ := Option.map_eq_some_iff.1 h
        simp only [Prod.mk.injEq] at e1
        obtain ⟨rfl, rfl⟩ := e1
        obtain ⟨e2, h1, h2⟩ := readRow_some hr
        exact ⟨b :: ds, by rw [e2]; rfl, .bare hb (numeral_of ds h1 h2), fun e => by cases e⟩
  · rw [if_neg hc] at h
    simp only [Option.some.injEq, Prod.mk.injEq] at h
    obtain ⟨rfl, rfl⟩ := h
    exact ⟨[], rfl, .none, fun _ => rfl⟩

theorem readExpo_of {x : List UInt8} {e : Int} (h : Expo x e) {rest : List UInt8} (hs : Stop rest) :
    ∃ o, readExpo (x ++ rest) = some (o, rest) ∧ o.getD 0 = e ∧ (o = none → x = []) := by
  have hs' : ∀ b, rest.head? = some b → isDigit b = false := fun b hb => (hs b hb).1
  cases h with
  | none =>
    refine ⟨none, ?_, rfl, fun _ => rfl⟩
    rw [List.nil_append, readExpo, if_neg]
    rintro (hc | hc)
    · exact (hs _ hc).2.2.1 rfl
    · exact (hs _ hc).2.2.2 rfl
  | @bare b t n k hb r =>
    obtain ⟨h1, h2, h3, h4⟩ := numeral_digits r
    refine ⟨some n, ?_, rfl, fun e => by cases e⟩
    have hc : ((b :: t ++ rest).head? = some 69 ∨ (b :: t ++ rest).head? = some 101) := by simpa using hb
    have hn : ∀ c : UInt8, isDigit c = false → (t ++ rest).head? ≠ some c := by
      intro c hd hh
      cases t with
      | nil => exact h1 rfl
      | cons a l =>
        simp only [List.cons_append, List.head?_cons, Option.some.injEq] at hh
        have := h2 a (List.mem_cons_self ..)
        rw [hh, hd] at this
        cases this
    rw [readExpo, if_pos hc, List.cons_append, List.tail_cons, if_neg (hn 45 (by decide)), if_neg (hn 43 (by decide)), readRow_of h1 h2 hs', Option.map_some, h3]
  | @plus b t n k hb r =>
    obtain ⟨h1, h2, h3, h4⟩ := numeral_digits r
    refine ⟨some n, ?_, rfl, fun e => by cases e⟩
    have hc : ((b :: 43 :: t ++ rest).head? = some 69 ∨ (b :: 43 :: t ++ rest).head? = some 101) := by simpa using hb
    rw [readExpo, if_pos hc, List.cons_append, List.cons_append, List.tail_cons, List.head?_cons, if_neg (by decide), if_pos rfl, List.tail_cons,
      readRow_of h1 h2 hs', Option.map_some, h3]
  | @minus b t n k hb r =>
    obtain ⟨h1, h2, h3, h4⟩ := numeral_digits r
    refine ⟨some (-n), ?_, rfl, fun e => by cases e⟩
    have hc : ((b :: 45 :: t ++ rest).head? = some 69 ∨ (b :: 45 :: t ++ rest).head? = some 101) := by simpa using hb
    rw [readExpo, if_pos hc, List.cons_append, List.cons_append, List.tail_cons, List.head?_cons, if_pos rfl, List.tail_cons,
      readRow_of h1 h2 hs', Option.map_some, h3]

theorem readDecimal_some {int : Nat → Bool} {t r : List UInt8} {q : ℚ} (h : readDecimal int t = some (q, r)) :
    ∃ v, t = v ++ r ∧ Decimal (fun n => int n = true) v q := by
  unfold readDecimal at h
  replace h := Option.bind_eq_some_iff.1 h
  obtain ⟨⟨ds, p⟩, hr, h⟩ := h
  simp only at h
  obtain ⟨rfl, h1, h2⟩ := readRow_some hr
  by_cases hz : 1 < ds.length ∧ ds.head? = some 48
  · rw [if_pos hz] at h; cases h
  rw [if_neg hz] at h
  replace h := Option.bind_eq_some_iff.1 h
  obtain ⟨⟨fs, p'⟩, hf, h⟩ := h
  replace h := Option.bind_eq_some_iff.1 h
  obtain ⟨⟨e, p''⟩, he, h⟩ := h
  simp only at h hf he
  obtain ⟨u, rfl, f1, f2⟩ := readFrac_some hf
  obtain ⟨x, rfl, e1, e2⟩ := readExpo_some he
  by_cases hc : fs = [] ∧ e = none ∧ int (digitsValue ds) = true
  · rw [if_pos hc] at h; cases h
  rw [if_neg hc] at h
  simp only [Option.some.injEq, Prod.mk.injEq] at h
  obtain ⟨rfl, rfl⟩ := h
  refine ⟨ds ++ (u ++ x), by simp, .mk (digits_row ds h1 h2 hz).1 f1 e1 ?_⟩
  by_cases hu : u = []
  · by_cases hx : x = []
    · exact Or.inr (Or.inr fun hi => hc ⟨f2 hu, e2 hx, hi⟩)
    · exact Or.inr (Or.inl hx)
  · exact Or.inl hu

/-- An exponent does not start with a digit or a dot. -/
theorem expo_head {x : List UInt8} {e : Int} (h : Expo x e) {rest : List UInt8} (hs : Stop rest) (b : UInt8) (hb : (x ++ rest).head? = some b) : isDigit b = false ∧ b ≠ 46 := by
  cases h with
  | none => exact ⟨(hs b hb).1, (hs b hb).2.1⟩
  | bare h r | plus h r | minus h r =>
    simp only [List.cons_append, List.head?_cons, Option.some.injEq] at hb
    subst hb
    rcases h with rfl | rfl <;> decide

theorem frac_head {u : List UInt8} {f : ℚ} (h : Frac u f) {rest : List UInt8} (hs : ∀ b, rest.head? = some b → isDigit b = false) (b : UInt8) (hb : (u ++ rest).head? = some b) :
    isDigit b = false := by
  cases h with
  | none => exact hs b hb
  | some r =>
    simp only [List.cons_append, List.head?_cons, Option.some.injEq] at hb
    subst hb
    decide

theorem readDecimal_of {int : Nat → Bool} {v : List UInt8} {q : ℚ} (h : Decimal (fun n => int n = true) v q) {rest : List UInt8} (hs : Stop rest) :
    readDecimal int (v ++ rest) = some (q, rest) := by
  cases h with
  | @mk t u x n f e r hf he h =>
    obtain ⟨h1, h2, h4, h3⟩ := row_digits r
    have hx := expo_head he hs
    obtain ⟨fs, f1, f2, f3⟩ := readFrac_of hf hx
    obtain ⟨o, o1, o2, o3⟩ := readExpo_of he hs
    have hr : readRow (t ++ (u ++ (x ++ rest))) = some (t, u ++ (x ++ rest)) := readRow_of h1 h2 (frac_head hf fun b hb => (hx b hb).1)
    unfold readDecimal
    rw [List.append_assoc, List.append_assoc, hr, Option.bind_some]
    simp only
    rw [if_neg (fun hc => by have := (h3 hc.2).1; omega), f1, Option.bind_some]
    simp only
    rw [o1, Option.bind_some]
    simp only
    rw [if_neg, f2, o2, h4]
    rintro ⟨c1, c2, c3⟩
    rw [h4] at c3
    rcases h with h | h | h
    · exact h (f3 c1)
    · exact h (o3 c2)
    · exact h c3

/-- Where a fraction or an exponent follows, there is no integer. -/
theorem readDigits_none {ds : List UInt8} (h2 : ∀ b ∈ ds, isDigit b = true) {rest : List UInt8} {b : UInt8} (hb : rest.head? = some b) (h : b = 46 ∨ b = 69 ∨ b = 101) :
    readDigits (ds ++ rest) = none := by
  have hs : ∀ c, rest.head? = some c → isDigit c = false := by
    intro c hc
    rw [hb] at hc
    cases hc
    rcases h with rfl | rfl | rfl <;> decide
  obtain ⟨e1, e2⟩ := row_split h2 hs
  unfold readDigits
  simp only [e1, e2, hb, Option.some.injEq]
  rw [if_pos]
  tauto

theorem readDigits_decimal_none {int : Nat → Prop} {v : List UInt8} {q : ℚ} (h : Decimal int v q) {rest : List UInt8} (hs : Stop rest) :
    readDigits (v ++ rest) = none ∨ ∃ n, readDigits (v ++ rest) = some (n, rest) ∧ ¬ int n := by
  cases h with
  | @mk t u x n f e r hf he h =>
    obtain ⟨-, h2, -, -⟩ := row_digits r
    rw [List.append_assoc]
    cases hf with
    | some hr => exact Or.inl (readDigits_none h2 (b := 46) (by simp) (by simp))
    | none =>
      cases he with
      | none => exact Or.inr ⟨n, readDigits_row r hs, by simpa using h⟩
      | bare hb hr | plus hb hr | minus hb hr => exact Or.inl (readDigits_none h2 (by simp) (Or.inr hb))

theorem decimal_head {int : Nat → Prop} {v : List UInt8} {q : ℚ} (h : Decimal int v q) : ∃ b t, v = b :: t ∧ isDigit b = true := by
  cases h with
  | @mk t u x n f e r hf he h =>
    obtain ⟨h1, h2, -, -⟩ := row_digits r
    cases t with
    | nil => exact absurd rfl h1
    | cons b t => exact ⟨b, t ++ (u ++ x), rfl, h2 b (List.mem_cons_self ..)⟩

theorem small_iff : (fun n : Nat => (decide (n < 2 ^ 64)) = true) = fun n => n < 2 ^ 64 := by
  funext n
  rw [decide_eq_true_eq]

theorem small_neg_iff : (fun n : Nat => (decide (n ≠ 0) && decide (n ≤ 2 ^ 63)) = true) = fun n => n ≠ 0 ∧ n ≤ 2 ^ 63 := by
  funext n
  rw [Bool.and_eq_true, decide_eq_true_eq, decide_eq_true_eq]

theorem readReal_some {t r : List UInt8} {x : Json} (h : readReal t = some (x, r)) : ∃ v, t = v ++ r ∧ Value v x := by
  unfold readReal at h
  by_cases hm : t.head? = some 45
  · rw [if_pos hm] at h
    obtain ⟨⟨q, p⟩, hd, h⟩ := Option.bind_eq_some_iff.1 h
    simp only at h
    by_cases hq : |rnd64 (-q)| < 2 ^ 1024
    · rw [if_pos hq] at h
      simp only [Option.some.injEq, Prod.mk.injEq] at h
      obtain ⟨rfl, rfl⟩ := h
      obtain ⟨v, e, hv⟩ := readDecimal_some hd
      rw [small_neg_iff] at hv
      exact ⟨45 :: v, by rw [cons_of_head hm, e]; rfl, .negReal hv hq⟩
    · rw [if_neg hq] at h; cases h
  · rw [if_neg hm] at h
    obtain ⟨⟨q, p⟩, hd, h⟩ := Option.bind_eq_some_iff.1 h
    simp only at h
    by_cases hq : |rnd64 q| < 2 ^ 1024
    · rw [if_pos hq] at h
      simp only [Option.some.injEq, Prod.mk.injEq] at h
      obtain ⟨rfl, rfl⟩ := h
      obtain ⟨v, e, hv⟩ := readDecimal_some hd
      rw [small_iff] at hv
      exact ⟨v, e, .real hv hq⟩
    · rw [if_neg hq] at h; cases h

theorem readNumber_some {t r : List UInt8} {x : Json} (h : readNumber t = some (x, r)) : ∃ v, t = v ++ r ∧ Value v x := by
  unfold readNumber at h
  cases hi : readInt t with
  | none => rw [hi] at h; exact readReal_some h
  | some p => rw [hi] at h; cases h; exact readInt_some hi

theorem readNumber_real {v : List UInt8} {q : ℚ} (r : Decimal (fun n => n < 2 ^ 64) v q) (h : |rnd64 q| < 2 ^ 1024) {rest : List UInt8} (hs : Stop rest) :
    readNumber (v ++ rest) = some (.float (rnd64 q), rest) := by
  obtain ⟨b, t, rfl, hb⟩ := decimal_head r
  have hm : ¬ (b :: t ++ rest).head? = some 45 := by
    obtain ⟨-, -, -, -, -, -, -, f8, -, -⟩ := digit_facts hb
    simpa using f8
  have hi : readInt (b :: t ++ rest) = none := by
    unfold readInt
    rw [if_neg hm]
    rcases readDigits_decimal_none r hs with e | ⟨n, e, hn⟩
    · rw [e]
    · rw [e]
      simp only
      rw [if_neg hn]
  unfold readNumber
  rw [hi]
  simp only
  rw [← small_iff] at r
  rw [readReal, if_neg hm, readDecimal_of r hs, Option.bind_some, if_pos h]

theorem readNumber_negReal {v : List UInt8} {q : ℚ} (r : Decimal (fun n => n ≠ 0 ∧ n ≤ 2 ^ 63) v q) (h : |rnd64 (-q)| < 2 ^ 1024) {rest : List UInt8} (hs : Stop rest) :
    readNumber (45 :: (v ++ rest)) = some (.float (rnd64 (-q)), rest) := by
  have hi : readInt (45 :: (v ++ rest)) = none := by
    unfold readInt
    rw [List.head?_cons, if_pos rfl, List.tail_cons]
    rcases readDigits_decimal_none r hs with e | ⟨n, e, hn⟩
    · rw [e]
    · rw [e]
      simp only
      rw [if_neg hn]
  unfold readNumber
  rw [hi]
  simp only
  rw [← small_neg_iff] at r
  rw [readReal, List.head?_cons, if_pos rfl, List.tail_cons, readDecimal_of r hs, Option.bind_some, if_pos h]

/-! What is read is in the grammar. -/

/-- The rest of an array after a value. -/
def ItemsRest (t r : List UInt8) (l : List Json) : Prop :=
  ∃ w, Blank w ∧ ((l = [] ∧ t = w ++ 93 :: r) ∨ ∃ u, Items u l ∧ t = w ++ 44 :: (u ++ 93 :: r))

/-- The rest of an object after a member. -/
def MembersRest (t r : List UInt8) (l : List (String × Json)) : Prop :=
  ∃ w, Blank w ∧ ((l = [] ∧ t = w ++ 125 :: r) ∨ ∃ u, Members u l ∧ t = w ++ 44 :: (u ++ 125 :: r))

theorem items_join {t p r : List UInt8} {x : Json} {l : List Json} (hv : ∃ w v, t = w ++ (v ++ p) ∧ Blank w ∧ Value v x) (hi : ItemsRest p r l) :
    ∃ u, Items u (x :: l) ∧ t = u ++ 93 :: r := by
  obtain ⟨w, v, rfl, hw, hv⟩ := hv
  obtain ⟨w', hw', ⟨rfl, rfl⟩ | ⟨u, hu, rfl⟩⟩ := hi
  · exact ⟨_, .one hw hv hw', by simp only [List.append_assoc]⟩
  · exact ⟨_, .more hw hv hw' hu, by simp only [List.append_assoc, List.cons_append]⟩

theorem members_join {t p r : List UInt8} {x : String × Json} {l : List (String × Json)} (hv : ∃ m, t = m ++ p ∧ Member m x) (hi : MembersRest p r l) :
    ∃ u, Members u (x :: l) ∧ t = u ++ 125 :: r := by
  obtain ⟨m, rfl, hm⟩ := hv
  obtain ⟨w', hw', ⟨rfl, rfl⟩ | ⟨u, hu, rfl⟩⟩ := hi
  · exact ⟨_, .one hm hw', by simp only [List.append_assoc]⟩
  · exact ⟨_, .more hm hw' hu, by simp only [List.append_assoc, List.cons_append]⟩

theorem read_sound (k : Nat) :
    (∀ t x r, readValue k t = some (x, r) → ∃ w v, t = w ++ (v ++ r) ∧ Blank w ∧ Value v x) ∧ (∀ t l r, readItems k t = some (l, r) → ItemsRest t r l) ∧
    (∀ t x r, readField k t = some (x, r) → ∃ m, t = m ++ r ∧ Member m x) ∧ (∀ t l r, readFields k t = some (l, r) → MembersRest t r l) := by
  induction k with
  | zero =>
    refine ⟨fun t x r h => ?_, fun t x r h => ?_, fun t x r h => ?_, fun t x r h => ?_⟩
    · rw [readValue] at h; cases h
    · rw [readItems] at h; cases h
    · rw [readField] at h; cases h
    · rw [readFields] at h; cases h
  | succ k ih =>
    obtain ⟨iv, ii, im, is⟩ := ih
    refine ⟨fun t x r h => ?_, fun t l r h => ?_, fun t x r h => ?_, fun t l r h => ?_⟩
    · rw [readValue] at h
      cases hn : next t with
      | none => rw [hn] at h; cases h
      | some p =>
        obtain ⟨b, u⟩ := p
        obtain ⟨w, rfl, hw⟩ := next_some hn
        rw [hn] at h
        simp only at h
        refine ⟨w, ?_⟩
        suffices hs : ∃ v, b :: u = v ++ r ∧ Value v x by
          obtain ⟨v, e, hv⟩ := hs
          exact ⟨v, by rw [e], hw, hv⟩
        by_cases h1 : b = 110
        · rw [if_pos h1] at h
          obtain ⟨rfl, rfl⟩ := readWord_some h
          subst h1
          exact ⟨_, rfl, .null⟩
        rw [if_neg h1] at h
        by_cases h2 : b = 116
        · rw [if_pos h2] at h
          obtain ⟨rfl, rfl⟩ := readWord_some h
          subst h2
          exact ⟨_, rfl, .yes⟩
        rw [if_neg h2] at h
        by_cases h3 : b = 102
        · rw [if_pos h3] at h
          obtain ⟨rfl, rfl⟩ := readWord_some h
          subst h3
          exact ⟨_, rfl, .no⟩
        rw [if_neg h3] at h
        by_cases h4 : b = 34
        · rw [if_pos h4] at h
          obtain ⟨⟨s, q⟩, hq, e⟩ := Option.map_eq_some_iff.1 h
          simp only [Prod.mk.injEq] at e
          obtain ⟨rfl, rfl⟩ := e
          obtain ⟨c, rfl, hc⟩ := readString_some hq
          subst h4
          exact ⟨34 :: (c ++ [34]), by simp, .str hc⟩
        rw [if_neg h4] at h
        by_cases h5 : b = 91
        · rw [if_pos h5] at h
          subst h5
          cases hn' : next u with
          | none => rw [hn'] at h; cases h
          | some q =>
            obtain ⟨c, rest⟩ := q
            rw [hn'] at h
            simp only at h
            by_cases hc : c = 93
            · rw [if_pos hc] at h
              simp only [Option.some.injEq, Prod.mk.injEq] at h
              obtain ⟨rfl, rfl⟩ := h
              obtain ⟨w', rfl, hw'⟩ := next_some hn'
              subst hc
              exact ⟨91 :: (w' ++ [93]), by simp, .noItems hw'⟩
            · rw [if_neg hc] at h
              obtain ⟨⟨y, p⟩, hp, h⟩ := Option.bind_eq_some_iff.1 h
              obtain ⟨⟨l, q⟩, hq, e⟩ := Option.map_eq_some_iff.1 h
              simp only [Prod.mk.injEq] at e
              obtain ⟨rfl, rfl⟩ := e
              obtain ⟨v, hv, rfl⟩ := items_join (iv _ _ _ hp) (ii _ _ _ hq)
              exact ⟨91 :: (v ++ [93]), by simp, .arr hv⟩
        rw [if_neg h5] at h
        by_cases h6 : b = 123
        · rw [if_pos h6] at h
          subst h6
          cases hn' : next u with
          | none => rw [hn'] at h; cases h
          | some q =>
            obtain ⟨c, rest⟩ := q
            rw [hn'] at h
            simp only at h
            by_cases hc : c = 125
            · rw [if_pos hc] at h
              simp only [Option.some.injEq, Prod.mk.injEq] at h
              obtain ⟨rfl, rfl⟩ := h
              obtain ⟨w', rfl, hw'⟩ := next_some hn'
              subst hc
              exact ⟨123 :: (w' ++ [125]), by simp, .noMembers hw'⟩
            · rw [if_neg hc] at h
              obtain ⟨⟨y, p⟩, hp, h⟩ := Option.bind_eq_some_iff.1 h
              obtain ⟨⟨l, q⟩, hq, e⟩ := Option.map_eq_some_iff.1 h
              simp only [Prod.mk.injEq] at e
              obtain ⟨rfl, rfl⟩ := e
              obtain ⟨v, hv, rfl⟩ := members_join (im _ _ _ hp) (is _ _ _ hq)
              exact ⟨123 :: (v ++ [125]), by simp, .obj hv⟩
        rw [if_neg h6] at h
        exact readNumber_some h
    · rw [readItems] at h
      cases hn : next t with
      | none => rw [hn] at h; cases h
      | some p =>
        obtain ⟨b, u⟩ := p
        obtain ⟨w, rfl, hw⟩ := next_some hn
        rw [hn] at h
        simp only at h
        refine ⟨w, hw, ?_⟩
        by_cases h1 : b = 93
        · rw [if_pos h1] at h
          simp only [Option.some.injEq, Prod.mk.injEq] at h
          obtain ⟨rfl, rfl⟩ := h
          exact Or.inl ⟨rfl, by rw [h1]⟩
        rw [if_neg h1] at h
        by_cases h2 : b = 44
        · rw [if_pos h2] at h
          obtain ⟨⟨y, p⟩, hp, h⟩ := Option.bind_eq_some_iff.1 h
          obtain ⟨⟨l, q⟩, hq, e⟩ := Option.map_eq_some_iff.1 h
          simp only [Prod.mk.injEq] at e
          obtain ⟨rfl, rfl⟩ := e
          obtain ⟨v, hv, rfl⟩ := items_join (iv _ _ _ hp) (ii _ _ _ hq)
          exact Or.inr ⟨v, hv, by rw [h2]⟩
        · rw [if_neg h2] at h; cases h
    · rw [readField] at h
      cases hn : next t with
      | none => rw [hn] at h; cases h
      | some p =>
        obtain ⟨b, u⟩ := p
        obtain ⟨w, rfl, hw⟩ := next_some hn
        rw [hn] at h
        simp only at h
        by_cases h1 : b = 34
        · rw [if_pos h1] at h
          obtain ⟨⟨s, p⟩, hp, hb⟩ := Option.bind_eq_some_iff.1 h
          obtain ⟨c, rfl, hc⟩ := readString_some hp
          clear h
          rename' hb => h
          simp only at h
          cases hn' : next p with
          | none => rw [hn'] at h; cases h
          | some q =>
            obtain ⟨d, z⟩ := q
            rw [hn'] at h
            simp only at h
            obtain ⟨w₁, rfl, hw₁⟩ := next_some hn'
            by_cases h2 : d = 58
            · rw [if_pos h2] at h
              obtain ⟨⟨y, q⟩, hq, e⟩ := Option.map_eq_some_iff.1 h
              simp only [Prod.mk.injEq] at e
              obtain ⟨rfl, rfl⟩ := e
              obtain ⟨w₂, v, rfl, hw₂, hv⟩ := iv _ _ _ hq
              subst h1 h2
              exact ⟨_, by simp only [List.append_assoc, List.cons_append], .mk hw hc hw₁ hw₂ hv⟩
            · rw [if_neg h2] at h; cases h
        · rw [if_neg h1] at h; cases h
    · rw [readFields] at h
      cases hn : next t with
      | none => rw [hn] at h; cases h
      | some p =>
        obtain ⟨b, u⟩ := p
        obtain ⟨w, rfl, hw⟩ := next_some hn
        rw [hn] at h
        simp only at h
        refine ⟨w, hw, ?_⟩
        by_cases h1 : b = 125
        · rw [if_pos h1] at h
          simp only [Option.some.injEq, Prod.mk.injEq] at h
          obtain ⟨rfl, rfl⟩ := h
          exact Or.inl ⟨rfl, by rw [h1]⟩
        rw [if_neg h1] at h
        by_cases h2 : b = 44
        · rw [if_pos h2] at h
          obtain ⟨⟨y, p⟩, hp, h⟩ := Option.bind_eq_some_iff.1 h
          obtain ⟨⟨l, q⟩, hq, e⟩ := Option.map_eq_some_iff.1 h
          simp only [Prod.mk.injEq] at e
          obtain ⟨rfl, rfl⟩ := e
          obtain ⟨v, hv, rfl⟩ := members_join (im _ _ _ hp) (is _ _ _ hq)
          exact Or.inr ⟨v, hv, by rw [h2]⟩
        · rw [if_neg h2] at h; cases h

/-! What is in the grammar is read. -/

/-- No value starts with white space or a closing bracket. -/
theorem value_head {v : List UInt8} {j : Json} (h : Value v j) : ∃ b t, v = b :: t ∧ isSpace b = false ∧ b ≠ 93 ∧ b ≠ 125 := by
  cases h with
  | null => exact ⟨_, _, rfl, by decide⟩
  | yes => exact ⟨_, _, rfl, by decide⟩
  | no => exact ⟨_, _, rfl, by decide⟩
  | int r h =>
    obtain ⟨h1, h2, -, -⟩ := row_digits r
    cases v with
    | nil => exact absurd rfl h1
    | cons b t =>
      obtain ⟨f1, -, -, -, -, -, -, -, f2, f3⟩ := digit_facts (h2 b (List.mem_cons_self ..))
      exact ⟨b, t, rfl, f1, f2, f3⟩
  | neg r h0 h => exact ⟨_, _, rfl, by decide⟩
  | real r h =>
    obtain ⟨b, t, rfl, hb⟩ := decimal_head r
    obtain ⟨f1, -, -, -, -, -, -, -, f2, f3⟩ := digit_facts hb
    exact ⟨b, t, rfl, f1, f2, f3⟩
  | negReal r h => exact ⟨_, _, rfl, by decide⟩
  | str h => exact ⟨_, _, rfl, by decide⟩
  | noItems h => exact ⟨_, _, rfl, by decide⟩
  | arr h => exact ⟨_, _, rfl, by decide⟩
  | noMembers h => exact ⟨_, _, rfl, by decide⟩
  | obj h => exact ⟨_, _, rfl, by decide⟩

theorem member_head {m : List UInt8} {f : String × Json} (h : Member m f) (rest : List UInt8) : ∃ t, next (m ++ rest) = some (34, t) := by
  cases h with
  | mk hw hk h₁ h₂ hv => rw [List.append_assoc, next_blank hw, List.cons_append, next_cons (by decide)]; exact ⟨_, rfl⟩

theorem stop_blank {w : List UInt8} (h : Blank w) {t : List UInt8} (ht : Stop t) : Stop (w ++ t) := by
  cases w with
  | nil => exact ht
  | cons c w =>
    intro b hb
    simp only [List.cons_append, List.head?_cons, Option.some.injEq] at hb
    subst hb
    have := h c (List.mem_cons_self ..)
    simp only [List.mem_cons, List.not_mem_nil, or_false] at this
    rcases this with rfl | rfl | rfl | rfl <;> decide

theorem stop_cons {b : UInt8} (h : b = 44 ∨ b = 93 ∨ b = 125) (t : List UInt8) : Stop (b :: t) := by
  intro c hc
  simp only [List.head?_cons, Option.some.injEq] at hc
  subst hc
  rcases h with rfl | rfl | rfl <;> decide

theorem read_complete (n : Nat) :
    (∀ v j k rest, v.length ≤ n → Value v j → v.length ≤ k → Stop rest → readValue k (v ++ rest) = some (j, rest)) ∧
    (∀ t l k rest, t.length ≤ n → Items t l → t.length ≤ k → ∃ x xs p, l = x :: xs ∧ readValue k (t ++ 93 :: rest) = some (x, p) ∧ readItems k p = some (xs, rest)) ∧
    (∀ m f k rest, m.length ≤ n → Member m f → m.length ≤ k → Stop rest → readField k (m ++ rest) = some (f, rest)) ∧
    (∀ t l k rest, t.length ≤ n → Members t l → t.length ≤ k → ∃ x xs p, l = x :: xs ∧ readField k (t ++ 125 :: rest) = some (x, p) ∧ readFields k p = some (xs, rest)) := by
  induction n with
  | zero =>
    refine ⟨fun v j k rest hn h => ?_, fun t l k rest hn h => ?_, fun m f k rest hn h => ?_, fun t l k rest hn h => ?_⟩
    · obtain ⟨b, t, rfl, -⟩ := value_head h
      simp at hn
    · cases h with
      | one h hv h' => obtain ⟨b, t, rfl, -⟩ := value_head hv; simp at hn
      | more h hv h' ht => simp at hn
    · cases h with
      | mk => simp at hn
    · cases h with
      | one h h' => cases h; simp at hn
      | more => simp at hn
  | succ n ih =>
    obtain ⟨iv, ii, im, is⟩ := ih
    have cv : ∀ v j k rest, v.length ≤ n + 1 → Value v j → v.length ≤ k → Stop rest → readValue k (v ++ rest) = some (j, rest) := by
      intro v j k rest hn h hk hs
      obtain ⟨b₀, t₀, e₀, -⟩ := value_head h
      obtain ⟨k, rfl⟩ : ∃ m, k = m + 1 := ⟨k - 1, by rw [e₀] at hk; simp only [List.length_cons] at hk; omega⟩
      clear e₀ b₀ t₀
      rw [readValue]
      cases h with
      | null =>
        rw [List.cons_append, next_cons (by decide)]
        simp [readWord, ascii]
      | yes =>
        rw [List.cons_append, next_cons (by decide)]
        simp [readWord, ascii]
      | no =>
        rw [List.cons_append, next_cons (by decide)]
        simp [readWord, ascii]
      | int r h =>
        have hr := readDigits_row r hs
        obtain ⟨h1, h2, -, -⟩ := row_digits r
        cases v with
        | nil => exact absurd rfl h1
        | cons b t =>
          obtain ⟨f1, f2, f3, f4, f5, f6, f7, f8, -, -⟩ := digit_facts (h2 b (List.mem_cons_self ..))
          rw [List.cons_append] at hr ⊢
          rw [next_cons f1]
          simp only [if_neg f2, if_neg f3, if_neg f4, if_neg f5, if_neg f6, if_neg f7, readNumber, readInt, List.head?_cons, Option.some.injEq, if_neg f8, hr]
          rw [if_pos h]
      | neg r h0 h =>
        have hr := readDigits_row r hs
        rw [List.cons_append, next_cons (by decide)]
        simp only [show ¬ (45 : UInt8) = 110 by decide, show ¬ (45 : UInt8) = 116 by decide, show ¬ (45 : UInt8) = 102 by decide, show ¬ (45 : UInt8) = 34 by decide,
          show ¬ (45 : UInt8) = 91 by decide, show ¬ (45 : UInt8) = 123 by decide, if_false, readNumber, readInt, List.head?_cons, if_true, List.tail_cons, hr]
        rw [if_pos ⟨h0, h⟩]
      | real r h =>
        have hr := readNumber_real r h hs
        obtain ⟨b, t, rfl, hb⟩ := decimal_head r
        obtain ⟨f1, f2, f3, f4, f5, f6, f7, -, -, -⟩ := digit_facts hb
        rw [List.cons_append] at hr ⊢
        rw [next_cons f1]
        simp only [if_neg f2, if_neg f3, if_neg f4, if_neg f5, if_neg f6, if_neg f7, hr]
      | negReal r h =>
        have hr := readNumber_negReal r h hs
        rw [List.cons_append, next_cons (by decide)]
        simp only [show ¬ (45 : UInt8) = 110 by decide, show ¬ (45 : UInt8) = 116 by decide, show ¬ (45 : UInt8) = 102 by decide, show ¬ (45 : UInt8) = 34 by decide,
          show ¬ (45 : UInt8) = 91 by decide, show ¬ (45 : UInt8) = 123 by decide, if_false, hr]
      | str h =>
        rw [List.cons_append, next_cons (by decide), List.append_assoc]
        have := readString_chars h rest
        simp [this]
      | noItems h =>
        rw [List.cons_append, next_cons (by decide), List.append_assoc]
        have : next (_ ++ 93 :: rest) = some (93, rest) := (next_blank h _).trans (next_cons (by decide) _)
        simp [this]
      | @arr t l h =>
        simp only [List.length_cons, List.length_append, List.length_nil] at hn hk
        obtain ⟨x, xs, p, rfl, h1, h2⟩ := ii t l k rest (by omega) h (by omega)
        have h3 : ∃ c z, next (t ++ 93 :: rest) = some (c, z) ∧ c ≠ 93 := by
          cases h with
          | one hw hv h' =>
            obtain ⟨c, z, rfl, hc, hc', -⟩ := value_head hv
            exact ⟨c, _, by rw [List.append_assoc, next_blank hw, List.cons_append, List.cons_append, next_cons hc], hc'⟩
          | more hw hv h' ht =>
            obtain ⟨c, z, rfl, hc, hc', -⟩ := value_head hv
            exact ⟨c, _, by rw [List.append_assoc, next_blank hw, List.cons_append, List.cons_append, next_cons hc], hc'⟩
        obtain ⟨c, z, h3, hc⟩ := h3
        rw [List.cons_append, next_cons (by decide), List.append_assoc]
        simp [h1, h2, h3, hc]
      | noMembers h =>
        rw [List.cons_append, next_cons (by decide), List.append_assoc]
        have : next (_ ++ 125 :: rest) = some (125, rest) := (next_blank h _).trans (next_cons (by decide) _)
        simp [this]
      | @obj t l h =>
        simp only [List.length_cons, List.length_append, List.length_nil] at hn hk
        obtain ⟨x, xs, p, rfl, h1, h2⟩ := is t l k rest (by omega) h (by omega)
        have h3 : ∃ z, next (t ++ 125 :: rest) = some (34, z) := by
          cases h with
          | one hm h' => rw [List.append_assoc]; exact member_head hm _
          | more hm h' ht => rw [List.append_assoc]; exact member_head hm _
        obtain ⟨z, h3⟩ := h3
        rw [List.cons_append, next_cons (by decide), List.append_assoc]
        simp [h1, h2, h3]
    have cm : ∀ m f k rest, m.length ≤ n + 1 → Member m f → m.length ≤ k → Stop rest → readField k (m ++ rest) = some (f, rest) := by
      intro m f k rest hn h hk hs
      cases h with
      | @mk w c w₁ w₂ v s j hw hc h₁ h₂ hv =>
        simp only [List.length_cons, List.length_append] at hn hk
        obtain ⟨k, rfl⟩ : ∃ m, k = m + 1 := ⟨k - 1, by omega⟩
        have e : w ++ 34 :: (c ++ 34 :: (w₁ ++ 58 :: (w₂ ++ v))) ++ rest = w ++ 34 :: (c ++ 34 :: (w₁ ++ 58 :: (w₂ ++ (v ++ rest)))) := by simp
        have hr := iv v j k rest (by omega) hv (by omega) hs
        rw [← readValue_next (next_blank h₂ _)] at hr
        rw [readField, e, next_blank hw, next_cons (by decide)]
        simp only [if_true, readString_chars hc, Option.bind_some, next_blank h₁, next_cons (show isSpace 58 = false by decide), hr, Option.map_some]
    refine ⟨cv, fun t l k rest hn h hk => ?_, cm, fun t l k rest hn h hk => ?_⟩
    · cases h with
      | @one w v w' j hw hv h' =>
        obtain ⟨b, z, e, -⟩ := value_head hv
        have hl : 1 ≤ v.length := by rw [e]; simp
        simp only [List.length_append] at hn hk
        obtain ⟨k, rfl⟩ : ∃ m, k = m + 1 := ⟨k - 1, by omega⟩
        refine ⟨j, [], w' ++ 93 :: rest, rfl, ?_, ?_⟩
        · rw [List.append_assoc, List.append_assoc, readValue_next (next_blank hw _)]
          exact cv v j (k + 1) _ (by omega) hv (by omega) (stop_blank h' (stop_cons (by simp) _))
        · rw [readItems, next_blank h', next_cons (by decide)]
          simp
      | @more w v w' t j l hw hv h' ht =>
        obtain ⟨b, z, e, -⟩ := value_head hv
        have hl : 1 ≤ v.length := by rw [e]; simp
        simp only [List.length_append, List.length_cons] at hn hk
        obtain ⟨k, rfl⟩ : ∃ m, k = m + 1 := ⟨k - 1, by omega⟩
        obtain ⟨x, xs, p, rfl, h1, h2⟩ := ii t l k rest (by omega) ht (by omega)
        refine ⟨j, x :: xs, w' ++ 44 :: (t ++ 93 :: rest), rfl, ?_, ?_⟩
        · rw [List.append_assoc, List.append_assoc, List.append_assoc, readValue_next (next_blank hw _), List.cons_append]
          exact cv v j (k + 1) _ (by omega) hv (by omega) (stop_blank h' (stop_cons (by simp) _))
        · rw [readItems, next_blank h', next_cons (by decide)]
          simp [h1, h2]
    · cases h with
      | @one m w' f hm h' =>
        have hl : 1 ≤ m.length := by cases hm; simp only [List.length_append, List.length_cons]; omega
        simp only [List.length_append] at hn hk
        obtain ⟨k, rfl⟩ : ∃ m, k = m + 1 := ⟨k - 1, by omega⟩
        refine ⟨f, [], w' ++ 125 :: rest, rfl, ?_, ?_⟩
        · rw [List.append_assoc]
          exact cm m f (k + 1) _ (by omega) hm (by omega) (stop_blank h' (stop_cons (by simp) _))
        · rw [readFields, next_blank h', next_cons (by decide)]
          simp
      | @more m w' t f l hm h' ht =>
        have hl : 1 ≤ m.length := by cases hm; simp only [List.length_append, List.length_cons]; omega
        simp only [List.length_append, List.length_cons] at hn hk
        obtain ⟨k, rfl⟩ : ∃ m, k = m + 1 := ⟨k - 1, by omega⟩
        obtain ⟨x, xs, p, rfl, h1, h2⟩ := is t l k rest (by omega) ht (by omega)
        refine ⟨f, x :: xs, w' ++ 44 :: (t ++ 125 :: rest), rfl, ?_, ?_⟩
        · rw [List.append_assoc, List.append_assoc, List.cons_append]
          exact cm m f (k + 1) _ (by omega) hm (by omega) (stop_blank h' (stop_cons (by simp) _))
        · rw [readFields, next_blank h', next_cons (by decide)]
          simp [h1, h2]

/-- The reader and the grammar agree. -/
theorem readJson_iff (t : List UInt8) (j : Json) : readJson t = some j ↔ Denotes t j := by
  constructor
  · intro h
    unfold readJson at h
    cases hv : readValue (t.length + 1) t with
    | none => rw [hv] at h; cases h
    | some p =>
      obtain ⟨x, r⟩ := p
      rw [hv] at h
      simp only at h
      by_cases hb : skip r = []
      · rw [if_pos hb] at h
        cases h
        obtain ⟨w, v, e, hw, hx⟩ := (read_sound _).1 _ _ _ hv
        exact ⟨w, v, r, e, hw, hx, skip_nil.1 hb⟩
      · rw [if_neg hb] at h; cases h
  · rintro ⟨w, v, w', rfl, hw, hv, hw'⟩
    have := (read_complete v.length).1 v j ((w ++ (v ++ w')).length + 1) w' le_rfl hv (by simp only [List.length_append]; omega)
      (by have := stop_blank hw' (t := []) (by intro b hb; cases hb); rwa [List.append_nil] at this)
    rw [← readValue_next (next_blank hw _)] at this
    unfold readJson
    rw [this]
    simp only
    rw [if_pos (skip_nil.2 hw')]

end M2S.Text
