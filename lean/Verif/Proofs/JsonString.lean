import Verif.JsonText
import Verif.Spec.JsonGrammar
/-
Lemmas: the reader of strings accepts what the grammar allows.
-/
namespace M2S.Text

open JsonSpec

theorem hexValue_iff (b : UInt8) (d : Nat) : hexValue b = some d ↔ Hex b d := by
  unfold hexValue Hex
  simp only [UInt8.le_iff_toNat_le]
  have e1 : (48 : UInt8).toNat = 48 := rfl
  have e2 : (57 : UInt8).toNat = 57 := rfl
  have e3 : (97 : UInt8).toNat = 97 := rfl
  have e4 : (102 : UInt8).toNat = 102 := rfl
  have e5 : (65 : UInt8).toNat = 65 := rfl
  have e6 : (70 : UInt8).toNat = 70 := rfl
  rw [e1, e2, e3, e4, e5, e6]
  generalize b.toNat = n
  split_ifs <;> simp only [Option.some.injEq, reduceCtorEq, false_iff] <;> omega

theorem readHex_of {t : List UInt8} {n : Nat} (h : Hex4 t n) (r : List UInt8) : readHex (t ++ r) = some (n, r) := by
  obtain ⟨a, b, c, d, x, y, z, w, rfl, h1, h2, h3, h4, rfl⟩ := h
  simp only [List.cons_append, List.nil_append, readHex, (hexValue_iff _ _).2 h1, (hexValue_iff _ _).2 h2, (hexValue_iff _ _).2 h3, (hexValue_iff _ _).2 h4]

theorem readHex_some {t r : List UInt8} {n : Nat} (h : readHex t = some (n, r)) : ∃ u, t = u ++ r ∧ Hex4 u n := by
  unfold readHex at h
  split at h
  · rename_i a b c d t
    split at h
    · rename_i x y z w g1 g2 g3 g4
      simp only [Option.some.injEq, Prod.mk.injEq] at h
      obtain ⟨rfl, rfl⟩ := h
      exact ⟨[a, b, c, d], rfl, a, b, c, d, x, y, z, w, rfl, (hexValue_iff _ _).1 g1, (hexValue_iff _ _).1 g2, (hexValue_iff _ _).1 g3, (hexValue_iff _ _).1 g4, rfl⟩
    · cases h
  · cases h

theorem encode_one {c : Char} (h : c.toNat < 128) : String.utf8EncodeChar c = [UInt8.ofNat c.toNat] := by
  unfold String.utf8EncodeChar
  simp only
  exact if_pos (show c.toNat ≤ 0x7f by omega)

theorem encode_more {c : Char} (h : 128 ≤ c.toNat) : ∃ b r, String.utf8EncodeChar c = b :: r ∧ 128 ≤ b.toNat := by
  unfold String.utf8EncodeChar
  have e : c.val.toNat = c.toNat := rfl
  simp only [e]
  rw [if_neg (by omega)]
  split_ifs
  · exact ⟨_, _, rfl, by simp only [UInt8.toNat_ofNat']; omega⟩
  · exact ⟨_, _, rfl, by simp only [UInt8.toNat_ofNat']; omega⟩
  · exact ⟨_, _, rfl, by simp only [UInt8.toNat_ofNat']; omega⟩

theorem escaped_iff (e : UInt8) (c : Char) : escaped e = some c ↔ (e, c) ∈ [((34 : UInt8), '"'), (92, '\\'), (47, '/'), (98, '\x08'), (102, '\x0c'), (110, '\n'), (114, '\r'), (116, '\t')] := by
  unfold escaped
  simp only [List.mem_cons, Prod.mk.injEq, List.not_mem_nil, or_false]
  split_ifs with h1 h2 h3 h4 h5 h6 h7 h8 <;> first | (subst_vars; simp [eq_comm]; done) | simp [h1, h2, h3, h4, h5, h6, h7, h8]

theorem readCode_of_number {t : List UInt8} {n : Nat} (h : Hex4 t n) (hn : n < 0xD800 ∨ 0xE000 ≤ n) (r : List UInt8) : readCode (t ++ r) = some (Char.ofNat n, r) := by
  unfold readCode
  rw [readHex_of h]
  simp only
  rw [if_neg (by omega), if_neg (by omega)]

theorem readCode_of_pair {t t' : List UInt8} {n l : Nat} (h : Hex4 t n) (h' : Hex4 t' l) (hn : 0xD800 ≤ n ∧ n < 0xDC00) (hl : 0xDC00 ≤ l ∧ l < 0xE000) (r : List UInt8) :
    readCode (t ++ 92 :: 117 :: (t' ++ r)) = some (Char.ofNat (0x10000 + 0x400 * (n - 0xD800) + (l - 0xDC00)), r) := by
  unfold readCode
  rw [readHex_of h]
  simp only
  rw [if_pos hn]
  unfold readLow
  simp only
  rw [readHex_of h']
  simp only
  rw [if_pos hl]

theorem readCode_some {t r : List UInt8} {c : Char} (h : readCode t = some (c, r)) : ∃ u, t = u ++ r ∧ OneChar (92 :: 117 :: u) c := by
  unfold readCode at h
  cases h1 : readHex t with
  | none => rw [h1] at h; cases h
  | some p =>
    obtain ⟨n, t1⟩ := p
    rw [h1] at h
    simp only at h
    obtain ⟨u, rfl, hu⟩ := readHex_some h1
    by_cases hn : 0xD800 ≤ n ∧ n < 0xDC00
    · rw [if_pos hn] at h
      unfold readLow at h
      split at h
      · rename_i t2
        cases h2 : readHex t2 with
        | none => rw [h2] at h; cases h
        | some q =>
          obtain ⟨l, t3⟩ := q
          rw [h2] at h
          simp only at h
          by_cases hl : 0xDC00 ≤ l ∧ l < 0xE000
          · rw [if_pos hl] at h
            simp only [Option.some.injEq, Prod.mk.injEq] at h
            obtain ⟨rfl, rfl⟩ := h
            obtain ⟨u', rfl, hu'⟩ := readHex_some h2
            exact ⟨u ++ 92 :: 117 :: u', by simp, .pair hu hu' hn hl⟩
          · rw [if_neg hl] at h; cases h
      · cases h
    · rw [if_neg hn] at h
      by_cases hs : 0xDC00 ≤ n ∧ n < 0xE000
      · rw [if_pos hs] at h; cases h
      · rw [if_neg hs] at h
        simp only [Option.some.injEq, Prod.mk.injEq] at h
        obtain ⟨rfl, rfl⟩ := h
        exact ⟨u, rfl, .number hu (by omega)⟩

theorem readChar_of {u : List UInt8} {c : Char} (h : OneChar u c) (r : List UInt8) : readChar (u ++ r) = some (c, r) ∧ (u ++ r).head? ≠ some 34 ∧ u ≠ [] := by
  cases h with
  | self _ h hq hb =>
    by_cases h7 : c.toNat < 128
    · rw [encode_one h7]
      have hv : (UInt8.ofNat c.toNat).toNat = c.toNat := by simp only [UInt8.toNat_ofNat']; omega
      have hc : Char.ofNat c.toNat = c := Char.ofNat_toNat c
      have h34 : UInt8.ofNat c.toNat ≠ 34 := by
        intro e
        rw [e] at hv
        exact hq (by rw [← hc, ← hv]; rfl)
      have h92 : UInt8.ofNat c.toNat ≠ 92 := by
        intro e
        rw [e] at hv
        exact hb (by rw [← hc, ← hv]; rfl)
      refine ⟨?_, by simpa using h34, by simp⟩
      simp only [List.cons_append, List.nil_append, readChar]
      rw [if_neg h92, if_neg ?_, if_pos ?_, hv, hc]
      · rw [UInt8.lt_iff_toNat_lt, hv]; exact h7
      · rw [not_or, UInt8.lt_iff_toNat_lt, hv]
        exact ⟨Nat.not_lt.2 h, h34⟩
    · obtain ⟨b, s, e, hb8⟩ := encode_more (c := c) (by omega)
      have hd := ByteArray.utf8DecodeChar?_utf8EncodeChar_append (b := r.toByteArray) (c := c)
      rw [← List.toByteArray_append] at hd
      have hl := String.length_utf8EncodeChar c
      have n34 : b ≠ 34 := by rintro rfl; revert hb8; decide
      have n92 : b ≠ 92 := by rintro rfl; revert hb8; decide
      rw [e] at hd hl ⊢
      refine ⟨?_, by simpa using n34, by simp⟩
      unfold readChar
      simp only [List.cons_append] at hd ⊢
      rw [if_neg n92, if_neg ?_, if_neg ?_, hd, Option.map_some, ← hl]
      · simp
      · rw [UInt8.lt_iff_toNat_lt]; exact Nat.not_lt.2 hb8
      · rw [not_or, UInt8.lt_iff_toNat_lt]
        exact ⟨Nat.not_lt.2 (le_trans (by decide) hb8), n34⟩
  | @letter e _ h =>
    have he : e ≠ 117 := by rintro rfl; revert h; simp
    exact ⟨by simp [readChar, he, (escaped_iff _ _).2 h], by simp, by simp⟩
  | number h hn =>
    exact ⟨by simp [readChar, readCode_of_number h hn], by simp, by simp⟩
  | pair h h' hn hl =>
    exact ⟨by simp [readChar, readCode_of_pair h h' hn hl], by simp, by simp⟩

theorem readChar_some {t r : List UInt8} {c : Char} (h : readChar t = some (c, r)) : ∃ u, t = u ++ r ∧ OneChar u c := by
  cases t with
  | nil => cases h
  | cons b s =>
    unfold readChar at h
    simp only at h
    by_cases h92 : b = 92
    · subst h92
      rw [if_pos rfl] at h
      cases s with
      | nil => cases h
      | cons e s =>
        simp only at h
        by_cases he : e = 117
        · subst he
          rw [if_pos rfl] at h
          obtain ⟨u, rfl, hu⟩ := readCode_some h
          exact ⟨_, rfl, hu⟩
        · rw [if_neg he, Option.map_eq_some_iff] at h
          obtain ⟨c', hc, h⟩ := h
          simp only [Prod.mk.injEq] at h
          obtain ⟨rfl, rfl⟩ := h
          exact ⟨[92, e], rfl, .letter ((escaped_iff _ _).1 hc)⟩
    · rw [if_neg h92] at h
      by_cases h3 : b < 32 ∨ b = 34
      · rw [if_pos h3] at h; cases h
      · rw [if_neg h3] at h
        rw [not_or, UInt8.lt_iff_toNat_lt] at h3
        obtain ⟨h3, h34⟩ := h3
        have e32 : (32 : UInt8).toNat = 32 := rfl
        rw [e32] at h3
        by_cases h8 : b < 128
        · rw [if_pos h8] at h
          simp only [Option.some.injEq, Prod.mk.injEq] at h
          obtain ⟨rfl, rfl⟩ := h
          rw [UInt8.lt_iff_toNat_lt] at h8
          have e128 : (128 : UInt8).toNat = 128 := rfl
          rw [e128] at h8
          have hn : (Char.ofNat b.toNat).toNat = b.toNat := by rw [Char.ofNat, dif_pos (Or.inl (by omega))]; rfl
          have hb : UInt8.ofNat b.toNat = b := UInt8.ofNat_toNat
          have := encode_one (c := Char.ofNat b.toNat) (by omega)
          rw [hn, hb] at this
          refine ⟨[b], rfl, ?_⟩
          rw [← this]
          refine .self _ (by omega) ?_ ?_
          · intro e
            rw [e] at hn
            exact h34 (UInt8.toNat_inj.1 hn.symm)
          · intro e
            rw [e] at hn
            exact h92 (UInt8.toNat_inj.1 hn.symm)
        · rw [if_neg h8, Option.map_eq_some_iff] at h
          obtain ⟨c', hc, h⟩ := h
          simp only [Prod.mk.injEq] at h
          obtain ⟨rfl, rfl⟩ := h
          obtain ⟨l, hl⟩ := ByteArray.exists_of_utf8DecodeChar?_eq_some hc
          have hs : b :: s = String.utf8EncodeChar c' ++ l.data.toList := by
            have := congrArg (·.data.toList) hl
            simpa using this
          have hlen := String.length_utf8EncodeChar c'
          rw [UInt8.lt_iff_toNat_lt] at h8
          have hbig : 128 ≤ c'.toNat := by
            by_contra hc7
            rw [encode_one (by omega)] at hs
            simp only [List.cons_append, List.cons.injEq] at hs
            apply h8
            rw [hs.1, UInt8.toNat_ofNat']
            exact lt_of_le_of_lt (Nat.mod_le _ _) (by simpa using hc7)
          refine ⟨String.utf8EncodeChar c', ?_, .self _ (by omega) ?_ ?_⟩
          · rw [hs, ← hlen, List.drop_left]
          · rintro rfl; revert hbig; decide
          · rintro rfl; revert hbig; decide

theorem readChars_of {t : List UInt8} {l : List Char} (h : Letters t l) : ∀ (k : Nat) (r : List UInt8), l.length < k → readChars k (t ++ 34 :: r) = some (l, r) := by
  induction h with
  | nil =>
    intro k r hk
    obtain ⟨k, rfl⟩ : ∃ m, k = m + 1 := ⟨k - 1, by simp at hk; omega⟩
    simp [readChars]
  | @cons u t c l h _ ih =>
    intro k r hk
    obtain ⟨k, rfl⟩ : ∃ m, k = m + 1 := ⟨k - 1, by simp at hk; omega⟩
    obtain ⟨h1, h2, -⟩ := readChar_of h (t ++ 34 :: r)
    rw [readChars, List.append_assoc, if_neg h2, h1, Option.bind_some, ih k r (by simpa using hk), Option.map_some]

theorem letters_length {t : List UInt8} {l : List Char} (h : Letters t l) : l.length ≤ t.length := by
  induction h with
  | nil => simp
  | @cons u t c l h _ ih =>
    have := List.length_pos_of_ne_nil (readChar_of h []).2.2
    simp only [List.length_cons, List.length_append]
    omega

theorem readChars_some : ∀ (k : Nat) {t r : List UInt8} {l : List Char}, readChars k t = some (l, r) → ∃ u, t = u ++ 34 :: r ∧ Letters u l
  | 0, _, _, _, h => by cases h
  | k + 1, t, r, l, h => by
    rw [readChars] at h
    by_cases hq : t.head? = some 34
    · rw [if_pos hq] at h
      cases t with
      | nil => cases hq
      | cons b t =>
        simp only [List.head?_cons, Option.some.injEq] at hq
        subst hq
        simp only [List.tail_cons, Option.some.injEq, Prod.mk.injEq] at h
        obtain ⟨rfl, rfl⟩ := h
        exact ⟨[], rfl, .nil⟩
    · rw [if_neg hq, Option.bind_eq_some_iff] at h
      obtain ⟨⟨c, t1⟩, h1, h⟩ := h
      rw [Option.map_eq_some_iff] at h
      obtain ⟨⟨l1, r1⟩, h2, h⟩ := h
      simp only [Prod.mk.injEq] at h h2
      obtain ⟨rfl, rfl⟩ := h
      obtain ⟨u, rfl, hu⟩ := readChar_some h1
      obtain ⟨u', rfl, hu'⟩ := readChars_some k h2
      exact ⟨u ++ u', by simp, .cons hu hu'⟩

theorem readString_chars {t : List UInt8} {s : String} (h : Chars t s) (rest : List UInt8) : readString (t ++ 34 :: rest) = some (s, rest) := by
  unfold readString
  have := letters_length h
  rw [readChars_of h _ _ (by rw [List.length_append, List.length_cons]; omega), Option.map_some, String.ofList_toList]

theorem readString_some {t r : List UInt8} {s : String} (h : readString t = some (s, r)) : ∃ k, t = k ++ 34 :: r ∧ Chars k s := by
  unfold readString at h
  rw [Option.map_eq_some_iff] at h
  obtain ⟨⟨l, r'⟩, h1, h⟩ := h
  simp only [Prod.mk.injEq] at h
  obtain ⟨rfl, rfl⟩ := h
  obtain ⟨u, rfl, hu⟩ := readChars_some _ h1
  exact ⟨u, rfl, by unfold Chars; rwa [String.toList_ofList]⟩

end M2S.Text
