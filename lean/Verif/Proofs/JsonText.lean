import Verif.Proofs.JsonString
import Mathlib.Data.Nat.Digits.Lemmas
/-
Lemmas: JSON text is read back as written.
-/
namespace M2S.Text

/-- A character of a plain string. -/
def PlainChar (c : Char) : Prop := 32 ≤ c.toNat ∧ c.toNat ≤ 126 ∧ c.toNat ≠ 34 ∧ c.toNat ≠ 92

instance (c : Char) : Decidable (PlainChar c) := inferInstanceAs (Decidable (_ ∧ _))

/-- A string that needs no escapes. -/
def PlainStr (s : String) : Prop := ∀ c ∈ s.toList, PlainChar c

instance (s : String) : Decidable (PlainStr s) := inferInstanceAs (Decidable (∀ c ∈ s.toList, PlainChar c))

mutual

/-- A value within the scope of the text model. -/
def Plain : Json → Prop
  | .null => True
  | .bool _ => True
  | .int n => -(2 ^ 63) ≤ n ∧ n < 2 ^ 64
  | .float _ => False
  | .str s => PlainStr s
  | .arr xs => PlainItems xs
  | .obj fs => PlainFields fs

def PlainItems : List Json → Prop
  | [] => True
  | x :: xs => Plain x ∧ PlainItems xs

def PlainField : String × Json → Prop
  | (k, v) => PlainStr k ∧ Plain v

def PlainFields : List (String × Json) → Prop
  | [] => True
  | f :: fs => PlainField f ∧ PlainFields fs

end

mutual

/-- The number of calls needed to read a value. -/
def calls : Json → Nat
  | .null => 1
  | .bool _ => 1
  | .int _ => 1
  | .float _ => 1
  | .str _ => 1
  | .arr xs => callsItems xs + 1
  | .obj fs => callsFields fs + 1

def callsItems : List Json → Nat
  | [] => 1
  | x :: xs => calls x + callsItems xs + 1

def callsField : String × Json → Nat
  | (_, v) => calls v + 1

def callsFields : List (String × Json) → Nat
  | [] => 1
  | f :: fs => callsField f + callsFields fs + 1

end

/-- What may follow a value. -/
def Stop (t : List UInt8) : Prop := ∀ b, t.head? = some b → isDigit b = false ∧ b ≠ 46 ∧ b ≠ 69 ∧ b ≠ 101

theorem next_cons {b : UInt8} (h : isSpace b = false) (t : List UInt8) : next (b :: t) = some (b, t) := by
  simp [next, skip, h]

theorem next_space {b : UInt8} (h : isSpace b = true) (t : List UInt8) : next (b :: t) = next t := by
  simp [next, skip, h]

theorem next_newline (n : Nat) (t : List UInt8) : next (newline n ++ t) = next t := by
  unfold newline
  rw [List.cons_append, next_space (by decide)]
  induction 2 * n with
  | zero => rfl
  | succ k ih => rw [List.replicate_succ, List.cons_append, next_space (by decide), ih]

theorem plain_chars {s : String} (h : PlainStr s) : JsonSpec.Chars (ascii s) s := by
  unfold JsonSpec.Chars ascii
  unfold PlainStr at h
  generalize s.toList = l at h
  induction l with
  | nil => exact .nil
  | cons c l ih =>
    obtain ⟨h1, h2, h3, h4⟩ := h c (List.mem_cons_self ..)
    have e := encode_one (c := c) (by omega)
    rw [List.map_cons, ← List.singleton_append, ← e]
    exact .cons (.self c h1 (by rintro rfl; exact h3 rfl) (by rintro rfl; exact h4 rfl)) (ih fun x hx => h x (List.mem_cons_of_mem _ hx))

theorem readString_quoted {s : String} (h : PlainStr s) (rest : List UInt8) : readString (ascii s ++ 34 :: rest) = some (s, rest) :=
  readString_chars (plain_chars h) rest

theorem digit_byte {d : Nat} (h : d < 10) : isDigit (UInt8.ofNat (48 + d)) = true ∧ (UInt8.ofNat (48 + d)).toNat - 48 = d := by
  interval_cases d <;> decide

theorem decimal_digits (n : Nat) : decimal n ≠ [] ∧ (∀ b ∈ decimal n, isDigit b = true) ∧ (1 < (decimal n).length → (decimal n).head? ≠ some 48) ∧
    digitsValue (decimal n) = n := by
  unfold decimal
  by_cases h0 : n = 0
  · subst h0; decide
  · rw [if_neg h0]
    have hlt : ∀ d ∈ Nat.digits 10 n, d < 10 := fun d hd => Nat.digits_lt_base (by omega) hd
    refine ⟨by simpa using Nat.digits_ne_nil_iff_ne_zero.mpr h0, ?_, ?_, ?_⟩
    · intro b hb
      obtain ⟨d, hd, rfl⟩ := List.mem_map.mp hb
      exact (digit_byte (hlt d (List.mem_reverse.mp hd))).1
    · intro _ hh
      rw [List.head?_map, List.head?_reverse, List.getLast?_eq_some_getLast (Nat.digits_ne_nil_iff_ne_zero.mpr h0)] at hh
      have hl := Nat.getLast_digit_ne_zero 10 h0
      have hd := hlt _ (List.getLast_mem (Nat.digits_ne_nil_iff_ne_zero.mpr h0))
      simp only [Option.map_some, Option.some.injEq] at hh
      have := (digit_byte hd).2
      rw [hh] at this
      exact hl this.symm
    · have key : ∀ l : List Nat, (∀ d ∈ l, d < 10) → digitsValue (l.reverse.map fun d => UInt8.ofNat (48 + d)) = Nat.ofDigits 10 l := by
        intro l
        induction l with
        | nil => intro _; rfl
        | cons a l ih =>
          intro h
          have e1 := ih fun d hd => h d (by simp [hd])
          unfold digitsValue at e1 ⊢
          rw [List.reverse_cons, List.map_append, List.foldl_append, e1]
          simp only [List.map_cons, List.map_nil, List.foldl_cons, List.foldl_nil]
          rw [(digit_byte (h a (by simp))).2, Nat.ofDigits_cons]
          omega
      rw [key _ hlt, Nat.ofDigits_digits]

theorem readDigits_decimal (n : Nat) {rest : List UInt8} (h : Stop rest) : readDigits (decimal n ++ rest) = some (n, rest) := by
  obtain ⟨h1, h2, h3, h4⟩ := decimal_digits n
  have hs : rest.takeWhile isDigit = [] ∧ rest.dropWhile isDigit = rest := by
    cases rest with
    | nil => exact ⟨rfl, rfl⟩
    | cons b t =>
      have := (h b rfl).1
      exact ⟨List.takeWhile_cons_of_neg (by simp [this]), List.dropWhile_cons_of_neg (by simp [this])⟩
  have ht : (decimal n ++ rest).takeWhile isDigit = decimal n := by rw [List.takeWhile_append_of_pos h2, hs.1, List.append_nil]
  have hd : (decimal n ++ rest).dropWhile isDigit = rest := by rw [List.dropWhile_append_of_pos h2, hs.2]
  unfold readDigits
  simp only [ht, hd, h4]
  rw [if_neg]
  rintro (hc | ⟨hc1, hc2⟩ | hc | hc | hc)
  · exact h1 hc
  · exact h3 hc1 hc2
  · exact (h _ hc).2.1 rfl
  · exact (h _ hc).2.2.1 rfl
  · exact (h _ hc).2.2.2 rfl

theorem digit_facts {b : UInt8} (h : isDigit b = true) :
    isSpace b = false ∧ b ≠ 110 ∧ b ≠ 116 ∧ b ≠ 102 ∧ b ≠ 34 ∧ b ≠ 91 ∧ b ≠ 123 ∧ b ≠ 45 ∧ b ≠ 93 ∧ b ≠ 125 := by
  simp only [isDigit, Bool.and_eq_true, decide_eq_true_eq, UInt8.le_iff_toNat_le] at h
  have e : ∀ k : UInt8, (k.toNat < 48 ∨ 57 < k.toNat) → b ≠ k := by
    rintro k hk rfl
    have h1 : (48 : UInt8).toNat = 48 := rfl
    have h2 : (57 : UInt8).toNat = 57 := rfl
    omega
  refine ⟨?_, e _ (by decide), e _ (by decide), e _ (by decide), e _ (by decide), e _ (by decide), e _ (by decide), e _ (by decide), e _ (by decide), e _ (by decide)⟩
  simp [isSpace, e 32 (by decide), e 10 (by decide), e 13 (by decide), e 9 (by decide)]

theorem decimal_cons (n : Nat) : ∃ b t, decimal n = b :: t ∧ isDigit b = true := by
  obtain ⟨h1, h2, -, -⟩ := decimal_digits n
  cases h : decimal n with
  | nil => exact absurd h h1
  | cons b t => exact ⟨b, t, rfl, h2 b (by rw [h]; simp)⟩

/-- No value starts with white space or a closing bracket. -/
theorem pretty_head (n : Nat) (j : Json) (h : Plain j) : ∃ b t, pretty n j = b :: t ∧ isSpace b = false ∧ b ≠ 93 ∧ b ≠ 125 := by
  cases j with
  | null => exact ⟨110, _, rfl, by decide⟩
  | bool b => cases b; exact ⟨102, _, rfl, by decide⟩; exact ⟨116, _, rfl, by decide⟩
  | int k =>
    cases k with
    | ofNat k =>
      obtain ⟨b, t, e, hb⟩ := decimal_cons k
      obtain ⟨f1, -, -, -, -, -, -, -, f2, f3⟩ := digit_facts hb
      exact ⟨b, t, by rw [pretty]; exact e, f1, f2, f3⟩
    | negSucc k => exact ⟨45, decimal (k + 1), by rw [pretty], by decide⟩
  | float q => simp [Plain] at h
  | str s => exact ⟨34, ascii s ++ [34], by rw [pretty]; rfl, by decide⟩
  | arr l => cases l with
    | nil => exact ⟨91, [93], by rw [pretty]; rfl, by decide⟩
    | cons x xs => exact ⟨91, _, by rw [pretty]; rfl, by decide⟩
  | obj l => cases l with
    | nil => exact ⟨123, [125], by rw [pretty]; rfl, by decide⟩
    | cons x xs => exact ⟨123, _, by rw [pretty]; rfl, by decide⟩

theorem readValue_next {k : Nat} {t t' : List UInt8} (h : next t = next t') : readValue k t = readValue k t' := by
  cases k with
  | zero => rw [readValue, readValue]
  | succ k => rw [readValue, readValue, h]

theorem readField_next {k : Nat} {t t' : List UInt8} (h : next t = next t') : readField k t = readField k t' := by
  cases k with
  | zero => rw [readField, readField]
  | succ k => rw [readField, readField, h]

theorem stop_items (n : Nat) (xs : List Json) (rest : List UInt8) : Stop (prettyItems n xs ++ rest) := by
  intro b hb
  cases xs with
  | nil => rw [prettyItems] at hb; simp [newline] at hb; subst hb; decide
  | cons x xs => rw [prettyItems] at hb; simp at hb; subst hb; decide

theorem stop_fields (n : Nat) (xs : List (String × Json)) (rest : List UInt8) : Stop (prettyFields n xs ++ rest) := by
  intro b hb
  cases xs with
  | nil => rw [prettyFields] at hb; simp [newline] at hb; subst hb; decide
  | cons x xs => rw [prettyFields] at hb; simp at hb; subst hb; decide

mutual

theorem read_pretty : ∀ (j : Json) (n k : Nat) (rest : List UInt8), Plain j → calls j ≤ k → Stop rest → readValue k (pretty n j ++ rest) = some (j, rest)
  | .null, n, k, rest, _, hk, _ => by
    obtain ⟨k, rfl⟩ : ∃ m, k = m + 1 := ⟨k - 1, by simp only [calls] at hk; omega⟩
    rw [readValue, show pretty n .null = 110 :: ascii "ull" by rw [pretty]; rfl, List.cons_append, next_cons (by decide)]
    simp [readWord, ascii]
  | .bool b, n, k, rest, _, hk, _ => by
    obtain ⟨k, rfl⟩ : ∃ m, k = m + 1 := ⟨k - 1, by simp only [calls] at hk; omega⟩
    cases b
    · rw [readValue, show pretty n (.bool false) = 102 :: ascii "alse" by rw [pretty]; rfl, List.cons_append, next_cons (by decide)]
      simp [readWord, ascii]
    · rw [readValue, show pretty n (.bool true) = 116 :: ascii "rue" by rw [pretty]; rfl, List.cons_append, next_cons (by decide)]
      simp [readWord, ascii]
  | .int (.ofNat m), n, k, rest, hp, hk, hs => by
    obtain ⟨k, rfl⟩ : ∃ m, k = m + 1 := ⟨k - 1, by simp only [calls] at hk; omega⟩
    simp only [Plain] at hp
    obtain ⟨b, t, e, hb⟩ := decimal_cons m
    obtain ⟨f1, f2, f3, f4, f5, f6, f7, f8, -, -⟩ := digit_facts hb
    have hr := readDigits_decimal m hs
    rw [readValue, pretty, e, List.cons_append, next_cons f1]
    rw [e, List.cons_append] at hr
    simp only [if_neg f2, if_neg f3, if_neg f4, if_neg f5, if_neg f6, if_neg f7, readNumber, readInt, List.head?_cons, Option.some.injEq, if_neg f8, hr]
    rw [if_pos (by have := hp.2; simp only [Int.ofNat_eq_natCast] at this; omega)]
    rfl
  | .int (.negSucc m), n, k, rest, hp, hk, hs => by
    obtain ⟨k, rfl⟩ : ∃ m, k = m + 1 := ⟨k - 1, by simp only [calls] at hk; omega⟩
    simp only [Plain] at hp
    have hr := readDigits_decimal (m + 1) hs
    rw [readValue, pretty, List.cons_append, next_cons (by decide)]
    simp only [show ¬ (45 : UInt8) = 110 by decide, show ¬ (45 : UInt8) = 116 by decide, show ¬ (45 : UInt8) = 102 by decide, show ¬ (45 : UInt8) = 34 by decide,
      show ¬ (45 : UInt8) = 91 by decide, show ¬ (45 : UInt8) = 123 by decide, if_false, readNumber, readInt, List.head?_cons, if_true, List.tail_cons, hr]
    rw [if_pos (by have := hp.1; omega)]
    rfl
  | .float q, n, k, rest, hp, hk, hs => by simp [Plain] at hp
  | .str s, n, k, rest, hp, hk, hs => by
    obtain ⟨k, rfl⟩ : ∃ m, k = m + 1 := ⟨k - 1, by simp only [calls] at hk; omega⟩
    simp only [Plain] at hp
    rw [readValue, pretty, quoted, List.cons_append, List.cons_append, next_cons (by decide), List.append_assoc]
    have := readString_quoted hp rest
    simp [this]
  | .arr [], n, k, rest, hp, hk, hs => by
    obtain ⟨k, rfl⟩ : ∃ m, k = m + 1 := ⟨k - 1, by simp only [calls] at hk; omega⟩
    rw [readValue, pretty, show ascii "[]" ++ rest = 91 :: 93 :: rest from rfl, next_cons (by decide)]
    simp [next_cons (b := 93) (by decide)]
  | .arr (x :: xs), n, k, rest, hp, hk, hs => by
    obtain ⟨k, rfl⟩ : ∃ m, k = m + 1 := ⟨k - 1, by simp only [calls] at hk; omega⟩
    simp only [Plain, PlainItems] at hp
    simp only [calls, callsItems] at hk
    obtain ⟨b, t, e, hb, hb2, -⟩ := pretty_head (n + 1) x hp.1
    rw [readValue, pretty, List.append_assoc, List.append_assoc, List.cons_append, next_cons (by decide)]
    have h1 : readValue k (newline (n + 1) ++ (pretty (n + 1) x ++ (prettyItems n xs ++ rest))) = some (x, prettyItems n xs ++ rest) := by
      rw [readValue_next (next_newline _ _), read_pretty x (n + 1) k _ hp.1 (by omega) (stop_items n xs rest)]
    have h2 := read_items xs n k rest hp.2 (by omega)
    have h3 : next (newline (n + 1) ++ (pretty (n + 1) x ++ (prettyItems n xs ++ rest))) = some (b, t ++ (prettyItems n xs ++ rest)) := by rw [next_newline, e, List.cons_append, next_cons hb]
    simp [h1, h2, h3, hb2]
  | .obj [], n, k, rest, hp, hk, hs => by
    obtain ⟨k, rfl⟩ : ∃ m, k = m + 1 := ⟨k - 1, by simp only [calls] at hk; omega⟩
    rw [readValue, pretty, show ascii "{}" ++ rest = 123 :: 125 :: rest from rfl, next_cons (by decide)]
    simp [next_cons (b := 125) (by decide)]
  | .obj (f :: fs), n, k, rest, hp, hk, hs => by
    obtain ⟨k, rfl⟩ : ∃ m, k = m + 1 := ⟨k - 1, by simp only [calls] at hk; omega⟩
    simp only [Plain, PlainFields] at hp
    simp only [calls, callsFields] at hk
    rw [readValue, pretty, List.append_assoc, List.append_assoc, List.cons_append, next_cons (by decide)]
    have h1 : readField k (newline (n + 1) ++ (prettyField n f ++ (prettyFields n fs ++ rest))) = some (f, prettyFields n fs ++ rest) := by
      rw [readField_next (next_newline _ _), read_field f n k _ hp.1 (by omega) (stop_fields n fs rest)]
    have h2 := read_fields fs n k rest hp.2 (by omega)
    have h3 : ∃ t, next (newline (n + 1) ++ (prettyField n f ++ (prettyFields n fs ++ rest))) = some (34, t) := by
      obtain ⟨key, v⟩ := f
      exact ⟨_, by rw [next_newline, prettyField, quoted, List.cons_append, List.cons_append, List.cons_append, List.cons_append, next_cons (by decide)]⟩
    obtain ⟨t, h3⟩ := h3
    simp [h1, h2, h3]

theorem read_items : ∀ (xs : List Json) (n k : Nat) (rest : List UInt8), PlainItems xs → callsItems xs ≤ k → readItems k (prettyItems n xs ++ rest) = some (xs, rest)
  | [], n, k, rest, _, hk => by
    obtain ⟨k, rfl⟩ : ∃ m, k = m + 1 := ⟨k - 1, by simp only [callsItems] at hk; omega⟩
    rw [readItems, prettyItems, List.append_assoc, next_newline, List.singleton_append, next_cons (by decide)]
    simp
  | x :: xs, n, k, rest, hp, hk => by
    simp only [callsItems] at hk
    simp only [PlainItems] at hp
    obtain ⟨k, rfl⟩ : ∃ m, k = m + 1 := ⟨k - 1, by omega⟩
    rw [readItems, prettyItems, List.append_assoc, List.append_assoc, List.cons_append, next_cons (by decide)]
    have h1 : readValue k (newline (n + 1) ++ (pretty (n + 1) x ++ (prettyItems n xs ++ rest))) = some (x, prettyItems n xs ++ rest) := by
      rw [readValue_next (next_newline _ _), read_pretty x (n + 1) k _ hp.1 (by omega) (stop_items n xs rest)]
    have h2 := read_items xs n k rest hp.2 (by omega)
    simp [h1, h2]

theorem read_field : ∀ (f : String × Json) (n k : Nat) (rest : List UInt8), PlainField f → callsField f ≤ k → Stop rest →
    readField k (prettyField n f ++ rest) = some (f, rest)
  | (key, v), n, k, rest, hp, hk, hs => by
    simp only [callsField] at hk
    simp only [PlainField] at hp
    obtain ⟨k, rfl⟩ : ∃ m, k = m + 1 := ⟨k - 1, by omega⟩
    have e : prettyField n (key, v) ++ rest = 34 :: (ascii key ++ 34 :: (58 :: 32 :: (pretty (n + 1) v ++ rest))) := by
      rw [prettyField, quoted]
      simp
    rw [readField, e, next_cons (by decide)]
    simp only [if_true, readString_quoted hp.1, Option.bind_some, next_cons (show isSpace 58 = false by decide)]
    have h1 : readValue k (32 :: (pretty (n + 1) v ++ rest)) = some (v, rest) := by
      rw [readValue_next (next_space (by decide) _), read_pretty v (n + 1) k rest hp.2 (by omega) hs]
    simp [h1]

theorem read_fields : ∀ (fs : List (String × Json)) (n k : Nat) (rest : List UInt8), PlainFields fs → callsFields fs ≤ k →
    readFields k (prettyFields n fs ++ rest) = some (fs, rest)
  | [], n, k, rest, _, hk => by
    obtain ⟨k, rfl⟩ : ∃ m, k = m + 1 := ⟨k - 1, by simp only [callsFields] at hk; omega⟩
    rw [readFields, prettyFields, List.append_assoc, next_newline, List.singleton_append, next_cons (by decide)]
    simp
  | f :: fs, n, k, rest, hp, hk => by
    simp only [callsFields] at hk
    simp only [PlainFields] at hp
    obtain ⟨k, rfl⟩ : ∃ m, k = m + 1 := ⟨k - 1, by omega⟩
    rw [readFields, prettyFields, List.append_assoc, List.append_assoc, List.cons_append, next_cons (by decide)]
    have h1 : readField k (newline (n + 1) ++ (prettyField n f ++ (prettyFields n fs ++ rest))) = some (f, prettyFields n fs ++ rest) := by
      rw [readField_next (next_newline _ _), read_field f n k _ hp.1 (by omega) (stop_fields n fs rest)]
    have h2 := read_fields fs n k rest hp.2 (by omega)
    simp [h1, h2]

end

theorem newline_length (n : Nat) : 1 ≤ (newline n).length := by simp [newline]

mutual

theorem calls_le : ∀ (j : Json) (n : Nat), Plain j → calls j ≤ (pretty n j).length
  | .null, n, _ => by rw [pretty, calls]; decide
  | .bool b, n, _ => by rw [pretty, calls]; cases b <;> decide
  | .int k, n, _ => by
    obtain ⟨b, t, e, -⟩ := pretty_head n (.int k) (by assumption)
    rw [e, calls]; simp
  | .float q, n, h => by simp [Plain] at h
  | .str s, n, _ => by rw [pretty, calls]; simp [quoted]
  | .arr [], n, _ => by rw [pretty, calls, callsItems]; decide
  | .arr (x :: xs), n, h => by
    simp only [Plain, PlainItems] at h
    have h1 := calls_le x (n + 1) h.1
    have h2 := callsItems_le xs n h.2
    have h3 := newline_length (n + 1)
    rw [pretty, calls, callsItems]
    simp only [List.length_append, List.length_cons]
    omega
  | .obj [], n, _ => by rw [pretty, calls, callsFields]; decide
  | .obj (f :: fs), n, h => by
    simp only [Plain, PlainFields] at h
    have h1 := callsField_le f n h.1
    have h2 := callsFields_le fs n h.2
    have h3 := newline_length (n + 1)
    rw [pretty, calls, callsFields]
    simp only [List.length_append, List.length_cons]
    omega

theorem callsItems_le : ∀ (xs : List Json) (n : Nat), PlainItems xs → callsItems xs ≤ (prettyItems n xs).length
  | [], n, _ => by rw [prettyItems, callsItems]; simp
  | x :: xs, n, h => by
    simp only [PlainItems] at h
    have h1 := calls_le x (n + 1) h.1
    have h2 := callsItems_le xs n h.2
    rw [prettyItems, callsItems]
    simp only [List.length_append, List.length_cons]
    omega

theorem callsField_le : ∀ (f : String × Json) (n : Nat), PlainField f → callsField f ≤ (prettyField n f).length
  | (key, v), n, h => by
    simp only [PlainField] at h
    have h1 := calls_le v (n + 1) h.2
    rw [prettyField, callsField]
    simp only [List.length_append, List.length_cons]
    omega

theorem callsFields_le : ∀ (fs : List (String × Json)) (n : Nat), PlainFields fs → callsFields fs ≤ (prettyFields n fs).length
  | [], n, _ => by rw [prettyFields, callsFields]; simp
  | f :: fs, n, h => by
    simp only [PlainFields] at h
    have h1 := callsField_le f n h.1
    have h2 := callsFields_le fs n h.2
    rw [prettyFields, callsFields]
    simp only [List.length_append, List.length_cons]
    omega

end

/-- An object may be followed by anything. -/
theorem read_object (f : String × Json) (fs : List (String × Json)) (n k : Nat) (rest : List UInt8) (hp : Plain (.obj (f :: fs))) (hk : calls (.obj (f :: fs)) ≤ k) :
    readValue k (pretty n (.obj (f :: fs)) ++ rest) = some (.obj (f :: fs), rest) := by
  obtain ⟨k, rfl⟩ : ∃ m, k = m + 1 := ⟨k - 1, by simp only [calls] at hk; omega⟩
  simp only [Plain, PlainFields] at hp
  simp only [calls, callsFields] at hk
  rw [readValue, pretty, List.append_assoc, List.append_assoc, List.cons_append, next_cons (by decide)]
  have h1 : readField k (newline (n + 1) ++ (prettyField n f ++ (prettyFields n fs ++ rest))) = some (f, prettyFields n fs ++ rest) := by
    rw [readField_next (next_newline _ _), read_field f n k _ hp.1 (by omega) (stop_fields n fs rest)]
  have h2 := read_fields fs n k rest hp.2 (by omega)
  have h3 : ∃ t, next (newline (n + 1) ++ (prettyField n f ++ (prettyFields n fs ++ rest))) = some (34, t) := by
    obtain ⟨key, v⟩ := f
    exact ⟨_, by rw [next_newline, prettyField, quoted, List.cons_append, List.cons_append, List.cons_append, List.cons_append, next_cons (by decide)]⟩
  obtain ⟨t, h3⟩ := h3
  simp [h1, h2, h3]

theorem space_iff (b : UInt8) : isSpace b = true ↔ b ∈ [32, 9, 10, 13] := by
  unfold isSpace
  simp
  tauto

theorem next_spaces (a t : List UInt8) (ha : ∀ b ∈ a, isSpace b = true) : next (a ++ t) = next t := by
  induction a with
  | nil => rfl
  | cons b a ih =>
    rw [List.cons_append, next_space (ha b (List.mem_cons_self ..)), ih fun b hb => ha b (List.mem_cons_of_mem _ hb)]

theorem readJson_around (f : String × Json) (fs : List (String × Json)) (hp : Plain (.obj (f :: fs))) (a b : List UInt8) (ha : ∀ x ∈ a, isSpace x = true) :
    readJson (a ++ writeJson (.obj (f :: fs)) ++ b) = if ∀ x ∈ b, isSpace x = true then some (.obj (f :: fs)) else none := by
  have hk := calls_le _ 0 hp
  have := read_object f fs 0 ((a ++ writeJson (.obj (f :: fs)) ++ b).length + 1) b hp (by unfold writeJson; simp only [List.length_append]; omega)
  rw [← readValue_next (next_spaces a _ ha), ← List.append_assoc] at this
  unfold readJson
  change readValue _ (a ++ writeJson (.obj (f :: fs)) ++ b) = _ at this
  rw [this]
  simp only
  have hs : skip b = [] ↔ ∀ x ∈ b, isSpace x = true := by
    unfold skip
    clear this
    induction b with
    | nil => simp
    | cons x b ih =>
      rw [List.dropWhile_cons]
      split_ifs with hx
      · rw [ih]; simp [hx]
      · simp [hx]
  simp only [hs]

theorem readJson_writeJson {j : Json} (h : Plain j) : readJson (writeJson j) = some j := by
  have := read_pretty j 0 ((writeJson j).length + 1) [] h (by have := calls_le j 0 h; unfold writeJson; omega) (by intro b hb; cases hb)
  unfold readJson
  rw [writeJson, List.append_nil] at *
  simp [this, skip]

end M2S.Text
