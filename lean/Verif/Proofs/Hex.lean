import Verif.Model.Hex
import Verif.Spec.Hex
import Verif.Proofs.ParseComplete
import Mathlib.Tactic.IntervalCases
/-
The byte loop of `parse_hex` seen as a loop over characters.
-/
namespace SV

theorem encode_ascii {c : Char} (h : c.toNat < 128) : String.utf8EncodeChar c = [UInt8.ofNat c.toNat] := by
  have h' : c.val.toNat ≤ 0x7f := Nat.le_of_lt_succ h
  simp only [String.utf8EncodeChar, h', if_true]; rfl

theorem encode_big {c : Char} (h : 128 ≤ c.toNat) : ∃ b bs, String.utf8EncodeChar c = b :: bs ∧ 128 ≤ b.toNat := by
  have h' : ¬ c.val.toNat ≤ 0x7f := by
    have : 128 ≤ c.val.toNat := h
    omega
  simp only [String.utf8EncodeChar, h', if_false]
  split
  · refine ⟨_, _, rfl, ?_⟩; simp only [UInt8.toNat_ofNat']; omega
  · split
    · refine ⟨_, _, rfl, ?_⟩; simp only [UInt8.toNat_ofNat']; omega
    · refine ⟨_, _, rfl, ?_⟩; simp only [UInt8.toNat_ofNat']; omega

theorem ofNat_toNat_ascii {c : Char} (h : c.toNat < 128) : (UInt8.ofNat c.toNat).toNat = c.toNat := by
  simp only [UInt8.toNat_ofNat']; omega

theorem size_ascii {c : Char} (h : c.toNat < 128) : c.utf8Size = 1 := by
  rw [← String.length_utf8EncodeChar, encode_ascii h]; rfl

theorem alnum_lt {c : Char} (h : isAsciiAlnum c = true) : c.toNat < 128 := by
  simp [isAsciiAlnum, isAsciiLetter, isDigit] at h; omega

theorem isAlnumByte_ascii {c : Char} (h : c.toNat < 128) : isAlnumByte (UInt8.ofNat c.toNat) = isAsciiAlnum c := by
  rw [Bool.eq_iff_iff]
  simp [isAlnumByte, isAsciiAlnum, isAsciiLetter, isDigit, ofNat_toNat_ascii h]
  omega

@[simp] theorem utf8Bytes_nil : utf8Bytes [] = [] := rfl
theorem utf8Bytes_cons (c : Char) (s : Str) : utf8Bytes (c :: s) = String.utf8EncodeChar c ++ utf8Bytes s := rfl
theorem utf8Bytes_ascii {c : Char} (h : c.toNat < 128) (s : Str) :
    utf8Bytes (c :: s) = UInt8.ofNat c.toNat :: utf8Bytes s := by
  rw [utf8Bytes_cons, encode_ascii h]; rfl
theorem utf8Bytes_append (a b : Str) : utf8Bytes (a ++ b) = utf8Bytes a ++ utf8Bytes b := by
  simp [utf8Bytes]

theorem utf8Bytes_length (s : Str) : (utf8Bytes s).length = utf8Len s := by
  induction s with
  | nil => rfl
  | cons c s ih => rw [utf8Bytes_cons]; simp [ih]

theorem scan_stop {s : Str} (h : NotAlnumCont s) (i : Nat) (l : Option UInt8) (v : List (Value Unit)) :
    hexScan (utf8Bytes s) i l v = .brk i l v := by
  cases s with
  | nil => rfl
  | cons c s =>
    simp only [NotAlnumCont] at h
    by_cases hc : c.toNat < 128
    · rw [utf8Bytes_ascii hc, hexScan, isAlnumByte_ascii hc, h]; rfl
    · obtain ⟨b, bs, hb, h128⟩ := encode_big (c := c) (by omega)
      rw [utf8Bytes_cons, hb, List.cons_append, hexScan]
      have : isAlnumByte b = false := by simp [isAlnumByte]; omega
      simp [this]

theorem digits_get : ∀ n, n < 16 → upperDigits[n]?.map Char.toNat = some (if n < 10 then 48 + n else 55 + n) ∧
    lowerDigits[n]?.map Char.toNat = some (if n < 10 then 48 + n else 87 + n) := by decide

theorem get_eq {l : Str} {n m : Nat} {c : Char} (h : l[n]?.map Char.toNat = some m) : l[n]? = some c ↔ c.toNat = m := by
  cases hl : l[n]? with
  | none => rw [hl] at h; cases h
  | some d =>
    rw [hl] at h
    simp only [Option.map_some, Option.some.injEq] at h ⊢
    subst h
    exact ⟨fun h => h ▸ rfl, fun h => (Char.toNat_inj.1 h).symm⟩

/-- The value of a hexadecimal digit, by ranges. -/
theorem hexDigit_iff {c : Char} {n : Nat} : HexDigit c n ↔
    (n < 10 ∧ c.toNat = 48 + n) ∨ (10 ≤ n ∧ n < 16 ∧ c.toNat = 55 + n) ∨ (10 ≤ n ∧ n < 16 ∧ c.toNat = 87 + n) := by
  by_cases hl : n < 16
  · rw [HexDigit, get_eq (digits_get n hl).1, get_eq (digits_get n hl).2]
    split <;> omega
  · constructor
    · rintro (h | h)
      all_goals exact absurd (List.getElem?_eq_some_iff.1 h).1 hl
    · omega

theorem HexDigit.lt {c : Char} {n : Nat} (h : HexDigit c n) : n < 16 := by
  have := hexDigit_iff.1 h; omega

theorem HexDigit.alnum {c : Char} {n : Nat} (h : HexDigit c n) : isAsciiAlnum c = true := by
  have := hexDigit_iff.1 h
  simp [isAsciiAlnum, isAsciiLetter, isDigit]; omega

theorem hexNibble_some {c : Char} {n : Nat} (h : HexDigit c n) : hexNibble (UInt8.ofNat c.toNat) = some (UInt8.ofNat n) := by
  have ha := alnum_lt h.alnum
  have hc := hexDigit_iff.1 h
  simp only [hexNibble, ofNat_toNat_ascii ha]
  rcases hc with ⟨h1, h2⟩ | ⟨h1, h2, h3⟩ | ⟨h1, h2, h3⟩
  · rw [if_neg (by simp; omega), if_neg (by simp; omega), if_pos (by simp; omega), h2]
    interval_cases n <;> rfl
  · rw [if_pos (by simp; omega), h3]
    interval_cases n <;> rfl
  · rw [if_neg (by simp; omega), if_pos (by simp; omega), h3]
    interval_cases n <;> rfl

theorem hexNibble_none {c : Char} (ha : isAsciiAlnum c = true) (h : ∀ n, ¬ HexDigit c n) :
    hexNibble (UInt8.ofNat c.toNat) = none := by
  have hl := alnum_lt ha
  simp only [hexNibble, ofNat_toNat_ascii hl]
  have h1 := fun n => mt hexDigit_iff.2 (h n)
  rw [if_neg, if_neg, if_neg]
  · simp; intro h2
    have := h1 (c.toNat - 48); omega
  · simp; intro h2
    have := h1 (c.toNat - 87); omega
  · simp; intro h2
    have := h1 (c.toNat - 55); omega

theorem scan_digit {c : Char} {n : Nat} (h : HexDigit c n) (s : Str) (i : Nat) (v : List (Value Unit)) :
    hexScan (utf8Bytes (c :: s)) i none v = hexScan (utf8Bytes s) (i + 1) (some (UInt8.ofNat n)) v := by
  rw [utf8Bytes_ascii (alnum_lt h.alnum), hexScan, isAlnumByte_ascii (alnum_lt h.alnum), h.alnum, hexNibble_some h]
  rfl

theorem nibbles {b : UInt8} : UInt8.ofNat (b.toNat / 16) * 16 + UInt8.ofNat (b.toNat % 16) = b := by
  apply UInt8.toNat_inj.1
  have := b.toNat_lt
  simp
  omega

theorem scan_pair {hi lo : Char} {b : UInt8} (h1 : HexDigit hi (b.toNat / 16)) (h2 : HexDigit lo (b.toNat % 16)) (s : Str) (i : Nat)
    (v : List (Value Unit)) :
    hexScan (utf8Bytes (hi :: lo :: s)) i none v = hexScan (utf8Bytes s) (i + 2) none (v ++ [.u128 (.ofU8 b)]) := by
  rw [scan_digit h1, utf8Bytes_ascii (alnum_lt h2.alnum), hexScan, isAlnumByte_ascii (alnum_lt h2.alnum), h2.alnum, hexNibble_some h2]
  simp only [nibbles]
  rfl

theorem scan_text {bs : List UInt8} {t : Str} (h : HexText bs t) : ∀ (s : Str) (i : Nat) (v : List (Value Unit)),
    hexScan (utf8Bytes (t ++ s)) i none v = hexScan (utf8Bytes s) (i + t.length) none (v ++ bs.map fun b => .u128 (.ofU8 b)) := by
  induction h with
  | nil => intro s i v; simp
  | cons h1 h2 h ih =>
    intro s i v
    simp only [List.cons_append]
    rw [scan_pair h1 h2, ih]
    simp only [List.length_cons, List.map_cons, List.append_assoc, List.cons_append, List.nil_append]
    congr 1; omega

theorem scan_invalid {c : Char} (ha : isAsciiAlnum c = true) (h : ∀ n, ¬ HexDigit c n) (s : Str) (i : Nat) (l : Option UInt8)
    (v : List (Value Unit)) :
    hexScan (utf8Bytes (c :: s)) i l v = .err ((hexInvalidChar c).at i) := by
  have hl := alnum_lt ha
  have hc : Char.ofNat (UInt8.ofNat c.toNat).toNat = c := by rw [ofNat_toNat_ascii hl, Char.ofNat_toNat]
  rw [utf8Bytes_ascii hl, hexScan, isAlnumByte_ascii hl, ha, hexNibble_none ha h]
  simp only [hc]
  rfl

theorem HexText.ascii {bs : List UInt8} {t : Str} (h : HexText bs t) : ∀ c ∈ t, c.toNat < 128 := by
  induction h with
  | nil => intro c hc; cases hc
  | cons h1 h2 h ih =>
    intro c hc
    rcases List.mem_cons.1 hc with rfl | hc
    · exact alnum_lt h1.alnum
    rcases List.mem_cons.1 hc with rfl | hc
    · exact alnum_lt h2.alnum
    · exact ih c hc

theorem utf8Len_of_ascii {t : Str} (h : ∀ c ∈ t, c.toNat < 128) : utf8Len t = t.length :=
  utf8Len_ascii fun c hc => size_ascii (h c hc)

/-- What `dropBytes` is: it succeeds exactly at character boundaries. -/
theorem dropBytes_iff : ∀ {s : Str} {n : Nat} {r : Str}, dropBytes n s = some r ↔ ∃ p, s = p ++ r ∧ utf8Len p = n := by
  intro s
  induction s with
  | nil =>
    intro n r
    cases n with
    | zero =>
      simp only [dropBytes, Option.some.injEq]
      constructor
      · rintro rfl; exact ⟨[], rfl, rfl⟩
      · rintro ⟨p, h, _⟩; exact (List.append_eq_nil_iff.1 h.symm).2.symm
    | succ n =>
      simp only [dropBytes]
      constructor
      · intro h; cases h
      · rintro ⟨p, h, h2⟩; rw [(List.append_eq_nil_iff.1 h.symm).1] at h2; cases h2
  | cons c s ih =>
    intro n r
    have hpos := utf8Size_pos c
    cases n with
    | zero =>
      simp only [dropBytes, Option.some.injEq]
      constructor
      · rintro rfl; exact ⟨[], rfl, rfl⟩
      · rintro ⟨p, h, h2⟩
        cases p with
        | nil => exact h
        | cons d p => have := utf8Size_pos d; simp at h2; omega
    | succ n =>
      simp only [dropBytes]
      split
      · constructor
        · intro h; cases h
        · rintro ⟨p, h, h2⟩
          cases p with
          | nil => cases h2
          | cons d p => cases h; simp at h2; omega
      · rw [ih]
        constructor
        · rintro ⟨p, h, h2⟩; exact ⟨c :: p, by rw [h]; rfl, by simp; omega⟩
        · rintro ⟨p, h, h2⟩
          cases p with
          | nil => cases h2
          | cons d p => cases h; exact ⟨p, rfl, by simp at h2; omega⟩

theorem dropBytes_append (p r : Str) : dropBytes (utf8Len p) (p ++ r) = some r := dropBytes_iff.2 ⟨p, rfl, rfl⟩

theorem starts_iff (s : Str) : startsWith0x (utf8Bytes s) = true ↔ ['0', 'x'] <+: s := by
  constructor
  · intro h
    match s with
    | [] => cases h
    | c :: s =>
      by_cases hc : c.toNat < 128
      · rw [utf8Bytes_ascii hc] at h
        simp only [startsWith0x, List.isPrefixOf, Bool.and_eq_true, beq_iff_eq] at h
        have h0 : c = '0' := by
          apply Char.toNat_inj.1
          rw [← ofNat_toNat_ascii hc, ← h.1]; rfl
        match s with
        | [] => simp at h
        | d :: s =>
          by_cases hd : d.toNat < 128
          · rw [utf8Bytes_ascii hd] at h
            simp only [List.isPrefixOf, Bool.and_eq_true, beq_iff_eq] at h
            have h1 : d = 'x' := by
              apply Char.toNat_inj.1
              rw [← ofNat_toNat_ascii hd, ← h.2.1]; rfl
            subst h0; subst h1; exact ⟨s, rfl⟩
          · obtain ⟨b, bs, hb, h128⟩ := encode_big (c := d) (by omega)
            rw [utf8Bytes_cons, hb] at h
            simp only [List.cons_append, List.isPrefixOf, Bool.and_eq_true, beq_iff_eq] at h
            rw [← h.2.1] at h128; exact absurd h128 (by decide)
      · obtain ⟨b, bs, hb, h128⟩ := encode_big (c := c) (by omega)
        rw [utf8Bytes_cons, hb] at h
        simp only [startsWith0x, List.cons_append, List.isPrefixOf, Bool.and_eq_true, beq_iff_eq] at h
        rw [← h.1] at h128; exact absurd h128 (by decide)
  · rintro ⟨r, rfl⟩
    rfl

theorem drop_0x (s : Str) : (utf8Bytes ('0' :: 'x' :: s)).drop 2 = utf8Bytes s := rfl

/-- The four ways that a call of `parse_hex` goes. -/
theorem parseHex_none {s : Str} (h : ¬ ['0', 'x'] <+: s) : parseHex? s = some (none, s) := by
  have : startsWith0x (utf8Bytes s) = false := Bool.eq_false_iff.2 fun h' => h ((starts_iff s).1 h')
  simp [parseHex?, this]

theorem parseHex_some (s : Str) : parseHex? ('0' :: 'x' :: s) =
    match hexScan (utf8Bytes s) 2 none [] with
    | .err e => some (some (.error e), '0' :: 'x' :: s)
    | .brk idx last vals =>
      if last.isSome then some (some (.error (hexWrongLength.between 0 idx)), '0' :: 'x' :: s)
      else match dropBytes idx ('0' :: 'x' :: s) with
        | none => none
        | some rest => some (some (.ok (.unnamedComposite vals)), rest) := by
  have : startsWith0x (utf8Bytes ('0' :: 'x' :: s)) = true := (starts_iff _).2 ⟨s, rfl⟩
  simp only [parseHex?, this, drop_0x]
  rfl

theorem parseHex_ok {bs : List UInt8} {t rest : Str} (h : HexText bs t) (hr : NotAlnumCont rest) :
    parseHex? ('0' :: 'x' :: t ++ rest) = some (some (.ok (.fromBytes bs)), rest) := by
  have hd : dropBytes (2 + t.length) ('0' :: 'x' :: (t ++ rest)) = some rest := by
    have := dropBytes_append ('0' :: 'x' :: t) rest
    rw [show utf8Len ('0' :: 'x' :: t) = 2 + t.length by
      simp only [utf8Len_cons, utf8Len_of_ascii h.ascii, size_ascii (c := '0') (by decide), size_ascii (c := 'x') (by decide)]; omega] at this
    exact this
  simp only [List.cons_append]
  rw [parseHex_some, scan_text h, scan_stop hr]
  simp [hd, Value.fromBytes]

theorem parseHex_odd {bs : List UInt8} {t rest : Str} {c : Char} {n : Nat} (h : HexText bs t) (hc : HexDigit c n) (hr : NotAlnumCont rest) :
    parseHex? ('0' :: 'x' :: t ++ c :: rest) =
      some (some (.error (hexWrongLength.between 0 (3 + t.length))), '0' :: 'x' :: t ++ c :: rest) := by
  simp only [List.cons_append]
  rw [parseHex_some, scan_text h, scan_digit hc, scan_stop hr, show 2 + t.length + 1 = 3 + t.length by omega]
  rfl

theorem parseHex_invalid {bs : List UInt8} {t d rest : Str} {c : Char} (h : HexText bs t)
    (hd : d = [] ∨ ∃ e n, HexDigit e n ∧ d = [e]) (hc : isAsciiAlnum c = true) (hn : ∀ n, ¬ HexDigit c n) :
    parseHex? ('0' :: 'x' :: t ++ d ++ c :: rest) =
      some (some (.error ((hexInvalidChar c).at (2 + t.length + d.length))), '0' :: 'x' :: t ++ d ++ c :: rest) := by
  simp only [List.cons_append, List.append_assoc]
  rw [parseHex_some, scan_text h]
  rcases hd with rfl | ⟨e, n, he, rfl⟩
  · simp only [List.nil_append]
    rw [scan_invalid hc hn]; simp
  · simp only [List.cons_append, List.nil_append]
    rw [scan_digit he, scan_invalid hc hn]; simp [Nat.add_assoc]

theorem hex_byte {n m : Nat} (hn : n < 16) (hm : m < 16) : ∃ b : UInt8, b.toNat / 16 = n ∧ b.toNat % 16 = m := by
  refine ⟨UInt8.ofNat (n * 16 + m), ?_, ?_⟩ <;> simp <;> omega

/-- Every text begins with hexadecimal digits, maybe none, and then stops or goes on with another letter. -/
theorem hex_split (s : Str) : ∃ bs t d r, s = t ++ d ++ r ∧ HexText bs t ∧ (d = [] ∨ ∃ e n, HexDigit e n ∧ d = [e]) ∧
    (NotAlnumCont r ∨ ∃ c r', r = c :: r' ∧ isAsciiAlnum c = true ∧ ∀ n, ¬ HexDigit c n) := by
  have stop : ∀ s : Str, (¬ ∃ c r n, s = c :: r ∧ HexDigit c n) →
      (NotAlnumCont s ∨ ∃ c r', s = c :: r' ∧ isAsciiAlnum c = true ∧ ∀ n, ¬ HexDigit c n) := by
    intro s hs
    match s with
    | [] => exact .inl trivial
    | c :: s =>
      by_cases ha : isAsciiAlnum c = true
      · exact .inr ⟨c, s, rfl, ha, fun n hn => hs ⟨c, s, n, rfl, hn⟩⟩
      · exact .inl (by simpa [NotAlnumCont] using ha)
  induction hl : s.length using Nat.strongRecOn generalizing s with
  | _ l ih =>
    by_cases h1 : ∃ c r n, s = c :: r ∧ HexDigit c n
    · obtain ⟨c, r, n, rfl, hc⟩ := h1
      by_cases h2 : ∃ c' r' n', r = c' :: r' ∧ HexDigit c' n'
      · obtain ⟨c', r', n', rfl, hc'⟩ := h2
        obtain ⟨bs, t, d, x, rfl, h1, h2, h3⟩ := ih r'.length (by simp at hl; omega) r' rfl
        obtain ⟨b, hb1, hb2⟩ := hex_byte hc.lt hc'.lt
        exact ⟨b :: bs, c :: c' :: t, d, x, by simp, .cons (hb1 ▸ hc) (hb2 ▸ hc') h1, h2, h3⟩
      · exact ⟨[], [], [c], r, rfl, .nil, .inr ⟨c, n, hc, rfl⟩, stop r h2⟩
    · exact ⟨[], [], [], s, rfl, .nil, .inl rfl, stop s h1⟩

end SV
