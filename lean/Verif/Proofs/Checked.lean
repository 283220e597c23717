import Verif.Model.Checked
import Verif.Props.Hex
/-
Proofs about operations that can panic (C94).
-/
namespace SV

variable {T W Id Γ : Type}

/-! ### parse_hex -/

theorem hexNibbleC_eq (b : UInt8) : hexNibbleC b = some (hexNibble b) := by
  unfold hexNibbleC hexNibble
  split
  · next h =>
    simp only [Bool.and_eq_true, decide_eq_true_eq] at h
    have h1 : ckSub8 b 65 = some (b - 65) := if_pos h.1
    have h2 : (b - 65).toNat = b.toNat - 65 := UInt8.toNat_sub_of_le _ _ (UInt8.le_iff_toNat_le.2 h.1)
    have h3 : ckAdd8 (b - 65) 10 = some (b - 65 + 10) := if_pos (by rw [h2]; show _ + 10 < _; omega)
    rw [h1, Option.bind_some, h3]; rfl
  · split
    · next h =>
      simp only [Bool.and_eq_true, decide_eq_true_eq] at h
      have h1 : ckSub8 b 97 = some (b - 97) := if_pos h.1
      have h2 : (b - 97).toNat = b.toNat - 97 := UInt8.toNat_sub_of_le _ _ (UInt8.le_iff_toNat_le.2 h.1)
      have h3 : ckAdd8 (b - 97) 10 = some (b - 97 + 10) := if_pos (by rw [h2]; show _ + 10 < _; omega)
      rw [h1, Option.bind_some, h3]; rfl
    · split
      · next h =>
        simp only [Bool.and_eq_true, decide_eq_true_eq] at h
        have h1 : ckSub8 b 48 = some (b - 48) := if_pos h.1
        rw [h1]; rfl
      · rfl

theorem hexNibble_lt {b h : UInt8} (hh : hexNibble b = some h) : h.toNat < 16 := by
  unfold hexNibble at hh
  split at hh
  · next hb =>
    simp only [Bool.and_eq_true, decide_eq_true_eq] at hb
    cases hh
    have h2 : (b - 65).toNat = b.toNat - 65 := UInt8.toNat_sub_of_le _ _ (UInt8.le_iff_toNat_le.2 hb.1)
    rw [UInt8.toNat_add, h2]; show (_ + 10) % 256 < 16; omega
  · split at hh
    · next hb =>
      simp only [Bool.and_eq_true, decide_eq_true_eq] at hb
      cases hh
      have h2 : (b - 97).toNat = b.toNat - 97 := UInt8.toNat_sub_of_le _ _ (UInt8.le_iff_toNat_le.2 hb.1)
      rw [UInt8.toNat_add, h2]; show (_ + 10) % 256 < 16; omega
    · split at hh
      · next hb =>
        simp only [Bool.and_eq_true, decide_eq_true_eq] at hb
        cases hh
        have h2 : (b - 48).toNat = b.toNat - 48 := UInt8.toNat_sub_of_le _ _ (UInt8.le_iff_toNat_le.2 hb.1)
        rw [h2]; omega
      · cases hh

theorem hexScanC_eq (w : Nat) (bs : List UInt8) (idx : Nat) (last : Option UInt8) (vals : List (Value Unit)) (hl : idx + bs.length < 2 ^ w)
    (hn : ∀ n, last = some n → n.toNat < 16) : hexScanC w bs idx last vals = some (hexScan bs idx last vals) := by
  induction bs generalizing idx last vals with
  | nil => rfl
  | cons b bs ih =>
    rw [List.length_cons] at hl
    have hadd : ckAdd w idx 1 = some (idx + 1) := if_pos (by omega)
    rw [hexScanC, hexScan, hexNibbleC_eq, Option.bind_some, hadd]
    split
    · rfl
    · cases hb : hexNibble b with
      | none => rfl
      | some h =>
        have hlt := hexNibble_lt hb
        cases last with
        | none =>
          simp only [Option.bind_some]
          exact ih _ _ _ (by omega) (by rintro n ⟨⟩; exact hlt)
        | some n =>
          have hn := hn n rfl
          have h1 : ckMul8 n 16 = some (n * 16) := if_pos (by show n.toNat * 16 < 256; omega)
          have h2 : (n * 16).toNat = n.toNat * 16 := by rw [UInt8.toNat_mul]; show (n.toNat * 16) % 256 = _; omega
          have h3 : ckAdd8 (n * 16) h = some (n * 16 + h) := if_pos (by rw [h2]; omega)
          simp only [h1, h3, Option.bind_some]
          exact ih _ _ _ (by omega) (by intro n h; cases h)

theorem startsWith0x_len {bs : List UInt8} (h : startsWith0x bs = true) : 2 ≤ bs.length := by
  have := (List.isPrefixOf_iff_prefix.1 h).length_le
  simpa using this

theorem hexScan_idx {bs : List UInt8} {idx : Nat} {last : Option UInt8} {vals : List (Value Unit)} {i l v} (h : hexScan bs idx last vals = .brk i l v) : i ≤ idx + bs.length := by
  induction bs generalizing idx last vals with
  | nil => cases h; exact Nat.le_refl _
  | cons b bs ih =>
    rw [hexScan] at h
    split at h
    · cases h; omega
    · split at h
      · cases h
      · split at h
        · have := ih h; rw [List.length_cons]; omega
        · have := ih h; rw [List.length_cons]; omega

theorem parseHexC_eq (w : Nat) (s : Str) (hs : utf8Len s < 2 ^ w) : parseHexC w s = some (parseHex s) := by
  obtain ⟨r, h, hr⟩ := C23_never_undefined s
  rw [hr, ← h]
  have hlen := utf8Bytes_length s
  unfold parseHexC parseHex?
  split
  · rfl
  · next h0 =>
    have h0 : startsWith0x (utf8Bytes s) = true := by simpa using h0
    have := startsWith0x_len h0
    rw [hexScanC_eq w _ _ _ _ (by rw [List.length_drop]; omega) (by intro n h; cases h), Option.bind_some]
    cases he : hexScan ((utf8Bytes s).drop 2) 2 none [] with
    | err e => rfl
    | brk idx last vals =>
      have hi := hexScan_idx he
      rw [List.length_drop] at hi
      have hsl : ckSlice (utf8Bytes s) idx (utf8Bytes s).length = some _ := if_pos ⟨by omega, Nat.le_refl _⟩
      simp only [hsl, Option.bind_some]
      split
      · rfl
      · cases dropBytes idx s <;> rfl

/-! ### parse_ss58 -/

theorem takeBytes_append (p r : Str) : takeBytes (utf8Len p) (p ++ r) = some p := by
  induction p with
  | nil => rw [utf8Len_nil]; cases r <;> simp [takeBytes]
  | cons c p ih =>
    have hc := c.utf8Size_pos
    rw [utf8Len_cons]
    obtain ⟨k, hk⟩ : ∃ k, c.utf8Size + utf8Len p = k + 1 := ⟨c.utf8Size + utf8Len p - 1, by omega⟩
    rw [hk, List.cons_append, takeBytes, if_neg (by omega), show k + 1 - c.utf8Size = utf8Len p by omega, ih]
    rfl

theorem findByte_eq (p : Char → Bool) (s : Str) : (findByte (fun c => !p c) s).getD (utf8Len s) = utf8Len (s.takeWhile p) := by
  induction s with
  | nil => rfl
  | cons c s ih =>
    rw [findByte, List.takeWhile_cons]
    cases h : p c with
    | false => rfl
    | true =>
      simp only [Bool.not_true, Bool.false_eq_true, if_false, if_true, utf8Len_cons]
      rw [← ih]
      cases findByte (fun c => !p c) s <;> rfl

theorem parseSs58C_eq (w : Nat) (h : 3 ≤ w) (u : Uni) (lib : Ss58Lib) (s : Str) : parseSs58BytesC w u lib s = some (parseSs58Bytes u lib s) := by
  have hw : 2 ^ 3 ≤ 2 ^ w := Nat.pow_le_pow_right (by decide) h
  have hsplit : s.takeWhile isAsciiAlnum ++ s.dropWhile isAsciiAlnum = s := List.takeWhile_append_dropWhile
  have h1 : takeBytes (utf8Len (s.takeWhile isAsciiAlnum)) s = some (s.takeWhile isAsciiAlnum) := by
    have := takeBytes_append (s.takeWhile isAsciiAlnum) (s.dropWhile isAsciiAlnum)
    rwa [hsplit] at this
  have h2 : dropBytes (utf8Len (s.takeWhile isAsciiAlnum)) s = some (s.dropWhile isAsciiAlnum) := by
    have := dropBytes_append (s.takeWhile isAsciiAlnum) (s.dropWhile isAsciiAlnum)
    rwa [hsplit] at this
  unfold parseSs58BytesC parseSs58Bytes
  simp only [findByte_eq, h1, h2, Option.bind_some]
  generalize s.takeWhile isAsciiAlnum = maybe
  generalize s.dropWhile isAsciiAlnum = rest
  have tail : (match lib.fromBase58 maybe with
      | none => some (none, s)
      | some bytes =>
        match ss58PrefixLen bytes with
        | none => some (none, s)
        | some prefixLen => (ckAdd w prefixLen 2).bind fun least =>
          if bytes.length < least then some (none, s)
          else (ckSub bytes.length 2).bind fun checksumStart => (ckSlice bytes 0 checksumStart).bind fun data => (ckSlice (ss58hash lib data) 0 2).bind fun checksum =>
            (ckSlice bytes checksumStart bytes.length).bind fun last =>
            if last ≠ checksum then some (none, s)
            else (ckSlice bytes prefixLen checksumStart).map fun r => (some r, rest)) = some (match lib.fromBase58 maybe with
      | none => (none, s)
      | some bytes =>
        match ss58PrefixLen bytes with
        | none => (none, s)
        | some prefixLen =>
          if bytes.length < prefixLen + 2 then (none, s)
          else
            let checksumStart := bytes.length - 2
            let hash := ss58hash lib (bytes.take checksumStart)
            let checksum := hash.take 2
            if bytes.drop checksumStart ≠ checksum then (none, s)
            else (some ((bytes.take checksumStart).drop prefixLen), rest)) := by
    cases lib.fromBase58 maybe with
    | none => rfl
    | some bytes =>
      simp only
      cases hk : ss58PrefixLen bytes with
      | none => rfl
      | some k =>
        have hk2 : k ≤ 2 := by
          unfold ss58PrefixLen at hk
          split at hk
          · split at hk
            · cases hk; omega
            · split at hk <;> cases hk; omega
          · cases hk
        have ha : ckAdd w k 2 = some (k + 2) := if_pos (by omega)
        simp only [ha, Option.bind_some]
        by_cases hlen : bytes.length < k + 2
        · simp only [if_pos hlen]
        · have hb : ckSub bytes.length 2 = some (bytes.length - 2) := if_pos (by omega)
          have hc : ckSlice bytes 0 (bytes.length - 2) = some (bytes.take (bytes.length - 2)) := if_pos ⟨by omega, by omega⟩
          have hd : ckSlice (ss58hash lib (bytes.take (bytes.length - 2))) 0 2 = some ((ss58hash lib (bytes.take (bytes.length - 2))).take 2) :=
            if_pos ⟨by omega, by rw [ss58hash, lib.hash_len]; decide⟩
          have he : ckSlice bytes (bytes.length - 2) bytes.length = some (bytes.drop (bytes.length - 2)) := by
            rw [ckSlice, if_pos ⟨by omega, Nat.le_refl _⟩, List.take_length]
          have hf : ckSlice bytes k (bytes.length - 2) = some ((bytes.take (bytes.length - 2)).drop k) := if_pos ⟨by omega, by omega⟩
          simp only [if_neg hlen, hb, hc, hd, he, hf, Option.bind_some, Option.map_some]
          by_cases hx : bytes.drop (bytes.length - 2) ≠ (ss58hash lib (bytes.take (bytes.length - 2))).take 2
          · simp only [if_pos hx]
          · simp only [if_neg hx]
  by_cases c1 : maybe.isEmpty = true
  · simp only [if_pos c1]
  · simp only [if_neg c1]
    by_cases c2 : (maybe == ['t', 'r', 'u', 'e'] || maybe == ['f', 'a', 'l', 's', 'e'] || maybe.all isDigit) = true
    · simp only [if_pos c2]
    · simp only [if_neg c2]
      cases rest.dropWhile u.ws with
      | nil => exact tail
      | cons c r =>
        by_cases c3 : (c == '(' || c == '{') = true
        · simp only [if_pos c3]
        · simp only [if_neg c3]; exact tail

/-! ### format_hex -/

theorem u4ToHexC_eq {n : Nat} (h : n < 16) : u4ToHexC n = some (u4ToHex n) := by
  unfold u4ToHexC u4ToHex
  rw [List.getD_eq_getElem?_getD]
  have : n < ['0', '1', '2', '3', '4', '5', '6', '7', '8', '9', 'A', 'B', 'C', 'D', 'E', 'F'].length := h
  rw [List.getElem?_eq_getElem this]; rfl

theorem hexLoopC_eq (wr : Writer W) (vs : List (Value T)) (w : W) : hexLoopC wr vs w = some (hexLoop wr vs w) := by
  induction vs generalizing w with
  | nil => rfl
  | cons v vs ih =>
    rw [hexLoopC, hexLoop]
    cases v.asU128Prim with
    | none => exact ih w
    | some n =>
      simp only [u4ToHexC_eq (show n.val % 256 / 16 < 16 by omega), u4ToHexC_eq (show n.val % 256 % 16 < 16 by omega), Option.bind_some]
      rcases wr [u4ToHex (n.val % 256 / 16)] w with ⟨_ | _, w1⟩
      · rfl
      · simp only
        rcases wr [u4ToHex (n.val % 256 % 16)] w1 with ⟨_ | _, w2⟩
        · rfl
        · exact ih w2

theorem formatHexC_eq (wr : Writer W) (v : Value T) (w : W) : formatHexC wr v w = some (formatHex wr v w) := by
  obtain ⟨d, x⟩ := v
  match d with
  | .composite (.unnamed vs) =>
    simp only [formatHexC, formatHex]
    cases h : vs.isEmpty with
    | true => rfl
    | false =>
      simp only [Bool.false_eq_true, if_false]
      split
      · next hall =>
        refine Eq.trans ?_ (congrArg some (if_pos hall).symm)
        rcases wr ['0', 'x'] w with ⟨_ | _, w1⟩
        · rfl
        · simp only [hexLoopC_eq, Option.map_some]
      · next hall => exact congrArg some (if_neg hall).symm
  | .composite (.named _) => rfl
  | .variant _ => rfl
  | .bitSequence _ => rfl
  | .primitive _ => rfl

/-! ### Decoding -/

theorem namedLoopC_eq (dec : Id → List UInt8 → Option (Out DErr (Value Γ × List UInt8))) (fs : List (Field Id)) (bs : List UInt8) (h : ∀ f ∈ fs, f.name ≠ none) :
    namedLoopC dec fs (peekName fs) bs = decFields dec fs bs := by
  induction fs generalizing bs with
  | nil => rfl
  | cons f fs ih =>
    rw [namedLoopC, decFields]
    cases hn : f.name with
    | none => exact absurd hn (h f (by simp))
    | some n =>
      have hp : peekName (f :: fs) = some n := hn
      simp only [hp, Option.getD_some]
      cases dec f.id bs with
      | none => rfl
      | some o => cases o with
        | panic => rfl
        | err e => rfl
        | ok p =>
          obtain ⟨v, r⟩ := p
          simp only [ih r fun f hf => h f (by simp [hf])]
          rcases decFields dec fs r with _ | _ | _ | _ <;> rfl

theorem decCompositeC_eq (al : Nat → Bool) (dec : Id → List UInt8 → Option (Out DErr (Value Γ × List UInt8))) (fs : List (Field Id)) (bs : List UInt8) :
    decCompositeC al dec fs bs = decComposite al dec fs bs := by
  unfold decCompositeC decComposite
  split
  · rfl
  · split
    · next h =>
      have hn : ∀ f ∈ fs, f.name ≠ none := by
        intro f hf hn
        simp only [isNamed, Bool.and_eq_true, Bool.not_eq_true', List.any_eq_false] at h
        exact h.2 f hf (by rw [hn]; rfl)
      rw [namedLoopC_eq dec fs bs hn]; rfl
    · rfl

/-! ### Encoding, options, errors -/

theorem findSingleC_eq (res : Table Id) (n : Nat) (t : Id) (b : Bool) : findSingleCN res n t b = (findSingleTN res n t b).map .ok := by
  induction n generalizing t b with
  | zero => rfl
  | succ n ih =>
    rw [findSingleCN, findSingleTN]
    cases res t with
    | none => rfl
    | some d =>
      cases d with
      | tuple ids =>
        match ids with
        | [] => rfl
        | [u] => exact ih u true
        | _ :: _ :: _ => rfl
      | composite fs =>
        match fs with
        | [] => rfl
        | [f] => exact ih f.id true
        | _ :: _ :: _ => rfl
      | array u len =>
        match len with
        | 0 => rfl
        | 1 => exact ih u true
        | _ + 2 => rfl
      | _ => rfl

theorem askOptionC_eq (v : Variant T) : v.askOptionC = some v.askOption := by
  obtain ⟨name, c⟩ := v
  rw [Variant.askOptionC, Variant.askOption]
  cases c.elems? with
  | none => rfl
  | some vs =>
    match vs with
    | [] =>
      by_cases h : name = "None".toList
      · subst h; rfl
      · simp only [List.length_nil, Nat.zero_ne_one, and_false, if_false, false_and, h]
    | [d] =>
      by_cases h : name = "Some".toList
      · subst h; rfl
      · simp only [h, false_and, if_false, List.isEmpty_cons, Bool.false_eq_true, and_false]
    | a :: b :: r => simp

theorem moveErrorC_iff (w : Nat) (off : Nat) (e : ParseError) :
    (moveErrorC w off e = none ↔ 2 ^ w ≤ off + e.startLoc ∨ ∃ l, e.endLoc = some l ∧ 2 ^ w ≤ off + l) ∧
    ∀ e', moveErrorC w off e = some e' → e' = ⟨off + e.startLoc, e.endLoc.map (off + ·), e.err⟩ := by
  obtain ⟨s, l, k⟩ := e
  unfold moveErrorC ckAdd
  by_cases h : off + s < 2 ^ w
  · simp only [h, if_true, Option.bind_some]
    cases l with
    | none => exact ⟨by simp; omega, by simp⟩
    | some l =>
      by_cases hl : off + l < 2 ^ w
      · simp only [hl, if_true]; exact ⟨by simp; omega, by simp⟩
      · simp only [hl, if_false]; exact ⟨by simp; omega, by simp⟩
  · simp only [h, if_false]
    exact ⟨by simp; omega, by simp⟩

end SV
