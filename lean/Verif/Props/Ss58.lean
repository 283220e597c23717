import Verif.Spec.Ss58
import Verif.Props.Hex
/-
Property C24: SS58 addresses.
-/
namespace SV

variable {u : Uni} {lib : Ss58Lib}

theorem opens_iff (rest : Str) : (match rest.dropWhile u.ws with
    | c :: _ => c == '(' || c == '{'
    | [] => false) = true ↔ OpensComposite u rest := by
  induction rest with
  | nil =>
    constructor
    · intro h; cases h
    · rintro ⟨w, c, r, h, _⟩; simp at h
  | cons d rest ih =>
    by_cases hd : u.ws d = true
    · rw [List.dropWhile_cons_of_pos hd, ih]
      constructor
      · rintro ⟨w, c, r, rfl, hw, hc⟩
        refine ⟨d :: w, c, r, rfl, ?_, hc⟩
        intro e he
        rcases List.mem_cons.1 he with rfl | he
        · exact hd
        · exact hw e he
      · rintro ⟨w, c, r, h, hw, hc⟩
        cases w with
        | nil =>
          cases h
          rcases hc with rfl | rfl <;> rw [u.ws_ascii _ (by decide)] at hd <;> exact absurd hd (by decide)
        | cons e w => cases h; exact ⟨w, c, r, rfl, fun x hx => hw x (by simp [hx]), hc⟩
    · rw [List.dropWhile_cons_of_neg hd]
      simp only [Bool.or_eq_true, beq_iff_eq]
      constructor
      · intro h; exact ⟨[], d, rest, rfl, ws_nil, h⟩
      · rintro ⟨w, c, r, h, hw, hc⟩
        cases w with
        | nil => cases h; exact hc
        | cons e w => cases h; exact absurd (hw _ (by simp)) hd

theorem ss58_prefix : "SS58PRE".toUTF8.toList = [0x53, 0x53, 0x35, 0x38, 0x50, 0x52, 0x45] := by decide +kernel

theorem drop_len_two {l : List UInt8} (h : 2 ≤ l.length) : ∃ c0 c1, l.drop (l.length - 2) = [c0, c1] := by
  have : (l.drop (l.length - 2)).length = 2 := by simp; omega
  match hl : l.drop (l.length - 2) with
  | [] => rw [hl] at this; cases this
  | [_] => rw [hl] at this; cases this
  | [a, b] => exact ⟨a, b, rfl⟩
  | _ :: _ :: _ :: _ => rw [hl] at this; simp at this

/-- What the part after the early exits does. -/
def ss58Core (lib : Ss58Lib) (a : Str) : Option (List UInt8) :=
  match lib.fromBase58 a with
    | none => none
    | some bytes =>
      match ss58PrefixLen bytes with
      | none => none
      | some prefixLen =>
        if bytes.length < prefixLen + 2 then none
        else
          let checksumStart := bytes.length - 2
          let hash := ss58hash lib (bytes.take checksumStart)
          let checksum := hash.take 2
          if bytes.drop checksumStart ≠ checksum then none
          else some ((bytes.take checksumStart).drop prefixLen)

theorem core_iff (a : Str) (bs : List UInt8) : ss58Core lib a = some bs ↔ Ss58Address lib a bs := by
  unfold ss58Core Ss58Address
  rw [ss58_prefix]
  cases hb : lib.fromBase58 a with
  | none => simp
  | some bytes =>
    simp only
    have hh : ∀ l, ∃ c0 c1 t, (ss58hash lib l).take 2 = [c0, c1] ∧
        lib.blake2b512 ([0x53, 0x53, 0x35, 0x38, 0x50, 0x52, 0x45] ++ l) = c0 :: c1 :: t := by
      intro l
      have : (ss58hash lib l).length = 64 := lib.hash_len _
      match hm : ss58hash lib l with
      | [] => rw [hm] at this; cases this
      | [_] => rw [hm] at this; cases this
      | x :: y :: t => exact ⟨x, y, t, rfl, hm⟩
    constructor
    · intro h
      split at h
      · cases h
      · next n hn =>
        split at h
        · cases h
        · next hl =>
          split at h
          · cases h
          · next hc =>
            cases h
            simp only [ne_eq, Decidable.not_not] at hc
            have hn' : n = 1 ∨ n = 2 := by
              revert hn; unfold ss58PrefixLen; split
              · split
                · intro h; cases h; exact .inl rfl
                · split
                  · intro h; cases h; exact .inr rfl
                  · intro h; cases h
              · intro h; cases h
            have hsplit : bytes = bytes.take (bytes.length - 2) ++ bytes.drop (bytes.length - 2) := (List.take_append_drop _ _).symm
            have hpre : bytes.take (bytes.length - 2) = bytes.take n ++ (bytes.take (bytes.length - 2)).drop n := by
              have := (List.take_append_drop n (bytes.take (bytes.length - 2))).symm
              rw [List.take_take, Nat.min_eq_left (by omega)] at this
              exact this
            obtain ⟨c0, c1, t, h1, h2⟩ := hh (bytes.take (bytes.length - 2))
            refine ⟨bytes.take n, c0, c1, t, ?_, ?_, ?_⟩
            · rw [Option.some.injEq, ← hpre]
              exact hsplit.trans (by rw [hc, h1])
            · match bytes, hl, hn with
              | [], hl, hn => cases hn
              | [_], hl, hn => simp at hl <;> omega
              | x :: y :: r, hl, hn =>
                simp only [ss58PrefixLen, List.head?_cons] at hn
                split at hn
                · cases hn; exact .inl ⟨x, rfl, by assumption⟩
                · split at hn
                  · cases hn; exact .inr ⟨x, y, rfl, by omega, by assumption⟩
                  · cases hn
            · rw [← hpre]; exact h2
    · rintro ⟨pre, c0, c1, tail, hbytes, hp, hhash⟩
      cases hbytes
      have hlen : (pre ++ bs ++ [c0, c1]).length - 2 = (pre ++ bs).length := by simp; omega
      have htake : (pre ++ bs ++ [c0, c1]).take (pre ++ bs).length = pre ++ bs := List.take_left' rfl
      have hdrop : (pre ++ bs ++ [c0, c1]).drop (pre ++ bs).length = [c0, c1] := List.drop_left' rfl
      have hck : (ss58hash lib (pre ++ bs)).take 2 = [c0, c1] := by
        rw [show ss58hash lib (pre ++ bs) = c0 :: c1 :: tail from hhash]; rfl
      simp only [hlen, htake, hdrop, hck]
      rcases hp with ⟨x, rfl, hx⟩ | ⟨x, y, rfl, hx, hx2⟩
      · simp [ss58PrefixLen, hx]
      · have : ¬ x.toNat ≤ 63 := by omega
        simp [ss58PrefixLen, this, hx2]

theorem reserved_iff (a : Str) : (a == ['t', 'r', 'u', 'e'] || a == ['f', 'a', 'l', 's', 'e'] || a.all isDigit) = true ↔ Ss58Reserved a := by
  simp only [Bool.or_eq_true, beq_iff_eq, List.all_eq_true, Ss58Reserved, or_assoc]
  rfl

theorem ss58_declines {s : Str} (h : s.takeWhile isAsciiAlnum = [] ∨ Ss58Reserved (s.takeWhile isAsciiAlnum) ∨
    OpensComposite u (s.dropWhile isAsciiAlnum)) : parseSs58 u lib s = (none, s) := by
  suffices h : parseSs58Bytes u lib s = (none, s) by simp only [parseSs58, h]
  unfold parseSs58Bytes
  simp only
  split
  · rfl
  · next h1 =>
    split
    · rfl
    · next h2 =>
      refine if_pos ((opens_iff _).2 ?_)
      rcases h with h | h | h
      · simp [h] at h1
      · exact absurd ((reserved_iff _).2 h) h2
      · exact h

theorem ss58_core {s : Str} (h1 : s.takeWhile isAsciiAlnum ≠ []) (h2 : ¬ Ss58Reserved (s.takeWhile isAsciiAlnum))
    (h3 : ¬ OpensComposite u (s.dropWhile isAsciiAlnum)) : parseSs58 u lib s =
    match ss58Core lib (s.takeWhile isAsciiAlnum) with
      | none => (none, s)
      | some bs => (some (.ok (.fromBytes bs)), s.dropWhile isAsciiAlnum) := by
  have : parseSs58Bytes u lib s = match ss58Core lib (s.takeWhile isAsciiAlnum) with
      | none => (none, s)
      | some bs => (some bs, s.dropWhile isAsciiAlnum) := by
    unfold parseSs58Bytes ss58Core
    simp only
    rw [if_neg (by simpa using h1), if_neg (fun h => h2 ((reserved_iff _).1 h))]
    refine (if_neg (fun h => h3 ((opens_iff _).1 h))).trans ?_
    cases lib.fromBase58 (s.takeWhile isAsciiAlnum) with
    | none => rfl
    | some bytes =>
      simp only
      cases ss58PrefixLen bytes with
      | none => rfl
      | some n =>
        simp only
        split
        · rfl
        · split <;> rfl
  simp only [parseSs58, this]
  cases ss58Core lib (s.takeWhile isAsciiAlnum) <;> rfl

theorem takeWhile_run {a rest : Str} (ha : ∀ c ∈ a, isAsciiAlnum c = true) (hr : NotAlnumCont rest) :
    (a ++ rest).takeWhile isAsciiAlnum = a ∧ (a ++ rest).dropWhile isAsciiAlnum = rest := by
  induction a with
  | nil =>
    cases rest with
    | nil => exact ⟨rfl, rfl⟩
    | cons c r =>
      have hc : isAsciiAlnum c = false := hr
      simp [hc]
  | cons c a ih =>
    have := ih (fun d hd => ha d (by simp [hd]))
    simp [ha c (by simp), this.1, this.2]

theorem run_split (s : Str) : (∀ c ∈ s.takeWhile isAsciiAlnum, isAsciiAlnum c = true) ∧ NotAlnumCont (s.dropWhile isAsciiAlnum) := by
  induction s with
  | nil => exact ⟨fun c hc => (by cases hc), trivial⟩
  | cons c s ih =>
    by_cases hc : isAsciiAlnum c = true
    · rw [List.takeWhile_cons_of_pos hc, List.dropWhile_cons_of_pos hc]
      refine ⟨?_, ih.2⟩
      intro d hd
      rcases List.mem_cons.1 hd with rfl | hd
      · exact hc
      · exact ih.1 d hd
    · rw [List.takeWhile_cons_of_neg hc, List.dropWhile_cons_of_neg hc]
      exact ⟨fun d hd => (by cases hd), by simpa [NotAlnumCont] using hc⟩

/-- C24: `parse_ss58` succeeds exactly on the address of some bytes, up to the first character that is no ASCII letter or
digit, if it is not a boolean or number and no composite follows; it yields those bytes. -/
theorem C24_success_iff (s rest : Str) (v : Value Unit) : parseSs58 u lib s = (some (.ok v), rest) ↔
    ∃ a bs, s = a ++ rest ∧ a ≠ [] ∧ (∀ c ∈ a, isAsciiAlnum c = true) ∧ NotAlnumCont rest ∧ ¬ Ss58Reserved a ∧
      ¬ OpensComposite u rest ∧ Ss58Address lib a bs ∧ v = .fromBytes bs := by
  constructor
  · intro h
    by_cases h1 : s.takeWhile isAsciiAlnum = [] ∨ Ss58Reserved (s.takeWhile isAsciiAlnum) ∨
      OpensComposite u (s.dropWhile isAsciiAlnum)
    · rw [ss58_declines h1] at h; cases h
    · simp only [not_or] at h1
      rw [ss58_core h1.1 h1.2.1 h1.2.2] at h
      cases hc : ss58Core lib (s.takeWhile isAsciiAlnum) with
      | none => rw [hc] at h; cases h
      | some bs =>
        rw [hc] at h; cases h
        exact ⟨_, bs, List.takeWhile_append_dropWhile.symm, h1.1, (run_split s).1, (run_split s).2, h1.2.1, h1.2.2,
          (core_iff _ _).1 hc, rfl⟩
  · rintro ⟨a, bs, rfl, h1, h2, h3, h4, h5, h6, rfl⟩
    obtain ⟨e1, e2⟩ := takeWhile_run h2 h3
    rw [ss58_core (by rwa [e1]) (by rwa [e1]) (by rwa [e2]), e1, e2, (core_iff _ _).2 h6]

/-- C24: otherwise it declines and leaves the text as it is (and it never returns an error). -/
theorem C24_otherwise_declines (s : Str) (h : ¬ ∃ v rest, parseSs58 u lib s = (some (.ok v), rest)) :
    parseSs58 u lib s = (none, s) := by
  by_cases h1 : s.takeWhile isAsciiAlnum = [] ∨ Ss58Reserved (s.takeWhile isAsciiAlnum) ∨
    OpensComposite u (s.dropWhile isAsciiAlnum)
  · exact ss58_declines h1
  · simp only [not_or] at h1
    rw [ss58_core h1.1 h1.2.1 h1.2.2] at h ⊢
    cases hc : ss58Core lib (s.takeWhile isAsciiAlnum) with
    | none => rfl
    | some bs => rw [hc] at h; exact absurd ⟨_, _, rfl⟩ h

theorem decVal_run {t rest : Str} {n : Nat} (h : DecVal t n) (hr : NotAlnumCont rest) :
    Ss58Reserved ((t ++ rest).takeWhile isAsciiAlnum) := by
  refine .inr (.inr ?_)
  intro c hc
  have hch := h.chars
  clear h
  induction t with
  | nil =>
    cases rest with
    | nil => cases hc
    | cons d r =>
      have hd : isAsciiAlnum d = false := hr
      simp [hd] at hc
  | cons d t ih =>
    rcases hch d (by simp) with hd | rfl
    · have : isAsciiAlnum d = true := by simp [isAsciiAlnum, hd]
      simp only [List.cons_append, this, List.takeWhile_cons_of_pos] at hc
      rcases List.mem_cons.1 hc with rfl | hc
      · exact hd
      · exact ih hc (fun e he => hch e (by simp [he]))
    · have : isAsciiAlnum '_' = false := by decide
      simp [this] at hc

/-- C24: a text of a value in the built-in notation (booleans, numbers, strings, composites, variants ...) is never taken
for an address, with one exception: a variant whose name is an identifier with a character other than an ASCII letter or digit in it,
and whose characters before that are a valid address (see `C24_gap`). -/
theorem C24_builtin_declined {X : Value Unit → Str → Prop} (v : Value Unit) (s rest : Str) (h : Txt u X (.blt v) s)
    (hr : NotAlnumCont rest) : parseSs58 u lib (s ++ rest) = (none, s ++ rest) ∨
      ∃ n c a d r bs, v = .variant n c ∧ Ident u n ∧ n = a ++ d :: r ∧ (∀ c ∈ a, isAsciiAlnum c = true) ∧ isAsciiAlnum d = false ∧
        Ss58Address lib a bs := by
  have key : ∀ {c : Char} {t : Str}, isAsciiAlnum c = false → s = c :: t → parseSs58 u lib (s ++ rest) = (none, s ++ rest) := by
    rintro c t hc rfl
    exact ss58_declines (.inl (by simp [hc]))
  cases h with
  | true_ => exact .inl (ss58_declines (.inr (.inl (.inl (takeWhile_run (a := ['t', 'r', 'u', 'e']) (by decide) hr).1))))
  | false_ => exact .inl (ss58_declines (.inr (.inl (.inr (.inl (takeWhile_run (a := ['f', 'a', 'l', 's', 'e']) (by decide) hr).1)))))
  | char h => cases h <;> exact .inl (key (by decide) rfl)
  | string h => cases h; exact .inl (key (c := '"') (by decide) (by simp; rfl))
  | number h =>
    cases h with
    | plain h => exact .inl (ss58_declines (.inr (.inl (decVal_run h hr))))
    | plus h => exact .inl (key (c := '+') (by decide) rfl)
    | minus h => exact .inl (key (c := '-') (by decide) rfl)
  | bits => exact .inl (key (c := '<') (by decide) rfl)
  | composite h =>
    cases h with
    | namedEmpty => exact .inl (key (c := '{') (by decide) rfl)
    | unnamedEmpty => exact .inl (key (c := '(') (by decide) rfl)
    | named => exact .inl (key (c := '{') (by decide) (by simp; rfl))
    | unnamed => exact .inl (key (c := '(') (by decide) (by simp; rfl))
  | @variant n c s t w hn hw h =>
    have hopen : ∃ b r, t = b :: r ∧ (b = '(' ∨ b = '{') := by
      cases h with
      | namedEmpty => exact ⟨'{', _, rfl, .inr rfl⟩
      | unnamedEmpty => exact ⟨'(', _, rfl, .inl rfl⟩
      | named => exact ⟨'{', _, by simp; rfl, .inr rfl⟩
      | unnamed => exact ⟨'(', _, by simp; rfl, .inl rfl⟩
    obtain ⟨b, r, rfl, hb⟩ := hopen
    cases hn with
    | quoted h =>
      cases h with
      | mk h =>
        rename_i q
        refine .inl ?_
        have e1 : ('v' :: ('"' :: q ++ ['"']) ++ w ++ b :: r ++ rest).takeWhile isAsciiAlnum = ['v'] := by
          have h1 : isAsciiAlnum 'v' = true := by decide
          have h2 : isAsciiAlnum '"' = false := by decide
          simp [h1, h2]
        by_cases h1 : Ss58Reserved ['v'] ∨ OpensComposite u (('v' :: ('"' :: q ++ ['"']) ++ w ++ b :: r ++ rest).dropWhile isAsciiAlnum)
        · exact ss58_declines (.inr (by rw [e1]; exact h1))
        · simp only [not_or] at h1
          have e3 : ss58Core lib ['v'] = none := by
            cases hc : ss58Core lib ['v'] with
            | none => rfl
            | some bs =>
              obtain ⟨pre, c0, c1, tail, hb58, _, _⟩ := (core_iff _ _).1 hc
              have := lib.base58_len _ _ hb58
              simp at this; omega
          rw [ss58_core (by rw [e1]; simp) (by rw [e1]; exact h1.1) h1.2, e1, e3]
    | ident h h1 h2 =>
      by_cases hall : ∀ c ∈ n, isAsciiAlnum c = true
      · refine .inl (ss58_declines (.inr (.inr ?_)))
        have hr' : NotAlnumCont (w ++ b :: r ++ rest) := by
          cases w with
          | nil => rcases hb with rfl | rfl <;> (show isAsciiAlnum _ = false; decide)
          | cons x w => exact (hex_implements.sep (u := u) [] x [] (.inl (hw x (by simp)))).2
        have := (takeWhile_run hall hr').2
        rw [show n ++ w ++ b :: r ++ rest = n ++ (w ++ b :: r ++ rest) by simp, this]
        exact ⟨w, b, r ++ rest, by simp, hw, hb⟩
      · -- the run ends inside of the name
        have hsplit : ∃ a d r', n = a ++ d :: r' ∧ (∀ c ∈ a, isAsciiAlnum c = true) ∧ isAsciiAlnum d = false := by
          clear h h1 h2 key
          induction n with
          | nil => exact absurd (fun c hc => by cases hc) hall
          | cons x n ih =>
            by_cases hx : isAsciiAlnum x = true
            · obtain ⟨a, d, r', e, h1, h2⟩ := ih (fun h => hall (fun c hc => by
                rcases List.mem_cons.1 hc with rfl | hc
                · exact hx
                · exact h c hc))
              refine ⟨x :: a, d, r', by rw [e]; rfl, ?_, h2⟩
              intro c hc
              rcases List.mem_cons.1 hc with rfl | hc
              · exact hx
              · exact h1 c hc
            · exact ⟨[], x, n, rfl, fun c hc => (by cases hc), by simpa using hx⟩
        obtain ⟨a, d, r', rfl, ha, hd⟩ := hsplit
        by_cases hex : ∃ v rest', parseSs58 u lib (a ++ d :: r' ++ w ++ b :: r ++ rest) = (some (.ok v), rest')
        · obtain ⟨v, rest', hv⟩ := hex
          obtain ⟨a', bs, e, _, ha', hr2, _, _, hadr, _⟩ := (C24_success_iff _ _ _).1 hv
          have e1 := (takeWhile_run ha' hr2).1
          have e2 := (takeWhile_run (rest := d :: (r' ++ w ++ b :: r ++ rest)) ha hd).1
          rw [← e, show a ++ d :: r' ++ w ++ b :: r ++ rest = a ++ d :: (r' ++ w ++ b :: r ++ rest) by simp, e2] at e1
          subst e1
          exact .inr ⟨_, c, a, d, r', bs, rfl, h, rfl, ha, hd, hadr⟩
        · exact .inl (C24_otherwise_declines _ hex)

/-- C24, known gap: with `parse_ss58` installed, a variant whose name begins with an address followed by `_` is not parsed as a
variant: only the address is. -/
theorem C24_gap (a r : Str) (bs : List UInt8) (hne : a ≠ []) (ha : ∀ c ∈ a, isAsciiAlnum c = true) (hres : ¬ Ss58Reserved a)
    (hadr : Ss58Address lib a bs) : parse u [parseSs58 u lib] (a ++ '_' :: r) = some (.ok (.fromBytes bs), '_' :: r) := by
  have hp : parseSs58 u lib (a ++ '_' :: r) = (some (.ok (.fromBytes bs)), '_' :: r) := by
    refine (C24_success_iff _ _ _).2 ⟨a, bs, rfl, hne, ha, by show isAsciiAlnum '_' = false; decide, hres, ?_, hadr, rfl⟩
    rintro ⟨w, c, t, e, hw, hc⟩
    cases w with
    | nil => cases e; revert hc; decide
    | cons x w =>
      cases e
      have := hw '_' (by simp)
      rw [u.ws_ascii _ (by decide)] at this
      revert this; decide
  have hsz : ∀ c ∈ a, c.utf8Size = 1 := fun c hc => size_ascii (alnum_lt (ha c hc))
  have hlen : utf8Len (a ++ '_' :: r) - utf8Len ('_' :: r) = a.length := by
    rw [utf8Len_append, utf8Len_ascii hsz]; omega
  simp only [parse, parseValueN, parseValueStep, Toks.new, runCustom, hp, hlen, nextN_ascii a ('_' :: r) 0 hsz]

/-- A library for the examples: base 58 decoding of any text yields the codes of its characters with 48 taken off. -/
def exLib : Ss58Lib where
  fromBase58 s := some (s.map fun c => UInt8.ofNat (c.toNat - 48))
  blake2b512 l := l.drop 7 ++ List.replicate (64 - (l.drop 7).length) 1 |>.take 64
  base58_len := by intro s bs h; cases h; simp
  hash_len := by intro l; simp; omega

theorem exAddress : Ss58Address exLib "1a21a".toList [49, 2] := by
  refine ⟨[1], 1, 49, 2 :: List.replicate 61 1, rfl, .inl ⟨1, rfl, by decide⟩, ?_⟩
  rw [ss58_prefix]; rfl

example : parseSs58 Uni.ascii exLib "1a21a, 7".toList = (some (.ok (.fromBytes [49, 2])), ", 7".toList) :=
  (C24_success_iff _ _ _).2 ⟨"1a21a".toList, [49, 2], rfl, by decide, by decide, rfl, by
    rintro (h | h | h) <;> revert h <;> decide, by
    intro h
    have := (opens_iff _).2 h
    revert this; decide, exAddress, rfl⟩

example : parse Uni.ascii [parseSs58 Uni.ascii exLib] "1a21a_x()".toList = some (.ok (.fromBytes [49, 2]), "_x()".toList) :=
  C24_gap "1a21a".toList "x()".toList [49, 2] (by decide) (by decide) (by rintro (h | h | h) <;> revert h <;> decide) exAddress

end SV
