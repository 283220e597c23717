import Verif.Proofs.Base58
import Verif.Props.Ss58
import Verif.Props.EncodeRules
/-
Property C72: SS58 addresses are read as the account they are an address of.
-/
namespace SV

variable {u : Uni} {lib : Ss58Lib} {limit : Nat}

/-- C72: bytes have exactly one text in base 58, and a text is that of at most one list of bytes. -/
theorem C72_base58 (bs : List UInt8) : (∃ a, Base58 a bs ∧ ∀ a', Base58 a' bs → a' = a) ∧ ∀ a bs', Base58 a bs → Base58 a bs' → bs' = bs := by
  obtain ⟨a, ha⟩ := base58_exists bs
  exact ⟨⟨a, ha, fun a' h => base58_text_unique h ha⟩, fun a bs' h h' => base58_bytes_unique h' h⟩

theorem hash_two (hash : List UInt8) (h : hash.length = 64) : ∃ c0 c1 t, hash = c0 :: c1 :: t := by
  match hash, h with
  | [], h => cases h
  | [_], h => cases h
  | c0 :: c1 :: t, _ => exact ⟨c0, c1, t, rfl⟩

theorem addressText_iff (hl : DecodesBase58 lib limit) {a : Str} {account : List UInt8} :
    (Ss58Address lib a account → ∃ pre, AddressText lib.blake2b512 pre account a) ∧
    (∀ pre, AddressText lib.blake2b512 pre account a → pre.length + account.length + 2 ≤ limit → Ss58Address lib a account) := by
  constructor
  · rintro ⟨pre, c0, c1, tail, h1, h2, h3⟩
    refine ⟨pre, h2, ?_⟩
    rw [h3]
    exact hl.right _ _ h1
  · rintro pre ⟨h2, h1⟩ hle
    obtain ⟨c0, c1, t, ht⟩ := hash_two _ (lib.hash_len ("SS58PRE".toUTF8.toList ++ (pre ++ account)))
    rw [ht] at h1
    refine ⟨pre, c0, c1, t, hl.all _ _ h1 ?_, h2, ht⟩
    simp; omega

theorem addressText_length {hash : List UInt8 → List UInt8} {pre account : List UInt8} {a : Str} (hh : ∀ l, (hash l).length = 64)
    (h : AddressText hash pre account a) : account.length + 3 ≤ a.length := by
  have := base58_length h.2
  have h1 := hh ("SS58PRE".toUTF8.toList ++ (pre ++ account))
  have : 1 ≤ pre.length := by rcases h.1 with ⟨x, rfl, _⟩ | ⟨x, y, rfl, _⟩ <;> simp
  simp [h1] at *; omega

theorem addressText_alnum {hash : List UInt8 → List UInt8} {pre account : List UInt8} {a : Str} (h : AddressText hash pre account a) :
    ∀ c ∈ a, isAsciiAlnum c = true :=
  fun c hc => alphabet58_alnum c (base58_mem h.2 c hc)

/-- C72: `parse_ss58` reads the address of an account as the account. The address may not be one that has only digits in it, and the account must have at least three bytes. -/
theorem C72_reads (hl : DecodesBase58 lib limit) (pre account : List UInt8) (a rest : Str) (h : AddressText lib.blake2b512 pre account a)
    (hle : pre.length + account.length + 2 ≤ limit) (h3 : 3 ≤ account.length) (hd : ∃ c ∈ a, isDigit c = false)
    (hr : NotAlnumCont rest) (ho : ¬ OpensComposite u rest) : parseSs58 u lib (a ++ rest) = (some (.ok (.fromBytes account)), rest) := by
  have hlen := addressText_length lib.hash_len h
  refine (C24_success_iff _ _ _).2 ⟨a, account, rfl, ?_, addressText_alnum h, hr, ?_, ho, (addressText_iff hl).2 pre h hle, rfl⟩
  · rintro rfl; simp at hlen
  · rintro (rfl | rfl | hdig)
    · simp at hlen; omega
    · simp at hlen; omega
    · obtain ⟨c, hc, hc'⟩ := hd
      rw [hdig c hc] at hc'; cases hc'

/-- C72: whatever it accepts is the address of the bytes that it returns, on exactly one network. -/
theorem C72_accepts_only (hl : DecodesBase58 lib limit) (s rest : Str) (v : Value Unit) (h : parseSs58 u lib s = (some (.ok v), rest)) :
    ∃ pre account a, s = a ++ rest ∧ v = .fromBytes account ∧ AddressText lib.blake2b512 pre account a := by
  obtain ⟨a, bs, h1, _, _, _, _, _, h2, h3⟩ := (C24_success_iff _ _ _).1 h
  obtain ⟨pre, hp⟩ := (addressText_iff hl).1 h2
  exact ⟨pre, bs, a, h1, h3, hp⟩

/-- C72: an account has exactly one address on each network, and a text is the address of at most one account on at most one network. -/
theorem C72_one_account (hash : List UInt8 → List UInt8) (hh : ∀ l, (hash l).length = 64) :
    (∀ pre account, IsNetwork pre → ∃ a, AddressText hash pre account a ∧ ∀ a', AddressText hash pre account a' → a' = a) ∧
    (∀ a pre account pre' account', AddressText hash pre account a → AddressText hash pre' account' a → pre' = pre ∧ account' = account) := by
  constructor
  · intro pre account hp
    obtain ⟨a, ha⟩ := base58_exists (pre ++ account ++ (hash ("SS58PRE".toUTF8.toList ++ (pre ++ account))).take 2)
    exact ⟨a, ⟨hp, ha⟩, fun a' h => base58_text_unique h.2 ha⟩
  · rintro a pre account pre' account' ⟨h1, h2⟩ ⟨h1', h2'⟩
    have e := base58_bytes_unique h2' h2
    obtain ⟨c0, c1, t, ht⟩ := hash_two _ (hh ("SS58PRE".toUTF8.toList ++ (pre ++ account)))
    obtain ⟨d0, d1, t', ht'⟩ := hash_two _ (hh ("SS58PRE".toUTF8.toList ++ (pre' ++ account')))
    rw [ht, ht'] at e
    have e2 : pre' ++ account' = pre ++ account := by
      have := List.append_inj_left' e (by simp)
      exact this
    rcases h1 with ⟨x, rfl, hx⟩ | ⟨x, y, rfl, hx, hx'⟩ <;> rcases h1' with ⟨x', rfl, hx1⟩ | ⟨x', y', rfl, hx1, hx1'⟩
    · simpa using e2
    · simp at e2; obtain ⟨rfl, _⟩ := e2; omega
    · simp at e2; obtain ⟨rfl, _⟩ := e2; omega
    · simp at e2; simp [e2]

/-- C72, known gap: an address that has only digits in it is not read as an address. -/
theorem C72_digits (a rest : Str) (hd : ∀ c ∈ a, isDigit c = true) (hr : NotAlnumCont rest) : parseSs58 u lib (a ++ rest) = (none, a ++ rest) := by
  have ha : ∀ c ∈ a, isAsciiAlnum c = true := fun c hc => by simp [isAsciiAlnum, hd c hc]
  obtain ⟨e1, _⟩ := takeWhile_run ha hr
  exact ss58_declines (.inr (.inl (by rw [e1]; exact .inr (.inr hd))))

theorem hexText_not_base58 {bs : List UInt8} {t : Str} (h : Base58 t bs) : ∀ r, t ≠ '0' :: r := by
  rintro r rfl
  have := base58_mem h '0' (by simp)
  revert this; decide +kernel

theorem address_implements (hl : DecodesBase58 lib limit) :
    ImplementsOn u [parseHex, parseSs58 u lib] (fun v s => HexNotation v s ∨ AddressNotation lib limit v s) (AddressFollow u) (NoAddressNames lib) where
  hered := fun v w hv hw n c hs => hv n c (.child hw hs)
  sep := by
    intro s w c r hw hc
    have hd : ∀ x r', (w ++ c :: r) = x :: r' → Delim u x := by
      intro x r' e
      cases w with
      | nil => cases e; exact .inr hc
      | cons y w => cases e; exact .inl (hw _ (by simp))
    have h1 : HexFollow s (w ++ c :: r) := by
      cases e : w ++ c :: r with
      | nil => simp at e
      | cons x r' => exact (hex_implements (u := u)).sep s x r' (hd x r' e)
    refine ⟨h1.1, h1.2, ?_⟩
    rintro ⟨w', c', r', e, hw', hc'⟩
    have hcw : u.ws c = false := by rcases hc with rfl | rfl | rfl <;> rw [u.ws_ascii _ (by decide)] <;> decide
    have hcw' : u.ws c' = false := by rcases hc' with rfl | rfl <;> rw [u.ws_ascii _ (by decide)] <;> decide
    have key : ∀ (w w' : Str), Ws u w → Ws u w' → w ++ c :: r = w' ++ c' :: r' → c = c' := by
      intro w
      induction w with
      | nil =>
        intro w' _ hw' e
        cases w' with
        | nil => simp at e; exact e.1
        | cons y w' => simp at e; rw [e.1, hw' y (by simp)] at hcw; cases hcw
      | cons x w ih =>
        intro w' hw hw' e
        cases w' with
        | nil => simp at e; rw [← e.1, hw x (by simp)] at hcw'; cases hcw'
        | cons y w' =>
          simp only [List.cons_append, List.cons.injEq] at e
          exact ih w' (fun z hz => hw z (by simp [hz])) (fun z hz => hw' z (by simp [hz])) e.2
    have := key w w' hw hw' e
    subst this
    rcases hc with rfl | rfl | rfl <;> revert hc' <;> decide
  num := fun p s rest h hf => Implements.plain.num (u := u) p s rest h hf.1
  accept := by
    rintro v s rest (hx | ⟨pre, account, rfl, hx, hle, hres⟩) hf
    · obtain ⟨h1, h2⟩ := (hex_implements (u := u)).accept v s rest hx ⟨hf.1, hf.2.1⟩
      refine ⟨rest, ?_, ?_⟩
      · cases hr : parseHex (s ++ rest) with
        | mk x c' =>
          cases x with
          | none => simp [runCustom, hr] at h1
          | some r => simp only [runCustom, hr] at h1 ⊢; exact h1
      · rw [utf8Len_append, Nat.add_sub_cancel, utf8Len_ascii h2]; simp
    · have ha := addressText_alnum hx
      have hlen := addressText_length lib.hash_len hx
      have h0 : ¬ ['0', 'x'] <+: s ++ rest := by
        rintro ⟨r, hr⟩
        cases s with
        | nil => simp at hlen
        | cons c s =>
          simp at hr
          obtain ⟨rfl, _⟩ := hr
          exact hexText_not_base58 hx.2 s rfl
      have h1 : parseSs58 u lib (s ++ rest) = (some (.ok (.fromBytes account)), rest) :=
        (C24_success_iff _ _ _).2 ⟨s, account, rfl, by rintro rfl; simp at hlen, ha, hf.2.1, hres, hf.2.2, (addressText_iff hl).2 pre hx hle, rfl⟩
      refine ⟨rest, by simp only [runCustom, C21_decline _ h0, h1], ?_⟩
      rw [utf8Len_append, Nat.add_sub_cancel, utf8Len_ascii (fun c hc => size_ascii (alnum_lt (ha c hc)))]; simp
  decline := by
    intro v s rest hP h hf
    have h0 : ¬ ['0', 'x'] <+: s ++ rest := fun ⟨r, hr⟩ => blt_not_0x h hf.2.1 ⟨r, hr⟩
    refine ⟨s ++ rest, ?_⟩
    rcases C24_builtin_declined (lib := lib) v s rest h hf.2.1 with h1 | ⟨n, c, a, d, r, bs, rfl, _, h2, h3, h4, h5⟩
    · simp only [runCustom, C21_decline _ h0, h1]
    · exact absurd ⟨a, d, r, bs, h2, h3, h4, h5⟩ (hP n c (.self _))
  head := by
    rintro v s (hx | ⟨pre, account, rfl, hx, hle, hres⟩)
    · exact (hex_implements (u := u)).head v s hx
    · have ha := addressText_alnum hx
      have hlen := addressText_length lib.hash_len hx
      cases s with
      | nil => simp at hlen
      | cons c r =>
        have hc := ha c (by simp)
        refine ⟨c, r, rfl, ?_, ?_, ?_⟩
        · rw [u.ws_ascii _ (alnum_lt hc)]
          revert hc; simp [isAsciiAlnum, isAsciiWs, isDigit, isAsciiLetter]; omega
        · rintro rfl; revert hc; decide
        · rintro rfl; revert hc; decide

/-- C72: with `parse_hex` and `parse_ss58` installed, hex literals and addresses may be used at whatever depth in a text in place of the bytes. Names of variants that begin with an
address are the exception (see `C24_gap`). -/
theorem C72_nested (hl : DecodesBase58 lib limit) (v : Value Unit) (s rest : Str)
    (h : Text u (fun v s => HexNotation v s ∨ AddressNotation lib limit v s) v s) (hv : NoAddressNames lib v) (hf : AddressFollow u s rest) :
    parse u [parseHex, parseSs58 u lib] (s ++ rest) = some (.ok v, rest) :=
  parse_completeOn (address_implements hl) h hv hf

/-- The type is `u8`, or a wrapper of it. -/
theorem byte_okay {Id : Type} (reg : Reg Id) (cc : Bool) {e w : Id} (he : Innermost reg e w) (hw : reg.resolve w = some (.primitive .u8)) (b : UInt8) :
    Okay ((Value.u128 (.ofU8 b)).encode reg cc e) [b] := by
  refine ((C35_numbers reg cc () e w he [b]).1 (.ofU8 b)).2 (.uint hw .u8 ⟨rfl, ?_⟩)
  simp [leNum]

theorem bytes_okay {Id : Type} (reg : Reg Id) (cc : Bool) {e w : Id} (he : Innermost reg e w) (hw : reg.resolve w = some (.primitive .u8)) (bs r : List UInt8) :
    EncAll reg cc (List.replicate bs.length e) (bs.map (fun b => Value.u128 (.ofU8 b))) r ↔ r = bs := by
  induction bs generalizing r with
  | nil =>
    constructor
    · intro h; cases h; rfl
    · rintro rfl; exact .nil
  | cons b bs ih =>
    simp only [List.length_cons, List.replicate_succ, List.map_cons]
    constructor
    · intro h
      cases h with
      | cons h1 h2 =>
        rw [okay_unique h1 (byte_okay reg cc he hw b), (ih _).1 h2]; rfl
    · rintro rfl
      exact .cons (bs := [b]) (byte_okay reg cc he hw b) ((ih _).2 rfl)

/-- C72: what hex literals and addresses stand for encodes at arrays of `u8`, and at structs and tuples which have only that in them, to exactly the bytes; and if the number of bytes is
another one, then not at all. -/
theorem C72_encodes_array {Id : Type} (reg : Reg Id) (cc : Bool) (bs out : List UInt8) (t a e w : Id) (n : Nat) (ht : SameRepr reg t a)
    (ha : reg.resolve a = some (.array e n)) (he : Innermost reg e w) (hw : reg.resolve w = some (.primitive .u8)) (h1 : bs.length ≠ 1) (hn : n ≠ 1) :
    Okay ((Value.fromBytes bs).encode reg cc t) out ↔ n = bs.length ∧ out = bs := by
  unfold Value.fromBytes
  have := C31_unnamed reg cc (bs.map (fun b => Value.u128 (.ofU8 b))) () (by simpa using h1) t a ht out
  refine this.trans ?_
  rw [C33_unnamed reg cc _ () (by simpa using h1) a _ (.array ha hn)]
  simp only [List.length_map, List.length_replicate]
  constructor
  · rintro ⟨rfl, h⟩; exact ⟨rfl, (bytes_okay reg cc he hw bs out).1 h⟩
  · rintro ⟨rfl, rfl⟩; exact ⟨rfl, (bytes_okay reg cc he hw out out).2 rfl⟩

/-- C72: at `Vec<u8>` they encode to the compact length and the bytes. -/
theorem C72_encodes_vec {Id : Type} (reg : Reg Id) (cc : Bool) (bs out : List UInt8) (t a e w : Id) (ht : SameRepr reg t a)
    (ha : reg.resolve a = some (.sequence e)) (he : Innermost reg e w) (hw : reg.resolve w = some (.primitive .u8)) (h1 : bs.length ≠ 1) (hl : bs.length < 2 ^ 32) :
    Okay ((Value.fromBytes bs).encode reg cc t) out ↔ ∃ p, IsCompact bs.length p ∧ out = p ++ bs := by
  unfold Value.fromBytes
  have := C31_unnamed reg cc (bs.map (fun b => Value.u128 (.ofU8 b))) () (by simpa using h1) t a ht out
  refine this.trans ?_
  have e1 : (Composite.unnamed (bs.map (fun b => Value.u128 (.ofU8 b)))).vals = bs.map (fun b => Value.u128 (.ofU8 b)) := rfl
  rw [C33_sequence reg cc (.unnamed (bs.map (fun b => Value.u128 (.ofU8 b)))) () (by simpa [e1] using hl) a e ha, e1, List.length_map]
  constructor
  · rintro (⟨p, r, hp, hr, rfl⟩ | ⟨v, hv, _⟩)
    · exact ⟨p, hp, by rw [(bytes_okay reg cc he hw bs r).1 hr]⟩
    · exact absurd (by simpa using congrArg List.length hv) h1
  · rintro ⟨p, hp, rfl⟩
    exact .inl ⟨p, bs, hp, (bytes_okay reg cc he hw bs bs).2 rfl, rfl⟩

/-! A library that meets the assumptions, with a hash of which the first bytes depend on the data. -/

/-- Base 58 as it should be, without limit. -/
noncomputable def lib58 : Ss58Lib where
  fromBase58 := decode58
  blake2b512 l := (l.drop 7 ++ List.replicate 64 1).take 64
  base58_len := fun s bs h => base58_length ((decode58_iff s bs).1 h)
  hash_len := by intro l; simp

theorem lib58_decodes (n : Nat) : DecodesBase58 lib58 n :=
  ⟨fun a bs h => (decode58_iff a bs).1 h, fun a bs h _ => (decode58_iff a bs).2 h⟩

/-- `MvAtmXXE` is the address of the account `[1, 2, 3]` on the network 42 (with this hash). -/
theorem lib58_address : AddressText lib58.blake2b512 [42] [1, 2, 3] "MvAtmXXE".toList :=
  ⟨.inl ⟨42, rfl, by decide⟩, [20, 53, 9, 51, 44, 30, 30, 13], by decide +kernel, by decide +kernel, by decide +kernel⟩

example : parseSs58 Uni.ascii lib58 "MvAtmXXE)".toList = (some (.ok (.fromBytes [1, 2, 3])), [')']) := by
  refine C72_reads (lib58_decodes 35) [42] [1, 2, 3] "MvAtmXXE".toList [')'] lib58_address (by decide) (by decide) ⟨'M', by decide, by decide⟩ rfl ?_
  intro h
  have := (opens_iff (u := Uni.ascii) _).2 h
  revert this; decide

example (cc : Bool) : Okay ((Value.fromBytes [1, 2, 3]).encode exReg cc 8) [1, 2, 3] :=
  (C72_encodes_array exReg cc [1, 2, 3] _ 8 8 0 0 3 (.refl 8) rfl ⟨.refl 0, by intro w h; cases h <;> (next h => exact absurd h (by simp [exReg, exResolve]))⟩ rfl (by decide) (by decide)).2 ⟨rfl, rfl⟩

/-- `(0x0a0b, MvAtmXXE )` is read as two lists of bytes. -/
example : parse Uni.ascii [parseHex, parseSs58 Uni.ascii lib58] "(0x0a0b, MvAtmXXE )".toList =
    some (.ok (.unnamedComposite [.fromBytes [10, 11], .fromBytes [1, 2, 3]]), []) := by
  refine C72_nested (lib58_decodes 35) _ "(0x0a0b, MvAtmXXE )".toList [] ?_ ?_ ⟨fun _ => trivial, trivial, ?_⟩
  · refine .builtin (.composite (.unnamed (w1 := []) (w2 := [' ']) (s := "0x0a0b, MvAtmXXE".toList) (by intro c h; cases h) (by intro c h; revert h c; decide) ?_))
    refine .valCons (s := "0x0a0b".toList) (w3 := []) (w4 := [' ']) (t := "MvAtmXXE".toList) (.custom (.inl ⟨[10, 11], "0a0b".toList, .mk rfl, rfl, ?_⟩))
      (by intro c h; cases h) (by intro c h; revert h c; decide) (.val1 (.custom (.inr ⟨[42], [1, 2, 3], rfl, lib58_address, by decide, ?_⟩)))
    · exact .cons (.inr (by decide +kernel)) (.inr (by decide +kernel)) (.cons (.inr (by decide +kernel)) (.inr (by decide +kernel)) .nil)
    · rintro (h | h | h) <;> revert h <;> decide
  · intro n c h
    exfalso
    have key : ∀ bs : List UInt8, ¬ Sub (Value.fromBytes bs) (.variant n c) := by
      intro bs h
      cases h with
      | child hu h =>
        have hu : _ ∈ bs.map (fun b => Value.u128 (.ofU8 b)) := hu
        obtain ⟨b, _, rfl⟩ := List.mem_map.1 hu
        cases h with
        | child hu _ => simp [Value.u128, Value.children] at hu
    cases h with
    | child hu h =>
      have hu : _ ∈ [Value.fromBytes [10, 11], Value.fromBytes [1, 2, 3]] := hu
      rcases List.mem_cons.1 hu with rfl | hu
      · exact key _ h
      · rcases List.mem_singleton.1 hu with rfl
        exact key _ h
  · rintro ⟨w, c, r, h, _⟩; simp at h

end SV
