import Verif.Proofs.Decode
import Verif.Spec.DecFault
/-
The steps of the decoders meet the specification of `Spec/DecFault`.
-/
namespace SV

variable {Id Γ : Type}

theorem compactDec_none {bits : Nat} (hb : 6 ≤ bits) {bs : List UInt8} : compactDec bits bs = none ↔ NoCompact (2 ^ bits) bs := by
  constructor
  · intro h n p r e hn hp
    subst e
    rw [compactDec_complete hp hn] at h
    cases h
  · intro h
    cases hc : compactDec bits bs with
    | none => rfl
    | some x =>
      obtain ⟨n, r⟩ := x
      obtain ⟨p, e, hp, hn⟩ := compactDec_sound hb hc
      exact (h n p r e hn hp).elim

theorem takeN_none {k : Nat} {bs : List UInt8} : takeN k bs = none ↔ bs.length < k := by
  unfold takeN
  split <;> simp_all

theorem decWords_none {o : BitOrder} {k n : Nat} (hk : 0 < k) {bs : List UInt8} : decWords o k n bs = none ↔ bs.length < n * k := by
  constructor
  · intro h
    apply Classical.byContradiction
    intro hl
    have := decWords_of_length o hk n (bs.take (n * k)) (bs.drop (n * k)) (by rw [List.length_take]; omega)
    rw [List.take_append_drop, h] at this
    cases this
  · intro h
    cases hd : decWords o k n bs with
    | none => rfl
    | some x =>
      obtain ⟨l, r⟩ := x
      obtain ⟨q, rfl, hq⟩ := decWords_sound o n bs hd
      rw [List.length_append] at h
      omega

theorem bits_too_short {s : BitStore} {n : Nat} {r : List UInt8} :
    (∀ w, n ≤ w * (8 * wordBytes s) → r.length < w * wordBytes s) ↔ r.length < wordCount (8 * s.bytes) n * s.bytes := by
  have hk := s.bytes_pos
  rw [wordBytes_eq]
  obtain ⟨h1, h2⟩ := wordCount_bounds (w := 8 * s.bytes) (n := n) (by omega)
  constructor
  · intro h; exact h _ h1
  · intro h w hw
    have hle : wordCount (8 * s.bytes) n ≤ w := by
      apply Classical.byContradiction
      intro hc
      have : (w + 1) * (8 * s.bytes) ≤ wordCount (8 * s.bytes) n * (8 * s.bytes) := Nat.mul_le_mul_right _ (by omega)
      rw [Nat.succ_mul] at this
      omega
    have := Nat.mul_le_mul_right s.bytes hle
    omega

theorem bitsDec_none {s : BitStore} {o : BitOrder} {bs : List UInt8} : bitsDec s o bs = none ↔
    NoCompact (2 ^ 32) bs ∨ ∃ n p r, bs = p ++ r ∧ IsCompact n p ∧ n < 2 ^ 32 ∧ ∀ w, n ≤ w * (8 * wordBytes s) → r.length < w * wordBytes s := by
  have hk := s.bytes_pos
  unfold bitsDec
  constructor
  · intro h
    split at h
    · next hc => exact .inl ((compactDec_none (by decide)).1 hc)
    · next n r hc =>
      obtain ⟨p, e, hp, hn⟩ := compactDec_sound (by decide) hc
      split at h
      · next hd => exact .inr ⟨n, p, r, e, hp, hn, bits_too_short.2 ((decWords_none hk).1 hd)⟩
      · cases h
  · rintro (h | ⟨n, p, r, rfl, hp, hn, h⟩)
    · rw [(compactDec_none (by decide)).2 h]
    · rw [compactDec_complete hp hn]
      simp only
      rw [(decWords_none hk).2 (bits_too_short.1 h)]

theorem readUint_error {k : Nat} (hk : k ≤ 16) {bs : List UInt8} {e : DErr} : readUint k bs = .error e ↔ e = .codec ∧ bs.length < k := by
  unfold readUint
  cases h : takeN k bs with
  | none => simp [takeN_none.1 h, eq_comm]
  | some x =>
    obtain ⟨p, r⟩ := x
    obtain ⟨rfl, hp⟩ := takeN_eq.1 h
    have hlt : leVal p < 2 ^ 128 := by
      have h1 := leVal_lt p
      rw [hp] at h1
      have h2 : 256 ^ k ≤ 256 ^ 16 := Nat.pow_le_pow_right (by decide) hk
      have h3 : (256 : Nat) ^ 16 = 2 ^ 128 := by decide
      omega
    have : U128.ofNat? (leVal p) = some ⟨leVal p, hlt⟩ := U128.ofNat?_eq_some.2 rfl
    simp only [this]
    simp only [reduceCtorEq, List.length_append, false_iff, not_and]
    omega

theorem readInt_error {k : Nat} (hk : k ≤ 16) {bs : List UInt8} {e : DErr} : readInt k bs = .error e ↔ e = .codec ∧ bs.length < k := by
  unfold readInt
  cases h : takeN k bs with
  | none => simp [takeN_none.1 h, eq_comm]
  | some x =>
    obtain ⟨p, r⟩ := x
    obtain ⟨rfl, hp⟩ := takeN_eq.1 h
    obtain ⟨_, h1, h2, _⟩ := isLeInt_leValInt p
    rw [hp] at h1 h2
    have h3 : 256 ^ k ≤ 2 ^ 128 := by
      have h2 : 256 ^ k ≤ 256 ^ 16 := Nat.pow_le_pow_right (by decide) hk
      have h3 : (256 : Nat) ^ 16 = 2 ^ 128 := by decide
      omega
    have : I128.ofInt? (leValInt p) = some ⟨leValInt p, by omega, by omega⟩ := I128.ofInt?_eq_some.2 rfl
    simp only [this]
    simp only [reduceCtorEq, List.length_append, false_iff, not_and]
    omega

theorem read32_error {mk : Bytes32 → Leaf} {bs : List UInt8} {e : DErr} : read32 mk bs = .error e ↔ e = .codec ∧ bs.length < 32 := by
  unfold read32
  split
  · simp only [reduceCtorEq, false_iff, not_and]; omega
  · simp only [Except.error.injEq, eq_comm]
    constructor
    · rintro rfl; exact ⟨rfl, by omega⟩
    · rintro ⟨rfl, _⟩; rfl

theorem readCompact_error {k : Nat} (hk : k ≤ 16) (h1 : 1 ≤ k) {bs : List UInt8} {e : DErr} : readCompact (8 * k) bs = .error e ↔ e = .codec ∧ NoCompact (256 ^ k) bs := by
  have hpow : (256 : Nat) ^ k = 2 ^ (8 * k) := by rw [Nat.pow_mul]
  rw [hpow]
  unfold readCompact
  cases h : compactDec (8 * k) bs with
  | none =>
    have := (compactDec_none (by omega)).1 h
    simp [this, eq_comm]
  | some x =>
    obtain ⟨n, r⟩ := x
    obtain ⟨p, e', hp, hn⟩ := compactDec_sound (by omega) h
    have hlt : n < 2 ^ 128 := by
      have : 2 ^ (8 * k) ≤ 2 ^ 128 := Nat.pow_le_pow_right (by decide) (by omega)
      omega
    have : U128.ofNat? n = some ⟨n, hlt⟩ := U128.ofNat?_eq_some.2 rfl
    simp only [this]
    simp only [reduceCtorEq, false_iff, not_and]
    exact fun _ hno => hno n p r e' hn hp

theorem isValidChar_iff {n : Nat} : n.isValidChar ↔ ∃ c : Char, c.toNat = n := by
  constructor
  · intro h
    refine ⟨Char.ofNatAux n h, ?_⟩
    simp [Char.ofNatAux, Char.toNat]
  · rintro ⟨c, rfl⟩
    exact c.valid

theorem readPrim_error {reg : Reg Id} {t : Id} {p : Prim} {bs : List UInt8} {e : DErr} (ht : reg.resolve t = some (.primitive p)) (h : readPrim p bs = .error e) :
    NodeFault reg false t bs e := by
  have hu : ∀ k, UintType p k → NodeFault reg false t bs e := by
    intro k hk
    obtain ⟨h1, _, h2, _⟩ := uint_cases hk bs
    rw [h1] at h
    obtain ⟨rfl, hl⟩ := (readUint_error h2).1 h
    exact .intShort ht (.inl hk) hl
  have hi : ∀ k, IntType p k → NodeFault reg false t bs e := by
    intro k hk
    obtain ⟨h1, h2⟩ := int_cases hk bs
    rw [h1] at h
    obtain ⟨rfl, hl⟩ := (readInt_error h2).1 h
    exact .intShort ht (.inr hk) hl
  cases p with
  | bool =>
    simp only [readPrim] at h
    split at h
    · cases h; exact .bool ht (by simp)
    · next b r =>
      split at h
      · cases h
      · split at h
        · cases h
        · next h0 h1 => cases h; exact .bool ht (fun r' => ⟨fun e => h0 (by cases e; rfl), fun e => h1 (by cases e; rfl)⟩)
  | char =>
    simp only [readPrim] at h
    split at h
    · next hn => cases h; exact .charShort ht (takeN_none.1 hn)
    · next q r hq =>
      obtain ⟨rfl, hl⟩ := takeN_eq.1 hq
      split at h
      · cases h
      · next hv =>
        cases h
        refine .char ht hl (fun c hc => hv (isValidChar_iff.2 ⟨c, ?_⟩))
        rw [← hc.2, leNum_eq]
  | str =>
    simp only [readPrim] at h
    split at h
    · next hn => cases h; exact .strLen ht ((compactDec_none (by decide)).1 hn)
    · next n r1 hn =>
      obtain ⟨q, rfl, hq, hlt⟩ := compactDec_sound (by decide) hn
      split at h
      · next h2 => cases h; exact .strShort ht hq hlt (takeN_none.1 h2)
      · next p2 r2 h2 =>
        obtain ⟨rfl, hl⟩ := takeN_eq.1 h2
        split at h
        · next hs =>
          cases h
          rw [← List.append_assoc]
          refine .str ht (by rw [hl]; exact hq) (by rw [hl]; exact hlt) (fun s hs' => ?_)
          rw [fromUtf8_iff.2 hs'.symm] at hs
          cases hs
        · cases h
  | u8 => exact hu _ .u8
  | u16 => exact hu _ .u16
  | u32 => exact hu _ .u32
  | u64 => exact hu _ .u64
  | u128 => exact hu _ .u128
  | i8 => exact hi _ .i8
  | i16 => exact hi _ .i16
  | i32 => exact hi _ .i32
  | i64 => exact hi _ .i64
  | i128 => exact hi _ .i128
  | u256 => obtain ⟨rfl, hl⟩ := read32_error.1 h; exact .bigShort ht (.inl rfl) hl
  | i256 => obtain ⟨rfl, hl⟩ := read32_error.1 h; exact .bigShort ht (.inr rfl) hl

theorem visitCompact_error {reg : Reg Id} {t : Id} {bs : List UInt8} {e : DErr} (h : visitCompact reg t bs = .error e) : NodeFault reg true t bs e := by
  unfold visitCompact at h
  split at h
  · next ht => cases h; exact .unknown ht
  · next p ht =>
    have hu : ∀ k, UintType p k → NodeFault reg true t bs e := by
      intro k hk
      obtain ⟨_, h1, h2, h3⟩ := uint_cases hk bs
      rw [h1] at h
      simp only [leafStep] at h
      split at h
      · next e' he =>
        cases h
        obtain ⟨rfl, hl⟩ := (readCompact_error h2 h3).1 he
        exact .compactUint ht hk hl
      · cases h
    cases p with
    | u8 => exact hu _ .u8
    | u16 => exact hu _ .u16
    | u32 => exact hu _ .u32
    | u64 => exact hu _ .u64
    | u128 => exact hu _ .u128
    | _ => cases h; exact .notCompact ht (by intro hc; cases hc with | uint hk => cases hk)
  · next fs ht =>
    split at h
    · cases h
    · next hl => cases h; exact .notCompact ht (by intro hc; cases hc; exact hl rfl)
  · next ts ht =>
    split at h
    · cases h
    · next hl => cases h; exact .notCompact ht (by intro hc; cases hc; exact hl rfl)
  · next d h1 h2 h3 ht =>
    cases h
    exact .notCompact ht (by intro hc; cases hc with
      | uint hk => exact h1 _ rfl
      | struct => exact h2 _ rfl
      | tuple => exact h3 _ rfl)

theorem visitPlain_error {reg : Reg Id} {t : Id} {bs : List UInt8} {e : DErr} (hc : ∀ u, reg.resolve t ≠ some (.compact u)) (h : visitPlain reg t bs = .error e) :
    NodeFault reg false t bs e := by
  unfold visitPlain at h
  split at h
  · next ht => cases h; exact .unknown ht
  · next p ht =>
    simp only [leafStep] at h
    split at h
    · next e' he => cases h; exact readPrim_error ht he
    · cases h
  · cases h
  · cases h
  · cases h
  · next u ht =>
    split at h
    · next hn => cases h; exact .seqLen ht ((compactDec_none (by decide)).1 hn)
    · cases h
  · next ds ht =>
    split at h
    · cases h; exact .variantShort ht
    · next i r =>
      split at h
      · next hf =>
        cases h
        refine .variant ht (fun d hd he => ?_)
        have := List.find?_eq_none.1 hf d hd
        simp [he] at this
      · cases h
  · next s o ht =>
    split at h
    · next hb =>
      cases h
      rcases bitsDec_none.1 hb with hb | ⟨n, p, r, rfl, hp, hn, hs⟩
      · exact .bitsLen ht hb
      · exact .bitsShort ht hp hn hs
    · cases h
  · next u ht => exact (hc u ht).elim

theorem visit_nodeFault {reg : Reg Id} {c : Bool} {t : Id} {bs : List UInt8} {e : DErr} (h : visit reg c t bs = .error e) : NodeFault reg c t bs e := by
  have ht' : ∀ t, visit reg true t bs = .error e → NodeFault reg true t bs e := by
    intro t h
    unfold visit at h
    rw [if_pos rfl] at h
    split at h
    · next e' he => cases h; exact visitCompact_error he
    · cases h
  cases c with
  | true => exact ht' t h
  | false =>
    by_cases hc : ∃ u, reg.resolve t = some (.compact u)
    · obtain ⟨u, hu⟩ := hc
      rw [visit_compact hu] at h
      exact .compact hu (ht' u h)
    · unfold visit at h
      rw [if_neg (by decide)] at h
      split at h
      · next u hu => exact (hc ⟨u, hu⟩).elim
      · split at h
        · next e' he => cases h; exact visitPlain_error (fun u hu => hc ⟨u, hu⟩) he
        · cases h

theorem visit_true_error {reg : Reg Id} {t : Id} {bs : List UInt8} {e : DErr} (h : visitCompact reg t bs = .error e) : visit reg true t bs = .error e := by
  simp [visit, h]

theorem visit_false_error {reg : Reg Id} {t : Id} {d : TypeDef Id} {bs : List UInt8} {e : DErr} (ht : reg.resolve t = some d) (hd : ∀ u, d ≠ .compact u)
    (h : visitPlain reg t bs = .error e) : visit reg false t bs = .error e := by
  unfold visit
  rw [if_neg (by decide)]
  split
  · rename_i u hu; rw [ht] at hu; cases hu; exact (hd u rfl).elim
  · rw [h]

theorem visit_prim_error {reg : Reg Id} {t : Id} {p : Prim} {bs : List UInt8} {e : DErr} (ht : reg.resolve t = some (.primitive p))
    (h : readPrim p bs = .error e) : visit reg false t bs = .error e := by
  apply visit_false_error ht (by simp)
  unfold visitPlain
  rw [ht]
  simp [leafStep, h]

theorem visit_of_nodeFault {reg : Reg Id} {c : Bool} {t : Id} {bs : List UInt8} {e : DErr} (h : NodeFault reg c t bs e) : visit reg c t bs = .error e := by
  induction h with
  | @unknown c t bs ht =>
    cases c with
    | true => apply visit_true_error; unfold visitCompact; rw [ht]
    | false => unfold visit; simp [ht, visitPlain]
  | compact ht _ ih => rw [visit_compact ht]; exact ih
  | @notCompact t d bs ht hn =>
    apply visit_true_error
    unfold visitCompact
    rw [ht]
    cases d with
    | primitive p =>
      cases p with
      | u8 => exact (hn (.uint .u8)).elim
      | u16 => exact (hn (.uint .u16)).elim
      | u32 => exact (hn (.uint .u32)).elim
      | u64 => exact (hn (.uint .u64)).elim
      | u128 => exact (hn (.uint .u128)).elim
      | _ => rfl
    | composite fs =>
      simp only
      rw [if_neg]
      intro hl
      match fs, hl with
      | [f], _ => exact hn .struct
    | tuple ts =>
      simp only
      rw [if_neg]
      intro hl
      match ts, hl with
      | [f], _ => exact hn .tuple
    | _ => rfl
  | @compactUint t p k bs ht hp h =>
    apply visit_true_error
    unfold visitCompact
    rw [ht]
    obtain ⟨_, h1, h2, h3⟩ := uint_cases hp bs
    simp only [leafStep, h1, (readCompact_error h2 h3).2 ⟨rfl, h⟩]
  | @bool t bs ht h =>
    apply visit_prim_error ht
    match bs, h with
    | [], _ => rfl
    | b :: r, h =>
      have h0 : b ≠ 0 := fun e => (h r).1 (by rw [e])
      have h1 : b ≠ 1 := fun e => (h r).2 (by rw [e])
      simp [readPrim, h0, h1]
  | charShort ht h => apply visit_prim_error ht; simp [readPrim, takeN_none.2 h]
  | @char t p r ht len h =>
    apply visit_prim_error ht
    simp only [readPrim, takeN_append len]
    rw [dif_neg]
    intro hv
    obtain ⟨c, hc⟩ := isValidChar_iff.1 hv
    exact h c ⟨len, by rw [leNum_eq, hc]⟩
  | strLen ht h => apply visit_prim_error ht; simp [readPrim, (compactDec_none (bits := 64) (by decide)).2 h]
  | strShort ht hp hn h => apply visit_prim_error ht; simp [readPrim, compactDec_complete hp hn, takeN_none.2 h]
  | @str t p q r ht hp hn h =>
    apply visit_prim_error ht
    have : fromUtf8 q = none := by
      cases hq : fromUtf8 q with
      | none => rfl
      | some s => exact (h s (fromUtf8_iff.1 hq).symm).elim
    simp [readPrim, List.append_assoc, compactDec_complete hp hn, takeN_append, this]
  | @intShort t p k bs ht hp h =>
    apply visit_prim_error ht
    rcases hp with hp | hp
    · obtain ⟨h1, _, h2, _⟩ := uint_cases hp bs
      rw [h1]; exact (readUint_error h2).2 ⟨rfl, h⟩
    · obtain ⟨h1, h2⟩ := int_cases hp bs
      rw [h1]; exact (readInt_error h2).2 ⟨rfl, h⟩
  | bigShort ht hp h =>
    apply visit_prim_error ht
    rcases hp with rfl | rfl <;> exact read32_error.2 ⟨rfl, h⟩
  | seqLen ht h =>
    apply visit_false_error ht (by simp)
    unfold visitPlain
    rw [ht]
    simp only [(compactDec_none (bits := 64) (by decide)).2 h]
  | variantShort ht =>
    apply visit_false_error ht (by simp)
    unfold visitPlain
    rw [ht]
  | @variant t ds i r ht h =>
    apply visit_false_error ht (by simp)
    unfold visitPlain
    rw [ht]
    have : ds.find? (fun v => v.index == i) = none := by
      rw [List.find?_eq_none]
      intro d hd
      simp [h d hd]
    simp only [this]
  | bitsLen ht h =>
    apply visit_false_error ht (by simp)
    unfold visitPlain
    rw [ht]
    simp only [bitsDec_none.2 (.inl h)]
  | bitsShort ht hp hn h =>
    apply visit_false_error ht (by simp)
    unfold visitPlain
    rw [ht]
    simp only [bitsDec_none.2 (.inr ⟨_, _, _, rfl, hp, hn, h⟩)]

theorem visit_error_iff {reg : Reg Id} {c : Bool} {t : Id} {bs : List UInt8} {e : DErr} : visit reg c t bs = .error e ↔ NodeFault reg c t bs e :=
  ⟨visit_nodeFault, visit_of_nodeFault⟩

/-! ### The parts of a node -/

/-- The parts of a step: the types and names of the parts, the bytes they are read from, and the name of the variant. -/
def DStep.split : DStep Id → Option (Option Str × List (Field Id) × List UInt8)
  | .leaf _ _ => none
  | .items ts r => some (none, ts.map (fun t => ⟨none, t⟩), r)
  | .composite fs r => some (none, fs, r)
  | .variant n fs r => some (some n, fs, r)

theorem visit_parts_complete {reg : Reg Id} {c : Bool} {t : Id} {bs : List UInt8} {ty c' name fs r} (h : NodeParts reg c t bs ty c' name fs r) :
    ∃ s, visit reg c t bs = .ok ⟨ty, c', s⟩ ∧ s.split = some (name, fs, r) := by
  induction h with
  | compact ht _ ih => rw [visit_compact ht]; exact ih
  | sequence ht hp hn => exact ⟨_, visit_sequence ht hp hn, by simp [DStep.split]⟩
  | array ht => exact ⟨_, visit_array ht, by simp [DStep.split]⟩
  | tuple ht hc => exact ⟨_, visit_tuple ht hc, rfl⟩
  | composite ht hc => exact ⟨_, visit_composite ht hc, rfl⟩
  | @variant t pre d post r ht first =>
    refine ⟨_, visit_variant ht ?_, rfl⟩
    rw [List.find?_append, List.find?_eq_none.2 (fun e he => by simp [first e he])]
    simp

theorem visit_parts_sound {reg : Reg Id} {c : Bool} {t : Id} {bs : List UInt8} {ty c' s name fs r} (h : visit reg c t bs = .ok ⟨ty, c', s⟩)
    (hs : s.split = some (name, fs, r)) : NodeParts reg c t bs ty c' name fs r := by
  have hcomp : ∀ t, visit reg true t bs = .ok ⟨ty, c', s⟩ → NodeParts reg true t bs ty c' name fs r := by
    intro t h
    unfold visit at h
    rw [if_pos rfl] at h
    split at h
    · cases h
    · next s' h' =>
      cases h
      unfold visitCompact at h'
      split at h'
      · cases h'
      · simp only [leafStep] at h'
        split at h'
        · cases h'
        · cases h'; cases hs
      · next fs' ht =>
        split at h'
        · next hl => cases h'; cases hs; exact .composite ht (fun _ => hl)
        · cases h'
      · next ts ht =>
        split at h'
        · next hl => cases h'; cases hs; exact .tuple ht (fun _ => hl)
        · cases h'
      · cases h'
  cases c with
  | true => exact hcomp t h
  | false =>
    by_cases hc : ∃ u, reg.resolve t = some (.compact u)
    · obtain ⟨u, hu⟩ := hc
      rw [visit_compact hu] at h
      exact .compact hu (hcomp u h)
    · unfold visit at h
      rw [if_neg (by decide)] at h
      split at h
      · next u hu => exact (hc ⟨u, hu⟩).elim
      · split at h
        · cases h
        · next s' h' =>
          cases h
          unfold visitPlain at h'
          split at h'
          · cases h'
          · simp only [leafStep] at h'
            split at h'
            · cases h'
            · cases h'; cases hs
          · next fs' ht => cases h'; cases hs; exact .composite ht (by nofun)
          · next ts ht => cases h'; cases hs; exact .tuple ht (by nofun)
          · next u n ht =>
            cases h'
            simp only [DStep.split, List.map_replicate] at hs
            cases hs
            exact .array ht
          · next u ht =>
            split at h'
            · cases h'
            · next n r' hn =>
              cases h'
              obtain ⟨p, rfl, hp, hlt⟩ := compactDec_sound (by decide) hn
              simp only [DStep.split, List.map_replicate] at hs
              cases hs
              exact .sequence ht hp hlt
          · next ds ht =>
            split at h'
            · cases h'
            · next i r' =>
              split at h'
              · cases h'
              · next d hd =>
                cases h'
                cases hs
                obtain ⟨hi, pre, post, rfl, hpre⟩ := List.find?_eq_some_iff_append.1 hd
                have hi : d.index = i := by simpa using hi
                subst hi
                exact .variant ht (fun e he => by simpa using hpre e he)
          · split at h'
            · cases h'
            · cases h'; cases hs
          · cases h'

theorem visit_parts_iff {reg : Reg Id} {c : Bool} {t : Id} {bs : List UInt8} {ty c' name fs r} : NodeParts reg c t bs ty c' name fs r ↔
    ∃ s, visit reg c t bs = .ok ⟨ty, c', s⟩ ∧ s.split = some (name, fs, r) :=
  ⟨visit_parts_complete, fun ⟨_, h, hs⟩ => visit_parts_sound h hs⟩

end SV
