import Verif.Spec.Codec
import Verif.Proofs.Hex
import Mathlib.Tactic.ByContra
/-
Lemmas on the wire primitives: the model's encoders and decoders against the specification.
-/
namespace SV

@[simp] theorem leBytes_length (k n : Nat) : (leBytes k n).length = k := by
  induction k generalizing n with
  | zero => rfl
  | succ k ih => simp [leBytes, ih]

theorem leVal_leBytes (k n : Nat) : leVal (leBytes k n) = n % 256 ^ k := by
  induction k generalizing n with
  | zero => simp [leBytes, leVal, Nat.mod_one]
  | succ k ih =>
    have e : (UInt8.ofNat n).toNat = n % 256 := by simp
    simp only [leBytes, leVal, ih, e]
    rw [Nat.pow_succ 256 k, Nat.mul_comm (256 ^ k), Nat.mod_mul]

theorem leVal_lt (bs : List UInt8) : leVal bs < 256 ^ bs.length := by
  induction bs with
  | nil => simp [leVal]
  | cons b bs ih =>
    have := b.toNat_lt
    simp only [leVal, List.length_cons, Nat.pow_succ]
    omega

theorem leBytes_leVal (bs : List UInt8) : leBytes bs.length (leVal bs) = bs := by
  induction bs with
  | nil => rfl
  | cons b bs ih =>
    have := b.toNat_lt
    simp only [leVal, List.length_cons, leBytes]
    rw [show (b.toNat + 256 * leVal bs) / 256 = leVal bs by omega, ih]
    congr 1
    apply UInt8.toNat_inj.1
    simp

theorem leVal_append (a b : List UInt8) : leVal (a ++ b) = leVal a + 256 ^ a.length * leVal b := by
  induction a with
  | nil => simp [leVal]
  | cons x a ih => simp only [List.cons_append, leVal, ih, List.length_cons, Nat.pow_succ, Nat.mul_add]; rw [Nat.mul_comm (256 ^ a.length) 256, Nat.mul_assoc]; omega

theorem leNum_eq (bs : List UInt8) : leNum bs = leVal bs := by
  have h : ∀ (bs : List UInt8) k, (bs.mapIdx (fun i b => b.toNat * 256 ^ (i + k))).sum = 256 ^ k * leVal bs := by
    intro bs
    induction bs with
    | nil => intro k; simp [leVal]
    | cons b bs ih =>
      intro k
      have := ih (k + 1)
      simp only [List.mapIdx_cons, List.sum_cons, leVal, Nat.zero_add]
      rw [show (fun i (b : UInt8) => b.toNat * 256 ^ (i + 1 + k)) = (fun i b => b.toNat * 256 ^ (i + (k + 1))) from by
        funext i b; rw [Nat.add_assoc, Nat.add_comm 1 k], this, Nat.mul_add, Nat.pow_succ, Nat.mul_assoc, Nat.mul_comm b.toNat]
  have := h bs 0
  simpa [leNum] using this

theorem wordBytes_eq (s : BitStore) : wordBytes s = s.bytes := by cases s <;> rfl

theorem isLe_iff {k n : Nat} {bs : List UInt8} : IsLe k n bs ↔ n < 256 ^ k ∧ bs = leBytes k n := by
  constructor
  · rintro ⟨h1, h2⟩
    rw [leNum_eq] at h2
    subst h1 h2
    exact ⟨leVal_lt _, (leBytes_leVal _).symm⟩
  · rintro ⟨h1, rfl⟩
    exact ⟨leBytes_length _ _, by rw [leNum_eq, leVal_leBytes, Nat.mod_eq_of_lt h1]⟩

theorem isLe_unique {k n : Nat} {a b : List UInt8} (h : IsLe k n a) (h' : IsLe k n b) : a = b := by
  rw [(isLe_iff.1 h).2, (isLe_iff.1 h').2]

theorem isLe_leBytes {k n : Nat} (h : n < 256 ^ k) : IsLe k n (leBytes k n) := isLe_iff.2 ⟨h, rfl⟩

theorem isLeInt_leValInt (bs : List UInt8) : IsLeInt bs.length (leValInt bs) bs := by
  have h := leVal_lt bs
  refine ⟨rfl, ?_⟩
  rw [leNum_eq]
  unfold leValInt
  generalize 256 ^ bs.length = m at *
  split <;> refine ⟨by omega, by omega, ?_⟩ <;> split <;> omega

theorem isLeInt_iff {k : Nat} {n : Int} {bs : List UInt8} : IsLeInt k n bs ↔ bs.length = k ∧ leValInt bs = n := by
  constructor
  · rintro ⟨rfl, h1, h2, h3⟩
    refine ⟨rfl, ?_⟩
    have h := leVal_lt bs
    rw [leNum_eq] at h3
    unfold leValInt
    generalize 256 ^ bs.length = m at *
    split at h3 <;> split <;> omega
  · rintro ⟨rfl, rfl⟩
    exact isLeInt_leValInt bs

theorem isLeInt_leBytesInt {k : Nat} {n : Int} (h1 : -(256 ^ k : Nat) ≤ 2 * n) (h2 : 2 * n < (256 ^ k : Nat)) :
    IsLeInt k n (leBytesInt k n) := by
  refine ⟨by simp [leBytesInt], h1, h2, ?_⟩
  have hp : 0 < 256 ^ k := Nat.pow_pos (by decide)
  unfold leBytesInt
  rw [leNum_eq, leVal_leBytes]
  generalize 256 ^ k = m at *
  have hm : n % (m : Int) = if 0 ≤ n then n else n + m := by
    split
    · exact Int.emod_eq_of_lt (by omega) (by omega)
    · rw [← Int.add_emod_right, Int.emod_eq_of_lt (by omega) (by omega)]
  rw [hm]
  split
  · rw [Nat.mod_eq_of_lt (by omega)]; omega
  · rw [Nat.mod_eq_of_lt (by omega)]; omega

theorem isLeInt_unique {k : Nat} {n : Int} {a b : List UInt8} (h : IsLeInt k n a) (h' : IsLeInt k n b) : a = b := by
  have : leVal a = leVal b := by
    have := h.2.2.2; have := h'.2.2.2; rw [leNum_eq] at *; omega
  have ha := leBytes_leVal a
  have hb := leBytes_leVal b
  rw [h.1] at ha; rw [h'.1] at hb
  rw [← ha, ← hb, this]

theorem takeN_eq {k : Nat} {bs p r : List UInt8} : takeN k bs = some (p, r) ↔ bs = p ++ r ∧ p.length = k := by
  unfold takeN
  split
  · rename_i h
    simp only [reduceCtorEq, false_iff, not_and]
    rintro rfl h'
    simp at h; omega
  · rename_i h
    constructor
    · intro h'; cases h'
      simp; omega
    · rintro ⟨rfl, rfl⟩; simp

theorem takeN_append {p r : List UInt8} {k : Nat} (h : p.length = k) : takeN k (p ++ r) = some (p, r) := takeN_eq.2 ⟨rfl, h⟩

/-! ### Compact -/

theorem isCompact_ne_nil {n : Nat} {p : List UInt8} (h : IsCompact n p) : p ≠ [] := by
  cases h with
  | one _ h => intro e; subst e; cases h.1
  | two _ _ h => intro e; subst e; cases h.1
  | four _ _ h => intro e; subst e; cases h.1
  | big => simp

theorem compactDec_complete {n bits : Nat} {p : List UInt8} (h : IsCompact n p) (hn : n < 2 ^ bits) (r : List UInt8) :
    compactDec bits (p ++ r) = some (n, r) := by
  cases h with
  | one h1 h =>
    obtain ⟨hl, hv⟩ := h
    match p, hl with
    | [b], _ =>
      simp only [leNum_eq, leVal] at hv
      simp only [List.cons_append, List.nil_append, compactDec]
      rw [if_pos (by omega)]
      congr 2; omega
  | two h1 h2 h =>
    obtain ⟨hl, hv⟩ := h
    match p, hl with
    | [b, c], _ =>
      simp only [leNum_eq, leVal] at hv
      simp only [List.cons_append, List.nil_append, compactDec]
      rw [if_neg (by omega), if_pos (by omega), show c :: r = [c] ++ r from rfl, takeN_append (p := [c]) (by rfl)]
      simp only [leVal]
      have : (b.toNat + 256 * (c.toNat + 256 * 0)) / 4 = n := by omega
      simp only [this]
      rw [if_pos ⟨h1, hn⟩]
  | four h1 h2 h =>
    obtain ⟨hl, hv⟩ := h
    match p, hl with
    | [b, c, d, e], _ =>
      simp only [leNum_eq, leVal] at hv
      simp only [List.cons_append, List.nil_append, compactDec]
      rw [if_neg (by omega), if_neg (by omega), if_pos (by omega),
        show c :: d :: e :: r = [c, d, e] ++ r from rfl, takeN_append (p := [c, d, e]) (by rfl)]
      simp only [leVal]
      have : (b.toNat + 256 * (c.toNat + 256 * (d.toNat + 256 * (e.toNat + 256 * 0)))) / 4 = n := by omega
      simp only [this]
      rw [if_pos ⟨h1, hn⟩]
  | @big k b q h1 h2 h3 hb hq =>
    have hb := hb.2
    simp only [leNum_eq, leVal] at hb
    simp only [List.cons_append, compactDec]
    rw [if_neg (by omega), if_neg (by omega), if_neg (by omega)]
    have hk : b.toNat / 4 + 4 = k := by omega
    rw [hk, takeN_append hq.1]
    simp only [← leNum_eq, hq.2]
    rw [if_pos ⟨h1, h3, hn⟩]

theorem compactDec_sound {n bits : Nat} (hb6 : 6 ≤ bits) {bs r : List UInt8} (h : compactDec bits bs = some (n, r)) :
    ∃ p, bs = p ++ r ∧ IsCompact n p ∧ n < 2 ^ bits := by
  cases bs with
  | nil => simp [compactDec] at h
  | cons b q =>
    have hbt := b.toNat_lt
    have h64 : 2 ^ 6 ≤ 2 ^ bits := Nat.pow_le_pow_right (by decide) hb6
    simp only [compactDec] at h
    split at h
    · cases h
      refine ⟨[b], rfl, .one (by omega) ⟨rfl, by simp only [leNum_eq, leVal]; omega⟩, by omega⟩
    split at h
    · split at h
      · cases h
      · rename_i p r' hp
        obtain ⟨rfl, hl⟩ := takeN_eq.1 hp
        match p, hl with
        | [c], _ =>
          have := c.toNat_lt
          split at h
          · rename_i hx
            cases h
            simp only [leVal] at hx ⊢
            refine ⟨[b, c], rfl, .two hx.1 (by omega) ⟨rfl, by simp only [leNum_eq, leVal]; omega⟩, hx.2⟩
          · cases h
    split at h
    · split at h
      · cases h
      · rename_i p r' hp
        obtain ⟨rfl, hl⟩ := takeN_eq.1 hp
        match p, hl with
        | [c, d, e], _ =>
          have := c.toNat_lt; have := d.toNat_lt; have := e.toNat_lt
          split at h
          · rename_i hx
            cases h
            simp only [leVal] at hx ⊢
            refine ⟨[b, c, d, e], rfl, .four hx.1 (by omega) ⟨rfl, by simp only [leNum_eq, leVal]; omega⟩, hx.2⟩
          · cases h
    · split at h
      · cases h
      · rename_i p r' hp
        obtain ⟨rfl, hl⟩ := takeN_eq.1 hp
        split at h
        · rename_i hx
          cases h
          refine ⟨b :: p, rfl, .big (k := b.toNat / 4 + 4) hx.1 (by omega) hx.2.1 ⟨rfl, by simp only [leNum_eq, leVal]; omega⟩ ⟨hl, leNum_eq _⟩,
            hx.2.2⟩
        · cases h

theorem isCompact_unique {n : Nat} {p q : List UInt8} (hp : IsCompact n p) (hq : IsCompact n q) : p = q := by
  have h1 := compactDec_complete (bits := n) hp Nat.lt_two_pow_self []
  have key : ∀ {p q : List UInt8}, IsCompact n p → IsCompact n q → p.length = q.length := by
    intro p q hp hq
    cases hp with
    | one a h => cases hq with
      | one a' h' => rw [h.1, h'.1]
      | two a' b' h' => omega
      | four a' b' h' => omega
      | big a' b' c' h' => omega
    | two a b h => cases hq with
      | one a' h' => omega
      | two a' b' h' => rw [h.1, h'.1]
      | four a' b' h' => omega
      | big a' b' c' h' => omega
    | four a b h => cases hq with
      | one a' h' => omega
      | two a' b' h' => omega
      | four a' b' h' => rw [h.1, h'.1]
      | big a' b' c' h' => omega
    | @big k x p a b c h hk => cases hq with
      | one a' h' => omega
      | two a' b' h' => omega
      | four a' b' h' => omega
      | @big k' x' q a' b' c' h' hk' =>
        simp only [List.length_cons, hk.1, hk'.1]
        have l1 := (isLe_iff.1 hk).1
        have l2 := (isLe_iff.1 hk').1
        have cmp : ∀ {k k' : Nat}, 4 ≤ k → (k' = 4 ∨ 256 ^ (k' - 1) ≤ n) → n < 256 ^ k → ¬ k < k' := by
          intro k k' h4 h h' hlt
          rcases h with rfl | h
          · omega
          · have : 256 ^ k ≤ 256 ^ (k' - 1) := Nat.pow_le_pow_right (by decide) (by omega)
            omega
        have := cmp b c' l1
        have := cmp b' c l2
        omega
  have hl := key hp hq
  cases hp with
  | one a h => cases hq with
    | one a' h' => exact isLe_unique h h'
    | two a' b' h' => omega
    | four a' b' h' => omega
    | big a' b' c' h' => omega
  | two a b h => cases hq with
    | one a' h' => omega
    | two a' b' h' => exact isLe_unique h h'
    | four a' b' h' => omega
    | big a' b' c' h' => omega
  | four a b h => cases hq with
    | one a' h' => omega
    | two a' b' h' => omega
    | four a' b' h' => exact isLe_unique h h'
    | big a' b' c' h' => omega
  | @big k x p a b c h hk => cases hq with
    | one a' h' => omega
    | two a' b' h' => omega
    | four a' b' h' => omega
    | @big k' x' q a' b' c' h' hk' =>
      have : k = k' := by
        simp only [List.length_cons, hk.1, hk'.1] at hl; omega
      subst this
      rw [isLe_unique hk hk']
      have := isLe_unique h h'
      rw [List.singleton_inj] at this
      rw [this]

theorem byteLen_spec {n : Nat} (h : n ≠ 0) : 256 ^ (byteLen n - 1) ≤ n ∧ n < 256 ^ byteLen n := by
  have h1 := (Nat.log2_eq_iff h (k := Nat.log2 n)).1 rfl
  unfold byteLen
  rw [if_neg h]
  have e : ∀ k, 256 ^ k = 2 ^ (8 * k) := by intro k; rw [Nat.pow_mul]
  rw [e, e]
  constructor
  · exact Nat.le_trans (Nat.pow_le_pow_right (by decide) (by omega)) h1.1
  · exact Nat.lt_of_lt_of_le h1.2 (Nat.pow_le_pow_right (by decide) (by omega))

theorem byteLen_le {n k : Nat} (h : n < 256 ^ k) : byteLen n ≤ k := by
  unfold byteLen
  split
  · omega
  · rename_i h0
    have h1 := (Nat.log2_eq_iff h0 (k := Nat.log2 n)).1 rfl
    by_contra hc
    have e : 256 ^ k = 2 ^ (8 * k) := by rw [Nat.pow_mul]
    rw [e] at h
    have : 2 ^ (8 * k) ≤ 2 ^ n.log2 := Nat.pow_le_pow_right (by decide) (by omega)
    omega

theorem isCompact_compactEnc {n : Nat} (h : n < 2 ^ 128) : IsCompact n (compactEnc n) := by
  unfold compactEnc
  split
  · exact .one (by assumption) (isLe_leBytes (by omega))
  split
  · exact .two (by omega) (by assumption) (isLe_leBytes (by omega))
  split
  · exact .four (by omega) (by assumption) (isLe_leBytes (by omega))
  · have h0 : n ≠ 0 := by omega
    obtain ⟨h1, h2⟩ := byteLen_spec h0
    have h4 : 4 ≤ byteLen n := by
      by_contra hc
      have : 256 ^ byteLen n ≤ 256 ^ 3 := Nat.pow_le_pow_right (by decide) (by omega)
      omega
    have h16 : byteLen n ≤ 16 := byteLen_le (by omega)
    refine .big (k := byteLen n) (by omega) h4 (.inr h1) ?_ (isLe_leBytes h2)
    refine ⟨rfl, ?_⟩
    simp only [leNum_eq, leVal, UInt8.toNat_ofNat']
    omega

theorem isCompact_iff {n : Nat} {p : List UInt8} (h : n < 2 ^ 128) : IsCompact n p ↔ p = compactEnc n :=
  ⟨fun hp => isCompact_unique hp (isCompact_compactEnc h), fun e => e ▸ isCompact_compactEnc h⟩

/-! ### Strings -/

theorem bytearray_eq (bs : List UInt8) : ByteArray.mk bs.toArray = bs.toByteArray := by
  apply ByteArray.ext
  simp

theorem fromUtf8_iff {bs : List UInt8} {s : Str} : fromUtf8 bs = some s ↔ bs = utf8Bytes s := by
  unfold fromUtf8
  rw [bytearray_eq]
  constructor
  · intro h
    rw [Option.map_eq_some_iff] at h
    obtain ⟨a, h1, rfl⟩ := h
    have hs : bs.toByteArray.utf8Decode?.isSome := by rw [h1]; rfl
    have h2 := ByteArray.utf8Encode_get_utf8Decode? (b := bs.toByteArray) (h := hs)
    have h3 : bs.toByteArray.utf8Decode?.get hs = a := by simp [h1]
    rw [h3, List.utf8Encode] at h2
    have := congrArg (fun b : ByteArray => b.data.toList) h2
    simpa [utf8Bytes] using this.symm
  · rintro rfl
    have := List.utf8Decode?_utf8Encode (l := s)
    rw [List.utf8Encode] at this
    simp [utf8Bytes, this]

/-! ### Bit sequences -/

theorem BitStore.bytes_pos (s : BitStore) : 0 < s.bytes := by cases s <;> decide

theorem BitOrder.pos_lt {o : BitOrder} {w i : Nat} (h : i < w) : o.pos w i < w := by
  cases o <;> simp [pos] <;> omega

theorem BitOrder.pos_pos {o : BitOrder} {w i : Nat} (h : i < w) : o.pos w (o.pos w i) = i := by
  cases o <;> simp [pos]; omega

theorem bitAt_eq (o : BitOrder) (w : Nat) (bs : List UInt8) (i : Nat) :
    bitAt o w bs i = (leVal bs).testBit (i / w * w + o.pos w (i % w)) := by
  unfold bitAt
  rw [leNum_eq]
  cases o <;> rfl

theorem testBit_split {w a b j p : Nat} (ha : a < 2 ^ w) (hp : p < w) :
    (a + 2 ^ w * b).testBit (j * w + p) = if j = 0 then a.testBit p else b.testBit ((j - 1) * w + p) := by
  rw [Nat.add_comm, Nat.testBit_two_pow_mul_add _ ha]
  cases j with
  | zero => simp [hp]
  | succ j =>
    have : (j + 1) * w = j * w + w := Nat.succ_mul j w
    rw [if_neg (by omega), if_neg (by omega)]
    congr 1
    simp; omega

/-- The bits of the words, one word at a time. -/
theorem bitAt_append {o : BitOrder} {k : Nat} (hk : 0 < k) {p q : List UInt8} (hp : p.length = k) (i : Nat) :
    bitAt o (8 * k) (p ++ q) i =
      if i < 8 * k then (leVal p).testBit (o.pos (8 * k) i) else bitAt o (8 * k) q (i - 8 * k) := by
  have hl : leVal p < 2 ^ (8 * k) := by
    have := leVal_lt p; rw [hp] at this; rw [Nat.pow_mul]; exact this
  rw [bitAt_eq, bitAt_eq, leVal_append, hp, show 256 ^ k = 2 ^ (8 * k) by rw [Nat.pow_mul],
    testBit_split hl (o.pos_lt (Nat.mod_lt _ (by omega)))]
  by_cases h : i < 8 * k
  · rw [if_pos h, if_pos (Nat.div_eq_of_lt h), Nat.mod_eq_of_lt h]
  · have e1 : i / (8 * k) = (i - 8 * k) / (8 * k) + 1 := by
      rw [← Nat.add_div_right _ (by omega)]; congr 1; omega
    have e2 : i % (8 * k) = (i - 8 * k) % (8 * k) := by
      rw [← Nat.add_mod_right (i - 8 * k)]; congr 1; omega
    rw [if_neg h, e1, e2, if_neg (Nat.succ_ne_zero _)]; rfl

theorem wordVal_testBit {o : BitOrder} {w : Nat} : ∀ (bs : List Bool) (i : Nat), i + bs.length ≤ w →
    wordVal o w bs i < 2 ^ w ∧ ∀ j, j < w → (wordVal o w bs i).testBit (o.pos w j) = if i ≤ j then bs.getD (j - i) false else false := by
  intro bs
  induction bs with
  | nil =>
    intro i h
    refine ⟨Nat.pow_pos (by decide), ?_⟩
    intro j _; simp [wordVal]
  | cons b bs ih =>
    intro i h
    simp only [List.length_cons] at h
    obtain ⟨h1, h2⟩ := ih (i + 1) (by omega)
    have hpi : o.pos w i < w := o.pos_lt (by omega)
    constructor
    · simp only [wordVal]
      refine Nat.or_lt_two_pow ?_ h1
      split
      · exact Nat.pow_lt_pow_right (by decide) hpi
      · exact Nat.pow_pos (by decide)
    · intro j hj
      simp only [wordVal, Nat.testBit_or]
      rw [h2 j hj]
      by_cases hij : j = i
      · subst hij
        cases b <;> simp
      · have hne : o.pos w i ≠ o.pos w j := by
          intro e
          have := congrArg (o.pos w) e
          rw [o.pos_pos (by omega), o.pos_pos hj] at this
          omega
        have hb : ((if b then 2 ^ o.pos w i else 0) : Nat).testBit (o.pos w j) = false := by
          cases b <;> simp [hne]
        rw [hb, Bool.false_or]
        by_cases hlt : i ≤ j
        · rw [if_pos (by omega), if_pos hlt]
          have : j - i = (j - (i + 1)) + 1 := by omega
          rw [this]; simp
        · rw [if_neg (by omega), if_neg hlt]

theorem wordCount_zero {w : Nat} (h : 0 < w) : wordCount w 0 = 0 := by
  unfold wordCount; exact Nat.div_eq_of_lt (by omega)

theorem wordCount_pos {w n : Nat} (h : 0 < w) (hn : 0 < n) : wordCount w n = wordCount w (n - w) + 1 := by
  unfold wordCount
  by_cases hw : w ≤ n
  · rw [show n + w - 1 = (n - w + w - 1) + w by omega, Nat.add_div_right _ h]
  · rw [show n - w = 0 by omega, show n + w - 1 = (n - 1) + w by omega, Nat.add_div_right _ h,
      Nat.div_eq_of_lt (show n - 1 < w by omega), Nat.div_eq_of_lt (show 0 + w - 1 < w by omega)]

theorem wordCount_bounds {w n : Nat} (h : 0 < w) : n ≤ wordCount w n * w ∧ wordCount w n * w < n + w := by
  unfold wordCount
  have h1 := Nat.div_add_mod (n + w - 1) w
  have h2 := Nat.mod_lt (n + w - 1) h
  rw [Nat.mul_comm] at h1
  omega

theorem wordCount_unique {w n m : Nat} (h : 0 < w) (h1 : n ≤ m * w) (h2 : m * w < n + w) : m = wordCount w n := by
  obtain ⟨h3, h4⟩ := wordCount_bounds (n := n) h
  have e : ∀ a b : Nat, a * w < b * w + w → a ≤ b := by
    intro a b hab
    by_contra hc
    have : (b + 1) * w ≤ a * w := Nat.mul_le_mul_right _ (by omega)
    rw [Nat.succ_mul] at this
    omega
  have := e m (wordCount w n) (by omega)
  have := e (wordCount w n) m (by omega)
  omega

theorem encWords_length (o : BitOrder) (k : Nat) : ∀ n bs, (encWords o k n bs).length = n * k := by
  intro n
  induction n with
  | zero => intro bs; simp [encWords]
  | succ n ih => intro bs; simp [encWords, ih, Nat.succ_mul]; omega

theorem bitAt_nil (o : BitOrder) (w i : Nat) : bitAt o w [] i = false := by
  rw [bitAt_eq]; simp [leVal]

theorem bitAt_encWords (o : BitOrder) {k : Nat} (hk : 0 < k) : ∀ n bs i,
    bitAt o (8 * k) (encWords o k n bs) i = if i < n * (8 * k) then bs.getD i false else false := by
  intro n
  induction n with
  | zero => intro bs i; simp [encWords, bitAt_nil]
  | succ n ih =>
    intro bs i
    simp only [encWords]
    rw [bitAt_append hk (leBytes_length _ _), ih]
    obtain ⟨h1, h2⟩ := wordVal_testBit (o := o) (w := 8 * k) (bs.take (8 * k)) 0 (by rw [List.length_take]; omega)
    have hs : (n + 1) * (8 * k) = n * (8 * k) + 8 * k := Nat.succ_mul _ _
    by_cases hi : i < 8 * k
    · rw [if_pos hi, if_pos (by omega), leVal_leBytes, Nat.mod_eq_of_lt (by rw [show 256 ^ k = 2 ^ (8 * k) by rw [Nat.pow_mul]]; exact h1),
        h2 i hi, if_pos (by omega)]
      simp [hi]
    · rw [if_neg hi]
      have : (bs.drop (8 * k)).getD (i - 8 * k) false = bs.getD i false := by
        simp only [List.getD_eq_getElem?_getD, List.getElem?_drop]
        rw [show 8 * k + (i - 8 * k) = i by omega]
      rw [this]
      by_cases h' : i < (n + 1) * (8 * k)
      · rw [if_pos (by omega), if_pos h']
      · rw [if_neg (by omega), if_neg h']

theorem isBits_encWords (zp : Prop) (s : BitStore) (o : BitOrder) (bits : List Bool) :
    IsBits zp s o bits (encWords o s.bytes (wordCount (8 * s.bytes) bits.length) bits) := by
  have hk := s.bytes_pos
  obtain ⟨h1, h2⟩ := wordCount_bounds (w := 8 * s.bytes) (n := bits.length) (by omega)
  have e : wordCount (8 * s.bytes) bits.length * s.bytes * 8 = wordCount (8 * s.bytes) bits.length * (8 * s.bytes) := by
    rw [Nat.mul_assoc, Nat.mul_comm s.bytes 8]
  unfold IsBits
  rw [wordBytes_eq]
  refine ⟨?_, ?_, ?_, ?_, ?_⟩
  · rw [encWords_length, e]; exact h2
  · rw [encWords_length, e]; exact h1
  · rw [encWords_length]; exact Nat.dvd_mul_left _ _
  · intro i hi
    rw [bitAt_encWords o hk, if_pos (by omega)]
    simp [hi]
  · intro _ i hi
    rw [bitAt_encWords o hk]
    split
    · simp [hi]
    · rfl

theorem decWords_of_length (o : BitOrder) {k : Nat} (hk : 0 < k) : ∀ n (q r : List UInt8), q.length = n * k →
    decWords o k n (q ++ r) = some ((List.range (n * (8 * k))).map (bitAt o (8 * k) q), r) := by
  intro n
  induction n with
  | zero =>
    intro q r h
    have : q = [] := by simpa using h
    subst this; simp [decWords]
  | succ n ih =>
    intro q r h
    rw [Nat.succ_mul] at h
    have hsplit : q = q.take k ++ q.drop k := (List.take_append_drop k q).symm
    have hl1 : (q.take k).length = k := by simp; omega
    have hl2 : (q.drop k).length = n * k := by simp; omega
    generalize q.take k = a at *
    generalize q.drop k = b at *
    subst hsplit
    simp only [decWords, List.append_assoc]
    rw [takeN_append hl1]
    simp only [ih b r hl2]
    congr 2
    rw [Nat.succ_mul n, Nat.add_comm (n * (8 * k)), List.range_add, List.map_append, List.map_map]
    congr 1
    · apply List.map_congr_left
      intro i hi
      rw [List.mem_range] at hi
      rw [bitAt_append hk hl1, if_pos hi]
    · apply List.map_congr_left
      intro i _
      simp only [Function.comp]
      rw [bitAt_append hk hl1, if_neg (by omega)]
      congr 1; omega

theorem decWords_sound (o : BitOrder) {k : Nat} : ∀ n (bs : List UInt8) {l r}, decWords o k n bs = some (l, r) →
    ∃ q, bs = q ++ r ∧ q.length = n * k := by
  intro n
  induction n with
  | zero => intro bs l r h; simp only [decWords] at h; cases h; exact ⟨[], rfl, by simp⟩
  | succ n ih =>
    intro bs l r h
    simp only [decWords] at h
    split at h
    · cases h
    · rename_i p r1 hp
      obtain ⟨rfl, hpl⟩ := takeN_eq.1 hp
      split at h
      · cases h
      · rename_i l2 r2 hd
        cases h
        obtain ⟨q, rfl, hq⟩ := ih _ hd
        exact ⟨p ++ q, by simp, by simp [hpl, hq, Nat.succ_mul]; omega⟩

theorem bitsDec_complete {s : BitStore} {o : BitOrder} {bits : List Bool} {zp : Prop} {p q : List UInt8}
    (hp : IsCompact bits.length p) (hl : bits.length < 2 ^ 32) (hq : IsBits zp s o bits q) (r : List UInt8) :
    bitsDec s o (p ++ q ++ r) = some (bits, r) := by
  have hk := s.bytes_pos
  unfold IsBits at hq
  rw [wordBytes_eq] at hq
  obtain ⟨h1, h2, ⟨m, hm⟩, h4, -⟩ := hq
  have e : q.length * 8 = m * (8 * s.bytes) := by rw [hm, Nat.mul_comm s.bytes m, Nat.mul_assoc, Nat.mul_comm s.bytes]
  have hmc : m = wordCount (8 * s.bytes) bits.length := wordCount_unique (by omega) (by omega) (by omega)
  unfold bitsDec
  rw [List.append_assoc, compactDec_complete hp hl]
  simp only
  rw [decWords_of_length o hk _ q r (by rw [← hmc, hm, Nat.mul_comm])]
  simp only [Option.some.injEq, Prod.mk.injEq, and_true]
  apply List.ext_getElem
  · simp only [List.length_take, List.length_map, List.length_range]; rw [← hmc]; omega
  · intro i hi hi'
    simp [h4 i hi']

theorem bitsDec_sound {s : BitStore} {o : BitOrder} {bits : List Bool} {bs r : List UInt8}
    (h : bitsDec s o bs = some (bits, r)) :
    ∃ p q, bs = p ++ q ++ r ∧ IsCompact bits.length p ∧ bits.length < 2 ^ 32 ∧ IsBits False s o bits q := by
  have hk := s.bytes_pos
  unfold bitsDec at h
  split at h
  · cases h
  · rename_i n r1 hc
    obtain ⟨p, rfl, hp, hn⟩ := compactDec_sound (by decide) hc
    split at h
    · cases h
    · rename_i l r2 hd
      cases h
      obtain ⟨q, rfl, hq⟩ := decWords_sound _ _ _ hd
      rw [decWords_of_length o hk _ q r hq] at hd
      cases hd
      obtain ⟨h1, h2⟩ := wordCount_bounds (w := 8 * s.bytes) (n := n) (by omega)
      have e : q.length * 8 = wordCount (8 * s.bytes) n * (8 * s.bytes) := by rw [hq, Nat.mul_assoc, Nat.mul_comm s.bytes]
      have hlen : (List.take n ((List.range (wordCount (8 * s.bytes) n * (8 * s.bytes))).map (bitAt o (8 * s.bytes) q))).length = n := by
        simp; exact h1
      refine ⟨p, q, by simp, ?_, ?_, ?_⟩
      · rw [hlen]; exact hp
      · rw [hlen]; exact hn
      · unfold IsBits
        rw [wordBytes_eq]
        refine ⟨by rw [hlen]; omega, by rw [hlen]; omega, ⟨wordCount (8 * s.bytes) n, by rw [hq, Nat.mul_comm]⟩, ?_, fun h => h.elim⟩
        intro i hi
        simp

theorem isBits_unique {s : BitStore} {o : BitOrder} {bits : List Bool} {p q : List UInt8}
    (hp : IsBits True s o bits p) (hq : IsBits True s o bits q) : p = q := by
  have hk := s.bytes_pos
  unfold IsBits at hp hq
  rw [wordBytes_eq] at hp hq
  obtain ⟨h1, h2, ⟨m, hm⟩, h4, h5⟩ := hp
  obtain ⟨h1', h2', ⟨m', hm'⟩, h4', h5'⟩ := hq
  have e : ∀ (q : List UInt8) m, q.length = s.bytes * m → q.length * 8 = m * (8 * s.bytes) := by
    intro q m h
    rw [h, Nat.mul_comm s.bytes m, Nat.mul_assoc, Nat.mul_comm s.bytes]
  have e1 := e p m hm
  have e2 := e q m' hm'
  have hmc : m = wordCount (8 * s.bytes) bits.length := wordCount_unique (by omega) (by omega) (by omega)
  have hmc' : m' = wordCount (8 * s.bytes) bits.length := wordCount_unique (by omega) (by omega) (by omega)
  have hlen : p.length = q.length := by rw [hm, hm', hmc, hmc']
  have hb : ∀ i, bitAt o (8 * s.bytes) p i = bitAt o (8 * s.bytes) q i := by
    intro i
    by_cases hi : i < bits.length
    · rw [h4 i hi, h4' i hi]
    · rw [h5 trivial i (by omega), h5' trivial i (by omega)]
  have hv : leVal p = leVal q := by
    apply Nat.eq_of_testBit_eq
    intro j
    have hw : 0 < 8 * s.bytes := by omega
    have h := hb (j / (8 * s.bytes) * (8 * s.bytes) + o.pos (8 * s.bytes) (j % (8 * s.bytes)))
    have hpos := o.pos_lt (Nat.mod_lt j hw)
    have ediv : (j / (8 * s.bytes) * (8 * s.bytes) + o.pos (8 * s.bytes) (j % (8 * s.bytes))) / (8 * s.bytes) = j / (8 * s.bytes) := by
      rw [Nat.add_comm, Nat.add_mul_div_right _ _ hw, Nat.div_eq_of_lt hpos, Nat.zero_add]
    have emod : (j / (8 * s.bytes) * (8 * s.bytes) + o.pos (8 * s.bytes) (j % (8 * s.bytes))) % (8 * s.bytes) =
        o.pos (8 * s.bytes) (j % (8 * s.bytes)) := by
      rw [Nat.add_comm, Nat.add_mul_mod_self_right, Nat.mod_eq_of_lt hpos]
    rw [bitAt_eq, bitAt_eq, ediv, emod, o.pos_pos (Nat.mod_lt j hw), Nat.div_add_mod'] at h
    exact h
  rw [← leBytes_leVal p, ← leBytes_leVal q, hlen, hv]

end SV
