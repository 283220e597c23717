import Verif.Spec.Base58
import Mathlib.Data.Nat.Digits.Lemmas
/-
Lemmas about numerals.
-/
namespace SV

theorem numeral_ofDigits (b : Nat) (ds : List Nat) : numeral b ds = Nat.ofDigits b ds.reverse := by
  have h : ∀ (ds : List Nat) (n : Nat), ds.foldl (fun n d => b * n + d) n = Nat.ofDigits b (ds.reverse) + b ^ ds.length * n := by
    intro ds
    induction ds with
    | nil => intro n; simp
    | cons d ds ih =>
      intro n
      rw [List.foldl_cons, ih, List.reverse_cons, Nat.ofDigits_append, Nat.ofDigits_singleton, List.length_reverse, List.length_cons, pow_succ]
      ring
  simpa [numeral] using h ds 0

theorem leadingZeros_split (ds : List Nat) :
    ∃ es, ds = List.replicate (leadingZeros ds) 0 ++ es ∧ ∀ d r, es = d :: r → d ≠ 0 := by
  induction ds with
  | nil => exact ⟨[], rfl, by simp⟩
  | cons d ds ih =>
    by_cases hd : d = 0
    · subst hd
      obtain ⟨es, h, h'⟩ := ih
      refine ⟨es, ?_, h'⟩
      have : leadingZeros (0 :: ds) = leadingZeros ds + 1 := by simp [leadingZeros]
      rw [this, List.replicate_succ, List.cons_append, ← h]
    · refine ⟨d :: ds, ?_, ?_⟩
      · have : leadingZeros (d :: ds) = 0 := by simp [leadingZeros, hd]
        rw [this]; rfl
      · intro e r h; cases h; exact hd

theorem leadingZeros_append (n : Nat) (es : List Nat) (h : ∀ d r, es = d :: r → d ≠ 0) : leadingZeros (List.replicate n 0 ++ es) = n := by
  induction n with
  | zero =>
    cases es with
    | nil => rfl
    | cons d r => have := h d r rfl; simp [leadingZeros, this]
  | succ n ih =>
    rw [List.replicate_succ, List.cons_append]
    have : leadingZeros (0 :: (List.replicate n 0 ++ es)) = leadingZeros (List.replicate n 0 ++ es) + 1 := by simp [leadingZeros]
    rw [this, ih]

theorem ofDigits_replicate_zero (b n : Nat) : Nat.ofDigits b (List.replicate n 0) = 0 := by
  induction n with
  | zero => simp
  | succ n ih => rw [List.replicate_succ, Nat.ofDigits_cons, ih]; simp

theorem numeral_zeros (b n : Nat) (es : List Nat) : numeral b (List.replicate n 0 ++ es) = numeral b es := by
  rw [numeral_ofDigits, numeral_ofDigits, List.reverse_append, Nat.ofDigits_append, List.reverse_replicate, ofDigits_replicate_zero]
  simp

/-- Digits are known from the number and the zeros in front. -/
theorem numeral_canon {b : Nat} (hb : 1 < b) (ds : List Nat) (h : ∀ d ∈ ds, d < b) :
    ds = List.replicate (leadingZeros ds) 0 ++ (Nat.digits b (numeral b ds)).reverse := by
  obtain ⟨es, he, hz⟩ := leadingZeros_split ds
  have hn : numeral b ds = Nat.ofDigits b es.reverse := by
    rw [he, numeral_zeros, numeral_ofDigits]
  have hd : Nat.digits b (numeral b ds) = es.reverse := by
    rw [hn]
    apply Nat.digits_ofDigits b hb
    · intro l hl
      apply h
      rw [he]
      simp only [List.mem_reverse] at hl
      simp [hl]
    · intro hne
      cases es with
      | nil => simp at hne
      | cons d r => simpa using hz d r rfl
  rw [hd, List.reverse_reverse]
  exact he

theorem digits_rev_head (b n : Nat) (d : Nat) (r : List Nat) (h : (Nat.digits b n).reverse = d :: r) : d ≠ 0 := by
  have hne : n ≠ 0 := by
    rintro rfl
    simp at h
  have h2 : Nat.digits b n = r.reverse ++ [d] := by
    have := congrArg List.reverse h
    simpa using this
  have h3 := Nat.getLast_digit_ne_zero b hne
  simpa [h2] using h3

theorem numeral_inj {b : Nat} (hb : 1 < b) (ds es : List Nat) (h : ∀ d ∈ ds, d < b) (h' : ∀ d ∈ es, d < b) (hn : numeral b ds = numeral b es)
    (hz : leadingZeros ds = leadingZeros es) : ds = es := by
  rw [numeral_canon hb ds h, numeral_canon hb es h', hn, hz]

/-- There are digits for any number and any zeros in front. -/
theorem numeral_exists {b : Nat} (hb : 1 < b) (n z : Nat) : ∃ ds, (∀ d ∈ ds, d < b) ∧ numeral b ds = n ∧ leadingZeros ds = z := by
  refine ⟨List.replicate z 0 ++ (Nat.digits b n).reverse, ?_, ?_, ?_⟩
  · intro d hd
    rcases List.mem_append.1 hd with hd | hd
    · rw [List.eq_of_mem_replicate hd]; omega
    · exact Nat.digits_lt_base hb (List.mem_reverse.1 hd)
  · rw [numeral_zeros, numeral_ofDigits, List.reverse_reverse, Nat.ofDigits_digits]
  · exact leadingZeros_append _ _ (digits_rev_head b n)

/-- Digits of a larger base are not more. -/
theorem numeral_length {b c : Nat} (hb : 1 < b) (hbc : b ≤ c) (ds es : List Nat) (h : ∀ d ∈ ds, d < b) (h' : ∀ d ∈ es, d < c) (hn : numeral b ds = numeral c es)
    (hz : leadingZeros ds = leadingZeros es) : es.length ≤ ds.length := by
  rw [numeral_canon hb ds h, numeral_canon (by omega) es h', hz, ← hn]
  simp only [List.length_append, List.length_replicate, List.length_reverse]
  have : (Nat.digits c (numeral b ds)).length ≤ (Nat.digits b (numeral b ds)).length := by
    rw [Nat.digits_length_le_iff (by omega)]
    have h1 : numeral b ds < b ^ (Nat.digits b (numeral b ds)).length := (Nat.digits_length_le_iff hb _).1 (le_refl _)
    exact lt_of_lt_of_le h1 (Nat.pow_le_pow_left hbc _)
  omega

theorem alphabet58_nodup : alphabet58.Nodup := by decide +kernel

theorem alphabet58_length : alphabet58.length = 58 := by decide +kernel

theorem alphabet58_alnum : ∀ c ∈ alphabet58, isAsciiAlnum c = true := by decide +kernel

theorem idx58_lt {c : Char} {d : Nat} (h : alphabet58.idxOf? c = some d) : d < 58 := by
  have := List.of_findIdx?_eq_some (p := fun x => x == c) (xs := alphabet58) (i := d) h
  rw [← alphabet58_length]
  rcases Nat.lt_or_ge d alphabet58.length with hd | hd
  · exact hd
  · rw [List.getElem?_eq_none (by omega)] at this
    simp at this

theorem idx58_get {c : Char} {d : Nat} (h : alphabet58.idxOf? c = some d) : alphabet58[d]? = some c := by
  have := List.of_findIdx?_eq_some (p := fun x => x == c) (xs := alphabet58) (i := d) h
  cases hg : alphabet58[d]? with
  | none => rw [hg] at this; simp at this
  | some e => rw [hg] at this; simp at this; rw [this]

theorem idx58_digit : ∀ d, d < 58 → ∃ c, alphabet58[d]? = some c ∧ alphabet58.idxOf? c = some d := by
  intro d hd
  have : ∀ d : Fin 58, alphabet58.idxOf? (alphabet58[d.val]'(by rw [alphabet58_length]; exact d.isLt)) = some d.val := by decide +kernel
  refine ⟨alphabet58[d]'(by rw [alphabet58_length]; exact hd), ?_, this ⟨d, hd⟩⟩
  rw [List.getElem?_eq_getElem]

theorem digits58_lt {a : Str} {ds : List Nat} (h : a.map (fun c => alphabet58.idxOf? c) = ds.map some) : ∀ d ∈ ds, d < 58 := by
  intro d hd
  have : some d ∈ a.map (fun c => alphabet58.idxOf? c) := by rw [h]; exact List.mem_map_of_mem hd
  obtain ⟨c, -, hc⟩ := List.mem_map.1 this
  exact idx58_lt hc

theorem digits58_text {ds : List Nat} (h : ∀ d ∈ ds, d < 58) : ∃ a : Str, a.map (fun c => alphabet58.idxOf? c) = ds.map some := by
  induction ds with
  | nil => exact ⟨[], rfl⟩
  | cons d ds ih =>
    obtain ⟨a, ha⟩ := ih (fun x hx => h x (by simp [hx]))
    obtain ⟨c, -, hc⟩ := idx58_digit d (h d (by simp))
    exact ⟨c :: a, by simp [ha, hc]⟩

theorem digits58_inj {a a' : Str} {ds : List Nat} (h : a.map (fun c => alphabet58.idxOf? c) = ds.map some)
    (h' : a'.map (fun c => alphabet58.idxOf? c) = ds.map some) : a = a' := by
  induction ds generalizing a a' with
  | nil => simp at h h'; rw [h, h']
  | cons d ds ih =>
    cases a with
    | nil => simp at h
    | cons c a =>
      cases a' with
      | nil => simp at h'
      | cons c' a' =>
        simp only [List.map_cons, List.cons.injEq] at h h'
        rw [ih h.2 h'.2]
        have h1 := idx58_get h.1
        have h2 := idx58_get h'.1
        rw [h1] at h2
        cases h2; rfl

theorem bytes_lt (bs : List UInt8) : ∀ d ∈ bs.map (fun b => b.toNat), d < 256 := by
  intro d hd
  obtain ⟨b, -, rfl⟩ := List.mem_map.1 hd
  exact b.toNat_lt

theorem bytes_map_inj {bs bs' : List UInt8} (h : bs.map (fun b => b.toNat) = bs'.map (fun b => b.toNat)) : bs = bs' :=
  List.map_injective_iff.2 (fun _ _ h => UInt8.toNat_inj.1 h) h

theorem base58_exists (bs : List UInt8) : ∃ a, Base58 a bs := by
  obtain ⟨ds, h1, h2, h3⟩ := numeral_exists (b := 58) (by decide) (numeral 256 (bs.map (fun b => b.toNat))) (leadingZeros (bs.map (fun b => b.toNat)))
  obtain ⟨a, ha⟩ := digits58_text h1
  exact ⟨a, ds, ha, h2, h3⟩

theorem base58_text_unique {a a' : Str} {bs : List UInt8} (h : Base58 a bs) (h' : Base58 a' bs) : a = a' := by
  obtain ⟨ds, h1, h2, h3⟩ := h
  obtain ⟨ds', h1', h2', h3'⟩ := h'
  have : ds = ds' := numeral_inj (by decide) ds ds' (digits58_lt h1) (digits58_lt h1') (by rw [h2, h2']) (by rw [h3, h3'])
  subst this
  exact digits58_inj h1 h1'

theorem base58_bytes_unique {a : Str} {bs bs' : List UInt8} (h : Base58 a bs) (h' : Base58 a bs') : bs = bs' := by
  obtain ⟨ds, h1, h2, h3⟩ := h
  obtain ⟨ds', h1', h2', h3'⟩ := h'
  have : ds = ds' := List.map_injective_iff.2 (Option.some_injective _) (by rw [← h1, ← h1'])
  subst this
  exact bytes_map_inj (numeral_inj (by decide) _ _ (bytes_lt bs) (bytes_lt bs') (by rw [← h2, ← h2']) (by rw [← h3, ← h3']))

theorem base58_mem {a : Str} {bs : List UInt8} (h : Base58 a bs) : ∀ c ∈ a, c ∈ alphabet58 := by
  obtain ⟨ds, h1, -, -⟩ := h
  intro c hc
  have : alphabet58.idxOf? c ∈ ds.map some := by rw [← h1]; exact List.mem_map_of_mem (f := fun c => alphabet58.idxOf? c) hc
  obtain ⟨d, -, hd⟩ := List.mem_map.1 this
  exact List.mem_of_getElem? (idx58_get hd.symm)

theorem base58_length {a : Str} {bs : List UInt8} (h : Base58 a bs) : bs.length ≤ a.length := by
  obtain ⟨ds, h1, h2, h3⟩ := h
  have := numeral_length (b := 58) (c := 256) (by decide) (by decide) ds _ (digits58_lt h1) (bytes_lt bs) h2 h3
  have h4 := congrArg List.length h1
  simp at this h4
  omega

/-- A base 58 decoder, to show that the assumptions on the crate can be met. -/
noncomputable def decode58 (a : Str) : Option (List UInt8) :=
  open Classical in if h : ∃ bs, Base58 a bs then some h.choose else none

theorem decode58_iff (a : Str) (bs : List UInt8) : decode58 a = some bs ↔ Base58 a bs := by
  unfold decode58
  split
  · next h =>
    constructor
    · intro e; cases e; exact h.choose_spec
    · intro e; rw [base58_bytes_unique h.choose_spec e]
  · next h =>
    constructor
    · intro e; cases e
    · intro e; exact absurd ⟨bs, e⟩ h

end SV
