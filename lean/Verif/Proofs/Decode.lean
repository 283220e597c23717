import Verif.Model.Decode
import Verif.Spec.Scale
import Verif.Proofs.Codec
import Verif.Proofs.Value
/-
The plain decoder against the `Scale` relation: fuel monotonicity, termination, soundness, completeness.
-/
namespace SV

variable {Id Γ : Type}

/-! ### Fuel -/

/-- `f` gives every answer that `g` gives. -/
def Ext {α β γ : Type} (f g : α → β → Option γ) : Prop := ∀ a b r, f a b = some r → g a b = some r

theorem decItems_ext {f g : Id → List UInt8 → Option (Out DErr (Value Γ × List UInt8))} (h : Ext f g) :
    Ext (decItems f) (decItems g) := by
  intro ts
  induction ts with
  | nil => intro bs r hr; exact hr
  | cons t ts ih =>
    intro bs r hr
    simp only [decItems] at hr ⊢
    cases hf : f t bs with
    | none => rw [hf] at hr; cases hr
    | some o =>
      rw [h _ _ _ hf]; rw [hf] at hr
      cases o with
      | panic => exact hr
      | err e => exact hr
      | ok p =>
        obtain ⟨v, r'⟩ := p
        simp only at hr ⊢
        cases hd : decItems f ts r' with
        | none => rw [hd] at hr; cases hr
        | some o => rw [ih _ _ hd]; rw [hd] at hr; exact hr

theorem decFields_ext {f g : Id → List UInt8 → Option (Out DErr (Value Γ × List UInt8))} (h : Ext f g) :
    Ext (decFields f) (decFields g) := by
  intro ts
  induction ts with
  | nil => intro bs r hr; exact hr
  | cons t ts ih =>
    intro bs r hr
    simp only [decFields] at hr ⊢
    cases hf : f t.id bs with
    | none => rw [hf] at hr; cases hr
    | some o =>
      rw [h _ _ _ hf]; rw [hf] at hr
      cases o with
      | panic => exact hr
      | err e => exact hr
      | ok p =>
        obtain ⟨v, r'⟩ := p
        simp only at hr ⊢
        cases hd : decFields f ts r' with
        | none => rw [hd] at hr; cases hr
        | some o => rw [ih _ _ hd]; rw [hd] at hr; exact hr

theorem decComposite_ext {f g : Id → List UInt8 → Option (Out DErr (Value Γ × List UInt8))} (al : Nat → Bool) (h : Ext f g) :
    Ext (decComposite al f) (decComposite al g) := by
  intro fs bs r hr
  unfold decComposite at hr ⊢
  split
  · rename_i ha; rw [if_pos ha] at hr; exact hr
  · rename_i ha; rw [if_neg ha] at hr
    split
    · rename_i hn; rw [if_pos hn] at hr
      cases hd : decFields f fs bs with
      | none => rw [hd] at hr; cases hr
      | some o => rw [decFields_ext h _ _ _ hd]; rw [hd] at hr; exact hr
    · rename_i hn; rw [if_neg hn] at hr
      cases hd : decItems f (fs.map (fun f => f.id)) bs with
      | none => rw [hd] at hr; cases hr
      | some o => rw [decItems_ext h _ _ _ hd]; rw [hd] at hr; exact hr

theorem decUnnamed_ext {f g : Id → List UInt8 → Option (Out DErr (Value Γ × List UInt8))} (al : Nat → Bool) (h : Ext f g) :
    Ext (decUnnamed al f) (decUnnamed al g) := by
  intro ts bs r hr
  unfold decUnnamed at hr ⊢
  split
  · rename_i ha; rw [if_pos ha] at hr; exact hr
  · rename_i ha; rw [if_neg ha] at hr
    cases hd : decItems f ts bs with
    | none => rw [hd] at hr; cases hr
    | some o => rw [decItems_ext h _ _ _ hd]; rw [hd] at hr; exact hr

theorem mkVal_ext {mk : Composite Γ → Value Γ} {a b : Option (Out (DErr × List UInt8) (Composite Γ × List UInt8))}
    (h : ∀ r, a = some r → b = some r) {r} (hr : mkVal mk a = some r) : mkVal mk b = some r := by
  cases a with
  | none => cases hr
  | some o => rw [h _ rfl]; exact hr

theorem decN_succ (reg : Reg Id) (al : Nat → Bool) (ctx : Id → Γ) : ∀ n c, Ext (decN reg al ctx n c) (decN reg al ctx (n + 1) c) := by
  intro n
  induction n with
  | zero => intro c t bs r h; cases h
  | succ n ih =>
    intro c t bs r h
    rw [decN] at h ⊢
    split at h
    · exact h
    · exact h
    · exact mkVal_ext (fun r => decUnnamed_ext al (ih _) _ _ r) h
    · exact mkVal_ext (fun r => decComposite_ext al (ih _) _ _ r) h
    · exact mkVal_ext (fun r => decComposite_ext al (ih _) _ _ r) h

theorem decN_mono (reg : Reg Id) (al : Nat → Bool) (ctx : Id → Γ) {n m : Nat} (h : n ≤ m) (c : Bool) :
    Ext (decN reg al ctx n c) (decN reg al ctx m c) := by
  induction h with
  | refl => intro _ _ _ h; exact h
  | step _ ih => intro a b r h; exact decN_succ reg al ctx _ _ _ _ _ (ih a b r h)

theorem atLimit_eq {E A : Type} {f : Nat → Option (Out E A)} (hm : ∀ n m r, n ≤ m → f n = some r → f m = some r)
    (he : ∃ n r, f n = some r) {r : Out E A} : atLimit f = r ↔ ∃ n, f n = some r := by
  unfold atLimit
  rw [dif_pos he]
  have hs := he.choose_spec.choose_spec
  generalize he.choose_spec.choose = x at hs ⊢
  constructor
  · rintro rfl; exact ⟨_, hs⟩
  · rintro ⟨n, hn⟩
    have h1 := hm _ (max he.choose n) _ (Nat.le_max_left _ _) hs
    have h2 := hm _ (max he.choose n) _ (Nat.le_max_right _ _) hn
    rw [h1] at h2
    cases h2; rfl

/-! ### The leaves -/

theorem uint_cases {p : Prim} {k : Nat} (h : UintType p k) (bs : List UInt8) :
    readPrim p bs = readUint k bs ∧ readCompactPrim p bs = readCompact (8 * k) bs ∧ k ≤ 16 ∧ 1 ≤ k := by
  cases h <;> simp [readPrim, readCompactPrim]

theorem int_cases {p : Prim} {k : Nat} (h : IntType p k) (bs : List UInt8) :
    readPrim p bs = readInt k bs ∧ k ≤ 16 := by
  cases h <;> simp [readPrim]

/-- What the leaves look like, with signed 256 bit numbers as `i256`. -/
def leafVal (i256 : Bytes32 → Primitive) (ctx : Id → Γ) (ty : Id) : Leaf → Value Γ
  | .i256 b => .mk (.primitive (i256 b)) (ctx ty)
  | l => leafValue ctx ty l

theorem leafVal_u256 (ctx : Id → Γ) (ty : Id) (l : Leaf) : leafVal .u256 ctx ty l = leafValue ctx ty l := by cases l <;> rfl

theorem readPrim_sound {reg : Reg Id} {canon : Prop} {i256 : Bytes32 → Primitive} {ctx : Id → Γ} {t : Id} {p : Prim} {bs r : List UInt8} {l : Leaf}
    (hc : ¬ canon) (ht : reg.resolve t = some (.primitive p)) (h : readPrim p bs = .ok (l, r)) :
    ∃ q, bs = q ++ r ∧ Scale reg canon i256 ctx false t (leafVal i256 ctx t l) q := by
  have hu : ∀ k, UintType p k → readUint k bs = .ok (l, r) → ∃ q, bs = q ++ r ∧ Scale reg canon i256 ctx false t (leafVal i256 ctx t l) q := by
    clear h; intro k hk h
    unfold readUint at h
    split at h
    · cases h
    · rename_i q r' hq
      obtain ⟨rfl, hl⟩ := takeN_eq.1 hq
      split at h
      · rename_i n hn
        cases h
        exact ⟨q, rfl, .uint ht hk ⟨hl, (leNum_eq _).trans (U128.ofNat?_eq_some.1 hn).symm⟩⟩
      · cases h
  have hi : ∀ k, IntType p k → readInt k bs = .ok (l, r) → ∃ q, bs = q ++ r ∧ Scale reg canon i256 ctx false t (leafVal i256 ctx t l) q := by
    clear h hu; intro k hk h
    unfold readInt at h
    split at h
    · cases h
    · rename_i q r' hq
      obtain ⟨rfl, hl⟩ := takeN_eq.1 hq
      split at h
      · rename_i n hn
        cases h
        exact ⟨q, rfl, .int ht hk (isLeInt_iff.2 ⟨hl, (I128.ofInt?_eq_some.1 hn).symm⟩)⟩
      · cases h
  cases p with
  | bool =>
    simp only [readPrim] at h
    split at h
    · cases h
    · split at h
      · cases h; rename_i h0; subst h0; exact ⟨[0], rfl, .bool (b := false) ht⟩
      · split at h
        · cases h; rename_i h0; subst h0; exact ⟨[1], rfl, .bool (b := true) ht⟩
        · cases h
  | char =>
    simp only [readPrim] at h
    split at h
    · cases h
    · rename_i q r' hq
      obtain ⟨rfl, hl⟩ := takeN_eq.1 hq
      split at h
      · rename_i hv; cases h
        exact ⟨q, rfl, .char ht ⟨hl, leNum_eq _⟩⟩
      · cases h
  | str =>
    simp only [readPrim] at h
    split at h
    · cases h
    · rename_i n r1 hn
      obtain ⟨q, rfl, hq, hlt⟩ := compactDec_sound (by decide) hn
      split at h
      · cases h
      · rename_i p2 r2 h2
        obtain ⟨rfl, hl⟩ := takeN_eq.1 h2
        split at h
        · cases h
        · rename_i s hs
          cases h
          have e := fromUtf8_iff.1 hs
          subst e; subst hl
          exact ⟨q ++ utf8Bytes s, by simp, .str ht hq hlt (fun h => (hc h).elim)⟩
  | u8 => exact hu _ .u8 h
  | u16 => exact hu _ .u16 h
  | u32 => exact hu _ .u32 h
  | u64 => exact hu _ .u64 h
  | u128 => exact hu _ .u128 h
  | i8 => exact hi _ .i8 h
  | i16 => exact hi _ .i16 h
  | i32 => exact hi _ .i32 h
  | i64 => exact hi _ .i64 h
  | i128 => exact hi _ .i128 h
  | u256 =>
    simp only [readPrim, read32] at h
    split at h
    · cases h
      exact ⟨bs.take 32, by simp, .u256 ht⟩
    · cases h
  | i256 =>
    simp only [readPrim, read32] at h
    split at h
    · cases h
      exact ⟨bs.take 32, by simp, .i256 ht⟩
    · cases h

theorem readCompactPrim_sound {reg : Reg Id} {canon : Prop} {i256 : Bytes32 → Primitive} {ctx : Id → Γ} {t : Id} {p : Prim} {bs r : List UInt8} {l : Leaf}
    (ht : reg.resolve t = some (.primitive p)) (h : readCompactPrim p bs = .ok (l, r)) :
    ∃ q, bs = q ++ r ∧ q ≠ [] ∧ Scale reg canon i256 ctx true t (leafVal i256 ctx t l) q := by
  have hu : ∀ k, UintType p k → readCompact (8 * k) bs = .ok (l, r) →
      ∃ q, bs = q ++ r ∧ q ≠ [] ∧ Scale reg canon i256 ctx true t (leafVal i256 ctx t l) q := by
    clear h; intro k hk h
    obtain ⟨-, -, -, h1⟩ := uint_cases hk []
    unfold readCompact at h
    split at h
    · cases h
    · rename_i n r' hn
      obtain ⟨q, rfl, hq, hlt⟩ := compactDec_sound (by omega) hn
      split at h
      · rename_i m hm
        cases h
        have e := U128.ofNat?_eq_some.1 hm
        subst e
        exact ⟨q, rfl, isCompact_ne_nil hq, .compactUint ht hk (by rw [Nat.pow_mul] at hlt; exact hlt) hq⟩
      · cases h
  cases p with
  | u8 => exact hu _ .u8 h
  | u16 => exact hu _ .u16 h
  | u32 => exact hu _ .u32 h
  | u64 => exact hu _ .u64 h
  | u128 => exact hu _ .u128 h
  | _ => simp [readCompactPrim] at h

/-! ### The visit function -/

/-- What is left to be decoded after `visit` returned a step, for the bytes of the visited value to be `p`. -/
def StepScale (reg : Reg Id) (canon : Prop) (i256 : Bytes32 → Primitive) (ctx : Id → Γ) (w : Visit Id)
    (v : Value Γ) (r : List UInt8) : Prop :=
  match w.step with
  | .leaf l r' => r = r' ∧ v = leafVal i256 ctx w.ty l
  | .items ts bs => ∃ q vs, bs = q ++ r ∧ ScaleAll reg canon i256 ctx w.compact ts vs q ∧ v = .mk (.composite (.unnamed vs)) (ctx w.ty)
  | .composite fs bs => ∃ q vs cs, bs = q ++ r ∧ ScaleAll reg canon i256 ctx w.compact (fs.map (fun f => f.id)) vs q ∧
      HasShape fs vs cs ∧ v = .mk (.composite cs) (ctx w.ty)
  | .variant name fs bs => ∃ q vs cs, bs = q ++ r ∧ ScaleAll reg canon i256 ctx w.compact (fs.map (fun f => f.id)) vs q ∧
      HasShape fs vs cs ∧ v = .mk (.variant (.mk name cs)) (ctx w.ty)

theorem visitCompact_sound {reg : Reg Id} {canon : Prop} {i256 : Bytes32 → Primitive} {ctx : Id → Γ} {t : Id} {bs r : List UInt8}
    {s : DStep Id} {v : Value Γ} (h : visitCompact reg t bs = .ok s) (hs : StepScale reg canon i256 ctx ⟨t, true, s⟩ v r) :
    ∃ p, bs = p ++ r ∧ Scale reg canon i256 ctx true t v p := by
  unfold visitCompact at h
  split at h
  · cases h
  · rename_i p ht
    cases hr : readCompactPrim p bs with
    | error e => rw [hr] at h; cases h
    | ok x =>
      obtain ⟨l, r'⟩ := x
      rw [hr] at h; cases h
      obtain ⟨rfl, rfl⟩ := hs
      obtain ⟨q, h1, -, h2⟩ := readCompactPrim_sound ht hr
      exact ⟨q, h1, h2⟩
  · rename_i fs ht
    split at h
    · rename_i hl; cases h
      obtain ⟨q, vs, cs, rfl, h1, h2, rfl⟩ := hs
      exact ⟨q, rfl, .composite ht (fun _ => hl) h1 h2⟩
    · cases h
  · rename_i ts ht
    split at h
    · rename_i hl; cases h
      obtain ⟨q, vs, rfl, h1, rfl⟩ := hs
      exact ⟨q, rfl, .tuple ht (fun _ => hl) h1⟩
    · cases h
  · cases h

theorem scaleAll_length {reg : Reg Id} {canon : Prop} {i256 : Bytes32 → Primitive} {ctx : Id → Γ} {c ts} {vs : List (Value Γ)} {bs}
    (h : ScaleAll reg canon i256 ctx c ts vs bs) : ts.length = vs.length := by
  induction vs generalizing ts bs with
  | nil => cases h; rfl
  | cons v vs ih => cases h with
    | cons h1 h2 => simp [ih h2]

theorem visitPlain_sound {reg : Reg Id} {canon : Prop} {i256 : Bytes32 → Primitive} {ctx : Id → Γ} {t : Id} {bs r : List UInt8}
    {s : DStep Id} {v : Value Γ} (hc : ¬ canon) (h : visitPlain reg t bs = .ok s) (hs : StepScale reg canon i256 ctx ⟨t, false, s⟩ v r) :
    ∃ p, bs = p ++ r ∧ Scale reg canon i256 ctx false t v p := by
  unfold visitPlain at h
  split at h
  · cases h
  · rename_i p ht
    cases hr : readPrim p bs with
    | error e => rw [hr] at h; cases h
    | ok x =>
      obtain ⟨l, r'⟩ := x
      rw [hr] at h; cases h
      obtain ⟨rfl, rfl⟩ := hs
      exact readPrim_sound hc ht hr
  · rename_i fs ht
    cases h
    obtain ⟨q, vs, cs, rfl, h1, h2, rfl⟩ := hs
    exact ⟨q, rfl, .composite ht (by simp) h1 h2⟩
  · rename_i ts ht
    cases h
    obtain ⟨q, vs, rfl, h1, rfl⟩ := hs
    exact ⟨q, rfl, .tuple ht (by simp) h1⟩
  · rename_i u n ht
    cases h
    obtain ⟨q, vs, rfl, h1, rfl⟩ := hs
    exact ⟨q, rfl, .array ht h1⟩
  · rename_i u ht
    split at h
    · cases h
    · rename_i n r1 hn
      obtain ⟨p, rfl, hp, hlt⟩ := compactDec_sound (by decide) hn
      cases h
      obtain ⟨q, vs, rfl, h1, rfl⟩ := hs
      have e := scaleAll_length h1
      rw [List.length_replicate] at e
      subst e
      exact ⟨p ++ q, by simp, .sequence ht hp hlt (fun h => (hc h).elim) h1⟩
  · rename_i ds ht
    split at h
    · cases h
    · rename_i i r1
      split at h
      · cases h
      · rename_i d hd
        cases h
        obtain ⟨q, vs, cs, rfl, h1, h2, rfl⟩ := hs
        have hi : d.index = i := by have := List.find?_some hd; simpa using this
        subst hi
        exact ⟨d.index :: q, rfl, .variant ht hd h1 h2⟩
  · rename_i st o ht
    split at h
    · cases h
    · rename_i b r1 hb
      cases h
      obtain ⟨rfl, rfl⟩ := hs
      obtain ⟨p, q, rfl, h1, h2, h3⟩ := bitsDec_sound hb
      refine ⟨p ++ q, rfl, .bits ht h1 h2 ?_⟩
      exact ⟨h3.1, h3.2.1, h3.2.2.1, h3.2.2.2.1, fun h => (hc h).elim⟩
  · cases h

theorem visit_sound {reg : Reg Id} {canon : Prop} {i256 : Bytes32 → Primitive} {ctx : Id → Γ} {c : Bool} {t : Id} {bs r : List UInt8}
    {w : Visit Id} {v : Value Γ} (hc : ¬ canon) (h : visit reg c t bs = .ok w) (hs : StepScale reg canon i256 ctx w v r) :
    ∃ p, bs = p ++ r ∧ Scale reg canon i256 ctx c t v p := by
  unfold visit at h
  split at h
  · rename_i hct; subst hct
    cases hv : visitCompact reg t bs with
    | error e => rw [hv] at h; cases h
    | ok s => rw [hv] at h; cases h; exact visitCompact_sound hv hs
  · rename_i hct
    have hct : c = false := by simpa using hct
    subst hct
    split at h
    · rename_i u hu
      cases hv : visitCompact reg u bs with
      | error e => rw [hv] at h; cases h
      | ok s =>
        rw [hv] at h; cases h
        obtain ⟨p, h1, h2⟩ := visitCompact_sound hv hs
        exact ⟨p, h1, .compact hu h2⟩
    · cases hv : visitPlain reg t bs with
      | error e => rw [hv] at h; cases h
      | ok s => rw [hv] at h; cases h; exact visitPlain_sound hc hv hs

/-! ### Shapes -/

theorem isNamed_iff (fs : List (Field Id)) : isNamed fs = true ↔ fs ≠ [] ∧ ∃ names : List Str, fs.map (fun f => f.name) = names.map some := by
  unfold isNamed
  rw [Bool.and_eq_true]
  constructor
  · rintro ⟨h1, h2⟩
    refine ⟨by intro e; subst e; simp at h1, fs.map (fun f => f.name.getD []), ?_⟩
    rw [List.map_map]
    apply List.map_congr_left
    intro f hf
    simp only [Bool.not_eq_true', List.any_eq_false] at h2
    have := h2 f hf
    cases hn : f.name with
    | none => rw [hn] at this; simp at this
    | some n => simp [hn]
  · rintro ⟨h1, names, h2⟩
    refine ⟨by cases fs with | nil => exact (h1 rfl).elim | cons => simp, ?_⟩
    simp only [Bool.not_eq_true', List.any_eq_false]
    intro f hf
    have : f.name ∈ fs.map (fun f => f.name) := List.mem_map_of_mem (f := fun f => f.name) hf
    rw [h2] at this
    obtain ⟨n, -, hn⟩ := List.mem_map.1 this
    rw [← hn]; simp

theorem isNamed_false {fs : List (Field Id)} : isNamed fs = false ↔ (fs = [] ∨ ∃ f ∈ fs, f.name = none) := by
  unfold isNamed
  rw [Bool.and_eq_false_iff]
  constructor
  · rintro (h | h)
    · left; cases fs with | nil => rfl | cons => simp at h
    · right
      simp only [Bool.not_eq_false', List.any_eq_true] at h
      obtain ⟨f, h1, h2⟩ := h
      exact ⟨f, h1, by simpa using h2⟩
  · rintro (rfl | ⟨f, h1, h2⟩)
    · left; rfl
    · right
      simp only [Bool.not_eq_false', List.any_eq_true]
      exact ⟨f, h1, by simp [h2]⟩

theorem hasShape_iff {fs : List (Field Id)} {vs : List (Value Γ)} {c : Composite Γ} :
    HasShape fs vs c ↔ c = if isNamed fs then .named ((fs.map (fun f => f.name.getD [])).zip vs) else .unnamed vs := by
  constructor
  · intro h
    cases h with
    | @named names h1 h2 =>
      rw [if_pos ((isNamed_iff fs).2 ⟨h1, names, h2⟩)]
      have : fs.map (fun f => f.name.getD []) = names := by
        have := congrArg (List.map (fun o : Option Str => o.getD [])) h2
        simpa [List.map_map, Function.comp_def] using this
      rw [this]
    | unnamed h => rw [if_neg (by rw [isNamed_false.2 h]; decide)]
  · rintro rfl
    split
    · rename_i hn
      obtain ⟨h1, names, h2⟩ := (isNamed_iff fs).1 hn
      have : fs.map (fun f => f.name.getD []) = names := by
        have := congrArg (List.map (fun o : Option Str => o.getD [])) h2
        simpa [List.map_map, Function.comp_def] using this
      rw [this]
      exact .named h1 h2
    · rename_i hn
      exact .unnamed (isNamed_false.1 (by simpa using hn))

/-- The named loop decodes like the unnamed one. -/
theorem decFields_eq (dec : Id → List UInt8 → Option (Out DErr (Value Γ × List UInt8))) (fs : List (Field Id)) (bs : List UInt8) :
    decFields dec fs bs = match decItems dec (fs.map (fun f => f.id)) bs with
      | none => none
      | some .panic => some .panic
      | some (.err e) => some (.err e)
      | some (.ok (vs, r)) => some (.ok ((fs.map (fun f => f.name.getD [])).zip vs, r)) := by
  induction fs generalizing bs with
  | nil => rfl
  | cons f fs ih =>
    simp only [decFields, List.map_cons, decItems]
    cases dec f.id bs with
    | none => rfl
    | some o => cases o with
      | panic => rfl
      | err e => rfl
      | ok x =>
        obtain ⟨v, r⟩ := x
        simp only [ih]
        cases decItems dec (fs.map (fun f => f.id)) r with
        | none => rfl
        | some o => cases o <;> rfl

/-- `decComposite` in terms of one loop. -/
theorem decComposite_eq (al : Nat → Bool) (dec : Id → List UInt8 → Option (Out DErr (Value Γ × List UInt8))) (fs : List (Field Id)) (bs : List UInt8) :
    decComposite al dec fs bs = if !al fs.length then some .panic else
      match decItems dec (fs.map (fun f => f.id)) bs with
      | none => none
      | some .panic => some .panic
      | some (.err e) => some (.err e)
      | some (.ok (vs, r)) => some (.ok (if isNamed fs then .named ((fs.map (fun f => f.name.getD [])).zip vs) else .unnamed vs, r)) := by
  unfold decComposite
  split
  · rfl
  · rw [decFields_eq]
    split
    · cases decItems dec (fs.map (fun f => f.id)) bs with
      | none => rfl
      | some o => cases o <;> rfl
    · rfl

theorem decItems_sound {reg : Reg Id} {canon : Prop} {i256 : Bytes32 → Primitive} {ctx : Id → Γ} {c : Bool}
    {dec : Id → List UInt8 → Option (Out DErr (Value Γ × List UInt8))}
    (hd : ∀ t bs v r, dec t bs = some (.ok (v, r)) → ∃ p, bs = p ++ r ∧ Scale reg canon i256 ctx c t v p) :
    ∀ ts bs vs r, decItems dec ts bs = some (.ok (vs, r)) → ∃ p, bs = p ++ r ∧ ScaleAll reg canon i256 ctx c ts vs p := by
  intro ts
  induction ts with
  | nil => intro bs vs r h; simp only [decItems] at h; cases h; exact ⟨[], rfl, .nil⟩
  | cons t ts ih =>
    intro bs vs r h
    simp only [decItems] at h
    split at h
    · cases h
    · cases h
    · cases h
    · rename_i v r1 h1
      obtain ⟨p, rfl, hp⟩ := hd _ _ _ _ h1
      split at h
      · rename_i vs' r2 h2
        cases h
        obtain ⟨q, rfl, hq⟩ := ih _ _ _ h2
        exact ⟨p ++ q, by simp, .cons hp hq⟩
      · rename_i hno
        exact absurd h (hno _ _)

theorem decComposite_sound {reg : Reg Id} {canon : Prop} {i256 : Bytes32 → Primitive} {ctx : Id → Γ} {c : Bool} {al : Nat → Bool}
    {dec : Id → List UInt8 → Option (Out DErr (Value Γ × List UInt8))}
    (hd : ∀ t bs v r, dec t bs = some (.ok (v, r)) → ∃ p, bs = p ++ r ∧ Scale reg canon i256 ctx c t v p) {fs bs cs r}
    (h : decComposite al dec fs bs = some (.ok (cs, r))) :
    ∃ p vs, bs = p ++ r ∧ ScaleAll reg canon i256 ctx c (fs.map (fun f => f.id)) vs p ∧ HasShape fs vs cs := by
  rw [decComposite_eq] at h
  split at h
  · cases h
  · split at h
    · cases h
    · cases h
    · cases h
    · rename_i vs r' h1
      cases h
      obtain ⟨p, rfl, hp⟩ := decItems_sound hd _ _ _ _ h1
      exact ⟨p, vs, rfl, hp, hasShape_iff.2 rfl⟩

theorem decUnnamed_ok {al : Nat → Bool} {dec : Id → List UInt8 → Option (Out DErr (Value Γ × List UInt8))} {ts bs cs r}
    (h : decUnnamed al dec ts bs = some (.ok (cs, r))) : ∃ vs, cs = .unnamed vs ∧ decItems dec ts bs = some (.ok (vs, r)) := by
  unfold decUnnamed at h
  split at h
  · cases h
  · split at h
    · cases h
    · cases h
    · cases h
    · rename_i vs r' h1
      cases h
      exact ⟨vs, rfl, h1⟩

theorem mkVal_ok {mk : Composite Γ → Value Γ} {a : Option (Out (DErr × List UInt8) (Composite Γ × List UInt8))} {v r}
    (h : mkVal mk a = some (.ok (v, r))) : ∃ cs, v = mk cs ∧ a = some (.ok (cs, r)) := by
  unfold mkVal at h
  split at h
  · cases h
  · cases h
  · cases h
  · cases h; exact ⟨_, rfl, rfl⟩

theorem decN_sound (reg : Reg Id) (al : Nat → Bool) (ctx : Id → Γ) (n : Nat) : ∀ c t bs v r,
    decN reg al ctx n c t bs = some (.ok (v, r)) → ∃ p, bs = p ++ r ∧ Scale reg False .u256 ctx c t v p := by
  induction n with
  | zero => intro c t bs v r h; cases h
  | succ n ih =>
    intro c t bs v r h
    rw [decN] at h
    split at h
    · cases h
    · rename_i ty c' l r' hv
      cases h
      exact visit_sound (by simp) hv ⟨rfl, (leafVal_u256 ctx ty l).symm⟩
    · rename_i ty c' ids r' hv
      obtain ⟨cs, rfl, h1⟩ := mkVal_ok h
      obtain ⟨vs, rfl, h2⟩ := decUnnamed_ok h1
      obtain ⟨p, rfl, hp⟩ := decItems_sound (ih c') _ _ _ _ h2
      exact visit_sound (by simp) hv ⟨p, vs, rfl, hp, rfl⟩
    · rename_i ty c' fs r' hv
      obtain ⟨cs, rfl, h1⟩ := mkVal_ok h
      obtain ⟨p, vs, rfl, hp, hs⟩ := decComposite_sound (ih c') h1
      exact visit_sound (by simp) hv ⟨p, vs, cs, rfl, hp, hs, rfl⟩
    · rename_i ty c' name fs r' hv
      obtain ⟨cs, rfl, h1⟩ := mkVal_ok h
      obtain ⟨p, vs, rfl, hp, hs⟩ := decComposite_sound (ih c') h1
      exact visit_sound (by simp) hv ⟨p, vs, cs, rfl, hp, hs, rfl⟩

/-! ### Completeness -/

theorem visit_true {reg : Reg Id} {t : Id} {bs : List UInt8} {s : DStep Id} (h : visitCompact reg t bs = .ok s) :
    visit reg true t bs = .ok ⟨t, true, s⟩ := by
  simp [visit, h]

theorem visit_false {reg : Reg Id} {t : Id} {d : TypeDef Id} {bs : List UInt8} {s : DStep Id} (ht : reg.resolve t = some d) (hd : ∀ u, d ≠ .compact u)
    (h : visitPlain reg t bs = .ok s) : visit reg false t bs = .ok ⟨t, false, s⟩ := by
  unfold visit
  rw [if_neg (by decide)]
  split
  · rename_i u hu; rw [ht] at hu; cases hu; exact (hd u rfl).elim
  · rw [h]

theorem visit_compact {reg : Reg Id} {t u : Id} {bs : List UInt8} (ht : reg.resolve t = some (.compact u)) :
    visit reg false t bs = visit reg true u bs := by
  unfold visit
  simp [ht]

theorem decN_compact {reg : Reg Id} {al : Nat → Bool} {ctx : Id → Γ} {t u : Id} (ht : reg.resolve t = some (.compact u)) (n : Nat) (bs : List UInt8) :
    decN reg al ctx n false t bs = decN reg al ctx n true u bs := by
  cases n with
  | zero => rfl
  | succ n => rw [decN, decN, visit_compact ht]

theorem decN_leaf {reg : Reg Id} {al : Nat → Bool} {ctx : Id → Γ} {c c' : Bool} {t ty : Id} {bs r : List UInt8} {l : Leaf}
    (h : visit reg c t bs = .ok ⟨ty, c', .leaf l r⟩) : decN reg al ctx 1 c t bs = some (.ok (leafValue ctx ty l, r)) := by
  rw [decN, h]

theorem visitPlain_prim {reg : Reg Id} {t : Id} {p : Prim} {bs r : List UInt8} {l : Leaf} (ht : reg.resolve t = some (.primitive p))
    (h : readPrim p bs = .ok (l, r)) : visit reg false t bs = .ok ⟨t, false, .leaf l r⟩ := by
  apply visit_false ht (by simp)
  unfold visitPlain
  rw [ht]
  simp [leafStep, h]

theorem visit_tuple {reg : Reg Id} {t : Id} {c : Bool} {ts : List Id} {bs : List UInt8} (ht : reg.resolve t = some (.tuple ts))
    (hc : c = true → ts.length = 1) : visit reg c t bs = .ok ⟨t, c, .items ts bs⟩ := by
  cases c with
  | true => apply visit_true; unfold visitCompact; rw [ht]; simp [hc]
  | false => apply visit_false ht (by simp); unfold visitPlain; rw [ht]

theorem visit_composite {reg : Reg Id} {t : Id} {c : Bool} {fs : List (Field Id)} {bs : List UInt8} (ht : reg.resolve t = some (.composite fs))
    (hc : c = true → fs.length = 1) : visit reg c t bs = .ok ⟨t, c, .composite fs bs⟩ := by
  cases c with
  | true => apply visit_true; unfold visitCompact; rw [ht]; simp [hc]
  | false => apply visit_false ht (by simp); unfold visitPlain; rw [ht]

theorem visit_array {reg : Reg Id} {t u : Id} {n : Nat} {bs : List UInt8} (ht : reg.resolve t = some (.array u n)) :
    visit reg false t bs = .ok ⟨t, false, .items (List.replicate n u) bs⟩ := by
  apply visit_false ht (by simp); unfold visitPlain; rw [ht]

theorem visit_sequence {reg : Reg Id} {t u : Id} {n : Nat} {p bs : List UInt8} (ht : reg.resolve t = some (.sequence u))
    (hp : IsCompact n p) (hn : n < 2 ^ 64) :
    visit reg false t (p ++ bs) = .ok ⟨t, false, .items (List.replicate n u) bs⟩ := by
  apply visit_false ht (by simp); unfold visitPlain; rw [ht]
  simp only [compactDec_complete hp hn]

theorem visit_variant {reg : Reg Id} {t : Id} {ds : List (VariantDef Id)} {d : VariantDef Id} {bs : List UInt8} (ht : reg.resolve t = some (.variant ds))
    (hd : ds.find? (fun e => e.index == d.index) = some d) :
    visit reg false t (d.index :: bs) = .ok ⟨t, false, .variant d.name d.fields bs⟩ := by
  apply visit_false ht (by simp); unfold visitPlain; rw [ht]
  simp only [hd]

theorem visit_bits {reg : Reg Id} {t : Id} {st : BitStore} {o : BitOrder} {b : List Bool} {bs r : List UInt8} (ht : reg.resolve t = some (.bitSequence st o))
    (hb : bitsDec st o bs = some (b, r)) : visit reg false t bs = .ok ⟨t, false, .leaf (.bits b) r⟩ := by
  apply visit_false ht (by simp); unfold visitPlain; rw [ht]
  simp only [hb]

/-- What `visit` finds in front of an encoded value, for each form of encoding without parts. -/
theorem visit_leaf_complete {reg : Reg Id} {t : Id} (r : List UInt8) :
    (∀ b, reg.resolve t = some (.primitive .bool) → visit reg false t ([if b then 1 else 0] ++ r) = .ok ⟨t, false, .leaf (.bool b) r⟩) ∧
    (∀ c bs, reg.resolve t = some (.primitive .char) → IsLe 4 c.toNat bs → visit reg false t (bs ++ r) = .ok ⟨t, false, .leaf (.char c) r⟩) ∧
    (∀ s p, reg.resolve t = some (.primitive .str) → IsCompact (utf8Bytes s).length p → (utf8Bytes s).length < 2 ^ 64 →
      visit reg false t (p ++ utf8Bytes s ++ r) = .ok ⟨t, false, .leaf (.str s) r⟩) ∧
    (∀ p k n bs, reg.resolve t = some (.primitive p) → UintType p k → IsLe k n.val bs →
      visit reg false t (bs ++ r) = .ok ⟨t, false, .leaf (.uint n) r⟩) ∧
    (∀ p k n bs, reg.resolve t = some (.primitive p) → IntType p k → IsLeInt k n.val bs →
      visit reg false t (bs ++ r) = .ok ⟨t, false, .leaf (.int n) r⟩) ∧
    (∀ b, reg.resolve t = some (.primitive .u256) → visit reg false t (b.bytes ++ r) = .ok ⟨t, false, .leaf (.u256 b) r⟩) ∧
    (∀ b, reg.resolve t = some (.primitive .i256) → visit reg false t (b.bytes ++ r) = .ok ⟨t, false, .leaf (.i256 b) r⟩) ∧
    (∀ p k n bs, reg.resolve t = some (.primitive p) → UintType p k → n.val < 256 ^ k → IsCompact n.val bs →
      visit reg true t (bs ++ r) = .ok ⟨t, true, .leaf (.uint n) r⟩) := by
  refine ⟨?_, ?_, ?_, ?_, ?_, ?_, ?_, ?_⟩
  · intro b ht
    apply visitPlain_prim ht
    cases b <;> simp [readPrim]
  · intro c bs ht hb
    apply visitPlain_prim ht
    simp only [readPrim]
    rw [takeN_append hb.1]
    have hv : (leVal bs).isValidChar := by rw [← leNum_eq, hb.2]; exact c.valid
    simp only [hv, dite_true, Except.ok.injEq, Prod.mk.injEq, Leaf.char.injEq, and_true]
    apply Char.ext
    apply UInt32.toNat_inj.1
    show leVal bs = c.toNat
    exact (leNum_eq _).symm.trans hb.2
  · intro s p ht hp hl
    apply visitPlain_prim ht
    simp only [readPrim]
    rw [List.append_assoc, compactDec_complete hp hl]
    simp only
    rw [takeN_append rfl]
    simp only
    rw [fromUtf8_iff.2 rfl]
  · intro p k n bs ht hk hb
    apply visitPlain_prim ht
    rw [(uint_cases hk _).1]
    unfold readUint
    rw [takeN_append hb.1]
    simp only
    rw [← leNum_eq, hb.2, U128.ofNat?_eq_some.2 rfl]
  · intro p k n bs ht hk hb
    apply visitPlain_prim ht
    rw [(int_cases hk _).1]
    unfold readInt
    obtain ⟨h1, h2⟩ := isLeInt_iff.1 hb
    rw [takeN_append h1]
    simp only
    rw [h2, I128.ofInt?_eq_some.2 rfl]
  · intro b ht
    apply visitPlain_prim ht
    simp only [readPrim, read32]
    rw [dif_pos (by simp [b.len])]
    have e := b.len
    obtain ⟨l, hl⟩ := b
    simp only at e ⊢
    congr 3
    · congr 1
      rw [← e, List.take_left]
    · rw [← e, List.drop_left]
  · intro b ht
    apply visitPlain_prim ht
    simp only [readPrim, read32]
    rw [dif_pos (by simp [b.len])]
    have e := b.len
    obtain ⟨l, hl⟩ := b
    simp only at e ⊢
    congr 3
    · congr 1
      rw [← e, List.take_left]
    · rw [← e, List.drop_left]
  · intro p k n bs ht hk hn hb
    apply visit_true
    unfold visitCompact
    rw [ht]
    simp only [leafStep, (uint_cases hk _).2.1, readCompact]
    rw [compactDec_complete hb (by rw [Nat.pow_mul]; exact hn)]
    simp only
    rw [U128.ofNat?_eq_some.2 rfl]

theorem decUnnamed_of_items {al : Nat → Bool} {dec : Id → List UInt8 → Option (Out DErr (Value Γ × List UInt8))} {ts bs vs r}
    (hal : al ts.length = true) (h : decItems dec ts bs = some (.ok (vs, r))) : decUnnamed al dec ts bs = some (.ok (.unnamed vs, r)) := by
  unfold decUnnamed
  rw [hal, h]; rfl

theorem decComposite_of_items {al : Nat → Bool} {dec : Id → List UInt8 → Option (Out DErr (Value Γ × List UInt8))} {fs : List (Field Id)} {bs vs cs r}
    (hal : al fs.length = true) (h : decItems dec (fs.map (fun f => f.id)) bs = some (.ok (vs, r))) (hs : HasShape fs vs cs) :
    decComposite al dec fs bs = some (.ok (cs, r)) := by
  rw [decComposite_eq, hal, h, hasShape_iff.1 hs]; rfl

theorem hasShape_len {fs : List (Field Id)} {vs : List (Value Γ)} {cs : Composite Γ} (h : HasShape fs vs cs) (hl : vs.length = fs.length) : cs.len = vs.length := by
  cases h with
  | @named names h1 h2 =>
    have := congrArg List.length h2
    simp only [List.length_map] at this
    rw [Composite.len, List.length_zip]; omega
  | unnamed => rfl

theorem hasShape_vals {fs : List (Field Id)} {vs : List (Value Γ)} {cs : Composite Γ} (h : HasShape fs vs cs) (hl : vs.length = fs.length) : cs.vals = vs := by
  cases h with
  | @named names h1 h2 =>
    have := congrArg List.length h2
    simp only [List.length_map] at this
    rw [Composite.vals, List.map_snd_zip]; omega
  | unnamed => rfl

theorem allocOk_child {al : Nat → Bool} {v u : Value Γ} (h : AllocOk al v) (hu : u ∈ v.children) : AllocOk al u :=
  fun w vs hw => h w vs (.child hu hw)

theorem decN_complete_al (reg : Reg Id) (al : Nat → Bool) (canon : Prop) (ctx : Id → Γ) {c t v p}
    (h : Scale reg canon .u256 ctx c t v p) : AllocOk al v → ∀ r, ∃ n, decN reg al ctx n c t (p ++ r) = some (.ok (v, r)) := by
  refine Scale.rec (motive_1 := fun c t v p _ => AllocOk al v → ∀ r, ∃ n, decN reg al ctx n c t (p ++ r) = some (.ok (v, r)))
    (motive_2 := fun c ts vs p _ => (∀ v ∈ vs, AllocOk al v) → ∀ r, ∃ n, decItems (decN reg al ctx n c) ts (p ++ r) = some (.ok (vs, r)))
    ?_ ?_ ?_ ?_ ?_ ?_ ?_ ?_ ?_ ?_ ?_ ?_ ?_ ?_ ?_ ?_ ?_ h
  · intro t b ht _ r
    exact ⟨1, decN_leaf ((visit_leaf_complete r).1 b ht)⟩
  · intro t c bs ht hb _ r
    exact ⟨1, decN_leaf ((visit_leaf_complete r).2.1 c bs ht hb)⟩
  · intro t s p ht hp hl _ _ r
    exact ⟨1, decN_leaf ((visit_leaf_complete r).2.2.1 s p ht hp hl)⟩
  · intro t p k n bs ht hk hb _ r
    exact ⟨1, decN_leaf ((visit_leaf_complete r).2.2.2.1 p k n bs ht hk hb)⟩
  · intro t p k n bs ht hk hb _ r
    exact ⟨1, decN_leaf ((visit_leaf_complete r).2.2.2.2.1 p k n bs ht hk hb)⟩
  · intro t b ht _ r
    exact ⟨1, decN_leaf ((visit_leaf_complete r).2.2.2.2.2.1 b ht)⟩
  · intro t b ht _ r
    exact ⟨1, decN_leaf ((visit_leaf_complete r).2.2.2.2.2.2.1 b ht)⟩
  · intro t u v bs ht _ ih ha r
    obtain ⟨n, hn⟩ := ih ha r
    exact ⟨n, by rw [decN_compact ht]; exact hn⟩
  · intro t p k n bs ht hk hn hb _ r
    exact ⟨1, decN_leaf ((visit_leaf_complete r).2.2.2.2.2.2.2 p k n bs ht hk hn hb)⟩
  · intro t u vs p bs ht hp hl _ _ ih ha r
    obtain ⟨n, hn⟩ := ih (fun w hw => allocOk_child ha hw) r
    refine ⟨n + 1, ?_⟩
    rw [decN, List.append_assoc, visit_sequence ht hp hl]
    simp only
    have := ha _ _ (.self _) rfl
    rw [decUnnamed_of_items (by rw [List.length_replicate]; exact this) hn]; rfl
  · intro t u m vs bs ht hall ih ha r
    obtain ⟨n, hn⟩ := ih (fun w hw => allocOk_child ha hw) r
    refine ⟨n + 1, ?_⟩
    rw [decN, visit_array ht]
    simp only
    have := ha _ _ (.self _) rfl
    rw [decUnnamed_of_items (by rw [scaleAll_length hall]; exact this) hn]; rfl
  · intro c t ts vs bs ht hc hall ih ha r
    obtain ⟨n, hn⟩ := ih (fun w hw => allocOk_child ha hw) r
    refine ⟨n + 1, ?_⟩
    rw [decN, visit_tuple ht hc]
    simp only
    have := ha _ _ (.self _) rfl
    rw [decUnnamed_of_items (by rw [scaleAll_length hall]; exact this) hn]; rfl
  · intro c t fs vs cs bs ht hc hall hs ih ha r
    have hl := (scaleAll_length hall).symm
    rw [List.length_map] at hl
    obtain ⟨n, hn⟩ := ih (fun w hw => allocOk_child ha (by rw [← hasShape_vals hs hl] at hw; cases cs <;> exact hw)) r
    refine ⟨n + 1, ?_⟩
    rw [decN, visit_composite ht hc]
    simp only
    have := ha _ _ (.self _) rfl
    rw [decComposite_of_items (by rw [← hl, ← hasShape_len hs hl]; exact this) hn hs]; rfl
  · intro t ds d vs cs bs ht hd hall hs ih ha r
    have hl := (scaleAll_length hall).symm
    rw [List.length_map] at hl
    obtain ⟨n, hn⟩ := ih (fun w hw => allocOk_child ha (by rw [← hasShape_vals hs hl] at hw; cases cs <;> exact hw)) r
    refine ⟨n + 1, ?_⟩
    rw [decN, List.cons_append, visit_variant ht hd]
    simp only
    have := ha _ _ (.self _) rfl
    rw [decComposite_of_items (by rw [← hl, ← hasShape_len hs hl]; exact this) hn hs]; rfl
  · intro t s o b p q ht hp hl hq _ r
    exact ⟨1, decN_leaf (visit_bits ht (bitsDec_complete hp hl hq r))⟩
  · intro c _ r
    exact ⟨0, rfl⟩
  · intro c t ts v vs bs bs' _ _ ih1 ih2 ha r
    obtain ⟨n1, h1⟩ := ih1 (ha v (by simp)) (bs' ++ r)
    obtain ⟨n2, h2⟩ := ih2 (fun w hw => ha w (by simp [hw])) r
    refine ⟨max n1 n2, ?_⟩
    have h1 := decN_mono reg al ctx (Nat.le_max_left n1 n2) _ _ _ _ h1
    have h2 := decItems_ext (decN_mono reg al ctx (Nat.le_max_right n1 n2) _) _ _ _ h2
    rw [List.append_assoc, decItems, h1]
    simp only
    rw [h2]

theorem decN_complete_aux (reg : Reg Id) (al : Nat → Bool) (hal : ∀ n, al n = true) (canon : Prop) (ctx : Id → Γ) {c t v p}
    (h : Scale reg canon .u256 ctx c t v p) (r : List UInt8) : ∃ n, decN reg al ctx n c t (p ++ r) = some (.ok (v, r)) :=
  decN_complete_al reg al canon ctx h (fun _ _ _ _ => hal _) r

/-! ### What has been allocated -/

theorem decItems_alloc {al : Nat → Bool} {dec : Id → List UInt8 → Option (Out DErr (Value Γ × List UInt8))}
    (hd : ∀ t bs v r, dec t bs = some (.ok (v, r)) → AllocOk al v) : ∀ ts bs vs r, decItems dec ts bs = some (.ok (vs, r)) →
    vs.length = ts.length ∧ ∀ v ∈ vs, AllocOk al v := by
  intro ts
  induction ts with
  | nil => intro bs vs r h; simp only [decItems] at h; cases h; simp
  | cons t ts ih =>
    intro bs vs r h
    simp only [decItems] at h
    split at h
    · cases h
    · cases h
    · cases h
    · rename_i v r' h1
      split at h
      · rename_i vs' r'' h2
        cases h
        have := ih _ _ _ h2
        refine ⟨by simp [this.1], ?_⟩
        intro w hw
        rcases List.mem_cons.1 hw with rfl | hw
        · exact hd _ _ _ _ h1
        · exact this.2 w hw
      · rename_i hne; exact (hne _ _ h).elim

theorem allocOk_node {al : Nat → Bool} {v : Value Γ} (h1 : ∀ c, v.fields? = some c → al c.len = true) (h2 : ∀ u ∈ v.children, AllocOk al u) : AllocOk al v := by
  intro w c hw hc
  cases hw with
  | self => exact h1 c hc
  | child hu hw => exact h2 _ hu w c hw hc

theorem decN_alloc (reg : Reg Id) (al : Nat → Bool) (ctx : Id → Γ) (n : Nat) : ∀ c t bs v r,
    decN reg al ctx n c t bs = some (.ok (v, r)) → AllocOk al v := by
  induction n with
  | zero => intro c t bs v r h; cases h
  | succ n ih =>
    intro c t bs v r h
    have hcomp : ∀ c' fs bs cs r, decComposite al (decN reg al ctx n c') fs bs = some (.ok (cs, r)) → al cs.len = true ∧ ∀ w ∈ cs.vals, AllocOk al w := by
      intro c' fs bs cs r h
      rw [decComposite_eq] at h
      split at h
      · cases h
      · rename_i hal
        split at h
        · cases h
        · cases h
        · cases h
        · rename_i vs r' h1
          cases h
          have := decItems_alloc (ih c') _ _ _ _ h1
          have hs : HasShape fs vs (if isNamed fs then .named ((fs.map (fun f => f.name.getD [])).zip vs) else .unnamed vs) := hasShape_iff.2 rfl
          have hl : vs.length = fs.length := by simpa using this.1
          refine ⟨?_, ?_⟩
          · rw [hasShape_len hs hl, hl]; simpa using hal
          · rw [hasShape_vals hs hl]; exact this.2
    rw [decN] at h
    split at h
    · cases h
    · rename_i ty c' l r' hv
      cases h
      refine allocOk_node ?_ ?_
      · intro c hc; cases l <;> cases hc
      · intro u hu; cases l <;> cases hu
    · obtain ⟨cs, rfl, h1⟩ := mkVal_ok h
      unfold decUnnamed at h1
      split at h1
      · cases h1
      · rename_i hal
        split at h1
        · cases h1
        · cases h1
        · cases h1
        · rename_i vs r' h2
          cases h1
          have := decItems_alloc (ih _) _ _ _ _ h2
          refine allocOk_node ?_ this.2
          intro c hc; cases hc
          rw [Composite.len, this.1]; simpa using hal
    · obtain ⟨cs, rfl, h1⟩ := mkVal_ok h
      have := hcomp _ _ _ _ _ h1
      refine allocOk_node ?_ ?_
      · intro c hc; cases hc; exact this.1
      · intro u hu; exact this.2 u (by cases cs <;> exact hu)
    · obtain ⟨cs, rfl, h1⟩ := mkVal_ok h
      have := hcomp _ _ _ _ _ h1
      refine allocOk_node ?_ ?_
      · intro c hc; cases hc; exact this.1
      · intro u hu; exact this.2 u (by cases cs <;> exact hu)

/-! ### Termination -/

/-- Where the items of a step come from: either something was read before them, or they are inline parts of the type. -/
def DStep.children : DStep Id → List Id
  | .leaf _ _ => []
  | .items ts _ => ts
  | .composite fs _ => fs.map (fun f => f.id)
  | .variant _ fs _ => fs.map (fun f => f.id)

def DStep.bytes : DStep Id → List UInt8
  | .leaf _ b => b
  | .items _ b => b
  | .composite _ b => b
  | .variant _ _ b => b

theorem visitCompact_children {reg : Reg Id} {t : Id} {bs : List UInt8} {s : DStep Id} (h : visitCompact reg t bs = .ok s) :
    ∀ u ∈ s.children, s.bytes.length ≤ bs.length ∧ reg.rank u < reg.rank t := by
  unfold visitCompact at h
  split at h
  · cases h
  · rename_i p ht
    cases hr : readCompactPrim p bs with
    | error e => rw [hr] at h; cases h
    | ok x => rw [hr] at h; cases h; intro u hu; cases hu
  · rename_i fs ht
    split at h
    · cases h
      intro u hu
      exact ⟨Nat.le_refl _, reg.rank_lt t _ u ht hu⟩
    · cases h
  · rename_i ts ht
    split at h
    · cases h
      intro u hu
      exact ⟨Nat.le_refl _, reg.rank_lt t _ u ht hu⟩
    · cases h
  · cases h

theorem visitPlain_children {reg : Reg Id} {t : Id} {bs : List UInt8} {s : DStep Id} (h : visitPlain reg t bs = .ok s) :
    ∀ u ∈ s.children, s.bytes.length < bs.length ∨ (s.bytes.length ≤ bs.length ∧ reg.rank u < reg.rank t) := by
  unfold visitPlain at h
  split at h
  · cases h
  · rename_i p ht
    cases hr : readPrim p bs with
    | error e => rw [hr] at h; cases h
    | ok x => rw [hr] at h; cases h; intro u hu; cases hu
  · rename_i fs ht
    cases h
    intro u hu
    exact .inr ⟨Nat.le_refl _, reg.rank_lt t _ u ht hu⟩
  · rename_i ts ht
    cases h
    intro u hu
    exact .inr ⟨Nat.le_refl _, reg.rank_lt t _ u ht hu⟩
  · rename_i v n ht
    cases h
    intro u hu
    refine .inr ⟨Nat.le_refl _, reg.rank_lt t _ u ht ?_⟩
    have : u = v := List.eq_of_mem_replicate hu
    subst this; simp [TypeDef.inline]
  · rename_i v ht
    split at h
    · cases h
    · rename_i n r hn
      obtain ⟨p, rfl, hp, -⟩ := compactDec_sound (by decide) hn
      cases h
      intro u hu
      left
      have := List.length_pos_iff.2 (isCompact_ne_nil hp)
      simp [DStep.bytes]; omega
  · split at h
    · cases h
    · split at h
      · cases h
      · cases h
        intro u hu
        left; simp [DStep.bytes]
  · split at h
    · cases h
    · cases h; intro u hu; cases hu
  · cases h

theorem visit_children {reg : Reg Id} {c : Bool} {t : Id} {bs : List UInt8} {w : Visit Id} (h : visit reg c t bs = .ok w) :
    ∀ u ∈ w.step.children, w.step.bytes.length < bs.length ∨ (w.step.bytes.length ≤ bs.length ∧ reg.rank u < reg.rank t) := by
  unfold visit at h
  split at h
  · cases hv : visitCompact reg t bs with
    | error e => rw [hv] at h; cases h
    | ok s => rw [hv] at h; cases h; intro u hu; exact .inr (visitCompact_children hv u hu)
  · split at h
    · rename_i x hx
      cases hv : visitCompact reg x bs with
      | error e => rw [hv] at h; cases h
      | ok s =>
        rw [hv] at h; cases h
        intro u hu
        have h1 := visitCompact_children hv u hu
        have h2 := reg.rank_lt t _ x hx (by simp [TypeDef.inline])
        exact .inr ⟨h1.1, by omega⟩
    · cases hv : visitPlain reg t bs with
      | error e => rw [hv] at h; cases h
      | ok s => rw [hv] at h; cases h; exact visitPlain_children hv

theorem decItems_terminates (reg : Reg Id) (al : Nat → Bool) (ctx : Id → Γ) (c : Bool) (L : Nat) : ∀ ts : List Id,
    (∀ u ∈ ts, ∀ bs, bs.length ≤ L → ∃ n r, decN reg al ctx n c u bs = some r) →
    ∀ bs, bs.length ≤ L → ∃ n r, decItems (decN reg al ctx n c) ts bs = some r := by
  intro ts
  induction ts with
  | nil => intro _ bs _; exact ⟨0, _, rfl⟩
  | cons t ts ih =>
    intro h bs hb
    obtain ⟨n1, r1, h1⟩ := h t (by simp) bs hb
    cases r1 with
    | panic => exact ⟨n1, .panic, by rw [decItems, h1]⟩
    | err e => exact ⟨n1, .err (e, bs), by rw [decItems, h1]⟩
    | ok x =>
      obtain ⟨v, r⟩ := x
      obtain ⟨p, rfl, -⟩ := decN_sound reg al ctx n1 _ _ _ _ _ h1
      obtain ⟨n2, r2, h2⟩ := ih (fun u hu => h u (List.mem_cons_of_mem _ hu)) r (by simp at hb; omega)
      have h1 := decN_mono reg al ctx (Nat.le_max_left n1 n2) _ _ _ _ h1
      have h2 := decItems_ext (decN_mono reg al ctx (Nat.le_max_right n1 n2) c) _ _ _ h2
      refine ⟨max n1 n2, ?_⟩
      rw [decItems, h1]
      simp only
      rw [h2]
      cases r2 with
      | panic => exact ⟨_, rfl⟩
      | err e => exact ⟨_, rfl⟩
      | ok x => exact ⟨_, rfl⟩

theorem decUnnamed_terminates {reg : Reg Id} {al : Nat → Bool} {ctx : Id → Γ} {c : Bool} {ts : List Id} {bs : List UInt8}
    (h : ∃ n r, decItems (decN reg al ctx n c) ts bs = some r) : ∃ n r, decUnnamed al (decN reg al ctx n c) ts bs = some r := by
  obtain ⟨n, r, h⟩ := h
  refine ⟨n, ?_⟩
  unfold decUnnamed
  rw [h]
  split
  · exact ⟨_, rfl⟩
  · cases r <;> exact ⟨_, rfl⟩

theorem decComposite_terminates {reg : Reg Id} {al : Nat → Bool} {ctx : Id → Γ} {c : Bool} {fs : List (Field Id)} {bs : List UInt8}
    (h : ∃ n r, decItems (decN reg al ctx n c) (fs.map (fun f => f.id)) bs = some r) :
    ∃ n r, decComposite al (decN reg al ctx n c) fs bs = some r := by
  obtain ⟨n, r, h⟩ := h
  refine ⟨n, ?_⟩
  rw [decComposite_eq, h]
  split
  · exact ⟨_, rfl⟩
  · cases r <;> exact ⟨_, rfl⟩

theorem mkVal_terminates {mk : Composite Γ → Value Γ} {f : Nat → Option (Out (DErr × List UInt8) (Composite Γ × List UInt8))}
    (h : ∃ n r, f n = some r) : ∃ n r, mkVal mk (f n) = some r := by
  obtain ⟨n, r, h⟩ := h
  refine ⟨n, ?_⟩
  rw [h]
  cases r <;> exact ⟨_, rfl⟩

theorem decN_terminates (reg : Reg Id) (al : Nat → Bool) (ctx : Id → Γ) : ∀ L k c t bs, bs.length ≤ L → reg.rank t ≤ k →
    ∃ n r, decN reg al ctx n c t bs = some r := by
  intro L
  induction L using Nat.strongRecOn with
  | ind L ihL =>
    intro k
    induction k using Nat.strongRecOn with
    | ind k ihk =>
      intro c t bs hb hk
      cases hv : visit reg c t bs with
      | error e => exact ⟨1, .err e, by rw [decN, hv]⟩
      | ok w =>
        have hch := visit_children hv
        have hit : ∀ c', ∃ n r, decItems (decN reg al ctx n c') w.step.children w.step.bytes = some r := by
          intro c'
          refine decItems_terminates reg al ctx c' w.step.bytes.length _ ?_ _ (Nat.le_refl _)
          intro u hu bs' hb'
          rcases hch u hu with h | ⟨h1, h2⟩
          · exact ihL (w.step.bytes.length) (by omega) (reg.rank u) c' u bs' hb' (Nat.le_refl _)
          · exact ihk (reg.rank u) (by omega) c' u bs' (by omega) (Nat.le_refl _)
        obtain ⟨ty, c', s⟩ := w
        have hit := hit c'
        cases s with
        | leaf l r => exact ⟨1, _, by rw [decN, hv]⟩
        | items ts r =>
          obtain ⟨n, o, h⟩ := mkVal_terminates (mk := fun cs => .mk (.composite cs) (ctx ty)) (decUnnamed_terminates (al := al) hit)
          exact ⟨n + 1, o, by rw [decN, hv]; exact h⟩
        | composite fs r =>
          obtain ⟨n, o, h⟩ := mkVal_terminates (mk := fun cs => .mk (.composite cs) (ctx ty)) (decComposite_terminates (al := al) hit)
          exact ⟨n + 1, o, by rw [decN, hv]; exact h⟩
        | variant nm fs r =>
          obtain ⟨n, o, h⟩ := mkVal_terminates (mk := fun cs => .mk (.variant (.mk nm cs)) (ctx ty)) (decComposite_terminates (al := al) hit)
          exact ⟨n + 1, o, by rw [decN, hv]; exact h⟩

/-! ### The decoder with enough fuel -/

theorem decodeWith_eq {ctx : Id → Γ} {reg : Reg Id} {al : Nat → Bool} {t : Id} {bs : List UInt8} {r} :
    decodeWith ctx reg al t bs = r ↔ ∃ n, decN reg al ctx n false t bs = some r :=
  atLimit_eq (fun _ _ _ hnm h => decN_mono reg al ctx hnm _ _ _ _ h)
    (decN_terminates reg al ctx bs.length (reg.rank t) false t bs (Nat.le_refl _) (Nat.le_refl _))

theorem decodeFields_eq {ctx : Id → Γ} {reg : Reg Id} {al : Nat → Bool} {fs : List (Field Id)} {bs : List UInt8} {r} :
    decodeFields ctx reg al fs bs = r ↔ ∃ n, decComposite al (decN reg al ctx n false) fs bs = some r :=
  atLimit_eq (fun _ _ _ hnm h => decComposite_ext al (decN_mono reg al ctx hnm _) _ _ _ h)
    (decComposite_terminates (decItems_terminates reg al ctx false bs.length _
      (fun u _ bs' hb' => decN_terminates reg al ctx bs.length (reg.rank u) false u bs' hb' (Nat.le_refl _)) bs (Nat.le_refl _)))

/-- The decoder accepts exactly the encodings of the specification of values whose groups can be allocated. -/
theorem decodeWith_ok_iff {ctx : Id → Γ} {reg : Reg Id} {al : Nat → Bool} {t : Id} {bs r : List UInt8} {v : Value Γ} :
    decodeWith ctx reg al t bs = .ok (v, r) ↔ AllocOk al v ∧ ∃ p, bs = p ++ r ∧ Scale reg False .u256 ctx false t v p := by
  rw [decodeWith_eq]
  constructor
  · rintro ⟨n, h⟩; exact ⟨decN_alloc reg al ctx n _ _ _ _ _ h, decN_sound reg al ctx n _ _ _ _ _ h⟩
  · rintro ⟨ha, p, rfl, h⟩; exact decN_complete_al reg al False ctx h ha r

/-- The decoder accepts exactly the encodings of the specification. -/
theorem decodeWith_ok {ctx : Id → Γ} {reg : Reg Id} {al : Nat → Bool} (hal : ∀ n, al n = true) {t : Id} {bs r : List UInt8} {v : Value Γ} :
    decodeWith ctx reg al t bs = .ok (v, r) ↔ ∃ p, bs = p ++ r ∧ Scale reg False .u256 ctx false t v p := by
  rw [decodeWith_eq]
  constructor
  · rintro ⟨n, h⟩; exact decN_sound reg al ctx n _ _ _ _ _ h
  · rintro ⟨p, rfl, h⟩; exact decN_complete_aux reg al hal False ctx h r

end SV
