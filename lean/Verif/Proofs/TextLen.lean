import Verif.Proofs.FormatShown
import Verif.Proofs.SizeDec
/-
How long the texts of values are (C89).
-/
namespace SV

variable {Id Γ T : Type} {u : Uni}

theorem decDigits_length : ∀ fuel n, (decDigits fuel n).length ≤ fuel
  | 0, _ => by simp [decDigits]
  | fuel + 1, n => by
    unfold decDigits
    split
    · simp
    · have := decDigits_length fuel (n / 10)
      simp; omega

theorem toDigits_le {n : Nat} (h : n < 10 ^ 39) : (Nat.toDigits 10 n).length ≤ 39 := by
  rw [← decDigits_eq 39 n (by omega) h]
  exact decDigits_length _ _

theorem toDigits_ne {n : Nat} (h : n < 10 ^ 39) : 1 ≤ (Nat.toDigits 10 n).length := by
  rw [← decDigits_eq 39 n (by omega) h]
  unfold decDigits
  split <;> simp

theorem escaped_length {s t : Str} (h : Escaped s t) : s.length ≤ t.length ∧ t.length ≤ 2 * s.length := by
  induction h with
  | nil => simp
  | esc _ _ ih => simp only [List.length_cons]; omega
  | plain _ _ ih => simp only [List.length_cons]; omega

theorem shownName_length {p n s : Str} (h : ShownName u p n s) : n.length ≤ s.length ∧ s.length ≤ p.length + 2 + 2 * n.length := by
  cases h with
  | ident h => omega
  | quoted h ht =>
    have := escaped_length ht
    simp only [List.length_append, List.length_cons, List.length_nil]
    omega

theorem deep_ctx {d : ValueDef T} {c c' : T} {n : Nat} (h : Deep (.mk d c) n) : Deep (.mk d c') n := by
  cases h with
  | here => exact .here
  | inside h1 h2 =>
    refine .inside ?_ h2
    rcases d with ⟨⟨⟩⟩ | ⟨⟨_, ⟨⟩⟩⟩ | _ | _ <;> exact h1

theorem mem_valuesSize {w : Value T} : ∀ {vs : List (Value T)}, w ∈ vs → w.size ≤ valuesSize vs
  | x :: vs, h => by
    rcases List.mem_cons.1 h with rfl | h
    · simp [valuesSize]
    · have := mem_valuesSize h
      simp only [valuesSize]; omega

theorem mem_fieldsSize {w : Value T} : ∀ {fs : List (Str × Value T)}, w ∈ fs.map (fun p => p.2) → w.size ≤ fieldsSize fs
  | (n, x) :: vs, h => by
    rcases List.mem_cons.1 h with rfl | h
    · simp [fieldsSize]
    · have := mem_fieldsSize h
      simp only [fieldsSize]; omega

theorem deep_le_size {v : Value T} {n : Nat} (h : Deep v n) : n ≤ v.size := by
  induction h with
  | @here v =>
    rcases v with ⟨⟨⟨⟩⟩ | ⟨⟨_, ⟨⟩⟩⟩ | _ | ⟨⟨⟩⟩, x⟩ <;> simp [Value.size]
  | @inside v w n hw _ ih =>
    rcases v with ⟨⟨⟨fs⟩ | ⟨vs⟩⟩ | ⟨⟨_, ⟨fs⟩ | ⟨vs⟩⟩⟩ | _ | _, x⟩
    · have := mem_fieldsSize hw; simp only [Value.size]; omega
    · have := mem_valuesSize (vs := vs) hw; simp only [Value.size]; omega
    · have := mem_fieldsSize hw; simp only [Value.size]; omega
    · have := mem_valuesSize (vs := vs) hw; simp only [Value.size]; omega
    · cases hw
    · cases hw

/-- What is known of the nesting of what is shown, with `k` brackets open. -/
def ShowCat.Within (D k : Nat) : ShowCat T → Prop
  | .val v => ∀ n, Deep v n → k + n ≤ D + 1
  | .dflt d => ∀ c n, Deep (.mk d c) n → k + n ≤ D + 1
  | .comp c => ∀ w ∈ c.vals, ∀ n, Deep w n → k + 1 + n ≤ D + 1
  | .fields fs => ∀ p ∈ fs, ∀ n, Deep p.2 n → k + n ≤ D + 1
  | .vals vs => ∀ w ∈ vs, ∀ n, Deep w n → k + n ≤ D + 1

/-- The bound on the length of each kind of thing that is shown. -/
def ShowCat.Bound (g : Nat) (s : Str) : ShowCat T → Prop
  | .val v => s.length + (5 + g) ≤ (45 + 3 * g) * v.size + 2 * v.nameSize
  | .dflt d => ∀ c, s.length + (5 + g) ≤ (45 + 3 * g) * (Value.mk d c).size + 2 * (Value.mk d c).nameSize
  | .comp (.named fs) => s.length ≤ 2 + 2 * g + (45 + 3 * g) * fieldsSize fs + 2 * fieldsNameSize fs
  | .comp (.unnamed vs) => s.length ≤ 2 + 2 * g + (45 + 3 * g) * valuesSize vs + 2 * valuesNameSize vs
  | .fields fs => s.length ≤ (45 + 3 * g) * fieldsSize fs + 2 * fieldsNameSize fs
  | .vals vs => s.length ≤ (45 + 3 * g) * valuesSize vs + 2 * valuesNameSize vs

theorem shown_fields_ne {o : FmtOpts T} {k : Nat} {fs : List (Str × Value T)} {s : Str} (h : Shown u o k (.fields fs) s) : fs ≠ [] := by
  cases h <;> simp

theorem shown_vals_ne {o : FmtOpts T} {k : Nat} {fs : List (Value T)} {s : Str} (h : Shown u o k (.vals fs) s) : fs ≠ [] := by
  cases h <;> simp

theorem line_le_gap (o : FmtOpts T) (d : Nat) : (o.line d).length ≤ (o.gap d).length := by
  unfold FmtOpts.line FmtOpts.gap
  cases o.style <;> simp

theorem space_le (o : FmtOpts T) : o.space.length ≤ 1 := by
  unfold FmtOpts.space
  cases o.style <;> simp

theorem shown_length {o : FmtOpts T} (hf : o.formatters = []) (hc : o.context = none) {D g : Nat} (hg : ∀ d ≤ D, (o.gap d).length ≤ g) {k : Nat} {cat : ShowCat T} {s : Str}
    (h : Shown u o k cat s) : cat.Within D k → cat.Bound g s := by
  have leaf : ∀ (m a b : Nat), m ≤ 40 → 1 ≤ a → m + (5 + g) ≤ (45 + 3 * g) * a + b := by
    intro m a b hm ha
    have : (45 + 3 * g) * 1 ≤ (45 + 3 * g) * a := Nat.mul_le_mul_left _ ha
    omega
  have hsp := space_le o
  induction h with
  | @custom k d c s h => simp [FmtOpts.custom, hf] at h
  | @default k d c s hn h ih =>
    intro hw
    have := ih (fun c' n hn => hw n (deep_ctx hn)) c
    simp only [FmtOpts.before, hc, List.nil_append]
    exact this
  | true_ => intro _ c; exact leaf 4 _ _ (by omega) (by simp [Value.size])
  | false_ => intro _ c; exact leaf 5 _ _ (by omega) (by simp [Value.size])
  | @char k c t h =>
    intro _ x
    have := (escaped_length h).2
    refine leaf _ _ _ ?_ (by simp [Value.size])
    simp only [List.length_append, List.length_cons, List.length_nil] at this ⊢
    omega
  | @string k s t h =>
    intro _ x
    have := (escaped_length h).2
    have h2 : 2 * s.length ≤ (45 + 3 * g) * s.length := Nat.mul_le_mul_right _ (by omega)
    simp only [List.length_append, List.length_cons, List.length_nil, Value.size, Value.nameSize, Nat.mul_add, Nat.mul_one]
    omega
  | @unsigned k n =>
    intro _ x
    have hn : n.val < 10 ^ 39 := by have := n.lt; omega
    exact leaf _ _ _ (Nat.le_trans (toDigits_le hn) (by omega)) (by simp [Value.size])
  | @nonneg k n m h =>
    intro _ x
    have hn : m < 10 ^ 39 := by have := n.lt; have := n.ge; omega
    exact leaf _ _ _ (Nat.le_trans (toDigits_le hn) (by omega)) (by simp [Value.size])
  | @negative k n m h hm =>
    intro _ x
    have hn : m < 10 ^ 39 := by have := n.lt; have := n.ge; omega
    refine leaf _ _ _ ?_ (by simp [Value.size])
    have := toDigits_le hn
    simp only [List.length_cons]
    omega
  | @bits k bs =>
    intro _ x
    have h1 : (bitChars bs).length = bs.length := by unfold bitChars; simp
    have h2 : 1 * bs.length ≤ (45 + 3 * g) * bs.length := Nat.mul_le_mul_right _ (by omega)
    simp only [List.length_append, List.length_cons, List.length_nil, Value.size, Value.nameSize, Nat.mul_add, Nat.mul_one]
    omega
  | @composite k c s h ih =>
    intro hw x
    have h1 := ih (by
      intro w hw' n hn
      have := hw x (n + 1) (.inside (by cases c <;> simpa [Value.children, Composite.vals] using hw') hn)
      omega)
    cases c <;> simp only [ShowCat.Bound, Value.size, Value.nameSize, Nat.mul_add, Nat.mul_one] at h1 ⊢ <;> omega
  | @variant k n c s t hn h ih =>
    intro hw x
    have h1 := ih (by
      intro w hw' n hn
      have := hw x (n + 1) (.inside (by cases c <;> simpa [Value.children, Composite.vals] using hw') hn)
      omega)
    have h2 := (shownName_length hn).2
    cases c <;> simp only [ShowCat.Bound, Value.size, Value.nameSize, Nat.mul_add, Nat.mul_one, List.length_append, List.length_cons, List.length_nil] at h1 h2 ⊢ <;> omega
  | namedEmpty => intro _; simp [ShowCat.Bound]; omega
  | unnamedEmpty => intro _; simp [ShowCat.Bound]; omega
  | @named k fs s h ih =>
    intro hw
    have h1 := ih (by
      intro p hp n hn
      exact hw p.2 (by simp [Composite.vals]; exact ⟨_, hp⟩) n hn)
    obtain ⟨p, hp⟩ := List.exists_mem_of_ne_nil _ (shown_fields_ne h)
    have h2 := hw p.2 (by simp [Composite.vals]; exact ⟨_, hp⟩) 1 .here
    have h3 := hg k (by omega)
    have h4 := hg (k + 1) (by omega)
    simp only [ShowCat.Bound, List.length_append, List.length_cons, List.length_nil] at h1 ⊢
    omega
  | @unnamed k vs s h ih =>
    intro hw
    have h1 := ih (by
      intro p hp n hn
      exact hw p (by simp [Composite.vals]; exact hp) n hn)
    obtain ⟨p, hp⟩ := List.exists_mem_of_ne_nil _ (shown_vals_ne h)
    have h2 := hw p (by simp [Composite.vals]; exact hp) 1 .here
    have h3 := Nat.le_trans (line_le_gap o k) (hg k (by omega))
    have h4 := Nat.le_trans (line_le_gap o (k + 1)) (hg (k + 1) (by omega))
    simp only [ShowCat.Bound, List.length_append, List.length_cons, List.length_nil] at h1 ⊢
    omega
  | @field1 k n v s t hn h ih =>
    intro hw
    have h1 := ih (hw (n, v) (by simp))
    have h2 := (shownName_length hn).2
    simp only [ShowCat.Bound, fieldsSize, fieldsNameSize, Nat.mul_add, List.length_append, List.length_cons, List.length_nil] at h1 h2 ⊢
    omega
  | @fieldCons k n v s t fs r hn h hs ih1 ih2 =>
    intro hw
    have h1 := ih1 (hw (n, v) (by simp))
    have h3 := ih2 (fun p hp => hw p (by simp [hp]))
    have h2 := (shownName_length hn).2
    have h4 := hw (n, v) (by simp) 1 .here
    have h5 := hg k (by omega)
    simp only [ShowCat.Bound, fieldsSize, fieldsNameSize, Nat.mul_add, List.length_append, List.length_cons, List.length_nil] at h1 h2 h3 ⊢
    omega
  | @val1 k v s h ih =>
    intro hw
    have h1 := ih (hw v (by simp))
    simp only [ShowCat.Bound, valuesSize, valuesNameSize, Nat.mul_add] at h1 ⊢
    omega
  | @valCons k v s vs t h hs ih1 ih2 =>
    intro hw
    have h1 := ih1 (hw v (by simp))
    have h3 := ih2 (fun p hp => hw p (by simp [hp]))
    have h4 := hw v (by simp) 1 .here
    have h5 := hg k (by omega)
    simp only [ShowCat.Bound, valuesSize, valuesNameSize, Nat.mul_add, List.length_append, List.length_cons, List.length_nil] at h1 h3 ⊢
    omega

/-- What texts are at least as long as. -/
def ShowCat.Least (s : Str) : ShowCat T → Prop
  | .val v => v.size + v.nameSize ≤ s.length
  | .dflt d => ∀ c, (Value.mk d c).size + (Value.mk d c).nameSize ≤ s.length
  | .comp (.named fs) => 2 + fieldsSize fs + fieldsNameSize fs ≤ s.length
  | .comp (.unnamed vs) => 2 + valuesSize vs + valuesNameSize vs ≤ s.length
  | .fields fs => fieldsSize fs + fieldsNameSize fs ≤ s.length
  | .vals vs => valuesSize vs + valuesNameSize vs ≤ s.length

theorem shown_least {o : FmtOpts T} (hf : o.formatters = []) {k : Nat} {cat : ShowCat T} {s : Str}
    (h : Shown u o k cat s) : cat.Least s := by
  induction h with
  | @custom k d c s h => simp [FmtOpts.custom, hf] at h
  | @default k d c s hn h ih =>
    have := ih c
    simp only [ShowCat.Least, List.length_append]
    omega
  | true_ => intro c; simp [Value.size, Value.nameSize]
  | false_ => intro c; simp [Value.size, Value.nameSize]
  | @char k c t h => intro x; simp [Value.size, Value.nameSize]
  | @string k s t h =>
    intro _
    have := (escaped_length h).1
    simp only [List.length_append, List.length_cons, List.length_nil, Value.size, Value.nameSize]
    omega
  | @unsigned k n =>
    intro x
    have hn : n.val < 10 ^ 39 := by have := n.lt; omega
    exact toDigits_ne hn
  | @nonneg k n m h =>
    intro x
    have hn : m < 10 ^ 39 := by have := n.lt; have := n.ge; omega
    exact toDigits_ne hn
  | @negative k n m h hm => intro x; simp [Value.size, Value.nameSize]
  | @bits k bs =>
    intro x
    have h1 : (bitChars bs).length = bs.length := by unfold bitChars; simp
    simp only [List.length_append, List.length_cons, List.length_nil, Value.size, Value.nameSize]
    omega
  | @composite k c s h ih =>
    intro x
    cases c <;> simp only [ShowCat.Least, Value.size, Value.nameSize] at ih ⊢ <;> omega
  | @variant k n c s t hn h ih =>
    intro x
    have h2 := (shownName_length hn).1
    cases c <;> simp only [ShowCat.Least, Value.size, Value.nameSize, List.length_append] at ih ⊢ <;> omega
  | namedEmpty => simp [ShowCat.Least, fieldsSize, fieldsNameSize]
  | unnamedEmpty => simp [ShowCat.Least, valuesSize, valuesNameSize]
  | @named k fs s h ih =>
    simp only [ShowCat.Least, List.length_append, List.length_cons, List.length_nil] at ih ⊢
    omega
  | @unnamed k vs s h ih =>
    simp only [ShowCat.Least, List.length_append, List.length_cons, List.length_nil] at ih ⊢
    omega
  | @field1 k n v s t hn h ih =>
    have h2 := (shownName_length hn).1
    simp only [ShowCat.Least, fieldsSize, fieldsNameSize, List.length_append, List.length_cons, List.length_nil] at ih ⊢
    omega
  | @fieldCons k n v s t fs r hn h hs ih1 ih2 =>
    have h2 := (shownName_length hn).1
    simp only [ShowCat.Least, fieldsSize, fieldsNameSize, List.length_append, List.length_cons, List.length_nil] at ih1 ih2 ⊢
    omega
  | @val1 k v s h ih => simpa [ShowCat.Least, valuesSize, valuesNameSize] using ih
  | @valCons k v s vs t h hs ih1 ih2 =>
    simp only [ShowCat.Least, valuesSize, valuesNameSize, List.length_append, List.length_cons, List.length_nil] at ih1 ih2 ⊢
    omega

/-! ### Names in what is decoded -/

/-- The characters of the names in a type. -/
def TypeDef.nameWidth : Option (TypeDef Id) → Nat
  | some (.composite fs) => (fs.map (fun f => (f.name.getD []).length)).sum
  | some (.variant ds) => (ds.map (fun d => d.name.length + (d.fields.map (fun f => (f.name.getD []).length)).sum)).sum
  | _ => 0

theorem zip_names {N : Nat} : ∀ (names : List Str) (vs : List (Value Γ)), (∀ n ∈ names, n.length ≤ N) →
    fieldsNameSize (names.zip vs) ≤ valuesNameSize vs + N * vs.length
  | [], vs, _ => by simp [fieldsNameSize]
  | _ :: _, [], _ => by simp [fieldsNameSize]
  | n :: ns, v :: vs, h => by
    have := zip_names ns vs (fun m hm => h m (by simp [hm]))
    have := h n (by simp)
    simp only [List.zip_cons_cons, fieldsNameSize, valuesNameSize, List.length_cons, Nat.mul_add, Nat.mul_one]
    omega

theorem zip_fieldsSize : ∀ (names : List Str) (vs : List (Value Γ)), names.length = vs.length → fieldsSize (names.zip vs) = valuesSize vs
  | [], [], _ => rfl
  | n :: ns, v :: vs, h => by simp [fieldsSize, valuesSize, zip_fieldsSize ns vs (by simpa using h)]

theorem shape_names {N : Nat} {fs : List (Field Id)} {vs : List (Value Γ)} {cs : Composite Γ} (h : HasShape fs vs cs) (hN : ∀ f ∈ fs, (f.name.getD []).length ≤ N) (hl : vs.length = fs.length)
    (hv : valuesNameSize vs + N * vs.length ≤ 2 * N * valuesSize vs) (x : Γ) (n : Str) :
    (Value.mk (.composite cs) x).nameSize + 2 * N ≤ 2 * N * (Value.mk (.composite cs) x).size ∧
    (Value.mk (.variant (.mk n cs)) x).nameSize + 2 * N ≤ n.length + 2 * N * (Value.mk (.variant (.mk n cs)) x).size := by
  cases h with
  | @named names h1 h2 =>
    have hn : ∀ n ∈ names, n.length ≤ N := by
      intro n hn
      have : some n ∈ fs.map (fun f => f.name) := by rw [h2]; exact List.mem_map_of_mem hn
      obtain ⟨f, hf, hfn⟩ := List.mem_map.1 this
      have := hN f hf
      rwa [hfn] at this
    have hz := zip_names names vs hn
    have hlen : names.length = vs.length := by
      have := congrArg List.length h2
      simp at this; omega
    have hs := zip_fieldsSize names vs hlen
    simp only [Value.size, Value.nameSize, hs, Nat.mul_add, Nat.mul_one]
    omega
  | unnamed h1 =>
    simp only [Value.size, Value.nameSize, Nat.mul_add, Nat.mul_one]
    omega

theorem scale_names {reg : Reg Id} {canon : Prop} {i256 : Bytes32 → Primitive} (hi : ∀ b s, i256 b ≠ .string s) {ctx : Id → Γ} {N : Nat} {c t} {v : Value Γ} {p}
    (h : Scale reg canon i256 ctx c t v p) : (∀ u, Reach reg t u → TypeDef.nameWidth (reg.resolve u) ≤ N) → v.nameSize + N ≤ 2 * N * v.size := by
  have sub : ∀ {t w d}, reg.resolve t = some d → w ∈ d.refs → (∀ u, Reach reg t u → TypeDef.nameWidth (reg.resolve u) ≤ N) → ∀ u, Reach reg w u → TypeDef.nameWidth (reg.resolve u) ≤ N :=
    fun ht hw h u hu => h u (Reach.trans (.step .self ht hw) hu)
  have leaf : ∀ (p : Primitive) (x : Γ), (Value.mk (.primitive p) x).nameSize + N ≤ 2 * N * (Value.mk (.primitive p) x).size := by
    intro p x
    have h1 : 1 ≤ (Value.mk (.primitive p) x).size := by cases p <;> simp [Value.size]
    have h2 : 2 * N * 1 ≤ 2 * N * (Value.mk (.primitive p) x).size := Nat.mul_le_mul_left _ h1
    simp only [Value.nameSize]
    omega
  refine Scale.rec (motive_1 := fun c t v p _ => (∀ u, Reach reg t u → TypeDef.nameWidth (reg.resolve u) ≤ N) → v.nameSize + N ≤ 2 * N * v.size)
    (motive_2 := fun c ts vs p _ => (∀ u ∈ ts, ∀ w, Reach reg u w → TypeDef.nameWidth (reg.resolve w) ≤ N) →
      valuesNameSize vs + N * vs.length ≤ 2 * N * valuesSize vs)
    ?_ ?_ ?_ ?_ ?_ ?_ ?_ ?_ ?_ ?_ ?_ ?_ ?_ ?_ ?_ ?_ ?_ h
  · intro t b ht _; exact leaf _ _
  · intro t c bs ht hb _; exact leaf _ _
  · intro t s p ht hp hl _ _; exact leaf _ _
  · intro t p k n bs ht hk hb _; exact leaf _ _
  · intro t p k n bs ht hk hb _; exact leaf _ _
  · intro t b ht _; exact leaf _ _
  · intro t b ht _; exact leaf _ _
  · intro t u v bs ht _ ih hb
    exact ih (sub ht (by simp [TypeDef.refs]) hb)
  · intro t p k n bs ht hk hn hb _; exact leaf _ _
  · intro t u vs p bs ht hp hl _ _ ih hb
    have := ih (fun w hw => by rw [List.eq_of_mem_replicate hw]; exact sub ht (by simp [TypeDef.refs]) hb)
    simp only [Value.nameSize, Value.size, Nat.mul_add, Nat.mul_one]
    omega
  · intro t u m vs bs ht hall ih hb
    have := ih (fun w hw => by rw [List.eq_of_mem_replicate hw]; exact sub ht (by simp [TypeDef.refs]) hb)
    simp only [Value.nameSize, Value.size, Nat.mul_add, Nat.mul_one]
    omega
  · intro c t ts vs bs ht hc hall ih hb
    have := ih (fun w hw => sub ht (by simpa [TypeDef.refs] using hw) hb)
    simp only [Value.nameSize, Value.size, Nat.mul_add, Nat.mul_one]
    omega
  · intro c t fs vs cs bs ht hc hall hs ih hb
    have h1 := ih (fun w hw => sub ht (by simpa [TypeDef.refs] using hw) hb)
    have h2 := hb t .self
    rw [ht] at h2
    have := (shape_names hs (N := N) (fun f hf => Nat.le_trans (le_sum (List.mem_map_of_mem (f := fun f : Field Id => (f.name.getD []).length) hf)) h2) (by simpa using (scaleAll_length hall).symm) h1 (ctx t) []).1
    omega
  · intro t ds d vs cs bs ht hd hall hs ih hb
    have hmem := List.mem_of_find?_eq_some hd
    have h1 := ih (fun w hw => sub ht (by simp only [TypeDef.refs, List.mem_flatMap]; exact ⟨d, hmem, hw⟩) hb)
    have h2 := hb t .self
    rw [ht] at h2
    have h3 := Nat.le_trans (le_sum (List.mem_map_of_mem (f := fun d : VariantDef Id => d.name.length + (d.fields.map (fun f => (f.name.getD []).length)).sum) hmem)) h2
    have := (shape_names hs (N := N) (fun f hf => by
      have := le_sum (List.mem_map_of_mem (f := fun f : Field Id => (f.name.getD []).length) hf)
      omega) (by simpa using (scaleAll_length hall).symm) h1 (ctx t) d.name).2
    omega
  · intro t s o b p q ht hp hl hb _
    simp only [Value.nameSize, Value.size, Nat.mul_add, Nat.mul_one]
    omega
  · intro c _; simp [valuesNameSize, valuesSize]
  · intro c t ts v vs bs bs' hv hall ih1 ih2 hb
    have h1 := ih1 (hb t (by simp))
    have h2 := ih2 (fun u hu => hb u (by simp [hu]))
    simp only [valuesNameSize, valuesSize, List.length_cons, Nat.mul_add, Nat.mul_one]
    omega

end SV
