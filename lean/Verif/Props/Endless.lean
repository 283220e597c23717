import Mathlib.Logic.Relation
import Mathlib.Data.Fintype.EquivFin
import Mathlib.Data.Fintype.Pigeonhole
import Mathlib.Data.Set.Finite.Basic
import Mathlib.Data.Finite.Prod
import Verif.Proofs.Endless
import Verif.Proofs.EndlessTrace
/-
C85: decoding ends, whatever the table of types is, unless it comes to a type that would begin with itself without end.
-/
namespace SV

variable {Id Γ : Type}

/-- C85: decoding returns for all bytes if no type within the type is without end. (Types may contain themselves: in sequences, variants, and after anything that has bytes.) -/
theorem C85_ends (ctx : Id → Γ) (res : Table Id) (al : Nat → Bool) (t : Id) (h : ∀ u, WithinType res t u → ∀ c, ¬ Endless res (c, u)) (bs : List UInt8) :
    ∃ r, decodeT ctx res al t bs = some r := by
  cases hd : decodeT ctx res al t bs with
  | some r => exact ⟨r, rfl⟩
  | none =>
    obtain ⟨y, bs', hc, he⟩ := stuck_endless (decodeT_none.1 hd)
    exact absurd he (h y.2 (comesTo_within hc) y.1)

/-- C85: decoding of a type without end never returns, whatever the bytes. -/
theorem C85_never (ctx : Id → Γ) (res : Table Id) (al : Nat → Bool) (mem : ∀ n, al n = true) (t : Id) (h : Endless res (false, t)) (bs : List UInt8) :
    decodeT ctx res al t bs = none :=
  decodeT_none.2 (fun n => decT_endless mem n (false, t) bs h)

/-- C85: it does not return exactly if it comes to a type without end: all before that has been decoded. -/
theorem C85_exact (ctx : Id → Γ) (res : Table Id) (al : Nat → Bool) (mem : ∀ n, al n = true) (t : Id) (bs : List UInt8) :
    decodeT ctx res al t bs = none ↔ ∃ y bs', ComesTo res al ctx (false, t) bs y bs' ∧ Endless res y := by
  rw [decodeT_none]
  exact ⟨stuck_endless, fun ⟨y, bs', h, he⟩ => endless_stuck mem h he⟩

theorem endless_cons {res : Table Id} {x y : Bool × Id} (h : StartsWith res x y) (he : Endless res y) : Endless res x := by
  obtain ⟨f, rfl, hf⟩ := he
  refine ⟨fun n => match n with | 0 => x | n + 1 => f n, rfl, ?_⟩
  intro n
  cases n with
  | zero => exact h
  | succ n => exact hf n

/-- C85: a type is without end exactly if decoding it from no bytes does not return. -/
theorem C85_no_bytes (ctx : Id → Γ) (res : Table Id) (al : Nat → Bool) (mem : ∀ n, al n = true) (t : Id) :
    decodeT ctx res al t [] = none ↔ Endless res (false, t) := by
  constructor
  · intro h
    obtain ⟨y, bs', hc, he⟩ := (C85_exact ctx res al mem t []).1 h
    have : ∀ {x bs y bs'}, ComesTo res al ctx x bs y bs' → bs = [] → Endless res y → Endless res x := by
      intro x bs y bs' hc
      induction hc with
      | self => exact fun _ h => h
      | part ho hp _ ih =>
        rintro rfl he
        have h1 := opens_inline ho
        have h2 := passes_consumes hp
        have hr' := h2.1
        simp only [List.length_nil, Nat.le_zero, List.length_eq_zero_iff] at h1
        have hr := h1.1
        subst hr
        simp only [List.length_nil, Nat.le_zero, List.length_eq_zero_iff] at hr'
        subst hr'
        exact endless_cons ⟨_, _, h1.2 rfl, (h2.2 rfl).2⟩ (ih rfl he)
    exact this hc rfl he
  · exact fun h => C85_never ctx res al mem t h []

/-- C85: of decoding fields. -/
theorem C85_fields (ctx : Id → Γ) (res : Table Id) (al : Nat → Bool) (fs : List (Field Id)) (h : ∀ f ∈ fs, ∀ u, WithinType res f.id u → ∀ c, ¬ Endless res (c, u)) (bs : List UInt8) :
    ∃ r, decodeFieldsT ctx res al fs bs = some r := by
  cases hd : decodeFieldsT ctx res al fs bs with
  | some r => exact ⟨r, rfl⟩
  | none =>
    have hn := limit_none.1 hd
    obtain ⟨pre, u, post, r, he, -, hu⟩ := decItems_first_stuck (res := res) (al := al) (ctx := ctx) (c := false) (fs.map (fun f => f.id)) bs (by
      intro n
      have := hn n
      rw [decComposite_eq] at this
      split at this
      · cases this
      · cases hi : decItems (decT res al ctx n false) (fs.map (fun f => f.id)) bs with
        | none => rfl
        | some o => rw [hi] at this; cases o <;> cases this)
    have hm : u ∈ fs.map (fun f => f.id) := by rw [he]; simp
    obtain ⟨f, hf, rfl⟩ := List.mem_map.1 hm
    obtain ⟨y, bs', hc, he⟩ := stuck_endless hu
    exact absurd he (h f hf y.2 (comesTo_within hc) y.1)

/-- C85: the registries of the other properties have no types without end, and with them these definitions say what the others do. -/
theorem C85_registry (ctx : Id → Γ) (reg : Reg Id) (al : Nat → Bool) (t : Id) (bs : List UInt8) :
    (∀ x, ¬ Endless reg.resolve x) ∧ decodeT ctx reg.resolve al t bs = some (decodeWith ctx reg al t bs) := by
  constructor
  · have hin : ∀ {c t c' ts}, Inline reg.resolve c t c' ts → ∀ u ∈ ts, reg.rank u < reg.rank t := by
      intro c t c' ts h
      induction h with
      | composite h => exact fun u hu => reg.rank_lt _ _ _ h hu
      | tuple h => exact fun u hu => reg.rank_lt _ _ _ h hu
      | array h => exact fun u hu => reg.rank_lt _ _ _ h (by rw [List.eq_of_mem_replicate hu]; simp [TypeDef.inline])
      | compact h _ ih => exact fun u hu => Nat.lt_trans (ih u hu) (reg.rank_lt _ _ _ h (by simp [TypeDef.inline]))
      | compactComposite h => exact fun u hu => reg.rank_lt _ _ _ h (by simpa [TypeDef.inline] using hu)
      | compactTuple h => exact fun u hu => reg.rank_lt _ _ _ h (by simpa [TypeDef.inline] using hu)
    rintro x ⟨f, -, hf⟩
    have hlt : ∀ n, reg.rank (f (n + 1)).2 < reg.rank (f n).2 := by
      intro n
      obtain ⟨pre, post, hi, -⟩ := hf n
      exact hin hi _ (by simp)
    have : ∀ n, reg.rank (f n).2 + n ≤ reg.rank (f 0).2 := by
      intro n
      induction n with
      | zero => exact Nat.le_refl _
      | succ n ih => have := hlt n; omega
    have := this (reg.rank (f 0).2 + 1)
    omega
  · rw [decodeT_some]
    obtain ⟨n, hn⟩ := (decodeWith_eq (ctx := ctx) (reg := reg) (al := al) (t := t) (bs := bs)).1 rfl
    exact ⟨n, by rw [decT_reg]; exact hn⟩

/-- C85: tracing decoding returns if plain decoding does. If plain decoding does not return, neither does it, or it stops before with an error because something has more than 100000000 entries. -/
theorem C85_tracing (ctx : Id → Γ) (res : Table Id) (al : Nat → Bool) (t : Id) (bs : List UInt8) :
    (decodeT ctx res al t bs ≠ none → traceDecodeT res al t bs ≠ none) ∧
    (decodeT ctx res al t bs = none → traceDecodeT res al t bs = none ∨
      ∃ e, traceDecodeT res al t bs = some (.err e) ∧ (e = .fromDecode .tooManyEntries ∨ ∃ p v, e = .fromVisitor p v .tooManyEntries)) := by
  constructor
  · intro h ht
    refine h (decodeT_none.2 (fun n => trT_stuck res al ctx n false [] t bs (limit_none.1 ht n)))
  · intro h
    cases ht : traceDecodeT res al t bs with
    | none => exact .inl rfl
    | some o =>
      obtain ⟨n, hn⟩ := traceDecodeT_some.1 ht
      have hs := trT_sim res al ctx n false [] t bs
      have hd := decodeT_none.1 h n
      rw [hn, hd] at hs
      rcases o with ⟨v, r⟩ | e | _
      · obtain ⟨w, hw⟩ := hs.ok v r rfl; cases hw
      · refine .inr ⟨e, rfl, ?_⟩
        by_cases he : e.why = .tooManyEntries
        · cases e with
          | fromDecode e => exact .inl (by rw [show e = .tooManyEntries from he])
          | fromVisitor p v e => exact .inr ⟨p, v, by rw [show e = .tooManyEntries from he]⟩
        · obtain ⟨e', h'⟩ := hs.err e rfl he; cases h'
      · cases hs.panic rfl

/-- C85: with the registries of the other properties, the same of the tracing decoder. -/
theorem C85_tracing_registry (reg : Reg Id) (al : Nat → Bool) (t : Id) (bs : List UInt8) : traceDecodeT reg.resolve al t bs = some (traceDecode reg al t bs) := by
  rw [traceDecodeT_some]
  obtain ⟨n, hn⟩ := (traceDecode_eq (reg := reg) (al := al) (t := t) (bs := bs)).1 rfl
  exact ⟨n, by rw [trT_reg]; exact hn⟩

/-- C85: in a table with finitely many types a type is without end exactly if it begins with one that begins with itself. -/
theorem C85_cycle (res : Table Id) (ids : List Id) (fin : ∀ t, res t ≠ none → t ∈ ids) (x : Bool × Id) :
    Endless res x ↔ ∃ y, Relation.ReflTransGen (StartsWith res) x y ∧ Relation.TransGen (StartsWith res) y y := by
  constructor
  · rintro ⟨f, rfl, hf⟩
    have hres : ∀ {c t c' ts}, Inline res c t c' ts → res t ≠ none := by
      intro c t c' ts h
      cases h <;> simp_all
    have hmem : ∀ n, (f n).2 ∈ ids := by
      intro n
      obtain ⟨pre, post, hi, -⟩ := hf n
      exact fin _ (hres hi)
    have hS : Finite {t // t ∈ ids} := (List.finite_toSet ids).to_subtype
    obtain ⟨i, j, hij, he⟩ := Finite.exists_ne_map_eq_of_infinite (fun n => ((f n).1, (⟨(f n).2, hmem n⟩ : {t // t ∈ ids})))
    have he : f i = f j := Prod.ext (congrArg (fun y => y.1) he) (congrArg (fun y => y.2.1) he)
    have reach : ∀ n, Relation.ReflTransGen (StartsWith res) (f 0) (f n) := by
      intro n
      induction n with
      | zero => exact .refl
      | succ n ih => exact .tail ih (hf n)
    have trans : ∀ n k, Relation.TransGen (StartsWith res) (f n) (f (n + k + 1)) := by
      intro n k
      induction k with
      | zero => exact .single (hf n)
      | succ k ih => exact .tail ih (hf _)
    rcases Nat.lt_or_gt_of_ne hij with h | h
    · obtain ⟨k, rfl⟩ := Nat.exists_eq_add_of_lt h
      refine ⟨f i, reach i, ?_⟩
      have := trans i k
      rw [← he] at this
      exact this
    · obtain ⟨k, rfl⟩ := Nat.exists_eq_add_of_lt h
      refine ⟨f j, reach j, ?_⟩
      have := trans j k
      rw [he] at this
      exact this
  · rintro ⟨y, hr, hc⟩
    have hy : Endless res y := by
      have next : ∀ z : {z // Relation.TransGen (StartsWith res) z y}, ∃ w : {z // Relation.TransGen (StartsWith res) z y}, StartsWith res z.1 w.1 := by
        rintro ⟨z, hz⟩
        rcases Relation.TransGen.head'_iff.1 hz with ⟨w, hzw, hw⟩
        rcases Relation.reflTransGen_iff_eq_or_transGen.1 hw with rfl | hw
        · exact ⟨⟨_, hc⟩, hzw⟩
        · exact ⟨⟨w, hw⟩, hzw⟩
      let g : Nat → {z // Relation.TransGen (StartsWith res) z y} := fun n => n.rec ⟨y, hc⟩ (fun _ z => (next z).choose)
      exact ⟨fun n => (g n).1, rfl, fun n => (next (g n)).choose_spec⟩
    induction hr using Relation.ReflTransGen.head_induction_on with
    | refl => exact hy
    | head h _ ih => exact endless_cons h ih

/-! ### C85 is about something -/

/-- `struct A { unit: (), a: A }` (type 0), `()` (type 1), `struct B { x: u8, b: B }` (type 2), `u8` (type 3) and `enum C { Last, Next(A) }` (type 4). -/
def exLoop : Table Nat
  | 0 => some (.composite [⟨some "unit".toList, 1⟩, ⟨some "a".toList, 0⟩])
  | 1 => some (.tuple [])
  | 2 => some (.composite [⟨some "x".toList, 3⟩, ⟨some "b".toList, 2⟩])
  | 3 => some (.primitive .u8)
  | 4 => some (.variant [⟨"Last".toList, 0, []⟩, ⟨"Next".toList, 1, [⟨none, 0⟩]⟩])
  | _ => none

theorem exLoop_endless : Endless exLoop (false, 0) :=
  ⟨fun _ => (false, 0), rfl, fun _ => ⟨[1], [], .composite (res := exLoop) (t := 0) (fs := [⟨some "unit".toList, 1⟩, ⟨some "a".toList, 0⟩]) rfl, by
    intro u hu
    simp at hu; subst hu
    exact .mk (.tuple (t := 1) (ts := []) rfl) (by simp)⟩⟩

/-- Decoding an `A` never returns. -/
example (bs : List UInt8) : decodeT id exLoop (fun _ => true) 0 bs = none := C85_never id exLoop _ (fun _ => rfl) 0 exLoop_endless bs
/-- Decoding a `B` always returns, although it contains itself: it fails at the end of the bytes. -/
example : decT exLoop (fun _ => true) id 4 false 2 [7, 8, 9] = none := rfl
example : decT exLoop (fun _ => true) id 5 false 2 [7, 8, 9] = some (.err .codec) := rfl
/-- Of a `C` it depends on the bytes. -/
example : decodeT id exLoop (fun _ => true) 4 [0] = some (.ok (.mk (.variant (.mk "Last".toList (.unnamed []))) 4, [])) := decodeT_some.2 ⟨2, rfl⟩
example (bs : List UInt8) : decodeT id exLoop (fun _ => true) 4 (1 :: bs) = none :=
  (C85_exact _ _ _ (fun _ => rfl) _ _).2 ⟨(false, 0), bs, .part (pre := []) (.variant (t := 4) (pre := [⟨"Last".toList, 0, []⟩]) (d := ⟨"Next".toList, 1, [⟨none, 0⟩]⟩) (post := []) rfl (by simp)) rfl .self, exLoop_endless⟩
/-- The limit: an array of 100000001 values of type `A` with the tracing decoder. -/
example : let res : Table Nat := fun t => if t = 9 then some (.array 0 100000001) else exLoop t
    traceDecodeT res (fun _ => true) 9 [] = some (.err (.fromDecode .tooManyEntries)) := by
  refine traceDecodeT_some.2 ⟨1, ?_⟩
  have hv : ∀ res : Table Nat, res 9 = some (.array 0 100000001) → visitT res false 9 [] = .ok ⟨9, false, .items (List.replicate 100000001 0) []⟩ := by
    intro res h
    simp only [visitT, visitPlainT, h]
    rfl
  rw [trT, hv _ rfl]
  dsimp only
  rw [trUnnamed, if_pos (by rw [List.length_replicate]; decide)]
  rfl
/-- The hypothesis of `C85_ends` for `B`. -/
example : ∀ u, WithinType exLoop 2 u → ∀ c, ¬ Endless exLoop (c, u) := by
  have hw : ∀ u, WithinType exLoop 2 u → u = 2 ∨ u = 3 := by
    intro u h
    induction h with
    | self => exact .inl rfl
    | step _ hd hw ih =>
      rcases ih with rfl | rfl
      · simp only [exLoop, Option.some.injEq] at hd; subst hd; simpa [TypeDef.mentions, or_comm] using hw
      · simp only [exLoop, Option.some.injEq] at hd; subst hd; simp [TypeDef.mentions] at hw
  have h3 : ∀ c, ¬ ∃ c' ts, Inline exLoop c 3 c' ts := by
    rintro c ⟨c', ts, h⟩
    cases h <;> simp_all [exLoop]
  have n3 : ∀ c, ¬ NoBytes exLoop c 3 := by
    rintro c ⟨h, -⟩
    exact h3 c ⟨_, _, h⟩
  rintro u hu c ⟨f, h0, hf⟩
  obtain ⟨pre, post, hi, hp⟩ := hf 0
  rw [h0] at hi
  rcases hw u hu with rfl | rfl
  · cases c with
    | true =>
      generalize (f (0 + 1)).1 = c' at hi
      generalize pre ++ (f (0 + 1)).2 :: post = ts at hi
      cases hi <;> simp_all [exLoop]
    | false =>
      generalize hts : pre ++ (f (0 + 1)).2 :: post = ts at hi
      generalize hc : (f (0 + 1)).1 = c' at hi hp
      cases hi with
      | composite h =>
        simp only [exLoop, Option.some.injEq, TypeDef.composite.injEq] at h
        subst h
        cases pre with
        | nil =>
          simp at hts
          obtain ⟨pre, post, hi, hp⟩ := hf 1
          have h1 : (f 1).2 = 3 := hts.1
          rw [h1] at hi
          exact h3 _ ⟨_, _, hi⟩
        | cons a pre =>
          simp at hts
          exact n3 _ (hts.1 ▸ hp a (by simp))
      | tuple h => simp [exLoop] at h
      | array h => simp [exLoop] at h
      | compact h => simp [exLoop] at h
  · exact h3 _ ⟨_, _, hi⟩

end SV
