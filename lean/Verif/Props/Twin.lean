import Verif.Spec.Twin
import Verif.Props.Macro
import Verif.Props.Parse
import Verif.Props.Trip
/-
C77: `value!` and texts of values agree on what they have in common.
-/
namespace SV
namespace Macro

/-- Two values, one of the macro and one of the text. -/
def TwinOf (u : Uni) (R : Rust) : Part → List TT → Str → Prop
  | .value, ts, s => ∃ v w, ListElem R ts v ∧ Txt u NoCustom (.blt w) s ∧ SameData v w
  | .list, ts, s => ∃ vs ws, Items R ts vs ∧ Txt u NoCustom (.vals ws) s ∧ SameData (Value.mk (.composite (.unnamed vs)) ()) (Value.mk (.composite (.unnamed ws)) ())
  | .pairs, ts, s => ∃ vs ws, Fields R ts vs ∧ Txt u NoCustom (.fields ws) s ∧ SameData (Value.mk (.composite (.named vs)) ()) (Value.mk (.composite (.named ws)) ())

theorem listElem_expr {R : Rust} {ts : List TT} {v : Value Unit} (hn : ts ≠ []) (hb : ¬ Begins ts) (hw : Whole R ts) (hv : R.value ts = some v) : ListElem R ts v :=
  ⟨hn, fun h => (hb h).elim, .expr hw (fun h => hb ⟨ts, [], h, by simp⟩) hv⟩

theorem listElem_shape {R : Rust} {ts : List TT} {v : Value Unit} (hs : Shape ts) (hv : Denotes R ts v) : ListElem R ts v :=
  ⟨by cases hs <;> simp, fun _ => hs, hv⟩

theorem begins_one {t : TT} (h : ∀ d g, t ≠ .group d g) : ¬ Begins [t] := by
  rintro ⟨s, r, hs, he⟩
  cases hs <;> simp at he <;> exact h _ _ he.1

theorem begins_two {t t' : TT} (h : ∀ d g, t ≠ .group d g) (h' : ∀ d g, t' ≠ .group d g) : ¬ Begins [t, t'] := by
  rintro ⟨s, r, hs, he⟩
  cases hs <;> simp at he
  · exact h _ _ he.1
  · exact h _ _ he.1
  · exact h' _ _ he.2.1
  · exact h' _ _ he.2.1

theorem sameData_nil : SameData (Value.mk (.composite (.unnamed ([] : List (Value Unit)))) ()) (Value.mk (.composite (.unnamed ([] : List (Value Unit)))) ()) :=
  .unnamed rfl (by simp)
theorem sameData_nil' : SameData (Value.mk (.composite (.named ([] : List (Str × Value Unit)))) ()) (Value.mk (.composite (.named ([] : List (Str × Value Unit)))) ()) :=
  .named rfl (by simp)

theorem sameData_one {v w : Value Unit} (h : SameData v w) : SameData (Value.mk (.composite (.unnamed [v])) ()) (Value.mk (.composite (.unnamed [w])) ()) :=
  .unnamed rfl (by
    intro i x y hx hy
    match i with
    | 0 => simp at hx hy; subst hx hy; exact h
    | i + 1 => simp at hx)

theorem sameData_cons {v w : Value Unit} {vs ws : List (Value Unit)} (h : SameData v w)
    (hs : SameData (Value.mk (.composite (.unnamed vs)) ()) (Value.mk (.composite (.unnamed ws)) ())) :
    SameData (Value.mk (.composite (.unnamed (v :: vs))) ()) (Value.mk (.composite (.unnamed (w :: ws))) ()) := by
  cases hs with
  | number hv hw => simp [Value.number?] at hv
  | unnamed len sub =>
    refine .unnamed (by simp [len]) ?_
    intro i x y hx hy
    match i with
    | 0 => simp at hx hy; subst hx hy; exact h
    | i + 1 => exact sub i x y (by simpa using hx) (by simpa using hy)

theorem sameData_onePair {k : Str} {v w : Value Unit} (h : SameData v w) : SameData (Value.mk (.composite (.named [(k, v)])) ()) (Value.mk (.composite (.named [(k, w)])) ()) :=
  .named rfl (by
    intro i x y hx hy
    match i with
    | 0 => simp at hx hy; subst hx hy; exact h
    | i + 1 => simp at hx)

theorem sameData_consPair {k : Str} {v w : Value Unit} {vs ws : List (Str × Value Unit)} (h : SameData v w)
    (hs : SameData (Value.mk (.composite (.named vs)) ()) (Value.mk (.composite (.named ws)) ())) :
    SameData (Value.mk (.composite (.named ((k, v) :: vs))) ()) (Value.mk (.composite (.named ((k, w) :: ws))) ()) := by
  cases hs with
  | number hv hw => simp [Value.number?] at hv
  | named names sub =>
    refine .named (by simp [names]) ?_
    intro i x y hx hy
    match i with
    | 0 => simp at hx hy; subst hx hy; exact h
    | i + 1 => exact sub i x y (by simpa using hx) (by simpa using hy)

theorem fieldToken_key {u : Uni} {R : Rust} (hR : Literals R) {k nm : Str} {key : TT} (h : FieldToken u R k nm key) : Key R [key] k ∧ FieldName u k nm := by
  cases h with
  | ident hi hw => exact ⟨(C54_names R k []).1 hw, .ident hi⟩
  | quoted hs hr => exact ⟨(C54_names R k _).2 (hR.str _ _ hs hr).1, .quoted hs⟩

theorem twin {u : Uni} {R : Rust} (hR : Literals R) {part : Part} {ts : List TT} {s : Str} (h : Written u R part ts s) : TwinOf u R part ts s := by
  induction h with
  | true_ => exact ⟨_, _, listElem_expr (by simp) (begins_one (by simp)) (hR.bool true).1 (hR.bool true).2, .true_, .prim⟩
  | false_ => exact ⟨_, _, listElem_expr (by simp) (begins_one (by simp)) (hR.bool false).1 (hR.bool false).2, .false_, .prim⟩
  | str hs hr => exact ⟨_, _, listElem_expr (by simp) (begins_one (by simp)) (hR.str _ _ hs hr).1 (hR.str _ _ hs hr).2, .string hs, .prim⟩
  | char hc hx => exact ⟨_, _, listElem_expr (by simp) (begins_one (by simp)) (hR.char _ _ _ hc hx).1 (hR.char _ _ _ hc hx).2, .char hc, .prim⟩
  | @int t k shown hd hk =>
    have h := hR.int t k ⟨k, by omega, by omega⟩ shown hd rfl hk
    exact ⟨_, _, listElem_expr (by simp) (begins_one (by simp)) h.1 h.2, .number (.plain (n := ⟨k, by omega⟩) hd), .number (n := k) rfl rfl⟩
  | @neg t k shown hd hk =>
    have h := hR.neg t k ⟨-(k : Int), by omega, by omega⟩ shown hd rfl hk
    exact ⟨_, _, listElem_expr (by simp) (begins_two (by simp) (by simp)) h.1 h.2, .number (.minus (n := ⟨-(k : Int), by omega, by omega⟩) hd rfl), .number (n := -(k : Int)) rfl rfl⟩
  | unit hw => exact ⟨_, _, listElem_shape (.tuple _) (.tuple .nil), .composite (.unnamedEmpty hw), sameData_nil⟩
  | empty hw => exact ⟨_, _, listElem_shape (.struct _) (.struct .empty), .composite (.namedEmpty hw), sameData_nil'⟩
  | tuple h1 _ h2 ih =>
    obtain ⟨vs, ws, ha, hb, hc⟩ := ih
    exact ⟨_, _, listElem_shape (.tuple _) (.tuple ha), .composite (.unnamed h1 h2 hb), hc⟩
  | struct h1 _ h2 ih =>
    obtain ⟨vs, ws, ha, hb, hc⟩ := ih
    exact ⟨_, _, listElem_shape (.struct _) (.struct ha), .composite (.named h1 h2 hb), hc⟩
  | unitVariant hn hw h1 => exact ⟨_, _, listElem_shape (.tupleVariant _ _) (.tupleVariant .nil), .variant hn hw (.unnamedEmpty h1), .variant sameData_nil⟩
  | emptyVariant hn hw h1 => exact ⟨_, _, listElem_shape (.structVariant _ _) (.structVariant .empty), .variant hn hw (.namedEmpty h1), .variant sameData_nil'⟩
  | tupleVariant hn hw h1 _ h2 ih =>
    obtain ⟨vs, ws, ha, hb, hc⟩ := ih
    exact ⟨_, _, listElem_shape (.tupleVariant _ _) (.tupleVariant ha), .variant hn hw (.unnamed h1 h2 hb), .variant hc⟩
  | structVariant hn hw h1 _ h2 ih =>
    obtain ⟨vs, ws, ha, hb, hc⟩ := ih
    exact ⟨_, _, listElem_shape (.structVariant _ _) (.structVariant ha), .variant hn hw (.named h1 h2 hb), .variant hc⟩
  | one _ ih =>
    obtain ⟨v, w, ⟨h1, h2, h3⟩, hb, hc⟩ := ih
    exact ⟨_, _, .last h1 h2 h3, .val1 (.builtin hb), sameData_one hc⟩
  | more _ hw1 hw2 _ ih ih' =>
    obtain ⟨v, w, ⟨h1, h2, h3⟩, hb, hc⟩ := ih
    obtain ⟨vs, ws, ha', hb', hc'⟩ := ih'
    exact ⟨_, _, .cons h1 h2 h3 ha', .valCons (.builtin hb) hw1 hw2 hb', sameData_cons hc hc'⟩
  | onePair hk hw1 hw2 _ ih =>
    obtain ⟨v, w, ⟨h1, h2, h3⟩, hb, hc⟩ := ih
    obtain ⟨k1, k2⟩ := fieldToken_key hR hk
    exact ⟨_, _, .lastField k1 h1 h2 h3, .field1 k2 hw1 hw2 (.builtin hb), sameData_onePair hc⟩
  | morePairs hk hw1 hw2 _ hw3 hw4 _ ih ih' =>
    obtain ⟨v, w, ⟨h1, h2, h3⟩, hb, hc⟩ := ih
    obtain ⟨vs, ws, ha', hb', hc'⟩ := ih'
    obtain ⟨k1, k2⟩ := fieldToken_key hR hk
    exact ⟨_, _, .field k1 h1 h2 h3 ha', .fieldCons k2 hw1 hw2 (.builtin hb) hw3 hw4 hb', sameData_consPair hc hc'⟩

end Macro

open Macro

/-- C77. What is written in the notation that `value!` and texts have in common means the same to both: it compiles, it can be parsed, and the two values have the same data (numbers are signed in the
one, and signed or unsigned in the other). So they are encoded to the same bytes, or fail with the same error, at every type. -/
theorem C77_agree {u : Uni} (R : Rust) (hR : Literals R) (ts : List TT) (s : Str) (h : Written u R .value ts s) :
    ∃ v w, (∀ limit, 3 * countAll ts + 1 ≤ limit → valueMacro R limit ts = some v) ∧ fromStr u s = some (.ok w, []) ∧ SameData v w ∧
      ∀ (Id : Type) (reg : Reg Id) (cc : Bool) t fs, v.encode reg cc t = w.encode reg cc t ∧ v.encodeAsFields reg cc fs = w.encodeAsFields reg cc fs := by
  obtain ⟨v, w, ha, hb, hc⟩ := twin hR h
  refine ⟨v, w, fun limit hl => (C54_exact R ts v limit hl).2 ha.2.2, ?_, hc, fun Id reg cc t fs => C57_encoding_sees_data reg cc v w hc t fs⟩
  have := C20_whitespace_insignificant (u := u) w s [] (.builtin hb) (fun _ => trivial)
  rwa [List.append_nil] at this

section Examples

/-- A primitive as the macro has it: numbers are signed. -/
def exSigned : Value Unit → Option (Value Unit)
  | .mk (.primitive (.u128 n)) _ => if h : n.val < 2 ^ 31 then some (.mk (.primitive (.i128 ⟨n.val, by omega, by omega⟩)) ()) else none
  | v => some v

/-- The value of a literal. -/
def exRead (s : Str) : Option (Value Unit) := match fromStr .ascii s with
  | some (.ok v, []) => exSigned v
  | _ => none

/-- A small part of Rust: expressions are names, literals, numbers with a minus, and groups. -/
def exTwinParse : List TT → Parsed
  | [] => .absent
  | .punct ['-'] :: .lit t s :: r => .upTo [.punct ['-'], .lit t s] r
  | .punct _ :: _ => .absent
  | t :: r => .upTo [t] r

/-- The same with its values. -/
def exTwin : Rust where
  parse := exTwinParse
  value
    | [.lit t _] => exRead t
    | [.ident s] => exRead s
    | [.punct ['-'], .lit t _] => exRead ('-' :: t)
    | _ => none
  stringify _ := []
  parse_nil := rfl
  parse_split := by
    intro ts e rest h
    unfold exTwinParse at h
    split at h
    · cases h
    · cases h; exact ⟨rfl, rfl⟩
    · cases h
    · rename_i t r h1 h2
      cases h
      refine ⟨rfl, ?_⟩
      cases t with
      | punct s => exact (h2 s rfl).elim
      | _ => rfl
  parse_stop := by
    intro e t rest h ht
    unfold exTwinParse at h
    split at h
    · cases h
    · rename_i a b r
      cases r with
      | nil => rfl
      | cons x r => simp at h
    · cases h
    · rename_i t' r h1 h2
      simp only [Parsed.upTo.injEq] at h
      rw [h.2]
      cases t' with
      | punct s => exact (h2 s rfl).elim
      | _ => rfl

theorem exRead_of {s : Str} {w v : Value Unit} (h : Txt .ascii NoCustom (.blt w) s) (hv : exSigned w = some v) : exRead s = some v := by
  have := C20_whitespace_insignificant (u := .ascii) w s [] (.builtin h) (fun _ => trivial)
  rw [List.append_nil] at this
  unfold exRead
  rw [this]
  exact hv

theorem exTwin_literals : Literals exTwin where
  bool b := by
    cases b
    · exact ⟨rfl, exRead_of .false_ rfl⟩
    · exact ⟨rfl, exRead_of .true_ rfl⟩
  str s t h _ := ⟨rfl, exRead_of (.string h) rfl⟩
  char c t _ h _ := ⟨rfl, exRead_of (.char h) rfl⟩
  int t k n _ h hn hk := ⟨rfl, by
    refine exRead_of (.number (.plain (n := ⟨k, by omega⟩) h)) ?_
    show (if h : k < 2 ^ 31 then some (Value.mk (.primitive (.i128 ⟨k, _, _⟩)) ()) else none) = _
    rw [dif_pos hk]
    obtain ⟨x, h1, h2⟩ := n
    simp only at hn
    subst hn
    rfl⟩
  neg t k n _ h hn _ := ⟨rfl, exRead_of (.number (.minus h hn)) rfl⟩

/-- `Foo { a: (1, -2), "b c": "x" }`. -/
theorem exWritten : Written .ascii exTwin .value
    [.ident "Foo".toList, .group .brace [.ident ['a'], colon, .group .paren [.lit ['1'] ['1'], comma, .punct ['-'], .lit ['2'] ['2']], comma, .lit "\"b c\"".toList "b c".toList, colon, .lit "\"x\"".toList ['x']]]
    "Foo { a: (1, -2), \"b c\": \"x\" }".toList := by
  have w0 : Ws Uni.ascii [] := by intro c hc; cases hc
  have w1 : Ws Uni.ascii [' '] := by intro c hc; simp at hc; subst hc; decide
  have hx : StrLit ['x'] "\"x\"".toList := .mk (s := ['x']) (t := ['x']) (.plain (by decide) (by decide) .nil)
  have hb : StrLit "b c".toList "\"b c\"".toList := .mk (s := "b c".toList) (t := "b c".toList) (.plain (by decide) (by decide) (.plain (by decide) (by decide) (.plain (by decide) (by decide) .nil)))
  have d1 : DecVal ['1'] 1 := .single (c := '1') (by decide)
  have d2 : DecVal ['2'] 2 := .single (c := '2') (by decide)
  have t1 : Written .ascii exTwin .list [.lit ['1'] ['1'], comma, .punct ['-'], .lit ['2'] ['2']] "1, -2".toList :=
    .more (.int d1 (by decide)) w0 w1 (.one (.neg d2 (by decide)))
  have t2 : Written .ascii exTwin .value [.group .paren [.lit ['1'] ['1'], comma, .punct ['-'], .lit ['2'] ['2']]] "(1, -2)".toList := .tuple w0 t1 w0
  have t3 : Written .ascii exTwin .pairs [.lit "\"b c\"".toList "b c".toList, colon, .lit "\"x\"".toList ['x']] "\"b c\": \"x\"".toList :=
    .onePair (.quoted hb (by decide)) w0 w1 (.str hx (by decide))
  have hw : Whole exTwin [.ident ['a']] := rfl
  have t4 : Written .ascii exTwin .pairs [.ident ['a'], colon, .group .paren [.lit ['1'] ['1'], comma, .punct ['-'], .lit ['2'] ['2']], comma, .lit "\"b c\"".toList "b c".toList, colon, .lit "\"x\"".toList ['x']]
      "a: (1, -2), \"b c\": \"x\"".toList := .morePairs (.ident (.mk (by decide) (by simp)) hw) w0 w1 t2 w0 w1 t3
  have nf : VariantName .ascii "Foo".toList "Foo".toList := .ident (.mk (by decide) (by decide)) (by decide) (by decide)
  exact .structVariant nf w1 w1 t4 w1

example : ∃ v w, valueMacro exTwin 100 [.ident "Foo".toList, .group .brace [.ident ['a'], colon, .group .paren [.lit ['1'] ['1'], comma, .punct ['-'], .lit ['2'] ['2']], comma, .lit "\"b c\"".toList "b c".toList,
      colon, .lit "\"x\"".toList ['x']]] = some v ∧ fromStr .ascii "Foo { a: (1, -2), \"b c\": \"x\" }".toList = some (.ok w, []) ∧ SameData v w := by
  obtain ⟨v, w, h1, h2, h3, -⟩ := C77_agree exTwin exTwin_literals _ _ exWritten
  exact ⟨v, w, h1 100 (by decide), h2, h3⟩

/-- Not in common: a comma at the end, which is for the macro only. -/
example : (∃ v, valueMacro exTwin 100 [.group .paren [.lit ['1'] ['1'], comma]] = some v) ∧ ∀ v, fromStr .ascii "(1,)".toList ≠ some (.ok v, []) := by
  refine ⟨⟨.mk (.composite (.unnamed [.mk (.primitive (.i128 ⟨1, by decide, by decide⟩)) ()])) (), rfl⟩, ?_⟩
  intro v h
  have : (match fromStr .ascii "(1,)".toList with | some (.ok _, _) => true | _ => false) = false := by decide +kernel
  rw [h] at this
  cases this

end Examples

end SV
