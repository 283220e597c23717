import Verif.Model.TraceShow
import Verif.Props.Hex
import Verif.Props.Decode
/-
Property C53: the message of an error of the tracing decoder.
-/
namespace SV

variable {Id : Type} {u : Uni}

/-- A step of a path as text: a name, or a position in square brackets. -/
def PathSeg.text : PathSeg → Str
  | .field s => s
  | .variant s => s
  | .index n => '[' :: Nat.toDigits 10 n ++ [']']

/-- A path as text: a dot before each step. -/
def pathText (p : Path) : Str := p.flatMap (fun s => '.' :: s.text)

/-- What has been decoded is shown in pretty style, with the debug output of type ids before each value, and lists of bytes in hexadecimal. -/
noncomputable def traceOpts (dbg : Id → List Str) : FmtOpts Id where
  style := .pretty 0
  indentBy := "  ".toList
  leadingIndent := []
  formatters := [hexFmt]
  context := some dbg

/-- What `hexFmt` is: an answer for nonempty lists of bytes, and for nothing else. -/
theorem hexFmt_spec (v : Value Id) : (∃ bs, bs ≠ [] ∧ IsBytes bs v ∧ (hexFmt v).map List.flatten = some ('0' :: 'x' :: upperHex bs)) ∨
    (hexFmt v = none ∧ ¬ ∃ bs, bs ≠ [] ∧ IsBytes bs v) := by
  by_cases h : ∃ bs, bs ≠ [] ∧ IsBytes bs v
  · have e : hexFmt v = some (hexWrites h.choose) := by simp [hexFmt, h]
    left
    refine ⟨h.choose, h.choose_spec.1, h.choose_spec.2, ?_⟩
    have : ∀ l : Str, (List.map (fun c => [c]) l).flatten = l := by
      intro l; induction l with
      | nil => rfl
      | cons c l ih => simp [ih]
    simp [e, hexWrites, this]
  · right
    exact ⟨by simp [hexFmt, h], h⟩

/-- The positions in the path are numbers of the machine (`usize`). -/
def Path.Fits (p : Path) : Prop := ∀ n, .index n ∈ p → n < 2 ^ 64

theorem path_display (p : Path) (hp : p.Fits) (w : Str) : Path.display stringWriter p w = (true, w ++ pathText p) := by
  induction p generalizing w with
  | nil => simp [Path.display, pathText]
  | cons s p ih =>
    have hp' : Path.Fits p := fun n hn => hp n (by simp [hn])
    have hs : ∀ w, s.display stringWriter w = (true, w ++ s.text) := by
      intro w
      cases s with
      | field s => rfl
      | variant s => rfl
      | index n =>
        have : n < 10 ^ 39 := Nat.lt_trans (hp n (by simp)) (by decide)
        simp [PathSeg.display, PathSeg.text, stringWriter, WM.andThen, decDigits_eq 39 n (by decide) this]
    simp only [Path.display, WM.andThen, stringWriter]
    rw [hs]
    simp only
    rw [ih hp']
    simp [pathText]

theorem trace_builder {W : Type} (wr : Writer W) (dbg : Id → List Str) : ((((Builder.new wr).pretty).formatContext (fun c w => runWrites wr (dbg c) w)).addCustomFormatter
    (formatHex wr)) = (traceOpts dbg).builder wr := by
  simp only [FmtOpts.builder, traceOpts, Builder.new, Builder.pretty, Builder.formatContext, Builder.addCustomFormatter, formatHex_eq]
  rfl

theorem write_append (o : FmtOpts Id) (v : Value Id) (w : Str) : (o.builder stringWriter).write u v w =
    (((o.builder stringWriter).write u v []).1, w ++ ((o.builder stringWriter).write u v []).2) := by
  simp [o.write_eq, runTr_string]

variable (de : DErr → List Str) (dbg : Id → List Str)

/-- The message of an error: texts are written by the `Display` of decode errors and the `Debug` of type ids. -/
def TErr.message (u : Uni) (de : DErr → List Str) (dbg : Id → List Str) (x : TErr (Value Id)) : Option Str :=
  x.toString u (fun e w => runWrites stringWriter (de e) w) (fun c w => runWrites stringWriter (dbg c) w)

/-- C53: the message for an error at the root. -/
theorem C53_root (e : DErr) : (TErr.fromDecode (V := Value Id) e).message u de dbg = some ("Error decoding value: ".toList ++ (de e).flatten) := by
  simp only [TErr.message, TErr.toString, TErr.display, WM.andThen, stringWriter]
  rw [runWrites_string]
  rfl

theorem message_eq (p : Path) (v : Value Id) (e : DErr) (hp : p.Fits) : (TErr.fromVisitor p v e).message u de dbg =
    (((traceOpts dbg).builder stringWriter).toString u v).map
      (fun t => "Error decoding value at ".toList ++ pathText p ++ ": ".toList ++ (de e).flatten ++ "\nDecoded so far:\n\n".toList ++ t) := by
  unfold TErr.message TErr.toString TErr.display displayValueWithTypeid
  rw [trace_builder]
  simp only [WM.andThen, stringWriter, List.nil_append]
  rw [path_display p hp]
  simp only
  rw [runWrites_string]
  simp only
  rw [write_append]
  unfold Builder.toString
  cases ((traceOpts dbg).builder stringWriter).write u v [] with
  | mk ok s => cases ok <;> rfl

/-- C53: the message for any other error has the path, the decode error, and what has been decoded, as it is shown with these options. -/
theorem C53_message (p : Path) (v : Value Id) (e : DErr) (hp : p.Fits) (s : Str) : (TErr.fromVisitor p v e).message u de dbg = some s ↔
    ∃ t, Shown u (traceOpts dbg) 0 (.val v) t ∧
      s = "Error decoding value at ".toList ++ pathText p ++ ": ".toList ++ (de e).flatten ++ "\nDecoded so far:\n\n".toList ++ t := by
  rw [message_eq de dbg p v e hp, Option.map_eq_some_iff]
  simp only [C17_exact]
  exact exists_congr fun t => and_congr_right fun _ => eq_comm

theorem hex_no256 {bs : List UInt8} {v w : Value Id} (h : IsBytes bs v) {f : Composite Id} (hf : v.fields? = some f) (hw : w ∈ f.vals) : ¬ Has256 w := by
  obtain ⟨vs, c, rfl, h2⟩ := isBytes_iff.1 h
  cases hf
  simp only [Composite.vals] at hw
  have : w.value ∈ bs.map (fun b => ValueDef.primitive (.u128 (.ofU8 b))) := h2 ▸ List.mem_map_of_mem hw
  obtain ⟨b, -, hb⟩ := List.mem_map.1 this
  cases w with | mk d c =>
  cases hb
  intro h; cases h

theorem has256_part {v w : Value Id} {f : Composite Id} (hf : v.fields? = some f) (hw : w ∈ f.vals) (h : Has256 w) : Has256 v := by
  cases v with | mk d c =>
  cases d with
  | composite g =>
    cases hf
    cases f with
    | named fs => obtain ⟨p, hp, rfl⟩ := List.mem_map.1 hw; exact .named hp h
    | unnamed vs => exact .unnamed hw h
  | variant g =>
    cases g with | mk n g =>
    cases hf
    cases f with
    | named fs => obtain ⟨p, hp, rfl⟩ := List.mem_map.1 hw; exact .vnamed hp h
    | unnamed vs => exact .vunnamed hw h
  | bitSequence b => cases hf
  | primitive b => cases hf

theorem exposed_trace (v : Value Id) : Exposed256 (traceOpts dbg) v ↔ Has256 v := by
  have cust : ∀ w : Value Id, (traceOpts dbg).custom w = (hexFmt w).map List.flatten := by
    intro w
    simp only [FmtOpts.custom, traceOpts, List.findSome?_cons, List.findSome?_nil]
    cases hexFmt w <;> rfl
  constructor
  · intro h
    induction h with
    | here hc hp => obtain ⟨b, rfl | rfl⟩ := hp; exacts [.u256, .i256]
    | part hc hf hw h ih => exact has256_part hf hw ih
  · have kid : ∀ (v w : Value Id) (f : Composite Id), v.fields? = some f → w ∈ f.vals → Has256 w → Exposed256 (traceOpts dbg) w → Exposed256 (traceOpts dbg) v := by
      intro v w f hf hw h1 h2
      refine .part ?_ hf hw h2
      rw [cust]
      rcases hexFmt_spec v with ⟨bs, -, hb, -⟩ | ⟨h, -⟩
      · exact (hex_no256 hb hf hw h1).elim
      · rw [h]; rfl
    have prim : ∀ (p : Primitive) (c : Id), (traceOpts dbg).custom (.mk (.primitive p) c) = none := by
      intro p c
      rw [cust]
      rcases hexFmt_spec (.mk (.primitive p) c) with ⟨bs, -, hb, -⟩ | ⟨h, -⟩
      · cases hb
      · rw [h]; rfl
    intro h
    induction h with
    | u256 => exact .here (prim _ _) ⟨_, .inl rfl⟩
    | i256 => exact .here (prim _ _) ⟨_, .inr rfl⟩
    | named hp h ih => exact kid _ _ _ rfl (List.mem_map_of_mem hp) h ih
    | unnamed hv h ih => exact kid _ _ _ rfl hv h ih
    | vnamed hp h ih => exact kid _ _ _ rfl (List.mem_map_of_mem hp) h ih
    | vunnamed hv h ih => exact kid _ _ _ rfl hv h ih

/-- C53: making the message panics precisely if what has been decoded so far has a 256 bit number. -/
theorem C53_panics (p : Path) (v : Value Id) (e : DErr) (hp : p.Fits) : (TErr.fromVisitor p v e).message u de dbg = none ↔ Has256 v := by
  rw [message_eq de dbg p v e hp, Option.map_eq_none_iff, ← exposed_trace dbg v]
  have := C07_with_formatters (u := u) (traceOpts dbg) v
  constructor
  · intro h
    by_contra hn
    obtain ⟨s, hs⟩ := this.2 hn
    rw [h] at hs; cases hs
  · intro h
    cases hs : ((traceOpts dbg).builder stringWriter).toString u v with
    | none => rfl
    | some s => exact (this.1 ⟨s, hs⟩ h).elim

theorem failsAt_fits {reg : Reg Id} {c : Bool} {t : Id} {bs : List UInt8} {path : Path} {soFar : Option (Value Id)} {e : DErr}
    (h : FailsAt reg c t bs path soFar e) : ∀ n, .index n ∈ path → n ≤ 100000000 := by
  induction h with
  | here => simp
  | tooMany => simp
  | tooManyVariant => simp
  | part h hk hr before small hb hf hseg hpart ih =>
    intro n hn
    rcases List.mem_cons.1 hn with hn | hn
    · cases hseg with
      | field => cases hn
      | index hna =>
        cases hn
        have := (List.getElem?_eq_some_iff.1 hk).1
        by_contra hlt
        exact hb ⟨hna, by omega⟩
    · exact ih n hn

/-- C53: an error of the tracing decoder for some input has one of these messages, or panics when it is displayed, in this way. -/
theorem C53_decode (reg : Reg Id) (al : Nat → Bool) (t : Id) (bs : List UInt8) (x : TErr (Value Id)) (h : traceDecode reg al t bs = .err x) :
    (∃ e, FailsAt reg false t bs [] none e ∧ x.message u de dbg = some ("Error decoding value: ".toList ++ (de e).flatten)) ∨
    (∃ path soFar e, FailsAt reg false t bs path (some soFar) e ∧ (x.message u de dbg = none ↔ Has256 soFar) ∧
      ∀ s, x.message u de dbg = some s ↔ ∃ txt, Shown u (traceOpts dbg) 0 (.val soFar) txt ∧
        s = "Error decoding value at ".toList ++ pathText path ++ ": ".toList ++ (de e).flatten ++ "\nDecoded so far:\n\n".toList ++ txt) := by
  cases x with
  | fromDecode e => exact .inl ⟨e, C38_root reg al t bs e h, C53_root de dbg e⟩
  | fromVisitor p v e =>
    have hf := C38_located reg al t bs p v e h
    have hp : p.Fits := fun n hn => Nat.lt_of_le_of_lt (failsAt_fits hf n hn) (by decide)
    exact .inr ⟨p, v, e, hf, C53_panics de dbg p v e hp, C53_message de dbg p v e hp⟩

/-- The writes that make up a function of a writer. -/
structure Writes (f : ∀ W : Type, Writer W → WM W) (t : Tr) : Prop where
  run : ∀ (W : Type) (wr : Writer W) (w : W), f W wr w = runTr wr t w

theorem Writes.one (s : Str) : Writes (fun _ wr => wr s) (Tr.w s) := by
  constructor
  intro W wr w
  simp only [runTr, Tr.w, runWrites]
  cases wr s w with | mk ok w' => cases ok <;> rfl

theorem Writes.list (l : List Str) : Writes (fun _ wr w => runWrites wr l w) (l, true) := by
  constructor
  intro W wr w
  simp only [runTr]
  cases runWrites wr l w with | mk ok w' => cases ok <;> rfl

theorem runWrites_andThen {W : Type} (wr : Writer W) (a b : List Str) (w : W) : runWrites wr (a ++ b) w = (WM.andThen (runWrites wr a) (runWrites wr b)) w := by
  induction a generalizing w with
  | nil => rfl
  | cons s a ih =>
    simp only [List.cons_append, runWrites, WM.andThen]
    cases wr s w with | mk ok w' =>
    cases ok with
    | true => exact ih w'
    | false => rfl

theorem Writes.andThen {f g : ∀ W : Type, Writer W → WM W} {a b : Tr} (hf : Writes f a) (hg : Writes g b) :
    Writes (fun W wr => f W wr >>w g W wr) (a >+> b) := by
  constructor
  intro W wr w
  have h1 := hf.run W wr w
  have h2 := hg.run W wr
  obtain ⟨la, oa⟩ := a
  simp only [WM.andThen, runTr, Tr.seq] at h1 h2 ⊢
  rw [h1]
  cases oa with
  | false =>
    simp only [Bool.false_eq_true, if_false]
    cases runWrites wr la w with | mk ok w' => cases ok <;> rfl
  | true =>
    simp only [if_true, runWrites_andThen, WM.andThen]
    cases runWrites wr la w with | mk ok w' =>
    cases ok with
    | true => exact h2 w'
    | false => rfl

theorem Writes.segment (s : PathSeg) : ∃ t, Writes (fun _ wr => s.display wr) t := by
  cases s with
  | index n => exact ⟨_, .andThen (.one _) (.andThen (.one _) (.one _))⟩
  | field s => exact ⟨_, .one s⟩
  | variant s => exact ⟨_, .one s⟩

theorem Writes.path (p : Path) : ∃ t, Writes (fun _ wr => Path.display wr p) t := by
  induction p with
  | nil => exact ⟨Tr.ok, ⟨fun _ wr w => rfl⟩⟩
  | cons s p ih =>
    obtain ⟨a, ha⟩ := Writes.segment s
    obtain ⟨b, hb⟩ := ih
    exact ⟨_, .andThen (.one _) (.andThen ha hb)⟩

/-- Displaying an error to any writer. -/
def TErr.displayTo (u : Uni) (de : DErr → List Str) (dbg : Id → List Str) (x : TErr (Value Id)) {W : Type} (wr : Writer W) : WM W :=
  x.display u wr (fun e w => runWrites wr (de e) w) (fun c w => runWrites wr (dbg c) w)

theorem Writes.error (x : TErr (Value Id)) : ∃ t, Writes (fun _ wr => x.displayTo u de dbg wr) t := by
  cases x with
  | fromDecode e => exact ⟨_, .andThen (.one _) (.list (de e))⟩
  | fromVisitor p v e =>
    obtain ⟨a, ha⟩ := Writes.path p
    have hv : Writes (fun _ wr => displayValueWithTypeid u wr (fun c w => runWrites wr (dbg c) w) v) (trValue u (traceOpts dbg).cfg v (traceOpts dbg).style) := by
      constructor
      intro W wr w
      unfold displayValueWithTypeid
      rw [trace_builder, FmtOpts.write_eq]
    exact ⟨_, .andThen (.one _) (.andThen ha (.andThen (.one _) (.andThen (.list (de e)) (.andThen (.one _) hv))))⟩

/-- C53: displayed to any writer, which may fail: it gets the same writes as one that records them and never fails, up to the first that fails, and then displaying fails too. -/
theorem C53_writer_failure (x : TErr (Value Id)) {W : Type} (wr : Writer W) (w : W) :
    x.displayTo u de dbg wr w = match runWrites wr (x.displayTo u de dbg logWriter []).2 w with
      | (true, w') => ((x.displayTo u de dbg logWriter []).1, w')
      | (false, w') => (false, w') := by
  obtain ⟨t, ht⟩ := Writes.error (u := u) de dbg x
  have h1 := ht.run W wr w
  have h2 := ht.run _ logWriter []
  rw [runTr_log] at h2
  rw [h1, h2]
  rfl

/-- C53: and the message consists of these writes. -/
theorem C53_writes (x : TErr (Value Id)) : x.message u de dbg = if (x.displayTo u de dbg logWriter []).1 then some (x.displayTo u de dbg logWriter []).2.flatten else none := by
  obtain ⟨t, ht⟩ := Writes.error (u := u) de dbg x
  have h1 := ht.run _ stringWriter []
  have h2 := ht.run _ logWriter []
  rw [runTr_log] at h2
  rw [runTr_string] at h1
  rw [h2]
  unfold TErr.message TErr.toString
  rw [show x.display u stringWriter (fun e w => runWrites stringWriter (de e) w) (fun c w => runWrites stringWriter (dbg c) w) [] = _ from h1]
  cases t.2 <;> simp

/-- A writer that accepts thirty characters. -/
example : (TErr.fromVisitor [.field ['b']] (.mk (.composite (.named [])) 5) .codec : TErr (Value Nat)).displayTo .ascii (fun _ => ["Not enough data".toList])
    (fun n => [Nat.toDigits 10 n]) (fun s w => if (w ++ s).length ≤ 30 then (true, w ++ s) else (false, w)) [] = (false, "Error decoding value at .b: ".toList) := by
  decide +kernel

/-- C53 is about something: in `(struct { a: u8, b: Vec<u8> }, ...)` the second item of `b` is missing. -/
example : (TErr.fromVisitor [.index 0, .field ['b'], .index 1] (.mk (.composite (.unnamed [.mk (.composite (.named [(['a'], .mk (.primitive (.u128 ⟨7, by decide⟩)) 0),
      (['b'], .mk (.composite (.unnamed [.mk (.primitive (.u128 ⟨1, by decide⟩)) 0])) 2)])) 3])) 13) .codec : TErr (Value Nat)).message .ascii
        (fun _ => ["Not enough data".toList]) (fun n => [Nat.toDigits 10 n]) =
    some "Error decoding value at .[0].b.[1]: Not enough data\nDecoded so far:\n\n<13> (\n  <3> {\n    a: <0> 7,\n    b: <2> 0x01\n  }\n)".toList := by
  decide +kernel

/-- `struct { a: U256, b: bool }` -/
def exReg256 : Reg Nat where
  resolve
    | 0 => some (.primitive .u256)
    | 1 => some (.primitive .bool)
    | 2 => some (.composite [⟨some ['a'], 0⟩, ⟨some ['b'], 1⟩])
    | _ => none
  rank t := t
  rank_lt := by
    intro t d v h hv
    split at h <;> cases h <;> simp [TypeDef.inline] at hv <;> omega

/-- The `b` is missing, and the error cannot be displayed. -/
example (de : DErr → List Str) (dbg : Nat → List Str) : ∃ x, traceDecode exReg256 (fun _ => true) 2 (List.replicate 32 1) = .err x ∧ x.message u de dbg = none := by
  refine ⟨.fromVisitor [.field ['b']] (.mk (.composite (.named [(['a'], .mk (.primitive (.u256 ⟨List.replicate 32 1, rfl⟩)) 0)])) 2) .codec,
    traceDecode_eq.2 ⟨3, rfl⟩, ?_⟩
  refine (C53_panics de dbg _ _ _ (by intro n hn; simp at hn)).2 ?_
  exact .named (p := (['a'], .mk (.primitive (.u256 ⟨List.replicate 32 1, rfl⟩)) 0)) (by simp) .u256

end SV
