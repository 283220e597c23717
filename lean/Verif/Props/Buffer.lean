import Verif.Proofs.Buffer
import Verif.Props.Doc
/-
C79: values and types that are read through serde's buffer (`#[serde(untagged)]`, `#[serde(tag = "..")]`, `#[serde(flatten)]`).
-/
namespace SV

variable {T : Type}

/-- Known gap: `from_value` can fill the buffer from a value just if there is no number of up to 128 bits and no variant in it, at any depth. -/
theorem C79_gap (v : Value T) : deContent v.der = none ↔ ∃ w, v.Has w ∧ w.Unheld := by
  constructor
  · intro h
    rcases copied_or v with ⟨c, hc⟩ | hu
    · rw [(copies_iff v c).2 hc] at h; cases h
    · exact hu
  · rintro ⟨w, hw, hu⟩
    cases h : deContent v.der with
    | none => rfl
    | some c => exact (copied_holds hw ⟨c, (copies_iff v c).1 h⟩ hu).elim

/-- The buffer is filled with just what the value holds. -/
theorem C79_copy (v : Value T) (c : Content) : deContent v.der = some c ↔ Copies v c := copies_iff v c

/-- Reading a value from the copy of a value gives the same as reading it directly (unless a composite poses as a bit sequence). -/
theorem C79_from_value (v : Value T) (hv : NoBitName v) (c : Content) (h : deContent v.der = some c) (w : Value Unit) : deValue c.der = some w ↔ Back v w := by
  rw [copies_read ((copies_iff v c).1 h) hv]
  exact back_iff

/-- So an untagged enum is never read from a value with a number or a variant in it, whichever types its variants have; not even if one of them is `Value`. -/
theorem C79_untagged {A : Type} (alts : List (Der → Option A)) (v w : Value T) (hw : v.Has w) (hu : w.Unheld) : deUntagged alts v.der = none := by
  rw [deUntagged, (C79_gap v).2 ⟨w, hw, hu⟩]

/-- An untagged enum is otherwise read as the first of its variants that can be read from the copy. -/
theorem C79_untagged_first {A : Type} (alts : List (Der → Option A)) (v : Value T) (a : A) : deUntagged alts v.der = some a ↔
    ∃ c pre f post, Copies v c ∧ alts = pre ++ f :: post ∧ f c.der = some a ∧ ∀ g ∈ pre, g c.der = none := by
  rw [deUntagged]
  cases h : deContent v.der with
  | none =>
    simp only [reduceCtorEq, false_iff]
    rintro ⟨c, _, _, _, hc, _⟩
    rw [(copies_iff v c).2 hc] at h
    cases h
  | some c =>
    simp only [List.findSome?_eq_some_iff]
    have hc := (copies_iff v c).1 h
    constructor
    · rintro ⟨pre, f, post, h1, h2, h3⟩
      exact ⟨c, pre, f, post, hc, h1, h2, h3⟩
    · rintro ⟨c', pre, f, post, hc', h1, h2, h3⟩
      have : c' = c := by
        have := (copies_iff v c').2 hc'
        rw [h] at this
        exact (Option.some.inj this).symm
      subst this
      exact ⟨pre, f, post, h1, h2, h3⟩

/-- The buffer can be filled from a document just if there are no numbers in 128 bit types, no enums and no malformed places in it, and then it is a copy of the document. -/
theorem C79_documents (strict : Bool) (d : Der) (doc : Doc) (h : Shows strict d doc) :
    (deContent d = none ↔ ∃ x, doc.Has x ∧ x.Unheld) ∧ ∀ c, deContent d = some c → c.doc = doc := by
  rcases copy_shows doc d h with ⟨c, h1, h2, h3⟩ | ⟨h1, x, h2⟩
  · rw [h1]
    refine ⟨⟨(by nofun), fun ⟨x, hx, hu⟩ => (h3 x hx hu).elim⟩, ?_⟩
    intro c' hc'
    cases hc'
    exact h2
  · rw [h1]
    exact ⟨⟨fun _ => ⟨x, h2⟩, fun _ => rfl⟩, (by nofun)⟩

/-- What is read from the buffer is what a format that insists on the end of maps and sequences gives for the document: for values, -/
theorem C79_value (strict : Bool) (d : Der) (doc : Doc) (h : Shows strict d doc) (hk : NoCharKeys doc) (c : Content) (hc : deContent d = some c) (v : Value Unit) :
    deValue c.der = some v ↔ DocValue true doc v := by
  have hd := (C79_documents strict d doc h).2 c hc
  subst hd
  rw [value_content c hk]
  exact C65_value true _ _ (C65_documents true _) v

/-- composites -/
theorem C79_composite (strict : Bool) (d : Der) (doc : Doc) (h : Shows strict d doc) (hk : NoCharKeys doc) (c : Content) (hc : deContent d = some c) (f : Composite Unit) :
    deComposite c.der = some f ↔ DocComposite true doc f := by
  have hd := (C79_documents strict d doc h).2 c hc
  subst hd
  rw [composite_content c hk]
  exact C65_composite true _ _ (C65_documents true _) f

/-- and primitives. -/
theorem C79_primitive (strict : Bool) (d : Der) (doc : Doc) (h : Shows strict d doc) (c : Content) (hc : deContent d = some c) (p : Primitive) :
    dePrimitive c.der = some p ↔ DocPrimitive doc p := by
  have hd := (C79_documents strict d doc h).2 c hc
  subst hd
  rw [primitive_content c]
  exact C65_primitive true _ _ (C65_documents true _) p

/-- In particular values in untagged enums, flattened fields and internally tagged enums come from such formats as they do elsewhere. -/
theorem C79_same (d : Der) (doc : Doc) (h : Shows true d doc) (hk : NoCharKeys doc) (c : Content) (hc : deContent d = some c) : deValue c.der = deValue d := by
  apply Option.ext
  intro v
  rw [C79_value true d doc h hk c hc v, C65_value true d doc h v]

/-- `("hi", { ok: true })` goes through the buffer. -/
example : let v : Value Unit := .mk (.composite (.unnamed [.mk (.primitive (.string "hi".toList)) (), .mk (.composite (.named [("ok".toList, .mk (.primitive (.bool true)) ())])) ()])) ()
    deUntagged [deValue] v.der = some v := by rfl

/-- `("hi", { n: 1 })` does not. -/
example : deUntagged [deValue] (Value.mk (.composite (.unnamed [.mk (.primitive (.string "hi".toList)) (),
    .mk (.composite (.named [("n".toList, .mk (.primitive (.u128 ⟨1, by decide⟩)) ())])) ()])) ()).der = none :=
  C79_untagged _ _ _ (.child (u := .mk (.composite (.named [("n".toList, .mk (.primitive (.u128 ⟨1, by decide⟩)) ())])) ()) (by simp [Value.children])
    (.child (u := .mk (.primitive (.u128 ⟨1, by decide⟩)) ()) (by simp [Value.children]) (.here _))) .u128

/-- JSON `["hi", { "n": 1 }]` does. -/
example : deUntagged [deValue] ((Doc.seq [.str "hi".toList, .map [(.str "n".toList, .num ⟨.u64, 1, by decide, by decide⟩)]]).der true) =
    some (Value.mk (.composite (.unnamed [.mk (.primitive (.string "hi".toList)) (),
      .mk (.composite (.named [("n".toList, .mk (.primitive (.u128 ⟨1, by decide⟩)) ())])) ()])) ()) := by rfl

end SV
