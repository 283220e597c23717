import Verif.Proofs.SerdeSize
import Verif.Proofs.Doc
import Verif.Props.Serde
import Verif.Props.Doc
/-
C91: how large the values are that serde makes.
-/
namespace SV

variable {T : Type}

/-- C91: the value that `to_value` makes has just the size of the data (one for each call of the serializer, for each character of a string and for each byte), its names are just those of the data,
and it is nested as deeply as they are. -/
theorem C91_to_value (x : Ser) (v : Value Unit) (h : x.toValue = .ok v) : v.size = x.size ∧ v.nameSize = x.nameSize ∧ ∀ n, Deep v n ↔ SerDeep x n := by
  rw [C42_to_value] at h
  exact ⟨(stands_size h).1, (stands_size h).2, stands_deep h⟩

-- `{ a: Some("hi"), bytes }` with the bytes 1, 2, 3
example : ∃ v, (Ser.struct [("a".toList, .some (.str "hi".toList)), ("b".toList, .bytes [1, 2, 3])]).toValue = .ok v ∧ v.size = 9 ∧ v.nameSize = 6 ∧ Deep v 3 := by
  refine ⟨_, rfl, rfl, rfl, ?_⟩
  exact .inside (List.mem_cons_self ..) (.inside (List.mem_singleton.2 rfl) .here)

/-- C91: `to_value` of a value is at least as large as that value, and at most three times (33 times if there are 256 bit numbers) as large, plus the characters of its names; it is nested at most twice as
deeply, and one more. -/
theorem C91_value_to_value (v : Value T) (w : Value Unit) (h : v.serialize.toValue = .ok w) :
    v.size ≤ w.size ∧ w.size ≤ 33 * v.size + v.nameSize ∧ (¬ Has256 v → w.size ≤ 3 * v.size + v.nameSize) ∧ ∀ n, Deep w n → ∃ m, Deep v m ∧ n ≤ 2 * m + 1 := by
  have hf := serialize_flat.1 h
  obtain ⟨a, b, c⟩ := flat_size hf
  refine ⟨a, by omega, fun hn => by have := c hn; omega, fun n hn => ?_⟩
  obtain ⟨m, hm, hle⟩ := flat_deep hf n hn
  exact ⟨m, hm, by omega⟩

/-- C91: doing it again changes nothing: `to_value` of what `to_value` made of a value is the same value. -/
theorem C91_again (v : Value T) (w : Value Unit) (h : v.serialize.toValue = .ok w) : w.serialize.toValue = .ok w :=
  serialize_flat.2 (flat_again (serialize_flat.1 h))

-- a variant becomes a composite with two fields the first time, and stays that
example : ∃ w, (Value.mk (.variant (.mk "V".toList (.unnamed [.mk (.primitive (.bool true)) ()]))) ()).serialize.toValue = .ok w ∧ w.size = 5 ∧ w.serialize.toValue = .ok w := ⟨_, rfl, rfl, rfl⟩

/-- C91: a value read from a value is at most as large and as deep, and has no more characters in names; only if there are 256 bit numbers it may be up to 33 times as large, and one deeper. -/
theorem C91_from_value (v : Value T) (w : Value Unit) (h : deValue v.der = some w) :
    w.size ≤ 33 * v.size ∧ w.nameSize ≤ v.nameSize ∧ (¬ Has256 v → w.size ≤ v.size) ∧ ∀ n, Deep w n → ∃ m, Deep v m ∧ n ≤ m + 1 ∧ (¬ Has256 v → n ≤ m) := by
  have hb := back_iff.1 h
  exact ⟨(back_size hb).1, (back_size hb).2.1, (back_size hb).2.2, back_deep hb⟩

-- a 256 bit number becomes a list of 32 numbers: 33 times as large
example : ∃ w, deValue (Value.mk (.primitive (.u256 ⟨List.replicate 32 7, rfl⟩)) ()).der = some w ∧ w.size = 33 := ⟨_, rfl, rfl⟩

/-- C91: a value read from a document of a self-describing format (JSON, say) is at most as large as the document, and the names in it are not longer than those in the document. -/
theorem C91_document (strict : Bool) (d : Der) (doc : Doc) (h : Shows strict d doc) (v : Value Unit) (hv : deValue d = some v) : v.size ≤ doc.size ∧ v.nameSize ≤ doc.nameSize :=
  docValue_size ((C65_value strict d doc h v).1 hv)

-- `{"a": [true, "hi"]}`
example : ∃ v, deValue ((Doc.map [(.str "a".toList, .seq [.bool true, .str "hi".toList])]).der true) = some v ∧ v.size = 6 ∧
    (Doc.map [(.str "a".toList, .seq [.bool true, .str "hi".toList])]).size = 6 := ⟨_, rfl, rfl, rfl⟩

end SV
