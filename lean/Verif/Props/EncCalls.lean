import Verif.Props.Encode
import Verif.Proofs.EncCallsExact
import Verif.Proofs.EncCallsRules
/-
C75: how often the encoder is entered while a value is encoded.
-/
namespace SV

variable {Id Γ Δ : Type}

/-- C75: counting does not change what encoding does. -/
theorem C75_same (reg : Reg Id) (cc : Bool) (v : Value Γ) (t : Id) (out : List UInt8) : (v.encodeC reg cc t out).1 = v.encode reg cc t out := by
  rw [← erase_value reg cc v t]; rfl

/-- C75: the number of calls depends on the value, the type and the registry, and not on what is in the buffer. -/
theorem C75_buffer (reg : Reg Id) (cc : Bool) (v : Value Γ) (t : Id) (out : List UInt8) : (v.encodeC reg cc t out).2 = v.calls reg cc t :=
  steady_value reg cc v t out

/-- C75: nor does it depend on contexts. -/
theorem C75_contexts (reg : Reg Id) (cc : Bool) {S : Type} (f : S → Γ → Δ × S) (s : S) (v : Value Γ) (t : Id) :
    (v.mapContextS f s).calls reg cc t = v.calls reg cc t := by
  unfold Value.calls
  rw [encodeC_mapContext]

/-- C75: the rules for the number of calls. It is one for the value itself, and those for the values in it that are tried: in order, until one fails; again at what is in
wrappers if the composite does not fit; and again the only value of a composite if this does not fit either. The rules are complete, and they give the number of
calls together with whether encoding succeeds. -/
theorem C75_rules (reg : Reg Id) (cc : Bool) (v : Value Γ) (t : Id) (ok : Bool) (n : Nat) :
    CallsBy reg cc v t ok n ↔ n = v.calls reg cc t ∧ if ok then ∃ bs, Okay (v.encode reg cc t) bs else Fails (v.encode reg cc t) := by
  constructor
  · exact callsBy_sound
  · intro h
    obtain ⟨ok', m, h'⟩ := callsBy_exists reg cc v t
    obtain ⟨rfl, h1⟩ := callsBy_sound h'
    obtain ⟨rfl, h2⟩ := h
    cases ok <;> cases ok'
    · exact h'
    · obtain ⟨bs, h1⟩ := h1; exact (okay_not_fails h1 h2).elim
    · obtain ⟨bs, h2⟩ := h2; exact (okay_not_fails h2 h1).elim
    · exact h'

/-- C75: encoding ends after a number of calls that is bounded by the number of values in `v` and how deep they are nested, whatever the type is, and whether
it succeeds or fails. -/
theorem C75_bound (reg : Reg Id) (hr : NamesApart reg) (cc : Bool) (v : Value Γ) (d : Nat) (hd : ∀ n, Deep v n → n ≤ d + 1) (t : Id) :
    1 ≤ v.calls reg cc t ∧ v.calls reg cc t ≤ v.count * 3 ^ d := by
  refine ⟨?_, atMost_value hr cc v d hd t []⟩
  obtain ⟨w, x⟩ := v
  unfold Value.calls
  rw [Value.encodeC]
  exact Nat.le_add_right _ _

/-- C75: a value in the shape of its type is encoded with one call for each value in it, if no type in it is one of two wrappers or more around a list. -/
theorem C75_once (reg : Reg Id) (cc : Bool) (t : Id) (v : Value Γ) (h : Typed reg false t v) (he : Encodable reg cc t)
    (hn : ∀ u, Reach reg t u → NoWrappedList reg u) : (∃ bs, Okay (v.encode reg cc t) bs) ∧ v.calls reg cc t = v.count := by
  obtain ⟨bs, hb⟩ := typed_scale (f := .u256) h
  have h := ((rk_all reg cc (fun _ => ()) hb (fun a ha => ⟨he a ha, hn a ha⟩)).1 rfl).okay
  rw [removeContext_eq, Value.mapContext, encodeC_mapContext, count_mapContext] at h
  refine ⟨⟨bs, fun out => ?_⟩, ?_⟩
  · rw [← C75_same, h out]
  · unfold Value.calls
    rw [h []]

/-- C75: so is a value that was decoded at that type. -/
theorem C75_decoded (ctx : Id → Γ) (reg : Reg Id) (cc : Bool) (al : Nat → Bool) (t : Id) (bs r : List UInt8) (v : Value Γ)
    (h : decodeWith ctx reg al t bs = .ok (v, r)) (hs : Short v) (he : Encodable reg cc t) (hn : ∀ u, Reach reg t u → NoWrappedList reg u) :
    v.calls reg cc t = v.count := by
  obtain ⟨-, q, -, hq⟩ := decodeWith_ok_iff.1 h
  obtain ⟨p, h1, -, -⟩ := scale_canon hq hs
  have h := ((rk_all reg cc ctx h1 (fun a ha => ⟨he a ha, hn a ha⟩)).1 rfl).okay
  unfold Value.calls
  rw [h []]

/-- C75: at a primitive type, `Compact` or an enum, each composite with one value around a value that cannot be encoded there doubles the calls that it takes to
find this out: in `k` such composites it takes more than `2 ^ k` times as many. -/
theorem C75_doubles (reg : Reg Id) (cc : Bool) (t : Id) (d : TypeDef Id) (h : reg.resolve t = some d) (hd : IsSimple d) (v : Value Γ)
    (hv : Fails (v.encode reg cc t)) (x : Γ) (k : Nat) :
    Fails ((nest x k v).encode reg cc t) ∧ (nest x k v).calls reg cc t + 1 = 2 ^ k * (v.calls reg cc t + 1) := by
  have hf : FailC (v.encodeC reg cc t) (v.calls reg cc t) := by
    intro out
    obtain ⟨e, o, h1⟩ := hv out
    refine ⟨e, o, Prod.ext ?_ (C75_buffer reg cc v t out)⟩
    rw [C75_same, h1]
  obtain ⟨m, h1, h2⟩ := failC_nest h hd hf x k
  refine ⟨fun out => ?_, ?_⟩
  · obtain ⟨e, o, h1⟩ := h1 out
    exact ⟨e, o, by rw [← C75_same, h1]⟩
  · obtain ⟨e, o, h1⟩ := h1 []
    rw [← h2]
    unfold Value.calls
    rw [h1]

/-- C75: the condition on wrappers is needed: bytes (other than a single one) in the shape of `Vec<u8>` in `k + 1` newtypes are encoded correctly, and take
`2 ^ (k + 1)` calls besides those for the bytes although there are `k + 2` values. -/
theorem C75_wrapped_list (cc : Bool) (bs : List UInt8) (hl : bs.length < 2 ^ 32) (h1 : bs.length ≠ 1) (k : Nat) :
    Typed towerReg false (k + 2) (nest () (k + 1) (.fromBytes bs)) ∧
    Okay ((nest () (k + 1) (.fromBytes bs)).encode towerReg cc (k + 2)) (compactEnc bs.length ++ bs) ∧
    (nest () (k + 1) (.fromBytes bs)).calls towerReg cc (k + 2) = bs.length + 2 ^ (k + 1) ∧
    (nest () (k + 1) (.fromBytes bs)).count = bs.length + (k + 2) := by
  have h := tower_wrapped cc bs hl h1 k
  refine ⟨?_, fun out => by rw [← C75_same, h out], by unfold Value.calls; rw [h []], ?_⟩
  · have hb : ∀ (l : List UInt8), TypedAll towerReg false (List.replicate l.length 0) (l.map (fun b => Value.u128 (.ofU8 b))) := by
      intro l
      induction l with
      | nil => exact .nil
      | cons b l ih => exact .cons (.uint (p := .u8) (k := 1) rfl .u8 (by have := b.toNat_lt; simpa using this)) ih
    have h0 : Typed towerReg false 1 (.fromBytes bs) := by
      refine .sequence (u := 0) rfl (by simpa using hl) ?_
      have := hb bs
      rwa [List.length_map]
    have : ∀ k, Typed towerReg false (k + 1) (nest () k (.fromBytes bs)) := by
      intro k
      induction k with
      | zero => exact h0
      | succ k ih => exact .composite (fs := [⟨none, k + 1⟩]) rfl (fun h => by cases h) (.cons ih .nil) (.unnamed (.inr ⟨⟨none, k + 1⟩, by simp, rfl⟩))
    exact this (k + 1)
  · have h0 : (Value.fromBytes bs).count = bs.length + 1 := by
      unfold Value.fromBytes Value.unnamedComposite Composite.mkUnnamed
      rw [Value.count, bytes_count]; omega
    have : ∀ k, (nest () k (.fromBytes bs)).count = bs.length + (k + 1) := by
      intro k
      induction k with
      | zero => exact h0
      | succ k ih => rw [nest, Value.count, valuesCount, valuesCount, ih]; omega
    exact this (k + 1)

/-! ### Examples -/

/-- The names of `exReg` are distinct. -/
theorem exNames : NamesApart exReg := by
  refine ⟨fun t fs h => ?_, fun t ds h => ?_⟩
  · have h : exResolve t = some (.composite fs) := h
    unfold exResolve at h
    split at h <;> cases h <;> exact .inl (by simp)
  · have h : exResolve t = some (.variant ds) := h
    unfold exResolve at h
    split at h <;> cases h
    intro d hd
    simp at hd
    rcases hd with rfl | rfl | rfl
    · exact .inr (by simp)
    · exact .inr (by simp)
    · exact .inl (by simp)

/-- All types of `exReg` but the last are no list in two wrappers. -/
theorem exNoWrapped (t : Nat) (h20 : t ≠ 20) : NoWrappedList exReg t := by
  have hwr : ∀ {a b : Nat}, Wraps exReg a b → (a = 14 ∧ b = 0) ∨ (a = 15 ∧ b = 14) ∨ (a = 19 ∧ b = 18) ∨ (a = 20 ∧ b = 19) := by
    intro a b h
    cases h with
    | composite h =>
      have h : exResolve a = _ := h
      unfold exResolve at h
      split at h <;> simp at h <;> simp [← h]
    | tuple h =>
      have h : exResolve a = _ := h
      unfold exResolve at h
      split at h <;> simp at h
  intro a b c e h1 h2 h3
  rcases hwr h1 with ⟨rfl, rfl⟩ | ⟨rfl, rfl⟩ | ⟨rfl, rfl⟩ | ⟨rfl, rfl⟩
  · rcases hwr h2 with ⟨h, rfl⟩ | ⟨h, rfl⟩ | ⟨h, rfl⟩ | ⟨h, rfl⟩ <;> simp at h
  · rcases hwr h2 with ⟨h, rfl⟩ | ⟨h, rfl⟩ | ⟨h, rfl⟩ | ⟨h, rfl⟩ <;> simp at h
    cases h3 with
    | done _ => constructor <;> simp [exReg, exResolve]
    | step h _ => rcases hwr h with ⟨h, -⟩ | ⟨h, -⟩ | ⟨h, -⟩ | ⟨h, -⟩ <;> simp at h
  · rcases hwr h2 with ⟨h, rfl⟩ | ⟨h, rfl⟩ | ⟨h, rfl⟩ | ⟨h, rfl⟩ <;> simp at h
  · exact (h20 rfl).elim

/-- The bound, for the value of the test in encode.rs: bytes where a number is expected. There are 6 values and 3 levels of them; 4 calls are made. -/
example : (Value.unnamedComposite [.fromBytes [0, 0, 0, 0]]).calls exReg true 14 = 4 ∧ (Value.unnamedComposite [.fromBytes [0, 0, 0, 0]]).count = 6 ∧
    (∀ n, Deep (Value.unnamedComposite [.fromBytes [0, 0, 0, 0]]) n → n ≤ 2 + 1) := by
  refine ⟨rfl, rfl, fun n h => ?_⟩
  cases h with
  | here => decide
  | inside h1 h2 =>
    simp [Value.unnamedComposite, Composite.mkUnnamed, Value.children] at h1
    subst h1
    cases h2 with
    | here => decide
    | inside h1 h2 =>
      simp [Value.fromBytes, Value.unnamedComposite, Composite.mkUnnamed, Value.children] at h1
      subst h1
      cases h2 with
      | here => decide
      | inside h1 h2 => simp [Value.u128, Value.children] at h1

/-- A tuple of a struct and an enum that was decoded: one call for each of its eight values. -/
example : ∃ v, decodeAsType exReg (fun _ => true) 13 [7, 4, 9, 5, 1, 2, 3] = .ok (v, [3]) ∧ v.calls exReg true 13 = 8 ∧ v.count = 8 ∧
    Encodable exReg true 13 ∧ ∀ u, Reach exReg 13 u → NoWrappedList exReg u :=
  ⟨_, decodeWith_eq.2 ⟨5, rfl⟩, rfl, rfl, exEncodable 13 (by decide) (by decide),
    fun u hu => exNoWrapped u (by have := (exReach hu (by decide)).1; omega)⟩

/-- A string where a number is expected, in ten composites: 2047 calls for eleven values. -/
example : (nest () 10 (Value.string ['a'])).calls exReg true 0 + 1 = 2 ^ 10 * (1 + 1) ∧ (nest () 10 (Value.string ['a'])).count = 11 :=
  ⟨(C75_doubles exReg true 0 _ rfl trivial (Value.string ['a']) (fun _ => ⟨_, _, rfl⟩) () 10).2, rfl⟩

/-- The rules in use: a list of three values at `Vec<u8>`, the second of which fails. Three calls, and none for the third. -/
example : CallsBy exReg true (Value.unnamedComposite [.u128 ⟨1, by decide⟩, .string ['a'], .u128 ⟨3, by decide⟩]) 2 false (1 + (1 + 1)) := by
  refine .stuck (.sequence (u := 0) rfl (.next ⟨rfl, [1], fun _ => rfl⟩ (.stop ⟨rfl, fun _ => ⟨_, _, rfl⟩⟩))) ?_ (by decide)
  intro w h
  cases h with
  | composite h => cases h
  | tuple h => cases h
  | array h => cases h

end SV
