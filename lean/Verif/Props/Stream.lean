import Verif.Spec.Stream
import Verif.Props.Format
import Verif.Props.Parse
/-
C64: many values in one text.
-/
namespace SV

variable {u : Uni} {T : Type}

theorem dropWhile_ws {w x : Str} (hw : Ws u w) (hx : HeadNot u.ws x) : (w ++ x).dropWhile u.ws = x := by
  induction w with
  | nil =>
    cases x with
    | nil => rfl
    | cons c r => simp [hx c r rfl]
  | cons c w ih =>
    have hc := hw c List.mem_cons_self
    simp only [List.cons_append, List.dropWhile_cons, hc, if_true]
    exact ih (fun d hd => hw d (List.mem_cons_of_mem _ hd))

theorem ws_takeWhile (s : Str) : Ws u (s.takeWhile u.ws) := by
  intro c hc
  have := (List.all_eq_true.1 (List.all_takeWhile (p := u.ws) (l := s))) c hc
  exact this

/-- Reading values one after another, with the obvious loop around `from_str`, ends for every text, within as many rounds as it has characters (and one);
and it gives the values `vs` exactly if the text is a text of these. -/
theorem C64_stream (vs : List (Value Unit)) (s : Str) : readAll u (s.length + 1) s = some vs ↔ Stream u vs s := by
  have key : ∀ (n : Nat) (s : Str) (vs : List (Value Unit)), s.length < n → (readAll u n s = some vs ↔ Stream u vs s) := by
    intro n
    induction n with
    | zero => intro s vs h; omega
    | succ n ih =>
      intro s vs hs
      have hsplit := List.takeWhile_append_dropWhile (p := u.ws) (l := s)
      have hlen : (s.dropWhile u.ws).length ≤ s.length := (List.dropWhile_sublist _).length_le
      constructor
      · intro h
        unfold readAll at h
        rcases hd : s.dropWhile u.ws with _ | ⟨c, r⟩
        · rw [hd] at h
          cases h
          rw [hd, List.append_nil] at hsplit
          rw [← hsplit]
          exact .done (ws_takeWhile s)
        · rw [hd] at h hlen
          simp only at h
          rcases hp : fromStr u (c :: r) with _ | ⟨_ | v, rest⟩
          · rw [hp] at h; cases h
          · rw [hp] at h; cases h
          · rw [hp] at h
            simp only at h
            have hc := C09_consumes _ _ _ hp
            rcases hr : readAll u n rest with _ | ws
            · rw [hr] at h; cases h
            · rw [hr] at h
              cases h
              obtain ⟨x, hx, he, hf⟩ := (C20_parser_accepts_exactly_the_grammar _ _ _).1 hp
              rw [← hsplit, hd, he, ← List.append_assoc]
              exact .more (ws_takeWhile s) hx hf ((ih _ _ (by omega)).1 hr)
      · intro h
        unfold readAll
        cases h with
        | done hw =>
          have := dropWhile_ws hw (x := []) (by intro c r h; cases h)
          rw [List.append_nil] at this
          rw [this]
        | @more w v x vs rest hw hx hf h =>
          have hg := Txt.goodHead (fun _ _ h => h.elim) hx
          rw [List.append_assoc, dropWhile_ws hw (hg.append rest).notWs]
          have hp := (C20_parser_accepts_exactly_the_grammar (x ++ rest) rest v).2 ⟨x, hx, rfl, hf⟩
          have hc := C09_consumes _ _ _ hp
          rcases hxr : x ++ rest with _ | ⟨c, r⟩
          · rw [hxr] at hc; simp at hc
          · simp only
            rw [← hxr, hp]
            simp only
            rw [(ih rest vs (by simp only [List.length_append] at hs; simp only [List.length_append] at hc; omega)).2 h]
            rfl
  exact key _ _ _ (Nat.lt_succ_self _)

/-- The values of a text are unique. -/
theorem C64_unique (vs vs' : List (Value Unit)) (s : Str) (h : Stream u vs s) (h' : Stream u vs' s) : vs = vs' := by
  have h1 := (C64_stream vs s).2 h
  rw [(C64_stream vs' s).2 h'] at h1
  exact (Option.some.inj h1).symm

/-- Printable values, each printed by any builder without custom formatters and contexts, and followed by some whitespace, are read back, all of them in order. -/
theorem C64_print (l : List (Builder T Str × Value T × Str × Str))
    (h : ∀ p ∈ l, p.1.wr = stringWriter ∧ p.1.customFormatters = [] ∧ p.1.printContext = none ∧ Ws u p.1.indentBy ∧ Ws u p.1.leadingIndent ∧
      Printable u p.2.1 ∧ p.1.toString u p.2.1 = some p.2.2.1 ∧ Ws u p.2.2.2 ∧ p.2.2.2 ≠ []) :
    readAll u ((l.flatMap (fun p => p.2.2.1 ++ p.2.2.2)).length + 1) (l.flatMap (fun p => p.2.2.1 ++ p.2.2.2)) =
      some (l.map (fun p => p.2.1.removeContext)) := by
  rw [C64_stream]
  have key : ∀ w, Ws u w → Stream u (l.map (fun p => p.2.1.removeContext)) (w ++ l.flatMap (fun p => p.2.2.1 ++ p.2.2.2)) := by
    induction l with
    | nil => intro w hw; simpa using Stream.done hw
    | cons p l ih =>
      intro w hw
      obtain ⟨b, v, s, ws⟩ := p
      obtain ⟨h1, h2, h3, h4, h5, h6, h7, h8, h9⟩ := h _ List.mem_cons_self
      obtain ⟨s', h10, h11⟩ := C06_all_styles_round_trip b h1 h2 h3 h4 h5 v h6
      simp only at h7 h10
      rw [h7] at h10
      cases h10
      have hr := ih (fun p hp => h p (List.mem_cons_of_mem _ hp)) ws h8
      simp only [List.map_cons, List.flatMap_cons]
      have hf : ∀ r, PlainFollow s (ws ++ r) := by
        intro r _
        rcases ws with _ | ⟨c, ws⟩
        · exact absurd rfl h9
        · have hc : u.ws c = true := h8 c List.mem_cons_self
          refine ⟨?_, ?_⟩
          · cases hd : isDigit c with
            | false => rfl
            | true => rw [isDigit_not_ws hd] at hc; cases hc
          · rintro rfl
            rw [u.ws_ascii _ (by decide)] at hc
            exact absurd hc (by decide)
      obtain ⟨x, hx, he, -⟩ := (C20_parser_accepts_exactly_the_grammar _ _ _).1 (h11 [] (by intro _; trivial))
      simp only [List.append_nil] at he
      subst he
      rw [List.append_assoc, ← List.append_assoc w]
      exact .more hw hx (hf _) hr
  simpa using key [] (by intro c hc; simp at hc)

/-- Three values on one line, the first two of them without any space between. -/
example : readAll .ascii 100 "(1)(true)  Foo {} ".toList =
    some [.unnamedComposite [.u128 ⟨1, by decide⟩], .unnamedComposite [.bool true], .variant "Foo".toList (.named [])] := by rfl

/-- Two numbers run into each other if there is no space. -/
example : readAll .ascii 100 "1 2".toList = some [.u128 ⟨1, by decide⟩, .u128 ⟨2, by decide⟩] ∧
    readAll .ascii 100 "12".toList = some [.u128 ⟨12, by decide⟩] := ⟨by rfl, by rfl⟩

end SV
