import Verif.Proofs.TraceErr
/-
Contexts of decoded values, and decoding of fields.
-/
namespace SV

variable {Id Γ Δ : Type}

/-- Apply a function to a result. -/
def Out.map {E A B : Type} (f : A → B) : Out E A → Out E B
  | .ok a => .ok (f a)
  | .err e => .err e
  | .panic => .panic

def mapDec (g : Γ → Δ) (x : Option (Out DErr (Value Γ × List UInt8))) : Option (Out DErr (Value Δ × List UInt8)) :=
  x.map (Out.map (fun y => (y.1.mapContext g, y.2)))

def mapGroup (g : Γ → Δ) (x : Option (Out (DErr × List UInt8) (Composite Γ × List UInt8))) :
    Option (Out (DErr × List UInt8) (Composite Δ × List UInt8)) :=
  x.map (Out.map (fun y => (y.1.mapContextS (fun (s : Unit) t => (g t, s)) (), y.2)))

theorem decItems_map (g : Γ → Δ) {dec : Id → List UInt8 → Option (Out DErr (Value Γ × List UInt8))}
    {dec' : Id → List UInt8 → Option (Out DErr (Value Δ × List UInt8))} (hd : ∀ t bs, dec' t bs = mapDec g (dec t bs)) : ∀ ts bs,
    decItems dec' ts bs = (decItems dec ts bs).map (Out.map (fun y => (mapValsS (fun (s : Unit) t => (g t, s)) y.1 (), y.2))) := by
  intro ts
  induction ts with
  | nil => intro bs; rfl
  | cons t ts ih =>
    intro bs
    simp only [decItems, hd]
    cases dec t bs with
    | none => rfl
    | some o => cases o with
      | panic => rfl
      | err e => rfl
      | ok x =>
        obtain ⟨v, r⟩ := x
        simp only [mapDec, Option.map_some, Out.map, ih]
        cases decItems dec ts r with
        | none => rfl
        | some o => cases o with
          | panic => rfl
          | err e => rfl
          | ok y => rfl

theorem decUnnamed_map (g : Γ → Δ) (al : Nat → Bool) {dec : Id → List UInt8 → Option (Out DErr (Value Γ × List UInt8))}
    {dec' : Id → List UInt8 → Option (Out DErr (Value Δ × List UInt8))} (hd : ∀ t bs, dec' t bs = mapDec g (dec t bs)) (ts : List Id) (bs : List UInt8) :
    decUnnamed al dec' ts bs = mapGroup g (decUnnamed al dec ts bs) := by
  unfold decUnnamed
  split
  · rfl
  · rw [decItems_map g hd]
    cases decItems dec ts bs with
    | none => rfl
    | some o => cases o <;> rfl

theorem decComposite_map (g : Γ → Δ) (al : Nat → Bool) {dec : Id → List UInt8 → Option (Out DErr (Value Γ × List UInt8))}
    {dec' : Id → List UInt8 → Option (Out DErr (Value Δ × List UInt8))} (hd : ∀ t bs, dec' t bs = mapDec g (dec t bs)) (fs : List (Field Id)) (bs : List UInt8) :
    decComposite al dec' fs bs = mapGroup g (decComposite al dec fs bs) := by
  rw [decComposite_eq, decComposite_eq]
  split
  · rfl
  · rw [decItems_map g hd]
    cases decItems dec (fs.map (fun f => f.id)) bs with
    | none => rfl
    | some o => cases o with
      | panic => rfl
      | err e => rfl
      | ok y =>
        simp only [Option.map_some, Out.map, mapGroup]
        split
        · rw [Composite.mapContextS, mapFieldsS_zip]
        · rfl

theorem decN_map (g : Γ → Δ) (reg : Reg Id) (al : Nat → Bool) (ctx : Id → Γ) (n : Nat) : ∀ c t bs,
    decN reg al (fun u => g (ctx u)) n c t bs = mapDec g (decN reg al ctx n c t bs) := by
  induction n with
  | zero => intro c t bs; rfl
  | succ n ih =>
    intro c t bs
    have hmk : ∀ (mk : Composite Γ → Value Γ) (mk' : Composite Δ → Value Δ) x, (∀ cs, mk' (cs.mapContextS (fun (s : Unit) t => (g t, s)) ()) = (mk cs).mapContext g) →
        mkVal mk' (mapGroup g x) = mapDec g (mkVal mk x) := by
      intro mk mk' x h
      cases x with
      | none => rfl
      | some o => cases o with
        | panic => rfl
        | err e => rfl
        | ok y => simp only [mapGroup, mkVal, mapDec, Option.map_some, Out.map, h]
    rw [decN, decN]
    cases visit reg c t bs with
    | error e => rfl
    | ok w =>
      obtain ⟨ty, c', s⟩ := w
      cases s with
      | leaf l r => cases l <;> rfl
      | items ts r =>
        simp only
        rw [decUnnamed_map g al (ih c')]
        exact hmk _ _ _ (fun cs => rfl)
      | composite fs r =>
        simp only
        rw [decComposite_map g al (ih c')]
        exact hmk _ _ _ (fun cs => rfl)
      | variant nm fs r =>
        simp only
        rw [decComposite_map g al (ih c')]
        exact hmk _ _ _ (fun cs => rfl)

theorem decodeWith_map (g : Γ → Δ) (reg : Reg Id) (al : Nat → Bool) (ctx : Id → Γ) (t : Id) (bs : List UInt8) :
    decodeWith (fun u => g (ctx u)) reg al t bs = (decodeWith ctx reg al t bs).map (fun x => (x.1.mapContext g, x.2)) := by
  obtain ⟨n, h⟩ := decodeWith_eq.1 (rfl : decodeWith ctx reg al t bs = _)
  rw [decodeWith_eq]
  exact ⟨n, by rw [decN_map, h]; rfl⟩

theorem decodeFields_map (g : Γ → Δ) (reg : Reg Id) (al : Nat → Bool) (ctx : Id → Γ) (fs : List (Field Id)) (bs : List UInt8) :
    decodeFields (fun u => g (ctx u)) reg al fs bs =
      (decodeFields ctx reg al fs bs).map (fun x => (x.1.mapContextS (fun (s : Unit) t => (g t, s)) (), x.2)) := by
  obtain ⟨n, h⟩ := decodeFields_eq.1 (rfl : decodeFields ctx reg al fs bs = _)
  rw [decodeFields_eq]
  exact ⟨n, by rw [decComposite_map g al (decN_map g reg al ctx n false), h]; rfl⟩

/-! ### Fields -/

theorem decItems_complete_al (reg : Reg Id) (al : Nat → Bool) (canon : Prop) (ctx : Id → Γ) {c ts} {vs : List (Value Γ)} {p}
    (h : ScaleAll reg canon .u256 ctx c ts vs p) (hal : ∀ v ∈ vs, AllocOk al v) (r : List UInt8) :
    ∃ n, decItems (decN reg al ctx n c) ts (p ++ r) = some (.ok (vs, r)) := by
  induction vs generalizing ts p with
  | nil => cases h; exact ⟨0, rfl⟩
  | cons v vs ih => cases h with
    | @cons _ _ _ _ _ p1 p2 h1 h2 =>
      obtain ⟨n2, h2⟩ := ih h2 (fun w hw => hal w (by simp [hw]))
      obtain ⟨n1, h1⟩ := decN_complete_al reg al canon ctx h1 (hal v (by simp)) (p2 ++ r)
      refine ⟨max n1 n2, ?_⟩
      have h1 := decN_mono reg al ctx (Nat.le_max_left n1 n2) _ _ _ _ h1
      have h2 := decItems_ext (decN_mono reg al ctx (Nat.le_max_right n1 n2) _) _ _ _ h2
      rw [List.append_assoc, decItems, h1]
      simp only
      rw [h2]

theorem decComposite_alloc {reg : Reg Id} {al : Nat → Bool} {ctx : Id → Γ} {n c} {fs : List (Field Id)} {bs cs r}
    (h : decComposite al (decN reg al ctx n c) fs bs = some (.ok (cs, r))) : al fs.length = true ∧ ∀ v ∈ cs.vals, AllocOk al v := by
  rw [decComposite_eq] at h
  split at h
  · cases h
  · rename_i hal
    split at h
    · cases h
    · cases h
    · cases h
    · rename_i vs r' h1
      cases h
      have := decItems_alloc (decN_alloc reg al ctx n c) _ _ _ _ h1
      have hs : HasShape fs vs (if isNamed fs then .named ((fs.map (fun f => f.name.getD [])).zip vs) else .unnamed vs) := hasShape_iff.2 rfl
      have hl : vs.length = fs.length := by simpa using this.1
      exact ⟨by simpa using hal, by rw [hasShape_vals hs hl]; exact this.2⟩

theorem decodeFields_ok_iff {ctx : Id → Γ} {reg : Reg Id} {al : Nat → Bool} {fs : List (Field Id)} {bs r : List UInt8} {cs : Composite Γ} :
    decodeFields ctx reg al fs bs = .ok (cs, r) ↔ al fs.length = true ∧ (∀ v ∈ cs.vals, AllocOk al v) ∧
      ∃ p vs, bs = p ++ r ∧ ScaleAll reg False .u256 ctx false (fs.map (fun f => f.id)) vs p ∧ HasShape fs vs cs := by
  rw [decodeFields_eq]
  constructor
  · rintro ⟨n, h⟩
    have h1 := decComposite_alloc h
    obtain ⟨p, vs, h2, h3, h4⟩ := decComposite_sound (decN_sound reg al ctx n false) h
    exact ⟨h1.1, h1.2, p, vs, h2, h3, h4⟩
  · rintro ⟨hal, hv, p, vs, rfl, h, hs⟩
    have hl := (scaleAll_length h).symm
    rw [List.length_map] at hl
    rw [hasShape_vals hs hl] at hv
    obtain ⟨n, hn⟩ := decItems_complete_al reg al False ctx h hv r
    exact ⟨n, decComposite_of_items hal hn hs⟩

/-! ### The type of every node -/

theorem scale_sub {reg : Reg Id} {canon : Prop} {f : Bytes32 → Primitive} {c t} {v : Value Id} {bs} (h : Scale reg canon f id c t v bs) :
    ∀ w, Sub v w → Reach reg t w.context ∧ ∃ c' q, Scale reg canon f id c' w.context w q := by
  have lift : ∀ {t d u x}, reg.resolve t = some d → u ∈ d.refs → Reach reg u x → Reach reg t x := by
    intro t d u x ht hu h
    induction h with
    | self => exact .step .self ht hu
    | step _ h1 h2 ih => exact .step ih h1 h2
  have prim : ∀ {c t p bs}, Scale reg canon f id c t (.mk (.primitive p) t) bs → ∀ w, Sub (.mk (.primitive p) t) w →
      Reach reg t w.context ∧ ∃ c' q, Scale reg canon f id c' w.context w q := by
    intro c t p bs h w hw
    cases hw with
    | self => exact ⟨.self, c, bs, h⟩
    | child hu => cases hu
  refine Scale.rec (motive_1 := fun c t v bs _ => ∀ w, Sub v w → Reach reg t w.context ∧ ∃ c' q, Scale reg canon f id c' w.context w q)
    (motive_2 := fun c ts vs bs _ => ∀ v ∈ vs, ∃ t ∈ ts, ∀ w, Sub v w → Reach reg t w.context ∧ ∃ c' q, Scale reg canon f id c' w.context w q)
    ?_ ?_ ?_ ?_ ?_ ?_ ?_ ?_ ?_ ?_ ?_ ?_ ?_ ?_ ?_ ?_ ?_ h
  · intro t b ht; exact prim (.bool ht)
  · intro t c bs ht hb; exact prim (.char ht hb)
  · intro t s p ht hp hl h'; exact prim (.str ht hp hl h')
  · intro t p k n bs ht hk hb; exact prim (.uint ht hk hb)
  · intro t p k n bs ht hk hb; exact prim (.int ht hk hb)
  · intro t b ht; exact prim (.u256 ht)
  · intro t b ht; exact prim (.i256 ht)
  · intro t u v bs ht _ ih w hw
    obtain ⟨h1, h2⟩ := ih w hw
    exact ⟨lift ht (by simp [TypeDef.refs]) h1, h2⟩
  · intro t p k n bs ht hk hn hb; exact prim (.compactUint ht hk hn hb)
  · intro t u vs p bs ht hp hl h' hall ih w hw
    cases hw with
    | self => exact ⟨.self, _, _, .sequence ht hp hl h' hall⟩
    | child hu hw =>
      obtain ⟨t', ht', h1⟩ := ih _ hu
      obtain ⟨h1, h2⟩ := h1 w hw
      exact ⟨lift ht (by simp [TypeDef.refs, List.eq_of_mem_replicate ht']) h1, h2⟩
  · intro t u m vs bs ht hall ih w hw
    cases hw with
    | self => exact ⟨.self, _, _, .array ht hall⟩
    | child hu hw =>
      obtain ⟨t', ht', h1⟩ := ih _ hu
      obtain ⟨h1, h2⟩ := h1 w hw
      exact ⟨lift ht (by simp [TypeDef.refs, List.eq_of_mem_replicate ht']) h1, h2⟩
  · intro c t ts vs bs ht hc hall ih w hw
    cases hw with
    | self => exact ⟨.self, _, _, .tuple ht hc hall⟩
    | child hu hw =>
      obtain ⟨t', ht', h1⟩ := ih _ hu
      obtain ⟨h1, h2⟩ := h1 w hw
      exact ⟨lift ht ht' h1, h2⟩
  · intro c t fs vs cs bs ht hc hall hs ih w hw
    cases hw with
    | self => exact ⟨.self, _, _, .composite ht hc hall hs⟩
    | @child _ u _ hu hw =>
      have hl := (scaleAll_length hall).symm
      rw [List.length_map] at hl
      have hu : u ∈ vs := by rw [← hasShape_vals hs hl]; cases cs <;> exact hu
      obtain ⟨t', ht', h1⟩ := ih _ hu
      obtain ⟨h1, h2⟩ := h1 w hw
      exact ⟨lift ht ht' h1, h2⟩
  · intro t ds d vs cs bs ht hd hall hs ih w hw
    cases hw with
    | self => exact ⟨.self, _, _, .variant ht hd hall hs⟩
    | @child _ u _ hu hw =>
      have hl := (scaleAll_length hall).symm
      rw [List.length_map] at hl
      have hu : u ∈ vs := by rw [← hasShape_vals hs hl]; cases cs <;> exact hu
      obtain ⟨t', ht', h1⟩ := ih _ hu
      obtain ⟨h1, h2⟩ := h1 w hw
      exact ⟨lift ht (List.mem_flatMap.2 ⟨d, List.mem_of_find?_eq_some hd, ht'⟩) h1, h2⟩
  · intro t s o b p q ht hp hl hq w hw
    cases hw with
    | self => exact ⟨.self, _, _, .bits ht hp hl hq⟩
    | child hu => cases hu
  · intro c v hv; cases hv
  · intro c t ts v vs bs bs' _ _ ih1 ih2 w hw
    rcases List.mem_cons.1 hw with rfl | hw
    · exact ⟨t, by simp, ih1⟩
    · obtain ⟨t', ht', h'⟩ := ih2 w hw
      exact ⟨t', by simp [ht'], h'⟩

/-- What is known of the composite at a type with fields. -/
theorem hasShape_named_iff {fs : List (Field Id)} {vs : List (Value Γ)} {cs : Composite Γ} (h : HasShape fs vs cs) (hl : vs.length = fs.length) :
    ((∃ ns, cs = .named ns ∧ fs.map (fun f => f.name) = ns.map (fun p => some p.1)) ↔ (fs ≠ [] ∧ ∀ f ∈ fs, f.name ≠ none)) ∧
    ((∃ vs, cs = .unnamed vs) ↔ (fs = [] ∨ ∃ f ∈ fs, f.name = none)) := by
  cases h with
  | @named names h1 h2 =>
    have hall : ∀ f ∈ fs, f.name ≠ none := by
      intro f hf hn
      have : f.name ∈ fs.map (fun f => f.name) := List.mem_map.2 ⟨f, hf, rfl⟩
      rw [h2, hn] at this
      simp at this
    have hlen := congrArg List.length h2
    simp only [List.length_map] at hlen
    refine ⟨⟨fun _ => ⟨h1, hall⟩, fun _ => ⟨_, rfl, ?_⟩⟩, ?_⟩
    · rw [h2]
      have : (names.zip vs).map (fun p => some p.1) = ((names.zip vs).map (fun p => p.1)).map some := by simp [List.map_map, Function.comp_def]
      rw [this, List.map_fst_zip (by omega)]
    · constructor
      · rintro ⟨_, h⟩; cases h
      · rintro (h | ⟨f, hf, hn⟩)
        · exact (h1 h).elim
        · exact (hall f hf hn).elim
  | unnamed h1 =>
    refine ⟨⟨?_, ?_⟩, ⟨fun _ => h1, fun _ => ⟨_, rfl⟩⟩⟩
    · rintro ⟨_, h, _⟩; cases h
    · rintro ⟨h2, h3⟩
      rcases h1 with h | ⟨f, hf, hn⟩
      · exact (h2 h).elim
      · exact (h3 f hf hn).elim

end SV
