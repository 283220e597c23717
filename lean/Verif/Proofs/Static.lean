import Verif.Spec.Static
import Verif.Proofs.SerdeTyped
import Verif.Proofs.Decode
import Verif.Proofs.EncodeTyped
/-
The static route to SCALE (`derive(Encode)`) and the dynamic one (`to_value`, and encoding of the value) lead to the same bytes.
-/
namespace SV

variable {Id : Type} {ix : List (Str × VTy) → Str → UInt8} {reg : Reg Id}

/-- Canonical bytes of a value without contexts. -/
abbrev Canon (reg : Reg Id) (t : Id) (v : Value Unit) (bs : List UInt8) : Prop := Scale reg True .u256 (fun _ => ()) false t v bs
abbrev CanonAll (reg : Reg Id) (ts : List Id) (vs : List (Value Unit)) (bs : List UInt8) : Prop := ScaleAll reg True .u256 (fun _ => ()) false ts vs bs

theorem serAll_replicate (t : Ty) (ds : List Dat) : serAll t.ser ds = Ty.sers (List.replicate ds.length t) ds := by
  induction ds with
  | nil => rfl
  | cons d ds ih => rw [List.length_cons, List.replicate_succ, serAll, Ty.sers, ih]

theorem serFields_zip (fs : List (Str × Ty)) (ds : List Dat) :
    Ty.serFields fs ds = (Ty.sers (fs.map (fun f => f.2)) ds).map (fun ss => (fs.map (fun f => f.1)).zip ss) := by
  induction fs generalizing ds with
  | nil => cases ds <;> rfl
  | cons f fs ih =>
    obtain ⟨n, t⟩ := f
    cases ds with
    | nil => rfl
    | cons d ds =>
      simp only [Ty.serFields, List.map_cons, Ty.sers, ih]
      cases t.ser d <;> cases Ty.sers (fs.map (fun f => f.2)) ds <;> rfl

theorem toFields_zip (ns : List Str) (ss : List Ser) (vs : List (Value Unit)) (h : toValues ss = .ok vs) : toFields (ns.zip ss) = .ok (ns.zip vs) := by
  induction ss generalizing ns vs with
  | nil => cases h; cases ns <;> rfl
  | cons s ss ih =>
    rw [toValues] at h
    cases hs : s.toValue with
    | error e => rw [hs] at h; cases h
    | ok v =>
      rw [hs] at h
      cases hss : toValues ss with
      | error e => rw [hss] at h; cases h
      | ok ws =>
        rw [hss] at h
        cases h
        cases ns with
        | nil => rfl
        | cons n ns =>
          simp only [List.zip_cons_cons, toFields, hs, ih ns ws hss]
          rfl

theorem sers_length {ts : List Ty} {ds : List Dat} {ss : List Ser} (h : Ty.sers ts ds = some ss) : ss.length = ts.length ∧ ds.length = ts.length := by
  obtain ⟨h1, h2⟩ := sers_iff.1 h
  have := h1.length_eq
  rw [List.length_zip] at this
  omega

theorem toValues_length {ss : List Ser} {vs : List (Value Unit)} (h : toValues ss = .ok vs) : vs.length = ss.length := by
  induction ss generalizing vs with
  | nil => cases h; rfl
  | cons s ss ih =>
    rw [toValues] at h
    cases hs : s.toValue with
    | error e => rw [hs] at h; cases h
    | ok v =>
      rw [hs] at h
      cases hss : toValues ss with
      | error e => rw [hss] at h; cases h
      | ok ws => rw [hss] at h; cases h; simp [ih hss]

theorem infoAll_replicate {a : Ty} {t : Id} (h : Info ix reg a t) (n : Nat) : InfoAll ix reg (List.replicate n a) (List.replicate n t) := by
  induction n with
  | zero => exact .nil
  | succ n ih => exact .cons h ih

theorem bytes_canon {w : Id} (h : reg.resolve w = some (.primitive .u8)) (bs : List UInt8) :
    CanonAll reg (List.replicate bs.length w) (bs.map (fun b => .u128 (.ofU8 b))) bs := by
  induction bs with
  | nil => exact .nil
  | cons b bs ih =>
    have : Canon reg w (.u128 (.ofU8 b)) [b] := .uint h .u8 ⟨rfl, by simp [leNum]⟩
    exact .cons this ih

theorem serVariant_mem {vs : List (Str × VTy)} {n : Str} {v : VTy} (h : (n, v) ∈ vs) (hn : (vs.map (fun v => v.1)).Nodup) (ds : List Dat) :
    Ty.serVariant vs n ds = v.ser n ds := by
  induction vs with
  | nil => cases h
  | cons p vs ih =>
    obtain ⟨m, w⟩ := p
    rw [Ty.serVariant]
    rw [List.map_cons, List.nodup_cons] at hn
    rcases List.mem_cons.1 h with h | h
    · cases h; rw [if_pos rfl]
    · have : m ≠ n := by
        rintro rfl
        exact hn.1 (List.mem_map.2 ⟨_, h, rfl⟩)
      rw [if_neg this, ih h hn.2]

theorem find_index {ds : List (VariantDef Id)} (hn : (ds.map (fun d => d.index)).Nodup) {d : VariantDef Id} (h : d ∈ ds) :
    ds.find? (fun e => e.index == d.index) = some d := by
  induction ds with
  | nil => cases h
  | cons e ds ih =>
    rw [List.map_cons, List.nodup_cons] at hn
    rcases List.mem_cons.1 h with rfl | h
    · simp
    · have : e.index ≠ d.index := fun he => hn.1 (List.mem_map.2 ⟨d, h, he.symm⟩)
      rw [List.find?_cons_of_neg (by simpa using this)]
      exact ih hn.2 h

theorem num_lo {n : Num} : n.ty.lo = 0 ↔ n.ty.signed = false := by cases n.ty <;> decide

theorem uintType_prim {n : NumTy} (h : n.signed = false) : UintType n.prim (n.bits / 8) := by
  cases n <;> first | (cases h; done) | skip
  · exact .u8
  · exact .u16
  · exact .u32
  · exact .u64
  · exact .u128

theorem intType_prim {n : NumTy} (h : n.signed = true) : IntType n.prim (n.bits / 8) := by
  cases n <;> first | (cases h; done) | skip
  · exact .i8
  · exact .i16
  · exact .i32
  · exact .i64
  · exact .i128

mutual
theorem static_canon : ∀ {a : Ty} {d : Dat} {bs : List UInt8} {t : Id}, Static ix a d bs → Info ix reg a t →
    ∃ s v, a.ser d = some s ∧ s.toValue = .ok v ∧ Canon reg t v bs
  | _, _, _, t, .bool (b := b), .bool ht => ⟨_, _, rfl, rfl, .bool ht⟩
  | _, _, _, t, .unsigned (n := n) (m := m) h1 h2 h3, .num ht => by
    refine ⟨.num n, .primitive n.toPrim, by simp [Ty.ser], rfl, ?_⟩
    have : n.toPrim = .u128 (.ofNum n) := by rw [Num.toPrim, dif_pos (num_lo.2 h1)]
    rw [this]
    refine .uint ht (uintType_prim h1) ?_
    have : (U128.ofNum n).val = m := by simp [U128.ofNum, h2]
    rw [this]
    exact h3
  | _, _, _, t, .signed (n := n) h1 h3, .num ht => by
    refine ⟨.num n, .primitive n.toPrim, by simp [Ty.ser], rfl, ?_⟩
    have h0 : n.ty.lo ≠ 0 := by rw [Ne, num_lo, h1]; decide
    have : n.toPrim = .i128 (.ofNum n h0) := by rw [Num.toPrim, dif_neg h0]
    rw [this]
    exact .int ht (intType_prim h1) h3
  | _, _, _, t, .string h1 h2, .string ht => ⟨_, _, rfl, rfl, .str ht h1 (by omega) (fun _ => h2)⟩
  | _, _, _, t, .bytes (bs := bs) h1 h2, .bytes ht hw => by
    refine ⟨_, _, rfl, rfl, .sequence ht (by simpa using h1) (by simp; omega) (fun _ => by simpa using h2) ?_⟩
    rw [List.length_map]
    exact bytes_canon hw bs
  | _, _, _, t, .unit, .unit ht => ⟨_, _, rfl, rfl, .tuple ht (by simp) .nil⟩
  | _, _, _, t, .unitStruct, .unitStruct ht => ⟨_, _, rfl, rfl, .composite ht (by simp) .nil (.unnamed (.inl rfl))⟩
  | _, _, _, t, .none, .option ht _ => ⟨_, _, rfl, rfl, .variant (d := ⟨"None".toList, 0, []⟩) ht rfl .nil (.unnamed (.inl rfl))⟩
  | _, _, _, t, .some (bs := bs) h, .option (w := w) ht hi => by
    obtain ⟨s, v, h1, h2, h3⟩ := static_canon h hi
    refine ⟨.some s, .variant "Some".toList (.unnamed [v]), by rw [Ty.ser, h1]; rfl, by rw [Ser.toValue, h2]; rfl, ?_⟩
    have : ScaleAll reg True .u256 (fun _ => ()) false [w] [v] (bs ++ []) := .cons h3 .nil
    rw [List.append_nil] at this
    exact .variant (d := ⟨"Some".toList, 1, [⟨none, w⟩]⟩) ht rfl this (.unnamed (.inr ⟨⟨none, w⟩, by simp, rfl⟩))
  | _, _, _, t, .newtype (bs := bs) h, .newtype (w := w) ht hi => by
    obtain ⟨s, v, h1, h2, h3⟩ := static_canon h hi
    refine ⟨.newtypeStruct s, .unnamedComposite [v], by rw [Ty.ser, h1]; rfl, by rw [Ser.toValue, h2]; rfl, ?_⟩
    have : ScaleAll reg True .u256 (fun _ => ()) false [w] [v] (bs ++ []) := .cons h3 .nil
    rw [List.append_nil] at this
    exact .composite ht (by simp) this (.unnamed (.inr ⟨⟨none, w⟩, by simp, rfl⟩))
  | _, _, _, t, .seq (t := a) (ds := ds) h1 h2 h, .seq ht hi => by
    obtain ⟨ss, vs, h3, h4, h5⟩ := staticAll_canon h (infoAll_replicate hi ds.length)
    obtain ⟨h6, -⟩ := sers_length h3
    have h7 := toValues_length h4
    simp only [List.length_replicate] at h6
    have hl : vs.length = ds.length := by omega
    refine ⟨.seq ss, .unnamedComposite vs, by rw [Ty.ser, serAll_replicate, h3]; rfl, by rw [Ser.toValue, h4]; rfl, ?_⟩
    exact .sequence ht (by rw [hl]; exact h1) (by omega) (fun _ => by omega) (by rw [hl]; exact h5)
  | _, _, _, t, .tuple h, .tuple ht hi => by
    obtain ⟨ss, vs, h3, h4, h5⟩ := staticAll_canon h hi
    exact ⟨.tuple ss, .unnamedComposite vs, by rw [Ty.ser, h3]; rfl, by rw [Ser.toValue, h4]; rfl, .tuple ht (by simp) h5⟩
  | _, _, _, t, .tuple h, .array ht hi => by
    obtain ⟨ss, vs, h3, h4, h5⟩ := staticAll_canon h (infoAll_replicate hi _)
    exact ⟨.tuple ss, .unnamedComposite vs, by rw [Ty.ser, h3]; rfl, by rw [Ser.toValue, h4]; rfl, .array ht h5⟩
  | _, _, _, t, .tupleStruct h, .tupleStruct (ws := ws) ht hi => by
    obtain ⟨ss, vs, h3, h4, h5⟩ := staticAll_canon h hi
    refine ⟨.tupleStruct ss, .unnamedComposite vs, by rw [Ty.ser, h3]; rfl, by rw [Ser.toValue, h4]; rfl, .composite ht (by simp) (by rw [show (ws.map fun w => (⟨none, w⟩ : Field Id)).map (fun f => f.id) = ws from by rw [List.map_map]; exact List.map_id _]; exact h5) (.unnamed ?_)⟩
    cases ws with
    | nil => exact .inl rfl
    | cons w ws => exact .inr ⟨⟨none, w⟩, by simp, rfl⟩
  | _, _, _, t, .struct (fs := fs) h, .struct (gs := gs) hne ht hn hi => by
    obtain ⟨ss, vs, h3, h4, h5⟩ := staticAll_canon h hi
    refine ⟨.struct ((fs.map (fun f => f.1)).zip ss), .mk (.composite (.named ((fs.map (fun f => f.1)).zip vs))) (), by rw [Ty.ser, serFields_zip, h3]; rfl,
      by rw [Ser.toValue, toFields_zip _ _ _ h4]; simp [bind, Except.bind, Value.namedComposite, Composite.mkNamed], .composite ht (by simp) h5 (.named ?_ ?_)⟩
    · rintro rfl
      simp at hn
      exact hne hn
    · rw [hn, List.map_map]; rfl
  | _, _, _, t, .enum (vs := vs) (n := n) (v := v) (ds := ds) (bs := bs) hm h, .enum (ds := es) ht hnod hst hix hlen hnames hinfo => by
    obtain ⟨i, hi⟩ := List.getElem?_of_mem hm
    have hlt : i < es.length := by
      have := (List.getElem?_eq_some_iff.1 hi).1
      omega
    have he : es[i]? = some es[i] := List.getElem?_eq_getElem hlt
    obtain ⟨e1, e2, e3⟩ := hnames i _ _ hi he
    obtain ⟨ss, vs', h3, h4, h5⟩ := staticAll_canon h (hinfo i _ _ hi he)
    have hf := find_index hix (List.getElem_mem hlt)
    have key : ∀ cs, HasShape es[i].fields vs' cs → Canon reg t (.variant n cs) (ix vs n :: bs) := by
      intro cs hcs
      have := Scale.variant (reg := reg) (canon := True) (i256 := .u256) (ctx := fun _ => ()) ht hf h5 hcs
      rw [e1, e2] at this
      exact this
    rw [Ty.ser, serVariant_mem hm hnod]
    cases v with
    | unit =>
      cases h
      cases h3
      cases h4
      refine ⟨_, _, rfl, rfl, key _ (.unnamed (.inl ?_))⟩
      simpa [VTy.names] using e3
    | newtype a =>
      cases h with
      | cons h h' =>
        cases h'
        simp only [VTy.types, Ty.sers] at h3
        split at h3
        · next s ss' h6 h7 =>
          cases h7
          cases h3
          simp only [toValues] at h4
          cases hs : s.toValue with
          | error e => rw [hs] at h4; cases h4
          | ok w =>
            rw [hs] at h4
            cases h4
            refine ⟨_, _, by rw [VTy.ser, h6]; rfl, by rw [Ser.toValue, hs]; rfl, key _ (.unnamed (.inr ?_))⟩
            simp only [VTy.names, List.map_eq_singleton_iff] at e3
            obtain ⟨f, h8, h9⟩ := e3
            exact ⟨f, by rw [h8]; simp, h9⟩
        · cases h3
    | tuple as =>
      refine ⟨_, _, by rw [VTy.ser]; simp only [VTy.types] at h3; rw [h3]; rfl, by rw [Ser.toValue, h4]; rfl, key _ (.unnamed ?_)⟩
      cases hfs : es[i].fields with
      | nil => exact .inl rfl
      | cons f fs =>
        right
        rw [hfs] at e3
        cases as with
        | nil => simp [VTy.names] at e3
        | cons a as => simp only [VTy.names, List.map_cons, List.cons.injEq] at e3; exact ⟨f, by simp, e3.1⟩
    | struct fs =>
      simp only [VTy.types] at h3
      refine ⟨_, _, by rw [VTy.ser, serFields_zip, h3]; rfl, by rw [Ser.toValue, toFields_zip _ _ _ h4]; rfl, key _ (.named ?_ ?_)⟩
      · intro h0
        rw [h0] at e3
        have := hst _ hm
        simp [VTy.names] at e3
        simp [e3] at this
      · rw [e3, VTy.names, List.map_map]; rfl
theorem staticAll_canon : ∀ {as : List Ty} {ds : List Dat} {bs : List UInt8} {ts : List Id}, StaticAll ix as ds bs → InfoAll ix reg as ts →
    ∃ ss vs, Ty.sers as ds = some ss ∧ toValues ss = .ok vs ∧ CanonAll reg ts vs bs
  | _, _, _, _, .nil, .nil => ⟨[], [], rfl, rfl, .nil⟩
  | _, _, _, _, .cons h h', .cons hi hi' => by
    obtain ⟨s, v, h1, h2, h3⟩ := static_canon h hi
    obtain ⟨ss, vs, h4, h5, h6⟩ := staticAll_canon h' hi'
    exact ⟨s :: ss, v :: vs, by rw [Ty.sers, h1, h4], by rw [toValues, h2, h5]; rfl, .cons h3 h6⟩
end

/-! ### The other way around -/

theorem short_unnamed {vs : List (Value Unit)} {c : Unit} (h : Short (.mk (.composite (.unnamed vs)) c)) : vs.length < 2 ^ 32 ∧ ∀ v ∈ vs, Short v :=
  ⟨(h _ (.self _)).1 _ rfl, fun _ hv => short_child h hv⟩

theorem shape_vals {fs : List (Field Id)} {vs : List (Value Unit)} {cs : Composite Unit} (h : HasShape fs vs cs) (hl : fs.length = vs.length) : cs.vals = vs := by
  cases h with
  | unnamed _ => rfl
  | @named names _ hn =>
    have : names.length = vs.length := by
      have := congrArg List.length hn
      simp only [List.length_map] at this
      omega
    simp only [Composite.vals]
    exact List.map_snd_zip (by omega)

theorem short_shape {fs : List (Field Id)} {vs : List (Value Unit)} {cs : Composite Unit} {v : Value Unit} (hv : v.fields? = some cs) (h : Short v) (hs : HasShape fs vs cs)
    (hl : fs.length = vs.length) : ∀ v ∈ vs, Short v := by
  intro w hw
  refine short_child h ?_
  rw [← shape_vals hs hl] at hw
  obtain ⟨d, x⟩ := v
  cases d with
  | composite c => cases hv; cases cs <;> exact hw
  | variant y => obtain ⟨n, c⟩ := y; cases hv; cases cs <;> exact hw
  | bitSequence b => cases hv
  | primitive p => cases hv

theorem static_rep {canon : Prop} {a : Ty} {t : Id} (h : ∀ v bs, Scale reg canon .u256 (fun _ => ()) false t v bs → Short v → ∃ d, Static ix a d bs) {n : Nat} {vs : List (Value Unit)} {bs : List UInt8}
    (hs : ScaleAll reg canon .u256 (fun _ => ()) false (List.replicate n t) vs bs) (hv : ∀ v ∈ vs, Short v) : ∃ ds, ds.length = n ∧ StaticAll ix (List.replicate n a) ds bs := by
  induction n generalizing vs bs with
  | zero => cases hs; exact ⟨[], rfl, .nil⟩
  | succ n ih =>
    rw [List.replicate_succ] at hs
    cases hs with
    | cons h1 h2 =>
      obtain ⟨d, hd⟩ := h _ _ h1 (hv _ (by simp))
      obtain ⟨ds, hl, hds⟩ := ih h2 (fun v h => hv v (by simp [h]))
      exact ⟨d :: ds, by simp [hl], .cons hd hds⟩

theorem bytes_length {canon : Prop} {w : Id} (h : reg.resolve w = some (.primitive .u8)) {n : Nat} {vs : List (Value Unit)} {bs : List UInt8}
    (hs : ScaleAll reg canon .u256 (fun _ => ()) false (List.replicate n w) vs bs) : bs.length = n := by
  induction n generalizing vs bs with
  | zero => cases hs; rfl
  | succ n ih =>
    rw [List.replicate_succ] at hs
    cases hs with
    | cons h1 h2 =>
      have : ∀ {v : Value Unit} {bs : List UInt8}, Scale reg canon .u256 (fun _ => ()) false w v bs → bs.length = 1 := by
        intro v bs hv
        cases hv with
        | uint h1 h2 h3 => rw [h] at h1; cases h1; cases h2; exact h3.1
        | int h1 h2 h3 => rw [h] at h1; cases h1; cases h2
        | _ => exfalso; clear ih; simp_all
      rw [List.length_append, ih h2, this h1]
      omega

theorem static_num {canon : Prop} {n : NumTy} {t : Id} (ht : reg.resolve t = some (.primitive n.prim)) {v : Value Unit} {bs : List UInt8}
    (h : Scale reg canon .u256 (fun _ => ()) false t v bs) : ∃ d, Static ix (.num n) d bs := by
  cases h with
  | @uint _ p k m bs h1 h2 h3 =>
    rw [ht] at h1
    cases h1
    have hs : n.signed = false := by cases n <;> cases h2 <;> rfl
    have hk : k = n.bits / 8 := by cases n <;> cases h2 <;> rfl
    have hlt := leVal_lt bs
    rw [h3.1, ← leNum_eq, h3.2] at hlt
    have hlo : n.lo ≤ (m.val : Int) := by
      have : n.lo = 0 := by revert hs; cases n <;> decide
      omega
    have hhi : (m.val : Int) < n.hi := by
      have : n.hi = ((256 ^ k : Nat) : Int) := by rw [hk]; revert hs; cases n <;> decide
      rw [this]; exact_mod_cast hlt
    exact ⟨_, .unsigned (n := ⟨n, m.val, hlo, hhi⟩) hs rfl (by rw [← hk]; exact h3)⟩
  | @int _ p k m bs h1 h2 h3 =>
    rw [ht] at h1
    cases h1
    have hs : n.signed = true := by cases n <;> cases h2 <;> rfl
    have hk : k = n.bits / 8 := by cases n <;> cases h2 <;> rfl
    have hr : 2 * n.hi = ((256 ^ k : Nat) : Int) ∧ n.lo = - n.hi := by rw [hk]; revert hs; cases n <;> decide
    have hlo : n.lo ≤ m.val := by have := h3.2.1; omega
    have hhi : m.val < n.hi := by have := h3.2.2.1; omega
    exact ⟨_, .signed (n := ⟨n, m.val, hlo, hhi⟩) hs (by rw [← hk]; exact h3)⟩
  | bool h1 => rw [ht] at h1; cases n <;> cases h1
  | char h1 => rw [ht] at h1; cases n <;> cases h1
  | str h1 => rw [ht] at h1; cases n <;> cases h1
  | u256 h1 => rw [ht] at h1; cases n <;> cases h1
  | i256 h1 => rw [ht] at h1; cases n <;> cases h1
  | compact h1 => rw [ht] at h1; cases h1
  | sequence h1 => rw [ht] at h1; cases h1
  | array h1 => rw [ht] at h1; cases h1
  | tuple h1 => rw [ht] at h1; cases h1
  | composite h1 => rw [ht] at h1; cases h1
  | variant h1 => rw [ht] at h1; cases h1
  | bits h1 => rw [ht] at h1; cases h1

mutual
theorem static_exists {canon : Prop} : ∀ {a : Ty} {t : Id} {v : Value Unit} {bs : List UInt8}, Info ix reg a t → Scale reg canon .u256 (fun _ => ()) false t v bs → Short v →
    ∃ d, Static ix a d bs
  | _, t, v, bs, .bool ht, h, _ => by
    cases h with
    | bool h1 => exact ⟨_, .bool⟩
    | uint h1 h2 => rw [ht] at h1; cases h1; cases h2
    | int h1 h2 => rw [ht] at h1; cases h1; cases h2
    | _ => exfalso; simp_all
  | _, t, v, bs, .num ht, h, _ => static_num ht h
  | _, t, v, bs, .string ht, h, hv => by
    cases h with
    | str h1 h2 => exact ⟨_, .string h2 ((hv _ (.self _)).2 _ rfl)⟩
    | uint h1 h2 => rw [ht] at h1; cases h1; cases h2
    | int h1 h2 => rw [ht] at h1; cases h1; cases h2
    | _ => exfalso; simp_all
  | _, t, v, bs, .bytes ht hw, h, hv => by
    cases h with
    | @sequence _ u vs p bs h1 h2 h3 h4 h5 =>
      rw [ht] at h1
      cases h1
      have := bytes_length hw h5
      refine ⟨_, .bytes (bs := bs) (by rw [this]; exact h2) ?_⟩
      rw [this]
      exact (short_unnamed hv).1
    | _ => exfalso; simp_all
  | _, t, v, bs, .unit ht, h, _ => by
    cases h with
    | tuple h1 h2 h3 => rw [ht] at h1; cases h1; cases h3; exact ⟨_, .unit⟩
    | _ => exfalso; simp_all
  | _, t, v, bs, .unitStruct ht, h, _ => by
    cases h with
    | composite h1 h2 h3 => rw [ht] at h1; cases h1; cases h3; exact ⟨_, .unitStruct⟩
    | _ => exfalso; simp_all
  | _, t, v, bs, .option ht hi, h, hv => by
    cases h with
    | @variant _ ds d vs cs bs h1 h2 h3 h4 =>
      rw [ht] at h1
      cases h1
      have hd := List.mem_of_find?_eq_some h2
      simp only [List.mem_cons, List.not_mem_nil, or_false] at hd
      rcases hd with rfl | rfl
      · cases h3; exact ⟨_, .none⟩
      · have hl := scaleAll_length h3
        cases h3 with
        | cons h5 h6 =>
          cases h6
          obtain ⟨d, hd⟩ := static_exists hi h5 (short_shape rfl hv h4 (by simp) _ (by simp))
          exact ⟨_, by rw [List.append_nil]; exact .some hd⟩
    | _ => exfalso; simp_all
  | _, t, v, bs, .newtype ht hi, h, hv => by
    cases h with
    | @composite _ _ fs vs cs bs h1 h2 h3 h4 =>
      rw [ht] at h1
      cases h1
      have hl := scaleAll_length h3
      cases h3 with
      | cons h5 h6 =>
        cases h6
        obtain ⟨d, hd⟩ := static_exists hi h5 (short_shape rfl hv h4 (by simp) _ (by simp))
        exact ⟨_, by rw [List.append_nil]; exact .newtype hd⟩
    | _ => exfalso; simp_all
  | _, t, v, bs, .seq ht hi, h, hv => by
    cases h with
    | @sequence _ u vs p bs h1 h2 h3 h4 h5 =>
      rw [ht] at h1
      cases h1
      obtain ⟨ds, hl, hds⟩ := static_rep (fun v bs h hv => static_exists hi h hv) h5 (short_unnamed hv).2
      refine ⟨.list ds, .seq (by rw [hl]; exact h2) ?_ (by rw [hl]; exact hds)⟩
      rw [hl]
      exact (short_unnamed hv).1
    | _ => exfalso; simp_all
  | _, t, v, bs, .tuple ht hi, h, hv => by
    cases h with
    | tuple h1 h2 h3 =>
      rw [ht] at h1
      cases h1
      obtain ⟨ds, hds⟩ := staticAll_exists hi h3 (short_unnamed hv).2
      exact ⟨_, .tuple hds⟩
    | _ => exfalso; simp_all
  | _, t, v, bs, .array ht hi, h, hv => by
    cases h with
    | array h1 h3 =>
      rw [ht] at h1
      cases h1
      obtain ⟨ds, hl, hds⟩ := static_rep (fun v bs h hv => static_exists hi h hv) h3 (short_unnamed hv).2
      exact ⟨_, .tuple hds⟩
    | _ => exfalso; simp_all
  | _, t, v, bs, .tupleStruct (ws := ws) ht hi, h, hv => by
    cases h with
    | composite h1 h2 h3 h4 =>
      rw [ht] at h1
      cases h1
      have hl := scaleAll_length h3
      have hs := short_shape rfl hv h4 (by simpa using hl)
      rw [show (ws.map fun w => (⟨none, w⟩ : Field Id)).map (fun f => f.id) = ws from by rw [List.map_map]; exact List.map_id _] at h3
      obtain ⟨ds, hds⟩ := staticAll_exists hi h3 hs
      exact ⟨_, .tupleStruct hds⟩
    | _ => exfalso; simp_all
  | _, t, v, bs, .struct hne ht hn hi, h, hv => by
    cases h with
    | composite h1 h2 h3 h4 =>
      rw [ht] at h1
      cases h1
      have hl := scaleAll_length h3
      obtain ⟨ds, hds⟩ := staticAll_exists hi h3 (short_shape rfl hv h4 (by simpa using hl))
      exact ⟨_, .struct hds⟩
    | _ => exfalso; simp_all
  | _, t, v, bs, .enum (vs := vs) (ds := es) ht hnod hst hix hlen hnames hinfo, h, hv => by
    cases h with
    | @variant _ ds d ws cs bs h1 h2 h3 h4 =>
      rw [ht] at h1
      cases h1
      obtain ⟨i, hi⟩ := List.getElem?_of_mem (List.mem_of_find?_eq_some h2)
      have hlt : i < vs.length := by
        have := (List.getElem?_eq_some_iff.1 hi).1
        omega
      have hvi : vs[i]? = some vs[i] := List.getElem?_eq_getElem hlt
      obtain ⟨e1, e2, e3⟩ := hnames i _ _ hvi hi
      have hl := scaleAll_length h3
      obtain ⟨ds, hds⟩ := staticAll_exists (hinfo i _ _ hvi hi) h3 (short_shape rfl hv h4 (by simpa using hl))
      rw [e2]
      exact ⟨_, .enum (n := vs[i].1) (v := vs[i].2) (List.getElem_mem hlt) hds⟩
    | uint h1 h2 => rw [ht] at h1; cases h1
    | int h1 h2 => rw [ht] at h1; cases h1
    | bool h1 => rw [ht] at h1; cases h1
    | char h1 => rw [ht] at h1; cases h1
    | str h1 => rw [ht] at h1; cases h1
    | u256 h1 => rw [ht] at h1; cases h1
    | i256 h1 => rw [ht] at h1; cases h1
    | compact h1 => rw [ht] at h1; cases h1
    | sequence h1 => rw [ht] at h1; cases h1
    | array h1 => rw [ht] at h1; cases h1
    | tuple h1 => rw [ht] at h1; cases h1
    | composite h1 => rw [ht] at h1; cases h1
    | bits h1 => rw [ht] at h1; cases h1
theorem staticAll_exists {canon : Prop} : ∀ {as : List Ty} {ts : List Id} {vs : List (Value Unit)} {bs : List UInt8}, InfoAll ix reg as ts →
    ScaleAll reg canon .u256 (fun _ => ()) false ts vs bs → (∀ v ∈ vs, Short v) → ∃ ds, StaticAll ix as ds bs
  | _, _, _, _, .nil, .nil, _ => ⟨[], .nil⟩
  | _, _, _, _, .cons hi hi', .cons h h', hv => by
    obtain ⟨d, hd⟩ := static_exists hi h (hv _ (by simp))
    obtain ⟨ds, hds⟩ := staticAll_exists hi' h' (fun v h => hv v (by simp [h]))
    exact ⟨_, .cons hd hds⟩
end

/-! ### All data have bytes -/

theorem total_rep {a : Ty} (h : ∀ d s, a.ser d = some s → ShortDat d → ∃ bs, Static ix a d bs) {ds : List Dat} {n : Nat} {ss : List Ser} (hs : Ty.sers (List.replicate n a) ds = some ss)
    (hd : ∀ d ∈ ds, ShortDat d) : ∃ bs, StaticAll ix (List.replicate n a) ds bs := by
  induction n generalizing ds ss with
  | zero => cases ds with
    | nil => exact ⟨[], .nil⟩
    | cons d ds => cases hs
  | succ n ih =>
    rw [List.replicate_succ] at hs ⊢
    cases ds with
    | nil => cases hs
    | cons d ds =>
      rw [Ty.sers] at hs
      split at hs
      · next s ss' h1 h2 =>
        obtain ⟨b1, hb1⟩ := h d s h1 (hd d (by simp))
        obtain ⟨b2, hb2⟩ := ih h2 (fun d h => hd d (by simp [h]))
        exact ⟨_, .cons hb1 hb2⟩
      · cases hs

theorem num_total {n : Num} : ∃ bs, Static ix (.num n.ty) (.num n) bs := by
  cases hs : n.ty.signed with
  | false =>
    have h0 : 0 ≤ n.val := by have := n.ge; rw [num_lo.2 hs] at this; exact this
    refine ⟨_, .unsigned hs (m := n.val.toNat) (by omega) (isLe_leBytes ?_)⟩
    have h1 := n.lt
    have : n.ty.hi = ((256 ^ (n.ty.bits / 8) : Nat) : Int) := by revert hs; cases n.ty <;> decide
    omega
  | true =>
    have hr : 2 * n.ty.hi = ((256 ^ (n.ty.bits / 8) : Nat) : Int) ∧ n.ty.lo = - n.ty.hi := by revert hs; cases n.ty <;> decide
    have h1 := n.ge
    have h2 := n.lt
    exact ⟨_, .signed hs (isLeInt_leBytesInt (by omega) (by omega))⟩

mutual
theorem static_total : ∀ {a : Ty} {t : Id} {d : Dat} {s : Ser}, Info ix reg a t → a.ser d = some s → ShortDat d → ∃ bs, Static ix a d bs
  | _, _, d, s, .bool _, h, _ => by
    cases d <;> first | (cases h; done) | exact ⟨_, .bool⟩
  | _, _, d, s, .num _, h, _ => by
    cases d <;> first | (cases h; done) | skip
    rw [Ty.ser] at h
    split at h
    · next he => subst he; exact num_total
    · cases h
  | _, _, d, s, .string _, h, hd => by
    cases d <;> first | (cases h; done) | skip
    cases hd with
    | str hd => exact ⟨_, .string (isCompact_compactEnc (by omega)) hd⟩
  | _, _, d, s, .bytes _ _, h, hd => by
    cases d <;> first | (cases h; done) | skip
    cases hd with
    | bytes hd => exact ⟨_, .bytes (isCompact_compactEnc (by omega)) hd⟩
  | _, _, d, s, .unit _, h, _ => by
    cases d <;> first | (cases h; done) | exact ⟨_, .unit⟩
  | _, _, d, s, .unitStruct _, h, _ => by
    cases d <;> first | (cases h; done) | exact ⟨_, .unitStruct⟩
  | _, _, d, s, .option _ hi, h, hd => by
    cases d <;> first | (cases h; done) | exact ⟨_, .none⟩ | skip
    rw [Ty.ser] at h
    obtain ⟨x, h1, -⟩ := map_some h
    cases hd with
    | some hd =>
      obtain ⟨bs, hb⟩ := static_total hi h1 hd
      exact ⟨_, .some hb⟩
  | _, _, d, s, .newtype _ hi, h, hd => by
    rcases d with _ | _ | _ | _ | _ | _ | _ | _ | ds | _ | _ | _ <;> first | (cases h; done) | skip
    match ds with
    | [] => cases h
    | _ :: _ :: _ => cases h
    | [d] =>
      rw [Ty.ser] at h
      obtain ⟨x, h1, -⟩ := map_some h
      cases hd with
      | list _ hd =>
        obtain ⟨bs, hb⟩ := static_total hi h1 (hd d (by simp))
        exact ⟨_, .newtype hb⟩
  | _, _, d, s, .seq _ hi, h, hd => by
    cases d <;> first | (cases h; done) | skip
    rw [Ty.ser, serAll_replicate] at h
    obtain ⟨x, h1, -⟩ := map_some h
    cases hd with
    | list hl hd =>
      obtain ⟨bs, hb⟩ := total_rep (fun d s h hd => static_total hi h hd) h1 hd
      exact ⟨_, .seq (isCompact_compactEnc (by omega)) hl hb⟩
  | _, _, d, s, .tuple _ hi, h, hd => by
    cases d <;> first | (cases h; done) | skip
    rw [Ty.ser] at h
    obtain ⟨x, h1, -⟩ := map_some h
    cases hd with
    | list hl hd =>
      obtain ⟨bs, hb⟩ := staticAll_total hi h1 hd
      exact ⟨_, .tuple hb⟩
  | _, _, d, s, .array _ hi, h, hd => by
    cases d <;> first | (cases h; done) | skip
    rw [Ty.ser] at h
    obtain ⟨x, h1, -⟩ := map_some h
    cases hd with
    | list hl hd =>
      obtain ⟨bs, hb⟩ := total_rep (fun d s h hd => static_total hi h hd) h1 hd
      exact ⟨_, .tuple hb⟩
  | _, _, d, s, .tupleStruct _ hi, h, hd => by
    cases d <;> first | (cases h; done) | skip
    rw [Ty.ser] at h
    obtain ⟨x, h1, -⟩ := map_some h
    cases hd with
    | list hl hd =>
      obtain ⟨bs, hb⟩ := staticAll_total hi h1 hd
      exact ⟨_, .tupleStruct hb⟩
  | _, _, d, s, .struct _ _ _ hi, h, hd => by
    cases d <;> first | (cases h; done) | skip
    rw [Ty.ser, serFields_zip] at h
    obtain ⟨x, h1, -⟩ := map_some h
    obtain ⟨x, h1, -⟩ := map_some h1
    cases hd with
    | list hl hd =>
      obtain ⟨bs, hb⟩ := staticAll_total hi h1 hd
      exact ⟨_, .struct hb⟩
  | _, _, d, s, .enum (vs := vs) (ds := es) ht hnod hst hix hlen hnames hinfo, h, hd => by
    cases d <;> first | (cases h; done) | skip
    next n ds =>
    rw [Ty.ser] at h
    obtain ⟨v, hv, h1, -⟩ := serVariant_find h
    obtain ⟨i, hi⟩ := List.getElem?_of_mem hv
    have hlt : i < es.length := by
      have := (List.getElem?_eq_some_iff.1 hi).1
      omega
    have he : es[i]? = some es[i] := List.getElem?_eq_getElem hlt
    have hsers : ∃ ss, Ty.sers v.types ds = some ss := by
      cases v with
      | unit => cases ds with
        | nil => exact ⟨[], rfl⟩
        | cons d ds => cases h1
      | newtype a => match ds with
        | [] => cases h1
        | _ :: _ :: _ => cases h1
        | [d] =>
          rw [VTy.ser] at h1
          obtain ⟨x, h1, -⟩ := map_some h1
          exact ⟨[x], by simp only [VTy.types, Ty.sers, h1]⟩
      | tuple as =>
        rw [VTy.ser] at h1
        obtain ⟨x, h1, -⟩ := map_some h1
        exact ⟨x, h1⟩
      | struct fs =>
        rw [VTy.ser, serFields_zip] at h1
        obtain ⟨x, h1, -⟩ := map_some h1
        obtain ⟨x, h1, -⟩ := map_some h1
        exact ⟨x, h1⟩
    obtain ⟨ss, hss⟩ := hsers
    cases hd with
    | enum hd =>
      obtain ⟨bs, hb⟩ := staticAll_total (hinfo i _ _ hi he) hss hd
      exact ⟨_, .enum hv hb⟩
theorem staticAll_total : ∀ {as : List Ty} {ts : List Id} {ds : List Dat} {ss : List Ser}, InfoAll ix reg as ts → Ty.sers as ds = some ss → (∀ d ∈ ds, ShortDat d) →
    ∃ bs, StaticAll ix as ds bs
  | _, _, [], _, .nil, _, _ => ⟨[], .nil⟩
  | _, _, _ :: _, _, .nil, h, _ => by cases h
  | _, _, [], _, .cons _ _, h, _ => by cases h
  | _, _, d :: ds, _, .cons hi hi', h, hd => by
    rw [Ty.sers] at h
    split at h
    · next s ss' h1 h2 =>
      obtain ⟨b1, hb1⟩ := static_total hi h1 (hd d (by simp))
      obtain ⟨b2, hb2⟩ := staticAll_total hi' h2 (fun d h => hd d (by simp [h]))
      exact ⟨_, .cons hb1 hb2⟩
    · cases h
end

/-! ### There is one encoding -/

theorem mem_unique {A : Type} {vs : List (Str × A)} (hn : (vs.map (fun v => v.1)).Nodup) {n : Str} {v w : A} (hv : (n, v) ∈ vs) (hw : (n, w) ∈ vs) : v = w := by
  induction vs with
  | nil => cases hv
  | cons p vs ih =>
    rw [List.map_cons, List.nodup_cons] at hn
    rcases List.mem_cons.1 hv with h1 | h1 <;> rcases List.mem_cons.1 hw with h2 | h2
    · rw [← h1] at h2; cases h2; rfl
    · refine absurd (List.mem_map.2 ⟨_, h2, ?_⟩) hn.1; rw [← h1]
    · refine absurd (List.mem_map.2 ⟨_, h1, ?_⟩) hn.1; rw [← h2]
    · exact ih hn.2 h1 h2

theorem static_num_unique {a b : Ty} {n : Num} {bs bs' : List UInt8} (h : Static ix a (.num n) bs) (h' : Static ix b (.num n) bs') : bs' = bs := by
  cases h with
  | unsigned h1 h2 h3 =>
    cases h' with
    | unsigned _ h2' h3' =>
      rw [h2] at h2'
      have := Int.ofNat_inj.1 h2'
      subst this
      exact isLe_unique h3' h3
    | signed h _ => rw [h1] at h; cases h
  | signed h1 h3 =>
    cases h' with
    | unsigned h _ _ => rw [h1] at h; cases h
    | signed _ h3' => exact isLeInt_unique h3' h3

mutual
theorem static_unique : ∀ {a : Ty} {t : Id} {d : Dat} {bs bs' : List UInt8}, Static ix a d bs → Info ix reg a t → Static ix a d bs' → bs' = bs
  | _, _, _, _, _, .bool, _, .bool => rfl
  | _, _, _, _, _, .unsigned h1 h2 h3, _, h => static_num_unique (.unsigned h1 h2 h3) h
  | _, _, _, _, _, .signed h1 h3, _, h => static_num_unique (.signed h1 h3) h
  | _, _, _, _, _, .string h1 _, _, .string h1' _ => by rw [isCompact_unique h1 h1']
  | _, _, _, _, _, .bytes h1 _, _, .bytes h1' _ => by rw [isCompact_unique h1 h1']
  | _, _, _, _, _, .unit, _, .unit => rfl
  | _, _, _, _, _, .unitStruct, _, .unitStruct => rfl
  | _, _, _, _, _, .none, _, .none => rfl
  | _, _, _, _, _, .some h, .option _ hi, .some h' => by rw [static_unique h hi h']
  | _, _, _, _, _, .newtype h, .newtype _ hi, .newtype h' => static_unique h hi h'
  | _, _, _, _, _, .seq h1 _ h, .seq _ hi, .seq h1' _ h' => by rw [staticAll_unique h (infoAll_replicate hi _) h', isCompact_unique h1 h1']
  | _, _, _, _, _, .tuple h, .tuple _ hi, .tuple h' => staticAll_unique h hi h'
  | _, _, _, _, _, .tuple h, .array _ hi, .tuple h' => staticAll_unique h (infoAll_replicate hi _) h'
  | _, _, _, _, _, .tupleStruct h, .tupleStruct _ hi, .tupleStruct h' => staticAll_unique h hi h'
  | _, _, _, _, _, .struct h, .struct _ _ _ hi, .struct h' => staticAll_unique h hi h'
  | _, _, _, _, _, .enum (vs := vs) hm h, .enum (ds := es) _ hnod _ _ hlen _ hinfo, .enum hm' h' => by
    have := mem_unique hnod hm hm'
    subst this
    obtain ⟨i, hi⟩ := List.getElem?_of_mem hm
    have hlt : i < es.length := by
      have := (List.getElem?_eq_some_iff.1 hi).1
      omega
    rw [staticAll_unique h (hinfo i _ _ hi (List.getElem?_eq_getElem hlt)) h']
theorem staticAll_unique : ∀ {as : List Ty} {ts : List Id} {ds : List Dat} {bs bs' : List UInt8}, StaticAll ix as ds bs → InfoAll ix reg as ts → StaticAll ix as ds bs' → bs' = bs
  | _, _, _, _, _, .nil, _, .nil => rfl
  | _, _, _, _, _, .cons h1 h2, .cons hi hi', .cons h1' h2' => by rw [static_unique h1 hi h1', staticAll_unique h2 hi' h2']
end

end SV
