# A Lean 4 model of scale-value

Source: `/repo` (crate `scale-value` 0.18.2). The model lives in `lean/Verif/`.

## Trusted base

* Lean 4.33.0's kernel.
* Axioms: at most `propext`, `Classical.choice`, `Quot.sound` (what `#print axioms` shows for any theorem of `Verif/Props` is a subset of these). No
  axiom is added, no proof has a hole, no tactic that rests on compiled code is used.
* The correspondence between the Rust text and the Lean definitions, which is by reading: every definition of `Verif/Model` cites the file and lines
  that it models and says what is simplified.
* The behaviour assumed of the dependencies. None of their sources are available here. What the crate uses of them is modelled from their
  documentation; such definitions are marked *dependency model*:

  | dependency | where | assumed |
  |---|---|---|
  | Rust core | `Model/Basic`, `Model/Unicode`, `Model/Codec` | `char`/`str` are Unicode scalar values and lists of them; the character tables are a parameter (`Uni`) of which only ASCII facts and disjointness are laws; `u128`/`i128` parsing and printing; `from_utf8`; `Vec::with_capacity` panics for more than the parameter `al` allows |
  | `yap` | `Model/Tokens` | token iterators, `sep_by_err`, `one_of!`, slices |
  | `scale-type-resolver`, `scale-info` | `Model/Registry` | a registry is a partial function from ids to types (`Reg`). It is well founded: there is a rank that decreases from a type to the types within it, except through sequences and enums; that excludes types that contain themselves without end, for which no value exists; `Model/AnyReg` and `Model/AnyEnc` have no such assumption: C85 and C86 are about them, and `C85_registry` and `C86_registry` tie them to the others; `C92_transfer` says that what is proved for `Reg` holds for any table of types, at each type within which nothing contains itself inline |
  | `scale-decode` | `Model/Decode` (`visit`) | what is read from the input before which visitor function is called |
  | `scale-encode`, `parity-scale-codec`, `scale-bits` | `Model/Codec`, `Model/Encode` | little endian and compact integers, strings, bit sequences with any store and order, `encode_as_type` of primitives, the error kinds and locations |
  | `serde`, `serde_derive`, `serde_bytes` | `Model/Serde`, `Model/De`, `Model/Typed`, `Model/Buffer` | the data model: which `serialize_*`/`deserialize_*` functions derived implementations call, and what visitors accept |
  | derived `Encode`, `TypeInfo` | `Spec/Static` (for C56 only) | the bytes of data of a Rust type, and which registry entries describe it; finite types only; no maps, `char`s or values |
  | `base58`, `blake2` | `Model/Ss58` | two functions (parameters), of which only lengths are laws; C72 has as a hypothesis that the first one decodes base 58 |
  | rustc's `macro_rules!` | `Model/Macro` | arms are tried in order; which tokens are expressions is a parameter (`Rust`) with three laws |

* Parameters stand for every possible behaviour: custom parsers and formatters, writers (which may fail at any write), closures given to `map_context`
  (with state), `Serialize` implementations (any tree of calls, which may fail), self-describing formats, the `Debug` text of type ids and the `Display` text of decode errors.

## Layout

* `Verif/Model/*` - executable model of the code.
* `Verif/Spec/*` - small specifications, used in the statements, written without the model's functions.
* `Verif/Proofs/*` - lemmas.
* `Verif/Props/*` - the property theorems (`Cnn_..`), each with examples that meet its hypotheses.

The specifications use the model's data types and of its functions only these: `isDigit`, `isAsciiAlnum`, the Unicode tables, `utf8Len`, `utf8Bytes`, the
constructors of parse errors and accessors of values. `Props/Notions` proves of each that it is what its name says, in terms of plain data or Lean's library
(the accessors are the subject of C04).
Some specifications of errors (`EncAll`, `FirstFailing`, `FieldIs`, `StructFault`, `ReadsAll`) describe one step of a recursion and refer to the outcome of the code
for the parts of the value only; the recursion is closed by C68 (encoding), C80 (decoding), C81 and C82 (reading), whose relations are defined by themselves. `Passes` (C85) refers to the decoder for what has been decoded before. In the specifications of
visitors (`Plays`, `Shows`) what a deserializer answers (`Der.ask`) is given, since that is the subject.

## What is modelled

| source | model |
|---|---|
| `value_type.rs`, `at.rs` | all: types, constructors, conversions, accessors, `map_context`, `at` (`Model/Value`) |
| `macros.rs` | `value!`, `value_internal!`, `literal_aware_stringify!` (`Model/Macro`) |
| `string_impls/from_string.rs`, `string_helpers.rs` | all (`Model/Tokens`, `Model/Parse`, `Model/ErrorShow`; `Model/ParseCalls` reads the same functions once more for the places where `parse_value` is entered, which C63 ties to `Model/Parse`) |
| `string_impls/to_string.rs` | all: the builder, the styles, contexts, `Display` (`Model/Format`) |
| `custom_parsers/{hex,ss58}.rs`, `custom_formatters/hex.rs` | all (`Model/Hex`, `Model/Ss58`) |
| `scale_impls/decode.rs` | all: `decode_value_as_type`, `decode_composite_as_fields`, the visitor (`Model/Decode`; `Model/DecCalls` once more for how often it is entered; `Model/AnyReg` with any table of types) |
| `scale_impls/encode.rs` | all: values, composites as fields, variants, bit sequences, error locations (`Model/Encode`; `Model/EncCalls` once more for how often it is entered; `Model/AnyEnc` with any table of types) |
| `scale_impls/tracing_decoder/*` | all: visitor, errors with path and partial value, their texts (`Model/Trace`, `Model/TraceShow`) |
| `serde_impls/{serialize,serializer}.rs` | all (`Model/Serde`; as state machines `Model/SerCalls`) |
| `serde_impls/{deserialize,deserializer,bitvec_helpers}.rs` | all (`Model/De`); users' own types in `Model/Typed`; both once more with the errors in `Model/DeErr`, which C73 ties to the former, and the reading of values once more with size hints in `Model/DeCap` (C93) |
| `lib.rs` | the functions of `scale`, `serde`, `stringify` modules, with those they call |

Not modelled:
* the texts of error messages other than those of the tracing decoder (C53), of the parser (C61), of `to_value` (C70) and of the deserializer (C73; the errors that serde words, such as "invalid type", are data there);
* arguments that the code ignores (lengths passed to `serialize_*`, type names, `#[serde(...)]` hints);
* memory: strings and lists are never too long for it, except where the code itself reserves for a length that the input claims (C39, C93); so texts of
  2^32 or more bytes, whose length prefix the codec cannot write (it panics), are not distinguished;
* the limit of the program stack: deep values are handled as shallow ones (how deep the recursion gets is the subject of C59 and C60; that it overflows a stack of some size is not modelled);
* hygiene and type inference in `value!`.

## How

* `String`/`&str` is `List Char` (a Lean `Char` is a Unicode scalar value, as Rust's `char`); byte offsets are sums of UTF-8 lengths.
  `u128`/`i128` are range-restricted `Nat`/`Int`. `[u8; 32]` is a 32-vector of `UInt8`.
* Parser: state = remaining characters + byte offset; functions return the new state; errors are data. The recursion of `parse_value` carries a
  depth fuel that is proved never to run out.
* Formatter: a state monad over an arbitrary (possibly failing) writer.
* SCALE decoding: over an explicit registry, with the rank for termination; encoding: an output monad.
* serde: trees of calls; serializers and deserializers are functions over them.

## Plan per property

| id | modelled | how it is stated | how it is proved |
|----|----------|-------|-----|
| C01-C02 | `map_context` with stateful closures, `remove_context` | the closure is applied at every path with the state of the ancestors' calls; uniqueness | structural induction |
| C03 | `At` | inductive child relation, chains, commutes with `map_context` | case analysis |
| C04 | constructors, accessors, conversions | numeric value is preserved; accessor is some iff kind | case analysis, ranges |
| C05, C06, C08 | formatter + parser | text followed by anything that cannot extend the last token parses back | printing is in the grammar (C20), which the parser accepts; layout-independent |
| C07 | formatter | success iff no exposed 256 bit number | induction on the value, simulation |
| C09-C11 | parser | termination, suffix, error ranges, locality | invariants per parser function |
| C12, C13 | number, string and char literals | decimal valuation; escapes | induction on the text |
| C14, C15 | custom parsers as arbitrary functions | first answer wins; errors shifted; where parsing goes on (also nested); counterexamples for non-ASCII | unfolding + shift lemma |
| C16 | parser | `true..`/`false..` variants never come back | witness + grammar |
| C17, C19 | formatter with any formatters, contexts, styles | exact text relation `Shown` (an iff) | simulation of the writer monad by pure text |
| C18 | any failing writer | no write after the failure; prefix | induction over writes |
| C20 | parser | accepts exactly the grammar; grammar is unambiguous | soundness + completeness |
| C21-C23 | hex parser/formatter | digits spec; never splits a character | list induction |
| C24 | ss58 with base58 and blake2 as parameters | success iff checksum and prefix | case analysis |
| C25-C28, C40 | decoder, encoder | independent encoding relation; round trips both ways; locality; type ids at every path | induction on rank and fuel; simulation |
| C29-C35 | encoder | append-only; name matching; lengths; bits; number ranges | output monad invariants, look-through lemmas |
| C36-C39 | tracing decoder | agreement with the plain decoder; the path leads to the failing place; partial value; capacity | simulation, induction |
| C41-C47 | serde for values | trees of calls; `to_value`/`from_value`; formats | induction over values |
| C48-C50, C52 | serde for users' types | round trip for every schema; what each type reads from each value | induction over schemas |
| C51 | encoder errors | errors as functions of the first failing entry; location leads into the value | induction, decomposition of each encode function |
| C53 | error messages of the tracing decoder | exact text | composition with C17 |
| C54 | `value!` as a token muncher | grammar of the notation, iff; limit linear in tokens | soundness by induction on expansions, completeness on derivations |
| C55 | parser errors | inductive description of faults next to the grammar, iff; the text before the location can be continued | completeness by induction on faults, soundness by induction on the recursion depth |
| C56 | static `derive(Encode, TypeInfo)` next to `to_value`/`from_value` and the dynamic codec (`Spec/Static`) | agreement in both directions; total; injective | the canonical form of the value of data at its type, induction over `Info`; composition with C24-C27 and C48 |
| C57 | printer, parser, encoder and decoder together | `SameData` is kept; exactly the textual values | encoder depends on data alone (induction); composition with C16, C26 |
| C58 | serde and encoder together | `SameData` is kept; variants are the exception; exactly which values keep their data | composition with C43-C47; for every other value a format is constructed (characters as strings) that does not keep its data |
| C59 | parser | `Value.size`, `Deep`, `brackets` in Spec/Size.lean; the fuel of the parser is its recursion depth | induction on the grammar; invariant of the brackets left for the fuel; `(((…` for the converse |
| C60 | both decoders | same measures; `FinitelyMany` bounds ranks and widths of types | induction on the encoding relation `Scale`; the fuel of the decoders is their recursion depth; linked list type for the converse |
| C61 | `Display` of parse errors (Model/ErrorShow.lean) | `SameKind` lists what is not told apart | fixed parts are pairwise different at a common position; decimal digits are injective |
| C62 | formatter | `squeeze` removes whitespace outside of quotes (Spec/Squeeze.lean) | induction on `Shown`, the exact text in any style (C17) |
| C63 | parser with custom parsers (Model/ParseCalls.lean records where values are asked for) | the record is tied to results by custom parsers: those that agree on it agree, one that errs on a member of it is heard | invariants by recursion on the parser: the record is a strictly shrinking list of suffixes |
| C64 | `from_str` in a loop | `Stream` (Spec/Stream.lean): texts of values (C20) with whitespace between | the grammar theorem C20, lengths shrink (C09) |
| C65 | `Deserialize` for `Value`, `Composite`, `Variant`, `Primitive` | `Doc`, `Shows`, `DocValue`, .. (Spec/Doc.lean): documents of a self-describing format, and what each is read as | recursion on documents |
| C66 | the compound serializers of serializer.rs, one transition per call (Model/SerCalls.lean) | `Events`, `waiting`, `entryAt`, `Unasked` (Spec/SerCalls.lean): what a history of calls stands for, by positions | induction over the history, with the past as an argument |
| C67 | `Model/Encode`, `Model/Decode` | `Scale` (Spec/Scale.lean); `leaves`, `Sensible`, `Sized` (Spec/Emit.lean) | induction on the value: every way in which the encoder can succeed gives a derivation of `Scale` |
| C68 | `Model/Encode` | rules `StepBy` with `DirectBy`, `FieldsBy`, `Bytes32By` (Spec/EncodeStep.lean), over `Innermost`, `Unwrapped`, `IsCompact`, `NumAt`, `IsBits` | each rule against each branch of the encoder, both ways; uniqueness by induction on the value |
| C69 | `Model/Convert` (derived `PartialEq`, `From` impls), `Model/Value` | `SameShape`, `ContextsTo` (the specification of C02) | induction on the value; contexts compared by an arbitrary boolean function |
| C70 | `Model/Serde` (`SerErr`, its texts, `Ser.toValue`) | parts of data in the order of writing, `FirstFault` (Spec/SerFault.lean), `StandsFor` of C42 | serialization is running the parts one after another; induction on the data |
| C71 | `Model/Parse`, `Model/Format` | `Expressible` (Spec/Express.lean), `SameData`, `Textual` of C57 | induction on the grammar one way, a text with quoted names built by induction on the value the other way; texts of `SameData` values agree because writing ignores signs and contexts |
| C72 | `Model/Ss58`, `Model/Hex`, `Model/Encode` | `Base58`, `AddressText`, `DecodesBase58` (Spec/Base58.lean): base 58 as a relation between digits and bytes; the crate `base58` is assumed to implement it up to a number of bytes (a hypothesis of the theorems, not an axiom; met by `lib58`) | positional numerals are unique given the leading zeros (`Nat.digits`); `C24_success_iff`; completeness of the parser for custom notations restricted to values with a property (`ImplementsOn`); `C31`/`C33`/`C35` for the encoding |
| C73 | `Model/DeErr`: the deserializer with its error messages, the visitors of the crate and those of users' types with the errors they return, in the order in which the code looks at things | `ShownAs`, `Refuses`, `FirstError`, `StructFault`, `VariantEntryFault` (Spec/DeFault.lean) | agreement with `Model/De`, `Model/Typed` by induction on types (a loop over entries in their order against one over fields); then every error case by case, as equivalences |
| C74 | `Model/DeErr` on documents (`Doc` of C65) | `DocFault`, `CompositeFault`, `VariantFault`, `PrimitiveFault` (Spec/DocFault.lean): the first thing that is wrong, in the order of the document | recursion on documents, a list that is read in order fails at its first fault; C65 for what is read |
| C75 | `Model/EncCalls` (encode.rs once more, with a counter of entries of `encode_as_type_to` for `Value`; `C75_same` ties it to `Model/Encode`) | `Value.calls`, `NamesApart`, `NoWrappedList`, `nest`, `towerReg` (Spec/EncCalls.lean); `Value.count`, `Deep` of C60 | recursion on the value: each value is tried at most three times at each level; `CallsBy` (complete rules, by cases); for exactness induction on `Scale` along `encode_complete`; for the lower bounds induction on the number of wrappers |
| C76 | formatter | `Builder.recording` (the same builder over a writer with a record), `Asks` (who is asked, in which order), `Value.preorder` (Spec/Asks.lean) | a relation between the runs with and without record, kept by sequencing; recursion on the value |
| C77 | `value!`, parser and encoder | `Written` (sources of both notations), `Literals` (what is required of Rust: that literals mean what they say) (Spec/Twin.lean); `SameData` of C57 | induction on `Written`: it is in the notation of the macro (C54) and a text (C20) of values of the same data |
| C78 | decoders | `readParts` (Spec/Parts.lean): trying again with more bytes | simulation of the run on the bytes by the run on more bytes, by induction on the recursion depth |
| C79 | serde's buffer `Content` (`Model/Buffer`, dependency model) over values and documents as deserializers | `Copies`, `Value.Unheld`, `Doc.Unheld` at any depth (Spec/Buffer.lean); `DocValue` of C65 for what is read from the buffer | induction on values and documents; reading from the copy equals reading from the document it is a copy of |
| C80 | the plain decoder, all entry points (`Model/Decode`) | `NodeFault` (why bytes are not the beginning of a value), `NodeParts`, `DecFault`, `Starved` (Spec/DecFault.lean), with `Scale` for what comes before; no function of the decoder occurs in them. `FailsAt` of C38 is stated with the same relations | each step of the decoder is shown equivalent to `NodeFault`/`NodeParts`; induction on the depth one way, on the fault the other |
| C81 | `from_value` (`Model/Typed`) | `ReadAs` (Spec/ReadAs.lean): a relation between types, values and data, closed under its own rules; no function of the model reads anything in it | induction on types and values for one direction, on `ReadAs` for the other; a partial function, so unique |
| C82 | the error of `from_value` (`Model/DeErr`) | `ReadFault` (Spec/ReadFault.lean), closed in the same way, with `ReadAs` for what precedes the fault | the one step statements of C73, closed by induction on types and values, and on `ReadFault` |
| C83 | `Deserialize` for `Composite`, `Variant`, `Primitive`, on values (`Model/DeErr`) | `CompositeBack`, `VariantBack`, `PrimitiveBack` and `CompositeWrong`, `VariantWrong`, `PrimitiveWrong` (Spec/ReadOwn.lean), over `Back`, `ReadAs`, `ReadFault` | by cases on the value, with C47 and C73 for the loops and C81, C82 for what is in the value |
| C84 | `Deserializer` for `Composite`, `Variant`, `Primitive` (`Model/De`, `Model/DeErr`) | `ReadAs`, `ReadFault` and the rules of C83 on the value with the composite, variant or primitive; equality of the replies to every request | by cases on the request; each type makes one request, so equal replies give equal results; C81–C83 |
| C85 | the decoder with any table of types (`Model/AnyReg`) | `Spec/Endless`: `Endless` is about the definitions of types only; `ComesTo` follows the bytes, and uses the model's decoder (`Passes`) for what is before | a call that is stuck at every depth has a first part that is; dependent choice gives a chain of types; conversely by induction on the depth. Finite tables: pigeonhole |
| C86 | the encoder with any table of types (`Model/AnyEnc`) | `Spec/Bottomless`, about the definitions of types only; `Spec/Stuck`: rules of how a call for a composite or a variant ends (with success, with an error, never) | the set of types within the given one is closed; induction on the value; searches that are stuck at every depth give a chain of types. At a wrapper without end no attempt succeeds, and the search for the wrapped type does not return. `C86_composite` and `C86_variant`: each rule makes the encoder end like that with every buffer, and by cases some rule always applies; endings are unique, so the rules are exact |
| C87 | `from_value` (`Model/Typed`), text and SCALE as in C48, C56, C57 | `Spec/Keep`: types used in a type, signed numbers that are not negative; `SameData` of C57 | induction on the relation of C81 (what is read), so the reader itself is not looked at; the values that `to_value` makes can be texts, by induction on the type |
| C88 | `Model/DecCalls`: the recursion of `Model/Decode` and `Model/Trace` read once more for how often `decode_with_visitor` is entered; results and positions are those of the models | `Value.count`, `Reach`, `FinitelyMany` of C60 | success: induction on the depth, every part is one call; any bytes: the bytes that successful parts consumed pay for them (C60), the one failing part at each level is paid by the rank, as in C60; tracing: induction along both loops |
| C89 | the formatter (`Model/Format`), the parser and the decoder as in C59, C60 | `Value.size`, `Value.nameSize`, `Deep` of C59; `boxes`; options without custom formatters | induction on `Shown` (which C17 proves exact): each value pays for its brackets, quotes, comma, colon and three line breaks; names of decoded values by induction on `Scale` |
| C90 | the encoder (`Model/Encode`), the parser as in C59 | `Value.size`, `NamesApart` of C75, `Sized`, `Has256`; `twiceReg`, `onceEach` | induction on the size of the value, by the rules that C68 proves complete: each node pays for its own bytes; fields with distinct names take distinct values |
| C91 | `to_value`, `Serialize` and `Deserialize` for values (`Model/Serde`, `Model/De`) | `Ser.size`, `Ser.nameSize`, `SerDeep`, `Doc.size`, `Doc.nameSize` (Spec/SerdeSize.lean); `Value.size`, `Value.nameSize`, `Deep` of C60 | induction on the relations that C41, C42 and C65 prove to be what the code does (`Flat`, `Back`, `StandsFor`, `DocValue`), so the code itself is not looked at |
| C92 | the decoder, the tracing decoder and the encoder with any tables of types (`Model/AnyReg`, `Model/AnyEnc`) and registries (`Reg`) | `Renumbers`, `TypeDef.renumber`, `InlineChain` (Spec/Renumber.lean), about the definitions of types only; `WithinType` of C85 | the types within a type are a closed set; the functions commute with the renumbering of steps (decoding: induction on the depth; encoding: induction on the value, with a relation between the encoders of parts). A registry with a rank for a table without chains: recursion on the relation of being inline, which is well founded |
| C93 | reading of values, composites and variants from deserializers with size hints, where `Vec::with_capacity` fails for some capacities (`Model/DeCap`) | `Reserves`, `ReservesComp`, `ReservesVariant`, `HasList`, `Honest`, `HasComposite` (Spec/DeCap.lean) | one induction on the deserializer ties the outcome with limits to that without and to what is reserved; hints: induction on deserializers and values |
| C94 | the functions with slices, arithmetic and `expect`, once more with these operations checked (`Model/Checked`: `none` is a panic) | equality with the models of which the other properties are proved; for errors of custom parsers the exact condition | per function: the invariants that exclude a panic (nibbles below 16, boundaries of characters, names present) |
| C95 | calls on the two builders (`Model/Builders`: a history is a list of calls, run from `new`) | options in effect (`InEffect`, Spec/Builders: last choice of each kind, formatters in order) and then the text of C17; equalities of what is written for overridden and for exchanged calls | induction on histories: what one call does to each option; with C14, C17, C18 |
| C96 | the formatter (`Model/Format`) by its exact text (C17) | `Balanced`, `QuoteBody`, `IsLayout` (Spec/Balanced): grammar of balanced texts | induction on `Shown`: what is true of the pieces and kept by concatenation is true of texts; uniqueness of the end by induction on balanced texts |

No property in the list is inexpressible. Those wishes that the code does not satisfy are stated as what holds, with the counterexample proved: C15
(non-ASCII after custom parsers), C16, C24 (a gap), C26 (wrapped lists, 256 bit numbers), C29 (variants), C36 (I256 decoded as U256), C39 (the plain decoder),
C48 and C50 (newtypes), C53 (messages that cannot be made), C54 (expressions and keywords in lists), C10 (the end of an error is not always a char boundary), C55 (wrong escape codes in chars), C56 (`struct S {}`), C58 (variants), C60 (sequences of elements without bytes).
