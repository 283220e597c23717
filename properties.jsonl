{"id": "C01", "title": "map_context only changes contexts, and is functorial", "statement": "value.map_context(f) returns a value with exactly the same shape, names, field order, bits and primitives, in which the context attached at every path is f applied to the original context; mapping the identity is the identity and mapping f then g equals mapping their composition. With a stateful FnMut closure every node sees the closure state produced along its own path from the root (the closure is cloned per child), so siblings never influence each other.", "quantifier": "every value of any depth and width, every closure (pure or stateful)", "why_tests_cant": "nesting depth and width are unbounded and the closure is arbitrary", "anchors": ["src/value_type.rs: Value::map_context, ValueDef::map_context, Composite::map_context, Variant::map_context"]}
{"id": "C02", "title": "remove_context erases exactly the contexts", "statement": "value.remove_context() has the same shape as the value and unit contexts everywhere; two values have equal remove_context results iff they differ at most in contexts.", "quantifier": "every pair of values", "why_tests_cant": "quantifies over pairs of arbitrarily deep values", "anchors": ["src/value_type.rs: Value::remove_context"]}
{"id": "C03", "title": "at() navigation", "statement": "at(name) returns the first field with that name of a named composite (also through a variant), at(index) the index-th child of a named or unnamed composite or variant; anything else (missing field, out of range, primitive, bit sequence) is None, never a panic; chained at calls return the child reached by following that path, and None if any step is missing.", "quantifier": "every value and every path of names/indexes", "why_tests_cant": "paths and values are unbounded", "anchors": ["src/at.rs: AsLocation, At, composite_at"]}
{"id": "C04", "title": "constructors, conversions and accessors preserve the value", "statement": "Every integer/bool/char/string/byte-vector conversion into a Value holds exactly the source number/text/bytes (signed and unsigned, no wrap); as_u128/as_i128/as_bool/as_char/as_str return the stored content exactly when the value is a primitive of that kind and None otherwise; Composite len/is_empty/values/into_values agree with the fields in order.", "quantifier": "every primitive and composite", "why_tests_cant": "u128/i128 ranges cannot be enumerated", "anchors": ["src/value_type.rs: From impls, Primitive::as_u128, as_i128, Composite::len, values, into_values"]}
{"id": "C05", "title": "Display output parses back to the same value", "statement": "For every value whose printed form is in the textual language (no U256/I256, every I128 negative, no identifier-like variant name starting with true/false), from_str applied to value.to_string() followed by any text that cannot extend the last token yields an equal value and leaves precisely that text unparsed.", "quantifier": "every such value, every following text", "why_tests_cant": "values, names and string contents are unbounded", "anchors": ["src/string_impls/to_string.rs: fmt_value, fmt_valuedef", "src/string_impls/from_string.rs: parse_value", "src/lib.rs: stringify::from_str"]}
{"id": "C06", "title": "All formatter styles round-trip", "statement": "The round trip of C05 holds in compact style, normal style and pretty style at every nesting depth, with any indent and leading-indent strings made of whitespace.", "quantifier": "every value, every style and whitespace indentation strings", "why_tests_cant": "styles x values infinite", "anchors": ["src/string_impls/to_string.rs: ToWriterBuilder, Formatter::write_newline, item_separator"]}
{"id": "C07", "title": "Printing fails only for 256-bit primitives", "statement": "Writing a value to an infallible writer succeeds exactly when the value contains no U256/I256 primitive anywhere (with no custom formatters installed; with custom formatters: that is not inside of something that a custom formatter writes).", "quantifier": "every value", "why_tests_cant": "needs every nesting position", "anchors": ["src/string_impls/to_string.rs: fmt_primitive"]}
{"id": "C08", "title": "Printing is injective", "statement": "Two printable values that print to the same text in any (possibly different) styles are equal: the text determines the value.", "quantifier": "every pair of printable values and styles", "why_tests_cant": "quadratic in an infinite space", "anchors": ["src/string_impls/to_string.rs: fmt_value", "src/string_impls/from_string.rs: parse_value"]}
{"id": "C09", "title": "The parser terminates and its remainder is a suffix", "statement": "from_str always returns; the remaining string is a suffix of the input, and on success at least one character was consumed.", "quantifier": "every input string", "why_tests_cant": "all strings, arbitrarily deep nesting", "anchors": ["src/string_impls/from_string.rs: FromStrBuilder::parse, parse_value"]}
{"id": "C10", "title": "Parse error locations are inside the input", "statement": "Every ParseError has a start location that is a char boundary at or before the end of the input (so slicing with it cannot panic), and an end location, when present, not before the start: none for an expected value, the end of the number for numbers that do not fit, and one byte after the start for all else (so it may be past the end of the input or inside a character).", "quantifier": "every input string that fails to parse", "why_tests_cant": "all strings", "anchors": ["src/string_impls/from_string.rs: ParseError, parse_* functions"]}
{"id": "C11", "title": "Parsing depends only on the consumed text", "statement": "If from_str succeeds, leaving remainder r, then replacing r by the empty string gives the same value and an empty remainder.", "quantifier": "every input string", "why_tests_cant": "all strings and remainders", "anchors": ["src/string_impls/from_string.rs: parse_value"]}
{"id": "C12", "title": "Number literals denote exactly their decimal value", "statement": "A digit string, with optional + or -, and underscores, parses to the exact integer (U128 for unsigned or +, I128 for -) iff it fits, otherwise parsing fails with an error; it never wraps or saturates.", "quantifier": "every digit string of any length", "why_tests_cant": "unbounded digit strings", "anchors": ["src/string_impls/from_string.rs: parse_number"]}
{"id": "C13", "title": "String and char literals round-trip through escapes", "statement": "Every string and every char prints to a quoted literal that parses back to precisely that string/char; unknown escapes and missing closing quotes are errors.", "quantifier": "every string and char", "why_tests_cant": "all of unicode, all lengths", "anchors": ["src/string_impls/string_helpers.rs: to_escape_code, from_escape_code", "src/string_impls/from_string.rs: parse_string, parse_char", "src/string_impls/to_string.rs: fmt_string, fmt_char"]}
{"id": "C14", "title": "Custom parser precedence and error positions", "statement": "At each position where a value is expected, custom parsers are tried in order of registration before the built-in syntax; the first returning a result determines the value; its errors are reported with locations shifted by its position in the whole input; parsers that return None without touching their input have no effect.", "quantifier": "every list of custom parsers and every input", "why_tests_cant": "parsers are arbitrary functions", "anchors": ["src/string_impls/from_string.rs: FromStrBuilder::add_custom_parser, parse_value"]}
{"id": "C15", "title": "Where parsing goes on after a custom parser", "statement": "After a custom parser succeeds, at whatever nested position, parsing goes on as many characters further as the custom parser consumed bytes. That is exactly the remainder it left if and only if the consumed text is ASCII or nothing remains; for other texts the code (which counts bytes but advances chars) skips characters the custom parser did not consume.", "quantifier": "every custom parser and input", "why_tests_cant": "arbitrary functions", "anchors": ["src/string_impls/from_string.rs: parse_value lines 232-262"]}
{"id": "C16", "title": "Known gap: variants named true*/false*", "statement": "A value that is a variant with an identifier name beginning with true or false does not survive the round trip: the text is parsed as a bool. A value comes back from printing (in any style) and parsing if and only if it contains, at any depth, no such variant, no U256/I256, and no non-negative I128.", "quantifier": "every value and style, every variant name", "why_tests_cant": "all values and names", "anchors": ["src/string_impls/from_string.rs: parse_bool, one_of! order", "src/string_impls/to_string.rs: fmt_variant"]}
{"id": "C17", "title": "Custom formatter precedence", "statement": "At each value, the custom formatters are tried in registration order; the first that accepts provides the text for that value (its children are not visited); if none accepts the default text is used. If contexts are printed then that of every value shown goes before it in angle brackets. The text is specified exactly, for all styles, indents, escapes and digits.", "quantifier": "every list of formatters and value", "why_tests_cant": "formatters are arbitrary functions", "anchors": ["src/string_impls/to_string.rs: fmt_value, add_custom_formatter"]}
{"id": "C18", "title": "Writer failures propagate", "statement": "If the writer fails at some write the formatter returns an error, without any further write, and what was written before is a prefix of the text that a non-failing writer receives.", "quantifier": "every value, every failing point of a writer", "why_tests_cant": "every crash point", "anchors": ["src/string_impls/to_string.rs: Formatter, write_str"]}
{"id": "C19", "title": "Layout guarantees of the styles", "statement": "Compact output contains no whitespace outside of string/char literals and quoted names; normal style output contains no line breaks outside of them; in pretty style each line starts with leading_indent followed by indent_by repeated depth times. Display writes exactly the specified text, also for composites, variants and primitives by themselves.", "quantifier": "every value", "why_tests_cant": "all nestings", "anchors": ["src/string_impls/to_string.rs: FormatStyle, write_newline, space, item_separator"]}
{"id": "C20", "title": "Whitespace between tokens is insignificant", "statement": "Any text obtained from a value by choosing arbitrary whitespace at the places between tokens where the grammar permits it parses to that value.", "quantifier": "every value and every choice of whitespace", "why_tests_cant": "infinite", "anchors": ["src/string_impls/from_string.rs: skip_whitespace, skip_spaced_separator"]}
{"id": "C21", "title": "parse_hex is exact", "statement": "parse_hex on 0x followed by an even number of hex digits (either case) yields the unnamed composite of those bytes and stops at the first non-alphanumeric; an odd number of digits or a non-hex alphanumeric is an error; text not beginning with 0x is declined and left untouched.", "quantifier": "every string", "why_tests_cant": "all strings", "anchors": ["src/string_impls/custom_parsers/hex.rs: parse_hex"]}
{"id": "C22", "title": "format_hex is exact and inverse to parse_hex", "statement": "format_hex accepts exactly the values that are non-empty unnamed composites of U128 below 256, printing 0x and two upper-case digits per byte; values printed with format_hex and parsed with parse_hex come back unchanged, at any nesting.", "quantifier": "every value", "why_tests_cant": "all values", "anchors": ["src/string_impls/custom_formatters/hex.rs: format_hex", "src/string_impls/custom_parsers/hex.rs: parse_hex"]}
{"id": "C23", "title": "The hex parser's unchecked UTF-8 remainder is sound", "statement": "The byte offset at which parse_hex splits its input with from_utf8_unchecked is always a char boundary, so the remaining string is valid UTF-8 and is a suffix of the input.", "quantifier": "every string", "why_tests_cant": "memory safety of an unsafe block over all strings", "anchors": ["src/string_impls/custom_parsers/hex.rs: parse_hex unsafe block"]}
{"id": "C24", "title": "parse_ss58 accepts only checksummed addresses", "statement": "parse_ss58 yields bytes only if the alphanumeric run base58-decodes to prefix ++ bytes ++ checksum with a right checksum and a permitted prefix; it never claims bools, all-digit numbers or variant names followed by a composite; otherwise it declines and leaves the input untouched.", "quantifier": "every string, every base58/blake2 behaviour", "why_tests_cant": "all strings", "anchors": ["src/string_impls/custom_parsers/ss58.rs: parse_ss58"]}
{"id": "C25", "title": "decode then encode is lossless", "statement": "A value decoded at a type, in which all composites, variants and strings are shorter than 2^32, re-encodes at that type (if the type has no 256 bit numbers and no wrapped lists, see C26) to as many bytes as were read, which decode to the same value; they are the very bytes that were read if the type has no bit sequences, or if the input is canonical (padding bits are zero).", "quantifier": "every registry, type and byte string", "why_tests_cant": "type graphs and byte strings are unbounded", "anchors": ["src/scale_impls/decode.rs: decode_value_as_type", "src/scale_impls/encode.rs: encode_value"]}
{"id": "C26", "title": "encode then decode is lossless", "statement": "A value in the shape decoding produces for a type encodes at that type and decodes back to an equal value, with arbitrary trailing bytes left alone. The types to be excluded are: 256 bit numbers, which can never be encoded, and lists of lists within two or more single-field wrappers, where an empty list is encoded wrongly (both are witnessed by theorems).", "quantifier": "every registry, type, value and trailing bytes", "why_tests_cant": "unbounded types and values", "anchors": ["src/scale_impls/encode.rs: EncodeAsType for Value", "src/scale_impls/decode.rs: ValueVisitor"]}
{"id": "C27", "title": "decoding consumes exactly the value's bytes", "statement": "Decoding is local: success consumes a prefix, does not depend on what follows it; trailing bytes remain for the caller. decode_composite_as_fields leaves the input untouched on failure.", "quantifier": "every registry, type, byte string and suffix", "why_tests_cant": "unbounded", "anchors": ["src/scale_impls/decode.rs: decode_value_as_type, decode_composite_as_fields"]}
{"id": "C28", "title": "contexts are the type ids", "statement": "Every node of a decoded value carries the id of the type it was decoded with; decoding as Value<()> gives the same value with the contexts removed.", "quantifier": "every registry, type and bytes", "why_tests_cant": "unbounded", "anchors": ["src/scale_impls/decode.rs: DecodeValue, ValueVisitor, IntoTypeId contexts"]}
{"id": "C29", "title": "encoding only appends; failed composite encodes write nothing", "statement": "Encoding never alters bytes already in the output buffer; encoding a non-variant composite that fails leaves the buffer as it was. (For variants the code writes the index byte and possibly fields before failing: witness.)", "quantifier": "every registry, type, value and existing buffer, every failure point", "why_tests_cant": "every failing position", "anchors": ["src/scale_impls/encode.rs: encode_composite, encode_variant"]}
{"id": "C30", "title": "contexts do not influence output", "statement": "Encoding, printing and serializing a value give the same result (bytes, text, error) after any map_context.", "quantifier": "every value and context map", "why_tests_cant": "unbounded", "anchors": ["src/scale_impls/encode.rs: encode_value", "src/string_impls/to_string.rs: Display", "src/serde_impls/serialize.rs: Serialize"]}
{"id": "C31", "title": "newtype transparency", "statement": "Encoding a primitive, bit sequence, variant or multi-value composite at a type which is a chain of single-field wrappers gives the same outcome as encoding it at the innermost type, and wrapping a value in single-element composites does not change what it encodes to for a primitive type. A 256 bit number is encoded like the list of its 32 bytes at sequences and arrays, and nowhere else.", "quantifier": "every wrapper depth", "why_tests_cant": "unbounded wrapper depth", "anchors": ["src/scale_impls/encode.rs: encode_composite, find_single_entry_with_same_repr, get_only_value_from_composite"]}
{"id": "C32", "title": "named fields are matched by name", "statement": "Encoding a named composite to a struct with several named fields, or a struct variant, gives bytes in the order of the type's fields irrespective of the order of the value's fields; surplus fields are ignored; a missing field is an error; of repeated names the last counts. (A struct with one field is looked through: there a composite with one value stands for that value, whatever its name.)", "quantifier": "every permutation of fields, all types", "why_tests_cant": "factorially many orders", "anchors": ["src/scale_impls/encode.rs: encode_composite, encode_variant"]}
{"id": "C33", "title": "length checks", "statement": "Unnamed values encode at an array, tuple, struct or variant only if the number of values is the number of entries; a composite with one value may stand for that value.", "quantifier": "every length", "why_tests_cant": "unbounded", "anchors": ["src/scale_impls/encode.rs: do_encode_composite visit_array"]}
{"id": "C34", "title": "bit sequences from composites", "statement": "A composite of bools or 0/1 numbers encodes at a bit-sequence type to the same bytes as the corresponding bit sequence; if one of several values is anything else it is an error.", "quantifier": "every bit list and store/order format", "why_tests_cant": "unbounded", "anchors": ["src/scale_impls/encode.rs: encode_composite_to_bitsequence, value_to_bits"]}
{"id": "C35", "title": "numbers never silently truncate", "statement": "Encoding a U128/I128 at an integer type yields the little-endian (or compact) bytes of the same number if it fits, else an error.", "quantifier": "every number and integer type", "why_tests_cant": "128-bit ranges", "anchors": ["src/scale_impls/encode.rs: encode_value Primitive"]}
{"id": "C36", "title": "i256 decoding", "statement": "Decoding 32 bytes at a signed 256 bit type never fails; the plain decoder produces a U256 primitive with the same 32 bytes (and not I256) while the tracing decoder produces I256; with fewer bytes both fail.", "quantifier": "every 32 byte string", "why_tests_cant": "all inputs", "anchors": ["src/scale_impls/decode.rs: visit_i256", "src/scale_impls/tracing_decoder/visitor.rs: visit_i256"]}
{"id": "C37", "title": "tracing decoder agrees with the plain decoder", "statement": "For types without I256, decode_as_type_traced succeeds iff decode_as_type succeeds (within the capacity limit), with equal values and equal remaining bytes.", "quantifier": "every registry, type and bytes", "why_tests_cant": "unbounded", "anchors": ["src/scale_impls/tracing_decoder/visitor.rs: TraceDecodingVisitor", "src/scale_impls/decode.rs"]}
{"id": "C38", "title": "tracing errors locate the failure", "statement": "When tracing decoding fails the error path is the list of field/index segments from the root to the failing type, and decoded_so_far is a prefix of the value: fully decoded siblings to the left, the partially decoded child last.", "quantifier": "every failing input", "why_tests_cant": "every failure point", "anchors": ["src/scale_impls/tracing_decoder/visitor.rs", "src/scale_impls/tracing_decoder/error.rs", "src/scale_impls/tracing_decoder/path.rs"]}
{"id": "C39", "title": "tracing decoder capacity bound", "statement": "The tracing decoder never reserves more than its fixed capacity bound whatever the length prefix claims; larger lengths are an error.", "quantifier": "every length prefix", "why_tests_cant": "all lengths", "anchors": ["src/scale_impls/tracing_decoder/visitor.rs: MAX_CAPACITY, to_unnamed_composite"]}
{"id": "C40", "title": "composite naming", "statement": "A decoded struct or variant is a named composite iff it has at least one field and all its fields have names; empty ones are unnamed.", "quantifier": "every type", "why_tests_cant": "all field lists", "anchors": ["src/scale_impls/decode.rs: visit_composite_fields"]}
{"id": "C41", "title": "serializing a Value into a Value, and from a Value", "statement": "to_value(value) always succeeds, with variants as {name, values}, bit sequences as {__bitvec__values__} and 256 bit numbers as lists; from_value::<Value>(value) gives back exactly the value without contexts if, and only if, it has no 256 bit numbers and no named composite (other than variant fields) whose first field is called __bitvec__values__. Composite, Variant and Primitive deserialize from themselves likewise (I256 as U256).", "quantifier": "every value", "why_tests_cant": "all values", "anchors": ["src/serde_impls/deserialize.rs: Deserialize for Value", "src/serde_impls/deserializer.rs", "src/serde_impls/serializer.rs"]}
{"id": "C42", "title": "to_value specification", "statement": "to_value maps the serde data model to values: integers exactly, unit to the empty unnamed composite, options to None/Some variants, structs/maps to named composites, sequences/tuples/bytes to unnamed, enums to variants; floats, map keys that are not strings or chars, and Serialize implementations that fail are errors, and nothing else is.", "quantifier": "every serde data tree", "why_tests_cant": "unbounded trees", "anchors": ["src/serde_impls/serializer.rs: ValueSerializer"]}
{"id": "C43", "title": "integer narrowing on deserialize is exact", "statement": "Deserializing a stored number as an integer type returns exactly that number if it fits, else an error, never a wrapped number.", "quantifier": "every number and type", "why_tests_cant": "ranges", "anchors": ["src/serde_impls/deserializer.rs: deserialize_number"]}
{"id": "C44", "title": "Option handling", "statement": "Reading a value as Option<T> gives None for the variant None without fields, Some(x) for the variant Some with one unnamed field which reads as x, and is an error for any other value.", "quantifier": "every value", "why_tests_cant": "all values", "anchors": ["src/serde_impls/deserializer.rs: deserialize_option"]}
{"id": "C45", "title": "smallest integer type on serialize", "statement": "Serializing a number calls the serializer with the smallest integer type which holds it, with the same number; 256 bit numbers are tuples of 32 u8.", "quantifier": "every u128/i128", "why_tests_cant": "128-bit ranges", "anchors": ["src/serde_impls/serialize.rs: Primitive Serialize"]}
{"id": "C46", "title": "bit sequences and other values through serde", "statement": "Serializing then deserializing a bit sequence gives the same bits, in any self-describing format and through to_value/from_value. Any value without a field named like the marker comes back with the same numbers, names, order and bits, with variants as {name, values}.", "quantifier": "every bit list", "why_tests_cant": "unbounded", "anchors": ["src/serde_impls/bitvec_helpers.rs", "src/serde_impls/serialize.rs", "src/serde_impls/deserialize.rs"]}
{"id": "C47", "title": "variant map form", "statement": "A variant serializes to the map {name, values}; deserializing a map as a Variant succeeds precisely if all keys are name or values, both occur, and all can be read; the order does not matter and of repeated keys the last counts.", "quantifier": "every variant", "why_tests_cant": "all values", "anchors": ["src/serde_impls/serialize.rs: Variant", "src/serde_impls/deserialize.rs: VariantVisitor"]}
{"id": "C48", "title": "typed serde round trip", "statement": "For every type built from integers, bools, chars, strings, byte buffers, options, sequences, tuples, structs, enums with unit, tuple and struct variants, and string- or char-keyed maps, to_value succeeds and from_value gives back the data. Newtype structs and newtype variants of scalars never come back (witnessed by theorems).", "quantifier": "every schema and datum", "why_tests_cant": "unbounded types and data", "anchors": ["src/lib.rs: serde::to_value, from_value", "src/serde_impls/serializer.rs", "src/serde_impls/deserializer.rs"]}
{"id": "C49", "title": "structs are read by name", "statement": "Reading a named composite as a struct matches the fields by name in any order; surplus entries are ignored whatever they are; repeated fields, missing fields other than Options, and unreadable fields are errors. Unnamed composites are read in order, ignoring what is left over. Variants and primitives are not read as structs; bit sequences are read as if they were a named composite with one field __bitvec__values__.", "quantifier": "every struct type, every value", "why_tests_cant": "unbounded types, values and orders", "anchors": ["src/serde_impls/deserializer.rs: deserialize_struct, Composite::deserialize_any"]}
{"id": "C50", "title": "newtypes are read from the inner representation", "statement": "struct S(T) is read from a composite or primitive precisely as T is; also from variants unless T is an Option or a struct; for a struct T, from a variant as T is from a composite with the variant's fields; struct S(Option<T>) and newtypes of bit sequences are always an error.", "quantifier": "every type T and value", "why_tests_cant": "unbounded", "anchors": ["src/serde_impls/deserializer.rs: deserialize_newtype_struct"]}
{"id": "C51", "title": "encode errors locate the problem", "statement": "Encoding a value at a type either succeeds or fails with one error that does not depend on the buffer. The path of the error leads to a place in the value (names that are there, indexes that there are). The error is that of the first value (for named fields: of the first field of the type) that cannot be encoded, under its index or name; wrong lengths, missing fields, unknown variants, numbers out of range and wrong types are each reported as such, with the type after wrappers have been taken off. For several values at a wrapper of a list the error is just that the shape is wrong. Values other than composites are never encoded as fields.", "quantifier": "every registry, type and value, every failing position", "why_tests_cant": "every failing position in unboundedly large values", "anchors": ["src/scale_impls/encode.rs: do_encode_composite, encode_composite, encode_variant, EncodeAsFields for Value"]}
{"id": "C52", "title": "what values are read as, type by type", "statement": "from_value reads: bool from booleans only; char from chars and one-character strings; String from strings and chars (and 256 bit numbers whose bytes are UTF-8); () and unit structs from composites and variants without values; Vec<T> from composites and variants all of whose values read as T; tuples and tuple structs from composites and variants with precisely as many values, each read as its type; byte buffers from composites of unsigned numbers below 256, from strings and chars (as UTF-8) and 256 bit numbers; enums from variants only, by name and contents; maps from named composites and variants with named fields, precisely if all values (and char keys) can be read, with the last value for a repeated name.", "quantifier": "every type in the serde data model and every value", "why_tests_cant": "unbounded types and values", "anchors": ["src/lib.rs: serde::from_value", "src/serde_impls/deserializer.rs: Deserializer impls for Value, Composite, Variant, Primitive"]}
{"id": "C53", "title": "the message of a tracing error", "statement": "The message of a tracing decode error at the root is 'Error decoding value: {e}'; that of any other error has the path (a dot and the name, or the position in brackets, per step), the decode error and what was decoded so far, pretty-printed with the type id in angle brackets before each value and byte lists in hexadecimal. Converting the error to a string panics precisely if what was decoded so far contains a 256 bit number (witnessed by an example). Displayed to a writer that fails, it does the same writes up to the first failure, and fails.", "quantifier": "every registry, type and byte string on which the tracing decoder fails", "why_tests_cant": "every failure point of unbounded inputs", "anchors": ["src/scale_impls/tracing_decoder/error.rs: Display for TraceDecodingError, display_value_with_typeid", "src/scale_impls/tracing_decoder/path.rs: Display for Path"]}
{"id": "C54", "title": "value! builds the value that is written", "statement": "value!(..) compiles exactly for the notations: nothing, an expression, (..), {..}, name(..), name{..}, with values or names and values separated by commas, trailing commas being optional; and is the value that is written, in order, whatever the recursion limit of the compiler (three times the number of tokens suffices). Names are identifiers, literals (their value) or expressions (their text). Expressions that begin with a call or parentheses and go on do not compile within a list, nor do keywords as names.", "quantifier": "every token tree and expression grammar", "why_tests_cant": "unbounded token trees; a macro's rejections cannot be unit tested at all", "anchors": ["src/macros.rs: value!, value_internal!, literal_aware_stringify!"]}
{"id": "C55", "title": "The parser reports exactly the fault of the text", "statement": "Every text either begins with the text of a value or has exactly one fault, described by the grammar alone (which kind, where it begins and ends, and which opening bracket or quote it refers to), and the error returned is that fault. The text before the reported location can always be continued to a text that parses, except that a wrong escape code in a char literal is reported after the code.", "quantifier": "every input string", "why_tests_cant": "all strings, all nesting depths", "anchors": ["src/string_impls/from_string.rs: ParseError, ParseErrorKind, parse_value, parse_char, parse_string, parse_number, parse_bit_sequence, parse_composite, parse_variant"]}
{"id": "C56", "title": "the dynamic route to SCALE agrees with the static one", "statement": "For Rust types made of booleans, integers, strings, byte buffers, options, sequences, arrays, tuples, structs and enums, with derive(Encode, TypeInfo, Serialize, Deserialize): the bytes that the derived Encode gives decode, at the type's id in the registry, to precisely what to_value gives for the data; the value is encoded to these bytes; whatever decodes at this id is to_value of some data with these bytes; and decode followed by from_value gives the data back. Exception: struct S {} is decoded as () while to_value gives {} (both are read and encoded alike).", "quantifier": "every Rust type of this kind, its data, every registry that describes it, and every byte string", "why_tests_cant": "unbounded types and data; compares two implementations of the same format", "anchors": ["src/scale_impls/decode.rs: DecodeValueVisitor, decode_value_as_type", "src/scale_impls/encode.rs: encode_as_type_to for Value", "src/serde_impls/serializer.rs: ValueSerializer", "src/serde_impls/deserializer.rs: Deserializer impls", "src/lib.rs: serde::to_value, serde::from_value"]}
{"id": "C57", "title": "text keeps the data and the encoding", "statement": "What a value is encoded to at a type (or the error) does not depend on contexts, nor on whether numbers are held signed or unsigned. The text of a value without 256 bit numbers and without variants named like booleans is parsed, whatever the style, to a value with the same data, so it is encoded the same at every type; decode, to_string, from_str and encode gives the bytes back, and so it does with format_hex and parse_hex. The text of a value is read as the value (with non-negative numbers unsigned) precisely for these values.", "quantifier": "every value, style, type, registry and byte string", "why_tests_cant": "unbounded values; composition of printer, parser, decoder and encoder", "anchors": ["src/string_impls/to_string.rs: ToStringBuilder, to_string", "src/string_impls/from_string.rs: from_str", "src/scale_impls/encode.rs: encode_as_type_to for Value", "src/scale_impls/decode.rs: decode_value_as_type"]}
{"id": "C58", "title": "self-describing formats keep the data and the encoding of composites", "statement": "A composite of numbers, booleans, strings and bit sequences that is serialized to any self-describing format and read back as a Value has the same data, and is encoded the same at every type; these are all the values that every format keeps (composites that begin with a field called __bitvec__values__, characters, 256 bit numbers and variants are not). to_value and from_value also keep characters, and exactly those values otherwise. A Variant read back as a Variant too. A variant that is read back as a Value is not: it is encoded at no enum type (witnessed).", "quantifier": "every value, every self-describing format, every type and registry", "why_tests_cant": "unbounded values, all formats", "anchors": ["src/serde_impls/serialize.rs: Serialize for Value, Composite, Variant", "src/serde_impls/deserialize.rs: Deserialize for Value, Composite, Variant", "src/scale_impls/encode.rs: encode_as_type_to for Value"]}
{"id": "C59", "title": "parsing takes memory and recursion in proportion to the text", "statement": "A value parsed from a text is not larger than the text: values, characters of strings and names and bits together are at most the characters consumed. It is nested no deeper than one more than the opening brackets that were consumed, and the recursion of the parser, on right and wrong texts and with any custom parsers, is no deeper than one more than the opening brackets of the text. This bound is exact: n opening brackets need more than n nested calls, so the stack is limited by nothing but the input.", "quantifier": "every text, accepted or not, every set of custom parsers for the recursion", "why_tests_cant": "unbounded texts and unbounded nesting", "anchors": ["src/string_impls/from_string.rs: parse_value and everything it calls", "src/lib.rs: from_str"]}
{"id": "C60", "title": "decoding takes memory and recursion in proportion to the bytes, except for elements without bytes", "statement": "For a type that contains finitely many types, the depth of decoded values and the recursion of the decoders are at most a constant (of the type) times one more than the number of bytes, whatever the bytes. So is the size of decoded values, if the elements of its sequences and arrays cannot be decoded from no bytes. Where they can, at most nine bytes are decoded to any number of values below 2^64. For recursive types the recursion does grow with the input: n bytes can need more than n nested calls (witnessed).", "quantifier": "every registry and type with finitely many types in it, every input, with or without tracing, every context function", "why_tests_cant": "unbounded inputs and registries", "anchors": ["src/scale_impls/decode.rs: decode_as_type, DecodeValueVisitor", "src/scale_impls/tracing_decoder/visitor.rs: decode_with_trace, TraceDecodingVisitor"]}
{"id": "C61", "title": "messages of parse errors tell location and kind", "statement": "The message of a parse error begins with its location in decimal digits. Two errors have the same message only if they have the same start, the same end and the same kind, where messages do not distinguish chars and strings with a missing quote or a wrong escape code, nor which opening bracket has no closing one. The messages of the hexadecimal parser name the position, and the letter that is no hexadecimal digit.", "quantifier": "every parse error, with any location, kind and custom text; every text for the hexadecimal parser", "why_tests_cant": "unbounded locations and texts, all pairs of errors", "anchors": ["src/string_impls/from_string.rs: Display for ParseError, ParseErrorKind and the kinds in it", "src/string_impls/custom_parsers/hex.rs: ParseHexError"]}
{"id": "C62", "title": "styles differ only in whitespace outside of quotes", "statement": "Without custom formatters and contexts, and with indents made of whitespace, a value can be written in all styles or in none; removing all whitespace outside of quotes from the text in any style gives the compact text, so any two styles differ in nothing else, and the compact text is the shortest.", "quantifier": "every value, every style, depth and whitespace indents", "why_tests_cant": "unbounded values, all styles and indents", "anchors": ["src/string_impls/to_string.rs: ToStringWriter and its styles"]}
{"id": "C63", "title": "the parser goes through the text once", "statement": "A value is asked for at the start of the text and then only at later and later places: never twice at the same place and never further back, so not more often than there are characters (and one). Custom parsers are offered the text at exactly these places: two sets of custom parsers that answer there alike give the same result whatever they would answer elsewhere, and a custom parser that answers one of these places with an error decides the outcome. A text that is read as a value (without custom parsers) is asked for a value exactly as often as there are values in it, so nothing is parsed and thrown away.", "quantifier": "every text, accepted or not, and every set of custom parsers", "why_tests_cant": "unbounded texts; a call sequence, not a result", "anchors": ["src/string_impls/from_string.rs: parse_value, parse_named_composite, parse_unnamed_composite, parse_variant", "src/string_impls/from_string.rs: FromStrBuilder::parse"]}
{"id": "C64", "title": "many values in one text", "statement": "A loop that trims whitespace and calls from_str on what is left ends for every text, within one round per character (and one), and gives the values vs exactly if the text is a text of these one after another, with whitespace where two would run into each other; such a text determines the values. Texts of printable values in any styles, each followed by some whitespace, are read back in order.", "quantifier": "every text and every list of values, styles and whitespace", "why_tests_cant": "unbounded texts and lists", "anchors": ["src/lib.rs: stringify::from_str", "src/string_impls/from_string.rs: parse_value"]}
{"id": "C65", "title": "reading values from documents of any self-describing format", "statement": "What Value, Composite, Variant and Primitive are read as from a document, by kind of document: null is (), options are None and Some, newtypes are transparent, lists and bytes are unnamed composites, maps with keys like strings are named composites (in order, with repetitions), enums are variants whose contents are read as composites, and a map that begins with __bitvec__values__ is a bit sequence (and has to be a list of booleans alone, unless the format tolerates unread entries). Reading fails precisely if there is in the document a floating point number, malformed input, a key or name not like a string, contents of an enum not like a composite, or a bad bit sequence.", "quantifier": "every document of the serde data model, of any self-describing format, however nested", "why_tests_cant": "unbounded documents, all formats", "anchors": ["src/serde_impls/deserialize.rs: Deserialize for Value, Composite, Variant, Primitive and their visitors", "src/serde_impls/bitvec_helpers.rs: MapOrBitSeqVisitor"]}
{"id": "C66", "title": "histories of calls of the compound serializers", "statement": "Whatever sequence of calls a Serialize implementation makes on the serializers that to_value hands out, and whether or not it minds their errors: a map comes out with one field for each value that could be serialized, in the order of the calls, under the latest key before it that was like a string, and a key is used up by the next value even if that fails; keys left over are dropped; the only panic is serialize_value with no key waiting (serialize_entry never panics). Sequences and structs come out with the elements and fields that could be serialized, in order. Calls that stop at the first error give what to_value gives.", "quantifier": "every history of calls, of any length", "why_tests_cant": "unboundedly many histories", "anchors": ["src/serde_impls/serializer.rs: UnnamedCompositeSerializer, NamedCompositeSerializer, SerializeMap"]}
{"id": "C67", "title": "whatever is encoded is valid SCALE of the type, of the same data", "statement": "If a value, of whatever shape, is encoded at a type (or as a list of fields) then the bytes are the canonical SCALE encoding of some value of that type: they decode at the type, leaving alone what follows, and what was decoded encodes to the same bytes again. No encoding at a type is a proper prefix of another. The numbers, texts and variant names that are decoded are among those of the value; they are all of them in the same order if the value has no field names. (The variants of an enum need to have different indexes: witness; Compact must not be around an array, for which there is no such encoding; for encoding again the types must be those of C25.)", "quantifier": "every registry, type and value that can be encoded at it, of any shape and size (lists, strings and bit sequences shorter than 2^32)", "why_tests_cant": "unbounded values and types, all shapes that the encoder is lenient about", "anchors": ["src/scale_impls/encode.rs: EncodeAsType for Value, encode_composite, encode_variant, encode_primitive", "src/scale_impls/decode.rs: decode_value_as_type"]}
{"id": "C68", "title": "the rules of encoding are complete", "statement": "To which bytes a value encodes at a type, and whether it does, is said by a complete list of rules in terms of what the values in it encode to: a boolean only at bool, a text only at str, numbers at number types, variants by the first variant of the name, composites by field names if there are names on both sides and else in order, at a sequence with a count, at an array with exactly as many, at bit sequences as bits; if that fails, the same at what is inside of all wrappers; and if that fails, a single value in its place. Encoding fails exactly if no rule applies, and nothing but the encoder goes by these rules.", "quantifier": "every registry, type, value of any shape and size (less than 2^32 items in each list), bytes", "why_tests_cant": "unbounded values and types, and all combinations of the two; that there is nothing else that encodes", "anchors": ["src/scale_impls/encode.rs: EncodeAsType for Value, encode_composite, do_encode_composite, encode_variant, encode_primitive, find_single_entry_with_same_repr"]}
{"id": "C69", "title": "equality is structural, and the conversions agree", "statement": "Two values are equal (==) exactly if they have the same shape, with the same names in the same order and the same contents, and their contexts are equal, by the == of their type, at every place; without contexts, exactly if they have the same shape. Numbers held signed and unsigned are not equal, nor are the same fields in another order, nor () and {}. The conversions (From) of composites, variants, bits, primitives and vectors into Value and ValueDef keep what is converted and agree with one another.", "quantifier": "every pair of values, every context type and its ==, every vector and element conversion", "why_tests_cant": "all values, at all depths", "anchors": ["src/value_type.rs: derive(PartialEq) of Value, ValueDef, Composite, Variant, Primitive; impl From ... for Value, ValueDef, Composite"]}
{"id": "C70", "title": "the error of to_value is about the first thing at fault", "statement": "If data cannot be made into a value then the error is that of the first thing in it, in the order in which it is written (a key before its value), that cannot be: a float, a map key that is a value but not a string or char, or a Serialize implementation that fails, whose text is passed on. Whatever comes after that does not matter. Data has a value or exactly one such fault. The messages of the errors tell them apart.", "quantifier": "every tree of serde calls, at any depth", "why_tests_cant": "unbounded data, all combinations of faults", "anchors": ["src/serde_impls/serializer.rs: SerializerError, ValueSerializer, SerializeMap::serialize_key"]}
{"id": "C71", "title": "what texts can say, and texts as normal forms of data", "statement": "The values that some text is parsed to are exactly those without 256 bit numbers and signed numbers above zero (names may be anything, signed zero is -0). Whatever was parsed can be written again, in any style. Two values (without 256 bit numbers and without variants named like booleans) have the same text in one style exactly if they have the same data, that is but for contexts and whether numbers are held signed or unsigned; and the text of a value is a normal form: it is parsed completely to a value with the same data, which is written as the same text again.", "quantifier": "every value, text, style and whitespace indent", "why_tests_cant": "all values and texts", "anchors": ["src/string_impls/from_string.rs: FromStrBuilder::parse", "src/string_impls/to_string.rs: ToWriterBuilder::write, Display"]}
{"id": "C72", "title": "SS58 addresses and hex literals stand for their bytes, at any depth, and encode to them", "statement": "Given that the base58 crate decodes base 58 (for as many bytes as an address has): every account (of at least three bytes) has exactly one address on each network, parse_ss58 reads that address as the account's bytes, everything parse_ss58 accepts is an address of the bytes it returns, and no text is the address of two accounts. With parse_hex and parse_ss58 installed, hex literals and addresses can be used anywhere inside of a text in place of the bytes. The values they stand for encode at [u8; n] (and newtypes of it, like AccountId32) to exactly those bytes if there are n, and not otherwise, and at Vec<u8> to the compact length and the bytes. Known gaps: an address of digits only is taken for a number, and a variant whose name begins with an address and an underscore is not parsed.", "quantifier": "all accounts, network prefixes, hash functions with 64 bytes, texts with hex literals and addresses at any depth, type registries and buffers", "why_tests_cant": "Addresses are read in unit tests for one or two accounts; that every account's address is read back, and no other text, is about all byte lists and all positional numerals.", "anchors": ["src/string_impls/custom_parsers/ss58.rs:parse_ss58", "src/string_impls/custom_parsers/ss58.rs:parse_ss58_bytes", "src/string_impls/custom_parsers/ss58.rs:ss58hash", "src/string_impls/custom_parsers/hex.rs:parse_hex", "src/string_impls/from_string.rs:parse_value"]}
{"id": "C73", "title": "the error of from_value says what is wrong first", "statement": "When from_value fails, which error it returns is determined, type by type, by the value: a value of the wrong kind is an 'invalid type' error that names the kind of the value (numbers, strings and 256 bit numbers by their contents); numbers out of range, strings that are no single character and bytes that are not UTF-8 are 'invalid value' or 'invalid type' errors as serde has it; bit sequences, composites of a wrong length read as tuples, non-empty ones read as units, and composites that are not all bytes are refused with a message of the crate (exactly when, and which). In sequences, tuples, maps and nested values the error is that of the first element that cannot be read; in structs that of the first entry that repeats a field or cannot be read, or else the first missing field. Value, Composite, Variant and Primitive have their own rules, also given completely. Nothing else fails, and reading with errors succeeds with exactly the data of C41-C52.", "quantifier": "all values with contexts, all types in the fragment of C48, all nestings, and all combinations of several things being wrong", "why_tests_cant": "Unit tests check one error for one value; which of several errors is reported first, and that nothing else fails, is about all values, types and orders of entries.", "anchors": ["src/serde_impls/deserializer.rs:Deserializer", "src/serde_impls/deserializer.rs:deserialize_tuple", "src/serde_impls/deserialize.rs:VariantVisitor", "src/serde_impls/deserialize.rs:CompositeVisitor", "src/serde_impls/deserialize.rs:PrimitiveVisitor", "src/serde_impls/deserialize.rs:ValueDefVisitor", "src/lib.rs:from_value"]}
{"id": "C74", "title": "the error of reading a document says what is wrong first", "statement": "When a Value, Composite, Variant or Primitive is read from a document of any self-describing format and this fails, the error is that of the first thing in the document, in its order, that is wrong: a floating point number, a key or name that is not a string (or bytes that are not UTF-8), an element that is not a boolean in what claims to be a bit sequence (or something after it, in formats that mind), an entry other than name and values, bytes or a list that are not 32 bytes, numbers that are not bytes, something of the wrong kind, or the format's own error, passed on unchanged. Each document is either read or has exactly one such fault.", "quantifier": "all documents of all self-describing formats, whether or not they insist on reading to the end, with any number of faults", "why_tests_cant": "Tests see one malformed document at a time; which of several faults is reported, and that the list of faults is complete, is about all documents.", "anchors": ["src/serde_impls/deserialize.rs:ValueDefVisitor", "src/serde_impls/deserialize.rs:CompositeVisitor", "src/serde_impls/deserialize.rs:VariantVisitor", "src/serde_impls/deserialize.rs:PrimitiveVisitor", "src/serde_impls/bitvec_helpers.rs:MapOrBitSeqVisitor"]}
{"id": "C75", "title": "how often the encoder is entered for a value", "statement": "encode_as_type_to on a Value retries: a composite that does not fit is tried again with its only value, and values that do not fit are found out to be so by trying. Still it always ends: the number of times the encoder for values is entered is at most the number of values in it times 3 to the power of their nesting, for any type and whether it succeeds or fails, and it depends neither on the buffer nor on contexts. A value in the shape of its type, such as one that was decoded, takes exactly one entry for each value in it, unless the type has a list in two newtypes or more. The growth with nesting is real: around a value that cannot be encoded at a simple type each single-value composite doubles the entries, and a list in k newtypes takes 2 to the power of k entries although it is well-typed.", "quantifier": "all values, all type registries with distinct field names, all types, all buffers", "why_tests_cant": "A test (there is one, with a timeout) shows that one value of the wrong shape is refused in time; a bound on all values, and exactness for decoded ones, is about all values and types.", "anchors": ["src/scale_impls/encode.rs:encode_composite", "src/scale_impls/encode.rs:do_encode_composite", "src/scale_impls/encode.rs:encoding_shouldnt_take_forever"]}
{"id": "C76", "title": "when custom formatters and the printer of contexts are asked", "statement": "While a value is written with ToWriterBuilder, whatever the writer, the formatters and the context printer do: for each value, first the context printer is asked about its context, then the custom formatters in the order in which they were added, up to the first that takes it; if none does, the values in it follow, in order, and if one does, nothing in it is asked about. So each is asked at most once per value. After an error (of the writer, the context printer or a formatter) nothing more is asked or written and the error is returned; the only other reason to fail is a 256 bit number. If no formatter takes anything, exactly all values are asked about, each before what is in it.", "quantifier": "all values, writers, lists of custom formatters and context printers with any behaviour and state, all styles", "why_tests_cant": "Formatters and writers are stateful callbacks; the order and number of their calls for every value, and that errors stop everything, cannot be enumerated by tests.", "anchors": ["src/string_impls/to_string.rs:fmt_value", "src/string_impls/to_string.rs:print_custom_format", "src/string_impls/to_string.rs:print_context", "src/string_impls/to_string.rs:add_custom_formatter", "src/string_impls/to_string.rs:format_context"]}
{"id": "C77", "title": "value! and texts agree on the notation they share", "statement": "Source code in the notation that value! and texts of values have in common (booleans, strings, chars, decimal integers in the range of i32, (..), {..}, name(..), name{..}, with identifiers or strings as field names, and any whitespace) means the same to both: it compiles, from_str reads all of it, and the two values have the same data; so they are encoded to the same bytes, or refused with the same error, at every type.", "quantifier": "all sources in the common notation, of any size and nesting, all type registries and types", "why_tests_cant": "Unit tests compare value! with a few values built by hand; that it agrees with the parser on everything that both accept is about all sources.", "anchors": ["src/macros.rs:value_internal", "src/string_impls/from_string.rs:parse_value", "src/scale_impls/encode.rs:Value"]}
{"id": "C78", "title": "values can be read from bytes that arrive in parts", "statement": "Whether bytes are decoded to a value, are refused for a reason other than an error of the codec (which is the only one for missing bytes), or make the decoder run out of memory, does not change when more bytes follow, and the path, the partial value and the reason of a tracing error stay too. The bytes of a value with any number of them missing at the end always give an error of the codec. So decoding again and again, as parts of any sizes arrive, as long as there is an error of the codec, has the same outcome as decoding all of the bytes at once. The same holds for lists of fields, including where the cursor is left.", "quantifier": "all type registries, types, byte lists, ways to cut them into parts, and amounts of memory", "why_tests_cant": "Where a value may be cut, and what may follow, ranges over all byte strings; tests cut a few.", "anchors": ["src/scale_impls/decode.rs:decode_value_as_type", "src/scale_impls/decode.rs:decode_composite_as_fields", "src/scale_impls/tracing_decoder/visitor.rs:TraceDecodingVisitor"]}
{"id": "C79", "title": "reading through serde's buffer", "statement": "Types with #[serde(untagged)], #[serde(tag)] or #[serde(flatten)] are read through a buffer of serde. From a document of a self-describing format the buffer can be filled unless it has a number in a 128 bit type, an enum or a malformed place in it, and then a Value, Composite or Primitive is read from it as from the document itself (by the rules of a format that insists on the end of maps, and if no key is a char). Known gap: from a Value the buffer can be filled just if there is no number of up to 128 bits and no variant at any depth in it, so that from_value never gives an untagged enum for a value with numbers, whatever its variants; for other values it gives the first variant that can be read, and a Value in it is the one that is read directly.", "quantifier": "all values, documents and deserializers, all lists of variants of untagged enums", "why_tests_cant": "Unit tests cover one or two types with such attributes at most; for which values they can work at all is about all values.", "anchors": ["src/serde_impls/deserializer.rs:deserialize_any", "src/serde_impls/deserialize.rs:Value", "src/lib.rs:from_value"]}
{"id": "C80", "title": "the error of decoding is the first thing that is wrong", "statement": "Decoding a value (or fields) from bytes at a type fails with an error exactly when reading on from the beginning comes to something that is wrong, and the error names the first such thing: a type that is not in the registry, too few bytes or a malformed number, length, bool or bit sequence, four bytes which are not a char, bytes of a string which are not UTF-8, a variant index which the type does not have, a Compact of a type that cannot be compact. Everything before it is as the type says and is not looked at again. It panics exactly when it comes first to a length for which memory cannot be had. Of any bytes exactly one of these holds: a prefix is a value of the type, there is one first thing wrong, or memory is missing first. With DecodeAsFields the cursor is left at the field that is wrong; decode_composite_as_fields leaves it untouched.", "quantifier": "all registries, types, lists of fields, byte strings, contexts and all memory limits", "why_tests_cant": "Tests try a few malformed inputs; that every malformed input of every type gets the error of its first fault, and nothing else an error, is about all of them.", "anchors": ["src/scale_impls/decode.rs:decode_value_as_type", "src/scale_impls/decode.rs:decode_composite_as_fields", "src/scale_impls/decode.rs:DecodeAsFields"]}
{"id": "C81", "title": "what from_value reads", "statement": "from_value::<T>(v) succeeds exactly when the rules of reading relate T, v and some data, and gives that data; there is never more than one. The rules: integers as any integer type that holds them; chars as strings and strings of one char as chars; 256 bit numbers as bytes and, if they are UTF-8, as strings; Option from Some(x) and None() only; sequences and tuples from composites and variants with or without names; structs from named composites by name (absent fields only if Option, no repeated ones, others ignored), from unnamed ones in order, from bit sequences by the field __bitvec__values__; enums by the name of the variant and its contents; maps from named fields, with the last of equal keys; newtypes as what they contain, except from bit sequences and, out of variants, Option.", "quantifier": "all Rust types built from serde's data model (no bound on their size), all values", "why_tests_cant": "Tests read a few types from a few values; which values are accepted for every type, and as what, ranges over all pairs.", "anchors": ["src/serde_impls/deserialize.rs:Value", "src/lib.rs:from_value", "src/serde_impls/deserialize.rs:Composite", "src/serde_impls/deserialize.rs:Variant", "src/serde_impls/deserialize.rs:Primitive"]}
{"id": "C82", "title": "the error of from_value", "statement": "If from_value::<T>(v) fails, the error is the one of the first thing that is wrong, in the order of reading: in named composites the first entry that repeats a field or cannot be read, and if there is none, the first field of T that is missing; in sequences and tuples the first value that cannot be read, unless the number of values is wrong, which is noticed first; maps the first key or value; and for the value itself what it was (with its data) and what was expected, or the message of this library. Of any type and value exactly one of these holds: there is one thing that is read, or there is one error.", "quantifier": "all Rust types built from serde's data model in which no two fields have the same name, all values", "why_tests_cant": "Error messages are tested for a few values; that exactly one error belongs to each unreadable pair of type and value is about all of them.", "anchors": ["src/serde_impls/deserialize.rs:Value", "src/lib.rs:from_value", "src/serde_impls/deserialize.rs:Composite", "src/serde_impls/deserialize.rs:Variant", "src/serde_impls/deserialize.rs:Primitive"]}
{"id": "C83", "title": "Composite, Variant and Primitive read from values", "statement": "from_value::<Composite>(v) gives the values of a composite, with names if v has them (also if the first is __bitvec__values__), a bit sequence as a composite with that one field, and 256 bit numbers as 32 numbers; variants and other primitives are errors. from_value::<Variant>(v) gives variants, and composites with entries name and values only (each readable, at least one of each, the last counts). from_value::<Primitive>(v) gives primitives, i256 as u256, and unnamed composites of 32 numbers from 0 to 255 as u256. Everything else fails, with the error of the first thing that is wrong: a value or entry that cannot be read, a name other than these two, a missing name or values, a wrong length, or an invalid type. Of any value just one holds: it is read as one thing, or there is one error.", "quantifier": "all values, of any size and depth", "why_tests_cant": "Tests read the types of the library from a few values of the right shape; that all others are refused, and with which error, is about all values.", "anchors": ["src/serde_impls/deserialize.rs:Composite", "src/serde_impls/deserialize.rs:Variant", "src/serde_impls/deserialize.rs:Primitive", "src/serde_impls/deserialize.rs:VariantVisitor", "src/serde_impls/deserialize.rs:PrimitiveVisitor", "src/lib.rs:from_value"]}
{"id": "C84", "title": "reading from Composite, Variant and Primitive themselves", "statement": "A Composite, Variant or Primitive that is itself used as the deserializer (T::deserialize(composite)) gives what a value with it gives, or the same error, for every T, and answers every request of every visitor the same way. There are two exceptions, both of variants: an Option is never read from a Variant, not even from Some(x) or None(), and a struct is read from the fields of a Variant as from a composite, whatever its name is, although it is never read from a value with that variant.", "quantifier": "all Rust types built from serde's data model in which no two fields have the same name, all composites, variants and primitives", "why_tests_cant": "Tests use a few types and composites; that the two ways of reading agree, with exactly these exceptions, is about all of them.", "anchors": ["src/serde_impls/deserializer.rs:Composite", "src/serde_impls/deserializer.rs:Variant", "src/serde_impls/deserializer.rs:Primitive", "src/serde_impls/deserializer.rs:ValueDef", "src/serde_impls/deserializer.rs:IntoDeserializer"]}
{"id": "C85", "title": "decoding ends unless a type begins with itself", "statement": "decode_as_type and decode_composite_as_fields return for all bytes, whatever the registry is, unless they come to a type that would begin with a value of a type that would begin with a value of a type, and so on without end (struct A { a: A }, also after fields of no bytes, inside arrays, tuples and Compact). When they come to such a type they never return. Types that contain themselves in sequences, enums or after something that has bytes are harmless. In a registry with finitely many types the types without end are those that begin with one that begins with itself; decoding from no bytes never returns just for them. The tracing decoder returns whenever the plain one does, and whenever the plain one does not, it does not either or stops with the error for more than 100000000 entries.", "quantifier": "all registries (also cyclic ones and ones with missing types), types, fields and bytes", "why_tests_cant": "That a call returns for all inputs, and the exact condition under which it does not, is not observable by running it.", "anchors": ["src/scale_impls/decode.rs:decode_value_as_type", "src/scale_impls/decode.rs:decode_composite_as_fields", "src/scale_impls/decode.rs:DecodeValueVisitor", "src/lib.rs:decode_as_type"]}
{"id": "C86", "title": "encoding ends unless there are wrapper types without end", "statement": "encode_as_type and encode_as_fields return for every value, whatever the registry is, if no type within the given one is a wrapper of a wrapper of a wrapper, and so on without end (structs with one field, tuples of one, arrays of length one). At such a type no value can be encoded: the call never returns, except that a 256 bit number fails with the wrong length if there is an array among the wrappers. Booleans, strings, bit sequences and variants without fields do not return exactly at such types; numbers and characters also at wrappers of a Compact of one. How encoding of a composite or a variant ends (with success, with an error, or never) is exactly determined by how encoding of its values ends at the types of the fields, with rules for wrappers, names and lengths, and never depends on what is in the buffer. Wherever decoding is sure to end, encoding is too.", "quantifier": "all registries (also cyclic ones and ones with missing types), types, fields, values and buffers", "why_tests_cant": "That a call returns for all inputs, and the exact condition under which it does not, is not observable by running it.", "anchors": ["src/scale_impls/encode.rs:encode_as_type_to", "src/scale_impls/encode.rs:encode_as_fields_to", "src/scale_impls/encode.rs:find_single_entry_with_same_repr", "src/scale_impls/encode.rs:encode_composite", "src/lib.rs:encode_as_type"]}
{"id": "C87", "title": "typed data can be kept as text", "statement": "What from_value reads from a value, as a type without byte buffers and Values in it, depends on its data alone: not on contexts, nor on whether numbers are held signed or unsigned. So the text of a value (without 256 bit numbers and variants named like booleans), in any style, is parsed to a value from which every such type is read as from the value itself; types with byte buffers too, wherever they are read from the value. Data of the types of C48 comes back from to_value, to_string, from_str and from_value, so different data has different texts; and the bytes that derive(Encode) gives for it can be decoded, written, parsed and read as the data. Exception: bytes that are held signed are not read as a byte buffer, but from the text they are (witnessed).", "quantifier": "all values, styles, Rust types of C48 and their data, registries that describe them", "why_tests_cant": "Holds for every type and every value; composition of four functions each with its own corner cases.", "anchors": ["src/lib.rs:to_value", "src/lib.rs:from_value", "src/lib.rs:from_str", "src/string_impls/to_string.rs:Display for Value", "src/serde_impls/deserializer.rs:Deserializer for Value"]}
{"id": "C88", "title": "decoding is work in proportion to the bytes", "statement": "When decoding succeeds (plain, tracing, or as fields) the decoder has been entered exactly once for each value of the result. Whatever the bytes are, decodable or not, it is entered at most a constant times their number plus one, if there are finitely many types inside the type and elements of sequences and arrays cannot be had from no bytes. The tracing decoder is never entered more often than the plain one, and as often unless there are too many values for it. Where elements do take no bytes, nine bytes can ask for any number of calls below 2^64.", "quantifier": "all registries, types, fields, contexts, byte strings, limits of memory", "why_tests_cant": "A bound on the work for every input, hostile ones included; tests only measure some inputs.", "anchors": ["src/scale_impls/decode.rs: decode_value_as_type, DecodeValueVisitor, visit_composite", "src/scale_impls/tracing_decoder/visitor.rs: TraceDecodingVisitor, to_unnamed_composite"]}
{"id": "C89", "title": "how long texts of values are", "statement": "Without custom formatters and contexts the text of a value has at least one character for each value in it, each character of a string or name and each bit; and at most 45 (compact style) or 48 (normal style) for each value, string character and bit, and two for each character of a name. In pretty style there are up to three line breaks with indents more for each value, so the text is bounded by that times the nesting; values nested in each other do reach twice the square of their number. Parsing and printing again makes a text at most 48 times as long; the text of what has been decoded (types as in C60) is at most a constant times the bytes, in pretty style times their square.", "quantifier": "all values, styles, indents, texts, registries, types and bytes", "why_tests_cant": "A bound for all values; the size of texts decides whether hostile input can exhaust memory.", "anchors": ["src/string_impls/to_string.rs: ToWriterBuilder, Formatter, fmt_value, fmt_composite, write_newline", "src/string_impls/from_string.rs: parse_value"]}
{"id": "C90", "title": "how many bytes values encode to", "statement": "If the fields of each struct and variant of the registry have distinct names, a value without 256 bit numbers encodes (at whatever type) to at most 17 bytes for each value, string character and bit in it, and with 256 bit numbers to at most 513; both are reached. So a text encodes to at most 17 bytes for each character. encode_as_fields likewise. If names are not distinct there is no such bound: with two fields of the same name in each struct, a value of n + 1 nodes encodes to 2^n bytes.", "quantifier": "all registries with distinct field names, types, values with lengths below 2^32, texts", "why_tests_cant": "A bound for all types and values; and an exponential case that only a hostile registry shows.", "anchors": ["src/scale_impls/encode.rs: encode_value, encode_composite, encode_variant, encode_bitsequence"]}
{"id": "C91", "title": "how large the values are that serde makes", "statement": "The value that to_value makes of data is just as large as the data (one for each call of the serializer, each character of a string and each byte), has just its names, and is nested as deeply. to_value of a value is at least as large as it, at most three times as large plus the characters of its names (33 times with 256 bit numbers), and nested at most twice as deeply plus one; to_value of that is the same value again. A value read from a value is at most as large and as deep (33 times, and one deeper, with 256 bit numbers). A value read from a document of a self-describing format is at most as large as the document.", "quantifier": "all data of the serde data model, all values, all documents of self-describing formats, of any size and depth", "why_tests_cant": "A test measures some sizes; that untrusted data cannot blow up in memory or stack when they pass through serde is about all of them.", "anchors": ["src/serde_impls/serializer.rs Serializer for ValueSerializer", "src/serde_impls/serialize.rs Serialize for Value", "src/serde_impls/deserialize.rs Deserialize for Value, ValueDefVisitor", "src/serde_impls/deserializer.rs Deserializer for Value", "src/lib.rs serde::to_value, from_value"]}
{"id": "C92", "title": "ids of types are only names, and other types do not matter", "statement": "If a registry holds the types that occur within the type t under other ids (as after `PortableRegistry::retain`, which drops types and numbers the rest anew; equal types may also have been merged) then `decode_as_type`, `decode_as_fields`, `tracing::decode_as_type`, `encode_as_type` and `encode_as_fields` do the same with both, for every input: the same value, remaining bytes, error and bytes written, or none if the call never returns; only the ids that are reported (contexts of values, and ids in errors of encoding) are the new ones. So types of the registry that do not occur within t have no influence. The other properties are stated for registries in which no type contains itself inline; this is no restriction at any type within which there is no chain, without end, of types each inline in the one before: there is a registry of that kind with the same types within it, and the functions return and do what they do with it; and only then is there one.", "quantifier": "all registries, types in them, maps of ids to ids, values and bytes", "why_tests_cant": "A test compares two registries on some inputs; that stripped metadata can be used in place of the full metadata is about all of them.", "anchors": ["src/scale_impls/decode.rs decode_value_as_type, decode_composite_as_fields", "src/scale_impls/encode.rs EncodeAsType for Value, EncodeAsFields for Value", "src/scale_impls/tracing_decoder/visitor.rs TraceDecodingVisitor", "src/lib.rs scale::decode_as_type, encode_as_type, tracing::decode_as_type"]}
{"id": "C93", "title": "size hints of a deserializer are trusted for memory, and no more", "statement": "Reading a Value, a Composite or a Variant from a deserializer reserves memory for as many entries as the size hint of each sequence that is reached says, and of each map (for values once its first key has been read, and not for the maps that stand for bit sequences or for empty maps), none without a hint. If that memory cannot be reserved for one of them the call panics, and for no other reason; otherwise the result does not depend on the hints at all. So a deserializer whose hints come from its input and are not checked against it can make it panic with an empty sequence. With hints no larger than what is left, as those of serde's own deserializers and of this crate's values, memory for as many entries as the longest sequence or map has is enough; for reading from a value, as many as the largest composite or variant in it has.", "quantifier": "all deserializers with any hints, limits of memory, and values", "why_tests_cant": "Tests use deserializers with honest hints; that nothing but the hints of lists that are reached matters, and that honest hints suffice, is about all deserializers.", "anchors": ["src/serde_impls/deserialize.rs CompositeVisitor::visit_seq, visit_map", "src/serde_impls/bitvec_helpers.rs MapOrBitSeqVisitor::visit_map"]}
{"id": "C94", "title": "slices, arithmetic and expect never panic", "statement": "The operations in the crate that could panic (other than for want of memory: C39, C93; and by misuse of serializers: C66) do not: not the slicing of strings and bytes and the arithmetic of parse_ss58 and parse_hex, for any text, nor the table of digits of format_hex, for any value, nor the expects on names of fields in decoding, on single fields in encoding, and on the value of Some in deserialize_option. Checked operations only ever give what the other properties say. The locations of the parser's own errors are at most one beyond the end of the text. The one exception: if a custom parser returns an error with a location so large that it does not fit in usize together with the offset where that parser began, wherever in the text that is, from_str panics (in builds that check for overflow); with locations within the text that the parser was given it does not.", "quantifier": "all texts, values, types, and errors of custom parsers", "why_tests_cant": "A panic that needs a particular slice or sum is missed by tests on some inputs; that there is none is about all.", "anchors": ["src/string_impls/custom_parsers/hex.rs parse_hex", "src/string_impls/custom_parsers/ss58.rs parse_ss58_bytes", "src/string_impls/custom_formatters/hex.rs u4_to_hex", "src/scale_impls/decode.rs visit_composite", "src/scale_impls/encode.rs find_single_entry_with_same_repr", "src/serde_impls/deserializer.rs deserialize_option", "src/string_impls/from_string.rs parse_value"]}
{"id": "C95", "title": "The options of the builders", "statement": "After any history of calls to compact, pretty, leading_indent, indent_by, format_context and add_custom_formatter, what write produces is the text of the value with the last chosen style, leading indent, indent and context printer (or the defaults: normal style, two spaces, no leading indent, no contexts) and with the formatters in the order in which they were added; for any writer, up to its first failure. A choice that is made again later leaves no trace, the order of calls that choose different options is immaterial, and indents matter only if the last style is pretty. Custom parsers, too, are asked in the order in which they were added, and builders with no parser, or only declining ones, parse as from_str does.", "quantifier": "all histories of calls, formatters, context printers, parsers, values, texts and writers", "why_tests_cant": "Tests make one or two calls; that order and repetition do not matter is a statement about all histories of calls.", "anchors": ["src/string_impls/to_string.rs ToWriterBuilder", "src/string_impls/to_string.rs compact, pretty, leading_indent, indent_by, format_context, add_custom_formatter", "src/string_impls/from_string.rs FromStrBuilder, add_custom_parser"]}
{"id": "C96", "title": "texts of values can be embedded in other texts", "statement": "In what the formatter writes, in any style, double and single quotes are closed and round, curly and angle brackets outside of quotes are closed by their own kind in the right order, whatever is in strings, chars and names (if the same holds of what custom formatters and context printers write, and of the indents; it does of format_hex); so where a text in brackets ends can be seen without parsing it. Line feeds, tabs, carriage returns and null characters occur only in pretty style, as line breaks and in the indents the user gave; to_string is always one line. Other characters are written as they are, even those that some programs take for line ends.", "quantifier": "all values, styles, indents, custom formatters and context printers", "why_tests_cant": "Tests print a few harmless strings; that no string or name can break out of its quotes or its line is about all of them.", "anchors": ["src/string_impls/to_string.rs fmt_value, fmt_string, fmt_char, fmt_composite, fmt_variant", "src/string_impls/string_helpers.rs to_escape_code"]}
