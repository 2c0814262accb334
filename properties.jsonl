{"id": "C01", "title": "Stream content is the append log", "statement": "After any history of append / appendGap / trim / freeze / unfreeze on a Stream with non-decreasing trim offsets, reading the byte at absolute offset o (begin <= o < end) gives exactly the byte that was appended at position o, and gives MissingData exactly if that position came from a gap; size() is end - begin.", "quantifier": "all operation histories, all chunkings, all byte contents, all offsets", "why_tests_cant": "depends on the arrangement of chunks, cached tails and trims produced by arbitrary histories; tests sample a handful of chunkings", "anchors": ["hilti/runtime/include/types/stream.h: Chain, Chunk, Stream", "hilti/runtime/src/types/stream.cc: Chain::append, Chain::trim, Chain::findChunk"]}
{"id": "C02", "title": "Chunking is unobservable through content observers", "statement": "Two streams holding the same bytes from the same start offset but split into chunks differently give the same answers for size, comparison, find, sub, extract and iteration.", "quantifier": "all byte strings, all pairs of ways to split them into chunks", "why_tests_cant": "the number of splits is exponential in the length", "anchors": ["hilti/runtime/include/types/stream.h: View::operator==, View::find, View::extract", "hilti/runtime/src/types/stream.cc: View::_findForward"]}
{"id": "C03", "title": "Trimming never disturbs what remains and never brings data back", "statement": "trim(o) leaves every byte at offset >= o readable and unchanged, makes every offset < o unreadable, and once an offset became unreadable through trimming no later operation makes it readable again.", "quantifier": "all histories of append and trim, all offsets", "why_tests_cant": "needs every history; the failure needs a trim to an earlier offset inside the head chunk", "anchors": ["hilti/runtime/src/types/stream.cc: Chain::trim", "hilti/runtime/include/types/stream.h: Chain::trim, Stream::trim"]}
{"id": "C04", "title": "A frozen stream is immutable until unfrozen", "statement": "After freeze(), every append attempt (of data or gaps) throws Frozen and leaves content, size, offsets and statistics unchanged (trimming stays possible); after unfreeze() appends work as before, as if the rejected attempts had never been made.", "quantifier": "all stream states, all attempted operations, any number of them", "why_tests_cant": "quantifies over all states and operation lists", "anchors": ["hilti/runtime/include/types/stream.h: Chain::ensureMutable, Stream::freeze", "hilti/runtime/src/types/stream.cc"]}
{"id": "C05", "title": "Dereferencing a safe stream iterator is memory safe", "statement": "For every history of stream operations and every iterator obtained from the stream, *it either returns the byte at its offset, or throws InvalidIterator / MissingData / WouldBlock-style exceptions; it never touches freed memory.", "quantifier": "all histories, all iterators obtained at any earlier point", "why_tests_cant": "use-after-free depends on the interleaving of iterator creation, trim, append and on the chain's one-entry chunk cache", "anchors": ["hilti/runtime/include/types/stream.h: SafeConstIterator, UnsafeConstIterator", "hilti/runtime/src/types/stream.cc: Chain::findChunk, Chain::data"]}
{"id": "C06", "title": "View extraction returns exactly the requested prefix", "statement": "view.extract(n) returns the first n bytes of the view across any chunk boundaries when n <= size and there is no gap in them; throws WouldBlock if n exceeds the available data and MissingData if a gap lies within; nothing is partially consumed.", "quantifier": "all views, all chunkings, all n", "why_tests_cant": "boundary between chunks, partial chunks and gaps combine unboundedly", "anchors": ["hilti/runtime/include/types/stream.h: View::extract, View::advance", "hilti/runtime/src/types/stream.cc"]}
{"id": "C07", "title": "Byte search finds the first occurrence", "statement": "view.find(b) returns an iterator to the first offset in the view holding b, or the view's end if b does not occur.", "quantifier": "all views, all chunkings, all needles", "why_tests_cant": "all chunk layouts and contents", "anchors": ["hilti/runtime/src/types/stream.cc: View::find(Byte)", "hilti/runtime/include/types/stream.h: View::find"]}
{"id": "C08", "title": "Sequence search is exact and resumable", "statement": "view.find(needle) reports found at the first occurrence when the needle occurs; if it does not occur, it reports not found together with the first position from which the remaining data is a proper prefix of the needle (or the end), so no later occurrence can start before the reported position when more data is appended.", "quantifier": "all views, needles, chunkings and all possible continuations of the data", "why_tests_cant": "the resumability guarantee quantifies over all future data", "anchors": ["hilti/runtime/src/types/stream.cc: View::_findForward", "hilti/runtime/include/types/stream.h: View::find"]}
{"id": "C09", "title": "Backward search finds the last occurrence", "statement": "find(needle, Backward) returns the right-most occurrence that ends at or before the given end position, or not found if none exists.", "quantifier": "all views, needles, chunkings", "why_tests_cant": "all contents/chunkings", "anchors": ["hilti/runtime/src/types/stream.cc: View::_findBackward", "hilti/runtime/include/types/stream.h"]}
{"id": "C10", "title": "Stream statistics count what was appended", "statement": "num_data_bytes/num_data_chunks/num_gap_bytes/num_gap_chunks equal the totals over all appends since construction or reset, counting no empty chunks; trimming does not change them.", "quantifier": "all histories", "why_tests_cant": "all histories", "anchors": ["hilti/runtime/include/types/stream.h: Statistics, Chain::append", "hilti/runtime/src/types/stream.cc"]}
{"id": "C11", "title": "Copying a stream gives an equal stream", "statement": "Stream(other) compares equal to other, has the same size and the same bytes.", "quantifier": "all streams reachable by any history", "why_tests_cant": "fails only for histories with a trim inside a chunk", "anchors": ["hilti/runtime/src/types/stream.cc: Chain::copy", "hilti/runtime/include/types/stream.h"]}
{"id": "C12", "title": "Iterating blocks visits every byte once, in order", "statement": "Concatenating the blocks returned by firstBlock() / nextBlock() gives exactly the bytes of the view.", "quantifier": "all views, all chunkings, views starting and ending inside chunks", "why_tests_cant": "all layouts", "anchors": ["hilti/runtime/src/types/stream.cc: View::firstBlock, View::nextBlock", "hilti/runtime/include/types/stream.h"]}
{"id": "C13", "title": "Incremental parsing is independent of input chunking", "statement": "Feeding an input to a unit parser in any sequence of pieces, suspending whenever it runs out, gives the same parse result (value, error kind and final position) as feeding it in one piece and finishing.", "quantifier": "all modelled grammars, all inputs, all ways to split the input", "why_tests_cant": "exponentially many splits times all grammars", "anchors": ["spicy/runtime/src/parser.cc", "spicy/toolchain/src/compiler/codegen/parser-builder.cc"]}
{"id": "C14", "title": "waitForInput returns only with enough data or fails only at true end of data", "statement": "waitForInput(min) returns true iff at least min bytes are available in the view when it returns; it fails only if the input is frozen with fewer than min bytes; for every future schedule of arriving data it suspends at most once per arrival and never after sufficient data arrived.", "quantifier": "all schedules of data arrival and freeze", "why_tests_cant": "all schedules", "anchors": ["spicy/runtime/src/parser.cc: waitForInputOrEod, waitForInputNoThrow, waitForInput"]}
{"id": "C15", "title": "Literal matching and fixed-size extraction consume exactly what they match", "statement": "extractBytes(n) yields the next n bytes and advances by n; expectBytesLiteral(l) succeeds iff the next |l| bytes are l; at end of data extractBytes(eod_ok) yields whatever is left.", "quantifier": "all inputs, chunkings, literals", "why_tests_cant": "all inputs", "anchors": ["spicy/runtime/src/parser.cc: extractBytes, expectBytesLiteral"]}
{"id": "C16", "title": "In-order writes to a sink are delivered verbatim, in order", "statement": "Writing data without sequence number, or with consecutive ones, delivers the concatenation of all chunks to every connected parser, with no gap, overlap or undelivered report.", "quantifier": "all lists of chunks", "why_tests_cant": "all lists", "anchors": ["spicy/runtime/src/sink.cc: Sink::write, _newData, _deliver"]}
{"id": "C17", "title": "Out-of-order, non-overlapping writes are delivered exactly once and in order", "statement": "If a set of non-overlapping chunks that tile [0,N) is written in any order, the sink delivers exactly the N bytes in order, once, with no gap report.", "quantifier": "all tilings, all permutations", "why_tests_cant": "factorially many arrival orders", "anchors": ["spicy/runtime/src/sink.cc: _addAndCheck, _tryDeliver"]}
{"id": "C18", "title": "Retransmitted and overlapping data never loses bytes", "statement": "If every byte position in [0,N) is written at least once (with consistent content), in any order and with any overlaps, the sink delivers all N bytes.", "quantifier": "all sets of possibly overlapping segments, all orders", "why_tests_cant": "overlap patterns are unbounded; the failing one needs an empty buffer plus partial overlap", "anchors": ["spicy/runtime/src/sink.cc: _addAndCheck, _newData"]}
{"id": "C19", "title": "Delivery is monotone and never duplicates", "statement": "The delivered data is at each point a prefix of the final delivered data, delivered positions are strictly increasing, and no position is delivered twice, as long as skip() only goes forward and the sink is not closed in between.", "quantifier": "all histories of write/gap/skip/trim", "why_tests_cant": "all histories", "anchors": ["spicy/runtime/src/sink.cc"]}
{"id": "C20", "title": "Gap and skip reports delimit exactly the positions not delivered", "statement": "For every history, every position below the current reassembly position is either delivered, reported in a gap, skipped or reported undelivered.", "quantifier": "all histories", "why_tests_cant": "all histories", "anchors": ["spicy/runtime/src/sink.cc: _reportGap, skip, gap"]}
{"id": "C21", "title": "Sink reassembly has no undefined behaviour", "statement": "No history of write / gap / skip / trim / flush / close calls makes the sink dereference an invalid position in its chunk list.", "quantifier": "all histories", "why_tests_cant": "needs a particular overlap of a gap with buffered data", "anchors": ["spicy/runtime/src/sink.cc: _addAndCheck"]}
{"id": "C22", "title": "Reported undelivered data is the data that was written at that position", "statement": "Whenever the sink reports undelivered bytes for position s, those bytes are the ones that were buffered for s.", "quantifier": "all histories", "why_tests_cant": "needs a partially superseded chunk", "anchors": ["spicy/runtime/src/sink.cc: _reportUndeliveredUpTo"]}
{"id": "C23", "title": "Integer pack/unpack round trip", "statement": "For every integer type and byte order, unpack(pack(v, order), order) = v with all bytes consumed, and unpack of data with a suffix leaves exactly the suffix; pack(unpack(b)) = b for b of the exact length; shorter data is an error.", "quantifier": "all values of all widths, all byte orders, all suffixes", "why_tests_cant": "2^64 values x orders", "anchors": ["hilti/runtime/include/types/integer.h: pack, unpack, detail::unpack"]}
{"id": "C24", "title": "Bit-range extraction", "statement": "integer::bits(v, lo, hi, order) returns floor(v / 2^lo) mod 2^(hi-lo+1) for LSB0 and the mirrored range for MSB0, and throws for invalid ranges; never undefined.", "quantifier": "all widths, values, ranges, bit orders", "why_tests_cant": "all combinations", "anchors": ["hilti/runtime/include/types/integer.h: bits"]}
{"id": "C25", "title": "Safe integer arithmetic is exact or throws", "statement": "Every operator on a safe integer either returns the mathematically exact result, or throws Overflow / DivisionByZero; it throws only when the exact result is not representable or undefined.", "quantifier": "all operands of all widths", "why_tests_cant": "all operand pairs", "anchors": ["hilti/runtime/include/safe-int.h", "hilti/runtime/include/safe-math.h"]}
{"id": "C26", "title": "Power computes exact results or throws and terminates", "statement": "pow(base, exp) for non-negative exp returns base^exp or throws Overflow; it terminates for every argument.", "quantifier": "all operands", "why_tests_cant": "termination over all inputs", "anchors": ["hilti/runtime/include/util.h: pow", "hilti/runtime/include/safe-math.h"]}
{"id": "C27", "title": "Textual integer parsing accepts exactly the numbers in range", "statement": "bytes.to_int(base)/to_uint(base) return the number denoted by an optionally signed digit string in the given base, consuming the whole input, and throw for anything else including out-of-range values.", "quantifier": "all byte strings, all bases 2..36", "why_tests_cant": "unbounded strings", "anchors": ["hilti/runtime/include/util.h: atoi_n", "hilti/runtime/src/types/bytes.cc: toInt, toUInt"]}
{"id": "C28", "title": "Binary integer conversion of bytes", "statement": "bytes.to_uint(order) and to_int(order) equal the positional value of the bytes (two's complement for to_int) for 1..8 bytes and throw otherwise.", "quantifier": "all byte strings, all orders", "why_tests_cant": "2^64 inputs", "anchors": ["hilti/runtime/src/types/bytes.cc: toInt(ByteOrder), toUInt(ByteOrder)"]}
{"id": "C29", "title": "Splitting and joining are inverse", "statement": "Joining the parts of split(sep) with sep restores the original; split1(sep) parts likewise; no part contains sep.", "quantifier": "all strings and separators", "why_tests_cant": "overlapping separators", "anchors": ["hilti/runtime/include/util.h: split, join", "hilti/runtime/src/util.cc: split, split1, rsplit1", "hilti/runtime/include/types/bytes.h"]}
{"id": "C30", "title": "Bytes search, prefix/suffix tests and stripping", "statement": "find returns the first occurrence at or after the start; startsWith/endsWith are prefix/suffix tests; strip removes exactly the maximal leading/trailing runs of the strip set.", "quantifier": "all byte strings, needles, sets", "why_tests_cant": "unbounded strings", "anchors": ["hilti/runtime/include/types/bytes.h", "hilti/runtime/src/types/bytes.cc"]}
{"id": "C31", "title": "Sub-range of bytes", "statement": "bytes.sub(from, to) returns positions [from, to) and throws or returns empty for ill-formed ranges.", "quantifier": "all strings and offsets", "why_tests_cant": "all ranges incl. inverted ones", "anchors": ["hilti/runtime/include/types/bytes.h: sub"]}
{"id": "C32", "title": "Escaping of bytes is reversible", "statement": "expandUTF8Escapes(escapeBytes(b)) = b, for every byte string and escape style; the escaped form contains printable ASCII only.", "quantifier": "all byte strings, all styles", "why_tests_cant": "unbounded strings", "anchors": ["hilti/runtime/src/util.cc: escapeBytes, expandUTF8Escapes"]}
{"id": "C33", "title": "Address binary round trip and ordering", "statement": "unpack(pack(addr)) = addr for each family and byte order; == and < on addresses form a consistent total order.", "quantifier": "all addresses", "why_tests_cant": "2^128 values", "anchors": ["hilti/runtime/src/types/address.cc", "hilti/runtime/include/types/address.h"]}
{"id": "C34", "title": "Network membership is prefix comparison", "statement": "network.contains(a) iff the first length bits of a equal those of the network prefix; constructor rejects out-of-range lengths; no undefined shifts.", "quantifier": "all addresses, all lengths", "why_tests_cant": "2^128 x 129", "anchors": ["hilti/runtime/include/types/network.h", "hilti/runtime/src/types/address.cc: mask"]}
{"id": "C35", "title": "Port parse/print round trip", "statement": "Port(to_string(p)) = p for every port and protocol and parsing rejects all strings not of form digits/proto with value <= 65535.", "quantifier": "all ports, all strings", "why_tests_cant": "unbounded strings", "anchors": ["hilti/runtime/src/types/port.cc"]}
{"id": "C36", "title": "Time and interval arithmetic is exact or throws", "statement": "(t + i) - t = i whenever no exception; results outside the range throw; never wraps silently.", "quantifier": "all times and intervals", "why_tests_cant": "2^128 pairs", "anchors": ["hilti/runtime/include/types/time.h", "hilti/runtime/include/types/interval.h"]}
{"id": "C37", "title": "Vector behaves as a sequence", "statement": "Any history of vector operations behaves like the same operations on a mathematical list (assign beyond end fills with default), with IndexError exactly for out of range accesses and no memory error.", "quantifier": "all histories", "why_tests_cant": "all histories and extreme indices", "anchors": ["hilti/runtime/include/types/vector.h"]}
{"id": "C38", "title": "Map and set behave as finite maps/sets with detected iterator invalidation", "statement": "Any history of map/set operations behaves like a mathematical map/set; using an iterator after the operation that invalidates it throws instead of being undefined.", "quantifier": "all histories, all iterators", "why_tests_cant": "interleavings of iterators and mutation", "anchors": ["hilti/runtime/include/types/map.h", "hilti/runtime/include/types/set.h"]}
{"id": "C39", "title": "Resumables follow their life cycle", "statement": "A resumable's result is available iff its function finished normally; an exception is reported exactly once; resume/abort after completion is rejected and never re-runs the function.", "quantifier": "all schedules of run/yield/resume/abort", "why_tests_cant": "all schedules", "anchors": ["hilti/runtime/src/fiber.cc", "hilti/runtime/include/fiber.h"]}
{"id": "C40", "title": "Fiber cache accounting", "statement": "current, cached, total and max fiber counters equal the number of live / cached / created fibers; the cache never exceeds its configured size.", "quantifier": "all create/destroy histories", "why_tests_cant": "all histories", "anchors": ["hilti/runtime/src/fiber.cc: Fiber::create, destroy, reset"]}
{"id": "C41", "title": "Comparing views with each other and with byte strings", "statement": "Two stream views compare equal iff they show the same sequence of bytes and gap positions, whatever their offsets and chunkings; view == bytes and startsWith(bytes) agree with list equality / prefix on gap-free views and report missing data otherwise.", "quantifier": "all views of any streams, all byte strings", "why_tests_cant": "all layouts of two independent streams", "anchors": ["hilti/runtime/src/types/stream.cc: View::operator==, View::startsWith", "hilti/runtime/include/types/stream.h"]}
{"id": "C42", "title": "Skipping gaps", "statement": "advanceToNextData() moves the view's begin by at least one byte to the first position behind it holding real data, to the end of the data if only gaps follow, and keeps the view's end.", "quantifier": "all views, all sequences of gaps and data", "why_tests_cant": "all layouts", "anchors": ["hilti/runtime/src/types/stream.cc: View::advanceToNextData", "hilti/runtime/include/types/stream.h"]}
{"id": "C43", "title": "A complete view is final", "statement": "Once isComplete() of a view is true it stays true and the size and content of the view never change again, for every later history that does not unfreeze the stream (and does not trim the view's begin away); it is false exactly while the stream is unfrozen and the view is open-ended or its end has not been received.", "quantifier": "all histories before and after, all views", "why_tests_cant": "quantifies over all future operations", "anchors": ["hilti/runtime/src/types/stream.cc: View::isComplete", "hilti/runtime/include/types/stream.h: View::size"]}
{"id": "C44", "title": "View arithmetic: limit, advance, sub, trim", "statement": "limit(n) shows exactly the first n positions of the view (never more than before); advance(n) shows all but the first n; sub(x,y) shows positions x..y-1; trim(i) drops what is before i; all of these stay correct as more data arrives.", "quantifier": "all views, all offsets, all later histories", "why_tests_cant": "all layouts and futures", "anchors": ["hilti/runtime/include/types/stream.h: View::limit, View::advance, View::sub, View::trim"]}
{"id": "C45", "title": "Every unit connected to a sink gets the same data", "statement": "A unit connected to a sink receives exactly the data the sink passes on after it was connected, in order, until its own parser fails; other units, failing or not, do not affect it.", "quantifier": "all sets of units with arbitrary behaviour, all histories", "why_tests_cant": "all histories and all parsers", "anchors": ["spicy/runtime/src/sink.cc: Sink::_deliver", "spicy/runtime/include/sink.h: Sink::connect"]}
{"id": "C46", "title": "Value, strong and weak references", "statement": "Copying or assigning a value reference copies the value: what is done through one value reference never shows through another; strong and weak references bound to a reference share its value; the value lives exactly as long as some value or strong reference owns it; using a null or expired reference throws NullReference / ExpiredReference and is never undefined; isExpired() is true exactly if the value was destroyed.", "quantifier": "all histories of constructing, copying, moving, assigning, binding, resetting, dropping and accessing references", "why_tests_cant": "all histories and aliasing patterns", "anchors": ["hilti/runtime/include/types/reference.h: ValueReference, StrongReference, WeakReference"]}
{"id": "C47", "title": "Grammar tables are exact", "statement": "For every unit the compiler computes its grammar tables in finite time; a production is marked as possibly empty iff it derives the empty string, its FIRST set holds exactly the terminals a derivation of it can start with, its FOLLOW set exactly those that can come right after it in some derivation of the unit; the look-ahead set of an alternative holds exactly the terminals it can start with plus, if it can be empty, those that can follow. Productions the unit cannot reach are dropped, all others kept.", "quantifier": "all grammars (any number of productions, recursive or not)", "why_tests_cant": "all grammars; a fixed point over derivations of unbounded length", "anchors": ["spicy/toolchain/src/compiler/codegen/grammar.cc: _addProduction, _simplify, _computeTables, lookAheadsForProduction"]}
{"id": "C48", "title": "Look-ahead parsing accepts exactly the grammar's language", "statement": "For a program that compiles, parsing input by look-ahead (lists without length, switches without expression, nested units) succeeds exactly if the input is a sentence of the unit's grammar followed by the rest that is left over; the token chosen is the longest one that matches.", "quantifier": "all programs, all inputs, all values of conditions", "why_tests_cant": "all grammars and all inputs", "anchors": ["spicy/toolchain/src/compiler/codegen/parser-builder.cc: getLookAhead, parseLookAhead, ProductionVisitor", "spicy/toolchain/src/compiler/codegen/parsers/literals.cc"]}
{"id": "C49", "title": "Look-ahead ambiguities are reported, and switches take the announced case", "statement": "The compiler rejects a grammar exactly if some look-ahead decision has no look-ahead token at all or has one that stands for both alternatives. In a switch without expression the parser takes the case whose look-ahead token is next; if none is, it takes the default case, wherever that is written, or reports an error if there is none.", "quantifier": "all grammars, all switches with any number of cases and any position of the default", "why_tests_cant": "all grammars and inputs", "anchors": ["spicy/toolchain/src/compiler/codegen/grammar.cc: _check", "spicy/toolchain/src/compiler/codegen/grammar-builder.cc: operator()(spicy::type::unit::item::Switch*)", "spicy/toolchain/src/compiler/codegen/parser-builder.cc: parseLookAhead"]}
{"id": "C50", "title": "Decoding and encoding UTF-8 and ASCII", "statement": "bytes.decode(UTF8, STRICT) succeeds exactly for well-formed UTF-8 and returns it unchanged, otherwise it throws a RuntimeError; with IGNORE and REPLACE all well-formed code points are kept in order and every byte at which none begins is dropped or replaced by U+FFFD, and no error is raised. string.encode() to UTF-8 is the same function. ASCII keeps exactly the printable characters; others are dropped, replaced by '?', or an error.", "quantifier": "all byte strings, all error strategies", "why_tests_cant": "all byte strings", "anchors": ["hilti/runtime/src/types/bytes.cc: Bytes::decode", "hilti/runtime/src/types/string.cc: string::encode"]}
{"id": "C51", "title": "Decoding and encoding UTF-16", "statement": "bytes.decode(UTF16LE/UTF16BE, STRICT) succeeds exactly for well-formed UTF-16 and returns the same text as UTF-8; a byte order mark overrides the byte order of the charset; string.encode() to UTF-16 followed by decode() gives the text back; an odd last byte is one offending character. What decode() returns is well-formed UTF-8, for all charsets, strategies and data.", "quantifier": "all byte strings, all texts, all error strategies", "why_tests_cant": "all texts and byte strings", "anchors": ["hilti/runtime/src/types/bytes.cc: Bytes::decode, U16Iterator", "hilti/runtime/src/types/string.cc: string::encode"]}
{"id": "C52", "title": "Length and case of strings", "statement": "The length of a string is its number of code points; with IGNORE and REPLACE it is the length of what decoding returns; upper() and lower() convert character by character, keep the number of characters, and apply the error strategy to every byte at which no character begins.", "quantifier": "all strings, all error strategies, all case mappings", "why_tests_cant": "all strings", "anchors": ["hilti/runtime/src/types/string.cc: string::size, string::upper, string::lower"]}
{"id": "C53", "title": "Rendering of text is reversible", "statement": "Escaping well-formed text and expanding the escapes gives the text back, unless the style is marked as irreversible; different texts have different renderings; control characters do not appear in the rendering unless the style says so.", "quantifier": "all texts, all styles", "why_tests_cant": "all texts", "anchors": ["hilti/runtime/src/util.cc: escapeUTF8, expandUTF8Escapes", "hilti/runtime/include/util.h: render_style::UTF8"]}
{"id": "C54", "title": "Printed constants scan back to the same constant", "statement": "A string or bytes constant as the compiler prints it is one literal for the scanner, whatever text follows, and the value the scanner reads from it is the constant.", "quantifier": "all strings and byte strings, all following text", "why_tests_cant": "all constants", "anchors": ["hilti/toolchain/src/compiler/printer.cc: ctor::String, ctor::Bytes", "hilti/toolchain/src/compiler/parser/scanner.ll", "spicy/toolchain/src/compiler/parser/scanner.ll"]}
{"id": "C55", "title": "Constants reach the generated C++ code unchanged", "statement": "The C++ literal that is generated for a string, bytes, stream, error or regular expression constant denotes exactly the bytes of the constant.", "quantifier": "all constants", "why_tests_cant": "all constants", "anchors": ["hilti/toolchain/src/compiler/codegen/ctors.cc: ctor::Bytes, ctor::Stream, ctor::String, ctor::Error, ctor::RegExp", "hilti/toolchain/include/base/util.h: escapeBytesForCxx", "hilti/runtime/src/util.cc: escapeBytes, escapeUTF8"]}
{"id": "C56", "title": "The optimizer's data flow is exact and always found", "statement": "For every function body the compiler determines, for every program point, exactly the set of updates of variables that can reach it along the control flow graph without being overwritten or going out of scope. The computation ends for every body, and its result does not depend on the order in which program points are visited.", "quantifier": "all function bodies, all visiting orders", "why_tests_cant": "all programs; a wrong fixed point shows only for unusual graphs", "anchors": ["hilti/toolchain/src/compiler/cfg.cc: CFG::_populateDataflow, DataflowVisitor, CFG::_addBlock, _addFor, _addWhile, _addIf, _addTryCatch, _addReturn"]}
{"id": "C57", "title": "Removing dead code preserves behaviour", "statement": "Compiling with optimization gives a function with the same observable behaviour (return value, exceptions, effects on globals, inout parameters and the outside world) as without, as far as the removal of unused assignments, declarations and expressions is concerned, however often the pass runs.", "quantifier": "all function bodies, all inputs and callees, any number of rounds", "why_tests_cant": "all programs times all inputs", "anchors": ["hilti/toolchain/src/compiler/optimizer/passes/dead-code-cfg.cc: unusedStatements, Mutator", "hilti/toolchain/src/compiler/cfg.cc"]}
{"id": "C58", "title": "Value propagation preserves behaviour", "statement": "Replacing variables by the constants or other variables they are known to equal does not change what a function computes, returns, throws or does to its environment, however often the pass runs; and the pass ends.", "quantifier": "all function bodies, all inputs and callees, any number of rounds", "why_tests_cant": "all programs times all inputs", "anchors": ["hilti/toolchain/src/compiler/optimizer/passes/value-propagation.cc: TransferVisitor, resolveValue, Replacer, populateDataflow, propagateFunctionReturn"]}
{"id": "C59", "title": "Only unreachable code is removed as unreachable", "statement": "Statements the optimizer removes as unreachable can never be executed, in functions with any nesting of loops, break and continue; the removal reaches a fixed point after finitely many rounds and does not change behaviour.", "quantifier": "all function bodies, all inputs and callees", "why_tests_cant": "all programs times all inputs", "anchors": ["hilti/toolchain/src/compiler/cfg.cc: CFG::unreachableStatements", "hilti/toolchain/src/compiler/optimizer/passes/dead-code-cfg.cc"]}
{"id": "C60", "title": "Sharing of compiled regular expressions is not observable", "statement": "Regular expressions that are constructed anew and ones that are taken from the cache of compiled expressions are the same to the user: whatever was constructed before, a construction succeeds exactly if all patterns are valid, and the result has exactly the patterns, the IDs and the flags that were asked for. Two regular expressions compare equal exactly if they were constructed from the same patterns and flags.", "quantifier": "all histories of constructions, all sets of patterns and flags", "why_tests_cant": "all histories", "anchors": ["hilti/runtime/src/types/regexp.cc: RegExp::RegExp, CompiledRegExp", "hilti/runtime/include/types/regexp.h: Pattern, to_string, RegExp::operator=="]}
{"id": "C61", "title": "Incremental matching of regular expressions does not depend on the pieces", "statement": "Feeding data to a match state in pieces, of any sizes and including empty ones, gives the longest match in all of the data: calls return -1 and consume all of their data until the matter is decided, then one call returns the ID of the pattern with the longest match (and where it ends, also if that lies in an earlier piece) or 0 if there is none; all later calls throw MatchStateReuse. A field with a regular expression yields the same value for all ways to cut up the input.", "quantifier": "all expressions, all data, all ways to cut it into pieces", "why_tests_cant": "all ways to cut all data", "anchors": ["hilti/runtime/src/types/regexp.cc: MatchState::advance, MatchState::_advance, MatchState::Pimpl", "spicy/toolchain/src/compiler/codegen/parsers/literals.cc: operator()(hilti::ctor::RegExp*)"]}
{"id": "C62", "title": "Matching and searching in bytes", "statement": "regexp.match returns the ID of the pattern with the longest match at the beginning of the data; 0 only if there is none and appending data can never give one; -1 only if there is none yet. regexp.find returns the longest match anywhere in the data, and of equally long ones the first, with exactly the matching bytes; it returns -1 exactly if there is no match at any position.", "quantifier": "all expressions, all data", "why_tests_cant": "all data", "anchors": ["hilti/runtime/src/types/regexp.cc: RegExp::match, RegExp::find, RegExp::_search_pattern"]}
{"id": "C63", "title": "A list with &synchronize skips exactly the elements with errors", "statement": "For a list X[] &synchronize whose elements begin with a literal, whatever the host feeds and however it cuts the input into pieces: the user gets the values of all elements parsed one after the other up to a follow-up token or the end of the data; after an error in an element parsing goes on at the first later place where an element can begin; input without errors is not affected; if nothing is found parsing fails at the end of the data; it waits only as long as the data so far does not decide. It never runs forever. An error that is never confirmed is an error of the unit; a hook that rejects makes the error final.", "quantifier": "all inputs, all ways to cut them into pieces, all bodies of elements of the modelled kinds", "why_tests_cant": "all cuts of all damaged inputs", "anchors": ["spicy/toolchain/src/compiler/codegen/parser-builder.cc: syncProduction, syncProductionNext, getLookAhead, advanceToNextData, operator()(const production::While*)", "spicy/runtime/include/util.h: confirm, reject", "spicy/toolchain/src/compiler/codegen/parsers/literals.cc"]}
{"id": "C64", "title": "A counted list with &synchronize makes exactly n attempts", "statement": "A list X[n] &synchronize that is parsed successfully has made exactly n attempts, each of which gave an element or a synchronization; so it yields at most n elements. The result is the same for all ways to cut the input into pieces, and parsing ends.", "quantifier": "all inputs, all ways to cut them into pieces, all n", "why_tests_cant": "all cuts of all damaged inputs", "anchors": ["spicy/toolchain/src/compiler/codegen/parser-builder.cc: operator()(const production::Counter*), syncProductionNext"]}
{"id": "C65", "title": "A unit with &synchronize is resumed at the marked field", "statement": "For a unit with a field marked &synchronize that begins with a literal: if a field before it fails, the unit is resumed at the first place from there on where the literal is; if it fails there before a hook confirms, at a later such place; each time further on in the input. It is a success only if a hook confirmed. If no field before the marked one fails, &synchronize changes nothing. Errors after a confirmation are final. If the literal does not come, parsing fails at the end of the data. The result does not depend on how the input is cut into pieces, and parsing ends.", "quantifier": "all inputs, all ways to cut them into pieces, all units of the modelled kinds", "why_tests_cant": "all cuts of all damaged inputs", "anchors": ["spicy/toolchain/src/compiler/codegen/parser-builder.cc: startSynchronize, finishSynchronize, operator()(const production::Unit*), syncProduction", "spicy/runtime/include/util.h: confirm, reject"]}
{"id": "C66", "title": "Parsers are found by exactly the names they go by", "statement": "After any set of parsers has been registered, initialized and given aliases, lookupParser(name) returns a parser only if it goes by that name (its own name, its ports with and without direction, its MIME types without wildcards, its aliases with and without direction) and is the only one; an unknown name, and one several parsers go by, is an error. Without a name the only public parser is returned, and an error if there are several. MIME types parse to what was written, up to white space, and print back. A sink's connect_mime_type connects exactly the parsers whose MIME type patterns cover the type and that are visible.", "quantifier": "all sets and orders of parsers, all aliases, all names, all MIME types", "why_tests_cant": "all configurations", "anchors": ["spicy/runtime/src/init.cc: init", "spicy/runtime/src/parser.cc: registerParserAlias, lookupParser", "spicy/runtime/include/mime.h: MIMEType", "spicy/runtime/src/sink.cc: Sink::connect_mime_type"]}
{"id": "C67", "title": "Hosts see the same session however they cut the input and whatever they did before", "statement": "A host that feeds an input through ParsingState.process() in pieces is asked for more until the data given settles what the parser does with the whole input, gets that answer exactly once, and all further data is ignored; finish() returns where the input was left. The answer is the same for all ways to cut the input. In block mode each block is parsed as an input of its own. Skipping, resetting, and changing the parser at any time do what they say. No call aborts the process or is undefined. The buffers of the host are not referred to after process() has returned while parsing goes on. Driver::processInput gives the same result for every increment.", "quantifier": "all histories of calls, all inputs, all ways to cut them into pieces, all units of the modelled kinds", "why_tests_cant": "all histories of calls", "anchors": ["spicy/runtime/src/driver.cc: ParsingState::_process, ParsingState::finish, Driver::processInput", "spicy/runtime/include/driver.h: ParsingState"]}
{"id": "C68", "title": "Flows and connections of a batch do not affect each other", "statement": "Driver::processPreBatchedInput on a batch, however flows and connections are interleaved: what is written in the documented format is read back exactly; each flow's parser gets exactly the data and the end of its flow, and gives the replies a host application would get that feeds that data by itself; the parsers of the two sides of a connection get what was sent, in that order, share a context, and are finished at the end of the connection; what comes after the end is ignored; the rest of the batch makes no difference to them. If IDs are used properly no command uses a flow that has been released. A batch that ends within data is an error.", "quantifier": "all batches, all parsers, all interleavings", "why_tests_cant": "all interleavings of all flows", "anchors": ["spicy/runtime/src/driver.cc: Driver::processPreBatchedInput, create_state", "spicy/runtime/include/driver.h: ParsingStateForDriver, ConnectionState", "doc/toolchain.rst"]}
{"id": "C69", "title": "Extracting from a batch keeps what was asked for", "statement": "spicy-batch-extract <id> on a batch writes a batch that contains exactly the commands about the flow or connection with that ID, including the data of the flows of the connection; processing it makes the parsers do exactly what they do for that flow or connection in the whole batch.", "quantifier": "all batches, all IDs, all parsers", "why_tests_cant": "all batches", "anchors": ["spicy/toolchain/bin/spicy-batch-extract.cc: processPreBatchedInput", "spicy/runtime/src/driver.cc: Driver::processPreBatchedInput"]}
{"id": "C70", "title": "Filters are transparent", "statement": "A unit with filters connected gives the result it would give for what the filters, one after the other, make of the whole input: the same value, error and request for more data, however the host cuts the input into pieces and whenever the filters forward what. More input does not change a result once given. Filters are run to the end of what there is for them whenever the unit needs more data, the end of a filter's output is signalled when it is finished, and a finished filter is never run again. No chain of filters leads to undefined behaviour.", "quantifier": "all chains of filters, all inputs, all ways to cut them into pieces, all units of the modelled kinds", "why_tests_cant": "all cuts of all inputs of all chains of filters", "anchors": ["spicy/runtime/include/filter.h: connect, init, forward, forward_eod, flush, disconnect, State", "spicy/runtime/src/parser.cc: detail::waitForInputOrEod, detail::waitForInput", "spicy/toolchain/src/compiler/codegen/parser-builder.cc: operator()(const production::Unit*), finalizeUnit", "spicy/lib/filter.spicy", "hilti/runtime/src/fiber.cc: Resumable::run, yielded"]}
{"id": "C71", "title": "Units behind a sink's filters get what the filters make of the data", "statement": "The units connected to a sink with filters get exactly what the filters, one after the other, make of the data written to the sink after reassembly: for all histories of writes, in any order, with gaps, skips and trimming, and however the data is cut into writes. Without filters the sink behaves as if there were no such thing. Data that arrives while the filters hold data back is not lost.", "quantifier": "all chains of filters, all histories of operations, all data, all connected units", "why_tests_cant": "all histories", "anchors": ["spicy/runtime/src/sink.cc: Sink::_deliver, Sink::_tryDeliver, Sink::_newData, Sink::_close", "spicy/runtime/include/sink.h: Sink::connect_filter, Sink", "spicy/runtime/include/filter.h"]}
{"id": "C72", "title": "Moving the last use of a variable preserves behaviour", "statement": "Turning last uses of locals into moves (the optimizer pass that saves copies) does not change what a function does: it ends the same way - normally, with return, throw, or an exception out of an operator or callee - with the same value and the same effects on the world, parameters and globals, whatever a moved-from variable holds afterwards. Exactly those occurrences of locals are moved that are the only one in their expression and after which, on all ways control can take, the variable is written before it is read. The analysis ends for every function.", "quantifier": "all function bodies, all inputs and callees, all values left behind by moves, all orders in which nodes are visited", "why_tests_cant": "all programs times all inputs", "anchors": ["hilti/toolchain/src/compiler/optimizer/passes/move-last-uses.cc: _analyzeLiveness, _transfer, _applyLastUse, _markMovableInNode, _walk, Mutator", "hilti/toolchain/src/compiler/cfg.cc"]}
{"id": "C73", "title": "Conditional compilation keeps exactly the code whose conditions hold", "statement": "Of a Spicy source file, the parser gets exactly the text that is not inside of @if/@else/@endif, or in branches all of whose enclosing conditions select it, in the original order; text and conditions in branches that are not selected have no effect. A condition [!] ID OP VALUE has the value of the comparison, with 0 for an ID that is not defined. A file whose directives do not nest, with an @if that is not closed, a second @else or a condition that is not well-formed, is reported as an error.", "quantifier": "all source files, all sets of constants", "why_tests_cant": "all nestings of all conditions", "anchors": ["hilti/toolchain/src/base/preprocessor.cc: SourceCodePreprocessor::processLine, SourceCodePreprocessor::_parseIf", "hilti/toolchain/include/base/preprocessor.h: SourceCodePreprocessor::state, expectingDirective", "spicy/toolchain/src/compiler/parser/driver.cc: Driver::processPreprocessorLine", "spicy/toolchain/src/compiler/parser/scanner.ll: PP_EXPRESSION, IGNORE, setIgnoreMode"]}
{"id": "C74", "title": "All implementations of a hook run once, in the order of their priorities", "statement": "Running a hook runs every implementation of it in any of the linked modules exactly once, higher priorities before lower ones, until one returns a value (for hooks with results) or throws. If priorities differ, what happens does not depend on the order in which modules are linked or on how implementations are spread over them.", "quantifier": "all sets of modules and implementations, all orders of linking, all behaviours of implementations", "why_tests_cant": "all sets and orders of modules", "anchors": ["hilti/toolchain/src/compiler/cxx/linker.cc: Linker::add, Linker::finalize", "hilti/toolchain/include/compiler/detail/cxx/unit.h: linker::Join", "hilti/toolchain/src/compiler/cxx/unit.cc: Unit::add", "hilti/toolchain/src/compiler/codegen/codegen.cc: operator()(declaration::Function*)"]}
{"id": "C75", "title": "Folding constants keeps what expressions mean", "statement": "Evaluating constant (sub)expressions at compile time - negations, conversions between integer types, boolean operators, groupings, names of constants, the ternary operator, constructors of the runtime library - does not change what a program computes: with any style of folding the compiled expression has the value, or ends with the exception, that evaluating the expression would give. Folding ends. An expression whose constants fit their types and whose constant parts have values is accepted; a constant part that overflows is reported as an error or throws at run time.", "quantifier": "all expressions, all styles of folding, all other operators", "why_tests_cant": "all expressions", "anchors": ["hilti/toolchain/src/compiler/constant-folder.cc: VisitorConstantFolder, foldExpression, VisitorConstantFolderAST, fold", "hilti/runtime/src/safe-math.cc: safe_negate", "hilti/toolchain/src/compiler/validator.cc: ctor::SignedInteger, ctor::UnsignedInteger"]}
{"id": "C76", "title": "Flattening blocks keeps what names mean", "statement": "After a block directly inside another block has been replaced by its statements (an optimizer pass), every reference to a local variable or parameter in the generated code still means the variable it meant before, and no block declares a name twice, whatever shadows what, however deep blocks are nested, and in whatever order blocks are flattened and variables renamed. The pass ends, and leaves no block inside a block; the variables and their order stay the same.", "quantifier": "all function bodies, all names, all orders of flattening and renaming", "why_tests_cant": "all nestings of all scopes with all names", "anchors": ["hilti/toolchain/src/compiler/optimizer/passes/flatten-blocks.cc: Collector, Mutator", "hilti/toolchain/src/compiler/scope-builder.cc: Visitor", "hilti/toolchain/src/compiler/codegen/expressions.cc: operator()(expression::Name*)"]}
{"id": "C77", "title": "Two types are the same exactly if they are written the same up to what does not matter", "statement": "The compiler takes two types whose names have been resolved for the same type exactly if they have the same structure - the same constructors with the same parameters in the same places, integers of the same signedness and width, the same bit ranges, the same declared types - where names given with `type X = ...` stand for what they name, and names of tuple elements, names and kinds of function parameters, constness of parameters and attributes of bitfields do not count. With constness exactly if that of the types themselves agrees, too. The relation is symmetric and transitive, reflexive but for `any`. The answer does not depend on which parts have been compared before; a type with a part that is not known yet is not the same as any.", "quantifier": "all pairs of types of any depth, all histories of unification", "why_tests_cant": "all pairs of types", "anchors": ["hilti/toolchain/src/compiler/type-unifier.cc: VisitorSerializer, Unifier::add, VisitorTypeUnifier, type_unifier::unify, type_unifier::unifyType", "hilti/toolchain/include/ast/type.h: Unification, type::same", "hilti/toolchain/src/ast/type.cc: type::follow"]}
{"id": "C78", "title": "Names in generated code are valid and distinct", "statement": "Every identifier a user can write becomes a valid C++ name, neither a keyword nor reserved for the implementation, and different identifiers become different names; a sequence of calls for unique names never returns a name that is in use, returns the name asked for if that is free and otherwise the first free numbered variant, and ends; any ASCII text becomes a valid identifier, and identifiers stay as they are.", "quantifier": "all identifiers, all qualified names, all histories of requests for unique names, all texts", "why_tests_cant": "all names and histories", "anchors": ["hilti/toolchain/src/compiler/cxx/elements.cc: normalizeID, ReservedKeywords", "hilti/toolchain/src/base/util.cc: toIdentifier", "hilti/toolchain/include/base/uniquer.h: Uniquer", "hilti/toolchain/src/compiler/codegen/types.cc: CodeGen::_getOrCreateTypeInfo"]}
{"id": "C79", "title": "Implicit conversions keep values", "statement": "Where an expression is accepted for a type that is not its own - in assignments, calls, operators and conditions - the value it has after the conversion is a value of that type and the same value: the same number for integers and reals, unset for Null, the value in an optional or a result that has it, the elements of tuples and containers one by one, and in conditions its truth. An integer expression is accepted for an integer type exactly if the type holds all the values of the expression's type, a constant exactly if the type holds its value, a real constant for an integer exactly if it is a whole number in range, an integer constant for a real exactly if a double holds it. Nothing but a boolean becomes one outside of conditions.", "quantifier": "all expressions, constants and types of any depth, all contexts", "why_tests_cant": "all pairs of expressions and types", "anchors": ["hilti/toolchain/src/compiler/coercer.cc: coerceExpressionBackend, coerceTypeBackend, VisitorCtor, VisitorType, isRepresentable", "hilti/toolchain/src/compiler/codegen/coercions.cc: Visitor, CodeGen::coerce", "hilti/runtime/include/types/optional.h: Optional"]}
{"id": "C80", "title": "Statements of control flow do what they say", "statement": "What a function does when it runs is what its statements say: blocks with their scopes, declarations, if, while with and without else, for, switch, break, continue, return, assert, throw and try. Conditions and case expressions are evaluated in the order they are written, as often as needed and no more; break leaves the innermost loop, the else part of a while runs when its condition is false and not after a break; the first case of a switch with the value runs and no other, the default if there is none, and an exception if there is no default; the first handler for the type of an exception runs. It ends exactly if that does.", "quantifier": "all bodies of functions of any depth, all operators and callees, all states, all numbers of rounds", "why_tests_cant": "all programs and inputs", "anchors": ["hilti/toolchain/src/compiler/codegen/statements.cc: Visitor, loopContainsBreaks, traceStatement", "hilti/toolchain/src/compiler/cxx/elements.cc: Block::addBlock, Block::addIf, Block::addSwitch, operator<<", "hilti/toolchain/src/ast/statements/switch.cc: preprocessedExpressions", "hilti/toolchain/src/compiler/resolver.cc: operator()(statement::Break*)"]}
{"id": "C81", "title": "Labels of enums have the values they are given", "statement": "A label of an enum with a value has that value, one without the next number above all values given (from 0), in the order of the labels; Undef is -1, and no other value is negative. No two labels have the same value: an enum with two, or with a label of its own called Undef in any spelling, is rejected, all others are accepted. At run time a value prints as the label that has it, or as its number if there is none; it is known exactly if it is the value of a label other than Undef. Integers become values and values integers with the same number, or there is an exception.", "quantifier": "all lists of labels, all values, all integers", "why_tests_cant": "all lists of labels and all values", "anchors": ["hilti/toolchain/src/ast/types/enum.cc: Enum::_setLabels, Enum::uniqueLabels", "hilti/toolchain/include/ast/types/enum.h: Label::create", "hilti/toolchain/src/compiler/validator.cc: operator()(type::Enum*)", "hilti/toolchain/src/compiler/codegen/types.cc: operator()(type::Enum*)", "hilti/toolchain/src/compiler/codegen/operators.cc: operator()(operator_::enum_::*)", "hilti/runtime/include/types/enum.h: has_label, from_int, from_uint", "spicy/toolchain/src/compiler/parser/parser.yy: enum_label"]}
{"id": "C82", "title": "A name means the innermost declaration that is visible", "statement": "In the body of a function a name means the innermost declaration of it that is visible where the name stands: a local variable is visible from its declaration to the end of its block, constants and types in their whole block, parameters in the whole body, the variable of an if, while, switch, for, comprehension or handler in the parts it belongs to; a local used before its declaration means the outer declaration. From within the declaration of a unit type only the module is visible. `::x` is the x of the module, `M::x` the x of module M, `E::A` the label A of E. A name declared twice in one place, counting parameters and the variables of headers, is rejected, everything else is accepted. Declarations of other modules that are not public cannot be used, but for types and labels.", "quantifier": "all modules with their imports, all bodies of functions of any depth, all names and paths", "why_tests_cant": "all nestings of all scopes with all names", "anchors": ["hilti/toolchain/src/ast/scope.cc: Scope::_findID, Scope::lookupAll", "hilti/toolchain/src/ast/scope-lookup.cc: scope::detail::lookupID", "hilti/toolchain/include/ast/scope-lookup.h: scope::lookupID", "hilti/toolchain/src/compiler/scope-builder.cc: Visitor", "hilti/toolchain/src/compiler/validator.cc: operator()(Node*)", "spicy/toolchain/include/ast/types/unit.h: inheritScope"]}
{"id": "C83", "title": "Removing code that is statically dead keeps what programs do", "statement": "After the optimizer has removed functions and methods nobody calls, hooks without implementation and the calls of them, branches of if, while and the ternary operator that constant conditions rule out, and expression statements without effect, calling any function that is still there does what it did: the same result or exception, the same values of all variables, the same calls of functions implemented outside; it ends if and only if it did. Functions that are public, implemented outside, called anywhere, and hooks with an implementation stay; every function that is still called is still declared. Repeating the pass ends.", "quantifier": "all programs of functions, methods and hooks, all meanings of operators and external functions, all arguments and states", "why_tests_cant": "all programs and inputs", "anchors": ["hilti/toolchain/src/compiler/optimizer/passes/dead-code-static.cc: Collector, Mutator", "hilti/toolchain/src/compiler/cfg.cc: Cache::mayHaveSideEffects", "hilti/toolchain/include/compiler/detail/optimizer/optimizer.h: mayRemove, functionID", "hilti/toolchain/include/ast/visitor.h: Iterator", "hilti/toolchain/src/ast/visitor.cc: replaceNode, replaceNodeWithChild, removeNode"]}
{"id": "C84", "title": "Optimizing parameters keeps what programs do", "statement": "After the optimizer has removed parameters nobody uses, with the arguments in all calls, and has turned copy and inout parameters that are not modified into in parameters, every function whose parameters may not be changed - public ones, those implemented outside - has the parameters it had and does what it did when called: the same result or exception, the same values of all variables, the same calls of functions implemented outside; it ends if and only if it did. The program still compiles: no in parameter is modified, prototypes and implementations agree, and calls have as many arguments as there are parameters.", "quantifier": "all programs of functions, methods and hooks, all meanings of operators and external functions, all arguments and states", "why_tests_cant": "all programs and inputs", "anchors": ["hilti/toolchain/src/compiler/optimizer/passes/optimize-parameters.cc: CollectorParameters, Mutator", "hilti/toolchain/include/compiler/detail/optimizer/collector-callers.h: CollectorCallers", "hilti/toolchain/src/compiler/cfg.cc: DataflowVisitor, isConstOperand", "hilti/toolchain/include/compiler/detail/optimizer/optimizer.h: mayModify, mayModifyOrRemove", "hilti/toolchain/src/ast/node.cc: Node::_newChild, node::detail::deepcopy", "hilti/toolchain/src/compiler/codegen/types.cc: parameters"]}
{"id": "C85", "title": "Propagating function returns keeps what programs do", "statement": "After the optimizer has taken parameters that every return hands back unchanged out of the results of functions, and has removed the targets that got them from all tuple assignments of calls, every function whose signature may not be changed - public ones, those implemented outside - does what it did when called: the same result or exception, the same values of all variables, the same calls of functions implemented outside; it ends if and only if it did.", "quantifier": "all programs of functions and methods, all meanings of operators and external functions, all arguments and states", "why_tests_cant": "all programs and inputs", "anchors": ["hilti/toolchain/src/compiler/optimizer/passes/propagate-function-returns.cc: makeParamMap, CollectorPlacements, CollectorPrunePlacements, Mutator", "hilti/toolchain/include/compiler/detail/optimizer/collector-callers.h: CollectorCallers", "hilti/toolchain/include/compiler/detail/optimizer/optimizer.h: mayModify"]}
{"id": "C86", "title": "A function call means the one overload that fits best, whatever the order of declarations", "statement": "A call by name is resolved to the only function that takes the arguments without conversions or, if there is none, to the only one that takes them with implicit conversions; it is reported as ambiguous exactly if there is no such single best choice among functions that take the arguments, and as matching no function exactly if none takes them. The order in which the functions are declared makes no difference, and adding a function changes nothing about calls that need no conversions, unless it takes the arguments without conversions, too. Each parameter gets the value that stands for its argument, an inout parameter the very variable of exactly its type, and a parameter without argument its default. Functions that the validator accepts as overloads of each other can be told apart by the types of the arguments.", "quantifier": "all sets of overloaded functions with any parameters (kinds, types, defaults), all lists of arguments, all orders of declaration, and all histories of rounds in which the types of functions become known to the resolver", "why_tests_cant": "Overload sets, argument lists and conversions combine without bound; tests cover a handful of overloads, and a wrong choice is a different program without any message.", "anchors": ["hilti/toolchain/src/compiler/resolver.cc: matchOperators, operator()(expression::UnresolvedOperator*), coerceCallArguments", "hilti/toolchain/src/compiler/coercer.cc: coerceOperands, coerceExpressionBackend", "hilti/toolchain/src/ast/operator-registry.cc: functionCallCandidates, initPending", "hilti/toolchain/src/ast/types/function.cc: isValidOverload", "hilti/toolchain/include/ast/declarations/parameter.h: areEquivalent", "hilti/toolchain/src/compiler/validator.cc: operator()(Node*)"]}
{"id": "C87", "title": "The generated C++ groups the operands of an expression as the source does", "statement": "Every operator of an expression is applied in the generated C++ program to the operands it has by Spicy's precedence table, and to nothing else, although the code generator writes most operators without parentheses and relies on the precedence of C++: the C++ compiler can read the text in exactly one way, and that is the grouping of the source. The exceptions are known: bit operators on bools under a comparison, chained assignments, an operator as the operand of |...|, in, += on bytes or a dereferenced optional, and a left operand that operator resolution swapped to the right. Parentheses in the source always enforce the grouping.", "quantifier": "all expressions the parser can build, of any depth, with all operators and coercions", "why_tests_cant": "Operators nest without bound, and tests have a few expressions each; a wrong grouping usually compiles and computes another value.", "anchors": ["hilti/toolchain/src/compiler/codegen/operators.cc: Visitor", "hilti/toolchain/src/compiler/codegen/expressions.cc: Visitor, CodeGen::compile", "hilti/toolchain/src/compiler/codegen/coercions.cc: Visitor", "spicy/toolchain/src/compiler/parser/parser.yy: expr_1", "doc/programming/language/precedence.rst", "hilti/toolchain/include/ast/operator.h: isCommutative"]}
{"id": "C88", "title": "Removing unused struct fields does not change what a program does", "statement": "A struct field that the program never reads, or never writes, may be taken out by the optimizer: the program then ends in the same way (same value, same exception) with the same output, or runs on, exactly as before, in any number of rounds. Only fields go that the code does nothing with except to unset them, never one the user keeps; no code refers to a member the struct no longer has; and a field that is only written is gone after two rounds. The exceptions are known: printing a struct, effects of the expression a removed access is made on, effects of a removed default, exceptions of a removed initializer, the order of effects in a tuple assignment, and null references.", "quantifier": "all programs over structs with any fields (optional or not, with constant or computed defaults), all accesses, initial states, and all runs of any length", "why_tests_cant": "Programs and their runs are unbounded, and the decision is global: one overlooked kind of access anywhere changes values silently. Tests compare the code printed for a few small modules.", "anchors": ["hilti/toolchain/src/compiler/optimizer/passes/remove-unused-fields.cc: Collector, Mutator", "hilti/toolchain/src/compiler/codegen/operators.cc: structMember, operator()(operator_::struct_::TryMember*)", "hilti/toolchain/src/compiler/codegen/types.cc: operator()(type::Struct*)", "hilti/toolchain/src/compiler/cfg.cc: Cache::mayHaveSideEffects"]}
{"id": "C89", "title": "The peephole pass does not change what a function does", "statement": "The optimizer's last clean-up takes away the local of a grouping that only stands for a constant or a name, moves as statements, `default<void>` statements, a copy of the current error into the struct that is directly followed by the copy back, and `try` statements whose only catch block rethrows. A function then gives the same result or throws the same exception, leaves the same variables and prints the same, or runs on, exactly as before, in any number of rounds. The one exception is known: a hook that runs with no copy of the error of its own sees a different error than before.", "quantifier": "all function bodies with nested conditions, loops, exception handlers and expressions, all operators that may print or throw, all hooks, all initial states, and all runs of any length, in any number of rounds of the pass", "why_tests_cant": "Function bodies and their runs are unbounded; the pass changes lists while walking over them, so that whether a statement is treated depends on what was removed before it. Tests compare the code printed for a few small functions.", "anchors": ["hilti/toolchain/src/compiler/optimizer/passes/peephole.cc: Mutator", "hilti/toolchain/src/compiler/cfg.cc: Cache::mayHaveSideEffects, Cache::dataflow", "hilti/toolchain/include/ast/visitor.h: Iterator::_next", "hilti/toolchain/include/ast/node.h: Node::removeChild", "hilti/toolchain/src/ast/visitor.cc: MutatingVisitorBase::replaceNodeWithChild"]}
{"id": "C90", "title": "Turning off features that are not needed does not change what a parser does", "statement": "The optimizer turns off a feature of a unit (offsets, random access, filters, sinks, synchronization and so on) exactly if the type does not require it and all uses of what the feature is for are inside conditions on it. The program then prints the same and leaves the same values in all variables and fields except those that are only for features turned off, or runs on, exactly as before, provided code under a condition on features changes only what is for these features and looks at fields of the features in it only if it is for no others. Without this it is wrong: uses in the branch taken if the feature is off, in code for one of several features, and in conditions with other parts do not keep a feature on.", "quantifier": "all programs with nested conditions, ternaries, loops and calls of functions, all sets of features and fields for them, all constants to start from, all initial states, and all runs of any length", "why_tests_cant": "Whether a feature may go depends on the whole program and on everything guarded code does in every run; tests compare outputs of a few units.", "anchors": ["hilti/toolchain/src/compiler/optimizer/passes/feature-requirements.cc: Collector, Mutator", "spicy/toolchain/src/compiler/codegen/parser-builder.cc: guardFeatureCode, featureConstant, beforeHook, afterHook, saveParsePosition", "spicy/toolchain/src/compiler/codegen/unit-builder.cc: unitType"]}
{"id": "C91", "title": "The data of a stream lives exactly as long as something points to it", "statement": "In every history of fewer than 2^64 operations on intrusive pointers in one thread (creating an object, copying, moving, swapping, assigning by copy or move, also to itself, releasing, adopting, destroying), in which only existing pointer variables are used and only released references are adopted, no pointer is ever followed to a deleted object, none is deleted twice, and after every operation an object exists if and only if some variable or some released reference still points to it; every operation leaves in each variable the pointer one expects.", "quantifier": "all histories of fewer than 2^64 operations on any number of objects and pointer variables", "why_tests_cant": "Leaks and uses after deletion depend on the whole history of copies, moves and assignments; tests go through a few short ones.", "anchors": ["hilti/runtime/include/intrusive-ptr.h: Ref, Unref, IntrusivePtr, make_intrusive", "hilti/runtime/include/types/stream.h: Chain, ChainPtr, UnsafeConstIterator"]}
{"id": "C92", "title": "Profiling counts every block once and never counts time twice", "statement": "With profiling on, the profiler's entry for a name has counted exactly the blocks of that name that were stopped, whether by an explicit stop, by leaving the function, or both. Its time is never more than the time during which some block of the name was open, and is exactly that if of the blocks with the same name the one started last is always stopped first and all have been stopped; its volume is the sum, modulo 2^64, of the volumes of the blocks whose stop leaves no other block of the name open. Blocks of other names have no influence. Without nesting, as for connections parsed side by side, the time is too small, and can be zero for ever.", "quantifier": "all histories of fewer than 2^64 starts and stops of blocks of any names with or without volumes, nested or not, with any times in between that fit the clock", "why_tests_cant": "Recursive and interleaved blocks can be combined without bound, and one wrong decrement shows only much later; the tests start and stop a handful of blocks.", "anchors": ["hilti/runtime/src/profiler.cc: Profiler::record, Profiler::snapshot, Profiler::_register, profiler::get", "hilti/runtime/include/profiler.h: Profiler, profiler::start, profiler::stop", "hilti/runtime/include/profiler-state.h: Measurement, MeasurementState"]}
{"id": "C93", "title": "Every module is initialized exactly once, and has its globals to itself", "statement": "Whatever modules are registered before the runtime is initialized, how often and in which order, initialization creates the globals of every module exactly once and runs its code exactly once, in the order of first registration, and all globals are there before any code runs; calling it again does nothing. Afterwards, with dynamic globals, every module finds its own globals with the values it gave them last, whatever other modules assign and even if further modules are registered, which themselves get no globals. Creating a further context breaks this: it gets no globals, and those of the current context are reset.", "quantifier": "all lists of modules with or without code and globals, with repetitions, and all later histories of assignments, registrations and initializations of any length", "why_tests_cant": "Modules are linked in any number and order, and a wrong index shows only as a value overwritten by some other module; tests use one or two modules.", "anchors": ["hilti/runtime/src/init.cc: init, registerModule", "hilti/runtime/src/context.cc: Context::Context", "hilti/runtime/include/global-state.h: moduleGlobals, initModuleGlobals", "hilti/toolchain/src/compiler/codegen/codegen.cc: createInitGlobals, createGlobalsAccessorFunction", "hilti/toolchain/src/compiler/cxx/unit.cc: _addModuleInitFunction"]}
