{"id": "C01", "title": "Reading never passes the limit", "statement": "For a ByteReader over any buffer, every successful get/read/readLE/readBE returns exactly the bytes stored in the buffer at the position the reader reported before the call, moves the position by exactly the number of bytes returned, and never returns a byte stored at or beyond the limit the reader reports.", "quantifier": "every buffer content and size, every finite sequence of limit/position/advance/rewind/get/read calls with any arguments", "why_tests_cant": "The position/limit pair depends on the whole call history and on 64-bit arguments; tests exercise a handful of histories.", "anchors": ["src/byteReader.cpp: ByteReader::limit, position, advance, get, read", "include/solace/byteReader.hpp: remaining, rewind"]}
{"id": "C02", "title": "Failed reader calls change nothing", "statement": "If any ByteReader call reports an error, the reader's position and limit and the caller's destination buffer are exactly what they were before the call; and no sequence of calls raises an exception or aborts.", "quantifier": "every reader state reachable by any call sequence, every argument", "why_tests_cant": "Needs all reachable states and all argument values, including lengths near 2^64.", "anchors": ["src/byteReader.cpp: ByteReader::limit, position, advance, get, read"]}
{"id": "C03", "title": "Writing never touches bytes beyond the limit", "statement": "For a ByteWriter over any buffer, no write call - successful or not - changes a byte of the buffer at or beyond the limit the writer reports.", "quantifier": "every buffer, every finite sequence of limit/position/advance/rewind/clear/flip/write calls with any data", "why_tests_cant": "Out-of-limit damage shows only for specific limit/position/size combinations.", "anchors": ["src/byteWriter.cpp: ByteWriter::write, limit, position, advance", "include/solace/byteWriter.hpp: clear, flip"]}
{"id": "C04", "title": "A failed write leaves the buffer and the position unchanged", "statement": "If ByteWriter::write (or any writeLE/writeBE) reports an error then the buffer content, position and limit are all unchanged.", "quantifier": "every writer state, every data to write", "why_tests_cant": "Universal over states, sizes and limits.", "anchors": ["src/byteWriter.cpp: ByteWriter::write"]}
{"id": "C05", "title": "Successful writes accumulate", "statement": "Starting from a fresh writer over a buffer of n bytes, after any sequence of write calls viewWritten() is the concatenation, in order, of the data of the calls that succeeded; a call succeeds exactly when its data fits in what remains; the rest of the buffer is unchanged.", "quantifier": "every capacity, every finite list of byte strings", "why_tests_cant": "Unbounded lists of writes of arbitrary sizes.", "anchors": ["src/byteWriter.cpp: ByteWriter::write, advance", "include/solace/byteWriter.hpp: viewWritten, remaining"]}
{"id": "C06", "title": "Integers survive a write/read round trip in both byte orders", "statement": "Writing any 8/16/32/64-bit value with writeLE (writeBE) produces the canonical little-endian (big-endian) byte string on every host byte order, and reading it back with readLE (readBE) gives the same value; reading after writing in the other order gives the byte-reversed value.", "quantifier": "every value of every width, both host byte orders, every surrounding buffer content", "why_tests_cant": "2^64 values and the other host endianness cannot be run.", "anchors": ["src/byteWriter.cpp: writeLE, writeBE", "src/byteReader.cpp: readLE, readBE"]}
{"id": "C07", "title": "Slicing a memory view is clamped and composes", "statement": "slice(from, to) of a view never extends beyond the view, is the bytes from min(from,size) up to min(to,size) (empty when to<=from), and slicing twice equals one slice with added offsets.", "quantifier": "every view and every pair of 64-bit bounds", "why_tests_cant": "Bounds range over 2^128 pairs.", "anchors": ["src/memoryView.cpp: MemoryView::slice", "src/mutableMemoryView.cpp: MutableMemoryView::slice"]}
{"id": "C08", "title": "View copies touch exactly the intended range", "statement": "MutableMemoryView::write copies the whole source to the front of the destination and leaves every other byte unchanged, or reports an error and leaves everything unchanged; read fills exactly the destination; it succeeds exactly when sizes allow.", "quantifier": "every pair of source and destination contents and sizes", "why_tests_cant": "All sizes and contents.", "anchors": ["src/mutableMemoryView.cpp: MutableMemoryView::write, read, fill"]}
{"id": "C09", "title": "Base16 decodes what it encodes", "statement": "Base16Decoder applied to the output of Base16Encoder on any bytes yields those bytes; the output has exactly encodedSize(n)=2n characters, all of them lower-case hex digits.", "quantifier": "every byte string", "why_tests_cant": "Unbounded input.", "anchors": ["src/base16.cpp: Base16Encoder::encode, Base16Decoder::encode", "include/solace/base16.hpp: encodedSize"]}
{"id": "C10", "title": "Base16 decoder accepts exactly hexadecimal text", "statement": "Base16Decoder succeeds exactly on even-length inputs consisting of hex digits (either case); on every other input it returns an error; it has no undefined behaviour on any input; re-encoding a decoded text gives its lower-case form.", "quantifier": "every byte string, including bytes >= 0x80", "why_tests_cant": "The failing bytes are an infinite family of inputs in which only one position is bad.", "anchors": ["src/base16.cpp: charToBin, Base16Decoder::encode"]}
{"id": "C11", "title": "Base16 iterators agree with the bulk coder", "statement": "Iterating base16Encode_begin/end over any bytes yields the same characters as Base16Encoder, and iterating base16Decode_begin/end over any text yields the same bytes as the longest prefix that Base16Decoder accepts.", "quantifier": "every byte string", "why_tests_cant": "Unbounded input.", "anchors": ["src/base16.cpp: Encoded_Iterator, Decoded_Iterator"]}
{"id": "C12", "title": "Base64 decodes what it encodes", "statement": "For each of the standard and URL alphabets, decoding the encoding of any byte string gives back that byte string.", "quantifier": "every byte string of every length, including lengths divisible by three and zero", "why_tests_cant": "Correctness at lengths divisible by three depends on memory that follows the encoded text; tests use NUL-terminated literals.", "anchors": ["src/base64.cpp: Base64Encoder::encode, base64decode"]}
{"id": "C13", "title": "Base64 encoding conforms to RFC 4648", "statement": "Base64Encoder's output is the RFC 4648 encoding: the bit string of the input cut in 6-bit groups, mapped to the alphabet and padded with '=' to a multiple of four; its length is encodedSize(n) = 4*ceil(n/3).", "quantifier": "every byte string", "why_tests_cant": "Unbounded input.", "anchors": ["src/base64.cpp: Base64Encoder::encode, encodedSize"]}
{"id": "C14", "title": "Base64 decoding never reads outside its input", "statement": "Decoding any input view inspects only bytes of that view.", "quantifier": "every byte string as input and every content of the memory after it", "why_tests_cant": "Over-reads are invisible unless the following bytes happen to matter.", "anchors": ["src/base64.cpp: base64decode"]}
{"id": "C15", "title": "Base64 decodedSize predicts the decoded length", "statement": "For each alphabet, whenever decoding succeeds on an encoder output, decodedSize of that text equals the number of bytes written by the decoder.", "quantifier": "every byte string encoded with either alphabet", "why_tests_cant": "Depends on which of 64 symbols occur in the text.", "anchors": ["src/base64.cpp: Base64Decoder::decodedSize, Base64UrlDecoder::decodedSize"]}
{"id": "C16", "title": "Encoders fit in the space they announce", "statement": "If the destination has at least encodedSize(n) bytes remaining, encode succeeds and writes exactly encodedSize(n) bytes; if it has fewer, encode reports an error and writes nothing beyond the destination.", "quantifier": "every input and every destination capacity/position", "why_tests_cant": "All combinations of input length and remaining space.", "anchors": ["src/base16.cpp: Base16Encoder::encode", "src/base64.cpp: Base64Encoder::encode", "src/encoder.cpp: Encoder::encode"]}
{"id": "C17", "title": "Memory accounting is exact", "statement": "At every moment, MemoryManager::size() is the sum of the sizes of blocks allocated from it and not yet released, and never exceeds capacity(); allocation fails with an error exactly when it would exceed the capacity (or the system has no memory, or it is locked) and then changes nothing.", "quantifier": "every finite history of allocate/release/lock/unlock in any order", "why_tests_cant": "Histories are unbounded and releases come in any order.", "anchors": ["src/memoryManager.cpp: allocate, free", "include/solace/memoryManager.hpp"]}
{"id": "C18", "title": "Locked managers never allocate", "statement": "Between lock() and unlock() every allocate call fails with a permission error (unless it already fails for lack of memory) and size() never grows; releases still work.", "quantifier": "every history", "why_tests_cant": "Unbounded histories.", "anchors": ["src/memoryManager.cpp: lock, unlock, allocate"]}
{"id": "C19", "title": "Accounting survives moving and swapping managers", "statement": "After swapping or moving MemoryManagers that have outstanding resources, the accounting property continues to hold for both managers.", "quantifier": "every pair of managers and every set of live resources", "why_tests_cant": "Needs live resources across a swap, for all sizes.", "anchors": ["src/memoryManager.cpp: MemoryManager::swap", "include/solace/memoryManager.hpp: move constructor"]}
{"id": "C20", "title": "Each block is released exactly once", "statement": "Under any sequence of allocations, moves, move-assignments, swaps and destructions of MemoryResource objects, no block is released twice, and once all resources are destroyed every block has been released exactly once.", "quantifier": "every finite program over any number of resource variables, including self-assignment", "why_tests_cant": "Unbounded programs over aliases.", "anchors": ["include/solace/memoryResource.hpp: MemoryResource", "src/memoryManager.cpp: HeapMemoryDisposer"]}
{"id": "C21", "title": "String equality and hash", "statement": "StringView::equals holds exactly when both have the same characters; equal views have equal hashCode.", "quantifier": "every pair of views", "why_tests_cant": "All pairs.", "anchors": ["src/stringView.cpp: equals, hashCode"]}
{"id": "C22", "title": "String comparison is a total order consistent with equality", "statement": "compareTo is total (never aborts), antisymmetric, transitive, and returns zero exactly for equal strings.", "quantifier": "every triple of strings, including empty ones, ones with NUL and non-ASCII characters", "why_tests_cant": "Ordering laws quantify over triples of unbounded strings.", "anchors": ["src/stringView.cpp: compareTo"]}
{"id": "C23", "title": "Substring is clamped", "statement": "substring(from,to) is the characters from min(from,length) to min(max(to,from),length).", "quantifier": "every string and every bounds", "why_tests_cant": "All bounds.", "anchors": ["src/stringView.cpp: substring"]}
{"id": "C24", "title": "Searching finds the first and last occurrence", "statement": "indexOf(x, from) returns the least position >= from at which x occurs and none if there is none; lastIndexOf the greatest; for single characters and for strings; it never reads outside either string.", "quantifier": "every text, needle (including empty) and start position", "why_tests_cant": "Unbounded strings.", "anchors": ["src/stringView.cpp: indexOf, lastIndexOf"]}
{"id": "C25", "title": "Prefix and suffix tests", "statement": "startsWith(x)/endsWith(x) hold exactly when x is a prefix/suffix; never read outside either string.", "quantifier": "every pair of strings", "why_tests_cant": "All pairs.", "anchors": ["src/stringView.cpp: startsWith, endsWith", "include/solace/stringView.hpp: startsWith(char), endsWith(char)"]}
{"id": "C26", "title": "Trimming", "statement": "trim() removes exactly the maximal runs of white-space at both ends; trim(c) does so for c; trimming is idempotent.", "quantifier": "every string", "why_tests_cant": "Unbounded strings.", "anchors": ["src/stringView.cpp: trim"]}
{"id": "C27", "title": "Splitting is the inverse of joining", "statement": "For a non-empty delimiter, the pieces produced by split, joined by the delimiter, give the original string; no piece contains the delimiter when it is a single character; the number of pieces is one more than the number of (non-overlapping, leftmost) occurrences, and equals the reported count; both split variants yield the same pieces.", "quantifier": "every string of every admissible length and every non-empty delimiter", "why_tests_cant": "Unbounded strings, delimiters that overlap themselves.", "anchors": ["include/solace/stringView.hpp: split"]}
{"id": "C28", "title": "Splitting terminates", "statement": "split returns for every string and every delimiter, including the empty one.", "quantifier": "every string and delimiter", "why_tests_cant": "A test of non-termination only hangs; needs argument for all inputs.", "anchors": ["include/solace/stringView.hpp: split"]}
{"id": "C29", "title": "Concatenation is faithful", "statement": "makeString(a, b, ...) returns a string whose content is the concatenation of the arguments, or an error.", "quantifier": "every list of arguments of every length", "why_tests_cant": "Truncation happens only when the total length exceeds 65535.", "anchors": ["include/solace/string.hpp: makeString(StringView, StringView, Args...)", "include/solace/string.hpp: details::writeAllArgs"]}
{"id": "C30", "title": "Joining is faithful", "statement": "makeStringJoin(by, list) returns the elements of the list separated by `by`, or an error.", "quantifier": "every delimiter and list, including the empty list", "why_tests_cant": "All lists.", "anchors": ["src/string.cpp: makeStringJoin"]}
{"id": "C31", "title": "Replacing is faithful", "statement": "makeStringReplace(str, what, by) returns str with each (leftmost, non-overlapping) occurrence of what replaced by `by`, or an error; for characters and strings.", "quantifier": "every string, pattern and replacement", "why_tests_cant": "All strings, including non-ASCII characters and totals over 65535.", "anchors": ["src/string.cpp: makeStringReplace"]}
{"id": "C32", "title": "String builder accumulates", "statement": "After any sequence of appends, view() is the concatenation of the text forms of the appended items that fitted, an append either takes effect entirely or not at all; when total text (plus one byte for numbers) fits in the capacity nothing is lost.", "quantifier": "every capacity and sequence of append calls of characters, strings, numbers", "why_tests_cant": "Unbounded sequences.", "anchors": ["src/stringBuilder.cpp: append"]}
{"id": "C33", "title": "String builder finds characters", "statement": "StringBuilder::indexOf(c) returns the position of the first c in the built text and none exactly when c does not occur.", "quantifier": "every builder content and character", "why_tests_cant": "Depends on character in the last position.", "anchors": ["src/stringBuilder.cpp: indexOf, contains"]}
{"id": "C34", "title": "Version ordering", "statement": "On versions, < and > are strict orders, mirror images of each other, and exactly one of a<b, a>b, equal numbers holds.", "quantifier": "every pair/triple of versions", "why_tests_cant": "All triples of 32-bit component values.", "anchors": ["src/version.cpp: operator>", "include/solace/version.hpp: operator<, equals"]}
{"id": "C35", "title": "Version text round trip", "statement": "Version::parse(v.toString()) succeeds and equals v including build metadata, when pre-release and build contain no separators at their ends.", "quantifier": "every version with admissible labels, every content of memory after the parsed text", "why_tests_cant": "All 2^96 number triples and unbounded labels.", "anchors": ["src/version.cpp: toString, parse"]}
{"id": "C36", "title": "Version parsing depends only on its argument", "statement": "Version::parse of a view gives a result determined by the characters of the view, and rejects texts without three dot-separated numbers.", "quantifier": "every view and every content of the memory after it", "why_tests_cant": "Behaviour depends on bytes that follow the view in memory.", "anchors": ["src/version.cpp: parse"]}
{"id": "C37", "title": "UUID text round trip", "statement": "UUID::parse(u.toString()) gives u; toString is 36 characters in 8-4-4-4-12 lower-case hex form.", "quantifier": "every 128-bit value", "why_tests_cant": "2^128 values.", "anchors": ["src/uuid.cpp: toString, parse"]}
{"id": "C38", "title": "UUID parsing is safe and strict", "statement": "UUID::parse returns an error for every text that is not 32 hex digits with dashes in the canonical places, and has no undefined behaviour on any input.", "quantifier": "every text, including 36-character texts with any number of dashes and non-ASCII bytes", "why_tests_cant": "The bad texts are a huge family.", "anchors": ["src/uuid.cpp: parse"]}
{"id": "C39", "title": "UUID ordering", "statement": "The comparison operators on UUIDs form a strict total order consistent with ==, and agree with the ordering of their text forms; isNull holds exactly for the all-zero UUID.", "quantifier": "all pairs/triples of UUIDs", "why_tests_cant": "2^384 triples.", "anchors": ["src/uuid.cpp: operator<, equals, isNull"]}
{"id": "C40", "title": "Atom round trip and order", "statement": "For strings of up to 8 non-NUL characters, atomToString(atom(s)) = s, distinct strings give distinct atoms and numeric order of atoms is lexicographic order of strings; tryParseAtom rejects exactly longer strings.", "quantifier": "every string up to 8 characters, ASCII or not", "why_tests_cant": "256^8 strings.", "anchors": ["include/solace/atom.hpp: wrap", "src/atom.cpp: atomToString, tryParseAtom"]}
{"id": "C41", "title": "Dial string parsing", "statement": "tryParseDailString(\"proto:addr:service\") yields the three parts trimmed; without a colon all text is the address; it rejects empty input and protocols over 8 characters; printing and parsing again gives the same result.", "quantifier": "every text", "why_tests_cant": "Unbounded strings.", "anchors": ["src/dialstring.cpp: tryParseDailString"]}
{"id": "C42", "title": "Variable span iteration", "statement": "Iterating a VariableSpan built over the concatenation of length-prefixed chunks (8/16/32/64-bit lengths, any byte order) yields exactly the chunks in order and ends after the given count.", "quantifier": "every list of chunks, prefix width and byte order", "why_tests_cant": "Unbounded lists.", "anchors": ["include/solace/variableSpan.hpp: Iterator"]}
{"id": "C43", "title": "Variable span stays inside its data", "statement": "For any data and any element count every chunk yielded lies inside the data, and iteration ends after exactly count steps.", "quantifier": "every byte string, malformed or truncated", "why_tests_cant": "Malformed data of every kind.", "anchors": ["include/solace/variableSpan.hpp: Iterator"]}
{"id": "C44", "title": "Vector behaves like a bounded list", "statement": "Any sequence of emplace_back/pop_back/clear/index on a Vector behaves like the same operations on a list of at most capacity() elements; a failing emplace_back changes nothing.", "quantifier": "every capacity and finite operation sequence", "why_tests_cant": "Unbounded histories.", "anchors": ["include/solace/vector.hpp: emplace_back, pop_back, clear, operator[]"]}
{"id": "C45", "title": "Elements are destroyed exactly once", "statement": "Every element constructed inside a Vector or Array is destroyed exactly once by the time the container is gone, for any sequence of operations, including assigning nullptr and converting Vector to Array.", "quantifier": "every operation history", "why_tests_cant": "Leaks and double destruction are history-dependent.", "anchors": ["include/solace/vector.hpp: dispose, toArray", "include/solace/array.hpp: dispose, operator=(nullptr_t)"]}
{"id": "C46", "title": "Construction is exception safe", "statement": "If the k-th element constructor throws while initialising/copying/emplacing an array, exactly the first k elements are destroyed, each once, in reverse order, and the exception propagates.", "quantifier": "every array length and every throwing position", "why_tests_cant": "All positions and lengths.", "anchors": ["include/solace/details/array_utils.hpp: ExceptionGuard, initArray, CopyConstructArray_"]}
{"id": "C47", "title": "Dictionary is a map", "statement": "After any sequence of successful puts, find(k) returns the value of the latest put of k and none if k was never put; contains agrees with find; a failed put changes nothing.", "quantifier": "every capacity and finite sequence of puts", "why_tests_cant": "Repeated keys in unbounded histories.", "anchors": ["include/solace/dictionary.hpp: put, find, contains"]}
{"id": "C48", "title": "Path parse inverts print", "statement": "Path::parse(p.toString(d), d) equals p for every path p whose components do not contain d, that is non-empty and does not end with an empty component (or is the root).", "quantifier": "every path and every non-empty delimiter", "why_tests_cant": "Unbounded component lists, delimiters overlapping component ends.", "anchors": ["src/path.cpp: parse, toString"]}
{"id": "C49", "title": "Path print inverts parse", "statement": "Path::parse(s, d).toString(d) is s without one trailing delimiter (or the delimiter itself for the root).", "quantifier": "every text", "why_tests_cant": "Unbounded texts.", "anchors": ["src/path.cpp: parse, toString"]}
{"id": "C50", "title": "Path length agrees with its text", "statement": "p.length(d) equals p.toString(d).length() for every path.", "quantifier": "every path and delimiter", "why_tests_cant": "Sizes beyond 65535, empty paths.", "anchors": ["src/path.cpp: length, toString"]}
{"id": "C51", "title": "Normalisation", "statement": "normalize() is idempotent, leaves no '.' component and no '..' that follows an ordinary component, and does not turn an absolute path into a relative one; its result can be printed and queried.", "quantifier": "every path", "why_tests_cant": "Unbounded component lists.", "anchors": ["src/path.cpp: normalize, isAbsolute, toString"]}
{"id": "C52", "title": "Path containment queries", "statement": "startsWith/endsWith/contains are total; contains holds exactly when the argument's components are a contiguous run of the path's; startsWith(q) holds exactly when q's components are a prefix, the last one possibly only a string prefix.", "quantifier": "every pair of paths", "why_tests_cant": "All pairs, including empty and root paths.", "anchors": ["src/path.cpp: startsWith, endsWith, contains"]}
{"id": "C53", "title": "Path parent, base name and sub-path", "statement": "For a path with at least two components, parent and base name rejoin to the path; subpath(a,b) is the clamped component range; joining subpath(0,k) and subpath(k,n) gives the path.", "quantifier": "every path and indices", "why_tests_cant": "All paths and 64-bit indices.", "anchors": ["src/path.cpp: getParent, getBasename, subpath", "include/solace/path.hpp: makePath"]}
{"id": "C54", "title": "Path comparison is a total order", "statement": "compareTo is total, antisymmetric, transitive, and zero exactly for equal paths.", "quantifier": "all triples of paths", "why_tests_cant": "Ordering laws over unbounded paths.", "anchors": ["src/path.cpp: compareTo, equals"]}
{"id": "C55", "title": "Optional is a lawful container", "statement": "Optional obeys: get returns the stored value and raises exactly when empty; map and flatMap satisfy the functor and monad laws; orElse/filter behave as on an at-most-one-element list; equality is equality of contents; swap exchanges contents.", "quantifier": "every type, value and function", "why_tests_cant": "Laws quantify over functions.", "anchors": ["include/solace/optional.hpp: Optional"]}
{"id": "C56", "title": "Result is a lawful sum", "statement": "Result obeys: exactly one of isOk/isError; unwrap/getError raise exactly in the other state; then/orElse/mapError satisfy the monad and functor laws and call the handler exactly when documented; swap and move-assignment exchange contents, also with itself.", "quantifier": "every value and function, self-assignment included", "why_tests_cant": "Laws quantify over functions.", "anchors": ["include/solace/result.hpp: Result"]}
{"id": "C57", "title": "Optional and Result destroy their payload exactly once", "statement": "Under any sequence of construct/assign/move/swap/destroy on Optional and Result objects, every payload constructed is destroyed exactly once and never used after destruction.", "quantifier": "every finite program over any number of objects, including self operations", "why_tests_cant": "Unbounded programs.", "anchors": ["include/solace/optional.hpp: swap, operator=, destroy", "include/solace/result.hpp: swap, constructValue, destroy"]}
{"id": "C58", "title": "MD5 conforms to RFC 1321", "statement": "For MD5, feeding a message in any number of update calls and calling digest gives the RFC 1321 digest of the concatenated message.", "quantifier": "every message and every way of cutting it in pieces", "why_tests_cant": "Unbounded messages, all partitions, lengths over 4 GiB.", "anchors": ["src/hashing/md5.cpp: md5_process, md5_update, MD5::digest"]}
{"id": "C59", "title": "SHA-1 conforms to FIPS 180-4", "statement": "For Sha1, feeding a message in any number of update calls and calling digest gives the FIPS 180-4 SHA-1 digest of the concatenated message.", "quantifier": "every message and every way of cutting it in pieces", "why_tests_cant": "Unbounded messages, all partitions, lengths over 4 GiB.", "anchors": ["src/hashing/sha1.cpp: sha1_process, sha1_update, Sha1::digest"]}
{"id": "C60", "title": "SHA-256 conforms to FIPS 180-4", "statement": "For Sha256, feeding a message in any number of update calls and calling digest gives the FIPS 180-4 SHA-256 digest of the concatenated message.", "quantifier": "every message and every way of cutting it in pieces", "why_tests_cant": "Unbounded messages, all partitions, lengths over 4 GiB.", "anchors": ["src/hashing/sha2.cpp: sha256_process, sha256_update, Sha256::digest"]}
{"id": "C61", "title": "Digest is repeatable", "statement": "Calling digest() twice on a hash object gives the same digest.", "quantifier": "every algorithm and message", "why_tests_cant": "All messages.", "anchors": ["src/hashing/md5.cpp: digest", "src/hashing/sha1.cpp: digest", "src/hashing/sha2.cpp: digest", "src/hashing/murmur3.cpp: digest", "src/hashing/sha3.cpp: digest"]}
{"id": "C62", "title": "Every hashing algorithm is incremental", "statement": "For every HashingAlgorithm, update(a); update(b) followed by digest equals update(a++b) followed by digest.", "quantifier": "every algorithm, every pair of byte strings", "why_tests_cant": "All splits of all messages.", "anchors": ["include/solace/hashing/digestAlgorithm.hpp: HashingAlgorithm::update", "src/hashing/murmur3.cpp: update", "src/hashing/sha3.cpp: update"]}
{"id": "C63", "title": "Murmur3 conforms to the reference", "statement": "Murmur3_32/Murmur3_128 digests equal the published MurmurHash3 definition on the input bytes and seed, and all bytes of the input influence the block decomposition exactly once.", "quantifier": "every input and seed", "why_tests_cant": "Unbounded inputs and tails of every length.", "anchors": ["src/hashing/murmur3.cpp: murmurhash3_x86_32, MurmurHash3_x64_128"]}
{"id": "C64", "title": "Digest text form", "statement": "MessageDigest::toString() is the hexadecimal text of the digest bytes, and getDigestLength is 8 times their number.", "quantifier": "every digest", "why_tests_cant": "All digests.", "anchors": ["src/hashing/messageDigest.cpp: toString"]}
{"id": "C65", "title": "Environment variables read back", "statement": "After set(name,value) succeeds, get(name) returns value; after unset it returns none; set without replace keeps the old value; clear reports success when it empties the environment; the iteration lists exactly the variables.", "quantifier": "every environment, every name and value", "why_tests_cant": "Values containing '=' and environments of any size.", "anchors": ["src/env.cpp: Env::get, set, unset, clear, Iterator::operator->"]}
{"id": "C66", "title": "Error-domain registry", "statement": "After registering a domain under an id, looking the id up returns it; an unregistered id is not found; registration returns the number of registered domains.", "quantifier": "every history of registrations, including repeated ids and more than 128 domains", "why_tests_cant": "Unbounded histories.", "anchors": ["src/errorDomain.cpp: registerErrorDomain, findErrorDomain"]}
{"id": "C67", "title": "Exception messages are complete and in bounds", "statement": "The text of every library exception is exactly the documented pieces in order, with no truncation, and composing it never writes outside the allocated buffer.", "quantifier": "every argument name, index, bound, error text", "why_tests_cant": "All numbers and names.", "anchors": ["src/exception.cpp: format*", "src/errorString.cpp: StringWriter"]}
{"id": "C68", "title": "Filtered ranges", "statement": "Iterating a RangeView visits exactly the elements of the range that satisfy the predicate, in order.", "quantifier": "every sequence and predicate", "why_tests_cant": "All sequences and predicates.", "anchors": ["include/solace/range_view.hpp: RangeView"]}
{"id": "C69", "title": "Array views", "statement": "ArrayView: size is the number of whole elements; operator[] returns the i-th element and raises exactly for i >= size; indexOf returns the first index of an equal element; equality is element-wise; slice is clamped.", "quantifier": "every element type size, memory and index", "why_tests_cant": "All sizes.", "anchors": ["include/solace/arrayView.hpp: ArrayView"]}
{"id": "C70", "title": "Encoding a reader consumes it", "statement": "Encoder::encode(ByteReader&) encodes exactly the bytes remaining in the reader; on success the reader has nothing remaining, on failure its position is unchanged.", "quantifier": "every reader state and destination", "why_tests_cant": "All states.", "anchors": ["src/encoder.cpp: Encoder::encode(ByteReader&)"]}
{"id": "C71", "title": "Characters", "statement": "A Char built from bytes yields those bytes back, and Char comparison is the order of code values.", "quantifier": "every byte sequence up to 4 bytes, every code value", "why_tests_cant": "All values.", "anchors": ["src/char.cpp: Char(MemoryView), getBytes", "include/solace/char.hpp"]}
{"id": "C72", "title": "Prefix and suffix characters", "statement": "startsWith(char)/endsWith(char) test the first/last character of a non-empty view, and never read outside the view.", "quantifier": "every view (empty or not, null or not) and character", "why_tests_cant": "All views and all memory contents behind them.", "anchors": ["include/solace/stringView.hpp: startsWith(char), endsWith(char)"]}
{"id": "C73", "title": "Joining a fixed argument list is exact or an error", "statement": "makeStringJoin(by, args...) either returns an error or a string whose content is the arguments in order with the separator between consecutive ones.", "quantifier": "all separators, all argument lists (string views and strings), all memory managers", "why_tests_cant": "Needs totals around 65536 characters and mixes of argument types.", "anchors": ["include/solace/string.hpp:writeJointArgs,makeStringJoin", "include/solace/details/string_utils.hpp"]}
{"id": "C74", "title": "Character classification", "statement": "isDigit, isLetter, isSymbol, isNewLine, toLower, ... are defined for every character and agree with the ASCII classes.", "quantifier": "every code value, both byte orders", "why_tests_cant": "2^32 code values; undefined behaviour of ctype functions depends on the C library.", "anchors": ["src/char.cpp:isDigit,isLetter,isSymbol,isNewLine,toLower,toUpper"]}
{"id": "C75", "title": "Digest lengths", "statement": "The digest of each hashing algorithm has exactly the number of bits its getDigestLength() declares.", "quantifier": "every algorithm, every message, every state", "why_tests_cant": "The output is assembled by writers whose failures are ignored; tests compare a few digests.", "anchors": ["src/hashing/md5.cpp: digest, getDigestLength", "src/hashing/sha1.cpp: digest", "src/hashing/sha2.cpp: digest", "src/hashing/sha3.cpp: digest", "src/hashing/murmur3.cpp: digest"]}
{"id": "C76", "title": "Error values", "statement": "Two errors compare equal exactly when their domain and code are equal; swap exchanges two errors completely; the text of an error of a registered domain is that domain's message for its code and of an unregistered one the name of the domain, ': ' and the tag; distinct error codes are distinguishable and every error converts to true.", "quantifier": "every pair of errors, every history of registrations, every tag", "why_tests_cant": "tests format a few errors of one domain and never compare codes of different enumerations", "anchors": ["src/error.cpp:27-43", "include/solace/error.hpp:35-90", "include/solace/posixErrorDomain.hpp:45-220"]}
{"id": "C77", "title": "Reader calls succeed exactly when they fit", "statement": "From a reader whose limit was never lowered below its position, every call succeeds exactly when what it asks for lies below the limit (for limit(n): within the buffer); it then moves position and limit as its documentation says and hands over exactly the bytes asked for in order (reversed for the other byte order), and otherwise reports an overflow.", "quantifier": "all buffers, all histories of calls that keep the limit at or above the position, all calls and arguments, both host byte orders", "why_tests_cant": "Tests try a handful of positions and sizes; off-by-one errors at the limit and wrap-around for sizes near 2^64 need particular values", "anchors": ["src/byteReader.cpp: ByteReader::limit, position, advance, get, read, readLE, readBE", "include/solace/byteReader.hpp: remaining, rewind"]}
{"id": "C78", "title": "Writer calls succeed exactly when they fit", "statement": "From a writer whose limit was never lowered below its position, every call succeeds exactly when what it asks for lies below the limit (for limit(n): within the buffer); the data is then stored at the old position, every other byte and the size of the buffer are unchanged and position and limit are as documented; otherwise an overflow is reported and position and limit are kept.", "quantifier": "all buffers, all histories of calls that keep the limit at or above the position, all calls and arguments, both host byte orders", "why_tests_cant": "Tests look at the bytes they expect to be written, not at all other bytes of the buffer, and only at a few sizes", "anchors": ["src/byteWriter.cpp: ByteWriter::limit, position, advance, write, writeLE, writeBE", "include/solace/byteWriter.hpp: remaining, rewind, clear, flip"]}
{"id": "C79", "title": "Digest constants are the ones the standards define", "statement": "The 64 constants in md5_process are the integer parts of 2^32 |sin i| for i = 1..64; the four of sha1_process are the integer parts of 2^30 times the square roots of 2, 3, 5, 10; the 64 of sha256_process and the eight initial words are the first 32 bits of the fractional parts of the cube and square roots of the first primes.", "quantifier": "every entry of every table, against real numbers", "why_tests_cant": "A test vector exercises all entries at once but shows only that some table and code produce the expected digests for a few messages; it does not relate the numbers to their definition", "anchors": ["src/hashing/md5.cpp: md5_process", "src/hashing/sha1.cpp: sha1_process", "src/hashing/sha2.cpp: K, Sha256::Sha256"]}
{"id": "C80", "title": "Typed access, range fills and overlapping copies of memory views", "statement": "offsetAddress gives an address exactly for offsets up to the size; dataAs<T>(offset) gives exactly the sizeof(T) bytes at that offset and throws exactly when they are not all inside the view; sliceFor<T> shows exactly the objects asked for; fill(value, from, to), write, read and construct change exactly the bytes they are said to change, also when source and destination overlap.", "quantifier": "all views of a memory block, all offsets, sizes and values, all overlaps", "why_tests_cant": "Wrap-around of offset + sizeof(T) needs offsets near 2^64 and overlap has many cases; tests use disjoint small buffers", "anchors": ["include/solace/memoryView.hpp: offsetAddress, dataAs, sliceFor", "include/solace/mutableMemoryView.hpp: fill, construct", "src/mutableMemoryView.cpp: write, read, slice"]}
{"id": "C81", "title": "Arrays and vectors show the elements they were made from", "statement": "makeArray, makeArrayOf, makeVector and makeVectorOf give a container with exactly the given elements in order (or an allocation error and nothing else): size() is their number, operator[] gives each and throws for every other index, begin() to end() shows them, empty() holds exactly when there are none; toArray() moves the elements of a vector; comparison with a list or another container is true exactly when the elements are pairwise equal and as many.", "quantifier": "all element sizes, element counts, element values, source memories, allocation outcomes and vector histories", "why_tests_cant": "Counts whose size in bytes wraps, and views with left-over bytes, are not in any test; equality needs all pairs of contents", "anchors": ["include/solace/array.hpp: makeArray, makeArrayOf, equals, empty", "include/solace/vector.hpp: makeVector, makeVectorOf, toArray", "include/solace/details/array_utils.hpp: initArray, CopyConstructArray_"]}
{"id": "C82", "title": "Printed values can be read back", "statement": "Writing a value to an output stream shows it faithfully. A non-empty memory view is printed as its hexadecimal text, from which the bytes can be read back; two views, and two digests, are printed alike only if they are equal. A dial string read from text and printed is read back as the same dial string. An error of a registered domain is printed as name, code, message and tag separated by colons, one of an unknown domain with the text of the domain's atom. An empty optional is printed differently from every optional that holds a value.", "quantifier": "for all byte sequences, all atoms, addresses and services, all error values and registration histories", "why_tests_cant": "the values are unbounded; tests print a handful", "anchors": ["include/solace/output_utils.hpp:39-150", "src/dialstring.cpp"]}
{"id": "C83", "title": "Iterating a dictionary", "statement": "Going through a dictionary from begin() to end() meets every entry that was put, once and in order, and ends; size() is their number and empty() tells whether there is none. A dictionary made with a capacity takes exactly that many entries, and capacity() reports it; if memory cannot be had an error is returned.", "quantifier": "for all histories of puts, all capacities, all sizes of keys and values, every pattern of allocation failures", "why_tests_cant": "histories are unbounded, and the end condition compares two iterators at once, which matters only when the number of keys and values differs", "anchors": ["include/solace/dictionary.hpp:76-120", "include/solace/dictionary.hpp:205-261"]}
{"id": "C84", "title": "Murmur3 on 32-bit targets", "statement": "On 32-bit targets the digest of Murmur3_128 is the published MurmurHash3_x86_128 hash of the last input, as four 32-bit words in little endian order.", "quantifier": "for all inputs, seeds and addresses", "why_tests_cant": "inputs are unbounded; the build under test is a 64-bit one where this code is not called", "anchors": ["src/hashing/murmur3.cpp:140-239", "src/hashing/murmur3.cpp:365-380"]}
{"id": "C85", "title": "Murmur3 tells apart inputs that differ in one block", "statement": "Two inputs of the same length that differ only within one block (4 bytes for the 32-bit hash, 16 bytes for the 128-bit ones, the last incomplete block included) have different digests under the same seed; in particular inputs of equal length of at most one block never collide. One input has different digests under different seeds.", "quantifier": "for all pairs of inputs that differ in one block, all seeds", "why_tests_cant": "2^32 or more values of each block at every position of inputs of every length", "anchors": ["src/hashing/murmur3.cpp:70-313"]}
{"id": "C86", "title": "Strings own their characters through moves, swaps and copies", "statement": "In every program that makes strings (from texts, literals, memory and other strings), moves, assigns and swaps them (also with themselves) and ends their lives, each living string shows the text the program gave it: a moved-from string is empty, move assignment and swap exchange texts, copies are independent. No character is read after its memory was given back, no block is given back twice, and when all strings are gone every block was given back. A view taken earlier stays valid exactly as long as some string owns the memory.", "quantifier": "for all sequences of operations on any number of string variables", "why_tests_cant": "unboundedly many programs with aliasing, self-assignment and self-swap", "anchors": ["include/solace/string.hpp:45-110", "include/solace/memoryResource.hpp:56-125", "src/string.cpp:29-50"]}
{"id": "C87", "title": "String views show the characters they were made from", "statement": "A view made from a pointer and a count, a C string, memory or a literal shows exactly these characters; null is accepted only for no characters. Iteration, charAt, view() and comparison agree with the characters shown; charAt and operator[] throw for an index outside of the view; substring(from, len) gives len characters from from on.", "quantifier": "for all texts, memories around them, indices and lengths", "why_tests_cant": "texts of 65536 characters and more, all contents of the memory behind a view", "anchors": ["include/solace/stringView.hpp:45-100", "include/solace/stringView.hpp:255-300", "include/solace/stringView.hpp:400-540", "src/stringView.cpp:29-52", "include/solace/string.hpp:208-321"]}
{"id": "C88", "title": "Assertions pass exactly the values that meet them", "statement": "assertValueInRange and assertIndexInRange return the index exactly when it is in the range, assertTrue and assertErrno return exactly for a true condition, assertNull and assertNotNull return the pointer exactly when it is null or not null. Otherwise an exception is thrown whose text is the tag and, for ranges, names the index and the range; assertErrno's exception carries errno and its description.", "quantifier": "for all indices, ranges, pointers, tags and error numbers", "why_tests_cant": "2^192 combinations of index and range, all tags", "anchors": ["include/solace/assert.hpp:28-232", "src/assert.cpp:29-126"]}
{"id": "C89", "title": "Comparing results", "statement": "Two results are equal exactly when both hold equal values or both hold equal errors; this is an equivalence relation when the comparisons of values and errors are. Comparing with a value, an error, Ok(value), Err(error) or none agrees with comparing with the result made from it, and != is the negation. Moving a result keeps its state and content; optional || value is the content or the value.", "quantifier": "for all value and error types, comparisons and results", "why_tests_cant": "all types and comparisons, including ones that throw", "anchors": ["include/solace/result.hpp:917-973", "include/solace/result.hpp:77-102", "include/solace/result.hpp:225-304", "include/solace/optional.hpp:385-389"]}
{"id": "C90", "title": "Single-string paths, the root, iteration and text queries of paths", "statement": "makePath(string) gives the path whose only component is the string. The root is absolute, prints and parses as the delimiter and starts every absolute path. Iterating over a path and forEach see the components in order; iterators are equal exactly when they refer to the same place. startsWith, endsWith and contains with a string are about the text of the path. Joining copies or moves all components of its arguments in order and leaves copied arguments as they were.", "quantifier": "for all strings, component lists, callbacks, argument lists and memory managers", "why_tests_cant": "all paths and all mixtures of arguments; failing allocations and texts of 65536 characters are not met by tests", "anchors": ["src/path.cpp:32-55", "src/path.cpp:98-109", "src/path.cpp:244-247", "include/solace/path.hpp:62-106", "include/solace/path.hpp:235-278", "include/solace/path.hpp:317-351", "include/solace/path.hpp:433-550"]}
{"id": "C91", "title": "Concatenating and joining arguments of mixed kinds", "statement": "makeString(lhs, rhs, args...) and makeStringJoin(by, args...) accept characters, string views, literals, C strings and strings in any mix and return the texts of the arguments put one after the other (separated by 'by' for the join), or the error of the memory manager.", "quantifier": "for all argument lists of any length and mix of kinds, all texts, all separators, all behaviours of the memory manager", "why_tests_cant": "Tests call the functions with two or three arguments of a few kinds; which overload is chosen depends on the kind and constness of each argument, and for a non-const String the size function calls itself for ever.", "anchors": ["include/solace/string.hpp:478-603", "include/solace/string.hpp:641-669", "include/solace/string.hpp:743-788"]}
{"id": "C92", "title": "Random UUIDs and UUIDs as values", "statement": "makeRandomUUID fills all sixteen bytes from successive values of the random engine, so that the result is a random, practically unique UUID as of RFC 4122; copying, assigning, swapping, indexing and iterating treat a UUID as the value of its sixteen bytes, also when source and target are the same variable.", "quantifier": "for all engines and sizes of their values, all values of the random device, all previous contents of the stack, all collections of UUID variables and pairs of them", "why_tests_cant": "A test can call makeRandomUUID a few times and see different values; it cannot see that half of the bytes are always zero for every seed, that at most 2^31-2 values exist, or that no stack content leaks.", "anchors": ["src/uuid.cpp:31-84", "src/uuid.cpp:186-207", "include/solace/uuid.hpp:81-149"]}
{"id": "C93", "title": "Questions to an owning string", "statement": "Every query of String (equals, ==, !=, <, compareTo, charAt, [], contains, indexOf, lastIndexOf, startsWith, endsWith, substring, trim, hashCode, forEach, empty, length) gives the answer for the text the string holds, and reads nothing outside of the buffer of the string.", "quantifier": "for all texts below 65536 characters, all buffers holding them, all arguments and start positions, whatever follows the arguments in memory", "why_tests_cant": "Tests compare a few literals; reads behind the buffer of a string go unnoticed, and the answers for every pair of text and argument cannot be enumerated.", "anchors": ["include/solace/string.hpp:95-348", "include/solace/string.hpp:356-421", "src/string.cpp:119-180"]}
{"id": "C94", "title": "Hashing from byte readers", "statement": "Updating a hash with a byte reader hashes exactly the bytes between the reader's position and its limit, once, and leaves the reader at its limit; for MD5, SHA-1 and SHA-256 the digest of any sequence of views and readers is the published digest of the message they make together, a reader given again adding nothing.", "quantifier": "all reader states reachable by any calls, all sequences of views and readers with repetitions, all byte orders", "why_tests_cant": "the reader states include limits below the position and positions behind the data; sequences of updates are unbounded", "anchors": ["include/solace/hashing/digestAlgorithm.hpp:67-73", "src/byteReader.cpp:53-62", "include/solace/byteReader.hpp:220-222"]}
{"id": "C95", "title": "System error codes and texts", "statement": "Every named error code is the error number of the operating system it is named after; errors made from two names are equal exactly when the names stand for the same number; makeErrno reports the current errno; and the text of a system error is the C library's text for its code, or a fixed text when there is no memory.", "quantifier": "all enumerators, all errno values, all tags, all texts of the C library shorter than 65536 characters, all allocator behaviours", "why_tests_cant": "the tables are checked as a whole, and equality and texts are stated for all codes, tags and allocators", "anchors": ["include/solace/posixErrorDomain.hpp:45-230", "src/systemErrorDomain.cpp:32-66"]}
{"id": "C96", "title": "Decoders on arbitrary text", "statement": "For any memory, the base64 decoders decode exactly the run of alphabet characters at the beginning of the view, up to the first other byte in or after the view, writing the whole bytes of its six-bit groups and dropping the bits left over; if no byte stops the run the call is undefined. The base16 decoder refuses odd lengths first, then writes the bytes of the digit pairs before the first other pair, where it fails with ilseq or, if a character is not ASCII, is undefined; the iterator yields the same bytes and stops there silently. decodedSize agrees with the bytes written exactly for lengths divisible by four.", "quantifier": "all texts, all memory after the view, all destination writers, both alphabets", "why_tests_cant": "tests decode text made by an encoder; the outcome on garbage, truncated and unterminated text depends on every byte and on the memory behind the view", "anchors": ["src/base64.cpp:120-195", "src/base16.cpp:82-91", "src/base16.cpp:136-229"]}
{"id": "C97", "title": "Memory handed between resources, readers and writers is freed exactly once", "statement": "In every program that allocates buffers, makes byte readers and byte writers from them by reference or by handing them over, moves, swaps and assigns these objects, takes buffers back from writers, uses the streams and destroys the variables: a buffer that is not freed has exactly one owner and a freed one has none; no destructor frees a buffer twice; when all variables are gone every buffer is freed; a stream that owns its buffer behaves as the plain stream over the bytes; a moved-from stream has no memory and refuses to move bytes; only a stream made by reference from a buffer that is gone can have undefined behaviour.", "quantifier": "all programs (finite sequences of these operations, of any length), all buffer contents and all stream calls", "why_tests_cant": "A test makes a few objects and moves each once; double frees and leaks come from chains of swaps and moves across kinds of object, of which there is no finite number.", "anchors": ["include/solace/memoryResource.hpp:56-96", "include/solace/byteReader.hpp:58-111", "include/solace/byteWriter.hpp:54-105", "include/solace/memoryView.hpp:109-128"]}
{"id": "C98", "title": "The text of an exception is freed exactly once and survives moving", "statement": "In every program that makes error texts and exceptions, moves them, assigns them and destroys them: no memory is freed twice and no variable refers to freed memory; the moved-to object has the text and the C string of the source; operations on other objects leave a text alone; a moved-from object is empty; when all objects are gone all memory is freed. (The code violates the last two: the moved-from object keeps its size with a null pointer, and assignment to an object that holds a text, as well as a writer that is not built, loses memory.)", "quantifier": "all finite sequences of constructions, moves, assignments and destructions, all texts", "why_tests_cant": "A test throws one exception and catches it; a leak is not visible to it, and what happens to memory in chains of moves and assignments needs all sequences.", "anchors": ["include/solace/details/string_utils.hpp:35-123", "src/errorString.cpp:34-49", "include/solace/exception.hpp:43-79"]}
{"id": "C99", "title": "Memory is kept in RAM exactly as long as a Lock object for it lives", "statement": "MemoryView::lock locks every byte of the view or reports an error and changes nothing. In every program that locks views and moves, assigns and destroys Lock objects, a page is locked if and only if a live Lock object is for memory on it; when all objects are gone nothing is locked; a moved-from object locks and unlocks nothing. (One direction fails when two live locks share a page: destroying one unlocks it for the other.)", "quantifier": "all programs (finite sequences of lock, move, assignment, destruction), all addresses, sizes and page sizes, any choice of locks the system refuses", "why_tests_cant": "Whether a page is locked cannot be seen from inside the process, a sanitizer does not track it, and the failing case needs two buffers that happen to share a page.", "anchors": ["src/memoryView.cpp:62-79", "include/solace/memoryView.hpp:236-254"]}
{"id": "C100", "title": "Characters keep their bytes through copying, swapping and assignment, and c_str is these bytes", "statement": "In every program that makes Char objects with any of the constructors, copies, moves, swaps and assigns them, each variable holds the four bytes given by the constructors and the exchanges made, and reading c_str() as a C string gives exactly the bytes of getBytes(). (The second part fails for characters of four bytes: the terminating zero is not part of the value, so it is missing in copies and in characters made from their number.)", "quantifier": "all programs (finite sequences of constructions, copies, swaps, assignments), all bytes, both byte orders", "why_tests_cant": "The byte behind the value is usually zero by accident, so tests of c_str on copies pass; the error needs a four byte character and unlucky memory.", "anchors": ["include/solace/char.hpp:45-92", "include/solace/char.hpp:176-188", "include/solace/char.hpp:266-269", "src/char.cpp:36-84"]}
{"id": "C101", "title": "Views refer only to memory they were made for, and memory given as constant is not written", "statement": "In every program that makes memory views, copies, moves, assigns, exchanges and slices them and reads and writes through them, every view is empty or lies within one range given to a constructor, no operation is undefined, overlapping writes store the bytes the source showed before, moving and exchanging neither lose nor duplicate a view, and memory that was only given to constructors of constant views is not changed. (The last part fails: move assignment and swap of MemoryView exchange with a MutableMemoryView, which then writes to the constant memory.)", "quantifier": "all programs (finite sequences of view operations), all memories, addresses, sizes and byte values", "why_tests_cant": "Aliasing and the exchange between base and derived class only show in particular sequences of operations; tests use one view at a time.", "anchors": ["include/solace/memoryView.hpp:78-128", "include/solace/memoryView.hpp:267-296", "include/solace/mutableMemoryView.hpp:58-93", "include/solace/mutableMemoryView.hpp:219-262", "src/memoryView.cpp:50-93", "src/mutableMemoryView.cpp:39-100"]}
{"id": "C102", "title": "Iterating over the environment while it is changed", "statement": "Env::forEach visits every variable the environment has when the loop starts exactly once and in order, also when the callback changes the environment, and a callback can change or remove the variable it is given; the iterator's increment raises an exception exactly at the end. (It fails when the callback removes variables: every second one is skipped and unnamed ones appear; emptying the environment is undefined behaviour; and the name handed to the callback is refused by set and unset.)", "quantifier": "all environments (any number and content of entries), all callbacks that leave unvisited entries in place; for the failures all environments", "why_tests_cant": "Needs a callback with side effects on the environment; the number of entries and their order decide what is skipped.", "anchors": ["include/solace/env.hpp:52-95", "include/solace/env.hpp:156-194", "src/env.cpp:55-82", "src/env.cpp:112-146"]}
{"id": "C103", "title": "Both variants of SHA-256 compute the same digest", "statement": "The block function compiled with SOLACE_SHA256_SMALLER and the one compiled without it take every state and every block to the same state, so that digests do not depend on the build option; both are the FIPS 180-4 function.", "quantifier": "all states, all 64-byte blocks, all messages given in pieces of any length, both byte orders, any contents of uninitialised memory", "why_tests_cant": "The option is chosen at compile time: a test binary contains only one of the two, and no test build defines SOLACE_SHA256_SMALLER. Agreement on 2^768 inputs of the block function is out of reach of sampling.", "anchors": ["src/hashing/sha2.cpp:75-147", "src/hashing/sha2.cpp:221-244"]}
{"id": "C104", "title": "Objects are made and used only at aligned addresses", "statement": "Every object that array views, vectors, dictionaries and dataAs/construct/destruct of memory views make, use or destroy lies at an address that is a multiple of its alignment, inside the memory given, a whole number of sizes from the beginning. (It fails when the memory given is not aligned: nothing looks at the address. The registry of error domains puts 8-byte words into static arrays of bytes, and heap memory is used for types of any alignment.)", "quantifier": "all object types (any size, any alignment), all memory ranges, all slices with any arguments, all sequences of vector operations, all placements of the static buffers", "why_tests_cant": "Tests run with the addresses the compiler and malloc happen to choose, which are usually aligned; x86 hardware tolerates most misaligned access, so the error shows only with other optimisation levels or processors.", "anchors": ["include/solace/memoryView.hpp:186-200", "include/solace/mutableMemoryView.hpp:130-205", "include/solace/arrayView.hpp:161-231", "include/solace/vector.hpp:193-284", "include/solace/dictionary.hpp:145-176", "src/errorDomain.cpp:31-53"]}
{"id": "C105", "title": "String builder announces the room its appends need", "statement": "The sizes announced by StringBuilder::measure and measureFormatted are the lengths of the texts append writes, a builder over a buffer of the announced total holds all of them, remaining() is the room left, and after build() the builder is empty.", "quantifier": "every sequence of appended characters, texts and 64-bit numbers and every buffer", "why_tests_cant": "Tests use buffers with room to spare and short texts; the room a number needs at the very end of a buffer and 16-bit wrap-around only show for particular sizes among unboundedly many.", "anchors": ["src/stringBuilder.cpp:30-70", "include/solace/stringBuilder.hpp:39-52", "include/solace/stringBuilder.hpp:128-130", "src/stringBuilder.cpp:177-181"]}
{"id": "C106", "title": "Encoding and decoding in pieces", "statement": "Calling encode of one Base16Encoder, Base64Encoder, Base64UrlEncoder or Base16Decoder for several memory views in turn writes the same as one call with the views joined, and decoding text written in pieces gives back all the bytes.", "quantifier": "every list of memory views, every destination", "why_tests_cant": "Tests encode one buffer with one call; where a stream happens to be cut, and at how many places, is unbounded.", "anchors": ["include/solace/encoder.hpp:34-82", "src/base16.cpp:107-160", "src/base64.cpp:34-70", "src/base64.cpp:120-166"]}
{"id": "C107", "title": "Records survive ByteWriter and ByteReader", "statement": "Fields (integers of 1, 2, 4 or 8 bytes in little-endian, big-endian or host order, and byte strings) written one after the other with a ByteWriter that has room are all accepted; viewWritten() grows by exactly their bytes in order, which do not depend on the host unless a field is in host order. Reading these bytes with a ByteReader on any host, into variables of the same kinds, succeeds throughout, returns the same fields and leaves nothing; host-order fields arrive as the reading host understands their bytes. From a truncated record exactly the complete fields arrive and the next read is an overflow error; without room exactly the fields that fit are written and the next write is an overflow error. Records of one shape with the same bytes are equal.", "quantifier": "for all lists of fields, previous contents of variables and buffers, writer and reader states with room, truncation points, and byte orders of either host", "why_tests_cant": "A test fixes one layout, one host and one truncation point.", "anchors": ["src/byteWriter.cpp:66-193", "src/byteReader.cpp:84-231", "include/solace/byteWriter.hpp:206-256", "include/solace/byteReader.hpp:211-252"]}
{"id": "C108", "title": "String functions agree with each other", "statement": "A non-empty string is a prefix (suffix) exactly when indexOf finds it at 0 (lastIndexOf at its distance from the end); contains, indexOf and lastIndexOf agree on whether it occurs, first is not after last, and they coincide exactly for a single occurrence; searching again from one behind the previous result visits every occurrence in order; searching for a one-character string is searching for the character; the substring at a position found is the needle. A substring of a substring is a substring, and the two parts of a string cut anywhere concatenate to it. Joining the pieces of split gives the string; splitting a join gives the pieces exactly when they can be told apart (for a character: when no piece contains it). makeStringReplace is makeStringJoin of the pieces of split while the result has fewer than 65536 characters; it changes nothing exactly when the pattern does not occur or is replaced by itself; a replaced character remains exactly when it occurred and the replacement contains it. trim ignores white space added at the ends. The hash of a concatenation follows from those of the parts.", "quantifier": "for all strings and needles up to the 16-bit length, positions, memory contents behind the strings, lists of pieces and memory managers", "why_tests_cant": "The laws relate pairs of functions over all strings; overlapping occurrences and delimiters that overlap a piece are easy to miss.", "anchors": ["src/stringView.cpp:38-232", "include/solace/stringView.hpp:303-396", "src/string.cpp:77-116", "src/string.cpp:184-216", "include/solace/string.hpp:552-582"]}
{"id": "C109", "title": "Path operations agree with each other", "statement": "Joining paths is associative, the path without components is neutral, and joining can be undone on either side. A joined path starts with its left part, ends with its right part, contains both and is absolute exactly when the left part is; its text is the two texts with the delimiter between them. A sub-path of a sub-path is a sub-path, the whole range gives the path, and what is cut out is contained. equals is an equivalence and contains a partial order up to it. Normalising the left part before joining makes no difference to the normalised result; normalising the right part first makes none, whatever the left part, exactly when the right part never leads more than one step above its start.", "quantifier": "for all paths, index ranges, delimiters and (where memory is needed) every memory manager that grants it; texts below 65536 characters where the text is involved", "why_tests_cant": "Laws over pairs and triples of paths of any length; the exception (two or more leading steps up) shows only for particular right parts.", "anchors": ["src/path.cpp:150-345", "include/solace/path.hpp:183-260", "include/solace/path.hpp:360-480"]}
{"id": "C110", "title": "Error domains registered while the program starts", "statement": "Domains that translation units register by static initialisers are found once main runs: every id registered there is found with the domain first registered for it, as long as there are at most 128 registrations, and no other id is found.", "quantifier": "for all lists of initialisers in every order, ids and domains", "why_tests_cant": "The order of initialisers in different translation units is chosen by the linker; a test sees one order.", "anchors": ["src/errorDomain.cpp:29-53", "src/systemErrorDomain.cpp:30-54"]}
{"id": "C111", "title": "The dial string program prints the parts of its arguments", "statement": "For every argument list the program ends with status 0: without arguments or with -h or --help first it prints how it is used; otherwise it prints protocol, address and service of each argument that is a dial string, without white space around them and with an empty line between arguments, and reports each other argument with the error on the error stream.", "quantifier": "for all program names, argument lists of any length and content, and registered error domains", "why_tests_cant": "Arguments are unbounded in number, length and content.", "anchors": ["examples/ds_parser.cpp:27-79", "src/dialstring.cpp", "src/atom.cpp:64-73"]}
{"id": "C112", "title": "Texts are ordered like the values they stand for", "statement": "Comparing the texts of two values as strings gives the order of the values: decimal texts of unsigned numbers, base16 texts of byte strings that are not empty (shorter first, then by unsigned bytes), texts of UUIDs, and names of equal length made into atoms. It does not for atoms of names of different length, base64 texts and versions.", "quantifier": "for all unsigned 64-bit numbers, byte strings below 32768 bytes, UUIDs and ASCII names of at most 8 characters", "why_tests_cant": "Order preservation is a statement about all pairs of values.", "anchors": ["src/stringView.cpp:38-60", "src/base16.cpp", "src/uuid.cpp:87-122", "include/solace/atom.hpp:47-91", "src/stringBuilder.cpp"]}
{"id": "C113", "title": "Chains of results", "statement": "A chain of then, orElse and mapError over results with and without a value calls a handler for values exactly when the chain holds no error at that point and a handler for errors exactly when it holds one, in order, each at most once, with the value or error held; every other stage passes its input on. A final error comes from the start or from a handler.", "quantifier": "every chain, every handler, every start, every value and error type", "why_tests_cant": "Chains have any length and handlers are arbitrary functions.", "anchors": ["include/solace/result.hpp:405-545", "include/solace/result.hpp:736-910"]}
{"id": "C114", "title": "Work on separate parts of a memory block does not interfere", "statement": "When a program works on parts of one memory block through views that do not overlap, in any interleaving, each part ends with the content, and each part's calls return the results, that its own calls alone would give on a block of their own; all other bytes stay. The order between different parts does not matter. Cutting a view with slice gives such parts.", "quantifier": "every number of views, every program of fills, writes, copies, constructions and typed reads, every interleaving", "why_tests_cant": "Programs and interleavings are unbounded.", "anchors": ["src/mutableMemoryView.cpp:39-100", "include/solace/mutableMemoryView.hpp:160-200", "include/solace/memoryView.hpp:177-223"]}
{"id": "C115", "title": "Memory managers and the memory of the machine", "statement": "The page queries return the answers of sysconf unless these are negative, and then throw an I/O exception carrying errno. On a machine with less than 2^64 bytes, the constructor of MemoryManager succeeds exactly for capacities below page size times number of pages, whatever the order in which the two are asked for; on every machine it never succeeds for another capacity. The new manager is empty and unlocked. getSystemHeapMemoryManager throws until a call in which the machine has more than 16 MiB, and from then on always returns the object made by that call, changed by nothing but its uses.", "quantifier": "all answers of sysconf and values of errno, all capacities, both orders of evaluation, all histories of calls and uses", "why_tests_cant": "Tests run on one machine whose answers never fail, so refusals, failing queries, wrapping products and repeated initialisation are never seen.", "anchors": ["src/memoryManager.cpp:31-39", "src/memoryManager.cpp:53-80", "src/memoryManager.cpp:132-138"]}
{"id": "C116", "title": "Calls of noexcept functions that end the program", "statement": "For every function of the library that is declared noexcept and has a way to an exception, the inputs for which the exception reaches the end of the function (std::terminate) are exactly these: StringView::compareTo of a non-empty string with an empty one; Path::compareTo when the first components that differ are a non-empty one and an empty one; Path::isAbsolute and toString of a path with a buffer and no components; Path::subpath without memory for its components; ByteReader::get for a byte below the limit that is not in the memory; slices of a null view that claims to have bytes; operator* of an empty Optional; == of results whose values' or errors' comparison throws; makeRandomUUID when the random device throws. The registry of error domains, Env::get and SystemErrorDomain::message never end the program.", "quantifier": "for all strings, paths, readers, views, optionals, results, random devices, environments, answers of the allocator and of strerror", "why_tests_cant": "An ended program ends the test run; the set of all inputs for which it does not happen cannot be sampled.", "anchors": ["src/stringView.cpp:55-68", "src/path.cpp:135-151", "src/path.cpp:238-241", "src/path.cpp:321-338", "src/byteReader.cpp:65-81", "src/memoryView.cpp:50-59", "src/mutableMemoryView.cpp:84-100", "include/solace/optional.hpp:200-201", "include/solace/result.hpp:951-955", "src/uuid.cpp:186-207", "src/errorDomain.cpp:48-65", "src/env.cpp:90-97", "src/systemErrorDomain.cpp:43-49"]}
{"id": "C117", "title": "Memory functions of the C library are called as they require", "statement": "Every call the library makes to memcpy, memmove, memset, memcmp and strncmp has pointers that are not null, also when zero bytes are to be copied or compared, and memcpy regions that do not overlap.", "quantifier": "for all views, streams, strings, error texts, UUIDs and hash inputs, null and empty ones included", "why_tests_cant": "A call with a null pointer and no bytes behaves well on most machines, so tests pass although a compiler may assume it never happens.", "anchors": ["src/memoryView.cpp:82-93", "src/mutableMemoryView.cpp:39-81", "src/byteReader.cpp:84-122", "src/byteWriter.cpp:66-81", "src/stringView.cpp:55-68", "src/errorString.cpp:44-49", "src/errorString.cpp:79-86", "src/uuid.cpp:36-48", "src/hashing/md5.cpp:146-180", "src/hashing/sha1.cpp:184-216", "src/hashing/sha2.cpp:150-181"]}
{"id": "C118", "title": "A digest is the whole state of the hash", "statement": "The digest of a message followed by its padding and any further bytes is a function of the digest of the message, its length and those bytes: an object whose state words are read back from the digest computes it with the library's own update and digest. So two messages of one length with one digest keep one digest under every continuation, and a digest over a secret and a message can be extended without the secret.", "quantifier": "for all messages in any pieces, all continuations and all hosts; MD5, SHA-1 and SHA-256", "why_tests_cant": "Tests compare digests of fixed messages with published values; that every digest can be continued without its message is a statement about all messages.", "anchors": ["src/hashing/md5.cpp:183-236", "src/hashing/sha1.cpp:219-272", "src/hashing/sha2.cpp:185-244"]}
{"id": "C119", "title": "Murmur3 reaches every digest", "statement": "For every seed and every value of the digest there is exactly one input of one block (four bytes for the 32-bit hash, sixteen for the 128-bit ones) that has it; and to every input of whole blocks one block can be appended that brings about the digest wanted.", "quantifier": "for all digests, seeds, inputs of whole blocks and byte orders; the 32-bit hash and both 128-bit variants", "why_tests_cant": "Tests hash a few texts; that no digest is out of reach is a statement about 2^32 and 2^128 values.", "anchors": ["src/hashing/murmur3.cpp:41-137", "src/hashing/murmur3.cpp:139-313", "src/hashing/murmur3.cpp:331-378", "include/solace/hashing/murmur3.hpp:35-127"]}
{"id": "C120", "title": "Versions keep numbers and labels together", "statement": "However Version objects are constructed, move constructed, move assigned, swapped and destroyed, every living object can be read, its numbers and labels are those of one version that was constructed (or that version with the labels moved away), no label is lost, duplicated or changes between pre-release and build, and the memory of every label is freed exactly once.", "quantifier": "all finite programs over any number of Version objects, all numbers, all label texts given as literal, as String or not at all, all answers of the memory manager, objects moved to or swapped with themselves", "why_tests_cant": "The move members are implicit, so nothing in the source shows what a moved-from object holds; a test moves one object and looks at the target, while the claim is about the source and about every sequence of operations.", "anchors": ["include/solace/version.hpp:46-178", "src/version.cpp:29-48", "include/solace/string.hpp:53-88"]}
{"id": "C121", "title": "Type functions and casts of utils agree with the standard ones", "statement": "Decay, RemoveConst, RefOrRValue, mv and fwd give for every C++ type and value category what std::decay, std::remove_const, reference collapsing, std::move and std::forward give.", "quantifier": "all C++ types built from base types, pointers, arrays with and without bound, functions, references and qualifiers; lvalue and rvalue arguments", "why_tests_cant": "The functions are selected at compile time by partial ordering of nine specialisations; a test instantiates a handful of types, and the types that do not compile cannot be put in a test at all.", "anchors": ["include/solace/utils.hpp:36-81", "include/solace/utils.hpp:108-111"]}
{"id": "C122", "title": "Array views made from pointers show exactly the elements given", "statement": "An ArrayView made from a pointer and a length, from two pointers, from a C array or from another view's begin and end shows exactly the elements it was given, or the constructor raises; copying, moving, assigning and swapping views keep this; empty() means that there are no elements.", "quantifier": "all element sizes, addresses, lengths (64 bits), pointer differences of either sign, views of any number of bytes", "why_tests_cant": "A test makes views of small arrays; the claim is about lengths whose byte count wraps around 64 bits, reversed pointers and views with a remainder, which no test can allocate or observe.", "anchors": ["include/solace/arrayView.hpp:60-154", "include/solace/arrayView.hpp:161-196", "include/solace/arrayView.hpp:407-469"]}
{"id": "C123", "title": "Path functions lose no memory, whenever it runs out", "statement": "However the memory manager refuses requests while paths are made, parsed, joined, normalised, copied, printed, moved, swapped and destroyed, no block is given back twice or without being given out, and the blocks given out are at any time exactly those of the paths alive. A function that cannot get memory reports it and otherwise gives the path it gives when memory never runs out.", "quantifier": "every program with paths, every sequence of answers of the memory manager, every text, delimiter and index", "why_tests_cant": "The n-th request can fail for any n: each function has as many failure paths as it makes requests, and their clean-up code runs only then; leaks show only in totals.", "anchors": ["src/path.cpp:32-95", "src/path.cpp:250-338", "src/path.cpp:347-361", "include/solace/path.hpp:433-550", "include/solace/vector.hpp:210-284", "include/solace/details/array_utils.hpp:102-122"]}
{"id": "C124", "title": "Exceptions of payloads leave the calls of Optional and Result", "statement": "An exception thrown by the constructor of a payload leaves the call of Optional, Result or exchange that made the payload, unless that constructor itself is declared noexcept; no exception is hidden, and a program that catches them goes on with every payload destroyed exactly once.", "quantifier": "For every type of payload (copy and move declared noexcept or not), every call that makes a payload and every constructor it may use, every program over any number of optionals and results, and every choice of the constructors that throw.", "why_tests_cant": "The noexcept specifications are conditions on one trait while the body may run another constructor; a test fixes the type, the call and the moment of the exception, and an ended program shows no state.", "anchors": ["include/solace/optional.hpp:110-190", "include/solace/optional.hpp:298-313", "include/solace/result.hpp:45-51", "include/solace/result.hpp:225-331", "include/solace/result.hpp:650-714", "include/solace/utils.hpp:84-92"]}
{"id": "C125", "title": "Programs with arrays and vectors are programs with lists", "statement": "A program with any number of Array and Vector variables - made, copied, moved, swapped, assigned nullptr, converted, changed, searched and compared in any order - shows what the same program shows when each variable is a list with a capacity; moving and swapping lose nothing and make nothing twice.", "quantifier": "For every program, every element type (size, equality, copied as bytes or not, with or without a destructor) and every choice of allocations that fail.", "why_tests_cant": "Aliasing of source and target, states left behind by moves and the order of operations on several variables combine without bound; tests look at one variable after a few calls.", "anchors": ["include/solace/vector.hpp:50-300", "include/solace/array.hpp:46-345", "include/solace/arrayView.hpp:102-217", "include/solace/arrayView.hpp:254-268", "include/solace/memoryResource.hpp:65-96"]}
{"id": "C126", "title": "Chains of results of different types", "statement": "Whatever types the handlers of a chain of then, orElse and mapError return, exactly one function of the class is chosen for each call, the type of the chain is the one its handlers say (results flattened, Ok and Err completed, plain answers wrapped), and a value or error that passes a stage is the same number afterwards: a conversion that could change it does not compile. Each combinator takes handlers returning nothing, a value, an Ok, an Err or a Result, on named, temporary and constant objects.", "quantifier": "every chain, every integer type of any width and every class type, every handler, every value category", "why_tests_cant": "Tests instantiate a handful of types; overloads that are never instantiated are never compiled, and narrowing shows only for values outside the smaller type", "anchors": ["include/solace/result.hpp:110-183", "include/solace/result.hpp:246-310", "include/solace/result.hpp:406-543", "include/solace/result.hpp:600-682", "include/solace/result.hpp:745-910", "include/solace/utils.hpp:124-127"]}
{"id": "C127", "title": "Strings made from literals keep their characters", "statement": "makeString of a StringLiteral, makeError with a tag and the constructors of Version keep a pointer to the characters instead of a copy. In every program with character arrays, views, literals, assignments and swaps, what they show stays defined and the same for the rest of the program, because a variable of type StringLiteral always refers to a literal of the source.", "quantifier": "every program over any number of arrays (literal, static, automatic), views, literals and strings, and every continuation", "why_tests_cant": "A dangling pointer mostly still shows the old characters; a test would have to know which array goes out of scope when", "anchors": ["include/solace/stringView.hpp:91-98", "include/solace/stringView.hpp:447-474", "src/string.cpp:46-49", "include/solace/posixErrorDomain.hpp:195-227", "include/solace/version.hpp:94-129"]}
{"id": "C128", "title": "Programs with hash objects compute the digests of the messages", "statement": "In every program that makes objects of the hashing classes, copies and assigns them, feeds them and takes digests, in any order, each digest is the published digest of all the bytes given to that object (or to what it was copied from before the copy), and a variable always reports the name of its class.", "quantifier": "all sequences of constructions, copies, assignments (through the class and through the base class), updates and digests on any number of objects of all six classes; all machines", "why_tests_cant": "Tests feed one object from beginning to end; interleavings with copies, reuse after a digest and assignment through HashingAlgorithm& are unbounded in number and the object keeps hidden state (buffer, counters) between calls.", "anchors": ["include/solace/hashing/digestAlgorithm.hpp:33-75", "include/solace/hashing/md5.hpp:40-84", "include/solace/hashing/sha1.hpp:36-83", "include/solace/hashing/sha2.hpp:36-83", "include/solace/hashing/sha3.hpp:36-83", "include/solace/hashing/murmur3.hpp:35-127", "src/hashing/md5.cpp:183-260", "src/hashing/murmur3.cpp:320-378"]}
{"id": "C129", "title": "Functions of the caller that throw", "statement": "A function that the caller gives to forEach, split, set, fill, indexOf, equals, a filtered range, Optional or Result is called on the right arguments in order, once each, until the end or the first call that throws; the exception reaches the caller, and elements not reached are unchanged.", "quantifier": "all functions of the caller, with any state, effect and exceptions; all arrays, strings and delimiters", "why_tests_cant": "tests give functions that return; when a call in the middle throws is a choice over all positions and states", "anchors": ["include/solace/arrayView.hpp:102-123,211-217,254-268,286-355", "include/solace/stringView.hpp:303-396", "include/solace/range_view.hpp:41-50", "include/solace/optional.hpp:236-289", "include/solace/result.hpp:414-543"]}
{"id": "C130", "title": "Error domains that end", "statement": "However domain objects are made, registered, moved and ended, findErrorDomain and Error::toString are defined and lead to a living domain, the one first registered for the id. (It fails when a registered domain ends or is moved: the registry keeps the address and nothing can take it out.)", "quantifier": "all programs of making, ending, moving and registering domains, all ids and errors", "why_tests_cant": "the domains in the tests are static objects that live until the end of the program; a dangling pointer often still reads as if the object were there", "anchors": ["src/errorDomain.cpp:29-65", "include/solace/errorDomain.hpp:35-72", "src/error.cpp:27-43"]}
{"id": "C131", "title": "Strings, versions and builders lose no memory, whenever it runs out", "statement": "In every program that makes, joins, replaces, parses, prints, builds, moves, assigns, swaps and destroys strings, versions and string builders, whichever requests the memory manager refuses, the blocks given out are at any time exactly those of the variables alive, each once; nothing is given back twice; a refused request leaves all variables as they were (printing a version then gives an empty string). Statements undefined for another reason (a replacement whose length overflows int, a version read past the end of its memory) are named and are the only undefined ones.", "quantifier": "all programs over any number of variables, all texts, all memory managers that may refuse any request", "why_tests_cant": "tests run with memory that is never refused and look at values, not at what was given back; the point where memory runs out is a choice over all requests of all programs", "anchors": ["src/string.cpp:29-116", "include/solace/string.hpp:55-110,552-582,743-782", "src/version.cpp:69-182", "src/stringBuilder.cpp", "include/solace/stringBuilder.hpp:60-143", "include/solace/version.hpp:56-158"]}
{"id": "C132", "title": "Containers of strings and of containers lose no memory", "statement": "In every program with vectors, arrays and dictionaries whose elements are strings or again containers - made, filled, emptied, converted, moved, assigned, swapped, assigned nullptr and destroyed in any order, whichever requests for memory are refused - the blocks given out are exactly those of the variables and of everything in them, each once, and a call that fails changes no variable. (It fails for nullptr assigned to an array whose elements own memory, and Dictionary::put takes its arguments away also when it fails.)", "quantifier": "all programs, any depth of nesting, any number of variables, all memory managers that may refuse any request", "why_tests_cant": "tests use containers of numbers or of one level; which element owns which block at which time is a choice over all programs and all refusals, and a lost or doubled block shows nowhere in the values", "anchors": ["include/solace/vector.hpp:67-112,210-284,374-397,520-543", "include/solace/array.hpp:64-105,288-300,353-380,466-484", "include/solace/dictionary.hpp:127-190,213-267", "include/solace/memoryResource.hpp:57-100"]}
{"id": "C133", "title": "Views of strings and references to elements stay valid while their owners are moved", "statement": "A view of a string's characters, and a reference to an element of a container, stay valid - same memory, same content - when the string or the container is moved into another object, into a container at any depth, out of one, swapped, or when a vector becomes an array or part of a dictionary; only the destruction of the owner (a destructor, pop_back, clear, nullptr) makes them invalid, and adding elements never does. (A put that fails destroys the key passed to it, and with it the views of the key.)", "quantifier": "all programs, any depth of nesting, any number of variables, all memory managers that may refuse any request", "why_tests_cant": "a dangling view usually still reads the old bytes, so tests pass; which statement between taking a view and using it may invalidate it is a choice over all programs", "anchors": ["include/solace/string.hpp:50-104", "include/solace/vector.hpp:67-112,210-284", "include/solace/array.hpp:64-105", "include/solace/dictionary.hpp:127-190", "include/solace/memoryResource.hpp:57-100"]}
{"id": "C134", "title": "Comparing nested values is comparing their parts", "statement": "For every type built from strings, memory views, errors, UUIDs, versions, paths, digests, Unit and types of the caller by Optional, Array, Vector, ArrayView and Result, nested to any depth, a == b holds exactly when the values have equal parts place by place, whichever of the parts happen to be the same object or to begin at the same address; a != b holds exactly when they have not; == is an equivalence when that of the caller's types is; comparing an optional with a value or none, a vector with a view on either side, an array or digest with a list, a result with Ok, Err or a value gives the same answers; and indexOf/contains find the first equal element.", "quantifier": "all types of the grammar, all values, all answers to the questions for identity", "why_tests_cant": "Types and values are unbounded; tests compare a few flat containers.", "anchors": ["include/solace/optional.hpp:335-384", "include/solace/arrayView.hpp:102-141", "include/solace/array.hpp:108-130", "include/solace/array.hpp:318-326", "include/solace/vector.hpp:114-117", "include/solace/vector.hpp:307-335", "include/solace/result.hpp:917-973", "include/solace/string.hpp:362-421", "include/solace/memoryView.hpp:287-295", "include/solace/hashing/messageDigest.hpp:133-146"]}
{"id": "C135", "title": "Iterator variables are positions", "statement": "For each of the seven classes of iterators (hexadecimal encoding and decoding, VariableSpan, Dictionary, Env, Path, RangeView) and for one container that is not changed: any program that declares, copies, moves, assigns, advances, compares and dereferences any number of iterator variables sees what it would see if each variable held a position in the sequence of the items. Copies are independent; assignment, also by exchange, gives the target the position of the source; equality holds exactly for equal positions, although most classes compare one member only; a loop and a loop from an earlier copy see the same items in order.", "quantifier": "for every container, every number of variables and every program of any length that advances and dereferences only positions before the end and does not use a variable it moved from", "why_tests_cant": "Tests iterate once from begin to end. A comparison that looks at too little, an end iterator with other members than an iterator that has arrived at the end, or an assignment that loses a member shows up only in programs with several variables.", "anchors": ["include/solace/base16.hpp:53-154", "src/base16.cpp:163-229", "include/solace/variableSpan.hpp:91-186", "include/solace/dictionary.hpp:77-119", "include/solace/env.hpp:52-97", "include/solace/path.hpp:62-106", "src/path.cpp:98-109", "include/solace/range_view.hpp:36-58"]}
{"id": "C136", "title": "Results do not show what memory held before", "statement": "The result of every function that makes a string, a path, a version, a UUID, an error text or a digest is the same whatever the memory handed out by the memory manager, the local arrays and the uninitialised members contained before the call.", "quantifier": "every argument; every pair of memory managers that give the same answers with memory of different content; every previous content of local arrays", "why_tests_cant": "Tests run with whatever memory they get, usually zero pages; a leak of old bytes shows up as a different result only if two runs with the same arguments and different memory are compared.", "anchors": ["src/string.cpp:29-216", "include/solace/string.hpp:552-782", "src/path.cpp:58-361", "include/solace/path.hpp:450-550", "src/version.cpp:69-182", "src/uuid.cpp:92-156", "src/error.cpp:27-43", "src/systemErrorDomain.cpp:43-49", "src/stringBuilder.cpp:85-181"]}
{"id": "C137", "title": "Chains of codecs are undone in reverse order", "statement": "Encoding bytes with any sequence of the Base16, Base64 and URL Base64 encoders, each applied to the output of the one before in a buffer of the size it announces, succeeds; decoding with the corresponding decoders in reverse order gives back the bytes.", "quantifier": "every sequence of codecs of any length, every byte string (sizes below 2^62), every content of the memory behind the texts", "why_tests_cant": "Whether a chain is undone depends on the lengths of all intermediate texts and on the memory behind them; tests try single codecs on a few texts that are C strings.", "anchors": ["src/base16.cpp:94-160", "src/base64.cpp:34-222", "include/solace/base64.hpp:30-130", "include/solace/base16.hpp:28-110"]}
{"id": "C138", "title": "Digest objects own their bytes, whenever memory runs out", "statement": "In any program that feeds hash objects, takes digests, makes digests from bytes, moves, assigns, compares, indexes and destroys them, with any requests for memory refused: every digest alive holds the published digest of the message it was computed from (or the bytes it was made of) wherever it was moved, two digests compare equal exactly if their bytes are equal, no block of memory is lost or given back twice, and a digest that failed for want of memory can be asked for again.", "quantifier": "for all programs of any length, all messages, all machines, and all sequences of granted and refused requests", "why_tests_cant": "Tests take one digest of one message with memory always at hand; refusals at each possible request in each possible program can not be enumerated, and a lost block or a changed hash state is not seen by comparing one digest.", "anchors": ["include/solace/hashing/messageDigest.hpp:37-147", "src/hashing/messageDigest.cpp:32-34", "src/hashing/md5.cpp:212-236", "src/hashing/sha1.cpp:249-272", "src/hashing/sha2.cpp:221-244", "src/hashing/sha3.cpp:61-70", "src/hashing/murmur3.cpp:338-378", "include/solace/array.hpp:72-130"]}
{"id": "C139", "title": "forEach accepts the callbacks that can be given the elements", "statement": "For every element type and every callback with one call operator, forEach of Array, ArrayView, String, Path and Env compiles exactly when the callback's parameters can be given the element (const or not as the container is; with its index; the name and value), gives it the elements themselves, and otherwise the call is rejected by overload resolution rather than failing inside the library. isCallable agrees with std::is_invocable.", "quantifier": "all element types (scalar, or class with or without copy and move), all parameter lists, results, qualifiers of the operator, callbacks given as lvalues or rvalues, const and non-const containers", "why_tests_cant": "Whether a call compiles is not visible to run time tests: a test that does not compile is not in the suite, and each test fixes one callback and one element type.", "anchors": ["include/solace/traits/callable.hpp:32-48", "include/solace/array.hpp:240-284", "include/solace/arrayView.hpp:304-356", "include/solace/string.hpp:338-348", "include/solace/path.hpp:333-351", "include/solace/env.hpp:166-194"]}
{"id": "C140", "title": "Strings and paths ask for the memory of their results and no more", "statement": "Each function that makes a string, a version or a path asks the memory manager for exactly the blocks of what it returns, in a fixed order and of exactly these sizes: one block for the characters of a string, for a path one block for the array and one for the characters of each component that is not taken over from an rvalue. Moving, swapping, appending to a builder and destroying ask for nothing. When requests are refused there are not more of them.", "quantifier": "all texts, delimiters, versions, paths and argument lists; all memory managers, refusing or not; all heaps", "why_tests_cant": "A test sees that the result is right. It does not see temporary copies, arrays with more room than needed, requests made after a refusal, nor sizes that wrap around only for large inputs; the sizes are a function of the whole input and must hold for every one.", "anchors": ["src/string.cpp:29-216", "include/solace/string.hpp:552-582", "include/solace/string.hpp:743-782", "src/version.cpp:69-182", "src/path.cpp:42-95", "src/path.cpp:250-361", "include/solace/path.hpp:433-550", "include/solace/vector.hpp:374-397"]}
{"id": "C141", "title": "Results are the same on every machine", "statement": "What the library computes from given arguments does not depend on the machine it is compiled for: neither on whether char is signed nor on the order of bytes in an integer. This covers comparing, hashing, replacing, trimming and splitting of texts, atoms, dial strings, paths, UUIDs, records, the search in a builder and all digests.", "quantifier": "all machines (signed or unsigned char, both byte orders), all texts, paths, messages, records, reader and writer states", "why_tests_cant": "The tests are run on one machine; a text hashed, an atom sent or a UUID made there and compared on another is never seen by them, and the bytes that matter (128 and above) are in none of their texts.", "anchors": ["src/stringView.cpp:55-68", "src/stringView.cpp:188-202", "src/stringView.cpp:221-232", "src/string.cpp:52-74", "src/path.cpp:135-151", "include/solace/atom.hpp:47-73", "src/dialstring.cpp:22-48", "src/char.cpp:117-119", "src/uuid.cpp:172-183", "include/solace/byteWriter.hpp:215-223"]}
{"id": "C142", "title": "Optionals are made and assigned with the content of their argument", "statement": "An Optional made or assigned from a value, or from another Optional whose content can be converted, has exactly that content: empty if and only if the argument is, at every depth of nesting, whether the argument is const or not, has a name or is temporary. An argument that may not be moved from keeps its content. What compiles is decided by the payload types alone.", "quantifier": "all payload types with their conversions, all depths of nesting of both sides, const or not, lvalues, xvalues and prvalues, all contents", "why_tests_cant": "Overload resolution is decided for each combination of types at compile time: a test sees only the combinations it is written for, and combinations that do not compile or take an unexpected constructor are not seen at all.", "anchors": ["include/solace/optional.hpp:110-146", "include/solace/optional.hpp:172-194", "include/solace/optional.hpp:298-305", "include/solace/utils.hpp:124-127"]}
{"id": "C143", "title": "An optional of a reference stands for the object it was made from", "statement": "An Optional<X&> refers to the object it was made from until it is assigned or emptied: reading it reads the object, writing through it writes the object and nothing else, and a program does the same with the object in its place. It can be made from every object with a name and from no temporary, it does not drop const, and it never refers to something that is gone while objects and optionals live.", "quantifier": "all programs with objects, optionals of objects and optionals of references; all kinds of arguments", "why_tests_cant": "The only test makes one optional of a reference and reads it once. Aliasing, rebinding and dangling depend on the order of statements; what compiles is not tested at all.", "anchors": ["include/solace/optional.hpp:110-146", "include/solace/optional.hpp:149-190", "include/solace/optional.hpp:200-234", "include/solace/optional.hpp:292-295", "src/errorDomain.cpp:56-65"]}
{"id": "C144", "title": "Which constructor a result takes", "statement": "The side of a new Result is said by its argument: Ok(x) makes a success and Err(x) a failure with the converted x, exactly if the wrapper may be moved from and any conversion exists; values and errors that may be moved from make their own side; results keep their side; tags decide; a third type goes to the side with the cheaper implicit conversion or does not compile. Variables and constants of the value type never make a success: they are refused, or taken for an error when the value type converts to the error type (and the other way round).", "quantifier": "every library of types and conversions, every pair of types, every expression (const, value category), direct and copy initialisation, assignment", "why_tests_cant": "A test instantiates the result with a handful of types; the property ranges over all conversions between the types, and its exceptions are programs that are silently given another meaning", "anchors": ["include/solace/result.hpp:30-89", "include/solace/result.hpp:203-304", "include/solace/result.hpp:607-716", "include/solace/utils.hpp:110-127"]}
{"id": "C145", "title": "Named results and optionals can be used again", "statement": "The calls on a result or optional that has a name leave it as it was, so that the same call gives the same answer again; what a call answers does not depend on whether the object is a variable, a constant or given away, and no call changes the side of a result or empties an optional. Exactly which calls compile for which parameters and payload types is known. The first part does not hold for then with a function that answers a value or nothing, for orElse and for flatMap: they leave a moved-from content in the variable.", "quantifier": "every payload type (copyable or not, any moved-from value), every handler (four kinds of parameters, any answer), every state, every sequence of calls", "why_tests_cant": "Tests call a combinator once on a temporary; what is left in a variable afterwards is seen only by a second call, for the right combination of overload and parameter", "anchors": ["include/solace/result.hpp:345-543", "include/solace/optional.hpp:203-289"]}
{"id": "C146", "title": "Numbers keep their value in every call that takes them", "statement": "A number of any arithmetic type given to write, writeLE, writeBE, append or Char is stored or printed with its value or the call does not compile; records of numbers are read back on every target whose types have the same sizes; the number of bytes written is the size of the type.", "quantifier": "for every arithmetic type, every value of it, every target (names of the fixed-width types, size of long, signedness of char and wchar_t, byte order), every list of numbers and every buffer with room", "why_tests_cant": "Overload resolution depends on the target: a test compiles on one of them, for the types it happens to use.", "anchors": ["include/solace/byteWriter.hpp:215-254", "include/solace/byteReader.hpp:216-252", "include/solace/stringBuilder.hpp:39-47", "include/solace/stringBuilder.hpp:89-93", "include/solace/char.hpp:51-62"]}
{"id": "C147", "title": "Loops over containers that their bodies change", "statement": "A range for or forEach over a vector, an array or a dictionary runs its body once for each element that the container had when the loop began, in order, whatever the body does to that container or others - add elements, move it, swap it, turn it into an array, loop over it or its elements again - as long as it destroys none of these elements and puts none in their places; with others put in their places it still visits every place once. A body that removes elements of the container, or destroys it, makes the loop read destroyed objects exactly if there were two elements or more.", "quantifier": "all programs with loops nested to any depth, bodies that depend on the element and on the whole state, all containers of strings and containers at any depth, all memory managers that may refuse any request", "why_tests_cant": "Tests run a few loops with bodies that leave the container alone, and an object that was destroyed often still looks alive; that no nesting of loops, moves, swaps and additions ever makes an iterator refer to a destroyed object needs an argument over all programs.", "anchors": ["include/solace/vector.hpp:151-173", "include/solace/vector.hpp:210-264", "include/solace/array.hpp:168-186", "include/solace/array.hpp:246-284", "include/solace/arrayView.hpp:180-194", "include/solace/arrayView.hpp:302-326", "include/solace/dictionary.hpp:76-123", "include/solace/dictionary.hpp:206-210"]}
{"id": "C148", "title": "String functions look only at the characters they need", "statement": "The functions of StringView that compare, search, trim, split and hash look only at characters of their two texts, in a known order and a known number of times: comparing stops at the first difference, indexOf(char) at the character found, trim looks at no character twice and at none strictly inside what it leaves, a search for a text takes at most twice (size + 1) accesses for every position, and the answer depends on no character that was not looked at.", "quantifier": "All texts of fewer than 2^16 characters, all characters, all start positions; all memory behind the texts.", "why_tests_cant": "A test sees the answer, not which characters were read; a read too many, a quadratic scan, or a dependence on bytes outside the text does not change the answers of the texts tested.", "anchors": ["src/stringView.cpp:38-52", "src/stringView.cpp:85-162", "src/stringView.cpp:164-232", "include/solace/stringView.hpp:303-342", "include/solace/stringView.hpp:379-396"]}
{"id": "C149", "title": "A result of a reference stands for the object it was made from", "statement": "A Result<X&, E>, as emplace_back and put return it, refers to the object it was made from and not to a copy: reading it shows the value last given to the object by name, by index or through any result; it keeps referring to the same place through moves of the vector, through then, mapError and orElse, and through moves of the result; it may be used exactly until the object ends, and the object ends exactly with its scope, with the removal of the element, or with the vector that has the memory then.", "quantifier": "every program of statements over objects, vectors, dictionaries and results; every value, capacity and number of results", "why_tests_cant": "A dangling reference reads whatever the memory holds then, most often the old value, so a test that reads too late passes; and the histories of moves and removals between making a result and reading it are not enumerable.", "anchors": ["include/solace/result.hpp:589", "include/solace/vector.hpp:210", "include/solace/dictionary.hpp:145"]}
{"id": "C150", "title": "The comments of the headers", "statement": "The functions do what the comments in the headers say: substring(from, len) has the given length, hashCode is the polynomial in int arithmetic, compareTo is lexicographic, length is the number of code points, size of a view of a C string is its length, operator[] throws out of range, capacity and empty of containers and paths are as described, getParent of the root is null, getBasename is the last element, getDigestLength is in bytes.", "quantifier": "for all strings, views, vectors, paths, messages and memory managers", "why_tests_cant": "The tests were written to what the code does and use the arguments for which code and comment agree (substring from the beginning, short hashes, strings of one length); a comment is a statement about all arguments.", "anchors": ["include/solace/string.hpp:125-134", "include/solace/string.hpp:208-218", "include/solace/string.hpp:284-292", "include/solace/stringView.hpp:76-84", "include/solace/stringView.hpp:225-245", "include/solace/stringView.hpp:268-278", "include/solace/vector.hpp:39-47", "include/solace/array.hpp:132-138", "include/solace/path.hpp:162-170", "include/solace/path.hpp:290-302", "include/solace/hashing/digestAlgorithm.hpp:48-52"]}
{"id": "C151", "title": "Loops by index over containers that their bodies change", "statement": "For every loop for (k = 0; k < v.size(); ++k) over a vector, of any contents, whose body - any statements, chosen by the state - adds, removes or exchanges elements of that same vector or has nothing to do with it: the loop ends after at most capacity() rounds, and a body of statements that are defined everywhere never meets anything undefined, with every block owned once in the end. Over an array the loop has exactly one round for each element. If the body only adds, the rounds are given exactly the elements the vector has in the end, the old ones first. Removing the last element in each round visits the first half of the elements and leaves the half without the one in the middle; adding one in each round fills the vector to its capacity and stops, unless it was empty. while (!v.empty()) v.pop_back() destroys the same objects in the same order as clear().", "quantifier": "for all states of memory and variables, all vectors and arrays, all bodies, all behaviours of the memory manager", "why_tests_cant": "A test runs one body on one container; that the loop ends for every body is a statement about all of them, and a body that removes elements is fatal in a range for (C147)", "anchors": ["include/solace/vector.hpp:124-236", "include/solace/array.hpp:140-160", "include/solace/arrayView.hpp:160-180"]}
{"id": "C152", "title": "Elements whose destructors throw", "statement": "In every program over vectors, arrays and optionals of a type whose destructors may throw, which catches every exception that leaves a call: each destructor call is for an object that is alive, and as long as std::terminate is not called the variables own exactly the objects that are alive. pop_back removes the last element even if its destructor throws; clear stops at the last element whose destructor throws and may be called again until it returns, destroying each element once; an optional is empty after its payload's destructor has thrown. The end of a vector or array with such an element ends the program; the guards of partly constructed arrays never let an exception of a destructor out.", "quantifier": "for all programs of these statements, all sets of objects whose destructors and positions whose constructors throw, destructors declared noexcept or not", "why_tests_cant": "No test has an element type with a throwing destructor; which of the elements throws, and how often clear is called again, are unbounded", "anchors": ["include/solace/vector.hpp:67", "include/solace/vector.hpp:109-112", "include/solace/vector.hpp:239-284", "include/solace/array.hpp:64", "include/solace/array.hpp:97-101", "include/solace/array.hpp:288-293", "include/solace/arrayView.hpp:223-231", "include/solace/arrayView.hpp:366-404", "include/solace/optional.hpp:93-95", "include/solace/optional.hpp:149-190", "include/solace/optional.hpp:307-313", "include/solace/details/array_utils.hpp:31-63"]}
{"id": "C153", "title": "Threads that use different objects of the library do not disturb one another", "statement": "In every execution of any number of threads, each of which uses only library objects of its own (strings, views, memory resources) and the process-wide state that these calls reach (the system memory manager and the registry of error domains), there is no data race, every call tells its thread what some order of the calls one at a time would tell, and the memory manager counts exactly the bytes taken and not given back. As written this fails: no access is atomic or locked, so two threads that take or give back memory always race, and an interleaving exists that loses one of the two allocations from the count. It holds when all shared calls are made under one mutex, or when no call of one thread changes what a call of another uses.", "quantifier": "all programs of all threads, all interleavings of their accesses, all states of the shared objects", "why_tests_cant": "A test runs one interleaving out of very many, on a machine whose accesses happen to be atomic; races show up once in a long time and nowhere near their cause", "anchors": ["src/memoryManager.cpp:83-138", "include/solace/memoryManager.hpp:82-98", "include/solace/memoryManager.hpp:171-177", "src/errorDomain.cpp:29-65", "include/solace/dictionary.hpp:145-190", "include/solace/vector.hpp:210-253"]}
{"id": "C154", "title": "Encoding and decoding within one buffer", "statement": "When the bytes given to a Base16 or Base64 encoder or decoder lie in the buffer that it writes to, the result is that of bytes that lie elsewhere. As written this holds exactly when no place is written before it has been read: the output starts behind the input, or far enough before it (encoders), or not after it (decoders); otherwise there are bytes for which what is written is encoded or decoded again.", "quantifier": "all buffers, positions and limits of the writer, all places and sizes of the input within the buffer, all alphabets and tables", "why_tests_cant": "Tests give encoders an input and an output of their own; which offsets are safe depends on the positions in a way that no example shows", "anchors": ["src/base16.cpp:107-160", "src/base64.cpp:34-166", "src/byteWriter.cpp:66-81"]}
{"id": "C155", "title": "A writer and a reader over the same memory are a queue", "statement": "When a ByteWriter and a ByteReader are made over the same memory and the caller, in any order, writes, sets the writer's limit, sets the reader's limit to the writer's position, reads, takes single bytes, skips bytes, and makes room by writing the reader's remaining view to the front of the cleared writer, then every call gets the reply of a first-in first-out queue of bytes: the bytes read are the bytes written, in order, nothing lost, added or exchanged, also when writes fail or when the bytes are moved onto themselves; a read succeeds exactly when that many bytes have been shown to the reader; a write succeeds exactly when it fits in the memory behind the position and, unless the limit lies before the position, in the limit; right after room has been made it succeeds exactly when it fits beside the bytes not yet read. A text of any length passes through memory of one byte. No call is undefined.", "quantifier": "all memories, all programs of such calls, all bytes", "why_tests_cant": "Tests use the writer and the reader each over a buffer of its own; that they can share one, with failed writes that leave bytes behind the position and with overlapping moves, for any interleaving, is a statement about all programs.", "anchors": ["src/byteWriter.cpp:30-81", "src/byteReader.cpp:29-99", "include/solace/byteWriter.hpp:180-212", "include/solace/byteReader.hpp:91-122", "include/solace/byteReader.hpp:220-222"]}
{"id": "C156", "title": "Values of the library as keys of ordered containers and in sorted arrays", "statement": "UUIDs, versions, characters and strings can be keys of the ordered containers of the standard library: a set into which any sequence of keys was put holds each of them once, in order, finds exactly the keys that were put in and refuses exactly those; a binary search in a sorted array finds exactly the elements of the array; no lookup or insertion ends the program.", "quantifier": "every sequence of keys, every shape of the tree that the insertions can lead to, every key looked up, every sorted array", "why_tests_cant": "A test puts a handful of well behaved keys into a set; whether the comparison is a strict weak order on all values, and what a tree of any shape does when it is not, is a statement about all sequences of insertions.", "anchors": ["src/uuid.cpp:87-89", "include/solace/version.hpp:135-137", "src/version.cpp:51-66", "include/solace/char.hpp:103-105", "include/solace/stringView.hpp:541-543", "include/solace/string.hpp:357-359", "src/stringView.cpp:55-68"]}
{"id": "C157", "title": "Sorting arrays of values of the library", "statement": "std::sort of an array of UUIDs, characters, versions or strings of the library gives the same elements in order, and stays within the array.", "quantifier": "every array of such values, of every length", "why_tests_cant": "The unguarded loops of std::sort rely on the comparison being a strict weak order; a test with a few elements takes only the insertion sort, which does not.", "anchors": ["src/uuid.cpp:87-89", "include/solace/version.hpp:135-137", "src/version.cpp:51-66", "include/solace/char.hpp:103-105", "include/solace/stringView.hpp:541-543", "include/solace/string.hpp:357-359", "src/stringView.cpp:55-68"]}
{"id": "C158", "title": "References returned by filter and orElse of an optional", "statement": "The result of Optional::filter is empty or holds an element that the predicate accepted, and the result of Optional::orElse is the element or the other value, for as long as the result is used.", "quantifier": "every program of makings, assignments, moves, swaps and ends of optionals and values between the call and the reading, every predicate", "why_tests_cant": "Both return references: a test that reads the result at once, or on an optional where the reference is to the shared empty instance, sees nothing of what a later assignment or the end of a temporary does.", "anchors": ["include/solace/optional.hpp:228-234", "include/solace/optional.hpp:284-289", "include/solace/optional.hpp:317", "include/solace/optional.hpp:334", "include/solace/optional.hpp:149-190"]}
{"id": "C159", "title": "Strings as keys of hash tables", "statement": "A hash table of strings with hashCode and operator== holds each string once and finds exactly those that were put in and not erased.", "quantifier": "every program of insertions, erasures and changes of the number of buckets, all strings", "why_tests_cant": "Bucket indices depend on all the bytes and on the number of buckets; tests take a few plain strings in a small table.", "anchors": ["src/stringView.cpp:38-52", "src/stringView.cpp:221-232", "include/solace/stringView.hpp:564-575", "include/solace/string.hpp:293", "src/string.cpp:171-174"]}
