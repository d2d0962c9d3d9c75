{"id": "C01", "title": "base64 round trip", "statement": "Encoding any byte array with coda_base64_encode into a buffer of at least CODA_BASE64_LENGTH(inlen) bytes and decoding those characters with coda_base64_decode (output buffer at least inlen bytes) returns true, sets *outlen to inlen and yields exactly the original bytes.", "quantifier": "all byte arrays of every length, all sufficiently large output buffers", "why_tests_cant": "There are infinitely many byte arrays; tests sample a few lengths and values per residue class mod 3.", "anchors": ["coda/base64.c:coda_base64_encode", "coda/base64.c:coda_base64_decode"]}
{"id": "C02", "title": "base64 encoder implements RFC 4648", "statement": "The characters coda_base64_encode produces for an input are the RFC 4648 base64 text of that input: every 3 bytes read as a 24-bit big-endian number become its four base-64 digits in the A-Za-z0-9+/ alphabet, and a final 1- or 2-byte group is completed with zero bits and '==' or '='.", "quantifier": "all byte arrays", "why_tests_cant": "Every input must agree with the standard; a table typo or a wrong shift shows only on particular bytes.", "anchors": ["coda/base64.c:coda_base64_encode"]}
{"id": "C03", "title": "base64 encoder respects the output buffer", "statement": "coda_base64_encode given an output buffer of outlen bytes reads only in[0..inlen), writes exactly the first min(outlen, CODA_BASE64_LENGTH(inlen)) characters of the full encoding, adds one terminating NUL iff outlen is strictly larger than the encoded length, and leaves every other byte of the buffer unchanged.", "quantifier": "all inputs, all outlen values, all previous buffer contents", "why_tests_cant": "Off-by-one writes depend on the relation of outlen to the encoded length for every pair of lengths.", "anchors": ["coda/base64.c:coda_base64_encode"]}
{"id": "C04", "title": "base64 encode_alloc length and overflow rule", "statement": "coda_base64_encode_alloc returns the encoded length and a NUL terminated encoding whenever CODA_BASE64_LENGTH(inlen)+1 fits in size_t, returns 0 with *out NULL exactly when it does not fit, and returns CODA_BASE64_LENGTH(inlen)+1 with *out NULL when malloc fails.", "quantifier": "all 64-bit inlen values, both malloc outcomes", "why_tests_cant": "The overflow region starts near 2^64 bytes of input; no test can allocate such a buffer.", "anchors": ["coda/base64.c:coda_base64_encode_alloc", "coda/base64.h:CODA_BASE64_LENGTH"]}
{"id": "C05", "title": "base64 decoder accepts exactly the padded base64 language", "statement": "coda_base64_decode returns true iff the input length is a multiple of 4 and the input is a sequence of 4-character alphabet groups of which only the last may be 'xx==' or 'xxx='; on true the output is the byte string those groups denote (as base-64 digits of a 24-bit number).", "quantifier": "all character arrays", "why_tests_cant": "Acceptance is a statement about the whole input language, including every malformed string.", "anchors": ["coda/base64.c:coda_base64_decode", "coda/base64.c:coda_isbase64"]}
{"id": "C06", "title": "base64 decoder respects the output buffer", "statement": "coda_base64_decode never reads outside in[0..inlen), never writes outside out[0..*outlen), on return *outlen is the number of bytes written, those bytes are a prefix of what it would have written with unlimited room, and the boolean result does not depend on the room available.", "quantifier": "all inputs (valid or not), all output capacities", "why_tests_cant": "Memory safety and prefix behaviour must hold for every combination of malformed input and buffer size.", "anchors": ["coda/base64.c:coda_base64_decode"]}
{"id": "C07", "title": "base64 decode_alloc never truncates", "statement": "When malloc succeeds, coda_base64_decode_alloc returns true iff the input is valid base64; then *out/*outlen hold the complete decoded data, never a truncated prefix; when it returns false *out is NULL and the temporary buffer has been freed.", "quantifier": "all inputs, both malloc outcomes", "why_tests_cant": "The buffer size estimate 3*(inlen/4)+2 must suffice for every length.", "anchors": ["coda/base64.c:coda_base64_decode_alloc"]}
{"id": "C08", "title": "base64 encoding is injective and canonical texts re-encode to themselves", "statement": "Different byte arrays have different base64 encodings, and re-encoding the result of decoding a valid text gives back that text exactly when its unused trailing bits are zero (canonical text).", "quantifier": "all pairs of byte arrays, all valid texts", "why_tests_cant": "Injectivity quantifies over pairs of inputs.", "anchors": ["coda/base64.c:coda_base64_encode", "coda/base64.c:coda_base64_decode"]}
{"id": "C09", "title": "web64 round trip and URL-safe alphabet", "statement": "web64_encode followed by web64_decode returns true and the original bytes; every character web64_encode emits is in A-Za-z0-9-_. (safe in a URL without escaping).", "quantifier": "all byte arrays", "why_tests_cant": "Infinitely many inputs.", "anchors": ["coda/web64.c:web64_encode", "coda/web64.c:web64_decode"]}
{"id": "C10", "title": "web64 encoder and decoder respect buffers and their language", "statement": "web64_encode and web64_decode obey the same buffer rules as the base64 pair (exact prefix, NUL only when there is room, nothing else touched, no read outside the input) and web64_decode accepts exactly the '.'-padded language over A-Za-z0-9-_.", "quantifier": "all inputs, all capacities", "why_tests_cant": "As for base64: every malformed text and every capacity.", "anchors": ["coda/web64.c:web64_encode", "coda/web64.c:web64_decode"]}
{"id": "C11", "title": "base58 encoder computes the base-58 numeral and stays inside its scratch buffer", "statement": "coda_base58_encode writes one '1' per leading zero byte followed by the base-58 digits (no leading zero digit) of the remaining bytes read as a big-endian number, and no access to its scratch buffer is ever out of bounds, for every input whose scratch length fits in int.", "quantifier": "all byte arrays with inlen*138/100+1 < 2^31", "why_tests_cant": "The size estimate 138/100 must dominate log 256/log 58 at every length; the carry loop would write before the buffer otherwise.", "anchors": ["coda/base58.c:coda_base58_encode"]}
{"id": "C12", "title": "base58 decode inverts encode", "statement": "coda_base58_decode applied to the output of coda_base58_encode returns the original length and the original bytes.", "quantifier": "all byte arrays (lengths for which the scratch buffers fit in int)", "why_tests_cant": "Infinitely many inputs; carries couple all bytes.", "anchors": ["coda/base58.c:coda_base58_encode", "coda/base58.c:coda_base58_decode"]}
{"id": "C13", "title": "base58 encode inverts decode (base58 is a bijection)", "statement": "Every string over the base58 alphabet decodes successfully, and re-encoding the decoded bytes yields exactly that string; hence distinct valid strings decode to distinct byte arrays.", "quantifier": "all strings over the base58 alphabet", "why_tests_cant": "Quantifies over all valid texts; requires that the 733/1000 estimate never overflows.", "anchors": ["coda/base58.c:coda_base58_decode"]}
{"id": "C14", "title": "base58 decode rejects invalid text with a negative offset", "statement": "If the text contains a character outside the base58 alphabet, coda_base58_decode returns a negative number whose absolute value is the number of characters before the first invalid one, and a non-negative return value means the whole text was valid.", "quantifier": "all character arrays", "why_tests_cant": "Position of the first bad character is arbitrary.", "anchors": ["coda/base58.c:coda_base58_decode", "coda/base58.c:coda_isbase58"]}
{"id": "C15", "title": "base58 buffer sizing", "statement": "The buffers allocated by coda_base58_encode_alloc and coda_base58_decode_alloc are always large enough: the encoded text is complete and NUL terminated, decoding never writes past the allocation, and coda_base58_encode respects a smaller caller-supplied outlen (prefix only, NUL iff room).", "quantifier": "all inputs, all outlen", "why_tests_cant": "Needs an inequality between powers of 58 and 256 at every length.", "anchors": ["coda/base58.c:coda_base58_encode_alloc", "coda/base58.c:coda_base58_decode_alloc"]}
{"id": "C16", "title": "base58 encode_alloc returns the text length", "statement": "The value returned by coda_base58_encode_alloc is the length of the NUL terminated text it produced.", "quantifier": "all byte arrays", "why_tests_cant": "The return value is an estimate computed before encoding; whether it is exact depends on every input.", "anchors": ["coda/base58.c:coda_base58_encode_alloc"]}
{"id": "C17", "title": "URL encoding round trip", "statement": "coda_urldec(coda_urlenc(s)) = s and coda_urldec(coda_urlenc_noplus(s)) = s.", "quantifier": "all byte strings", "why_tests_cant": "Infinitely many strings; adjacency of '%' and hex digits matters.", "anchors": ["coda/url.cpp:coda_urlenc", "coda/url.cpp:coda_urlenc_noplus", "coda/url.cpp:coda_urldec"]}
{"id": "C18", "title": "URL encoding output alphabet", "statement": "coda_urlenc emits the RFC 3986 unreserved characters (letters, digits, '-', '.', '_', '~') unchanged, ' ' as '+', and every other byte as '%' followed by two upper-case hex digits of its value; coda_urlenc_noplus is the same except that ' ' becomes '%20'.", "quantifier": "all byte strings", "why_tests_cant": "The escape table is a bit mask; every byte value in every position must be right.", "anchors": ["coda/url.cpp:table_urlenc", "coda/url.cpp:coda_urlenc", "coda/url.cpp:coda_urlenc_noplus"]}
{"id": "C19", "title": "URL encoder/decoder buffer bounds", "statement": "The char* variant of coda_urlenc writes at most 3*sz+1 bytes, the char* variant of coda_urldec at most sz+1 bytes; both return the text length, NUL terminate, read only src[0..sz), and produce the same bytes as the std::string variants.", "quantifier": "all byte strings, all destination buffers of that size", "why_tests_cant": "Worst-case bound over all inputs.", "anchors": ["coda/url.cpp:coda_urlenc", "coda/url.cpp:coda_urldec"]}
{"id": "C20", "title": "URL decoding in place", "statement": "coda_urldec may be called with dst == src (buffer of sz+1 bytes): the result is the same as with disjoint buffers.", "quantifier": "all byte strings", "why_tests_cant": "Aliasing is only safe if the write position never overtakes the read position at any step.", "anchors": ["coda/url.cpp:coda_urldec"]}
{"id": "C21", "title": "URL decoding is total and local", "statement": "coda_urldec maps '+' to ' ', '%' followed by at least two more characters to one byte (non-hex digits counting as 0), every other byte to itself; in particular a truncated '%' or '%X' at the end is copied verbatim and text without '%' and '+' is unchanged.", "quantifier": "all byte strings", "why_tests_cant": "All strings, including malformed escapes at every position.", "anchors": ["coda/url.cpp:coda_urldec", "coda/url.cpp:table_urldec"]}
{"id": "C22", "title": "coda_url_escape / coda_url_unescape round trip", "statement": "For a NUL terminated string that fits, coda_url_unescape(coda_url_escape(s)) = s and neither call touches memory outside its buffers.", "quantifier": "all NUL terminated byte strings, all buffer sizes", "why_tests_cant": "Includes bytes >= 0x80, where char is signed; tests normally use ASCII.", "anchors": ["coda/url.cpp:coda_url_escape", "coda/url.cpp:coda_url_unescape"]}
{"id": "C23", "title": "coda_url_unescape stays inside the destination", "statement": "coda_url_unescape(s, dest, sz) never writes outside dest[0..sz) and leaves a NUL terminated string, for every input string.", "quantifier": "all NUL terminated byte strings, all sz", "why_tests_cant": "Worst case over all mixtures of %XX, %uXXXX, \\xXX and '+'.", "anchors": ["coda/url.cpp:coda_url_unescape"]}
{"id": "C24", "title": "coda_url_preunescape stays inside the destination", "statement": "coda_url_preunescape(s, dest, sz) never writes outside dest[0..sz).", "quantifier": "all NUL terminated byte strings, all sz", "why_tests_cant": "Overruns only appear for inputs long enough to fill the buffer.", "anchors": ["coda/url.cpp:coda_url_preunescape"]}
{"id": "C25", "title": "query string parsing", "statement": "coda_get_params_buf updates the map as if the buffer were split at every '&', each piece containing '=' assigning the text after its first '=' to the key before it, in order (later pieces win); pieces without '=' are ignored and other keys keep their old value.", "quantifier": "all byte buffers, all initial maps", "why_tests_cant": "All placements of '&' and '=' including empty pieces.", "anchors": ["coda/url.cpp:coda_get_params_buf", "coda/url.cpp:coda_get_params"]}
{"id": "C26", "title": "query string round trip", "statement": "Serialising a list of key/value pairs whose keys contain no '&' or '=' and whose values contain no '&' as k=v joined by '&' and parsing it with coda_get_params_buf into an empty map yields exactly the last value of every key.", "quantifier": "all such lists of pairs", "why_tests_cant": "Infinitely many lists.", "anchors": ["coda/url.cpp:coda_get_params_buf"]}
{"id": "C27", "title": "header parsing", "statement": "coda_get_header_buf processes CRLF separated lines up to the first empty line; each line containing ':' assigns everything after the first ':' to the text before it; lines without ':' are ignored; nothing after the first empty line has any effect.", "quantifier": "all byte buffers, all initial maps", "why_tests_cant": "All placements of CR, LF, ':' and NUL bytes.", "anchors": ["coda/url.cpp:coda_get_header_buf"]}
{"id": "C28", "title": "character search functions return the first/last match", "statement": "coda_strnchr, coda_strxchr, coda_strnchp, coda_strxchp return the smallest index < len whose byte equals c (ASCII case folded for the x variants), coda_revnchr and coda_revxchr the largest; NULL (or len for *chp) iff there is none; no byte outside [0,len) is read.", "quantifier": "all buffers, lengths and characters", "why_tests_cant": "Position and length are arbitrary.", "anchors": ["coda/string.c:coda_strnchr", "coda/string.c:coda_strxchr", "coda/string.c:coda_revnchr", "coda/string.c:coda_revxchr", "coda/string.c:coda_strnchp", "coda/string.c:coda_strxchp"]}
{"id": "C29", "title": "substring search returns the first occurrence", "statement": "coda_strnstr, coda_strxstr and coda_stristr return the smallest index at which the needle occurs completely inside the searched range (ASCII case folded for x and i variants), NULL iff it does not occur, for a non-empty needle.", "quantifier": "all haystacks, needles and lengths", "why_tests_cant": "Naive matchers fail only on self-overlapping needles or matches at the boundary.", "anchors": ["coda/string.c:coda_strnstr", "coda/string.c:coda_strxstr", "coda/string.c:coda_stristr"]}
{"id": "C30", "title": "substring search reads only the given range", "statement": "coda_strnstr/coda_strxstr with length len never read outside s[0..len) and the NUL terminated needle.", "quantifier": "all buffers of exactly len bytes, all needles", "why_tests_cant": "Overreads are invisible to functional tests.", "anchors": ["coda/string.c:coda_strnstr", "coda/string.c:coda_strxstr"]}
{"id": "C31", "title": "forward span functions", "statement": "coda_str{n,x,i}spn return the length of the longest prefix (of the first len bytes, or of the string) made only of alphabet characters; coda_str{n,x,i}spc the longest prefix containing none of them.", "quantifier": "all buffers, alphabets and lengths", "why_tests_cant": "All contents.", "anchors": ["coda/string.c:coda_strnspn", "coda/string.c:coda_strxspn", "coda/string.c:coda_strispn", "coda/string.c:coda_strnspc", "coda/string.c:coda_strxspc", "coda/string.c:coda_strispc"]}
{"id": "C32", "title": "reverse span functions", "statement": "coda_rev{n,x}spn return the length of the longest suffix of the first len bytes made only of alphabet characters; coda_rev{n,x}spc the longest suffix containing none of them.", "quantifier": "all buffers, alphabets and lengths", "why_tests_cant": "All contents.", "anchors": ["coda/string.c:coda_revnspn", "coda/string.c:coda_revxspn", "coda/string.c:coda_revnspc", "coda/string.c:coda_revxspc"]}
{"id": "C33", "title": "coda_atou / coda_atoi", "statement": "coda_atou returns the decimal value modulo 2^64 of an all-digit buffer and 0 for any buffer containing a non-digit; coda_atoi negates after a leading '-' (two's complement); printing any uint64/int64 in decimal and parsing it back is the identity.", "quantifier": "all buffers; all 64-bit integers", "why_tests_cant": "2^64 values and unbounded digit strings; overflow wrap-around.", "anchors": ["coda/string.h:coda_atou", "coda/string.h:coda_atoi"]}
{"id": "C34", "title": "coda_split_string", "statement": "coda_split_string returns exactly the maximal delimiter-free pieces of the string in order, dropping empty ones iff ignore_empty; no piece contains a delimiter.", "quantifier": "all strings, delimiter sets, both flags, both overloads", "why_tests_cant": "All placements of delimiters, including adjacent, leading and trailing ones.", "anchors": ["coda/string.cpp:coda_split_string"]}
{"id": "C35", "title": "coda_split_string loses nothing", "statement": "With ignore_empty=false the number of pieces is the number of delimiter occurrences plus one, and interleaving the pieces with the delimiters rebuilds the input.", "quantifier": "all strings and delimiter sets", "why_tests_cant": "All strings.", "anchors": ["coda/string.cpp:coda_split_string"]}
{"id": "C36", "title": "coda_get_stringset / coda_get_uint64set", "statement": "coda_get_stringset adds exactly the comma separated pieces of a non-empty string to the set (nothing for NULL or \"\"); coda_get_uint64set adds exactly the numbers at the start of the comma separated pieces.", "quantifier": "all strings, all initial sets", "why_tests_cant": "All comma placements and malformed numbers.", "anchors": ["coda/string.cpp:coda_get_stringset", "coda/string.cpp:coda_get_uint64set"]}
{"id": "C37", "title": "bounded formatted append", "statement": "coda_strnappend appends, and coda_strnprintf inserts at pos, exactly the first min(num, n) characters of the formatted text of length n and return that count; coda_strnprintf leaves the string unchanged and returns -1 iff pos is beyond its end; coda_strappend appends the whole text whatever its size.", "quantifier": "all strings, positions, limits and formatted texts", "why_tests_cant": "Every relation of num, text length and the 32 KiB stack buffer.", "anchors": ["coda/string.cpp:coda_strappend", "coda/string.cpp:coda_strnappend", "coda/string.cpp:coda_strnprintf"]}
{"id": "C38", "title": "coda_random_string", "statement": "coda_random_string returns a string of exactly the requested size all of whose characters come from the alphabet, for every behaviour of the random generator, without reading outside the alphabet.", "quantifier": "all sizes, alphabets of non-zero size, all random sequences", "why_tests_cant": "All random sequences.", "anchors": ["coda/string.cpp:coda_random_string"]}
{"id": "C39", "title": "get_next_word iterates over the words", "statement": "Calling get_next_word repeatedly (be := en after each success) returns exactly the maximal blank-free words of the string in order and then 0.", "quantifier": "all NUL terminated strings", "why_tests_cant": "All strings.", "anchors": ["coda/easy_parsing.cpp:get_next_word"]}
{"id": "C40", "title": "cache get returns the last value set", "statement": "coda_cache::get(key) returns either nothing or the value of the most recent set(key, ...) not followed by an erase of the key; it returns nothing only if the key was never set, was erased, was evicted, or has outlived time_max.", "quantifier": "all operation histories, clocks and capacities", "why_tests_cant": "All histories of set/get/erase interleaved with evictions.", "anchors": ["coda/cache.tcc:coda_cache::get", "coda/cache.tcc:coda_cache::set", "coda/cache.tcc:coda_cache::erase"]}
{"id": "C41", "title": "cache size limit", "statement": "After every operation the total estimated size of the cached values does not exceed size_max.", "quantifier": "all operation histories", "why_tests_cant": "A violating history must be found among all of them.", "anchors": ["coda/cache.tcc:coda_cache::set", "coda/cache.tcc:coda_cache::drop_last_unused"]}
{"id": "C42", "title": "cache evicts the least recently set entries first", "statement": "When an insertion overflows size_max, the entries removed are a prefix of the entries in order of their last set, and no more are removed than necessary to fit.", "quantifier": "all operation histories", "why_tests_cant": "Order depends on the entire history.", "anchors": ["coda/cache.tcc:coda_cache::drop_last_unused", "coda/cache.tcc:coda_cache::set"]}
{"id": "C43", "title": "cache expiry", "statement": "With time_max > 0, a get more than time_max seconds after the entry's timestamp returns nothing and removes the entry, a get at most time_max seconds after returns the value; with time_max = 0 entries never expire; set refreshes the timestamp of an existing entry iff do_update_time.", "quantifier": "all histories, all clock values and limits that do not overflow size_t", "why_tests_cant": "All clock readings.", "anchors": ["coda/cache.tcc:coda_cache::get", "coda/cache.tcc:coda_cache::set"]}
{"id": "C44", "title": "cache internal structure is never corrupted", "statement": "No operation sequence ever dereferences a dangling or NULL list pointer: the doubly linked list always threads exactly the entries of the hash table, each once, and the accounted size is the sum of the sizes of the cached entries.", "quantifier": "all operation histories", "why_tests_cant": "Pointer corruption depends on the history of insertions, moves and removals.", "anchors": ["coda/cache.tcc:coda_cache::set", "coda/cache.tcc:coda_cache::erase", "coda/cache.tcc:coda_cache::drop_last_unused"]}
{"id": "C45", "title": "shm::stack is a bounded LIFO", "statement": "Any sequence of push/pop/clear on an attached shm::stack behaves like a list bounded by _OBJECTS_NUM: push succeeds iff not full, pop on a non-empty stack returns the last pushed element, used() is the length; no access outside the data block.", "quantifier": "all operation sequences (pop only when not empty), all capacities", "why_tests_cant": "All sequences.", "anchors": ["coda/shm_stack.tcc:shm::stack"]}
{"id": "C46", "title": "shm::pool never hands out the same object twice", "statement": "allocate() returns an index below _OBJECTS_NUM that is not currently allocated, or -1 iff all _OBJECTS_NUM objects are allocated; allocated_objects() is the number of allocated objects, provided only allocated indices are freed.", "quantifier": "all allocate/free/clear sequences", "why_tests_cant": "Uniqueness over all histories of reuse.", "anchors": ["coda/shm_pool.tcc:shm::pool::allocate", "coda/shm_pool.tcc:shm::pool::free", "coda/shm_pool.tcc:shm::pool::allocated_objects"]}
{"id": "C47", "title": "shm::hash_map behaves like a finite map", "statement": "After any sequence of insert/erase/clear, read(key) returns the value of the last successful insert of the key not followed by an erase or clear, and false otherwise; erase returns true iff the key was present.", "quantifier": "all operation sequences, all keys, all hash sizes and capacities", "why_tests_cant": "Chains, collisions and node reuse over all histories.", "anchors": ["coda/shm_hash_map.tcc:unprotected_insert", "coda/shm_hash_map.tcc:unprotected_erase", "coda/shm_hash_map.tcc:unprotected_read", "coda/shm_hash_map.tcc:clear"]}
{"id": "C48", "title": "shm::hash_map capacity", "statement": "insert of a new key fails iff capacity() entries are stored, insert of an existing key always succeeds, a failed insert changes nothing, and size() is the number of stored keys.", "quantifier": "all operation sequences", "why_tests_cant": "All histories.", "anchors": ["coda/shm_hash_map.tcc:unprotected_insert", "coda/shm_hash_map.tcc:size"]}
{"id": "C49", "title": "shm::hash_map iteration", "statement": "Iterating from begin() to end() without concurrent modification visits every stored key exactly once with its current value, and terminates.", "quantifier": "all reachable maps", "why_tests_cant": "All reachable shapes of chains.", "anchors": ["coda/shm_hash_map.hpp:const_iterator", "coda/shm_hash_map.hpp:begin"]}
{"id": "C50", "title": "shm::hash_map batch operations", "statement": "insert(pairs, n) / erase(keys, n) are the left-to-right composition of the single operations under one lock and return true iff every single operation succeeded.", "quantifier": "all arrays and states", "why_tests_cant": "All arrays.", "anchors": ["coda/shm_hash_map.tcc:insert", "coda/shm_hash_map.tcc:erase"]}
{"id": "C51", "title": "shm::hash_map reader/writer exclusion", "statement": "In every interleaving of any number of processes using read/insert/erase/clear/size, no writer is inside its critical section together with any other reader or writer, including after processes are killed at any point (the kernel undoes their semaphore adjustments).", "quantifier": "all numbers of processes, schedules and kill points", "why_tests_cant": "Exponentially many schedules.", "anchors": ["coda/shm_hash_map.tcc:lock_read_rw", "coda/shm_hash_map.tcc:lock_write_rw", "coda/shm_hash_map.tcc:unlock_read_rw", "coda/shm_hash_map.tcc:unlock_write_rw"]}
{"id": "C52", "title": "shm::hash_map survives a killed writer", "statement": "If a process is killed at any point of insert or erase, every later operation of other processes still behaves like a finite map that contains either the old or the new binding of the affected key and the unchanged bindings of all others.", "quantifier": "all kill points between memory accesses, all prior and later histories", "why_tests_cant": "Kill points are not reachable by ordinary tests.", "anchors": ["coda/shm_hash_map.tcc:unprotected_insert", "coda/shm_hash_map.tcc:unprotected_erase", "coda/shm_stack.tcc:push"]}
{"id": "C53", "title": "shm attach checks the layout", "statement": "Attaching a hash_map/pool/stack to a segment initialised with other template parameters throws and leaves the segment unchanged; attaching with the same parameters preserves the stored contents; attaching to a zeroed segment yields an empty container.", "quantifier": "all segments and parameters", "why_tests_cant": "All header contents.", "anchors": ["coda/shm_hash_map.tcc:attach", "coda/shm_pool.tcc:attach", "coda/shm_stack.tcc:attach"]}
{"id": "C54", "title": "shm_queue delivers boxes in FIFO order exactly once", "statement": "In every interleaving of any number of writers (flush) and readers (unflush), the sequence of boxes received is, in order of the readers' critical sections, a prefix of the sequence of boxes accepted by flush; no box is lost, duplicated or torn.", "quantifier": "all numbers of processes and all schedules", "why_tests_cant": "Exponentially many schedules; ring wrap-around.", "anchors": ["coda/shm_queue.tcc:flush", "coda/shm_queue.tcc:unflush"]}
{"id": "C55", "title": "shm_queue never overruns unread boxes", "statement": "A flush never overwrites a box that was accepted and not yet received, and unflush never returns a box that was not written, for every ring size and schedule; the ring holds at most size-1 boxes.", "quantifier": "all ring sizes >= 1, all schedules", "why_tests_cant": "All schedules.", "anchors": ["coda/shm_queue.tcc:flush", "coda/shm_queue.tcc:unflush"]}
{"id": "C56", "title": "shm_queue put loses nothing", "statement": "If put returns true for a sequence of messages and flush is called at the end, the readers eventually receive all of them.", "quantifier": "all message sequences, ring sizes and reader speeds", "why_tests_cant": "Depends on the ring being full at flush time.", "anchors": ["coda/shm_queue.tcc:put", "coda/shm_queue.tcc:flush"]}
{"id": "C57", "title": "shm_queue message framing", "statement": "Messages put into one box are returned by get in the same order with the same contents after flush/unflush of that box, for fixed-size messages that fit.", "quantifier": "all message sequences that fit one box", "why_tests_cant": "All sequences.", "anchors": ["coda/shm_queue.tcc:box::put", "coda/shm_queue.tcc:box::get"]}
{"id": "C58", "title": "synque delivers in FIFO order exactly once", "statement": "In every interleaving of any number of threads calling add, get and batch get, the elements returned, in order of the getters' critical sections, are a prefix of the elements in order of the adders' critical sections.", "quantifier": "all numbers of threads, all schedules, spurious wake-ups included", "why_tests_cant": "Exponentially many schedules.", "anchors": ["coda/synque.hpp:add", "coda/synque.hpp:get"]}
{"id": "C59", "title": "synque has no lost wake-up", "statement": "Whenever the queue is non-empty and some thread is still blocked in get, at least as many woken threads as there are queued elements are on their way to take one.", "quantifier": "all schedules", "why_tests_cant": "Lost wake-ups need a precise interleaving.", "anchors": ["coda/synque.hpp:add", "coda/synque.hpp:get", "coda/synque.hpp:signal"]}
{"id": "C60", "title": "synque return codes", "statement": "get returns 0 iff it delivered at least one element, -1 leaves the queue and the output untouched; with canwait = 0 it never blocks and returns -1 iff the queue was empty; batch get delivers min(max_count, size) elements (all when max_count <= 0).", "quantifier": "all states and arguments", "why_tests_cant": "All schedules.", "anchors": ["coda/synque.hpp:get"]}
{"id": "C61", "title": "coda_gmtime computes the Gregorian date", "statement": "For every non-negative time stamp below 2^31*31536000 seconds, coda_gmtime yields the unique proleptic Gregorian (year, month, day) whose day number since 1970-01-01 is t/86400.", "quantifier": "all non-negative time stamps in that range", "why_tests_cant": "Billions of dates; leap year and March-based formulas fail at isolated days.", "anchors": ["coda/gmtime.h:coda_gmtime"]}
{"id": "C62", "title": "coda_gmtime time of day and weekday", "statement": "0<=sec<60, 0<=min<60, 0<=hour<24, sec+60*min+3600*hour = t mod 86400, and the weekday is the one that advances by one (mod 7) every day with Thursday on 1970-01-01.", "quantifier": "all non-negative time stamps", "why_tests_cant": "All time stamps.", "anchors": ["coda/gmtime.h:coda_gmtime"]}
{"id": "C63", "title": "coda_gmtime fills struct tm like gmtime(3)", "statement": "coda_gmtime stores tm_year (years since 1900) and tm_mon (0..11) as gmtime(3) does.", "quantifier": "all time stamps", "why_tests_cant": "Convention must hold for all time stamps.", "anchors": ["coda/gmtime.h:coda_gmtime"]}
{"id": "C64", "title": "log_array bucket selection", "statement": "get_by_value(i) selects bucket min(floor(log2 i), MaxLog-1) for i > 0 and never leaves the array; swap exchanges all buckets.", "quantifier": "all 64-bit i, all MaxLog >= 1", "why_tests_cant": "2^64 values.", "anchors": ["coda/log_array.hpp:get_by_value", "coda/log_array.hpp:swap"]}
{"id": "C65", "title": "coda_inet_addr", "statement": "coda_inet_addr of the dotted decimal text of any IPv4 address returns that address in network byte order; any text containing other characters, not exactly three dots, or a component above 255 yields INADDR_NONE.", "quantifier": "all byte buffers; all 2^32 addresses", "why_tests_cant": "2^32 addresses and unbounded texts, component overflow.", "anchors": ["coda/socket.h:coda_inet_addr"]}
{"id": "C66", "title": "log level names", "statement": "log_levels maps every log level name (any case, any suffix) to its level and anything else to info; a message is written iff its level is at most log_level.", "quantifier": "all strings, all levels", "why_tests_cant": "All strings.", "anchors": ["coda/logger.c:log_levels", "coda/logger.h:log_fmt"]}
{"id": "C67", "title": "coda_mkpath", "statement": "coda_mkpath restores the path buffer on every return, issues mkdir exactly for the proper prefixes ending before each '/' (after the first character) in order until the first failure other than EEXIST, and returns 0 iff there is none; on success every such prefix exists.", "quantifier": "all paths, all file system states and mkdir outcomes", "why_tests_cant": "All failure points.", "anchors": ["coda/system.c:coda_mkpath"]}
{"id": "C68", "title": "pid file exclusion", "statement": "In every interleaving of any number of processes calling coda_mkpidf on the same path and removing the file with coda_daemon_stop only after success, at most one process at a time has succeeded and not yet stopped, even if processes are killed at any point.", "quantifier": "all numbers of processes, schedules and kill points", "why_tests_cant": "Races between open, flock, fstat, write and unlink.", "anchors": ["coda/system.c:coda_mkpidf", "coda/daemon.c:coda_daemon_stop"]}
{"id": "C69", "title": "descriptor hygiene of coda_fdmove / coda_fdopen", "statement": "On success coda_fdmove(fd, nd) leaves nd referring to the file fd referred to and fd closed; coda_fdopen leaves no extra descriptor open, whether it succeeds or fails.", "quantifier": "all descriptor tables and system call outcomes", "why_tests_cant": "All failure combinations of open/dup2/close.", "anchors": ["coda/system.c:coda_fdmove", "coda/system.c:coda_fdopen"]}
{"id": "C70", "title": "descriptor hygiene of socket helpers and coda_mmap", "statement": "coda_listen, coda_connect, coda_accept and coda_mmap close every descriptor they opened on every failure path and return -1; on success coda_mmap leaves no descriptor open and the socket helpers return exactly one open descriptor.", "quantifier": "all system call outcomes", "why_tests_cant": "All combinations of failing system calls.", "anchors": ["coda/socket.h:coda_listen", "coda/socket.h:coda_connect", "coda/socket.h:coda_accept", "coda/system.c:coda_mmap"]}
{"id": "C71", "title": "tone removal leaves ASCII alone and never grows", "statement": "coda_remove_tones_utf8 returns ASCII text unchanged, never returns more bytes than it was given and never reads outside its input.", "quantifier": "all byte strings, valid UTF-8 or not", "why_tests_cant": "All malformed UTF-8.", "anchors": ["coda/vietnam.cpp:coda_remove_tones_utf8"]}
{"id": "C72", "title": "tone removal maps characters independently", "statement": "On well-formed UTF-8 without U+0000 the result is the concatenation of the per-character results: combining diacritical marks vanish, listed Vietnamese letters become their base letter, all other characters are copied.", "quantifier": "all well-formed UTF-8 texts", "why_tests_cant": "All texts.", "anchors": ["coda/vietnam.cpp:coda_remove_tones_utf8"]}
{"id": "C73", "title": "tone removal is idempotent", "statement": "Applying coda_remove_tones_utf8 twice gives the same result as applying it once.", "quantifier": "all byte strings", "why_tests_cant": "All texts, including malformed ones.", "anchors": ["coda/vietnam.cpp:coda_remove_tones_utf8"]}
{"id": "C74", "title": "stringstorage add is stable", "statement": "string_storage_add returns the same slot whenever it is called again with the same string, and string_storage_find returns that slot, whatever was added in between; different strings have disjoint slots.", "quantifier": "all sequences of added strings", "why_tests_cant": "Depends on the tree shape built by all earlier strings.", "anchors": ["coda/stringstorage.c:internal_find_add", "coda/stringstorage.c:string_storage_add", "coda/stringstorage.c:string_storage_find"]}
{"id": "C75", "title": "stringstorage memory bounds", "statement": "string_storage_add never writes outside its storage blocks or child arrays.", "quantifier": "all sequences of strings and user data sizes", "why_tests_cant": "Boundary lengths around the 4096 byte block.", "anchors": ["coda/stringstorage.c:internal_find_add", "coda/stringstorage.c:allocate_reallocate_array"]}
{"id": "C76", "title": "stringstorage enumeration", "statement": "string_storage_enumerate reports exactly the added strings (shorter than 256 bytes), each once, with its slot.", "quantifier": "all sequences of added strings", "why_tests_cant": "Depends on the tree shape.", "anchors": ["coda/stringstorage.c:string_storage_enumerate"]}
{"id": "C77", "title": "coda_url result format", "statement": "After create_absolute succeeds, get_url() starts with http:// or https:// (any case as given), contains a '/' after the host, no '#', has get_url_len() characters, and get_domain() is a suffix of the lower-cased host with at most two labels.", "quantifier": "all inputs", "why_tests_cant": "All URL texts.", "anchors": ["coda/url_parser.cpp:create_absolute", "coda/url_parser.cpp:assign_anchor"]}
{"id": "C78", "title": "coda_url buffer bounds", "statement": "create_absolute and create_relative never read outside u[0..sz) nor write outside the buffer they allocate.", "quantifier": "all inputs, flags and parents", "why_tests_cant": "All URL texts and parents.", "anchors": ["coda/url_parser.cpp:create_absolute", "coda/url_parser.cpp:create_relative", "coda/url_parser.cpp:create_scheme"]}
{"id": "C79", "title": "coda_url path normalisation", "statement": "The path part of a created URL contains no '/./', '/../' or '//' before the query, and never climbs above the host.", "quantifier": "all inputs and flags", "why_tests_cant": "All path texts.", "anchors": ["coda/url_parser.cpp:assign_refers"]}
{"id": "C80", "title": "coda_url copy is independent", "statement": "Copy construction and assignment produce a URL with the same text and domain that stays valid when the source is destroyed, including assignment from an empty URL and self-assignment.", "quantifier": "all URL objects and sequences of copies", "why_tests_cant": "Aliasing and lifetime.", "anchors": ["coda/url_parser.cpp:operator=", "coda/url_parser.cpp:coda_url"]}
{"id": "C81", "title": "creating the semaphores of a shm::hash_map is safe", "statement": "If several processes connect to a map that does not exist yet at the same time, the exclusion of C51 holds for all of them from the moment their connect returns.", "quantifier": "all numbers of processes and schedules of connect", "why_tests_cant": "Depends on the interleaving of semget/semctl/semop of several processes.", "anchors": ["coda/shm_hash_map.tcc:connect_sem", "coda/shm_hash_map.tcc:connect"]}
{"id": "C82", "title": "shm_queue critical sections exclude each other even when signals arrive", "statement": "At most one process at a time is between taking and releasing the lock of a queue, also when signals interrupt the system call that takes it.", "quantifier": "all numbers of processes, schedules and signal arrivals", "why_tests_cant": "Needs a signal inside the blocking call.", "anchors": ["coda/shm_queue.tcc:lock_queue"]}
{"id": "C83", "title": "shm_queue survives killed processes", "statement": "If any process is killed at any point of flush or unflush, the lock is released, memory outside the ring is never touched, and every box delivered afterwards is an accepted one, delivered whole, at most once and in order.", "quantifier": "all numbers of processes, schedules and kill points", "why_tests_cant": "Kill points between any two memory accesses.", "anchors": ["coda/shm_queue.tcc:flush", "coda/shm_queue.tcc:unflush"]}
{"id": "C84", "title": "synque blocking get returns an element", "statement": "A get with canwait != 0 returns -1 only if signal() was called or the wake-up was spurious: an add that wakes a waiting getter makes that getter return an element.", "quantifier": "all schedules, all numbers of producers and consumers", "why_tests_cant": "The window between the wake-up and the re-acquisition of the mutex is not controllable by a test.", "anchors": ["coda/synque.hpp:get", "coda/synque.hpp:add"]}
{"id": "C85", "title": "synque releases its mutex on exceptions", "statement": "If copying an element or allocating memory throws inside add or get, the exception leaves the queue usable by the other threads: the mutex is released.", "quantifier": "all schedules, all points at which an exception can be thrown", "why_tests_cant": "Allocation failures at every point combined with every schedule.", "anchors": ["coda/synque.hpp:get", "coda/synque.hpp:add"]}
{"id": "C86", "title": "coda_msleep sleeps the requested time", "statement": "For every non-negative int the timespec passed to nanosleep is normalised and denotes exactly that many milliseconds; for negative values it is one that nanosleep rejects.", "quantifier": "all ints", "why_tests_cant": "2^32 arguments.", "anchors": ["coda/gmtime.h:coda_msleep"]}
{"id": "C87", "title": "log_create leaves its path argument alone", "statement": "log_create(path, level), which takes a const char*, works for every path, also for a string literal or other read-only memory.", "quantifier": "all paths, all file system states", "why_tests_cant": "All positions of '/' and all outcomes of mkdir.", "anchors": ["coda/logger.c:log_create", "coda/system.c:coda_mkpath"]}
{"id": "C88", "title": "coda_random_init", "statement": "coda_random_init seeds the generator with four bytes of /dev/urandom on the first successful call and does nothing afterwards; it leaves no descriptor open, whether it succeeds or fails.", "quantifier": "all system call outcomes", "why_tests_cant": "Failing and short reads of /dev/urandom.", "anchors": ["coda/random.c:coda_random_init"]}
{"id": "C89", "title": "coda_daemon_fork", "statement": "After a successful coda_daemon_fork standard input and output are /dev/null and all other descriptors are as before; the parent never returns; a failure leaves no additional descriptor open.", "quantifier": "all descriptor tables and system call outcomes", "why_tests_cant": "All combinations of failing system calls and closed standard descriptors.", "anchors": ["coda/daemon.c:coda_daemon_fork"]}
{"id": "C90", "title": "coda_mmap maps exactly the file", "statement": "After coda_mmap returned 0 there is exactly one new mapping, of area->size bytes of the file; the file has exactly this size: the one asked for, or its own if 0 was asked for. If it returned -1 there is no new mapping.", "quantifier": "all files, sizes, flags and system call outcomes", "why_tests_cant": "All combinations of failing system calls.", "anchors": ["coda/system.c:coda_mmap", "coda/system.h:coda_mmap_file"]}
{"id": "C91", "title": "coda_listen and coda_connect use the port that was given", "statement": "For every decimal port number the socket is bound or connected to this port, or the call fails.", "quantifier": "all numbers", "why_tests_cant": "2^64 numbers.", "anchors": ["coda/socket.h:coda_listen", "coda/socket.h:coda_connect"]}
{"id": "C92", "title": "coda_getopt_parse", "statement": "coda_getopt_parse returns -1 iff an option is unknown or lacks its argument; otherwise of several options of a kind the last one counts and everything that was not given is cleared.", "quantifier": "all sequences of options and previous contents of the structure", "why_tests_cant": "Unbounded sequences.", "anchors": ["coda/daemon.c:coda_getopt_parse"]}
{"id": "C93", "title": "signal flags", "statement": "After coda_signal_init no sequence of the handled signals ends the process, and each of the flags coda_terminate, coda_changecfg, coda_rotatelog, coda_changebin is set iff it was set before or one of its signals arrived. coda_signal_mask affects exactly the handled signals whose bit is set.", "quantifier": "all sequences of signals, all masks", "why_tests_cant": "Unbounded sequences, 2^32 masks.", "anchors": ["coda/daemon.c:coda_signal_init", "coda/daemon.c:coda_signal_mask"]}
{"id": "C94", "title": "coda_unix_recv hides interruptions", "statement": "coda_unix_recv returns what the first uninterrupted recv returned, however many were interrupted before.", "quantifier": "all sequences of outcomes of recv", "why_tests_cant": "Unbounded numbers of interruptions.", "anchors": ["coda/socket.h:coda_unix_recv"]}
{"id": "C95", "title": "coda_set_socket_timeout", "statement": "coda_set_socket_timeout(s, t) sets the receive timeout to t microseconds for every t >= 0.", "quantifier": "all longs", "why_tests_cant": "2^64 arguments.", "anchors": ["coda/socket.h:coda_set_socket_timeout"]}
{"id": "C96", "title": "estimate_capacity", "statement": "estimate_capacity(v) is the memory that v takes, including everything it owns, for strings and vectors of any nesting.", "quantifier": "all values", "why_tests_cant": "Unbounded nesting.", "anchors": ["coda/estimate_capacity.hpp:estimate_capacity"]}
{"id": "C97", "title": "create_relative resolves like a directory path", "statement": "For a text without a scheme, create_relative against a created parent yields the parent's scheme and host, followed by the normal form of the parent's directory with the text appended (or of the text alone if it begins with '/'), followed by the query of the text; the anchor is dropped and the domain is the parent's. mailto:, javascript: and '#...' are refused and leave the object empty.", "quantifier": "all texts, parents (themselves created by any chain of creations) and flags", "why_tests_cant": "All pairs of texts and parents.", "anchors": ["coda/url_parser.cpp:create_relative", "coda/url_parser.cpp:create_suburl", "coda/url_parser.cpp:assign_refers"]}
{"id": "C98", "title": "CODA_URL_SUBDOMAIN", "statement": "With CODA_URL_SUBDOMAIN, create_relative succeeds only if the domain of the created URL equals the parent's domain up to case, an absolute URL whose last two host labels are the parent's domain is accepted, and on refusal the object is empty.", "quantifier": "all texts, parents and flags", "why_tests_cant": "All pairs of hosts.", "anchors": ["coda/url_parser.cpp:create_relative"]}
{"id": "C99", "title": "Loading an object from an XML document", "statement": "Loading a document puts each attribute into the member with its name, each child element into the member with its name, recursively, and the text of an element into a member of string or number type, or into the member with the empty key of an object; an element for a list or a vector fills a new item at its end; elements and attributes without a member are ignored with everything in them, and members that the document does not name keep their values.", "quantifier": "all documents and all objects whose keys differ, of any nesting", "why_tests_cant": "Documents and objects of unbounded nesting; the loader is driven by a stack of levels that every attribute and element changes.", "anchors": ["coda/txml.hpp:determineMember", "coda/txml.hpp:setValue", "coda/txml.cpp:begelement", "coda/txml.cpp:endelement"]}
{"id": "C100", "title": "Loading never touches memory it should not", "statement": "At whatever point a document breaks off, loading has not used the last item of an empty list or a level that does not exist.", "quantifier": "all documents, prefixes of documents and objects", "why_tests_cant": "All documents and all classes that a user may declare.", "anchors": ["coda/txml.hpp:setValue", "coda/txml.hpp:determineMember", "coda/txml.cpp:begelement"]}
{"id": "C101", "title": "load_from_file", "statement": "load_from_file gives the XML parser exactly the bytes of the file, in order, and marks the last piece and only the last as the last; it closes the file exactly once on every way out (success, read error, parse error), and reports success only if everything was read and accepted.", "quantifier": "all file contents and lengths, points of a read error and behaviours of the XML parser", "why_tests_cant": "File lengths (multiples of the buffer size), points of failure.", "anchors": ["coda/txml.cpp:load_from_file"]}
{"id": "C102", "title": "Switches in XML", "statement": "A bool member becomes true exactly for texts that begin with a number other than 0 and for true, on, yes and their beginnings, in any case; every other text makes it false.", "quantifier": "all texts", "why_tests_cant": "All texts.", "anchors": ["coda/txml.cpp:strtobool"]}
{"id": "C103", "title": "Numbers in XML", "statement": "An integer member gets the decimal number that the text begins with (after white space, with an optional sign), 0 if there is none; a number that the type does not have is not replaced by an unrelated one.", "quantifier": "all texts, all integer types", "why_tests_cant": "All texts and values.", "anchors": ["coda/txml.cpp:setValue"]}
{"id": "C104", "title": "load_from_string parses all of the string", "statement": "load_from_string gives the whole string to the XML parser.", "quantifier": "all strings of all lengths", "why_tests_cant": "Lengths of 2^31 bytes and more cannot be tested.", "anchors": ["coda/txml.cpp:load_from_string", "coda/txml.cpp:parse"]}
{"id": "C105", "title": "The shared memory queue is a first-in first-out queue with registers", "statement": "For any number of handles on any number of keys, whatever calls are made in whatever order, boxes come out of the queue of a key in the order they were flushed into it and with the bytes they had, a queue of n boxes holds n - 1, further boxes are dropped, the number of boxes is what boxes_in_queue says, a register has the value last written through any handle, and disconnecting and connecting again changes none of this; no call hangs or is undefined.", "quantifier": "all histories of calls (connect, disconnect, put, get, flush, unflush, boxes_in_queue, registers), all parameters", "why_tests_cant": "Histories of any length over any number of handles; the ring wraps around, parameters up to 2^32.", "anchors": ["coda/shm_queue.tcc:connect", "coda/shm_queue.tcc:flush", "coda/shm_queue.tcc:unflush", "coda/shm_queue.tcc:set_register", "coda/shm_queue.tcc:disconnect"]}
{"id": "C106", "title": "A connect that fails has no effect", "statement": "A connect that cannot succeed (already connected, no key file, no memory, other parameters) throws, and has no other effect: other handles can go on, and the handle can be connected later.", "quantifier": "all histories before and after, all reasons of failure", "why_tests_cant": "Failures at each system call in each state.", "anchors": ["coda/shm_queue.tcc:connect", "coda/shm_queue.tcc:connect_shm", "coda/shm_queue.tcc:connect_sem"]}
{"id": "C107", "title": "Calls on a handle that is not connected", "statement": "On a handle that was never connected, or is not connected any more, every call returns and does nothing: put, get and unflush report failure, boxes_in_queue is -1, registers are 0.", "quantifier": "all histories before, all arguments", "why_tests_cant": "All states and arguments.", "anchors": ["coda/shm_queue.tcc:put", "coda/shm_queue.tcc:get_register", "coda/shm_queue.tcc:set_register", "coda/shm_queue.tcc:boxes_in_queue"]}
{"id": "C108", "title": "coda_url_unescape decodes what the text stands for", "statement": "coda_url_unescape writes the bytes that the text stands for: + is a blank, %XY and \\xXY are bytes, %uXXXX is the UTF-8 form of the character, everything else stands for itself; then NULs to the end of the buffer; a text that does not fit is cut near the end of the buffer.", "quantifier": "all texts, all buffer sizes", "why_tests_cant": "All combinations of complete, broken and adjacent escapes at all positions relative to the end of the buffer.", "anchors": ["coda/url.cpp:coda_url_unescape"]}
{"id": "C109", "title": "coda_url_preunescape decodes only bytes from 0x80 on", "statement": "coda_url_preunescape replaces the escapes %XY and \\xXY of bytes from 0x80 on by the bytes and leaves everything else as it is.", "quantifier": "all texts, all buffer sizes that have room", "why_tests_cant": "All combinations of escapes.", "anchors": ["coda/url.cpp:coda_url_preunescape"]}
{"id": "C110", "title": "The parts of a shared hash map do not overlap", "statement": "The header, the stack of free nodes, the nodes and the buckets of a hash map lie behind each other, without overlap, inside the memory that is asked for.", "quantifier": "all capacities, bucket counts and entry sizes", "why_tests_cant": "Sizes are rounded up and computed in 32 bits; large maps cannot be allocated in a test.", "anchors": ["coda/shm_hash_map.tcc:attach", "coda/shm_hash_map.tcc:required_space", "coda/shm_hash_map.tcc:floor1024"]}
{"id": "C111", "title": "Hash maps connected to the same file are one map", "statement": "For any number of hash map objects and key files, every call of the class replies as one finite map per file does, whichever object it is made on; the map outlives the objects; an object of other parameters is refused.", "quantifier": "all histories of connect, disconnect, is_connected, capacity, read, insert, erase, clear, size, the batch calls and begin on any number of objects of any parameters", "why_tests_cant": "All orders of calls on several objects.", "anchors": ["coda/shm_hash_map.tcc:connect", "coda/shm_hash_map.tcc:disconnect", "coda/shm_hash_map.tcc:insert", "coda/shm_hash_map.hpp:begin"]}
{"id": "C112", "title": "A connect of a hash map that throws changes nothing", "statement": "If connect throws, the object is as before, and all later calls reply as if connect had not been called.", "quantifier": "all states, all reasons for a failure", "why_tests_cant": "Failures of each system call in each state.", "anchors": ["coda/shm_hash_map.tcc:connect", "coda/shm_hash_map.tcc:connect_shm", "coda/shm_hash_map.tcc:connect_sem"]}
{"id": "C113", "title": "Disconnecting a hash map gives its memory back", "statement": "A segment is mapped into the process once for every connected object, and not more often.", "quantifier": "all histories", "why_tests_cant": "A leak shows only after many calls.", "anchors": ["coda/shm_hash_map.tcc:disconnect", "coda/shm_hash_map.tcc:detach"]}
{"id": "C114", "title": "Calls on a hash map that is not connected throw", "statement": "On an object for which is_connected is false every operation throws an exception and does nothing else.", "quantifier": "all states, all operations", "why_tests_cant": "All ways of not being connected.", "anchors": ["coda/shm_hash_map.tcc:lock_read_rw", "coda/shm_hash_map.tcc:lock_write_rw", "coda/shm_hash_map.hpp:begin"]}
{"id": "C115", "title": "A process killed while it makes a hash map does no harm", "statement": "If the process that creates a hash map is killed at any point of attach, the next connect gives an empty map that works.", "quantifier": "all crash points, all parameters, all later histories", "why_tests_cant": "Kills between any two writes.", "anchors": ["coda/shm_hash_map.tcc:attach", "coda/shm_pool.tcc:attach", "coda/shm_stack.tcc:attach"]}
{"id": "C116", "title": "Signals do not break the lock of a hash map", "statement": "If a signal interrupts a process that waits for the lock, its call throws, and all others go on as if it had not called.", "quantifier": "all reachable states of any number of processes, all points of interruption, all schedules", "why_tests_cant": "Interruptions at any point of any schedule.", "anchors": ["coda/shm_hash_map.tcc:connect", "coda/shm_hash_map.tcc:lock_write_rw", "coda/shm_hash_map.tcc:unlock_write_rw"]}
{"id": "C117", "title": "Concurrent calls on a hash map are atomic", "statement": "Whatever any number of processes call on one hash map at the same time, the replies are those of the calls made one after the other, each at an instant between its call and its return, batches as a whole; a call whose process is killed takes effect up to some point.", "quantifier": "all numbers of processes, all calls, all interleavings of single accesses to shared memory, all kills", "why_tests_cant": "All schedules of all accesses and all crash points.", "anchors": ["coda/shm_hash_map.tcc:read", "coda/shm_hash_map.tcc:insert", "coda/shm_hash_map.tcc:erase", "coda/shm_hash_map.tcc:clear", "coda/shm_hash_map.tcc:size", "coda/shm_hash_map.tcc:lock_read_rw", "coda/shm_hash_map.tcc:lock_write_rw"]}
{"id": "C118", "title": "Calls on a hash map end", "statement": "A process that has the lock needs a bounded number of steps and then releases it, and there is no deadlock: from every state every pending call can still return.", "quantifier": "all reachable states of any number of processes, all calls, all kills", "why_tests_cant": "Absence of deadlocks and endless loops over all schedules.", "anchors": ["coda/shm_hash_map.tcc:unprotected_read", "coda/shm_hash_map.tcc:unprotected_insert", "coda/shm_hash_map.tcc:unprotected_erase", "coda/shm_hash_map.tcc:unlock_read_rw", "coda/shm_hash_map.tcc:unlock_write_rw"]}
{"id": "C119", "title": "A process that waits to write a hash map is served", "statement": "If all other calls return, a process that has called insert, erase or clear gets the lock at some time.", "quantifier": "all infinite schedules", "why_tests_cant": "A statement about infinite schedules.", "anchors": ["coda/shm_hash_map.tcc:lock_write_rw", "coda/shm_hash_map.tcc:lock_read_rw"]}
{"id": "C120", "title": "A log can be read back", "statement": "Every log call whose level is enabled adds exactly one line to the log, in the order of the calls; the line has the time, the level, the name that the thread gave itself (or its number) and the message as printf prints it, and can be taken apart again; calls whose level is not enabled add nothing.", "quantifier": "all histories of log calls, level changes and thread names, all formats of the modelled directives, all arguments, all times of years with four digits", "why_tests_cant": "All texts and all histories.", "anchors": ["coda/logger.h:log_fmt", "coda/logger.h:log_err", "coda/logger.c:log_thread_name_set", "coda/logger.c:log_thread_name_get"]}
{"id": "C121", "title": "Log lines sort by time", "statement": "Two log lines compared as text are in the order of the local times at which they were logged, to the millisecond, for years of four digits.", "quantifier": "all pairs of messages, all times", "why_tests_cant": "All pairs of times.", "anchors": ["coda/logger.h:LOG_FORMAT", "coda/logger.h:LOG_VALUES"]}
{"id": "C122", "title": "what() of an exception gives its message", "statement": "The text of a coda_error is that of its format and arguments, with coda_errno followed by number and text of the error, whatever was in memory before; nothing is written outside of the object.", "quantifier": "all formats of the modelled directives, all arguments, all messages", "why_tests_cant": "All texts, texts longer than the buffer included.", "anchors": ["coda/error.hpp:coda_error", "coda/error.hpp:coda_errno"]}
{"id": "C123", "title": "A signal is noticed whatever the program is doing", "statement": "Whenever a signal arrives, the handler returns and the flag of the signal is set, while any number of threads log and other signals arrive.", "quantifier": "all numbers of threads, all schedules, all moments at which signals arrive, nested handlers", "why_tests_cant": "A signal can arrive between any two instructions.", "anchors": ["coda/daemon.c:coda_signal_handle", "coda/logger.h:log_fmt"]}
{"id": "C124", "title": "A daemon that is up is set up", "statement": "Where coda_daemon_load returns 0 the signals are handled, the process is in the background if that was asked for, with standard input and output on /dev/null, and the pid file holds its number; and the command that was started has status 0 only if this is so.", "quantifier": "all options, all outcomes of all system calls", "why_tests_cant": "All combinations of failures.", "anchors": ["coda/daemon.c:coda_daemon_load", "coda/daemon.c:coda_daemon_fork", "coda/daemon.c:coda_signal_init", "coda/system.c:coda_mkpidf"]}
{"id": "C125", "title": "log_die ends the program where it is executed", "statement": "log_die logs a message and ends the program with a failure status, where a statement can be written.", "quantifier": "all programs around it", "why_tests_cant": "All contexts of a macro.", "anchors": ["coda/logger.h:log_die"]}
{"id": "C126", "title": "A client's own critical sections are atomic", "statement": "What a client reads with unprotected_read between its own lock_read_rw and unlock_read_rw is one state of the map; its unprotected operations between lock_write_rw and unlock_write_rw return what they return when nobody else uses the map, and take effect for the others all at once.", "quantifier": "all numbers of processes, all sections of any length, all schedules of single accesses to memory, all kills", "why_tests_cant": "All interleavings with other processes.", "anchors": ["coda/shm_hash_map.hpp:lock_read_rw", "coda/shm_hash_map.hpp:lock_write_rw", "coda/shm_hash_map.hpp:unprotected_read", "coda/shm_hash_map.hpp:unprotected_insert", "coda/shm_hash_map.hpp:unprotected_erase"]}
{"id": "C127", "title": "Iteration sees one state of the map", "statement": "A loop from begin() to end() sees every entry exactly once with its value, as the map was at one instant, stays within the segment and ends, while other processes use the map.", "quantifier": "all numbers of processes, all schedules of single accesses to memory", "why_tests_cant": "All interleavings with other processes.", "anchors": ["coda/shm_hash_map.hpp:iterator", "coda/shm_hash_map.hpp:begin", "coda/shm_hash_map.hpp:end"]}
{"id": "C128", "title": "Messages of different sizes come out as they went in", "statement": "Messages of any sizes up to that of a box, put one after the other and flushed, come out of get in the same order, all of them and unchanged; nothing outside of a box is read or written.", "quantifier": "all message classes whose deserialize reads back what serialize wrote, all lists of messages, all box sizes, all ways to use the object passed to get", "why_tests_cant": "All lists of messages of all sizes.", "anchors": ["coda/shm_queue.tcc:queue<_T>::put", "coda/shm_queue.tcc:queue<_T>::get", "coda/shm_queue.tcc:box::is_space_for", "coda/shm_queue.hpp:serializable"]}
{"id": "C129", "title": "Processes may connect to a queue at any time", "statement": "When several processes connect to the same key file at any time, for the first time or later, at most one of them is in a critical section at any time, each finds a queue with its parameters, and no connect takes away boxes, registers or the count of boxes; connect ends as soon as others leave their critical sections.", "quantifier": "all numbers of processes, all schedules of the system calls and writes of connect and of the operations of connected processes, all queue parameters", "why_tests_cant": "All interleavings of connecting processes with each other and with users.", "anchors": ["coda/shm_queue.tcc:queue<_T>::connect", "coda/shm_queue.tcc:queue<_T>::connect_sem", "coda/shm_queue.tcc:queue<_T>::connect_shm", "coda/shm_queue.tcc:lock_queue"]}
{"id": "C130", "title": "A process killed while it connects to a queue does no harm", "statement": "After a process is killed at any place in connect or in an operation, another process can connect and finds the queue as the operations have left it.", "quantifier": "all kill points, all numbers of processes, all schedules before and after", "why_tests_cant": "All crash points.", "anchors": ["coda/shm_queue.tcc:queue<_T>::connect", "coda/shm_queue.tcc:queue<_T>::connect_sem", "coda/shm_queue.tcc:queue<_T>::connect_shm"]}
{"id": "C131", "title": "Freeing a string storage gives back all its memory once", "statement": "After any use of a string storage, freeing it releases every block that it has allocated, each exactly once, and no block of others; until then no call uses memory that is not allocated; a storage that was freed can be freed again or used again.", "quantifier": "all histories of additions, searches and accesses to user data, all states of the heap before", "why_tests_cant": "All histories and sizes.", "anchors": ["coda/stringstorage.c:string_storage_free", "coda/stringstorage.c:string_storage_free_struct", "coda/stringstorage.c:allocate_reallocate_array", "coda/stringstorage.c:internal_find_add"]}
{"id": "C132", "title": "A string storage survives lack of memory", "statement": "If an allocation fails in an addition, the addition returns 0 and the storage is as it was: its strings are found, it can be freed, nothing is lost. Calls that need no memory work.", "quantifier": "all histories, all calls of calloc and realloc that fail", "why_tests_cant": "All failing allocations at all places.", "anchors": ["coda/stringstorage.c:internal_find_add", "coda/stringstorage.c:allocate_reallocate_array", "coda/stringstorage.c:string_storage_add"]}
{"id": "C133", "title": "A set of the cache that throws leaves the cache as it was", "statement": "If set ends with an exception (no memory for the entry, or the assignment of the value throws), the cache holds the same values as before, and all later calls work as if the call had not been made.", "quantifier": "all histories of calls, all calls that throw, all sizes and limits", "why_tests_cant": "All places where a call can throw, in all histories.", "anchors": ["coda/cache.tcc:set", "coda/cache.tcc:drop_last_unused", "coda/cache.tcc:erase"]}
{"id": "C134", "title": "No signal is lost, and masks do what they say", "statement": "After coda_signal_init or coda_signal_init_norestart, a handled signal that arrives at any moment sets its flag, at the latest when it is unblocked, and never ends the process; flags are set by their signals only, and not while these are blocked; coda_signal_mask blocks, unblocks or replaces exactly the named handled signals, and handlers leave the mask as it was.", "quantifier": "all sequences of signals, deliveries, nested handlers, calls of coda_signal_mask and steps of the main program, all masks and former actions", "why_tests_cant": "All interleavings of signals with the program.", "anchors": ["coda/daemon.c:coda_signal_init", "coda/daemon.c:coda_signal_init_norestart", "coda/daemon.c:coda_signal_mask", "coda/daemon.c:coda_signal_handle"]}
{"id": "C135", "title": "A loop that waits ends on SIGTERM", "statement": "In a program with the loop while (!coda_terminate) wait();, after SIGINT or SIGTERM the loop ends without waiting for anything else; with coda_signal_init_norestart the wait is interrupted.", "quantifier": "all moments at which the signal arrives, all other signals, both initialisations", "why_tests_cant": "All interleavings of signals with the program.", "anchors": ["coda/daemon.c:coda_signal_init", "coda/daemon.c:coda_signal_init_norestart", "coda/daemon.h:coda_terminate"]}
{"id": "C136", "title": "unflush waits as long as it is told and takes one box", "statement": "unflush(flags, usec) gives the oldest box at once if there is one; otherwise it waits usec microseconds, not at all with IPC_NOWAIT, and gives a box if one is flushed meanwhile; each box is received once, also when readers exit.", "quantifier": "all histories of calls of any number of processes and queues, all times and flags, boxes that arrive during a wait, exits", "why_tests_cant": "All values of the parameters, all histories and arrival times.", "anchors": ["coda/shm_queue.tcc:unflush", "coda/shm_queue.tcc:flush", "coda/shm_queue.hpp:unflush"]}
{"id": "C137", "title": "Pointers returned by get live as long as the entry", "statement": "The pointer that get returns can be followed as long as the entry stays in the cache, whatever else is set, got and erased, and gives the entry's current value; once the entry has left the cache it must not be followed any more, also if the key is set again.", "quantifier": "all histories before and after the get, all keys, values, limits", "why_tests_cant": "All histories; following a dead pointer may seem to work in a test.", "anchors": ["coda/cache.tcc:get", "coda/cache.tcc:set", "coda/cache.tcc:erase"]}
{"id": "C138", "title": "dbg prints the contents of the cache", "statement": "dbg ends, and prints the number of entries, their size, the limit, and each entry once in the order in which they would be dropped, with its size and time and the addresses of its neighbours.", "quantifier": "all histories, all times", "why_tests_cant": "All histories; the walk along the list must meet no bad pointer and end.", "anchors": ["coda/cache.tcc:dbg"]}
{"id": "C139", "title": "A copy of a cache is a cache of its own", "statement": "A copy gives what the original contains; using, changing or destroying either leaves the other as it is.", "quantifier": "all histories of the original, all uses of the two", "why_tests_cant": "All histories of both objects.", "anchors": ["coda/cache.hpp:coda_cache", "coda/cache.tcc:set", "coda/cache.tcc:erase"]}
{"id": "C140", "title": "A value in the cache can be an argument of set", "statement": "set(k, *get(j)) sets k to the value of j, whether k is j, another key or a new one, and also if the call drops the entry of j.", "quantifier": "all histories, keys, values and limits", "why_tests_cant": "All histories; a reference into an entry that is freed during the call may seem to work in a test.", "anchors": ["coda/cache.tcc:set", "coda/cache.tcc:get", "coda/cache.tcc:drop_last_unused"]}
{"id": "C141", "title": "No line is lost or torn when logs are rotated", "statement": "Whatever threads and processes log while logs are created or rotated and files are renamed or removed: each line is in one file, once, whole, and the lines of a thread are in the order of its calls.", "quantifier": "all numbers of processes and threads, schedules, renames and points at which a run ends", "why_tests_cant": "All schedules of loggers against the steps of a rotation.", "anchors": ["coda/logger.c:log_create", "coda/logger.h:log_rotate", "coda/system.c:coda_fdopen", "coda/system.c:coda_fdmove"]}
{"id": "C142", "title": "log_create switches the log or leaves it", "statement": "If log_create succeeds, the level is set and all that the process logs from then on is in the file that path named during the call; if it fails, the log and its level are as before.", "quantifier": "all schedules of other threads and processes, renames, failures of system calls", "why_tests_cant": "All schedules and failures.", "anchors": ["coda/logger.c:log_create", "coda/system.c:coda_fdopen", "coda/system.c:coda_fdmove"]}
{"id": "C143", "title": "The command line of a daemon", "statement": "coda_getopt_parse understands -c FILE, -p FILE, -d, -D and --config, --pid, --daemon, --no-daemon in every way of writing them (bundled, attached, with = or as the next word, abbreviated) and in every order, mixed with operands: the last option of a kind counts, what was not given is NULL or 0, the operands stay in order behind optind; it returns -1 if and only if there is an unknown option, a missing argument or an argument where none is allowed.", "quantifier": "all command lines", "why_tests_cant": "Unbounded command lines and ways of writing.", "anchors": ["coda/daemon.c:coda_getopt_parse", "coda/daemon.c:coda_getopt_opts", "coda/daemon.h:coda_getopt"]}
{"id": "C144", "title": "coda_getopt_parse can be called again", "statement": "A second call of coda_getopt_parse with the same arguments gives the same settings.", "quantifier": "all command lines, histories of two calls", "why_tests_cant": "Depends on state that the first call leaves behind.", "anchors": ["coda/daemon.c:coda_getopt_parse"]}
{"id": "C145", "title": "Messages between processes, from put to get", "statement": "Any number of processes that only write (put, flush) and any number that only read (unflush, get) on one queue: every message that get gives to a process was put by some process, no message is got twice, the messages of one writer come out in the order in which it put them, and each reader gets them in the order of the boxes. If moreover no flush finds the ring full, the writers have flushed, the queue is empty and readers read each box up, every message for which put returned true has been got.", "quantifier": "all numbers of processes, message classes of one size, ring and box sizes, and interleavings of single accesses", "why_tests_cant": "Unboundedly many schedules and messages.", "anchors": ["coda/shm_queue.tcc:put", "coda/shm_queue.tcc:flush", "coda/shm_queue.tcc:unflush", "coda/shm_queue.tcc:get"]}
{"id": "C146", "title": "One handle for reading and writing", "statement": "The same holds if a process uses one queue object for get and for put, and for message classes whose deserialize accepts any bytes.", "quantifier": "all schedules", "why_tests_cant": "Depends on what is left in the current box by the other use.", "anchors": ["coda/shm_queue.hpp:queue", "coda/shm_queue.tcc:put", "coda/shm_queue.tcc:get"]}
{"id": "C147", "title": "Different key files, different queues and maps", "statement": "Queues (or maps) that are connected with different existing files do not influence each other: what one group of handles gets from its calls does not depend on the calls of the others.", "quantifier": "all histories of calls, all groups of handles, all files (number and device) ", "why_tests_cant": "The key has 24 bits that depend on the file; whether two files clash depends on the numbers of the file system.", "anchors": ["coda/shm_queue.tcc:connect_shm", "coda/shm_queue.tcc:connect_sem", "coda/shm_hash_map.tcc:connect_shm", "coda/shm_hash_map.tcc:connect_sem"]}
{"id": "C148", "title": "A queue and a map with the same key file", "statement": "A queue and a hash map can be connected with the same file without disturbing each other.", "quantifier": "all histories of calls on the one before the other connects", "why_tests_cant": "Depends on the state that the other class leaves in the shared semaphores.", "anchors": ["coda/shm_queue.tcc:connect_sem", "coda/shm_hash_map.tcc:connect_sem", "coda/shm_hash_map.tcc:lock_write_rw", "coda/shm_queue.tcc:lock_queue"]}
{"id": "C149", "title": "Copies of hash maps", "statement": "Objects of class hash_map can be copied, assigned and inherited by child processes: every copy that was made from a connected object works on the same map, and disconnecting or destroying one copy does not disturb the others.", "quantifier": "all histories of calls and copies, all keys and numbers of objects", "why_tests_cant": "Whether a copy stays usable depends on everything that happens to the other copies.", "anchors": ["coda/shm_hash_map.hpp:hash_map", "coda/shm_hash_map.tcc:disconnect", "coda/shm_pool.hpp:pool", "coda/shm_stack.hpp:stack"]}
{"id": "C150", "title": "Queues and fork", "statement": "A process that has a connected queue object can fork, and parent and child go on using the queue like two processes that connected on their own: every message is got at most once and only if it was put.", "quantifier": "all schedules of any number of processes, all points between calls at which they fork", "why_tests_cant": "The effect depends on what is in the current box at the moment of the fork and on all later schedules.", "anchors": ["coda/shm_queue.hpp:queue", "coda/shm_queue.tcc:put", "coda/shm_queue.tcc:get", "coda/shm_queue.tcc:flush"]}
{"id": "C151", "title": "Copies of queues", "statement": "Queue objects can be copied and assigned: each object keeps a box of its own, can be used and destroyed without disturbing the others, and no memory and no mapping is lost.", "quantifier": "all histories of construction, connect, copies, assignments, put, get, flush, unflush, disconnect and destruction of any number of objects", "why_tests_cant": "Whether memory is released once, twice or never depends on the order in which all copies are used and destroyed.", "anchors": ["coda/shm_queue.hpp:queue", "coda/shm_queue.hpp:box", "coda/shm_queue.tcc:deallocate", "coda/shm_queue.tcc:disconnect"]}
{"id": "C152", "title": "Queues whose processes are killed: messages", "statement": "If processes are killed while they use a queue, the others still only get messages that were put, each at most once, and those of one sender in order.", "quantifier": "all schedules of any number of processes, all points between two memory accesses or system calls at which any of them is killed", "why_tests_cant": "There is a kill point between any two accesses of any process, and the damage shows much later in another process.", "anchors": ["coda/shm_queue.tcc:flush", "coda/shm_queue.tcc:unflush", "coda/shm_queue.tcc:lock_queue", "coda/shm_queue.tcc:put", "coda/shm_queue.tcc:get"]}
{"id": "C153", "title": "A put that is refused leaves no trace", "statement": "If serialize of the message class returns false, put returns false and the message is got by nobody; all messages whose put returned true are got once and in order; nothing is written outside of the box.", "quantifier": "all sequences of put, all message classes with messages of any sizes, all results of serialize each time it is called", "why_tests_cant": "serialize is written by the user and may refuse at any call, at any fill level of the box.", "anchors": ["coda/shm_queue.tcc:put", "coda/shm_queue.tcc:flush", "coda/shm_queue.hpp:serializable"]}
{"id": "C154", "title": "Registers of a queue", "statement": "set_register and get_register of any processes are atomic: each takes effect at one moment between its call and its return, a get returns the last value set; processes that are killed and signals do not change this, and a call never waits for a process that is gone.", "quantifier": "all schedules of any number of processes, all kill points, all interrupted system calls, all offsets and values", "why_tests_cant": "Depends on the interleaving of all processes and on the state of the semaphore after kills and interrupted calls.", "anchors": ["coda/shm_queue.tcc:set_register", "coda/shm_queue.tcc:get_register", "coda/shm_queue.tcc:lock_queue", "coda/shm_queue.tcc:unlock_queue"]}
{"id": "C155", "title": "Messages of different sizes between processes", "statement": "With writers that only write and readers that only read, messages of any sizes: every message got was sent, none is got twice, those of one sender are got in the order sent; put returns true exactly for messages no larger than a box; nothing outside of a box is read or written; if nothing was refused for lack of room and every box is read up with an object of the least size, everything sent is got.", "quantifier": "all classes that keep the contract of serialize and deserialize, all numbers of processes, all schedules, all kills outside of three places, all objects given to get that are not smaller than the least message", "why_tests_cant": "Box boundaries, sizes, interleavings and kill points combine; a test sees a few.", "anchors": ["coda/shm_queue.tcc:put", "coda/shm_queue.tcc:get", "coda/shm_queue.tcc:flush", "coda/shm_queue.tcc:unflush", "coda/shm_queue.tcc:is_space_for"]}
{"id": "C156", "title": "base58 loses no memory and tells lack of it", "statement": "The base58 functions free all memory they allocate, except for the block that the alloc variants hand out; when an allocation fails they say so: *out is NULL and the returned number is negative; they do not use the null pointer.", "quantifier": "all inputs, all outcomes of each allocation", "why_tests_cant": "Failing allocations and the memory in use are not observed by tests of results; inputs of 3 GB are not tried.", "anchors": ["coda/base58.c:coda_base58_encode", "coda/base58.c:coda_base58_encode_alloc", "coda/base58.c:coda_base58_decode", "coda/base58.c:coda_base58_decode_alloc"]}
{"id": "C157", "title": "Sections of the shared hash map can be nested", "statement": "A program that holds a lock of the map (lock_read_rw, lock_write_rw) can call operations that lock by themselves (read, size, insert, erase, clear) and lock again without waiting for itself; a holder of the write lock is alone, however sections are nested; a release never waits; the end of a process gives back all that it held.", "quantifier": "all numbers of processes, all nestings and interleavings of their calls, kills at any point", "why_tests_cant": "Whether a call waits forever is a statement about all continuations; nestings and interleavings are unbounded.", "anchors": ["coda/shm_hash_map.tcc:lock_read_rw", "coda/shm_hash_map.tcc:lock_write_rw", "coda/shm_hash_map.tcc:unlock_read_rw", "coda/shm_hash_map.tcc:unlock_write_rw", "coda/shm_hash_map.hpp:hash_map"]}
{"id": "C158", "title": "A process may fork while it holds a lock of the map", "statement": "When a process forks inside of a section of the map, writers stay excluded until the parent has left its section, the release of the parent does not wait, and after the ends of both nothing stays locked.", "quantifier": "all histories of calls, forks, and ends of any number of processes", "why_tests_cant": "Depends on the order in which parent and child release, end, and are killed; tests with fork try few.", "anchors": ["coda/shm_hash_map.tcc:lock_read_rw", "coda/shm_hash_map.tcc:unlock_read_rw", "coda/shm_hash_map.tcc:lock_write_rw", "coda/shm_hash_map.tcc:unlock_write_rw"]}
{"id": "C159", "title": "Threads that use a synque may be cancelled", "statement": "When a thread is cancelled (pthread_cancel) while it uses the queue or later, the other threads go on: elements are delivered in order and exactly once, and no call waits for the thread that is gone.", "quantifier": "all numbers of threads, all interleavings of their calls, cancellation requests at any time", "why_tests_cant": "The moment at which a request takes effect is up to the scheduler; that a call never returns is a statement about all continuations.", "anchors": ["coda/synque.hpp:get", "coda/synque.hpp:add", "coda/synque.hpp:size"]}
{"id": "C160", "title": "What coda_unix_send and coda_unix_recv say is true of the bytes", "statement": "On a connected stream socket the receiver gets the bytes that the sender was told to have been sent, in order and without loss, whatever the kernel takes at once and whatever signals arrive; when recv returns 0 it has got all of them; send sends all it is given and, as recv does, hides interruptions; a closed peer does not kill the sender.", "quantifier": "all conversations: all data, all cuts by the kernel, all interruptions and errors, all moments of closing", "why_tests_cant": "How the kernel cuts a stream and where signals arrive depends on buffers and timing; tests see few of the cuts.", "anchors": ["coda/socket.h:coda_unix_send", "coda/socket.h:coda_unix_recv"]}
{"id": "C161", "title": "A killed insert leaves the old or the new value, whole", "statement": "If a process is killed at any point of insert, a later read of the key yields the inserted value or what a read yielded before, as a whole, also for values that do not fit in one machine word; all other keys keep their values.", "quantifier": "all types of values (number of words, order in which they are copied), all kill points between stores, all histories", "why_tests_cant": "A kill between two stores of one assignment cannot be placed by a test.", "anchors": ["coda/shm_hash_map.tcc:unprotected_insert", "coda/shm_hash_map.tcc:unprotected_read"]}
{"id": "C162", "title": "Calls on a hash map with values of any size are atomic", "statement": "Any number of processes use one hash map whose values take any number of memory accesses to copy: every call takes effect at one instant between its call and its return, and a value that is read is one that was inserted, as a whole, whatever the interleaving of single accesses.", "quantifier": "all sizes of values, all orders of copying, all numbers of processes, all interleavings of single memory accesses, all kill points", "why_tests_cant": "Torn reads depend on the interleaving of single accesses; a test sees few of them.", "anchors": ["coda/shm_hash_map.tcc:unprotected_read", "coda/shm_hash_map.tcc:unprotected_insert", "coda/shm_hash_map.tcc:lock_read_rw", "coda/shm_hash_map.tcc:lock_write_rw"]}
{"id": "C163", "title": "Threads of one process may share one queue object", "statement": "Any number of threads of a process call put, flush, get and unflush on one connected queue object: the calls return, and the boxes are sent, as if one thread had made the calls in some order; no message whose put returned true is lost, none is returned by two gets, and nothing is written outside of the object's box.", "quantifier": "all numbers of threads, all sequences of calls, all sizes of messages and boxes, all interleavings of single accesses to the object", "why_tests_cant": "The races are a few instructions wide; the class locks the queue inside flush and unflush, so that sharing an object looks safe and works in nearly every run.", "anchors": ["coda/shm_queue.hpp:queue", "coda/shm_queue.tcc:put", "coda/shm_queue.tcc:flush", "coda/shm_queue.tcc:get", "coda/shm_queue.tcc:unflush"]}
{"id": "C164", "title": "Threads may use a hash map like processes do", "statement": "Any number of threads in any number of processes call one hash map at the same time, each process through one object: every call takes effect at one instant between its call and its return; a writer is alone among all threads; when a process ends, the locks of all its threads are given back and no others; a thread that ends alone, by an exception of a value's assignment or by cancellation inside of a section, does not keep the others out.", "quantifier": "all numbers of processes and threads, all calls, all interleavings of single memory accesses, all places where processes and threads end", "why_tests_cant": "The undo of semaphore operations is kept per process, not per thread; what is right after the end of a thread or of a process depends on where each of the others is.", "anchors": ["coda/shm_hash_map.tcc:lock_read_rw", "coda/shm_hash_map.tcc:lock_write_rw", "coda/shm_hash_map.tcc:insert", "coda/shm_hash_map.tcc:unprotected_insert"]}
{"id": "C165", "title": "The semaphores of a hash map may be removed", "statement": "An administrator removes the semaphores of a hash map (ipcrm -s) while processes use it, and processes connect again: a writer is always alone; calls of processes that still have the removed semaphores throw, do not wait, change nothing, and do not hinder the others until they connect again.", "quantifier": "all numbers of processes, all orders of their calls, connects, disconnects, ends, and all moments of removals", "why_tests_cant": "Whether two writers meet depends on where every process is when the semaphores disappear.", "anchors": ["coda/shm_hash_map.tcc:connect_sem", "coda/shm_hash_map.tcc:lock_write_rw", "coda/shm_hash_map.tcc:unlock_write_rw", "coda/shm_hash_map.tcc:lock_read_rw"]}
{"id": "C166", "title": "The semaphores of a queue may be removed", "statement": "An administrator removes the semaphores of a queue (ipcrm -s) while processes use it, and processes connect again: never two processes are inside of the critical section, and when all have connected again every box that was stored is received, in order.", "quantifier": "all numbers of processes, all orders of their calls, all moments of removals, all contents of the ring", "why_tests_cant": "The loss shows only in what later calls never return, for every history after the removal.", "anchors": ["coda/shm_queue.tcc:connect_sem", "coda/shm_queue.tcc:lock_queue", "coda/shm_queue.tcc:flush", "coda/shm_queue.tcc:unflush"]}
{"id": "C167", "title": "A pool in shared memory may be used by several processes at once", "statement": "Processes call allocate and free of one pool in shared memory at the same time: no object is given to two callers, all are objects of the pool, allocate fails only when all objects are in use, no freed object is lost, and no access is outside of the memory of the pool.", "quantifier": "all sizes of pools, all numbers of processes, all interleavings of their single accesses", "why_tests_cant": "The wrong results need two processes between the same two accesses; tests hardly ever meet that moment.", "anchors": ["coda/shm_pool.tcc:allocate", "coda/shm_pool.tcc:free", "coda/shm_stack.tcc:push", "coda/shm_stack.tcc:pop"]}
{"id": "C168", "title": "coda_random_init may be called by all threads", "statement": "Threads call coda_random_init before they draw numbers: after the first call that returned 0, the numbers that the program draws, by whichever threads, come from a seed of the device and are successive numbers of one stream; nothing seeds the generator again.", "quantifier": "all numbers of threads and calls, all interleavings, all outcomes of the system calls", "why_tests_cant": "Needs a second thread between the test of the flag and the store to it.", "anchors": ["coda/random.c:coda_random_init", "coda/random.h:coda_random"]}
{"id": "C169", "title": "Caches can be moved and swapped", "statement": "Moving a coda_cache into a new object or over another one, and std::swap, exchange the contents and limits and nothing else; a cache that has been moved from can be destroyed, assigned to and used again.", "quantifier": "all programs with any number of caches, all histories of calls between the moves", "why_tests_cant": "All programs; wrong pointers show only when their nodes have been freed.", "anchors": ["coda/cache.hpp:coda_cache"]}
{"id": "C170", "title": "Assignment of one cache to another", "statement": "After `a = b` of two coda_cache objects, `a` has the contents and limits of `b`, and what is done to one of them does not change the other; the old entries of `a` are freed.", "quantifier": "all programs with any number of caches, all histories before and after", "why_tests_cant": "All programs; the shared pointers show only after certain calls on either object.", "anchors": ["coda/cache.hpp:coda_cache"]}
{"id": "C171", "title": "Running out of memory while URLs are handled", "statement": "If memory runs out while a coda_url is created, copied or assigned, the call fails in a way that the caller can see (-1 and an empty object, or an exception), and no other object is affected; calls that store no text do not depend on memory at all.", "quantifier": "all texts, flags and parents, all histories of any number of objects, every allocation that may fail", "why_tests_cant": "Needs an allocation that fails at a chosen moment.", "anchors": ["coda/url_parser.cpp:coda_url::create_absolute", "coda/url_parser.cpp:coda_url::create_relative", "coda/url_parser.cpp:coda_url::operator="]}
{"id": "C172", "title": "The shared map on processors that delay and reorder stores", "statement": "Processes that share a map see the same results whether their stores become visible to all others at once, or later, at each process separately and in another order (stores to one word keeping theirs): the system calls that take the locks are enough.", "quantifier": "all calls of any number of processes, all schedules, all delays and orders of arrival of the stores, all kills", "why_tests_cant": "The effects depend on the processor and on timing that tests cannot set.", "anchors": ["coda/shm_hash_map.tcc:lock_read_rw", "coda/shm_hash_map.tcc:lock_write_rw", "coda/shm_hash_map.tcc:unprotected_insert"]}
{"id": "C173", "title": "The shared queue on processors that delay and reorder stores", "statement": "Processes that share a queue send and receive the same boxes whether their stores become visible to all others at once, or later, at each process separately and in another order (stores to one word keeping theirs).", "quantifier": "all calls of any number of processes, all schedules, all delays and orders of arrival of the stores, all kills, all signals", "why_tests_cant": "The effects depend on the processor and on timing that tests cannot set.", "anchors": ["coda/shm_queue.tcc:lock_queue", "coda/shm_queue.tcc:flush", "coda/shm_queue.tcc:unflush"]}
{"id": "C174", "title": "Removing the memory segment of a map in use", "statement": "A hash map that is shared through a key file stays one finite map for all handles of that file, also when its memory segment is removed (ipcrm -m) while it is in use.", "quantifier": "all histories of calls of any number of handles, key files and classes, with segments removed at any points between calls", "why_tests_cant": "The effects depend on when a segment is removed and on who is connected; tests cannot cover all histories.", "anchors": ["coda/shm_hash_map.tcc:connect_shm", "coda/shm_hash_map.tcc:connect_sem", "coda/shm_hash_map.tcc:connect"]}
{"id": "C175", "title": "Removing the memory segment of a queue", "statement": "A queue that is shared through a key file delivers every box that is sent exactly once and no others, in order, also when its memory segment is removed (ipcrm -m) between calls.", "quantifier": "all histories of calls of any number of handles and key files, with segments removed at any points between calls", "why_tests_cant": "The effects depend on when a segment is removed, on the boxes in it and on who is connected; tests cannot cover all histories.", "anchors": ["coda/shm_queue.tcc:connect_shm", "coda/shm_queue.tcc:connect_sem", "coda/shm_queue.tcc:unflush", "coda/shm_queue.tcc:flush"]}
{"id": "C176", "title": "Calls that read a map do not wait for each other", "statement": "While no process is in a call that changes the map, any number of processes (fewer than 32767) can be in read(), size() or their own lock_read_rw() section at the same time: none of them waits for another.", "quantifier": "all numbers of processes, schedules, kills and reachable states", "why_tests_cant": "Whether a lock is granted depends on what all other processes are doing at that moment; tests see few of the combinations.", "anchors": ["coda/shm_hash_map.tcc:lock_read_rw", "coda/shm_hash_map.tcc:read", "coda/shm_hash_map.tcc:size"]}
{"id": "C177", "title": "URLs of any length are created whole", "statement": "create_absolute and create_relative give the same URL that they would give if lengths had no bound: no part of a long text is dropped silently.", "quantifier": "all texts, sizes, parents and flags", "why_tests_cant": "The sizes at which the lengths no longer fit into 32 bits are far beyond what a test allocates.", "anchors": ["coda/url_parser.cpp:create_absolute", "coda/url_parser.cpp:create_relative", "coda/url_parser.hpp:coda_url"]}
{"id": "C178", "title": "A copy of a URL has its text and domain, however long", "statement": "Copy construction and assignment of a coda_url give an object with the same text, domain and lengths, and its strings can be read.", "quantifier": "all URLs that can be created", "why_tests_cant": "The lengths at which the sum of text and domain no longer fits into 32 bits are far beyond what a test allocates.", "anchors": ["coda/url_parser.cpp:coda_url", "coda/url_parser.cpp:operator="]}
{"id": "C179", "title": "A call on a hash map whose value throws leaves the map usable", "statement": "If the assignment of the value type throws inside insert or read, the exception reaches the caller, the map has its contents and size as before, and all processes can go on using it.", "quantifier": "all histories of calls of any number of processes, all points at which an assignment throws, all states it may leave", "why_tests_cant": "The exception can come in any state of the map, and its effect shows in later calls of other processes.", "anchors": ["coda/shm_hash_map.tcc:insert", "coda/shm_hash_map.tcc:read", "coda/shm_hash_map.tcc:unprotected_insert"]}
{"id": "C180", "title": "Mapped memory holds what was written to it", "statement": "Memory that coda_mmap gives can be read, and written if asked for, at every offset below its size until coda_umap; areas that share their writes show the last byte written through any of them, the others the last byte written through themselves; this holds whatever others map.", "quantifier": "all files, all histories of coda_mmap, coda_umap, reads and writes, by any number of processes, with any sizes and flags", "why_tests_cant": "A read depends on all mappings of the file before it; what goes wrong is a signal in a process that did nothing wrong.", "anchors": ["coda/system.c:coda_mmap", "coda/system.h:coda_umap"]}
{"id": "C181", "title": "Iterating without the lock while others insert", "statement": "A loop over a shm::hash_map that takes no lock, while all calls in progress and made meanwhile only read and insert: it never reads outside the segment, it ends after a bounded number of its own steps however much is inserted, it sees no key twice, it misses no key that was in the map when it began, and every pair it sees was in the map or was inserted meanwhile.", "quantifier": "all histories before the loop, all interleavings of the accesses of any number of processes during it, all kills", "why_tests_cant": "Whether a loop meets a half-inserted entry depends on the interleaving of single stores with its reads.", "anchors": ["coda/shm_hash_map.hpp:const_iterator", "coda/shm_hash_map.hpp:begin", "coda/shm_hash_map.tcc:unprotected_insert"]}
{"id": "C182", "title": "Reading a key without the lock", "statement": "A call of unprotected_read(key, out) that takes no lock: whatever other processes do meanwhile it never reads outside the segment; if all calls in progress and made meanwhile only read and insert, it returns after a bounded number of its own steps, it finds every key that was in the map when it began, and the value it delivers was in the map under this key or is inserted under it meanwhile. If others erase, the same should hold for keys that nobody erases.", "quantifier": "all histories before the call, all interleavings of the accesses of any number of processes during it, all kills", "why_tests_cant": "What a read without the lock meets depends on the interleaving of single stores with its loads.", "anchors": ["coda/shm_hash_map.hpp:unprotected_read", "coda/shm_hash_map.tcc:unprotected_read", "coda/shm_hash_map.tcc:unprotected_insert", "coda/shm_hash_map.tcc:unprotected_erase"]}
{"id": "C183", "title": "Counting with a log_array", "statement": "In a new log_array of counters, of any arithmetic type, values counted with get_by_value(v)++ give a histogram: every cell holds the number of values of its power of two, the last cell takes all larger values, the cells add up to the number of values, and swap exchanges two histograms.", "quantifier": "all element types, all numbers of buckets, all sequences of values", "why_tests_cant": "What a cell holds depends on the whole sequence of values and on the range and the initial value of the element type.", "anchors": ["coda/log_array.hpp:log_array_value_holder", "coda/log_array.hpp:get_by_value", "coda/log_array.hpp:swap"]}
{"id": "C184", "title": "Reading a key without the lock on processors that delay stores", "statement": "unprotected_read(key, out) without the lock, on processors whose stores arrive at other processors late: it never reads outside the segment, whatever others do and in whatever order stores arrive; while others only insert, it returns after a bounded number of steps, finds every key that was in the map when it was called, and delivers only values that were inserted under the key.", "quantifier": "all histories before the call, all interleavings, all delays and orders of arrival of single stores, all kills", "why_tests_cant": "The order in which stores reach another processor cannot be chosen by a test, and differs between machines.", "anchors": ["coda/shm_hash_map.hpp:unprotected_read", "coda/shm_hash_map.tcc:unprotected_read", "coda/shm_hash_map.tcc:unprotected_insert"]}
{"id": "C185", "title": "Iterating on processors that delay stores", "statement": "A loop from begin() to end() on processors whose stores arrive at other processors late: between lock_read_rw() and unlock_read_rw() it sees every entry exactly once, all at one instant; without the lock, while others only insert, it stays inside the segment, ends after a bounded number of steps, sees no key twice, sees every key that was in the map when it began, and only pairs that were inserted.", "quantifier": "all histories before the loop, all interleavings, all delays and orders of arrival of single stores, all kills", "why_tests_cant": "The order in which stores reach another processor cannot be chosen by a test, and differs between machines; the loop reads some words twice.", "anchors": ["coda/shm_hash_map.hpp:const_iterator", "coda/shm_hash_map.hpp:begin", "coda/shm_hash_map.hpp:end", "coda/shm_hash_map.tcc:unprotected_insert"]}
{"id": "C186", "title": "The map without any lock, with one process that stores", "statement": "When a single process calls unprotected_insert, unprotected_erase and unprotected_read without taking any lock and all others only call unprotected_read without the lock, the calls of this process return exactly what a finite map of the given capacity returns; no call leaves the segment; a read by another process, while nothing is erased, returns after a bounded number of steps, finds every key that was in the map when it began, and delivers only values inserted under the key. With locks left out by several processes nothing may be lost either.", "quantifier": "all sequences of calls, all interleavings of single accesses to shared memory, all capacities and numbers of buckets, all processes that stop anywhere", "why_tests_cant": "The schedules in which a read meets a half-done insertion are too rare for tests; two unlocked insertions lose entries only under a few of them.", "anchors": ["coda/shm_hash_map.hpp:unprotected_insert", "coda/shm_hash_map.hpp:unprotected_erase", "coda/shm_hash_map.hpp:unprotected_read", "coda/shm_hash_map.tcc:unprotected_insert", "coda/shm_hash_map.tcc:unprotected_erase", "coda/shm_hash_map.tcc:unprotected_read"]}
{"id": "C187", "title": "Changing the map inside an iteration over it", "statement": "A process that walks over the map with begin(), ++ and end() and, in the loop, erases entries that satisfy a condition or replaces values of the entries it meets, while nobody else uses the map, gets through the loop in at most capacity() rounds, meets every entry exactly once and afterwards has exactly the entries that do not satisfy the condition (or all values replaced), whatever it did before.", "quantifier": "all histories of the map, all capacities and numbers of buckets, all conditions and all replacement functions, all operations afterwards", "why_tests_cant": "Whether entries are missed depends on which keys share a bucket and on their order in the chain; the conditions and histories are infinitely many.", "anchors": ["coda/shm_hash_map.hpp:const_iterator", "coda/shm_hash_map.hpp:begin", "coda/shm_hash_map.hpp:end", "coda/shm_hash_map.tcc:unprotected_erase", "coda/shm_hash_map.tcc:unprotected_insert"]}
{"id": "C188", "title": "The map without any lock on processors that delay stores", "statement": "One process calls unprotected_insert, unprotected_erase and unprotected_read without any lock, all others only call unprotected_read, on processors that delay stores and let them arrive in any order that keeps stores to one word in order. Then the calls of the first process return exactly the results of a finite map, nobody ever leaves the segment, and a read by another process returns within a bounded number of steps of its own, finds every key that was in the map when everything had arrived and was not erased since, and delivers only values that were inserted under the key.", "quantifier": "all interleavings and all delays and orders of arrival of the stores, any number of processes and calls, all keys and values, all capacities and numbers of buckets", "why_tests_cant": "The order in which stores become visible is decided by the hardware and cannot be chosen by a test; the number of interleavings is unbounded.", "anchors": ["coda/shm_hash_map.tcc:unprotected_read", "coda/shm_hash_map.tcc:unprotected_insert", "coda/shm_hash_map.tcc:unprotected_erase", "coda/shm_pool.tcc:alloc", "coda/shm_pool.tcc:free"]}
{"id": "C189", "title": "The map without any lock, values of several words", "statement": "Values consist of several words that are copied one by one. One process calls unprotected_insert, unprotected_erase and unprotected_read without any lock, all others only call unprotected_read. Then the calls of the first process return exactly the results of a finite map with whole values and return after a bounded number of steps, nobody ever leaves the segment, and a read by another process while nothing is erased returns within a bounded number of steps of its own, finds every key that is in the map, and delivers a value that was inserted under the key.", "quantifier": "all interleavings of the accesses to single words, any number of words copied in any order, any number of processes and calls, all keys and values, all capacities and numbers of buckets", "why_tests_cant": "A value that is half old and half new shows only if a read falls between two stores of a copy; the number of interleavings is unbounded.", "anchors": ["coda/shm_hash_map.tcc:unprotected_read", "coda/shm_hash_map.tcc:unprotected_insert", "coda/shm_hash_map.tcc:unprotected_erase"]}
{"id": "C190", "title": "Exceptions in insertions of several pairs", "statement": "If copying the value of one of the pairs of insert(pairs, n) throws an exception then either all of the pairs or none of them is in the map afterwards, no entry is lost, and the lock is free again, so that the process and all others can go on using the map.", "quantifier": "all histories of single calls and of insert(pairs, n) in any number of processes, all pairs and all positions of the one that throws, all capacities and numbers of buckets", "why_tests_cant": "The state that an exception leaves depends on the history of the map, on the position of the pair and on which keys were bound; tests try only a few of them.", "anchors": ["coda/shm_hash_map.tcc:insert", "coda/shm_hash_map.tcc:unprotected_insert", "coda/shm_hash_map.tcc:lock_write_rw"]}
{"id": "C191", "title": "Loops over a map that is changed without any lock", "statement": "If one process inserts and erases with unprotected_insert and unprotected_erase, without any lock, then a loop with an iterator in any process, without the lock, comes to its end after a bounded number of steps, never reads outside of the segment, meets no key twice, meets every key that is in the map during the whole loop, and meets only pairs that were inserted.", "quantifier": "all histories of calls without a lock of one process that stores and any number of processes that read and loop, all interleavings of their accesses to the segment, all capacities and numbers of buckets", "why_tests_cant": "The reads of the loop fall between any two stores of the other process; tests meet only a few of these interleavings.", "anchors": ["coda/shm_hash_map.hpp:const_iterator", "coda/shm_hash_map.hpp:begin", "coda/shm_hash_map.tcc:unprotected_insert", "coda/shm_hash_map.tcc:unprotected_erase"]}
{"id": "C192", "title": "Logs that are copied and truncated", "statement": "If another program copies a log file and truncates it while processes log to it then every line is whole, in the copy or in the file, in the order of the calls, and the file has no holes.", "quantifier": "all numbers of processes, all sequences of lines, log_create, fork, copies and truncations, all files", "why_tests_cant": "What a write does depends on the offset that earlier writes and truncations by other programs have left; tests do not truncate logs between arbitrary writes.", "anchors": ["coda/logger.c:log_create", "coda/logger.h:log_fmt", "coda/system.c:coda_fdopen", "coda/daemon.c:coda_daemon_fork"]}
{"id": "C193", "title": "coda_listen and coda_connect use the host that was given", "statement": "For every text of a host and of a port coda_listen and coda_connect either fail or use the address and the port that the texts denote; coda_inet_addr denotes the same address by the same text.", "quantifier": "all texts of hosts and ports, all outcomes of the system calls", "why_tests_cant": "There are infinitely many texts; which of them are addresses is decided by two different parsers.", "anchors": ["coda/socket.h:coda_listen", "coda/socket.h:coda_connect", "coda/socket.h:coda_inet_addr"]}
{"id": "C194", "title": "Messages on datagram sockets arrive whole and in order", "statement": "On datagram sockets of the unix domain every message for which coda_unix_send has returned its length is given whole by exactly one coda_unix_recv, in the order of the sends, whatever signals arrive.", "quantifier": "all numbers of senders, all messages and buffer sizes, all orders of the calls, all system calls that are interrupted or fail", "why_tests_cant": "The calls that are interrupted and the orders of the calls of several senders are unbounded.", "anchors": ["coda/socket.h:coda_unix_send", "coda/socket.h:coda_unix_recv"]}
{"id": "C195", "title": "coda_msleep and signals", "statement": "coda_msleep(ms) returns 0 after at least ms milliseconds, whatever signals arrive; a program that calls it again when it fails sleeps for ms milliseconds in the end.", "quantifier": "all ints, all times at which signals arrive, all delays of the scheduler, all numbers of calls", "why_tests_cant": "The times of signals cannot be enumerated; that a loop does not end is not visible in a test.", "anchors": ["coda/gmtime.h:coda_msleep"]}
{"id": "C196", "title": "Fractions in XML", "statement": "A member of type float, double or long double gets the value of its type that is nearest to the decimal number in the text; values of the type are read exactly, larger numbers are not read as smaller ones; a text that is not a number, or is a number that is too large, is not accepted.", "quantifier": "all texts, all three types", "why_tests_cant": "All texts and values; nearest means that every other value of the type is farther away.", "anchors": ["coda/txml.cpp:setValue"]}
{"id": "C197", "title": "estimate_capacity and the C++ library", "statement": "estimate_capacity(v) is the memory that v takes with the C++ library as it is: short strings inside of their objects, terminators, packed vectors of bool.", "quantifier": "all strings, vectors and numbers, any nesting", "why_tests_cant": "Unbounded nesting and sizes; memory is not visible to a test.", "anchors": ["coda/estimate_capacity.hpp:estimate_capacity"]}
{"id": "C198", "title": "The directories that coda_mkpath makes", "statement": "If coda_mkpath returns 0, all directories of the path are there, whatever other processes make at the same time; it returns 0 if they can be made; nothing else is made or lost, and a call that fails makes nothing.", "quantifier": "all paths, all trees of files and directories, all permissions, all directories that others make between the system calls", "why_tests_cant": "Trees, paths and interleavings are unbounded.", "anchors": ["coda/system.c:coda_mkpath"]}
{"id": "C199", "title": "Pid files that are removed by hand", "statement": "A pid file may be removed by hand when the process whose number it holds has ended: processes that start then succeed, and it never happens that two processes have both succeeded in coda_mkpidf and not stopped.", "quantifier": "all numbers of processes, all interleavings of their system calls, failures of these and kills, all removals", "why_tests_cant": "Histories and the places of the removals in them are unbounded.", "anchors": ["coda/system.c:coda_mkpidf; coda/daemon.c:coda_daemon_stop"]}
