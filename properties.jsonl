{"id": "C01", "title": "next_power_of_two is the least power of two", "statement": "next_power_of_two(n) returns the smallest power of two that is >= n whenever that power is representable in the argument type, and 0 when n = 0 or no representable power of two is >= n.", "quantifier": "every unsigned value n of every width 8/16/32/64", "why_tests_cant": "2^64 inputs; tests sample a few values and one width", "anchors": ["include/cista/next_power_of_2.h: next_power_of_two"]}
{"id": "C02", "title": "Checked arithmetic is exact or throws", "statement": "checked_addition and checked_multiplication, as used by the deserializer's bounds checks, either return the exact mathematical sum / product of all arguments or throw, depending on whether all partial results are representable; they never return a wrapped value and, for addition and for multiplication of non-negative numbers, never perform a signed overflow.", "quantifier": "all argument lists of any length, signed and unsigned types of any width, all values for addition, non-negative values for multiplication (never a wrapped result for negative ones either)", "why_tests_cant": "The overflow frontier is a 2^64 x 2^64 surface for each arity", "anchors": ["include/cista/serialization.h: checked_addition, checked_multiplication"]}
{"id": "C03", "title": "Checksum is independent of how the data is chunked", "statement": "The FNV-1a checksum of a byte sequence does not depend on how it is split into blocks: hashing a file in blocks gives the value hashing the whole buffer gives, so a file written through the file target passes the integrity check of a buffer deserialization.", "quantifier": "all byte sequences and all positive chunk sizes", "why_tests_cant": "Depends on every content and every split point; the block-wise path only starts above 512 kB", "anchors": ["include/cista/hash.h: hash_combine, hash", "include/cista/targets/file.h: file::checksum", "include/cista/targets/buf.h: buf::checksum", "include/cista/chunk.h: chunk"]}
{"id": "C04", "title": "Any single-byte corruption of the payload is detected", "statement": "With integrity enabled, changing exactly one byte of the payload (or any of the stored checksum bytes) of a serialized buffer always makes deserialization reject the buffer; the original buffer is always accepted by the checksum test.", "quantifier": "all payloads, all positions, all replacement byte values", "why_tests_cant": "Tests flip a few bytes of a few buffers; the claim is about every buffer, position and value", "anchors": ["include/cista/hash.h: hash_combine, hash", "include/cista/serialization.h: check, serialize", "include/cista/mode.h"]}
{"id": "C05", "title": "Chunked iteration covers the range exactly once, in order", "statement": "chunk(chunk_size, total, fn) calls fn on consecutive, non-empty, non-overlapping sub-ranges of size at most chunk_size whose concatenation is exactly [0,total), and terminates, for every positive chunk size.", "quantifier": "all chunk sizes > 0, all totals", "why_tests_cant": "Unbounded pairs (chunk_size,total)", "anchors": ["include/cista/chunk.h: chunk"]}
{"id": "C06", "title": "Endian conversion is lossless and host independent", "statement": "Converting an integer to the mode's serialized byte order and back is the identity for every integer width; and the bytes stored for a value are the same whichever endianness the host has.", "quantifier": "all integer values of 1/2/4/8 bytes, both host orders, both modes", "why_tests_cant": "Needs both host byte orders and all values; CI runs on one byte order", "anchors": ["include/cista/endian/conversion.h: endian_conversion_necessary, convert_endian", "include/cista/endian/detection.h"]}
{"id": "C07", "title": "Offset pointers denote the same target after copy and assignment", "statement": "Copy-construct, assign, swap-through-temporary, increment, decrement and compare of relative pointers behave as for a raw pointer to the same target, wherever the relative pointer object itself lives; null stays null and only null compares equal to null.", "quantifier": "all placements of the pointer object, all targets, all sequences of copies", "why_tests_cant": "Placement and distance are 64-bit quantities; tests see only what the allocator returns", "anchors": ["include/cista/containers/offset_ptr.h: offset_ptr"]}
{"id": "C08", "title": "Relative pointers survive relocation", "statement": "If a memory block that contains a relative pointer and its target is copied bytewise to any other address, the copied pointer designates the copied target; null stays null.", "quantifier": "all blocks, all pointer positions, all target positions, all relocation distances", "why_tests_cant": "Quantifies over all base addresses, including wrap-around distances", "anchors": ["include/cista/containers/offset_ptr.h: offset_ptr::get, ptr_to_offset"]}
{"id": "C09", "title": "vector behaves like a sequence under every operation history", "statement": "Starting from an empty vector, any history of push_back, emplace_back, insert (single, repeated, range), erase (position, range), pop_back, resize, reserve, clear, set, copy and move yields the element sequence the corresponding operations on a mathematical list yield; size(), indexing, front/back, iteration and comparisons observe exactly that list; no element is read before it was written and no access leaves the allocation.", "quantifier": "all histories of operations, all element values", "why_tests_cant": "Growth boundaries interact with every operation at every size; histories are unbounded", "anchors": ["include/cista/containers/vector.h: basic_vector"]}
{"id": "C10", "title": "vector operations accept arguments that alias the vector", "statement": "Passing a reference to one of the vector's own elements to push_back / emplace_back / insert has the effect it has for an independent copy of that element.", "quantifier": "all vectors, all aliased positions, all capacities", "why_tests_cant": "Only fails at exact growth boundaries and depends on allocator behaviour, so tests usually pass by luck", "anchors": ["include/cista/containers/vector.h: push_back, emplace_back, reserve"]}
{"id": "C11", "title": "bitset implements a fixed-size array of booleans", "statement": "For every size N and every history of set/set(string)/reset/max/&=/|=/^=/~/<<=/>>=/copy, operator[] and test, count, any, none, size, ==, <, to-string and for_each_set_bit observe exactly the mathematical array of N booleans obtained by the same operations.", "quantifier": "all N > 0, all histories, all operands", "why_tests_cant": "All block-boundary alignments and shift amounts for all N", "anchors": ["include/cista/containers/bitset.h: bitset"]}
{"id": "C12", "title": "bitvec implements a resizable array of booleans", "statement": "For every history of resize/set/set(string)/zero_out/one_out/max/&=/|=/^=/~/<<=/>>=/copy, indexing, count, any, none, next_set_bit, for_each_set_bit, str, ==, < observe exactly the mathematical bit list obtained by the same operations, and never report a bit at or past size().", "quantifier": "all histories, sizes, operands, block types", "why_tests_cant": "Stale bits in the partially used last block only surface after specific sequences of operations", "anchors": ["include/cista/containers/bitvec.h: basic_bitvec"]}
{"id": "C13", "title": "Concurrent get_next hands every set bit to exactly one caller", "statement": "When any number of threads call get_next on a shared bit vector whose set bits are not otherwise modified, each initially set bit is returned to at most one caller, only set bits are returned, and when all callers have received 'none' every bit has been handed out exactly once.", "quantifier": "all interleavings of any number of threads, all initial bit patterns", "why_tests_cant": "Schedules are unbounded; races are not reproducible", "anchors": ["include/cista/containers/bitvec.h: get_next"]}
{"id": "C14", "title": "Atomic fetch_min / fetch_max compute the extremum", "statement": "After any interleaving of fetch_min (fetch_max) calls on a shared cell, the cell holds the minimum (maximum) of its initial value and all values passed.", "quantifier": "all interleavings, all values, all numbers of callers", "why_tests_cant": "Schedules and values are unbounded; compare-exchange failures need real contention", "anchors": ["include/cista/atomic.h: fetch_min, fetch_max"]}
{"id": "C15", "title": "string stores and returns arbitrary text", "statement": "A string constructed or assigned from a character sequence reports exactly that sequence (size, view, data, iteration), independently of whether it is stored inline, on the heap, or referenced, after any history of assignments, copies, moves, resets and erases.", "quantifier": "all byte sequences of every length including NUL bytes, all histories", "why_tests_cant": "The inline/heap boundary, embedded NULs and all contents", "anchors": ["include/cista/containers/string.h: generic_string, basic_string, basic_string_view"]}
{"id": "C16", "title": "String comparisons are lexicographic and representation independent", "statement": "==, !=, <, <=, >, >=, starts_with, ends_with queries and hashing of strings depend only on the characters, agree with lexicographic comparison of the text, and form a total order, regardless of owning/non-owning or inline/heap representation and of whether a string, cstring, string_view or C string is compared.", "quantifier": "all pairs/triples of strings and representations, all program states in which the characters can be read; arguments of starts_with/ends_with shorter than 2^32", "why_tests_cant": "All pairs of contents times representations", "anchors": ["include/cista/containers/string.h: operator==, operator<, starts_with", "include/cista/containers/cstring.h: operator==, operator<", "include/cista/hashing.h: hashing"]}
{"id": "C17", "title": "cstring stores arbitrary bytes and stays NUL-terminated", "statement": "A C-string container built or assigned from bytes reports exactly these bytes (including NULs) and data()[size()] is NUL for owning strings, for every length and every history of assign/copy/move, including assignment from itself.", "quantifier": "all byte sequences and lengths up to 2^32-1, all histories", "why_tests_cant": "Length classification uses narrow integer casts; the bad lengths need gigabytes", "anchors": ["include/cista/containers/cstring.h: generic_cstring, basic_cstring"]}
{"id": "C18", "title": "mutable multimap behaves like a growable sequence of sequences", "statement": "Any history of operator[] creation, emplace_back/push_back, insert, pop_back, erase, resize, clear, reserve on buckets and the container observes the same as the same history on a list of lists; no bucket operation ever changes the content of another bucket.", "quantifier": "all histories over all keys and values", "why_tests_cant": "Bucket relocation, free-list reuse and in-place extension interact only over long histories", "anchors": ["include/cista/containers/mutable_fws_multimap.h: dynamic_fws_multimap_base"]}
{"id": "C19", "title": "mutable multimap storage is partitioned", "statement": "At every point of every history the storage regions of all live buckets and all free-listed regions are pairwise disjoint, lie inside the data array, and together cover it (no element slot is lost or shared).", "quantifier": "all histories", "why_tests_cant": "Global heap-layout invariant over unbounded histories", "anchors": ["include/cista/containers/mutable_fws_multimap.h: grow_bucket, release_bucket, get_free_bucket"]}
{"id": "C20", "title": "mutable multimap reports the right number of elements", "statement": "element_count() equals the sum of all bucket sizes after every history.", "quantifier": "all histories", "why_tests_cant": "Counter drift appears only after specific operation mixes", "anchors": ["include/cista/containers/mutable_fws_multimap.h: element_count, erase, clear, resize"]}
{"id": "C21", "title": "fws_multimap groups values by key", "statement": "After pushing, for each key in turn, its values followed by finish_key, and then finish_map, entry k contains exactly the values pushed for key k, in order; index_size() is the number of keys plus one; iterating visits the entries in key order and iterator arithmetic moves by the stated distance.", "quantifier": "all sequences of groups, all iterator moves", "why_tests_cant": "All group shapes including empty groups at the ends", "anchors": ["include/cista/containers/fws_multimap.h: fws_multimap, fws_multimap_iterator"]}
{"id": "C22", "title": "vecvec behaves like a sequence of sequences", "statement": "Any history of emplace_back, add_back_sized, bucket push_back, resize and clear observes the same as on a list of lists; at(i) throws exactly for i >= size().", "quantifier": "all histories, all indices", "why_tests_cant": "Shrink/grow mixes and bucket growth in the middle are unbounded", "anchors": ["include/cista/containers/vecvec.h: basic_vecvec"]}
{"id": "C23", "title": "nvec stores nested sequences faithfully", "statement": "After emplacing nested containers of depth N, indexing with (i1,...,iN), size(i1,...) and iteration return exactly the emplaced nested content, and at() throws on any out-of-range index.", "quantifier": "all depths, all nestings, all index tuples", "why_tests_cant": "All ragged shapes at all depths", "anchors": ["include/cista/containers/nvec.h: nvec"]}
{"id": "C24", "title": "paged allocator never hands out overlapping pages", "statement": "In every history of create_page / resize_page / free_page, live pages are pairwise disjoint, inside the data array, at least as large as requested, and a page's content is preserved by operations on other pages and by its own growth; free-list bookkeeping stored inside free pages never touches live pages.", "quantifier": "all histories, all sizes", "why_tests_cant": "In-place free lists overwrite data; corruption shows only after reuse", "anchors": ["include/cista/containers/paged.h: paged"]}
{"id": "C25", "title": "paged_vecvec behaves like a sequence of sequences", "statement": "Any history of emplace_back, insert, emplace_back_empty, bucket push_back and insert, element writes, container resize and clear, seen through size, bucket contents, at and iteration, behaves the same as on a list of lists.", "quantifier": "all histories and bucket sizes", "why_tests_cant": "Unbounded histories; the size-type boundary needs > 65535 element buckets", "anchors": ["include/cista/containers/paged_vecvec.h: paged_vecvec"]}
{"id": "C26", "title": "variant assignment stores the assigned value", "statement": "After assigning a value (or another variant) to a variant - by copy or move, whatever it held before - the variant holds that alternative with that value; get/holds_alternative/index/apply agree with it.", "quantifier": "all alternatives, previous states, values and value categories", "why_tests_cant": "The product of previous alternative, new alternative and value category", "anchors": ["include/cista/containers/variant.h: variant::operator=, assign"]}
{"id": "C27", "title": "variant comparison is a total order consistent with equality", "statement": "Comparison of variants never has undefined behaviour, and is the lexicographic order on (alternative index, value).", "quantifier": "all pairs and triples of variants including empty ones", "why_tests_cant": "All combinations incl. valueless states", "anchors": ["include/cista/containers/variant.h: operator==, operator<, apply"]}
{"id": "C28", "title": "tuple layout is sound", "statement": "For every list of element sizes and power-of-two alignments the tuple's elements are placed at aligned, pairwise disjoint offsets inside the tuple's storage, in order; reading element i after writing the elements yields the written values.", "quantifier": "all element type lists", "why_tests_cant": "All size/alignment combinations for all arities", "anchors": ["include/cista/containers/tuple.h: get_offset, get_total_size, tuple"]}
{"id": "C29", "title": "tuple and member-wise comparison is lexicographic", "statement": "==, <, <=, >, >= on tuples are the lexicographic comparison of the elements and are mutually consistent (exactly one of <, ==, > holds when it does for the elements).", "quantifier": "all tuples of all arities", "why_tests_cant": "All arities and values", "anchors": ["include/cista/containers/tuple.h: eq, lt, operators", "include/cista/reflection/comparable.h"]}
{"id": "C30", "title": "Smart pointers own exactly once", "statement": "Any history of creating, moving, resetting and destroying unique_ptr / optional values frees every owned object exactly once, never frees a deserialized (non-owned) object, and after p.reset() or p = nullptr the pointer is null.", "quantifier": "all histories over any number of pointers", "why_tests_cant": "Double frees and leaks depend on full histories", "anchors": ["include/cista/containers/unique_ptr.h: basic_unique_ptr", "include/cista/containers/optional.h: optional"]}
{"id": "C31", "title": "Hash map/set refines a finite map under every history", "statement": "Starting empty, for any hash function, any history of insert/emplace, operator[], insert_or_assign-style writes, erase (key or iterator), find, at, clear, rehash and copy gives the answers a mathematical finite map gives; size() is the number of keys; every key is found exactly when it is present.", "quantifier": "all histories, keys, values and all hash functions, including adversarial collisions", "why_tests_cant": "Histories and hash collisions are unbounded; tombstones and group wrap-around need long specific histories", "anchors": ["include/cista/containers/hash_storage.h: hash_storage"]}
{"id": "C32", "title": "Hash lookups terminate", "statement": "find / insert / erase terminate on every reachable table, however full of tombstones it is and however keys collide.", "quantifier": "all reachable tables, all keys, all hash functions", "why_tests_cant": "Non-termination cannot be observed by a test and requires special fill patterns", "anchors": ["include/cista/containers/hash_storage.h: find_impl, find_first_non_full, probe_seq, was_never_full"]}
{"id": "C33", "title": "Hash iteration visits each entry exactly once and equality is extensional", "statement": "Iterating a map or set visits every stored entry exactly once and nothing else; two maps compare equal iff they represent the same finite map, independent of insertion order and erase history.", "quantifier": "all reachable tables and pairs of tables", "why_tests_cant": "Iteration order and layout depend on the full history", "anchors": ["include/cista/containers/hash_storage.h: iterator, operator=="]}
{"id": "C34", "title": "Hashing is consistent with equality", "statement": "Equal values hash equally; textual keys with the same characters hash equally whichever string type they have, so heterogeneous lookup finds the key.", "quantifier": "all values of the supported (nested) key shapes", "why_tests_cant": "All values of an unbounded family of types", "anchors": ["include/cista/hashing.h: hashing", "include/cista/hash.h: hash", "include/cista/equal_to.h"]}
{"id": "C35", "title": "R-tree search returns exactly the intersecting entries", "statement": "After any history of inserts and deletes, search(min,max) reports exactly the multiset of stored entries whose rectangle intersects the query rectangle (each stored entry once), unless the callback asks to stop.", "quantifier": "all histories, all rectangles, all dimensions and node capacities", "why_tests_cant": "Node splits, hint paths and deletions interact over unbounded histories", "anchors": ["include/cista/containers/rtree.h: insert, delete_element, search, node_search, node_split"]}
{"id": "C36", "title": "R-tree size and structure stay consistent", "statement": "After any history the element count equals the number of stored entries, every node's bounding rectangle contains everything below it, freed nodes are never reachable, and insertion terminates.", "quantifier": "all histories", "why_tests_cant": "Structural invariants over unbounded histories", "anchors": ["include/cista/containers/rtree.h: node_insert, node_delete, delete_0, node_new, add_to_free_list"]}
{"id": "C37", "title": "Serialize-then-deserialize reproduces the value", "statement": "For every value built from integers, aggregates/arrays, relative pointers, vectors, strings, unique_ptrs, hash tables, optionals and variants, deserializing the serialized bytes at any sufficiently aligned address yields a value equal to the original, in both byte orders.", "quantifier": "all types of the supported universe, all values, all load addresses", "why_tests_cant": "Unbounded universe of types/values and of load addresses", "anchors": ["include/cista/serialization.h: serialize, deserialize"]}
{"id": "C38", "title": "Pointers inside serialized data are re-linked", "statement": "A pointer to an object that is serialized (before or after the pointer, as an indexed value, unique_ptr target or element of an indexed vector) designates the corresponding copy after deserialization; null and void pointers become null; a pointer to anything not serialized becomes null.", "quantifier": "all object graphs including cycles and forward references", "why_tests_cant": "All graph shapes and serialization orders", "anchors": ["include/cista/serialization.h: serialization_context::resolve_pointer, resolve_vector_range_ptr, pending_"]}
{"id": "C39", "title": "Checked deserialization never accesses memory outside the buffer", "statement": "In checked mode, for every byte string whatsoever, deserialization either throws or returns a value all of whose pointers, vectors, strings and hash tables lie inside the buffer and are correctly aligned; it never reads or writes outside the buffer in doing so.", "quantifier": "all byte strings, all addresses, all types of the supported universe", "why_tests_cant": "All adversarial inputs; fuzzing samples", "anchors": ["include/cista/serialization.h: check, check_ptr, check_state, recurse, deserialize"]}
{"id": "C40", "title": "Checked deserialization terminates", "statement": "In checked and deep-checked mode, deserialization of any byte string terminates, including for cyclic pointer graphs.", "quantifier": "all byte strings", "why_tests_cant": "Non-termination cannot be tested", "anchors": ["include/cista/serialization.h: deep_check_context::add_checked, recurse"]}
{"id": "C41", "title": "Valid data passes the deserialization checks", "statement": "Every buffer produced by serialize from a value built through the public API is accepted by a checked deserialization (no false rejection).", "quantifier": "all values of the supported containers reachable by any history", "why_tests_cant": "Internal states reachable only by specific histories may violate the checks", "anchors": ["include/cista/serialization.h: check_state", "include/cista/containers/hash_storage.h: rehash", "include/cista/containers/string.h: erase"]}
{"id": "C42", "title": "Deserialized hash tables that pass the checks are safe to query", "statement": "A hash table accepted by checked deserialization answers find without undefined behaviour and in finite time, even for adversarial bytes.", "quantifier": "all byte strings accepted by the checks", "why_tests_cant": "Adversarial control bytes are an exponential space", "anchors": ["include/cista/serialization.h: check_state(hash_storage)", "include/cista/containers/hash_storage.h: find_impl"]}
{"id": "C43", "title": "The root object is found where it was written", "statement": "The offset at which serialize places the root object equals the offset at which deserialize expects it, for every mode combination and root alignment.", "quantifier": "all mode flag combinations, all root types", "why_tests_cant": "All combinations of flags and alignments", "anchors": ["include/cista/serialization.h: integrity_start, data_start, serialize, deserialize", "include/cista/mode.h: is_mode_enabled, is_mode_disabled"]}
{"id": "C44", "title": "Targets produce identical, aligned, gap-free-defined output", "statement": "Writing the same sequence of blocks to a memory buffer and to a file yields the same byte string: every block at the next multiple of its alignment, padding zeroed, returned offset = block position; patch writes only change the patched bytes and out-of-range patches throw.", "quantifier": "all sequences of writes, sizes and alignments, all buffer base addresses", "why_tests_cant": "Depends on the allocator's base address and write sequences", "anchors": ["include/cista/targets/buf.h: buf::write", "include/cista/targets/file.h: file::write"]}
{"id": "C45", "title": "flat_matrix cells are independent", "statement": "For every matrix whose dimensions are accepted, writing cell (i,j) changes only cell (i,j), reading it back yields the written value, and every in-range index pair is inside the storage.", "quantifier": "all dimensions, index pairs", "why_tests_cant": "All dimensions incl. products beyond 2^32", "anchors": ["include/cista/containers/flat_matrix.h: flat_matrix"]}
{"id": "C46", "title": "mmap-backed vectors persist their content", "statement": "Closing and reopening a file-backed vector yields exactly its elements at the time of closing, for every history of push_back, resize, insert, reserve, clear.", "quantifier": "all histories including reserve", "why_tests_cant": "Crash/reopen points are unbounded; file length bookkeeping depends on the history", "anchors": ["include/cista/containers/mmap_vec.h: basic_mmap_vec", "include/cista/mmap.h: mmap::resize"]}
{"id": "C47", "title": "Bit counting primitives agree with their mathematical meaning", "statement": "leading_zeros, trailing_zeros and popcount return the number of leading zero bits, trailing zero bits and one bits for every non-zero input, for both the constexpr and the intrinsic variant.", "quantifier": "all 32/64-bit inputs", "why_tests_cant": "2^64 inputs", "anchors": ["include/cista/bit_counting.h"]}
{"id": "C48", "title": "Mode flags combine independently", "statement": "is_mode_enabled / is_mode_disabled report exactly the flags that were or-ed into a mode value.", "quantifier": "all combinations of flags", "why_tests_cant": "All subsets of flags", "anchors": ["include/cista/mode.h"]}
{"id": "C49", "title": "Atomic bit writes to different indices do not interfere", "statement": "When threads concurrently call set<true> on pairwise different indices of one bit vector, every bit ends with the last value its own thread wrote, whatever the interleaving, and all other bits are unchanged - even for bits in the same block.", "quantifier": "all interleavings, all vectors, all numbers of threads and writes", "why_tests_cant": "Lost updates need real contention on a block", "anchors": ["include/cista/containers/bitvec.h: set<IsAtomic>", "include/cista/atomic.h: fetch_or, fetch_and"]}
{"id": "C50", "title": "vector destroys every element exactly once", "statement": "In every history of vector operations every constructed element is destroyed exactly once before its storage is reused or released, and every allocation is released exactly once; memory of a deserialized (non-owning) vector is never released.", "quantifier": "all histories", "why_tests_cant": "Leaks and double frees of particular histories only show under instrumentation", "anchors": ["include/cista/containers/vector.h: reserve, deallocate, set, resize, erase"]}
{"id": "C51", "title": "vector insert and erase return the position they promise", "statement": "insert returns an iterator to the first inserted element and erase an iterator to the element following the erased ones, as for the standard sequence container.", "quantifier": "all vectors, positions and counts", "why_tests_cant": "The returned iterator is rarely checked", "anchors": ["include/cista/containers/vector.h: insert, erase"]}
{"id": "C52", "title": "mutable multimap iterators move as promised", "statement": "Incrementing and decrementing a bucket iterator are inverse, decrementing end() reaches the last bucket, and erase on a bucket returns an iterator to the element following the erased ones, as for the standard sequence container; the difference of two bucket iterators is their signed distance, comparisons order positions, and it[n] is the bucket n further.", "quantifier": "all maps, iterators, positions", "why_tests_cant": "The wrong direction is only visible when the operator is used, the returned iterator is rarely checked", "anchors": ["include/cista/containers/mutable_fws_multimap.h: bucket_iterator::operator--, bucket::erase"]}
{"id": "C53", "title": "Copying an optional yields an equal optional", "statement": "After any history of constructing, copying, moving, assigning and destroying optionals, each optional has exactly the value (or emptiness) given to it: has_value() reports it, value() returns it or throws when empty.", "quantifier": "all histories over any number of optionals, all values", "why_tests_cant": "Which constructor a copy selects depends on const-ness of the source; histories are unbounded", "anchors": ["include/cista/containers/optional.h: optional"]}
{"id": "C54", "title": "Memory mappings are released completely", "statement": "Destroying a memory-mapped file object leaves none of its pages mapped, whatever was mapped and resized before.", "quantifier": "all histories of resizes, all sizes", "why_tests_cant": "A leaked address range is invisible to functional tests", "anchors": ["include/cista/mmap.h: ~mmap, unmap"]}
{"id": "C55", "title": "Loading without conversion never writes", "statement": "Deserializing data with offset pointers whose byte order matches the machine does not modify a single byte of memory, in any mode and for any input, so that read-only mappings can be loaded in place.", "quantifier": "all byte strings, all types of the supported universe, all modes", "why_tests_cant": "A test sees only the inputs it tries; a hidden write is a crash on a read-only mapping", "anchors": ["include/cista/serialization.h: deserialize(std::uint8_t const*), convert_endian_and_ptr"]}
{"id": "C56", "title": "Type hashes are well defined", "statement": "For every type built from finitely many structs (including structs that refer to each other recursively through pointers or containers), type_hash<T>() terminates and returns a value; static_type_hash<T>() does too if at most NMaxTypes different structs, pointers and scalars occur. The result does not depend on the names of structs, pointer and integer types as long as different types have different names.", "quantifier": "all struct declarations, recursive or not; all types over them; all consistent renamings; both hash functions", "why_tests_cant": "Types are compile-time objects: a test fixes finitely many of them; recursion through arbitrary struct graphs needs an argument about the set of types already seen", "anchors": ["include/cista/type_hash/type_hash.h: type_hash", "include/cista/type_hash/static_type_hash.h: static_type_hash, count_map::add"]}
{"id": "C57", "title": "The version word detects changed types", "statement": "If one place of a type is changed (array length, kind of container, variant or tuple, bucket size, strong tag) - in the root type or in a member of any struct reachable from it, also behind pointers and in recursive types - or an integer type in use gets another size, then type_hash<T>() (and static_type_hash<T>()) changes, so data written WITH_VERSION for the old type is rejected.", "quantifier": "all programs, all single changes, all positions of the change", "why_tests_cant": "Collisions of a 64 bit hash cannot be excluded by sampling; the position of the change and the set of types seen before it range over an infinite space", "anchors": ["include/cista/type_hash/type_hash.h: type_hash", "include/cista/type_hash/static_type_hash.h: static_type_hash", "include/cista/hash.h: hash_combine"]}
{"id": "C58", "title": "bitvec keeps all promises for histories without stray padding bits", "statement": "As long as a bit vector is shrunk, shifted left, flipped or filled blockwise only at sizes that are multiples of the block size (growing, setting bits, and/or/xor, right shifts within the size and copies are unrestricted), all observers answer for the bit list of the specification, next_set_bit(i) is the first set bit at or after i for every i, and threads calling get_next concurrently receive every set bit exactly once.", "quantifier": "all block widths, all numbers of vectors, all such histories, all i, all interleavings", "why_tests_cant": "Padding bits depend on the whole history; interleavings are unbounded", "anchors": ["include/cista/containers/bitvec.h: basic_bitvec"]}
{"id": "C59", "title": "vector is a sequence with exact lifetimes for plain histories", "statement": "For histories that do not shrink by resize, do not set or copy-assign onto a non-empty vector and do not insert an empty range before the end: no undefined behaviour, every element is destroyed exactly once, all observers report the specified list, each allocation has exactly one owner, and nothing stays allocated when the vectors are gone.", "quantifier": "all histories of plain operations, all element types, 32 and 64 bit size types", "why_tests_cant": "Reallocation and lifetimes over unbounded histories", "anchors": ["include/cista/containers/vector.h: basic_vector"]}
{"id": "C60", "title": "string stores text without NUL characters", "statement": "Text without NUL characters is stored and returned exactly by strings and string views of every inline capacity, through every history of assignments, references, copies, moves, resets, erases and character writes in which no string is assigned from itself; nothing is leaked or owned twice.", "quantifier": "all such histories, all texts, character widths, inline capacities", "why_tests_cant": "Representation switches between inline, heap and view over unbounded histories", "anchors": ["include/cista/containers/string.h: generic_string, basic_string, basic_string_view"]}
{"id": "C61", "title": "cstring stores bytes of length below 2^31", "statement": "Byte strings of length below 2^31, NUL bytes included, are stored and returned by cstring and cstring_view; owning strings are NUL-terminated; exactly the long owning strings occupy heap memory - for every history in which no string is assigned from itself or moved onto a string on the heap.", "quantifier": "all such histories and byte strings", "why_tests_cant": "Representation switches over unbounded histories", "anchors": ["include/cista/containers/cstring.h: generic_cstring, basic_cstring, basic_cstring_view"]}
{"id": "C62", "title": "vecvec without resize is a list of lists", "statement": "Every history of appending buckets, pushing to the last bucket, writing elements and clearing, without resize, leaves size, iteration, every bucket and every element as in the list of lists.", "quantifier": "all such histories, all element types, all index widths", "why_tests_cant": "Histories are unbounded", "anchors": ["include/cista/containers/vecvec.h: basic_vecvec"]}
{"id": "C63", "title": "Hash map without explicit rehash is a finite map", "statement": "For every hash function and every history of fewer than 2^60 operations without an explicit rehash() call, all answers are those of a finite map, lookups end after at most capacity()+1 groups, iteration visits every entry once and nothing is leaked.", "quantifier": "all hash functions, all such histories", "why_tests_cant": "Adversarial collisions and tombstone patterns are unbounded", "anchors": ["include/cista/containers/hash_storage.h: hash_storage"]}
{"id": "C64", "title": "Hash map filled without erasing survives serialization", "statement": "A hash map built by any history without erase and without explicit rehash passes the checks of deserialization when written, and the loaded map gives the same answer for every key and iterates the same entries.", "quantifier": "all hash functions, all such histories", "why_tests_cant": "The layout depends on the whole history", "anchors": ["include/cista/containers/hash_storage.h: hash_storage", "include/cista/serialization.h: check_state"]}
{"id": "C65", "title": "File-backed vector without reserve persists its elements", "statement": "Through every history of appends, insertions, resizes, writes and close/reopen without an explicit reserve call, a file-backed vector holds the specified elements, and closing it leaves exactly their bytes in the file.", "quantifier": "all such histories, element sizes, page sizes", "why_tests_cant": "File length bookkeeping depends on the history", "anchors": ["include/cista/containers/mmap_vec.h: basic_mmap_vec", "include/cista/mmap.h: mmap"]}
{"id": "C66", "title": "Owning unique_ptrs own exactly once", "statement": "With owning unique_ptrs only, every history of creating, moving, resetting, nulling and destroying pointers deletes no object twice; an object is alive exactly while a pointer owns it, and all objects are gone when the pointers are.", "quantifier": "all such histories over any number of pointers", "why_tests_cant": "Histories are unbounded", "anchors": ["include/cista/containers/unique_ptr.h: basic_unique_ptr"]}
{"id": "C67", "title": "R-tree of default capacity is a multiset of rectangles", "statement": "With the default node capacity of 64 and fewer than 2^31 insertions, every insert, delete, search and size answers as for a multiset of rectangles with values, and a search reports exactly the stored entries meeting the query.", "quantifier": "all such histories, all dimensions, all rectangles over a totally ordered coordinate type", "why_tests_cant": "Splits, hint paths and deletions interact over unbounded histories", "anchors": ["include/cista/containers/rtree.h: rtree"]}
{"id": "C68", "title": "mutable multimap without erase(key) counts and stores exactly", "statement": "Without erase(key), every history within the size limits leaves the map equal to the specified list of lists (at, iteration, size), operations that exceed the largest bucket throw and change nothing, and element_count() is the number of stored elements.", "quantifier": "all such histories, 32 and 64 bit index types, all bucket size limits", "why_tests_cant": "Free lists of released buckets depend on the whole history", "anchors": ["include/cista/containers/mutable_fws_multimap.h: dynamic_fws_multimap_base"]}
{"id": "C69", "title": "Variants that always hold a value store and compare correctly", "statement": "Variants that are never default constructed, and are changed only by emplace, moves, swap and assignment of rvalues, always hold the value last put there; the six comparisons of any two of them form a strict total order that agrees with equality.", "quantifier": "all such histories over any number of variants, all alternatives and totally ordered values", "why_tests_cant": "Histories and combinations of alternatives are unbounded", "anchors": ["include/cista/containers/variant.h: variant"]}
{"id": "C70", "title": "Tuples of one arity are ordered lexicographically", "statement": "On tuples with the same number of elements, over totally ordered elements, ==, !=, <, <=, >, >= are the lexicographic strict total order and its derived relations.", "quantifier": "all arities, all element orders, all tuples", "why_tests_cant": "All arities and element orders", "anchors": ["include/cista/containers/tuple.h: tuple comparison operators"]}
{"id": "C71", "title": "Optionals of trivially destructible types copied from const sources keep their value", "statement": "Every history of constructing, copying from const optionals, moving, assigning and destroying optionals of a trivially destructible type leaves each with exactly the value (or emptiness) given to it.", "quantifier": "all such histories, all values", "why_tests_cant": "Histories are unbounded", "anchors": ["include/cista/containers/optional.h: optional"]}
{"id": "C72", "title": "Loading untrusted bytes in native byte order is safe", "statement": "With offset pointers, native byte order, checks and DEEP_CHECK on, wrapping signed arithmetic and pairwise different type hashes of the pointee types: deserializing any byte string ends, either by an exception or with a root from which everything owned or reachable lies inside the buffer and is aligned for its type; no byte of memory is changed and nothing outside of the buffer is accessed.", "quantifier": "all byte strings, all addresses, all types of the supported universe including hash tables and cyclic pointer graphs", "why_tests_cant": "All adversarial inputs", "anchors": ["include/cista/serialization.h: deserialize, check_state, recurse, deep_check_context"]}
{"id": "C73", "title": "Round trip with re-linked pointers", "statement": "A live value whose type is aligned behind the header, whose variants have at most 255 alternatives if bytes are swapped, without empty strings that own storage and without tombstones in hash tables is written by serialize; every reader (either byte order, offset or raw pointers, with or without DEEP_CHECK) that knows the pointee types and uses an aligned address accepts the bytes, obtains an equal value, writes only to the data part of the buffer, and each pointer to a serialized object designates its copy while all others are null.", "quantifier": "all such values of the supported universe, all modes without CAST, all readers and addresses", "why_tests_cant": "Unbounded universe of types, values, graphs and load addresses", "anchors": ["include/cista/serialization.h: serialize, deserialize"]}
{"id": "C74", "title": "equal_to decides key equality and agrees with hashing across key types", "statement": "For keys built from integers, floating point numbers, pointers, strings, containers, aggregates, pairs, tuples, variants and optionals: on two keys of one type cista::equal_to returns true exactly if the keys are equal, so it is an equivalence; and two keys that equal_to calls equal, possibly of different types (find with another key type), have the same cista::hashing value for every seed, provided no negative integer is compared with a 32 bit unsigned one, integers compared with floating point numbers are exactly representable, floating point numbers are above -1 and below 2^64, and character arrays hold a literal of full length.", "quantifier": "all key types and keys of the modelled universe (any nesting), all pairs of integer types of any width, all seeds", "why_tests_cant": "tests look up a few keys with a few types; a wrong conversion or a missed member shows only for particular values, and a hash table then loses the key silently", "anchors": ["include/cista/equal_to.h: equal_to", "include/cista/hashing.h: hashing"]}
{"id": "C75", "title": "A wrapped object lives as long as its memory", "statement": "For every history of constructing, loading (read, read_mmap), moving, move assigning, resetting, dereferencing and destroying wrapped<T> variables: access gives the object that was loaded into or moved to the variable, every block of memory (buffer, byte vector, mapping, new object) is held by exactly one variable, is released exactly once, and none is left when the variables are gone.", "quantifier": "all finite histories over any number of variables and all three kinds of memory, plus objects made with make_unique", "why_tests_cant": "tests load one file into one variable; leaks and double destruction show only for assignments between particular kinds of memory and after reset", "anchors": ["include/cista/memory_holder.h: wrapped", "include/cista/buffer.h: buffer", "include/cista/mmap.h: mmap::operator=(mmap&&)", "include/cista/io.h: read", "include/cista/io.h: read_mmap"]}
{"id": "C76", "title": "Wrapped objects without reset and without assignment over mappings are safe", "statement": "For every history of wrapped<T> variables that does not call reset and does not move assign to a variable that holds a mapping: no undefined behaviour, every access gives the object that was loaded into or moved to the variable, and all memory is released once the variables are gone.", "quantifier": "all such finite histories over any number of variables and all kinds of memory", "why_tests_cant": "tests use one variable at a time; ownership errors need particular sequences of moves and assignments", "anchors": ["include/cista/memory_holder.h: wrapped", "include/cista/buffer.h: buffer", "include/cista/io.h: read"]}
{"id": "C77", "title": "Aligned allocations are large enough and legal", "statement": "Allocating up to max_size() elements with aligned_allocator calls aligned_alloc with the least power of two that is at least the template argument, and with a size that is a multiple of it, has room for all elements, and exceeds them by less than one alignment; to_next_multiple gives the least multiple that is at least n whenever that is representable.", "quantifier": "all element sizes, element counts up to max_size(), all alignments up to 2^31; all n and multiples", "why_tests_cant": "tests allocate a few small sizes; a size that is no multiple of the alignment or one element short shows only in the heap", "anchors": ["include/cista/aligned_alloc.h: to_next_multiple", "include/cista/aligned_alloc.h: CISTA_ALIGNED_ALLOC", "include/cista/aligned_allocator.h: allocate", "include/cista/aligned_allocator.h: max_size"]}
{"id": "C78", "title": "Canonical type names do not depend on the spelling and keep types apart", "statement": "canonicalize_type_name ends for every name; names that differ only in the compiler's spelling (struct in front, const in front or behind, spaces) have the same canonical name; types with different names have different canonical names.", "quantifier": "all names of any length", "why_tests_cant": "tests canonicalize a few names; which names collide is a statement about all pairs of names", "anchors": ["include/cista/type_hash/type_name.h: canonicalize_type_name", "include/cista/type_hash/type_name.h: remove_all"]}
{"id": "C79", "title": "Names without keywords keep apart", "statement": "Names in which neither the letters struct or const nor an anonymous namespace occur have the same canonical name if and only if they differ in spaces only; canonicalizing such a name again changes nothing.", "quantifier": "all such names of any length", "why_tests_cant": "tests canonicalize a few names; keeping all pairs of names apart cannot be tested", "anchors": ["include/cista/type_hash/type_name.h: canonicalize_type_name", "include/cista/type_hash/type_name.h: remove_all"]}
{"id": "C80", "title": "Bucket iterators are random access iterators", "statement": "An iterator over the buckets of vecvec, nvec or paged_vecvec that is moved by ++, --, += and -= without leaving [begin, end] points to exactly the bucket the moves describe; a range-for loop visits every bucket exactly once in order and ends; the difference of two iterators is their signed distance; and the accessors of a bucket (size, empty, operator[], at, front, back, data, reverse iteration) and of the container (front, back) agree with the stored lists.", "quantifier": "all index widths, all containers reachable by allowed operation histories, all sequences of moves inside the range, all pairs of iterators", "why_tests_cant": "The index type is unsigned and its width is a template argument; a test with small containers subtracts iterators in one order and one width.", "anchors": ["include/cista/containers/vecvec.h: bucket, const_bucket", "include/cista/containers/nvec.h: const_bucket, bucket", "include/cista/containers/paged_vecvec.h: bucket, const_bucket"]}
{"id": "C81", "title": "Appending keeps references valid within the capacity and allocates logarithmically often", "statement": "While size() plus the number of appended elements does not exceed the capacity, appending leaves the elements where they are and allocates nothing; appending n elements one by one to a fresh vector makes at most floor(log2 n) + 2 allocations and ends with a capacity below 2n; to_vec returns exactly the transformed elements in order and allocates at most once.", "quantifier": "all vectors reachable by operations, all element sequences up to half the range of the size type, all size type widths", "why_tests_cant": "The number of allocations and the stability of references over all lengths cannot be sampled; a growth bug only shows at certain capacities.", "anchors": ["include/cista/containers/vector.h: basic_vector::reserve, push_back, emplace_back, to_vec, to_indexed_vec"]}
{"id": "C82", "title": "Serialization of recursive types: trees of values of a type that owns values of its own type", "statement": "For every system of (mutually) recursive type definitions and every value with finitely many levels of values that own one another: serialization writes the value, the result does not depend on how deep a recursion is allowed (once it is deep enough), the bytes load at any address with either byte order and either kind of pointers, the copy equals the source on all levels, and pointers between levels designate the copies of what they designated. Checked deserialization of arbitrary bytes as a recursive type with any recursion limit throws or stays in the buffer.", "quantifier": "for all systems of type definitions, values of any depth, byte orders, kinds of pointers, modes without CAST, load addresses and input bytes", "why_tests_cant": "values of unbounded depth and arbitrary input; the recursion of the code follows pointers in the input", "anchors": ["include/cista/serialization.h: serialize, deserialize, deserialize_impl, recurse", "include/cista/containers/vector.h: basic_vector", "include/cista/containers/unique_ptr.h: unique_ptr"]}
{"id": "C83", "title": "Every target receives the same bytes", "statement": "Serializing a value into a byte vector, into a file and into a memory mapped file leaves exactly the same bytes, whatever addresses the vector or the mapping has from call to call (aligned at least as strictly as the types inside require) and whatever block size the file's checksum uses; closing the mapping cuts the file to exactly these bytes.", "quantifier": "all values of the type universe (the domain of C73), all modes, both byte orders and pointer kinds, all sequences of storage addresses", "why_tests_cant": "tests compare targets for a few values; a difference depends on where the allocator or the kernel places the growing storage between two writes", "anchors": ["include/cista/serialization.h: serialize", "include/cista/targets/buf.h: buf", "include/cista/targets/file.h: file", "include/cista/mmap.h: mmap"]}
{"id": "C84", "title": "What write stores, read and read_mmap bring back", "statement": "write replaces the content of the named file by the serialized bytes and leaves other files alone; read then yields an equal value at any address and on machines of either byte order and changes no other memory; read_mmap yields the same for offset pointers in native byte order; a missing file is an exception; with a checksum, a file in which one byte behind the version word was changed, or which was cut to its header, is rejected with an exception.", "quantifier": "all values of the type universe (the domain of C73), all file systems, paths, modes, load addresses, all positions and values of the changed byte", "why_tests_cant": "tests write and read one value per type; the failing byte, address or previous content of the file is one of unboundedly many", "anchors": ["include/cista/io.h: write", "include/cista/io.h: read", "include/cista/io.h: read_mmap", "include/cista/targets/file.h: content", "include/cista/mmap.h: mmap"]}
{"id": "C85", "title": "copy_from_potentially_unaligned returns an independent value", "statement": "For the bytes of a serialized value at any address, aligned or not, copy_from_potentially_unaligned returns an equal value, and the returned value does not refer to memory that the function has freed.", "quantifier": "all values of the type universe, all addresses", "why_tests_cant": "tests copy a few values; reading freed memory usually still gives the old characters", "anchors": ["include/cista/serialization.h: copy_from_potentially_unaligned", "include/cista/containers/string.h: copy_from"]}
{"id": "C86", "title": "An unsigned strong type is arithmetic modulo 2^w", "statement": "A variable of type strong<uint8_t/uint32_t/uint64_t> goes through any sequence of ++, --, +=, -=, *, /, >>, <<, |= and &= (with nothing divided by zero and shift counts below the width) without undefined behaviour, and its value and the value of every expression are the ones of arithmetic modulo 2^w; postfix operators return the old value. The same holds for strong<uint16_t> if no two values are multiplied.", "quantifier": "all widths, initial values, sequences of operations and arguments", "why_tests_cant": "whether the promoted computation overflows depends on the width and the values; tests use a few small values", "anchors": ["include/cista/strong.h: operator++, operator--, operator+, operator-, operator*, operator/, operator+=, operator-=, operator>>, operator<<, operator|=, operator&="]}
{"id": "C87", "title": "Strong types are totally ordered and ++ and -- undo each other", "statement": "The comparison operators of strong agree with each other and form a total order whose greatest value is invalid(); ++ followed by -- and -- followed by ++ restore the value for all integral types, except where the first step overflows a signed type at least as wide as int.", "quantifier": "all integral types and values", "why_tests_cant": "the wrap-around happens at the limits of each type only", "anchors": ["include/cista/strong.h: operator==, operator!=, operator<=, operator>=, operator<, operator>, invalid, operator++, operator--"]}
{"id": "C88", "title": "C strings survive serialization with offset pointers", "statement": "Serializing any number of offset::cstring objects (inline, owning or set to refer to foreign memory) into a buffer that already has any content, without byte swapping, and loading the result at any aligned address yields objects that show the same text; long texts lie zero-terminated inside the loaded buffer and are not owned by the objects, and what was in the buffer before is kept.", "quantifier": "all numbers of strings, texts, kinds, previous buffer contents and load addresses", "why_tests_cant": "offsets depend on everything written before; tests check one long and one short string", "anchors": ["include/cista/serialization.h: serialize(Ctx&, generic_cstring<Ptr> const*, offset_t), convert_endian_and_ptr, check_state, recurse, deserialize (generic)", "include/cista/containers/cstring.h: generic_cstring"]}
{"id": "C89", "title": "Reflection visits every member once, in order", "statement": "For every struct, arity() is the number of data members, to_tuple() refers to each member exactly once in declaration order, for_each_field visits them in that order (through pointers, too; nothing behind a null pointer), and member_index gives the position of each member; a struct that cannot be taken apart is rejected at compile time.", "quantifier": "all structs, any kinds and number of members, pointers of any depth", "why_tests_cant": "Each struct shape instantiates other code; tests try a handful of shapes", "anchors": ["include/cista/reflection/arity.h: arity", "include/cista/reflection/to_tuple.h: to_tuple", "include/cista/reflection/for_each_field.h: for_each_field, for_each_ptr_field", "include/cista/reflection/member_index.h: member_index"]}
{"id": "C90", "title": "Generated comparison operators are a lexicographic total order", "statement": "For structs with up to 64 members (no C arrays of several elements, every member but the first default-constructible) and totally ordered members, the six operators of CISTA_COMPARABLE, CISTA_FRIEND_COMPARABLE and pair agree with each other, == means that all members are equal, and < is the lexicographic order of the members in declaration order, a strict total order.", "quantifier": "all such structs, all objects and triples of objects", "why_tests_cant": "All contents of all members; tests compare a few objects of one struct", "anchors": ["include/cista/reflection/comparable.h: CISTA_COMPARABLE, CISTA_FRIEND_COMPARABLE", "include/cista/containers/pair.h: pair"]}
{"id": "C91", "title": "Generated output lists all members with their names", "statement": "A CISTA_PRINTABLE struct prints as {name=value, ...} with all members in declaration order, each with the name given for its position (missing names are left out, superfluous ones ignored); a vector prints its elements in order, one per line, in brackets.", "quantifier": "all numbers of members, names and texts", "why_tests_cant": "Any number of members and names, including more or fewer names than members", "anchors": ["include/cista/reflection/printable.h: CISTA_PRINTABLE, operator<<"]}
{"id": "C92", "title": "Offset pointers without postfix increments are raw pointers", "statement": "Relative pointers that start out null and are then assigned, copied, moved, swapped and moved by prefix ++ and -- denote, after every step and wherever they live, exactly the address a raw pointer variable would hold; they convert to false exactly when that address is null, and two of them compare equal exactly when the addresses are equal.", "quantifier": "all histories of these operations, all placements and targets in the lower half of the address space", "why_tests_cant": "the stored bits depend on the address of the pointer object itself; placements cannot be enumerated", "anchors": ["include/cista/containers/offset_ptr.h: offset_ptr"]}
{"id": "C93", "title": "fetch_min is an atomic minimum", "statement": "Whatever the interleaving of any number of fetch_min calls (with spurious failures of the compare-exchange), the calls take effect one after the other in the order in which they finish, each returns the value before its effect, and when all have returned the cell holds the minimum of its initial value and all values passed.", "quantifier": "all schedules, all numbers of threads and calls, all values", "why_tests_cant": "lost updates need particular interleavings", "anchors": ["include/cista/atomic.h: fetch_min"]}
{"id": "C94", "title": "fws_multimap filled key by key is a list of groups", "statement": "After pushing for each key its values followed by finish_key and then finish_map, the entry of each key is its group, iteration visits the groups in key order, iterators moved by ++, +, += and -= reach the key at the stated distance, and the difference of two iterators is the distance of their keys.", "quantifier": "all lists of groups that fit the index type, all iterator pairs", "why_tests_cant": "offsets and distances are computed modulo the index width", "anchors": ["include/cista/containers/fws_multimap.h: fws_multimap_base, bucket_iterator"]}
{"id": "C95", "title": "nvec read through operator[] holds the emplaced content", "statement": "For every depth of at least two, size(), iteration, any chain of in-range operator[], and the accessors of the buckets reached return exactly the emplaced nested containers.", "quantifier": "all depths of at least two, all nestings, all in-range paths", "why_tests_cant": "the number of index levels is unbounded", "anchors": ["include/cista/containers/nvec.h: basic_nvec"]}
{"id": "C96", "title": "paged_vecvec with limited buckets is a list of lists", "statement": "As long as no bucket exceeds MaxPageSize elements and bucket insertions do not take references into the container itself, every history of operations is observed (size, buckets, elements, front/back, at, iteration of a non-empty container) like on a list of lists.", "quantifier": "all histories, page sizes, element sizes", "why_tests_cant": "reuse of freed pages depends on the whole history", "anchors": ["include/cista/containers/paged_vecvec.h: paged_vecvec", "include/cista/containers/paged.h: paged"]}
{"id": "C97", "title": "flat_matrix whose cells fit the size type is a function of its indices", "statement": "If the number of cells fits the size type, then after any history of cell writes, resets and changes of the numbers of rows and columns, operator(), operator[] and at return what was written last to exactly that cell, where resize keeps the values in the order of the rows (so a change of the number of rows alone keeps every cell), and at throws for rows out of range.", "quantifier": "all dimensions below the limit, all histories", "why_tests_cant": "index products wrap only for large dimensions", "anchors": ["include/cista/containers/flat_matrix.h: flat_matrix"]}
{"id": "C98", "title": "File and memory targets agree for ordinary blocks", "statement": "Any sequence of writes of non-empty blocks with alignments of at most 16 and of patches inside of the written part, sent to a file and to a buffer that stays at 16-byte aligned addresses, produces the same bytes and returns the same offsets.", "quantifier": "all sequences of writes and patches, all reallocations of the buffer", "why_tests_cant": "alignment is computed from addresses in one target and from offsets in the other", "anchors": ["include/cista/targets/buf.h: buf", "include/cista/targets/file.h: sfile"]}
{"id": "C99", "title": "After reserve a vector accepts references to its own elements", "statement": "After reserve(size() + 1), push_back, emplace_back and insert of a reference to one of the vector's own elements append or insert a copy of that element.", "quantifier": "all vectors, elements and positions", "why_tests_cant": "whether a reference dangles depends on the capacity reached by the previous history", "anchors": ["include/cista/containers/vector.h: reserve, push_back, emplace_back, insert"]}
{"id": "C100", "title": "Multimap bucket iterators move exactly when -- is not used", "statement": "For bucket iterators of a mutable multimap, moves by ++, + and - are inverse to each other and reach the bucket at the stated distance (also to the end), differences are signed distances and comparisons order positions.", "quantifier": "all maps with fewer than 2^31 buckets, all pairs of positions, both index widths", "why_tests_cant": "distances are computed in unsigned index types", "anchors": ["include/cista/containers/mutable_fws_multimap.h: bucket_iterator"]}
{"id": "C101", "title": "Vectors survive failed allocations", "statement": "If an allocation inside a vector operation fails, the operation throws and heap and vectors are exactly as before the call (a single-pass range insertion may leave a prefix of its elements at the end); later operations work, and nothing is leaked or released twice. After a successful reserve(n), appending up to n elements in total does not throw.", "quantifier": "all programs over any number of vectors that catch exceptions, every choice of failing allocations; positions in range, sizes up to half the size type's range, no insertion of an empty forward range", "why_tests_cant": "failures depend on the allocator; tests do not inject them", "anchors": ["include/cista/containers/vector.h: reserve, push_back, emplace_back, insert, resize, set, operator="]}
{"id": "C102", "title": "The mutable multimap survives failed allocations", "statement": "If an allocation inside an operation of a mutable multimap fails, the operation throws, no bucket other than that of an erase(key) changes (the erased bucket is empty), and all later operations behave as specified.", "quantifier": "all programs that catch exceptions, every choice of failing allocations of index, data and free lists; keys below 2^32, storage up to 2^32 entries", "why_tests_cant": "failures depend on the allocator; the order of updates inside an operation is invisible without them", "anchors": ["include/cista/containers/mutable_fws_multimap.h: push_back, insert, reserve, resize, erase, operator[], get_or_create, release_bucket"]}
{"id": "C103", "title": "Strings survive failed allocations", "statement": "If an allocation inside a string operation fails, the operation throws and leaves its string empty and usable; other strings and referenced memory are unchanged, the old text is released and nothing is leaked. Texts that fit into the object never throw.", "quantifier": "all programs over any number of strings that catch exceptions, every choice of failing allocations, all character widths and inline capacities; short texts contain no NUL, no string is assigned from a view of itself", "why_tests_cant": "failures depend on the allocator; tests do not inject them", "anchors": ["include/cista/containers/string.h: set_owning, copy_from, assign_to, erase"]}
{"id": "C104", "title": "C strings survive failed allocations", "statement": "If an allocation inside an assignment to a cstring fails, the assignment throws and leaves the string empty and usable with a NUL at data()[size()]; other strings and referenced memory are unchanged, the old text is released and nothing is leaked.", "quantifier": "all programs over any number of C strings that catch exceptions, every choice of failing allocations", "why_tests_cant": "failures depend on the allocator; tests do not inject them", "anchors": ["include/cista/containers/cstring.h: set_owning, heap, reset"]}
{"id": "C105", "title": "Hash tables survive failed allocations", "statement": "If the allocation inside an insertion into a hash table fails, the insertion throws and the table still holds its entries and can be searched, iterated, extended and destroyed; insertions that need no new storage do not throw.", "quantifier": "all tables reachable by insertions and erasures, all hash functions and entries, failing allocations", "why_tests_cant": "failures depend on the allocator; tests do not inject them", "anchors": ["include/cista/containers/hash_storage.h: resize, initialize_entries, prepare_insert, emplace, clear"]}
{"id": "C106", "title": "fws_multimap survives failed allocations", "statement": "A multimap built by a program that catches bad_alloc and goes on holds exactly what the calls that did not throw have added: once finished, entries and iteration give the groups in key order; before, current_key() is the number of finished keys.", "quantifier": "all programs of push_back, finish_key and finish_map that catch exceptions, every choice of failing allocations; no use after finish_map, which follows a finish_key; counts fit the index type", "why_tests_cant": "failures depend on the allocator; the order of updates is invisible without them", "anchors": ["include/cista/containers/fws_multimap.h: push_back, finish_key, finish_map"]}
{"id": "C107", "title": "vecvec survives failed allocations", "statement": "If an allocation inside emplace_back or add_back_sized fails, all buckets are as before and buckets added later contain exactly their elements.", "quantifier": "all vecvecs, all bucket contents, every choice of failing allocation", "why_tests_cant": "failures depend on the allocator; the order of updates is invisible without them", "anchors": ["include/cista/containers/vecvec.h: emplace_back, add_back_sized"]}
{"id": "C108", "title": "flat_matrix survives failed allocations", "statement": "If the allocation inside resize fails, the matrix keeps a size whose cells are all accessible; resizing to no more cells never throws.", "quantifier": "all matrices and sizes", "why_tests_cant": "failures depend on the allocator; the order of updates is invisible without them", "anchors": ["include/cista/containers/flat_matrix.h: resize"]}
{"id": "C109", "title": "Vectors survive exceptions thrown by elements", "statement": "If copying an element inside a vector operation throws, the exception reaches the caller, no element is lost, leaked or destroyed twice, and the vector stays usable.", "quantifier": "all vectors, all operations, every choice of throwing copies, failing allocations and throwing moves", "why_tests_cant": "throwing element types are rarely tested, and every position of the throw gives another state", "anchors": ["include/cista/containers/vector.h: push_back, emplace_back, insert, resize, set, reserve, basic_vector"]}
{"id": "C110", "title": "Vector operations that add one element at a time survive throwing copies", "statement": "In programs that catch exceptions, where push_back, emplace_back, insert(pos, x), insert(pos, n, x), single-pass range insertion and element assignment may throw at any copy and every allocation may fail: the vectors hold exactly the lists given by the calls that did not throw (a throwing insertion of several elements may leave those already copied at the end), no buffer is leaked or shared, and every vector can be destroyed.", "quantifier": "all adaptive programs over any number of vectors, every choice of failing allocations and throwing copies of these operations", "why_tests_cant": "every position of the throw in every history gives another state", "anchors": ["include/cista/containers/vector.h: push_back, emplace_back, insert, reserve, deallocate"]}
{"id": "C111", "title": "Hash tables survive exceptions thrown by entries", "statement": "If constructing an entry throws inside an insertion, the exception reaches the caller and the table holds exactly the entries it held before and can be used and destroyed.", "quantifier": "all reachable tables, hash functions and entries", "why_tests_cant": "throwing entry types are rarely tested", "anchors": ["include/cista/containers/hash_storage.h: emplace, insert, prepare_insert"]}
{"id": "C112", "title": "Variants survive exceptions thrown by alternatives", "statement": "If constructing or assigning the new alternative throws inside an assignment or emplace, the exception reaches the caller and the variant can still be visited and destroyed.", "quantifier": "all variants, alternatives and values", "why_tests_cant": "throwing alternatives are rarely tested", "anchors": ["include/cista/containers/variant.h: operator=, emplace, destruct"]}
{"id": "C113", "title": "Tuple elements are constructed and destroyed exactly once", "statement": "For tuples of any arity: over any history of construction, copying, moving, assignment (including self-assignment and assignments that throw at some element) and destruction, in which no element constructor throws and no tuple is moved to itself, every element is constructed before it is used and destroyed exactly once, and the tuples hold the values of the specification; a throwing assignment has replaced exactly the elements before the one that threw.", "quantifier": "all arities, histories and throwing elements", "why_tests_cant": "element lifetimes in raw storage are invisible to tests without instrumented types", "anchors": ["include/cista/containers/tuple.h: tuple, copy_construct, move_construct, copy_assign, move_assign, destruct"]}
{"id": "C114", "title": "Hash tables can be changed while iterating", "statement": "A loop over a hash table whose body erases the entry at its iterator, erases other keys and assigns values visits, in an order that does not depend on the body, exactly the entries not erased before their turn, with their current values, and the table ends up with what the body leaves; erasing by a predicate visits every entry once and keeps exactly the others.", "quantifier": "all tables reachable by any history, all hash functions, all loop bodies with a state of their own", "why_tests_cant": "which entries share groups with tombstones depends on hashes and history", "anchors": ["include/cista/containers/hash_storage.h: iterator, erase, begin, end, skip_empty_or_deleted"]}
{"id": "C115", "title": "References and iterators into hash tables stay valid", "statement": "As long as no more insertions are made than growth_left_ allows, the array is not replaced, and an entry that is not erased stays where it is, with its value unless a new one is assigned to its key, whatever else is inserted, erased, assigned or looked up.", "quantifier": "all reachable tables, all hash functions, all further histories", "why_tests_cant": "slot choice depends on hashes, tombstones and history", "anchors": ["include/cista/containers/hash_storage.h: emplace, operator[], erase, prepare_insert"]}
{"id": "C116", "title": "Hash tables reallocate logarithmically often", "statement": "Over n operations (insertions, assignments, lookups, erasures) the array is replaced at most log2(3n+4) times, and the capacity is at most 3n+3.", "quantifier": "all histories and hash functions", "why_tests_cant": "needs a bound over all histories", "anchors": ["include/cista/containers/hash_storage.h: rehash_and_grow_if_necessary, resize, prepare_insert, erase"]}
{"id": "C117", "title": "Memory of hash tables is proportional to the entries", "statement": "The capacity of a hash table is at most three times the largest number of entries it has held, plus 3.", "quantifier": "all histories and hash functions", "why_tests_cant": "depends on tombstones left by erasures over long histories", "anchors": ["include/cista/containers/hash_storage.h: rehash_and_grow_if_necessary, erase_meta_only, was_never_full"]}
{"id": "C118", "title": "R-tree rectangles are as small as possible", "statement": "After any history of insertions, deletions and searches, the rectangle of the tree is the smallest rectangle that covers all stored entries, and the rectangle kept for every subtree is the smallest one that covers the entries stored below it.", "quantifier": "all histories, all dimensions and node capacities, all coordinate types with a strict weak order", "why_tests_cant": "Rectangles are only recomputed when an edge is touched; whether this suffices depends on the whole history", "anchors": ["include/cista/containers/rtree.h: node_delete, node_insert, rect::onedge, rect::equals, bounding_box"]}
{"id": "C119", "title": "R-tree heuristics choose what they say", "statement": "sort_by_axis permutes the entries of a node and leaves them sorted by the chosen side, ascending or descending; largest_axis is the first axis along which the rectangle is longest; choose_least_enlargement is the first child whose area grows least (by less than the maximum of the coordinate type); node_choose returns a child that contains the rectangle whenever there is one, the remembered one first, and otherwise the child of least enlargement, and remembers its choice.", "quantifier": "all nodes, rectangles, dimensions, capacities and coordinate types with a strict weak order", "why_tests_cant": "A wrong comparison in a heuristic never makes a query wrong, only slow; tests of query results cannot see it", "anchors": ["include/cista/containers/rtree.h: sort_by_axis, qsort, largest_axis, choose_least_enlargement, node_choose"]}
{"id": "C120", "title": "An R-tree split separates a node along its longest axis", "statement": "node_split distributes the entries of a full node over the old and a new node: those nearer to the lower side of its rectangle along the longest axis stay, the others move. If one of the nodes would have less than the minimum number of entries, it gets exactly as many as are missing from the other one: the lower node those that begin lowest, the upper node those that end lowest. The entries of branches are left in descending order of their lower side along the first axis, no other node changes.", "quantifier": "all full nodes, all rectangles, dimensions, capacities of at least 2, with and without a node in the free list", "why_tests_cant": "The loop moves entries while iterating (the last one takes the place of the moved one); which inputs skip an entry or leave a node too small cannot be enumerated", "anchors": ["include/cista/containers/rtree.h: node_split, move_rect_at_index_into, sort_by_axis, node_new"]}
{"id": "C121", "title": "File target: every call throws or does its work", "statement": "On a system where any seek, read or write may fail or do only a part of its work, and where bytes stay in the buffer of the stream as long as the library likes, no sequence of calls on a file target has undefined behaviour. Until the first exception every call returns the specified offset or checksum; without failures there is no exception. If no call threw and closing the stream reports no error, the file has exactly the specified bytes. serialize() into such a file throws or (if closing reports no error) leaves exactly the bytes it produces in memory. A call that throws leaves the size known to the target unchanged.", "quantifier": "all behaviours of the system at every call, all initial contents, all sequences of calls, all serializable values", "why_tests_cant": "I/O errors and short writes at every possible point cannot be provoked in a test", "anchors": ["include/cista/targets/file.h: file::write, file::checksum, file::~file", "include/cista/serialization.h: serialize"]}
{"id": "C122", "title": "A file target shows what was written through it", "statement": "size() and content() of a file target give the size and the bytes that were written through it, at any time; after the destructor the file has all bytes whose writes did not throw; and the offset returned by a call is where its bytes are, also after an earlier call threw.", "quantifier": "all behaviours of the system, all histories", "why_tests_cant": "Depends on when the C library empties its buffers and on where the stream happens to be positioned", "anchors": ["include/cista/targets/file.h: file::size, file::content, file::~file, file::write"]}
{"id": "C123", "title": "The Windows file target writes what is specified", "statement": "For alignments up to 16, on a system where any call may fail or do only a part of its work: until the first exception every call on a Windows file target returns the specified offset or checksum, without failures there is no exception, and if there was none the file has exactly the specified bytes. serialize() of values whose alignments divide 16 throws or leaves exactly the bytes it produces in memory. Without failures content() gives the bytes of the file at any time.", "quantifier": "all behaviours of the system at every call, all initial contents, all sequences of calls, all serializable values with alignments dividing 16", "why_tests_cant": "The branch is compiled on one platform only and its errors cannot be provoked", "anchors": ["include/cista/targets/file.h: file (Windows): write, checksum, content", "include/cista/serialization.h: serialize"]}
{"id": "C124", "title": "The file targets of Windows and POSIX agree", "statement": "The Windows file target accepts every sequence of calls that the POSIX file target accepts, returns the same and leaves the same bytes; errors while reading are reported; after an exception the next call returns the offset at which its bytes are.", "quantifier": "all sequences of calls, all alignments, all behaviours of the system", "why_tests_cant": "Needs two platforms and over-aligned types", "anchors": ["include/cista/targets/file.h: file::write (padding), file::content"]}
{"id": "C125", "title": "A mapped file on a failing system", "statement": "For a cista::mmap opened for modification on a system where any mmap, ftruncate and msync may fail, and every history of resize, reserve, sync, reads and writes inside of the bytes in use (sizes up to 2^63): no undefined behaviour up to the first exception; every answer is that of a file without end in which resizing only changes the number of bytes in use; an exception, or an abort in the destructor, happens only if a system call failed; without one the file is left with exactly the bytes in use. A call that throws leaves size(), and the file still has all of its bytes. On a mapping opened for reading resize and reserve throw, reads give the bytes of the file, and neither the object nor the file ever changes.", "quantifier": "all files, all behaviours of the system, all histories", "why_tests_cant": "System calls fail rarely and cannot be made to fail at each position", "anchors": ["include/cista/mmap.h: mmap::mmap, ~mmap, resize, reserve, resize_map, sync, operator[]"]}
{"id": "C126", "title": "A mapped file is usable after an exception", "statement": "After an exception from resize the bytes in use can still be accessed, a resize that reports success provides the bytes, and the destructor leaves the file with the bytes in use; the destructor does not end the program; a refused size leaves the file alone; a push_back of a mapped vector that throws does not change its size().", "quantifier": "all files, all behaviours of the system, all histories", "why_tests_cant": "The states arise only after failed system calls", "anchors": ["include/cista/mmap.h: mmap::resize, resize_map, ~mmap, sync", "include/cista/containers/mmap_vec.h: basic_mmap_vec::push_back"]}
{"id": "C127", "title": "build_hash and variant hashes depend on values only", "statement": "build_hash(a, b, \u2026) is the hash of the tuple (a, b, \u2026): arguments that compare equal one by one give the same result, and changing one integer changes it. Equal cista::variants have the same hash with every seed, the same integer as two alternatives has different ones.", "quantifier": "all argument lists, all values of the key universe, all seeds", "why_tests_cant": "Infinitely many values; the same text at different addresses", "anchors": ["include/cista/hashing.h: build_hash, hashing<char const*>", "include/cista/containers/variant.h: variant::hash"]}
{"id": "C128", "title": "Grouped containers accept references to their own elements", "statement": "m[i].push_back(m[j][p]) and m[i].insert(it, m[j][p]) on a mutable_fws_multimap have the same effect as with a copy of the element, whichever element it is and however the bucket has to grow.", "quantifier": "all histories, all buckets and elements, all positions, 32- and 64-bit index types", "why_tests_cant": "Whether the element moves depends on capacities, free lists and the whole history", "anchors": ["include/cista/containers/mutable_fws_multimap.h: bucket::push_back, bucket::insert, prepare_insert, push_back_entry, insert_new_entry, grow_bucket, move_entries"]}
{"id": "C129", "title": "vecvec reads its arguments and leaves them alone", "statement": "v.emplace_back(c) for a container c that is not a temporary appends its elements and leaves c unchanged; v[i].push_back(v[j][p]), v[i].grow(n, v[j][p]) and v.emplace_back(v[i]) have the same effect as with copies.", "quantifier": "all histories, all buckets and elements, all capacities, all element types", "why_tests_cant": "Depends on whether moving changes the elements and on the capacity at the moment of the call", "anchors": ["include/cista/containers/vecvec.h: emplace_back(Container&&), bucket::push_back, bucket::grow", "include/cista/containers/vector.h: insert, reserve"]}
{"id": "C130", "title": "Grouped containers, matrices and bit sets keep their contents through serialization", "statement": "If a vecvec, fws_multimap, mutable_fws_multimap, nvec, flat_matrix or bitset of integers (or any structure of integers, byte blocks, arrays and vectors) is serialized, serialize() succeeds and every object loaded from the bytes holds exactly the same state: the same elements, indices, capacities, free lists, counts, rows, columns and bits.", "quantifier": "every state of the container (also every history of vecvec operations), widths 1, 2, 4 and 8 of elements and indices, both byte orders and pointer kinds on both sides, every mode that keeps version and checksum checks, every aligned load address", "why_tests_cant": "Tests load a few containers on the machine that wrote them; they do not load on machines of the other byte order or with other pointers, nor every internal state (free lists, half-filled keys).", "anchors": ["include/cista/serialization.h: serialize, deserialize, recurse", "include/cista/containers/vecvec.h: basic_vecvec", "include/cista/containers/fws_multimap.h: fws_multimap", "include/cista/containers/mutable_fws_multimap.h: dynamic_fws_multimap_base", "include/cista/containers/nvec.h: basic_nvec", "include/cista/containers/flat_matrix.h: base_flat_matrix", "include/cista/containers/bitset.h: bitset"]}
{"id": "C131", "title": "Bit vectors and paged containers keep their state through serialization", "statement": "A bitvec and a paged_vecvec of integers that are serialized and loaded again are the same: size and bits of the bitvec; elements, buckets and free lists of the paged_vecvec, also when loaded on a machine of the other byte order.", "quantifier": "every state, element widths 1, 2, 4 and 8, size types of 4 and 8 bytes, both byte orders on both sides, every mode that keeps version and checksum checks, every aligned load address", "why_tests_cant": "Tests run on one machine, where the number that is never converted and the links that are converted as elements happen to be right.", "anchors": ["include/cista/containers/bitvec.h: cista_members, size_", "include/cista/containers/paged.h: read, write, node, free_list_", "include/cista/containers/paged_vecvec.h: paged_vecvec", "include/cista/serialization.h: serialize, deserialize"]}
{"id": "C132", "title": "R-trees keep their entries through serialization", "statement": "If an R-tree is serialized and loaded again, the loaded tree has the same nodes, rectangles, data, free list, count and height, so that a search in it reports exactly the entries that meet the query, also when it is loaded on a machine of the other byte order.", "quantifier": "every state of the tree and every history of operations within the limits of C35, every number of dimensions and of entries per node, float and double coordinates, both byte orders and pointer kinds on both sides, every mode that keeps version and checksum checks, every aligned load address", "why_tests_cant": "The test loads one random tree on the machine that wrote it; the functions of the node that convert nothing when loading are right there by accident.", "anchors": ["include/cista/containers/rtree.h: node serialize, node deserialize, meta", "include/cista/serialization.h: serialize, deserialize", "include/cista/endian/conversion.h: convert_endian"]}
{"id": "C133", "title": "bitvec survives failed allocations", "statement": "If an allocation inside resize, set(text), max, copy assignment or one of the operators that return a new bitvec fails, std::bad_alloc reaches the caller, all bit vectors keep their bits and sizes, and a program that goes on ends up with exactly the effects of the calls that did not throw.", "quantifier": "all block widths, any number of bit vectors, all programs that react to failures, every choice of failing allocations", "why_tests_cant": "failures depend on the allocator; size_ and blocks_ are separate members whose order of update is invisible without failures", "anchors": ["include/cista/containers/bitvec.h: resize, set(string_view), max, implicit copy assignment, operator~, &, |, ^, >>, <<"]}
{"id": "C134", "title": "nvec survives failed allocations", "statement": "If an allocation inside emplace_back fails, the nvec holds the same containers as before and a program that catches std::bad_alloc and goes on ends up with exactly the containers of the calls that did not throw.", "quantifier": "all depths, all nested contents, all programs that react to failures, every position of the failing vector operation", "why_tests_cant": "failures depend on the allocator; the indices of all levels have to be consistent, which only shows after a failure between two of them", "anchors": ["include/cista/containers/nvec.h: emplace_back, add"]}
{"id": "C135", "title": "paged_vecvec survives failed allocations", "statement": "If growing the data or the index fails, all buckets are as before; a program that catches std::bad_alloc and goes on ends up with exactly the effects of the calls that did not throw, without undefined behaviour. A call that fails uses up at most the storage it would use otherwise; n calls of emplace_back whose index push fails lose exactly n pages.", "quantifier": "all page configurations, all programs of emplace_back, emplace_back_empty, insert, push_back, bucket insert, element writes, resize and clear that react to failures, every choice of failing allocations", "why_tests_cant": "free lists live inside of the pages; a page handed out by a failed call must not be handed out twice or overlap others, for all later histories", "anchors": ["include/cista/containers/paged.h: create_page, resize_page", "include/cista/containers/paged_vecvec.h: emplace_back, emplace_back_empty, insert, bucket::push_back, bucket::insert, resize, clear"]}
{"id": "C136", "title": "R-trees are balanced and low", "statement": "All leaves of an R-tree have the same depth, height_ - 1; every node in use holds something, so there are at most height_ * size() nodes in use; and the height is logarithmic in the number of stored entries: a tree of height h + 1 holds at least m + m^2 + ... + m^h entries, where m = kSplitMinItems.", "quantifier": "all dimensions, node capacities of at least 3, coordinate orders, and histories of insert, delete and search with fewer insertions than the path hints allow (more than 2^47 for the default capacity)", "why_tests_cant": "balance depends on the whole history of splits and deletions; trees of a test are two or three levels high", "anchors": ["include/cista/containers/rtree.h: insert, node_insert, node_split, delete_0, kSplitMinItems"]}
{"id": "C137", "title": "The storage of the mutable multimap is proportional to what was asked of it, up to free blocks left by erase(key)", "statement": "mutable_fws_multimap: capacity of a bucket is the least power of two that is not below the largest size asked of the bucket (by push_back, insert, reserve, resize) since it was created or its key erased. The storage data_ has at most 2^o entries for each of the buckets that were of order o at the same time since the last clear(), hence at most 2*(Log2Max+1) times the largest total demand. Without erase(key) it has at most four times the sum of the largest sizes asked of the buckets, and while elements are only added at most four times the number of elements. With erase(key) no factor of four suffices, because free blocks are never split or merged. If these peaks leave room within 2^32 entries, histories of any length observe the same as a list of lists.", "quantifier": "all histories of operations, all values of Log2MaxEntriesPerBucket below the width of the size type", "why_tests_cant": "Tests look at contents, not at the storage; leaks of blocks between free lists show only as slow growth over long histories.", "anchors": ["include/cista/containers/mutable_fws_multimap.h: grow_bucket, get_free_bucket, release_bucket, new_capacity, get_order, erase, clear"]}
{"id": "C138", "title": "An R-tree insertion that runs out of memory changes nothing a caller can see", "statement": "If `nodes_.emplace_back()` throws during `insert`, the exception reaches the caller and the tree holds the same entries with the same count and the same bounding rectangle, every search finds what it found before, and all later operations behave as if the failed insertion had never been tried; an insertion fails only if no node is free and there is no memory for another, and otherwise does what it does with unlimited memory. Every node stays in the tree or on the free list, so that a failed insertion costs no memory.", "quantifier": "every history of insertions, deletions and searches, every choice of the allocation that fails in each insertion, every node capacity of at least three, every dimension and every coordinate type", "why_tests_cant": "an allocation can fail at each of the node splits of an insertion at each state of the tree", "anchors": ["include/cista/containers/rtree.h: insert", "include/cista/containers/rtree.h: node_insert", "include/cista/containers/rtree.h: node_split", "include/cista/containers/rtree.h: node_new"]}
{"id": "C139", "title": "Files and mappings belong to exactly one mmap variable and are released once", "statement": "For every history of opening (with failing system calls), moving, move assigning, resizing, reading, writing and destroying any number of mmap variables: each open FILE* and each mapping belongs to exactly one variable at every time, nothing is used after its release, the bytes read are those last written through whichever variable held the file then, and when the variables are gone nothing is open or mapped and every file has exactly the bytes in use.", "quantifier": "all finite histories over any number of variables and files, all protections, all failures while opening", "why_tests_cant": "tests use one mmap variable and never run out of descriptors; a lost FILE* or mapping does not change any result", "anchors": ["include/cista/mmap.h: mmap::mmap(mmap&&)", "include/cista/mmap.h: mmap::operator=(mmap&&)", "include/cista/mmap.h: mmap::~mmap", "include/cista/mmap.h: resize_map", "include/cista/targets/file.h: file::file", "include/cista/targets/file.h: file::operator=(file&&)"]}
{"id": "C140", "title": "Filling and copying hash tables survives exceptions", "statement": "If copying an entry throws, or an allocation fails, while a range is inserted into a hash table, while a table is constructed from an initializer list or from another table, or while it is assigned another table, then: after the insertion of a range the table holds its old entries and the entries before the one that threw; after an assignment the target holds the entries copied so far; after a constructor nothing remains allocated and every copied entry has been destroyed. In each case the target can be used and destroyed.", "quantifier": "all reachable tables, hash functions, ranges and positions of the exception", "why_tests_cant": "tests do not inject exceptions into the copy constructor of an entry; the leak shows up only with a leak checker and a throwing type", "anchors": ["include/cista/containers/hash_storage.h: hash_storage(std::initializer_list<T>), hash_storage(hash_storage const&), operator=(hash_storage const&), insert(InputIt, InputIt), emplace"]}
{"id": "C141", "title": "Hash tables accept references to their own keys and values", "statement": "m[x], m[k] = x, m.emplace(k, x) and m.erase(x), where x refers to a key or value of m itself, change m and return as the same calls with a copy of x do.", "quantifier": "all hash functions, all tables reached by histories of such calls and of ordinary ones, all keys and values", "why_tests_cant": "whether a reference survives depends on the room left in the array at the moment of the call; a test with a freed block often still reads the old bytes", "anchors": ["include/cista/containers/hash_storage.h:318-324: bracket_operator_impl", "include/cista/containers/hash_storage.h:418-449: erase, insert, emplace", "include/cista/containers/hash_storage.h:611-634: resize"]}
{"id": "C142", "title": "paged_vecvec stores what it is given", "statement": "emplace_back(c) and insert(k, c) of a paged_vecvec add a bucket with the elements of c, converted to the element type, for every container c they accept, including buckets of the paged_vecvec itself; all other buckets stay.", "quantifier": "all histories, all bucket sizes up to MaxPageSize, all containers and conversions", "why_tests_cant": "own buckets: pages move and are reused depending on the history; other containers: reading past the end of an array is rarely noticed", "anchors": ["include/cista/containers/paged_vecvec.h:310-342: emplace_back, insert", "include/cista/containers/paged.h:117-123: copy"]}
{"id": "C143", "title": "nvec::emplace_back reads its argument and leaves it alone", "statement": "After any sequence of emplace_back(c) and nv.emplace_back(nv[i]) an nvec contains exactly the containers it was given, in order; c, and container i of nv, are unchanged unless c was a temporary.", "quantifier": "all depths of at least two, all nested contents, all element types (with any effect of moving), all capacities of the element vector, all sequences of calls", "why_tests_cant": "An argument that is moved from or read after a reallocation only shows for element types with a moved-from state, or when the call happens to exceed the capacity", "anchors": ["include/cista/containers/nvec.h: emplace_back, add", "include/cista/containers/vector.h: insert"]}
{"id": "C144", "title": "fetch_or and fetch_and report the value before the change", "statement": "When threads set and clear bits of one word with fetch_or and fetch_and, the word is changed exactly as the masks say, and the results tell the callers which of them changed a bit: if threads race to set an unset bit, exactly one of them is told that it was unset; in general the calls that were told to have set a bit and those that were told to have cleared it alternate.", "quantifier": "all interleavings of any number of calls, all masks and initial words, all implementations selected by the preprocessor", "why_tests_cant": "The implementations return different values depending on compiler and language version; a test runs one of them", "anchors": ["include/cista/atomic.h: fetch_or, fetch_and"]}
{"id": "C145", "title": "The optional hash functions are well defined", "statement": "With CISTA_HASH=WYHASH or CISTA_HASH=WYHASH_FASTEST, hash(s, h) reads only the bytes of s, whatever their number, has no undefined behaviour, and gives the same value on machines of both byte orders and with compilers with and without 128 bit integers.", "quantifier": "all byte sequences, seeds, byte orders and operands of the multiplication", "why_tests_cant": "the library is built and tested with the default hash function; the portable multiplication and the big endian reads are not compiled on the test machines", "anchors": ["tools/wyhash/wyhash.h: _wymum, _wyr8, _wyr4, _wyr3, FastestHash, _wyhash, wyhash", "include/cista/hash.h: hash (CISTA_WYHASH, CISTA_WYHASH_FASTEST)"]}
{"id": "C146", "title": "Checksums with the optional hash functions accept what was written and reject what was changed", "statement": "With CISTA_HASH=WYHASH or CISTA_HASH=WYHASH_FASTEST, data serialized to a file with WITH_INTEGRITY pass the check of deserialize, and data that were changed do not.", "quantifier": "all contents, headers, block sizes, seeds and byte orders", "why_tests_cant": "the file target computes its checksum in blocks of 512 kB; tests use smaller files and the default hash function", "anchors": ["include/cista/targets/file.h: file::checksum", "include/cista/targets/buf.h: buf::checksum", "include/cista/serialization.h: check", "tools/wyhash/wyhash.h: FastestHash, wyhash"]}
{"id": "C147", "title": "hash_combine keeps what was combined before and does not depend on the machine", "statement": "hash_combine(h, v) gives different values for different h, so that hash values of pairs, structs, tuples and type hashes depend on all parts, and gives the same value on machines of both byte orders, for each selectable hash function; empty strings and empty containers hash alike.", "quantifier": "all earlier hash values, combined values and byte orders", "why_tests_cant": "needs colliding inputs and machines of different byte order", "anchors": ["include/cista/hash.h: hash_combine, hash", "include/cista/hashing.h", "include/cista/type_hash/type_hash.h"]}
{"id": "C148", "title": "hash(buf) depends on all elements of a container", "statement": "hash(c, h) of a container c depends on each of its elements and only on them, for element types of every size and each selectable hash function.", "quantifier": "all containers, positions, element sizes, seeds and hash functions", "why_tests_cant": "tests hash byte buffers only", "anchors": ["include/cista/hash.h: hash(T const& buf, hash_t)"]}
