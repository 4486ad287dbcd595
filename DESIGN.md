# Formal model of cista (Lean 4)

Source: `/repo` (felixguendling/cista), read as text, never built or run here.
Everything below is about the *model*; the tie to the code is the citation on
each definition.

## Conventions

* Every definition that models code cites `file:lines` in its doc comment and
  says what was simplified.
* Outcomes are `Res α = Except Err α`. `Err.ub` is undefined behaviour
  (out-of-bounds access, use after free, read of unconstructed memory, wrong
  union member, `__builtin_unreachable`), `Err.exn` a C++ exception, `Err.leak`
  an object or block that can no longer be released, `Err.diverge` a loop that
  exceeds a bound that is proved never to be reached (or, in a `_violated`
  theorem, shown to be exceeded for every bound).
* `Nat`/`Int` is used for quantities whose overflow is not the subject; `BitVec n`
  or explicit `% 2 ^ n` where wrap-around is the subject (arithmetic, hashes,
  lengths, offsets).
* Per component: a model (`Model.lean`, or the first part of a single-file
  component), helper proofs, and property theorems named `Cnn_…` next to a small
  specification (lists, finite maps, multisets, byte strings) that does not use
  the helpers of the model. Concrete `example`s beside the theorems instantiate
  the hypotheses. Only `Cnn_…` theorems are claimed in MANIFEST.json.
* `_partial`: the theorem covers the property on a restricted domain; the note in
  MANIFEST.json says what is missing. `_violated`: the code (as modelled) breaks
  the property; the theorem proves it, in general or on a witness. Where a
  violation is known, the `_partial` theorem excludes exactly the violating
  pattern, so together they delimit the property.

## Trusted base

* The Lean 4.33.0 kernel; axioms at most `propext`, `Classical.choice`,
  `Quot.sound`. The table at the end lists them per theorem. No own axioms, no
  `sorry`, no `native_decide`/`bv_decide`.
* That each model definition reflects the cited C++ lines (reviewed by reading;
  the citations are checked mechanically to point at the named functions).
* The C++ library pieces used by the code behave as specified: `memcpy`,
  `memmove`, `std::rotate`, `std::map`, `std::basic_string_view`, `std::atomic`
  (sequentially consistent), POSIX `read/write/lseek/ftruncate/mmap/munmap`.
* The C++ object model where it matters is written into the models (alignment,
  object lifetime, unspecified members of unions). Compiler behaviour outside
  of that (padding bytes, evaluation order, exceptions from allocation) is not.

## What is modelled

| component | source | modelled | not modelled |
|---|---|---|---|
| Arith | next_power_of_2.h, verify.h, serialization.h (checked_*), bit_counting.h, mode.h, chunk.h, aligned_alloc.h, aligned_allocator.h | all functions, all widths | – |
| Hash | hash.h, hashing.h, equal_to.h (`Hash/Equal.lean`), variant.h (`hash`), mmap/file checksum, header check of serialization.h | FNV-1a, checksum over blocks, header words, key hashing for the key grammar (integers, text, pairs/arrays/containers/aggregates, pointers to text); `Hash/Wy.lean`: tools/wyhash/wyhash.h and the wrappers for it | xxh3, `make_secret` and random numbers of wyhash.h, `UNOFFICIAL_*` variants, fnv-1a over `std::filesystem::path` etc. |
| Bytes, Target | endian/*.h, targets/buf.h, targets/file.h | byte orders, aligned append, patching, POSIX file writes | Windows file target and I/O errors (see Io) |
| OffsetPtr | offset_ptr.h, offset_t.h | 64-bit address arithmetic, copy/move/assign/swap, `++`/`--`, comparison | pointers into the upper half of the address space |
| Bits | bitset.h, bitvec.h | all operations; bitset with its 64-bit blocks, bitvec for every block width | – |
| Conc | atomic.h, bitvec.h (`get_next`, atomic set) | interleavings with spurious CAS failure | weak memory orders |
| Vector, Mem | vector.h, allocator use | slots with lifetimes, all operations, aliasing arguments, growth and reference stability, `to_vec`, 32/64-bit size types | throwing copy constructors (see Throw) |
| Str | string.h, cstring.h | representation switches, ownership, all assignments, comparisons, for all character widths (string) | – |
| Multi | fws_multimap.h, vecvec.h, nvec.h | index tables, iterators, bucket iterators and accessors (also of paged_vecvec.h) | – |
| MM | mutable_fws_multimap.h | buckets, free lists, all operations, arguments that refer to own elements (Alias), bounds on the storage (Memory) | non-trivially copyable elements (static_assert) |
| Paged | paged.h, paged_vecvec.h | free lists inside of the pages at byte level | – |
| Sum | variant.h, tuple.h, optional.h, unique_ptr.h, memory_holder.h and buffer.h (ownership), reflection/comparable.h (two-member comparison) | states with lifetimes, layout arithmetic | – |
| Misc | flat_matrix.h, mmap_vec.h, mmap.h (sizes, mapping lifetime) | index arithmetic, file size bookkeeping (failures: Io) | Windows |
| HS | hash_storage.h, hash_map.h, hash_set.h, serialization.h (check_state) | control bytes, probing, growth, erase, iteration, copy/move, eight-byte groups with bit tricks; loops that erase, stability of references, reallocations, capacity (Iter) | heterogeneous lookup with an inconsistent hash |
| RTree | rtree.h | insert with splits, delete, search, free list, path hints, smallest rectangles, sorting and split heuristics, height, insertions that run out of memory | NaN coordinates, re-entrant callbacks |
| TypeHash | type_hash.h, static_type_hash.h, type_name.h | both functions over a grammar of types (structs by number, all overloads); `remove_all`, `canonicalize_type_name` | `type_str` (compiler's text; in the type hash names are opaque hashes), the overload for `basic_rtree::node` (never selected) |
| Ser | serialization.h, indexed.h, ptr.h, parts of all containers | a universe of types (below) over a byte memory; writer, reader, checks, deep check, all modes, both byte orders, raw and offset pointers | see below |
| Ser/CString | serialization.h (`generic_cstring` overload and the generic read functions), cstring.h (layout) | arrays of C strings over the byte memory of Ser | C strings nested in other types of the universe |
| Ser/Plain, Containers, Order, RTree | layouts of rtree.h (node functions), vecvec.h, fws_multimap.h, mutable_fws_multimap.h, nvec.h, flat_matrix.h, bitset.h, bitvec.h, paged.h, paged_vecvec.h | contents of memory (`Reads`) and the states of the container models stored in it | `float` and `enum` elements (C37), other vector size types |
| Io | serialization.h (`serialize` into any target, `copy_from_potentially_unaligned`), targets/buf.h with `mmap`, targets/file.h, io.h | the writer over an abstract target, three targets, files by path; the POSIX file over stdio streams with buffers and failures, the Windows file; mmap.h with failing system calls; ownership of `FILE*` and mappings by several `mmap` variables (Handles) | other processes using the file, 32-bit Windows |
| Misc/Strong | strong.h | arithmetic, order and increments over the integral types, with promotions | `>>`/`<<` with a `strong` on the right (ill-formed when used), streams, `std::hash` |
| Misc/Reflect | reflection/arity.h, to_tuple.h, for_each_field.h, member_index.h, comparable.h, printable.h | member counts by brace initialisation (with brace elision), the tuple of members, visiting, generated comparisons and printing | base classes, `cista_members()` overrides, output manipulators |
| Domain | (no code) | complete claims (C58–C73, C92–C100) for explicitly restricted uses of the above components | – |
| Fail | vector.h, mutable_fws_multimap.h, fws_multimap.h, vecvec.h, flat_matrix.h, string.h, cstring.h, hash_storage.h, bitvec.h, nvec.h, paged.h, paged_vecvec.h | the operations of Vector, MM, Str and insertions into hash tables, vecvec, nvec, paged_vecvec, bitvec, fws_multimap, flat_matrix with an oracle that decides which allocations fail; programs continue depending on whether a call threw (C101–C108, C133–C135) | exceptions thrown by elements (see Throw) |
| Throw | vector.h, hash_storage.h, variant.h, tuple.h | vector operations with an oracle for throwing copies besides failing allocations; insertion into hash tables, filling and copying them (C140), variant assignment and `emplace`, tuple element lifetimes with throwing elements (C109–C113) | throwing moves (except in `C109_move_violated`), throwing destructors, hash functions and comparisons |

Types in the serialization universe: integers of 1, 2, 4, 8 bytes; opaque scalar
blocks (floats, enums, types treated as scalars); pointers to `void` and to
objects; vectors (32/64-bit sizes) with plain and `indexed` elements; strings;
`unique_ptr`; hash tables; `optional`; `variant`; arrays; `indexed<T>`; aggregates with
explicit field offsets (structs, pairs, tuples, bitsets, bitvecs, multimaps,
paged containers, `fws_multimap`, `vecvec`, … are aggregates of these).
Types that own values of their own type (`struct node { vector<node> c; }`) are
systems of named definitions which are unrolled to any depth; results of
unrollings do not depend on the depth (`Ser/Rec.lean`, C82), and
`C40_recursive_violated`, `C82_cyclic_violated` show what happens when the depth
is not limited. Not in the universe: `generic_cstring`, characters wider than a byte, versioned/`cista_members` customisations.

## How the main proofs go

* Containers: an invariant relating the concrete state to the abstract value,
  preserved by each operation, then induction over the list of operations
  (`run`). Exceptions are part of the histories where the code throws.
* Hash table: `ctrl` is described as `layout S` (slots, end marker, mirror); probe
  sequences are shown to visit every group, a lookup invariant says that no
  empty byte precedes an entry in its probe sequence.
* R-tree: a recursive representation predicate with a potential that bounds the
  number of nested splits.
* Concurrency: small-step semantics over arbitrary schedules, invariants over all
  reachable states.
* Serialization: the writer is described by the leaves it patches (`Lay`), the
  image in the buffer is related to the source memory leaf by leaf, the reader is
  shown to undo it (`Same`), pointers are followed through a placement function.
  For untrusted input the reader is shown to establish `Safe` or to throw, for
  arbitrary memory contents.

## Findings (each one a `_violated` theorem unless noted)

* Arithmetic/addresses: `checked_multiplication` has undefined behaviour on
  `INT_MIN * -1` (C02); postfix `++`/`--` of offset_ptr; two non-null
  `offset_ptr<void>` always compare equal, because the only implicit conversion is the one to `bool` (C07).
* vector: inserting an empty range, arguments that alias a full vector, sizes above
  half of the size type, wrong iterators returned, destructors skipped (C09, C10, C50, C51).
* bitvec: shift by `size()` or more, `next_set_bit` behind the last set bit,
  padding bits (C12, C13). `fetch_max` never stores (C14).
* string/cstring: embedded NUL, self views, truncated lengths, leaks, double
  ownership of implicit copies (C15, C17).
* multimaps: key `2^32-1`, `get_or_create`, element count after `erase(key)`,
  iterator `--`, `it - n`, return values of `erase`, `front()` of an empty map adds a bucket and `back()` is
  undefined (C18, C20, C21, C52); vecvec
  `resize`/`at` (C22), nvec `at`/`size` (C23), paged_vecvec limits and aliasing (C25);
  the difference of bucket iterators with a 32-bit index is never negative (C80).
* variant: assignment of an lvalue of the held type is ignored, comparison of
  valueless variants (C26, C27); tuple `==` on different arities (C29);
  optional never destroys, copy of a non-const optional (C30, C53);
  unique_ptr `reset` of a non-owning pointer, `p = move(p->next)` (C30).
* hash table: `rehash()` of an empty table and move assignment leak; reachable
  tables rejected by `check_state`; accepted tables on which `find` loops or reads
  out of bounds (C31, C41, C42).
* hash table: inserting and erasing makes the capacity grow however few entries there are: at most eight entries at a time drive it beyond every bound (C117).
* R-tree: rectangles stay too large after deleting along the path hint at the origin and with `delete_element_with_function` (C118);
  a split refills the upper node with the entries that end lowest (C120).
* hashing/equal_to: a negative `int` equals the converted `uint32_t`, an `int` equals a
  rounded `float`, a string equals a padded `char[N]`, each with different hashes;
  hashing a `float` of -1 or less is undefined behaviour (C34).
* R-tree: path hint index out of bounds for deep trees (C35, C36).
* serialization: over-aligned roots, byte order of wide variant indices and
  floats, overlapping objects under conversion, hash table entries that overwrite
  control bytes under conversion, signed overflow before a check, recursion through a self-owning node, emptied heap strings rejected,
  the deep check mixes up pointer types with equal type hashes (C37–C43).
* type hashes: the ends of variants, tuples and nested structs are not hashed, so
  different layouts share a version word; integers of the same size are not told apart (C57).
* wrapped: `mmap::operator=(mmap&&)` leaks mapping and file; `reset` destroys an owned object
  twice, leaves a dangling pointer behind, and is undefined on empty variables (C75).
* Targets, mmap: over-aligned memory target, empty block in the file target,
  `munmap` with the wrong size, `reserve` changes the persisted length (C44, C46, C54).
* `copy_from_potentially_unaligned` returns strings that refer to freed memory (C85); `read_mmap` with raw
  pointers writes into the read-only mapping (theorem `mmap_raw_violated`, see C84).
* `generic_cstring` members are neither converted nor checked on load: raw pointers dangle, swapped lengths stay swapped,
  manipulated pointers are accepted (theorems `CString.raw_violated`, `swapped_violated`, `unchecked_violated`, see C88).
* Throwing elements: vector `resize` leaks, forward range insertion leaves moved-from elements, range and copy
  constructors leak the buffer, `reserve` swallows a throwing move under NDEBUG (C109); hash tables and variants are
  left with an object that was never constructed (C111, C112); tuple constructors leak (`TupleLife.ctor_throw_leaks`).
* `strong<uint16_t>` multiplication computes in `int` and overflows from 2^31 on (theorem `Strong.multiply_violated`, see C86).
* failed allocations: a hash table that could not grow has lost its entries and cannot be destroyed (C105); vecvec and
  flat_matrix are inconsistent afterwards (C107, C108); `c_str()` of a raw `cstring` is null after a failed assignment (C104); a mutable multimap's `erase(key)`
  that throws has already emptied the bucket (theorem `C102_history`).

Noticed while reading, not formalised: long strings with wider characters are
written without alignment (serialization.h:202-240); the default argument `to = nullptr` of `deserialize` always
fails the range check; header words are read without alignment check in `check`;
a valueless variant makes `serialize` throw; bool members are not validated;
`copy_from_potentially_unaligned` (serialization.h:1127-1148) returns a copy of the
root made from a temporary aligned copy of the buffer: vectors are copied with
their elements, but the copies of long strings (not `self_allocated_` after
loading, so string.h:168-174 copies them as views) and of pointers point into the
freed temporary; nvec `at` does not
compile for N >= 3.
* File targets: `~file` ignores the result of `fclose`, a write after a failed write
  returns an offset at which its bytes are not, `content()` works once and is undefined
  after a write, `size()` does not count buffered bytes (C122); on Windows padding of
  16 bytes and more is refused and `content()` ignores read errors (C124).
* `mmap`: a `resize` that throws leaves the file unmapped with `size_` already grown, a
  smaller `resize` then succeeds without a mapping; the file keeps the grown length;
  `~mmap` throws if `msync` fails; sizes above 2^63 empty the file; `mmap_vec::push_back`
  that throws leaves `size()` one too large (C126).
* `build_hash` hashes a `char const*` by its address (C127).
* `mutable_fws_multimap`: `push_back`/`insert` of an own element reads it after the cells
  were reallocated; `insert` of an element behind the position inserts its predecessor (C128).
* `vecvec::emplace_back(c)` moves the elements out of a container that is no temporary, its own
  buckets included; own elements are read after a reallocation (C129).
* `bitvec` does not list `size_` in `cista_members`, so that it is never converted to another
  byte order; `paged` keeps free-list links inside elements, which are converted as elements (C131).
* `basic_rtree::node` loads `count_`, rectangles and children without converting them (C132).
* A failed copy assignment of a `bitvec` leaves size and blocks inconsistent; its copying operators are `noexcept` (C133).
* `nvec::emplace_back` is inconsistent after a failure between its vectors, and repeating it misplaces the content (C134).
* `paged_vecvec::emplace_back` loses a page when the index cannot grow (C135).
* rtree.h:572 (C136): the loop that removes needless roots after a deletion tests the number of entries of the tree instead of the number
  of children of the root; a tree that once was high stays high until a single entry is left.
* `mutable_fws_multimap` never splits or merges free blocks: after `erase(key)` storage can exceed the largest content by a factor that grows
  with the number of orders (C137).
* rtree.h:282-286 (C138): the split of the root takes a node for the new root and then one for the right half; if the second allocation
  throws, the first node is lost: neither in the tree nor on the free list.
* `file` and `mmap`: move assignment loses the `FILE*` and the mapping of the target for
  ever and does not cut its file; self move loses them too; `file::file` loses the
  `FILE*` if `fstat` fails; a moved-from `mmap` keeps `size()`, resizing it calls
  `fileno(nullptr)` (C139).
* hash_storage.h:261-263, 275-281 (C140): an exception after the first entry leaves a constructor without running the destructor;
  the memory of the table and the entries copied so far are leaked.
* hash_storage.h:318-324 (C141): `operator[]` reads its argument again after the array was replaced,
  so `m[m.at(k)]` and `m[x] = m.at(k)` are undefined when the table grows; in tables with one entry, always.
* paged.h:117-123 (C142): `emplace_back` and `insert` of `paged_vecvec` accept every container whose elements can be converted, but copy
  `n * sizeof(value_type)` bytes from the address of its first element: `emplace_back` of a vector of wider integers stores halves,
  of narrower integers or of a `std::list` reads past the end.
* nvec.h:452-453, 291, 371 (C23): for N = 1 the containers are of type `meta_bucket<0>`, whose `begin()` steps before the first index
  table: the elements of an nvec of depth one cannot be read (`at(i)` does not compile either).
* nvec.h:540-553 (C143): `emplace_back` moves the elements out of its argument even if that is not a temporary; `nv.emplace_back(nv[i])`
  empties container `i`, or is undefined if `data_` has to grow.
* atomic.h:13-31 (C144): `fetch_or` and `fetch_and` return the old value with MSVC and C++20, the new value with GCC and Clang before C++20.
* bitset.h:59-65, 78-85, 98-113: `count()`, `any()` and `for_each_set_bit()` of `bitset<0>` read a block that does not exist (C11 is about N > 0;
  an `example` beside it).
* Code that does not compile when it is used, and is therefore not modelled: iterators of `flat_matrix` rows (flat_matrix.h:20-31, 53-58
  hand the vector to `std::next`), shifts of a `strong` by a `strong`, `end` of a const page of `paged`.
* C146: with the build options `WYHASH` and `WYHASH_FASTEST`, the checksum of the file target (hash of 512 kB blocks, each
  the seed of the next) is not the hash that the reader computes over all the data, so that files with more than 512 kB of
  data written `WITH_INTEGRITY` are rejected. `FastestHash` reads at most twelve bytes; with `wyhash` eight certain bytes
  near the end make the checksum independent of everything but the length.
* C147: with `WYHASH_FASTEST`, `hash_combine(h, 0)` is 0 for every `h` (32 and 64 bit zeros). With both options
  `hash_combine` and thus the type hash depend on the byte order of the machine.
* C148: `hash(buf)` passes the number of elements as number of bytes; of a container of `std::uint32_t` only the first
  quarter of the elements is hashed (`Hash/Buf.lean`, all hash functions).

## Testing the theorems

`seeded/LOG.jsonl` records wrong variants of the model (one edit each), made in a
scratch copy, with the theorems that no longer check. An edit counts as detected
when the build of the property theorems (or of the concrete examples beside them)
fails. Edits that survived are listed with the theorem that was tightened, or with
the reason why the edit does not change anything the property speaks about.

## Axioms per theorem

P = `propext`, C = `Classical.choice`, Q = `Quot.sound`.

| property | theorem: axioms |
|---|---|
| C01 | `next_power_of_two_least`: P C Q; `next_power_of_two_zero`: P C Q |
| C02 | `checked_addition`: P Q; `checked_multiplication`: P C Q; `checked_multiplication_signed_ub`: none; `multiplication_never_wraps`: P |
| C03 | `file_checksum_eq_buf`: P C Q; `fnv1a`: P Q; `hash_of_blocks`: P Q |
| C04 | `check_no_ub`: P Q; `corruption_detected`: P C Q; `original_accepted`: P C Q; `single_byte_changes_hash`: P Q; `version_corruption_detected`: P C Q |
| C05 | `chunk_partition`: P Q; `each_index_once`: P C Q; `zero_chunk_size_diverges`: P Q |
| C06 | `convert_involutive`: P C Q; `cross_host`: P C Q; `stored_bytes_host_independent`: P Q |
| C07 | `bool_iff_nonnull`: P C Q; `equal_iff_same_target`: P C Q; `initial_null`: P; `offset_ptr_refines_raw`: P C Q; `post_increment_violated`: P Q; `void_equal_violated`: P C Q |
| C08 | `relocation`: P C Q; `relocation_null`: P C Q; `store_then_get`: P C Q |
| C09 | `half_range_violated`: P C Q; `history_deserialized_partial`: P C Q; `history_partial`: P C Q; `insert_empty_range_violated`: P Q |
| C10 | `growth_violated`: P C Q; `spare_capacity_partial`: P C Q |
| C11 | `history`: P C Q; `order_total`: P Q |
| C12 | `history_partial`: P C Q; `next_set_bit_partial`: P C Q; `next_set_bit_violated`: P Q; `shift_out_violated`: P Q |
| C13 | `get_next_partial`: P C Q; `padding_violated`: P Q; `solo_progress`: P C Q |
| C14 | `fetch_max_violated`: P Q; `fetch_min`: P C Q; `fetch_min_linearizable`: P Q |
| C15 | `embedded_nul_violated`: P Q; `history_partial`: P C Q; `length_truncated_violated`: P C Q; `self_view_violated`: P Q; `view_self_assign_violated`: P Q |
| C16 | `affixes`: P C Q; `any_state`: P C Q; `comparisons`: P C Q; `cstring`: P C Q; `hash`: P C Q; `hash_any_state`: P C Q; `total_order`: P C Q |
| C17 | `generic_copy_violated`: P Q; `history_partial`: P C Q; `length_max_violated`: P Q; `length_violated`: P Q; `move_leak_violated`: P Q; `moved_from_violated`: P Q; `self_assign_violated`: P Q; `self_move_violated`: P Q |
| C18 | `back_violated`: P Q; `bucket_accessors`: P C Q; `front_back_partial`: P C Q; `front_violated`: P C Q; `get_or_create_violated`: P; `history`: P C Q; `max_key_violated`: P; `other_buckets`: P C Q |
| C19 | `partition`: P C Q; `storage_bound`: P C Q |
| C20 | `element_count_exact`: P C Q; `element_count_partial`: P C Q; `erase_key_violated`: P C Q |
| C21 | `current_key`: P Q; `groups`: P Q; `iterator_partial`: P Q; `iterator_violated`: P Q; `unfinished_key_violated`: P Q |
| C22 | `accessors`: P C Q; `at_violated`: P Q; `history_partial`: P C Q; `index_overflow_violated`: P Q; `resize_violated`: P C Q |
| C23 | `access_partial`: P Q; `accessors`: P C Q; `at_unchecked_violated`: P Q; `at_violated`: P Q; `content`: P Q; `depth_one_violated`: P Q; `size_depth_violated`: P; `size_throws_violated`: P Q |
| C24 | `history`: P C Q; `too_large_throws`: P C Q |
| C25 | `accessors`: P C Q; `history_partial`: P C Q; `iterate_empty_violated`: P; `large_bucket_violated`: P C Q; `push_back_limit`: P C Q; `push_back_own_partial`: P Q; `push_back_own_violated`: P Q |
| C26 | `copy_assign_violated`: P C Q; `empty_source_violated`: P; `history_partial`: P C Q; `lvalue_assign_violated`: P C Q; `no_value`: P C Q |
| C27 | `different_alternative`: P C Q; `empty_violated`: P Q; `same_alternative`: P C Q; `total_partial`: P C Q; `transitive`: P C Q |
| C28 | `address_aligned`: P C Q; `construct_get`: P C Q; `copy`: P C Q; `layout`: P C Q; `no_excess_padding`: P Q; `write_frame`: P C Q |
| C29 | `equality`: P Q; `equality_arity_violated`: P Q; `lexicographic`: P Q; `transitive`: P; `trichotomy`: P C Q |
| C30 | `all_freed`: P C Q; `move_from_own_member_violated`: P Q; `optional_leak_violated`: P Q; `reset_borrowed_violated`: P; `self_move`: P; `unique_ptr_partial`: P C Q |
| C31 | `copy_assign`: P C Q; `erase_iterator`: P C Q; `history`: P C Q; `move_assign_partial`: none; `move_assign_violated`: P Q; `rehash_violated`: P C Q |
| C32 | `find_terminates`: P C Q; `insert_erase_terminate`: P C Q |
| C33 | `equality`: P C Q; `iteration`: P C Q |
| C34 | `char_array_violated`: P Q; `char_buffer_violated`: P Q; `equal_keys_hash_equal_partial`: P Q; `float_rounding_violated`: P Q; `mixed_sign_violated`: P C Q; `negative_float_violated`: P Q; `negative_int_violated`: P C Q |
| C35 | `history_partial`: P C Q; `path_hint_violated`: P Q; `search_complete_partial`: P C Q |
| C36 | `insert_violated`: P Q; `structure_partial`: P C Q |
| C37 | `cast_partial`: P C Q; `float_violated`: P C Q; `overaligned_root_violated`: P Q; `round_trip_partial`: P C Q; `variant_index_violated`: P C Q |
| C38 | `relinked_partial`: P C Q |
| C39 | `hash_overwrite_violated`: P Q; `overflow_violated`: P C Q; `overlap_violated`: P Q; `safe_partial`: P C Q; `type_hash_violated`: P Q |
| C40 | `recursive_violated`: P Q; `terminates_partial`: P C Q |
| C41 | `accepted_partial`: P C Q; `hash_accepted_iff_violated`: P C Q; `hash_member_partial`: P C Q; `hash_partial`: P C Q; `hash_rehash_violated`: P Q; `hash_tombstone_violated`: P Q; `string_violated`: P C Q |
| C42 | `find_diverges_violated`: P C Q; `find_ub_violated`: P Q; `iteration`: P C Q; `serialized_partial`: P C Q |
| C43 | `overaligned_root_violated`: P Q; `root_position_partial`: P Q |
| C44 | `block_placement`: P Q; `buf_overaligned_violated`: P Q; `buf_target_partial`: P C Q; `file_empty_block_violated`: P Q; `file_target`: P C Q; `patch_frame`: P Q; `targets_differ_violated`: P Q |
| C45 | `history_partial`: P Q; `overflow_violated`: P Q; `resize_partial`: P Q; `row`: P Q; `wrapped_violated`: P C Q |
| C46 | `file`: P C Q; `history_partial`: P C Q; `push_back_own_element_violated`: P Q; `reserve_violated`: P C Q |
| C47 | `constexpr_trailing_zeros`: P C Q; `leading_zeros`: P C Q; `leading_zeros_split`: P C Q; `popcount_split`: P Q; `trailing_zeros`: P C Q; `trailing_zeros_of_zero`: P Q; `trailing_zeros_split`: P C Q |
| C48 | `mode_flags`: P Q |
| C49 | `atomic_set`: P C Q |
| C50 | `leak_violated`: P C Q; `lifetimes_partial`: P C Q |
| C51 | `erase_partial`: P C Q; `erase_range_violated`: P C Q; `insert_violated`: P C Q |
| C52 | `decrement_violated`: P Q; `erase_range_return_violated`: P C Q; `erase_return_violated`: P C Q; `iterator_distance`: P Q; `iterator_moves_partial`: P Q |
| C53 | `copy_nonconst_violated`: none; `history_partial`: P C Q |
| C54 | `unmap_partial`: P; `unmap_violated`: P Q |
| C55 | `read_only`: P Q |
| C56 | `names`: P C Q; `terminates`: P C Q |
| C57 | `integer_kind_violated`: P C Q; `integer_resize`: P C Q; `member_change`: P C Q; `nested_struct_violated`: P Q; `type_change`: P C Q; `variant_end_violated`: P Q |
| C58 | `bitvec`: P C Q |
| C59 | `vector`: P C Q |
| C60 | `text`: P C Q |
| C61 | `cstring`: P C Q |
| C62 | `vecvec`: P C Q |
| C63 | `hash_map`: P C Q |
| C64 | `hash_map_loaded`: P C Q |
| C65 | `mmap_vec`: P C Q |
| C66 | `unique_ptr`: P C Q |
| C67 | `rtree`: P C Q |
| C68 | `multimap`: P C Q |
| C69 | `variant`: P C Q |
| C70 | `tuple`: P C Q |
| C71 | `optional`: P C Q |
| C72 | `untrusted_native`: P C Q |
| C73 | `round_trip`: P C Q |
| C74 | `c_strings_compare_addresses`: P Q; `decides`: P C Q; `equal_keys_hash_alike`: P C Q |
| C75 | `history_partial`: P Q; `mapping_leak_violated`: P; `no_leak_partial`: P Q; `reset_dangling_violated`: P Q; `reset_owned_violated`: P; `reset_twice_violated`: P |
| C76 | `history`: P Q |
| C77 | `allocate`: P C Q; `beyond_max_size`: P Q; `next_multiple`: P C Q; `wraps_around`: P C Q |
| C78 | `collision_violated`: P C Q; `empty_pattern_diverges`: none; `inner_violated`: none; `no_occurrence`: P C Q; `no_spaces`: P C Q; `not_idempotent_violated`: none; `remove_all`: P C Q; `spellings_partial`: P C Q |
| C79 | `distinct`: P C Q; `idempotent`: P C Q; `plain`: P C Q |
| C80 | `difference_partial`: P Q; `difference_violated`: P Q; `moves`: P C Q; `range_for`: P Q |
| C81 | `appends_allocate_logarithmically`: P C Q; `stable_within_capacity`: P C Q; `to_vec`: P C Q |
| C82 | `cyclic_violated`: P Q; `relinked_partial`: P C Q; `round_trip_partial`: P C Q; `safe_partial`: P C Q |
| C83 | `targets_agree`: P C Q |
| C84 | `damaged`: P C Q; `missing`: P Q; `write_read`: P C Q |
| C85 | `copy_partial`: P C Q; `string_violated`: P C Q |
| C86 | `unsigned`: P C Q |
| C87 | `inc_dec`: P C Q; `order`: P C Q |
| C88 | `roundtrip`: P C Q |
| C89 | `c_array_violated`: P C Q; `compiles_only_right`: P C Q; `members`: P C Q; `skips_members_violated`: P C Q |
| C90 | `comparable`: P C Q |
| C91 | `struct`: P Q; `vector`: P |
| C92 | `offset_ptr`: P C Q |
| C93 | `fetch_min`: P C Q |
| C94 | `groups`: P Q |
| C95 | `nvec`: P C Q |
| C96 | `paged_vecvec`: P C Q |
| C97 | `matrix`: P Q; `rows`: P Q |
| C98 | `targets`: P C Q |
| C99 | `own_element`: P C Q |
| C100 | `iterators`: P Q |
| C101 | `history`: P C Q; `reserved`: P C Q; `strong`: P C Q |
| C102 | `history`: P C Q; `step`: P C Q |
| C103 | `history`: P C Q; `short`: P Q |
| C104 | `history_partial`: P C Q; `terminator_violated`: P Q |
| C105 | `empty_violated`: P C Q; `no_growth_partial`: P C Q; `nonempty_violated`: P C Q; `retry_partial`: P C Q |
| C106 | `fws_history`: P Q |
| C107 | `emplace_partial`: P Q; `index_violated`: P C Q; `list_partial`: P Q; `list_violated`: P Q |
| C108 | `grow_violated`: P Q; `shrink_partial`: P Q |
| C109 | `ctor_violated`: P C Q; `move_violated`: P C Q; `range_violated`: P C Q; `resize_violated`: P C Q; `step_partial`: P C Q |
| C110 | `history`: P C Q |
| C111 | `calm_partial`: P C Q; `throw_violated`: P C Q |
| C112 | `assign_violated`: P C Q; `emplace_violated`: P C Q; `same_alternative_partial`: P C Q |
| C113 | `history`: P C Q |
| C114 | `erase_if`: P C Q; `loop`: P C Q |
| C115 | `stable`: P C Q |
| C116 | `reallocations`: P C Q |
| C117 | `churn_violated`: P Q; `insert_only_partial`: P C Q; `unbounded_violated`: P C Q |
| C118 | `function_violated`: P Q; `origin_violated`: P Q; `tight_partial`: P C Q |
| C119 | `area`: P; `choose`: P C Q; `largest_axis`: P Q; `least_enlargement`: P Q; `sort`: P C Q |
| C120 | `split`: P C Q |
| C121 | `calls`: P C Q; `serialize`: P C Q; `throw_size`: P C Q |
| C122 | `close_violated`: P Q; `fresh_partial`: P Q; `retry_violated`: P C Q; `size_violated`: P Q; `twice_violated`: P Q; `written_violated`: P Q |
| C123 | `calls`: P C Q; `content`: P C Q; `serialize`: P C Q |
| C124 | `agree_partial`: P C Q; `content_violated`: P C Q; `overaligned_violated`: P Q; `retry_violated`: P Q; `serialize_violated`: P Q |
| C125 | `history`: P C Q; `read_only`: P Q; `throw`: P C Q |
| C126 | `huge_violated`: P Q; `length_violated`: P Q; `push_back_violated`: P C Q; `terminate_violated`: none; `unmapped_violated`: P C Q |
| C127 | `c_string_violated`: P Q; `equal_partial`: P C Q; `separates`: P Q; `tuple_partial`: P Q; `variant`: P C Q; `variant_index`: P Q |
| C128 | `insert_partial`: P C Q; `moved_violated`: P C Q; `push_back_partial`: P C Q; `shifted_violated`: P C Q |
| C129 | `argument_partial`: P Q; `bucket_partial`: P C Q; `element_partial`: P C Q; `growth_violated`: P C Q; `moved_out_violated`: P Q; `own_moved_violated`: P C Q |
| C130 | `bitset`: P C Q; `flat_matrix`: P C Q; `fws`: P C Q; `mutable_fws`: P C Q; `nvec`: P C Q; `plain`: P C Q; `vecvec`: P C Q; `vecvec_history`: P C Q |
| C131 | `bitvec_partial`: P C Q; `bitvec_violated`: P C Q; `paged_partial`: P C Q; `paged_violated`: P C Q; `paged_words_partial`: P C Q |
| C132 | `other_order_violated`: P C Q; `same_order_partial`: P C Q; `search_partial`: P C Q |
| C133 | `assign_violated`: P C Q; `history_partial`: P C Q; `noexcept_violated`: P C Q; `operators`: P C Q |
| C134 | `earlier`: P Q; `first_violated`: P Q; `history_partial`: P Q; `index_violated`: P Q; `retry_violated`: P Q; `returns`: P Q; `throws_iff`: P C Q |
| C135 | `history`: P C Q; `lost_pages`: P C Q; `throws_iff`: P Q |
| C136 | `balanced`: P C Q; `growing`: P C Q; `height_partial`: P C Q; `shrink_violated`: P C Q |
| C137 | `adding`: P C Q; `bound`: P C Q; `capacity`: P C Q; `fragmentation`: P Q; `history`: P C Q; `linear`: P C Q; `total`: P C Q |
| C138 | `failure_partial`: P C Q; `history_partial`: P C Q; `node_lost_violated`: P C Q; `nodes_partial`: P C Q |
| C139 | `assign_violated`: P C Q; `history_partial`: P C Q; `moved_violated`: P Q; `pages_violated`: P C Q; `self_violated`: P Q; `stat_violated`: P Q |
| C140 | `assign_partial`: P C Q; `copy_partial`: P C Q; `copy_violated`: P C Q; `init_list_violated`: P C Q; `insert`: P C Q; `memory_violated`: P C Q |
| C141 | `dangling_violated`: P C Q; `history_partial`: P C Q; `single_violated`: P C Q |
| C142 | `own_buckets`: P C Q; `reinterpreted_violated`: P C Q; `same_type_partial`: P Q; `short_source_violated`: P C Q |
| C143 | `argument_partial`: P Q; `growth_violated`: P Q; `history_partial`: P Q; `moved_out_violated`: P Q; `own_moved_violated`: P Q |
| C144 | `builtin_violated`: P Q; `race_partial`: P Q; `winners_partial`: P Q; `word`: P Q |
| C145 | `fastest`: P Q; `multiply`: P C Q; `wyhash`: P Q |
| C146 | `blocks_fastest_violated`: P Q; `blocks_wyhash_violated`: P Q; `one_block_partial`: P Q; `secret_violated`: P Q; `unread_violated`: P Q |
| C147 | `byte_order_violated`: P Q; `empty_violated`: P Q; `fnv_partial`: P Q; `zero_violated`: P Q |
| C148 | `bytes_partial`: P Q; `wide_violated`: P Q |
