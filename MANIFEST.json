{
 "claims": [
  {
   "property": "C01",
   "status": "proved",
   "theorems": [
    "Cista.Arith.C01_next_power_of_two_least",
    "Cista.Arith.C01_next_power_of_two_zero"
   ],
   "note": "All widths w, all x. Zero argument and overflow cases stated separately."
  },
  {
   "property": "C02",
   "status": "proved",
   "theorems": [
    "Cista.Arith.C02_checked_addition",
    "Cista.Arith.C02_checked_multiplication",
    "Cista.Arith.C02_multiplication_never_wraps",
    "Cista.Arith.C02_checked_multiplication_signed_ub"
   ],
   "note": "Addition at every integer type; multiplication of non-negative arguments at every integer type. Multiplying negative arguments at a signed type can overflow (C02_checked_multiplication_signed_ub, not used by the deserializer)."
  },
  {
   "property": "C03",
   "status": "proved",
   "theorems": [
    "Cista.Hash.C03_fnv1a",
    "Cista.Hash.C03_hash_of_blocks",
    "Cista.Hash.C03_file_checksum_eq_buf"
   ],
   "note": "FNV-1a only. With the wyhash build options the chunked file checksum is not a streaming hash, see C146; xxh3 is not modelled."
  },
  {
   "property": "C04",
   "status": "proved",
   "theorems": [
    "Cista.Hash.C04_single_byte_changes_hash",
    "Cista.Hash.C04_check_no_ub",
    "Cista.Hash.C04_corruption_detected",
    "Cista.Hash.C04_version_corruption_detected",
    "Cista.Hash.C04_original_accepted"
   ],
   "note": "Any single byte change in the integrity-protected region or the version header is rejected; the unmodified buffer is accepted."
  },
  {
   "property": "C05",
   "status": "proved",
   "theorems": [
    "Cista.Hash.C05_chunk_partition",
    "Cista.Hash.C05_each_index_once",
    "Cista.Hash.C05_zero_chunk_size_diverges"
   ],
   "note": "chunk() visits every index exactly once; chunk size 0 diverges."
  },
  {
   "property": "C06",
   "status": "proved",
   "theorems": [
    "Cista.Hash.C06_convert_involutive",
    "Cista.Hash.C06_stored_bytes_host_independent",
    "Cista.Hash.C06_cross_host"
   ],
   "note": "Both host byte orders, all widths."
  },
  {
   "property": "C07",
   "status": "partial",
   "theorems": [
    "Cista.OffsetPtr.C07_offset_ptr_refines_raw",
    "Cista.OffsetPtr.C07_initial_null",
    "Cista.OffsetPtr.C07_bool_iff_nonnull",
    "Cista.OffsetPtr.C07_equal_iff_same_target",
    "Cista.OffsetPtr.C07_post_increment_violated",
    "Cista.OffsetPtr.C07_void_equal_violated"
   ],
   "note": "All histories of null/raw assignment, copy/move, prefix ++/--, swap for objects and targets in the lower half of the address space (user space). Refuted for every pointer: postfix ++/-- (returns the moved pointer and leaves the object alone). Refuted for every pair of non-null pointers: == of offset_ptr<void> compares only the truth values."
  },
  {
   "property": "C08",
   "status": "proved",
   "theorems": [
    "Cista.OffsetPtr.C08_relocation",
    "Cista.OffsetPtr.C08_relocation_null",
    "Cista.OffsetPtr.C08_store_then_get"
   ],
   "note": "Bytewise relocation of any block, any pointer/target position, both host byte orders."
  },
  {
   "property": "C09",
   "status": "partial",
   "theorems": [
    "Cista.Vector.C09_history_partial",
    "Cista.Vector.C09_history_deserialized_partial",
    "Cista.Vector.C09_half_range_violated",
    "Cista.Vector.C09_insert_empty_range_violated"
   ],
   "note": "All histories over any number of vectors incl. deserialized ones, all observers; sizes up to 2^(W-1). Refuted: growth beyond 2^(W-1) and inserting an empty forward range before existing elements."
  },
  {
   "property": "C10",
   "status": "partial",
   "theorems": [
    "Cista.Vector.C10_spare_capacity_partial",
    "Cista.Vector.C10_growth_violated"
   ],
   "note": "Holds whenever capacity suffices; refuted for every full vector (the argument is read after it was destroyed)."
  },
  {
   "property": "C11",
   "status": "proved",
   "theorems": [
    "Cista.Bits.C11_history",
    "Cista.Bits.C11_order_total"
   ],
   "note": "Bitset of any size N>0: histories over a store of bitsets refine arrays of N booleans, all observers (test, count, any, for_each_set_bit, str, ==, <). N = 0 is excluded: count(), any() and for_each_set_bit() of bitset<0> read a block that does not exist (example beside the theorem)."
  },
  {
   "property": "C12",
   "status": "partial",
   "theorems": [
    "Cista.Bits.C12_history_partial",
    "Cista.Bits.C12_next_set_bit_partial",
    "Cista.Bits.C12_shift_out_violated",
    "Cista.Bits.C12_next_set_bit_violated"
   ],
   "note": "Proved for histories without shifts by size() or more and for next_set_bit outside the last-block-with-padding case; the two excluded cases are false in the code and have witness theorems (shift_out_violated, next_set_bit_violated)."
  },
  {
   "property": "C13",
   "status": "partial",
   "theorems": [
    "Cista.Conc.C13_get_next_partial",
    "Cista.Conc.C13_solo_progress",
    "Cista.Conc.C13_padding_violated"
   ],
   "note": "All interleavings and spurious CAS failures; vectors without stray padding bits. With padding bits set get_next hands out an index beyond size (C13_padding_violated, every such vector and state)."
  },
  {
   "property": "C14",
   "status": "partial",
   "theorems": [
    "Cista.Conc.C14_fetch_min_linearizable",
    "Cista.Conc.C14_fetch_min",
    "Cista.Conc.C14_fetch_max_violated"
   ],
   "note": "fetch_min: linearizable and ends with the minimum for all schedules. fetch_max is refuted: it never changes the cell under any schedule."
  },
  {
   "property": "C15",
   "status": "partial",
   "theorems": [
    "Cista.Str.C15_history_partial",
    "Cista.Str.C15_embedded_nul_violated",
    "Cista.Str.C15_self_view_violated",
    "Cista.Str.C15_view_self_assign_violated",
    "Cista.Str.C15_length_truncated_violated"
   ],
   "note": "All histories over any number of owning strings and views, all character widths. Missing, with counterexamples: short strings with an embedded NUL, assignment from a view into the same string, self-assignment of a short view, lengths beyond 2^32."
  },
  {
   "property": "C16",
   "status": "proved",
   "theorems": [
    "Cista.Str.C16_any_state",
    "Cista.Str.C16_cstring",
    "Cista.Str.C16_affixes",
    "Cista.Str.C16_hash_any_state",
    "Cista.Str.C16_comparisons",
    "Cista.Str.C16_total_order",
    "Cista.Str.C16_hash"
   ],
   "note": "C16_any_state/C16_cstring/C16_affixes hold in every state in which the characters can be read; C16_comparisons for states reached by histories. Characters compare as unsigned (char, char8_t, char16_t, char32_t). Arguments of starts_with of 2^32 characters or more are cut (affix_length_violated)."
  },
  {
   "property": "C17",
   "status": "partial",
   "theorems": [
    "Cista.CStr.C17_history_partial",
    "Cista.CStr.C17_length_violated",
    "Cista.CStr.C17_length_max_violated",
    "Cista.CStr.C17_self_assign_violated",
    "Cista.CStr.C17_move_leak_violated",
    "Cista.CStr.C17_self_move_violated",
    "Cista.CStr.C17_generic_copy_violated",
    "Cista.CStr.C17_moved_from_violated"
   ],
   "note": "All histories of cstring/cstring_view variables. Missing, with counterexamples: misclassified lengths >= 2^31+16 (exactly characterised), self copy/move assignment, leak on move assignment, implicit copy of generic_cstring, moved-from raw strings."
  },
  {
   "property": "C18",
   "status": "partial",
   "theorems": [
    "Cista.MM.C18_bucket_accessors",
    "Cista.MM.C18_front_back_partial",
    "Cista.MM.C18_front_violated",
    "Cista.MM.C18_back_violated",
    "Cista.MM.C18_history",
    "Cista.MM.C18_other_buckets",
    "Cista.MM.C18_max_key_violated",
    "Cista.MM.C18_get_or_create_violated"
   ],
   "note": "All histories of all mutating operations (exceptions included) for 32/64-bit size types and all bucket limits, under the assumption that the storage bound of the history is at most 2^32 (the vectors' size type). Refuted for key 2^32-1: operator[] (and get_or_create with 64-bit keys) drops every bucket. Arguments referring into the container itself are excluded."
  },
  {
   "property": "C19",
   "status": "proved",
   "theorems": [
    "Cista.MM.C19_partition",
    "Cista.MM.C19_storage_bound"
   ],
   "note": "Each storage position lies in exactly one live or free region after every allowed history (exceptions included); storage size bounded in terms of the history."
  },
  {
   "property": "C20",
   "status": "partial",
   "theorems": [
    "Cista.MM.C20_element_count_exact",
    "Cista.MM.C20_element_count_partial",
    "Cista.MM.C20_erase_key_violated"
   ],
   "note": "Exact value for every history: element_count counts elements removed by erase(key) until the next clear. The property holds when nothing was removed that way and is refuted otherwise."
  },
  {
   "property": "C21",
   "status": "partial",
   "theorems": [
    "Cista.Multi.Fws.C21_groups",
    "Cista.Multi.Fws.C21_current_key",
    "Cista.Multi.Fws.C21_iterator_partial",
    "Cista.Multi.Fws.C21_iterator_violated",
    "Cista.Multi.Fws.C21_unfinished_key_violated"
   ],
   "note": "Grouping and iteration for all sequences of groups; +, +=, -=, difference of iterators. Refuted: it - n adds; values pushed after the last finish_key go to the last key."
  },
  {
   "property": "C22",
   "status": "partial",
   "theorems": [
    "Cista.Multi.VecVec.C22_accessors",
    "Cista.Multi.VecVec.C22_history_partial",
    "Cista.Multi.VecVec.C22_resize_violated",
    "Cista.Multi.VecVec.C22_at_violated",
    "Cista.Multi.VecVec.C22_index_overflow_violated"
   ],
   "note": "All histories. Missing, with general counterexamples: buckets added after a resize that dropped elements contain those; at(size()) does not throw; silent index overflow."
  },
  {
   "property": "C23",
   "status": "partial",
   "theorems": [
    "Cista.Multi.NVec.C23_accessors",
    "Cista.Multi.NVec.C23_content",
    "Cista.Multi.NVec.C23_depth_one_violated",
    "Cista.Multi.NVec.C23_access_partial",
    "Cista.Multi.NVec.C23_at_violated",
    "Cista.Multi.NVec.C23_at_unchecked_violated",
    "Cista.Multi.NVec.C23_size_throws_violated",
    "Cista.Multi.NVec.C23_size_depth_violated"
   ],
   "note": "Content, sizes and nested indexing for all depths of at least two. Refuted: at() second index unchecked and off-by-one first check; size(i) checks the wrong level; size(i,j,..) wrong for depth >= 3; at() does not compile for N >= 3; for N = 1 the elements cannot be read (C23_depth_one_violated)."
  },
  {
   "property": "C24",
   "status": "proved",
   "theorems": [
    "Cista.Paged.C24_history",
    "Cista.Paged.C24_too_large_throws"
   ],
   "note": "All histories of create/resize/free/write/clear whose total rounded size fits the size type; requests above MaxPageSize throw."
  },
  {
   "property": "C25",
   "status": "partial",
   "theorems": [
    "Cista.Paged.C25_accessors",
    "Cista.Paged.C25_history_partial",
    "Cista.Paged.C25_push_back_limit",
    "Cista.Paged.C25_large_bucket_violated",
    "Cista.Paged.C25_push_back_own_partial",
    "Cista.Paged.C25_push_back_own_violated",
    "Cista.Paged.C25_iterate_empty_violated"
   ],
   "note": "All histories with buckets of at most MaxPageSize elements. Violations proved: buckets of >= 65536 elements overflow their page (size cast to uint16), push_back of an element of the same container reads freed memory, iterating an empty container throws."
  },
  {
   "property": "C26",
   "status": "partial",
   "theorems": [
    "Cista.Variant.C26_no_value",
    "Cista.Variant.C26_history_partial",
    "Cista.Variant.C26_lvalue_assign_violated",
    "Cista.Variant.C26_copy_assign_violated",
    "Cista.Variant.C26_empty_source_violated"
   ],
   "note": "Proved for every history of move assignments, rvalue assignments, emplace and copies into variants of a different alternative. Violated: assigning an lvalue / copy-assigning a variant of the alternative already held keeps the old value (witness theorems), and copying an empty variant fails."
  },
  {
   "property": "C27",
   "status": "partial",
   "theorems": [
    "Cista.Variant.C27_same_alternative",
    "Cista.Variant.C27_different_alternative",
    "Cista.Variant.C27_total_partial",
    "Cista.Variant.C27_transitive",
    "Cista.Variant.C27_empty_violated"
   ],
   "note": "Lexicographic order on (index, value) for all non-empty variants. Violated for valueless variants: comparison reaches apply with an out-of-range index."
  },
  {
   "property": "C28",
   "status": "proved",
   "theorems": [
    "Cista.Tuple.C28_layout",
    "Cista.Tuple.C28_address_aligned",
    "Cista.Tuple.C28_no_excess_padding",
    "Cista.Tuple.C28_construct_get",
    "Cista.Tuple.C28_write_frame",
    "Cista.Tuple.C28_copy"
   ],
   "note": "All lists of element sizes and power-of-two alignments."
  },
  {
   "property": "C29",
   "status": "partial",
   "theorems": [
    "Cista.Tuple.C29_lexicographic",
    "Cista.Tuple.C29_equality",
    "Cista.Tuple.C29_trichotomy",
    "Cista.Tuple.C29_transitive",
    "Cista.Tuple.C29_equality_arity_violated"
   ],
   "note": "All arities, all element orders. Violated: == on tuples of different arity (larger right operand) compares a prefix only. comparable.h delegates to std::tuple and is covered through the same lexicographic spec."
  },
  {
   "property": "C30",
   "status": "partial",
   "theorems": [
    "Cista.Optional.C30_optional_leak_violated",
    "Cista.UPtr.C30_unique_ptr_partial",
    "Cista.UPtr.C30_all_freed",
    "Cista.UPtr.C30_reset_borrowed_violated",
    "Cista.UPtr.C30_self_move",
    "Cista.UPtr.C30_move_from_own_member_violated"
   ],
   "note": "unique_ptr: all histories without the two violating patterns. Violated: reset() of a non-owning (deserialized) pointer leaves it non-null; p = std::move(p->next) frees the object that contains its source; optional never destroys its value."
  },
  {
   "property": "C31",
   "status": "partial",
   "theorems": [
    "Cista.HS.C31_history",
    "Cista.HS.C31_erase_iterator",
    "Cista.HS.C31_rehash_violated",
    "Cista.HS.C31_move_assign_violated",
    "Cista.HS.C31_move_assign_partial",
    "Cista.HS.C31_copy_assign"
   ],
   "note": "Every history of emplace/insert, operator[], assignment through operator[], get/find, at, erase(key), size, clear, rehash, copy and move refines a finite-map spec, for every hash function; erase(iterator) and copy assignment separately. Preconditions on a history: rehash only on a non-empty map. C31_rehash_violated: rehash() on a default constructed map allocates a block with capacity 0 that is never released (the destructor and the next resize test the capacity, not the pointer). C31_move_assign_violated: move assignment onto a non-empty map overwrites the members without clear() and leaks. Bound: fewer than 2^60 operations. Allocation failure is not modelled. Key equality is decidable equality and the hash is a function of the key (lawful hash/eq)."
  },
  {
   "property": "C32",
   "status": "proved",
   "theorems": [
    "Cista.HS.C32_find_terminates",
    "Cista.HS.C32_insert_erase_terminate"
   ],
   "note": "Proved with an explicit bound of capacity/8+1 groups examined (triangular probing visits all groups); every operation of a history terminates."
  },
  {
   "property": "C33",
   "status": "proved",
   "theorems": [
    "Cista.HS.C33_iteration",
    "Cista.HS.C33_equality"
   ],
   "note": "Iteration visits exactly the live entries once each; operator== is extensional equality of the maps, independent of insertion order."
  },
  {
   "property": "C34",
   "status": "partial",
   "theorems": [
    "Cista.Hash.Equal.C34_negative_int_violated",
    "Cista.Hash.Equal.C34_float_rounding_violated",
    "Cista.Hash.Equal.C34_char_array_violated",
    "Cista.Hash.Equal.C34_negative_float_violated",
    "Cista.Hash.C34_equal_keys_hash_equal_partial",
    "Cista.Hash.C34_char_buffer_violated",
    "Cista.Hash.C34_mixed_sign_violated"
   ],
   "note": "Proved for the key grammar of the model; padded char arrays, negative integers against uint32_t, integers against rounded floats are refuted, and hashing a negative float is undefined behaviour. C74 has the complete claim outside of these."
  },
  {
   "property": "C35",
   "status": "partial",
   "theorems": [
    "Cista.RTree.C35_history_partial",
    "Cista.RTree.C35_search_complete_partial",
    "Cista.RTree.C35_path_hint_violated"
   ],
   "note": "For every dimension, capacity MaxItems >= 3, strict-weak-order coordinate type and payload type, over all histories of insert, delete_element, delete_element_with_function, search with stopping callbacks, size, with fewer than limit(MaxItems) inserts (more than 2^47 for the default capacity 64). Beyond the limit path_hint_[16] may be indexed out of bounds: shown for MaxItems = 3 after 36 inserts. Not covered: NaN coordinates, callbacks that modify the tree, insert of a payload that refers into the tree itself."
  },
  {
   "property": "C36",
   "status": "partial",
   "theorems": [
    "Cista.RTree.C36_structure_partial",
    "Cista.RTree.C36_insert_violated"
   ],
   "note": "Same histories: count, containment of everything below a slot rectangle, free nodes unreachable, every node reachable or free, termination of the insert loop (a potential argument). The violated theorem shows a reachable tree on which insert indexes path_hint_ out of bounds."
  },
  {
   "property": "C37",
   "status": "partial",
   "theorems": [
    "Cista.Ser.C37_round_trip_partial",
    "Cista.Ser.C37_cast_partial",
    "Cista.Ser.C37_overaligned_root_violated",
    "Cista.Ser.C37_variant_index_violated",
    "Cista.Ser.C37_float_violated"
   ],
   "note": "C37_round_trip_partial: serialize then deserialize, all modes (incl. DEEP_CHECK), both byte orders, raw and offset pointers, any aligned address, hash tables included; C37_cast_partial for CAST. Missing: root alignment above the header size (C37_overaligned_root_violated), variants with more than 255 alternatives under byte order conversion (C37_variant_index_violated), floats across byte orders (C37_float_violated), emptied heap strings (C41_string_violated), hash tables with tombstones that check_state rejects (C41_hash_accepted_iff_violated)."
  },
  {
   "property": "C38",
   "status": "partial",
   "theorems": [
    "Cista.Ser.C38_relinked_partial"
   ],
   "note": "C38_relinked_partial: same conditions as C37_round_trip_partial (pointers to objects of their type, root alignment, no emptied heap strings, hash tables accepted by check_state); all graphs, forward references and cycles included, pointers inside of hash table entries too."
  },
  {
   "property": "C39",
   "status": "partial",
   "theorems": [
    "Cista.Ser.C39_safe_partial",
    "Cista.Ser.C39_overlap_violated",
    "Cista.Ser.C39_overflow_violated",
    "Cista.Ser.C39_hash_overwrite_violated",
    "Cista.TypeHash.C39_type_hash_violated"
   ],
   "note": "C39_safe_partial: arbitrary bytes; throws or succeeds without out of bounds or misaligned access; owned data in bounds unless converted without DEEP_CHECK; with DEEP_CHECK everything reachable. Hash tables (layout, control bytes, iteration) when nothing has to be converted. Violations: C39_overlap_violated (overlapping objects undo checked conversions), C39_hash_overwrite_violated (an entry overwrites the control bytes of its table during conversion, the iterator leaves the buffer), C39_overflow_violated (signed overflow before the check). C39_type_hash_violated: the visited set of the deep check is keyed by type hash; pointer types with equal hashes (vectors with 32 and 64 bit sizes) are mixed up and an unchecked vector is reachable. Otherwise (Keyed) the theorem holds."
  },
  {
   "property": "C40",
   "status": "partial",
   "theorems": [
    "Cista.Ser.C40_terminates_partial",
    "Cista.Ser.C40_recursive_violated"
   ],
   "note": "C40_terminates_partial for all types unrolled to a finite depth (recursive types: C82_safe_partial with any limit) and arbitrary pointer graphs; C40_recursive_violated: a self-owning node of a recursive type makes the recursion endless. Types with hash tables: only if nothing has to be converted (see C39_hash_overwrite_violated)."
  },
  {
   "property": "C41",
   "status": "partial",
   "theorems": [
    "Cista.HS.C41_hash_accepted_iff_violated",
    "Cista.HS.C41_hash_tombstone_violated",
    "Cista.HS.C41_hash_rehash_violated",
    "Cista.HS.C41_hash_partial",
    "Cista.Ser.C41_hash_member_partial",
    "Cista.Ser.C41_accepted_partial",
    "Cista.Ser.C41_string_violated"
   ],
   "note": "C41_accepted_partial: everything written is accepted by checked and deep-checked deserialization (conditions of C37). C41_string_violated: heap string emptied by erase is rejected. Hash tables: C41_hash_accepted_iff_violated characterises exactly which reachable maps pass check_state; C41_hash_tombstone_violated is a history (inserts with colliding hashes, then an erase) whose map is rejected; maps built without erase are accepted (C41_hash_partial) and, as members of serialized values, satisfy the conditions of C41_accepted_partial (C41_hash_member_partial)."
  },
  {
   "property": "C42",
   "status": "partial",
   "theorems": [
    "Cista.HS.C42_find_diverges_violated",
    "Cista.HS.C42_find_ub_violated",
    "Cista.HS.C42_iteration",
    "Cista.HS.C42_serialized_partial"
   ],
   "note": "Hash table part: iteration over any accepted table is in bounds and terminates for all bytes (C42_iteration). Lookup is not safe: C42_find_diverges_violated (an accepted all-tombstone table makes find loop forever) and C42_find_ub_violated (mirror bytes are not compared to the slots, so find reads a non-existing entry)."
  },
  {
   "property": "C43",
   "status": "partial",
   "theorems": [
    "Cista.Target.C43_root_position_partial",
    "Cista.Target.C43_overaligned_root_violated"
   ],
   "note": "Holds when data_start(Mode) is a multiple of alignof(T); refuted for all other alignments."
  },
  {
   "property": "C44",
   "status": "partial",
   "theorems": [
    "Cista.Ser.C44_targets_differ_violated",
    "Cista.Target.C44_file_target",
    "Cista.Target.C44_buf_target_partial",
    "Cista.Target.C44_block_placement",
    "Cista.Target.C44_patch_frame",
    "Cista.Target.C44_buf_overaligned_violated",
    "Cista.Target.C44_file_empty_block_violated"
   ],
   "note": "POSIX file target fully; memory target when buffer address is aligned. Refuted for every buffer that is less aligned than a block (C44_buf_overaligned_violated) and for every empty block written to a file that does not end on the alignment (C44_file_empty_block_violated)."
  },
  {
   "property": "C45",
   "status": "partial",
   "theorems": [
    "Cista.FlatMatrix.C45_history_partial",
    "Cista.FlatMatrix.C45_row",
    "Cista.FlatMatrix.C45_overflow_violated",
    "Cista.FlatMatrix.C45_wrapped_violated",
    "Cista.FlatMatrix.C45_resize_partial"
   ],
   "note": "Proved for all dimensions whose product fits size_type, over all histories of writes, resets and changes of the dimensions (C45_history_partial, C45_row, C45_resize_partial). Violated when the product reaches 2^32: the storage is silently truncated and in-range cells lie outside of it. The iterators of rows do not compile (they hand the vector to std::next)."
  },
  {
   "property": "C46",
   "status": "partial",
   "theorems": [
    "Cista.MmapVec.C46_history_partial",
    "Cista.MmapVec.C46_file",
    "Cista.MmapVec.C46_reserve_violated",
    "Cista.MmapVec.C46_push_back_own_element_violated"
   ],
   "note": "All histories incl. close/reopen, except close while an explicit reserve for another size is in force; that case is violated (reserve changes the persisted length), as is push_back of an own element when the mapping grows."
  },
  {
   "property": "C47",
   "status": "proved",
   "theorems": [
    "Cista.Arith.C47_constexpr_trailing_zeros",
    "Cista.Arith.C47_trailing_zeros_of_zero",
    "Cista.Arith.C47_trailing_zeros",
    "Cista.Arith.C47_trailing_zeros_split",
    "Cista.Arith.C47_leading_zeros",
    "Cista.Arith.C47_leading_zeros_split",
    "Cista.Arith.C47_popcount_split"
   ],
   "note": "All widths; builtin and split variants."
  },
  {
   "property": "C48",
   "status": "proved",
   "theorems": [
    "Cista.Arith.C48_mode_flags"
   ],
   "note": "All flag subsets."
  },
  {
   "property": "C49",
   "status": "proved",
   "theorems": [
    "Cista.Conc.C49_atomic_set"
   ],
   "note": "Sequentially consistent interleavings of atomic read-modify-writes; disjoint index ownership."
  },
  {
   "property": "C50",
   "status": "partial",
   "theorems": [
    "Cista.Vector.C50_lifetimes_partial",
    "Cista.Vector.C50_leak_violated"
   ],
   "note": "Strict lifetime accounting over all histories without resize-shrink and set/copy-assign over existing elements; those operations skip destructors (witnesses)."
  },
  {
   "property": "C51",
   "status": "partial",
   "theorems": [
    "Cista.Vector.C51_erase_partial",
    "Cista.Vector.C51_insert_violated",
    "Cista.Vector.C51_erase_range_violated"
   ],
   "note": "erase(pos) and forward-range insert; the other insert overloads and erase(first,last) return a wrong iterator (proved for all inputs)."
  },
  {
   "property": "C52",
   "status": "partial",
   "theorems": [
    "Cista.MM.C52_iterator_distance",
    "Cista.MM.C52_iterator_moves_partial",
    "Cista.MM.C52_decrement_violated",
    "Cista.MM.C52_erase_return_violated",
    "Cista.MM.C52_erase_range_return_violated"
   ],
   "note": "++, +=, -= are consistent. Refuted: -- increments; erase returns end() instead of the following element."
  },
  {
   "property": "C53",
   "status": "partial",
   "theorems": [
    "Cista.Optional.C53_history_partial",
    "Cista.Optional.C53_copy_nonconst_violated"
   ],
   "note": "Trivially destructible T, const copy sources. Violated: copying a non-const optional selects the forwarding constructor and stores bool(source)."
  },
  {
   "property": "C54",
   "status": "partial",
   "theorems": [
    "Cista.MmapVec.C54_unmap_violated",
    "Cista.MmapVec.C54_unmap_partial"
   ],
   "note": "Violated: the destructor calls munmap with the used size instead of the mapped size."
  },
  {
   "property": "C55",
   "status": "proved",
   "theorems": [
    "Cista.Ser.C55_read_only"
   ],
   "note": "Universe of types of Ser/Model.lean."
  },
  {
   "property": "C56",
   "status": "proved",
   "theorems": [
    "Cista.TypeHash.C56_terminates",
    "Cista.TypeHash.C56_names"
   ],
   "note": "The recursion over structs is given a bound on the nesting; C56_terminates shows that every bound above the number of structs gives the same value. Names of scalars other than integers (float, enums) enter the hash, they are kept by the renaming. For static_type_hash the table of types is modelled as an error when it is full (the constant evaluation fails to compile)."
  },
  {
   "property": "C57",
   "status": "partial",
   "theorems": [
    "Cista.TypeHash.C57_type_change",
    "Cista.TypeHash.C57_member_change",
    "Cista.TypeHash.C57_integer_resize",
    "Cista.TypeHash.C57_variant_end_violated",
    "Cista.TypeHash.C57_nested_struct_violated",
    "Cista.TypeHash.C57_integer_kind_violated"
   ],
   "note": "C57_type_change and C57_member_change: one change out of the list in `Edit`, at any depth; C57_integer_resize: an integer type changes its size everywhere. Violated in general: the end of a variant, tuple or nested struct is not hashed, so moving a member across it is not detected (C57_nested_struct_violated loads wrong data through the version check); integer types of the same size are not told apart; size type and pointer kind of vectors are ignored by the overloads."
  },
  {
   "property": "C58",
   "status": "proved",
   "theorems": [
    "Cista.Bits.C58_bitvec"
   ],
   "note": "AllTidy is the condition on the history. Block width any positive number."
  },
  {
   "property": "C59",
   "status": "proved",
   "theorems": [
    "Cista.Vector.C59_vector"
   ],
   "note": "Op.Plain names the operations left out; what happens otherwise is C09/C50 (violated)."
  },
  {
   "property": "C60",
   "status": "proved",
   "theorems": [
    "Cista.Str.C60_text"
   ],
   "note": "Usable names the preconditions (positions, NUL-free text, no self assignment)."
  },
  {
   "property": "C61",
   "status": "proved",
   "theorems": [
    "Cista.CStr.C61_cstring"
   ],
   "note": "Usable names the preconditions."
  },
  {
   "property": "C62",
   "status": "proved",
   "theorems": [
    "Cista.Multi.VecVec.C62_vecvec"
   ],
   "note": "Usable: positions in range and total sizes below the limits of the index type."
  },
  {
   "property": "C63",
   "status": "proved",
   "theorems": [
    "Cista.HS.C63_hash_map"
   ],
   "note": "Explicit rehash is excluded because it may leave a full table (C31_rehash_violated)."
  },
  {
   "property": "C64",
   "status": "proved",
   "theorems": [
    "Cista.HS.C64_hash_map_loaded"
   ],
   "note": "serialized st is the state of the written table; the byte level is C41_hash_member_partial and C73."
  },
  {
   "property": "C65",
   "status": "proved",
   "theorems": [
    "Cista.MmapVec.C65_mmap_vec"
   ],
   "note": "Usable: positions in range, element sizes."
  },
  {
   "property": "C66",
   "status": "proved",
   "theorems": [
    "Cista.UPtr.C66_unique_ptr"
   ],
   "note": "Borrowed and external pointers are left out (C30_reset_borrowed_violated)."
  },
  {
   "property": "C67",
   "status": "proved",
   "theorems": [
    "Cista.RTree.C67_rtree"
   ],
   "note": "2^31 insertions keep the path hints (16 levels) sufficient; overflow of the 32-bit node index is not modelled."
  },
  {
   "property": "C68",
   "status": "proved",
   "theorems": [
    "Cista.MM.C68_multimap"
   ],
   "note": "Allowed: buckets exist, positions valid, keys below 2^32-1; storage below 2^32 elements."
  },
  {
   "property": "C69",
   "status": "proved",
   "theorems": [
    "Cista.Variant.C69_variant"
   ],
   "note": "Reflexive and total comparison for variants holding values; default constructed ones are C27_empty_violated."
  },
  {
   "property": "C70",
   "status": "proved",
   "theorems": [
    "Cista.Tuple.C70_tuple"
   ],
   "note": "Elements compare by per-position functions that form a total order."
  },
  {
   "property": "C71",
   "status": "proved",
   "theorems": [
    "Cista.Optional.C71_optional"
   ],
   "note": "A copy from a non-const optional selects another constructor (C53_copy_nonconst_violated)."
  },
  {
   "property": "C72",
   "status": "proved",
   "theorems": [
    "Cista.Ser.C72_untrusted_native"
   ],
   "note": "Memory accesses outside of the buffer are Err.ub in the model, which does not occur. DeepCfg: finitely many pointee types."
  },
  {
   "property": "C73",
   "status": "proved",
   "theorems": [
    "Cista.Ser.C73_round_trip"
   ],
   "note": "Source and Reader (Ser/Props.lean) list the conditions on value and reader."
  },
  {
   "property": "C74",
   "status": "proved",
   "theorems": [
    "Cista.Hash.Equal.C74_equal_keys_hash_alike",
    "Cista.Hash.Equal.C74_decides",
    "Cista.Hash.Equal.C74_c_strings_compare_addresses"
   ],
   "note": "NaN and infinities are not modelled; types with their own hash() or std::hash are opaque."
  },
  {
   "property": "C75",
   "status": "partial",
   "theorems": [
    "Cista.Wrapped.C75_history_partial",
    "Cista.Wrapped.C75_no_leak_partial",
    "Cista.Wrapped.C75_mapping_leak_violated",
    "Cista.Wrapped.C75_reset_owned_violated",
    "Cista.Wrapped.C75_reset_twice_violated",
    "Cista.Wrapped.C75_reset_dangling_violated"
   ],
   "note": "Proved for loaded objects that are reset at most once and not used afterwards, and for assignments other than over a held mapping from a variable with the mmap alternative. Refuted: such an assignment leaks mapping and file; reset of an owning or empty variable, or twice, is undefined behaviour; after reset the variable still tests as true."
  },
  {
   "property": "C76",
   "status": "proved",
   "theorems": [
    "Cista.Wrapped.C76_history"
   ],
   "note": "Self move assignment is outside of the model."
  },
  {
   "property": "C77",
   "status": "proved",
   "theorems": [
    "Cista.Arith.Alloc.C77_next_multiple",
    "Cista.Arith.Alloc.C77_allocate",
    "Cista.Arith.Alloc.C77_beyond_max_size",
    "Cista.Arith.Alloc.C77_wraps_around"
   ],
   "note": "64 bit std::size_t. allocate does not check max_size(): beyond it sizes wrap around (C77_beyond_max_size, C77_wraps_around)."
  },
  {
   "property": "C78",
   "status": "partial",
   "theorems": [
    "Cista.TypeHash.Name.C78_remove_all",
    "Cista.TypeHash.Name.C78_spellings_partial",
    "Cista.TypeHash.Name.C78_no_spaces",
    "Cista.TypeHash.Name.C78_no_occurrence",
    "Cista.TypeHash.Name.C78_collision_violated",
    "Cista.TypeHash.Name.C78_inner_violated",
    "Cista.TypeHash.Name.C78_not_idempotent_violated",
    "Cista.TypeHash.Name.C78_empty_pattern_diverges"
   ],
   "note": "Proved: termination, the spellings, no spaces in the result. Refuted: names that begin with the letters struct collide with the rest of the name, names in anonymous namespaces with global ones, constant with ant; the result can contain the removed text."
  },
  {
   "property": "C79",
   "status": "proved",
   "theorems": [
    "Cista.TypeHash.Name.C79_plain",
    "Cista.TypeHash.Name.C79_distinct",
    "Cista.TypeHash.Name.C79_idempotent"
   ],
   "note": "Names are lists of characters; what the compiler prints (type_str) is not modelled."
  },
  {
   "property": "C80",
   "status": "partial",
   "theorems": [
    "Cista.Multi.Access.C80_moves",
    "Cista.Multi.Access.C80_range_for",
    "Cista.Multi.Access.C80_difference_partial",
    "Cista.Multi.Access.C80_difference_violated"
   ],
   "note": "Moves and the range-for loop are proved for every width. The difference is proved when the width is below 32 or is 64, or when the result is not negative; for a 32-bit index type (the default of vecvec) the difference of an earlier and a later iterator is a large positive number instead of a negative one (C80_difference_violated), because the unsigned difference is widened to ptrdiff_t."
  },
  {
   "property": "C81",
   "status": "proved",
   "theorems": [
    "Cista.Vector.C81_stable_within_capacity",
    "Cista.Vector.C81_appends_allocate_logarithmically",
    "Cista.Vector.C81_to_vec"
   ],
   "note": "Sizes up to half of the size type (beyond that reserve wraps, C09_half_range_violated)."
  },
  {
   "property": "C82",
   "status": "partial",
   "theorems": [
    "Cista.Ser.C82_round_trip_partial",
    "Cista.Ser.C82_relinked_partial",
    "Cista.Ser.C82_safe_partial",
    "Cista.Ser.C82_cyclic_violated"
   ],
   "note": "Partial for the same reasons as C37-C39 (C37/C38/C39 _violated witnesses: CAST, overlapping objects, raw pointers); the limit on the recursion is necessary: C82_cyclic_violated gives bytes that pass all checks and which no recursion depth can load (stack overflow in the code). Example: a tree of three levels with pointers across levels, RecDemo.lean."
  },
  {
   "property": "C83",
   "status": "proved",
   "theorems": [
    "Cista.Ser.C83_targets_agree"
   ],
   "note": "Domain: storage aligned for the types inside (alignments above malloc's: C44_targets_differ_violated), values as in C73. The serializer is modelled a second time over an arbitrary target (Io/Target.lean) and shown to simulate the byte memory used by the other serialization theorems."
  },
  {
   "property": "C84",
   "status": "proved",
   "theorems": [
    "Cista.Ser.C84_write_read",
    "Cista.Ser.C84_missing",
    "Cista.Ser.C84_damaged"
   ],
   "note": "Domain as stated; read_mmap with raw pointers writes into the read-only mapping (theorem mmap_raw_violated in Io/Props.lean). I/O errors are not modelled."
  },
  {
   "property": "C85",
   "status": "partial",
   "theorems": [
    "Cista.Ser.C85_copy_partial",
    "Cista.Ser.C85_string_violated"
   ],
   "note": "Holds for types without strings and pointer members; for strings of more than 15 characters from an address that is not a multiple of 32 the result refers to the freed copy (C85_string_violated)."
  },
  {
   "property": "C86",
   "status": "proved",
   "theorems": [
    "Cista.Strong.C86_unsigned"
   ],
   "note": "Model of the integral promotions, Verif/Misc/Strong.lean. multiply_violated: a product of uint16_t values of 2^31 or more overflows int."
  },
  {
   "property": "C87",
   "status": "proved",
   "theorems": [
    "Cista.Strong.C87_inc_dec",
    "Cista.Strong.C87_order"
   ],
   "note": "Verif/Misc/Strong.lean"
  },
  {
   "property": "C88",
   "status": "proved",
   "theorems": [
    "Cista.Ser.CString.C88_roundtrip"
   ],
   "note": "Verif/Ser/CString.lean. Outside the stated domain it fails, also proved: raw_violated (raw pointers are never turned into addresses), swapped_violated (the length is not converted back), unchecked_violated (manipulated pointers are accepted)."
  },
  {
   "property": "C89",
   "status": "partial",
   "theorems": [
    "Cista.Reflect.C89_members",
    "Cista.Reflect.C89_compiles_only_right",
    "Cista.Reflect.C89_skips_members_violated",
    "Cista.Reflect.C89_c_array_violated"
   ],
   "note": "C89_members for structs with at most 64 members, no C array of several elements and default-constructible members (the first one may be without default). Refuted: a later member without default makes arity 0, the struct is silently treated as having no members (C89_skips_members_violated); C arrays of several elements are not supported (rejected at compile time). Base classes are not modelled."
  },
  {
   "property": "C90",
   "status": "proved",
   "theorems": [
    "Cista.Reflect.C90_comparable"
   ],
   "note": "std::tuple comparison modelled after its specification; outside of the domain see compare_skips_violated."
  },
  {
   "property": "C91",
   "status": "proved",
   "theorems": [
    "Cista.Reflect.C91_struct",
    "Cista.Reflect.C91_vector"
   ],
   "note": "What << prints for a single member is given; enum members print their number."
  },
  {
   "property": "C92",
   "status": "proved",
   "theorems": [
    "Cista.OffsetPtr.C92_offset_ptr"
   ],
   "note": "Complete for the stated domain; postfix ++/-- is refuted in C07."
  },
  {
   "property": "C93",
   "status": "proved",
   "theorems": [
    "Cista.Conc.C93_fetch_min"
   ],
   "note": "Complete for the stated domain; sequentially consistent atomics. fetch_max is refuted in C14."
  },
  {
   "property": "C94",
   "status": "proved",
   "theorems": [
    "Cista.Multi.Fws.C94_groups"
   ],
   "note": "Complete for the stated domain; fewer than 2^31 keys. it - n and unfinished keys are refuted in C21."
  },
  {
   "property": "C95",
   "status": "proved",
   "theorems": [
    "Cista.Multi.NVec.C95_nvec"
   ],
   "note": "Complete for the stated domain; at() and size(i...) are refuted in C23."
  },
  {
   "property": "C96",
   "status": "proved",
   "theorems": [
    "Cista.Paged.C96_paged_vecvec"
   ],
   "note": "Complete for the stated domain; larger buckets, own elements and iteration of an empty container are refuted in C25."
  },
  {
   "property": "C97",
   "status": "proved",
   "theorems": [
    "Cista.FlatMatrix.C97_matrix",
    "Cista.FlatMatrix.C97_rows"
   ],
   "note": "Complete for the stated domain; wrapping products are refuted in C45."
  },
  {
   "property": "C98",
   "status": "proved",
   "theorems": [
    "Cista.Target.C98_targets"
   ],
   "note": "Complete for the stated domain; over-aligned and empty blocks are refuted in C44."
  },
  {
   "property": "C99",
   "status": "proved",
   "theorems": [
    "Cista.Vector.C99_own_element"
   ],
   "note": "Complete for the stated domain (size at most half of the size type); full vectors are refuted in C10."
  },
  {
   "property": "C100",
   "status": "proved",
   "theorems": [
    "Cista.MM.C100_iterators"
   ],
   "note": "Complete for the stated domain; -- and the return value of erase are refuted in C52."
  },
  {
   "property": "C101",
   "status": "proved",
   "theorems": [
    "Cista.Fail.C101_history",
    "Cista.Fail.C101_strong",
    "Cista.Fail.C101_reserved"
   ],
   "note": "Strong guarantee for all modelled vector operations except single-pass range insertion, for adaptive programs with an arbitrary oracle per allocation (C101_history, C101_strong, C101_reserved)."
  },
  {
   "property": "C102",
   "status": "proved",
   "theorems": [
    "Cista.MM.C102_history",
    "Cista.MM.C102_step"
   ],
   "note": "Adaptive programs with arbitrary failures of index_, data_ and free list growth; the storage lost by a failed release is accounted for in the invariant."
  },
  {
   "property": "C103",
   "status": "proved",
   "theorems": [
    "Cista.Str.C103_history",
    "Cista.Str.C103_short"
   ],
   "note": "Adaptive programs with an arbitrary oracle per malloc; exclusions of the statement are the known defects of C16 (NUL in short texts, assignment from own view)."
  },
  {
   "property": "C104",
   "status": "partial",
   "theorems": [
    "Cista.CStr.C104_history_partial",
    "Cista.CStr.C104_terminator_violated"
   ],
   "note": "Everything but termination holds (C104_history_partial, with the exclusions of C17). With raw pointers c_str() is null after a failed assignment (C104_terminator_violated), because remaining_ is set to -1 before the allocation (cstring.h:91-95)."
  },
  {
   "property": "C105",
   "status": "partial",
   "theorems": [
    "Cista.HS.C105_no_growth_partial",
    "Cista.HS.C105_retry_partial",
    "Cista.HS.C105_empty_violated",
    "Cista.HS.C105_nonempty_violated"
   ],
   "note": "Insertions without growth never throw, and a failed first insertion can be retried (partial theorems). After a failed growth the entries are lost and leaked and the destructor has undefined behaviour for every non-empty table (C105_nonempty_violated); iterating over an empty table whose first insertion failed has undefined behaviour (C105_empty_violated). Cause: resize overwrites capacity_ and entries_ before the allocation is checked (hash_storage.h:592-600, 617-618)."
  },
  {
   "property": "C106",
   "status": "proved",
   "theorems": [
    "Cista.Multi.Fws.C106_fws_history"
   ],
   "note": "Adaptive programs with an arbitrary oracle per allocation; vectors have the strong guarantee (C101)."
  },
  {
   "property": "C107",
   "status": "partial",
   "theorems": [
    "Cista.Multi.VecVec.C107_emplace_partial",
    "Cista.Multi.VecVec.C107_list_partial",
    "Cista.Multi.VecVec.C107_index_violated",
    "Cista.Multi.VecVec.C107_list_violated"
   ],
   "note": "Holds when only the elements or the leading 0 cannot be stored (C107_emplace_partial). A failing index leaves the elements behind, which join the next bucket (C107_index_violated); the initializer_list overload stores the index before the elements (C107_list_violated)."
  },
  {
   "property": "C108",
   "status": "partial",
   "theorems": [
    "Cista.FlatMatrix.C108_shrink_partial",
    "Cista.FlatMatrix.C108_grow_violated"
   ],
   "note": "Shrinking never throws (C108_shrink_partial). Growing stores the dimensions before the vector grows, so after a failure cells are out of bounds (C108_grow_violated)."
  },
  {
   "property": "C109",
   "status": "partial",
   "theorems": [
    "Cista.Throw.C109_step_partial",
    "Cista.Throw.C109_resize_violated",
    "Cista.Throw.C109_range_violated",
    "Cista.Throw.C109_ctor_violated",
    "Cista.Throw.C109_move_violated"
   ],
   "note": "C109_step_partial: every operation in which only the copies named in C110 throw. Violations: resize and resize(n, x) leak the elements already constructed (C109_resize_violated); a forward range insertion leaves moved-from elements inside (C109_range_violated); constructors from ranges and copies leak the buffer (C109_ctor_violated); reserve swallows a throwing move in release builds and leaves unconstructed elements (C109_move_violated)."
  },
  {
   "property": "C110",
   "status": "proved",
   "theorems": [
    "Cista.Throw.C110_history"
   ],
   "note": "Complete for the operations named; the others (resize, set, copy assignment, forward range insertion) may fail to allocate but not throw while copying, see C109."
  },
  {
   "property": "C111",
   "status": "partial",
   "theorems": [
    "Cista.HS.C111_calm_partial",
    "Cista.HS.C111_throw_violated"
   ],
   "note": "Holds when the key is present or nothing throws (C111_calm_partial). A throwing constructor of the entry in its slot leaves a counted slot marked full without an object; destruction is undefined behaviour, for every reachable table and absent key (C111_throw_violated)."
  },
  {
   "property": "C112",
   "status": "partial",
   "theorems": [
    "Cista.Variant.C112_same_alternative_partial",
    "Cista.Variant.C112_assign_violated",
    "Cista.Variant.C112_emplace_violated"
   ],
   "note": "Holds for assignment to the alternative already held and when nothing throws (C112_same_alternative_partial). Otherwise the index names an alternative that was never constructed; visiting and destruction are undefined behaviour (C112_assign_violated, C112_emplace_violated)."
  },
  {
   "property": "C113",
   "status": "proved",
   "theorems": [
    "Cista.TupleLife.C113_history"
   ],
   "note": "A throwing element constructor leaks the elements constructed before it (theorem TupleLife.ctor_throw_leaks); C113 excludes it."
  },
  {
   "property": "C114",
   "status": "proved",
   "theorems": [
    "Cista.HS.C114_loop",
    "Cista.HS.C114_erase_if"
   ],
   "note": "The statements of a body are erase(it), it->second = v, erase(key) and find-and-assign; using the iterator after erasing its entry (other than to increment it) is excluded. Inserting in the body is excluded (see C115)."
  },
  {
   "property": "C115",
   "status": "proved",
   "theorems": [
    "Cista.HS.C115_stable"
   ],
   "note": "Complete; growth_left_ is not observable through the API."
  },
  {
   "property": "C116",
   "status": "proved",
   "theorems": [
    "Cista.HS.C116_reallocations"
   ],
   "note": "Complete for histories without clear, rehash, copy and move."
  },
  {
   "property": "C117",
   "status": "partial",
   "theorems": [
    "Cista.HS.C117_unbounded_violated",
    "Cista.HS.C117_insert_only_partial",
    "Cista.HS.C117_churn_violated"
   ],
   "note": "Holds for histories without erase (C117_insert_only_partial). With erase the capacity doubles whenever tombstones have used up growth_left_, however few entries there are: eight keys inserted and erased five times give a capacity of 63 (C117_churn_violated), and for every bound below 2^59 there is a history that never holds more than eight entries and leaves an empty table of at least that capacity (C117_unbounded_violated)."
  },
  {
   "property": "C118",
   "status": "partial",
   "theorems": [
    "Cista.RTree.C118_tight_partial",
    "Cista.RTree.C118_origin_violated",
    "Cista.RTree.C118_function_violated"
   ],
   "note": "C118_tight_partial covers all histories (fewer than limit M insertions, node capacity at least 3) that do not store the degenerate rectangle at the origin and whose deletion predicates only select entries with the given rectangle. Missing, because the code violates it: node_delete compares with a default constructed rectangle after descending along the path hint (C118_origin_violated), and delete_element_with_function looks at the given rectangle instead of that of the removed entry (C118_function_violated)."
  },
  {
   "property": "C119",
   "status": "proved",
   "theorems": [
    "Cista.RTree.C119_sort",
    "Cista.RTree.C119_largest_axis",
    "Cista.RTree.C119_area",
    "Cista.RTree.C119_least_enlargement",
    "Cista.RTree.C119_choose"
   ],
   "note": "Coordinates form a strict weak order (no NaN). Areas and differences are whatever the arithmetic of the coordinate type yields, e.g. the maximum of the type for infinite enlargement."
  },
  {
   "property": "C120",
   "status": "proved",
   "theorems": [
    "Cista.RTree.C120_split"
   ],
   "note": "The upper node is refilled with the entries that end lowest (node_split sorts in reverse and takes from the back), not with those nearest to it; this is what the code does and what the claim says, see the example in RTree/Heur.lean."
  },
  {
   "property": "C121",
   "status": "proved",
   "theorems": [
    "Cista.Stdio.C121_calls",
    "Cista.Stdio.C121_throw_size",
    "Cista.Ser.C121_serialize"
   ],
   "note": "targets/file.h (POSIX) over a model of stdio streams (buffer, position, direction) with an arbitrary device. Complete; what the code does when fclose reports an error, and after an exception, is C122."
  },
  {
   "property": "C122",
   "status": "partial",
   "theorems": [
    "Cista.Stdio.C122_close_violated",
    "Cista.Stdio.C122_retry_violated",
    "Cista.Stdio.C122_fresh_partial",
    "Cista.Stdio.C122_twice_violated",
    "Cista.Stdio.C122_size_violated",
    "Cista.Stdio.C122_written_violated"
   ],
   "note": "Partial because the code violates it: ~file ignores fclose, a write after a failed one returns an offset at which its bytes are not, content() a second time throws, content() after a write is input after output (undefined), size() does not count buffered bytes. Proved for a file just opened."
  },
  {
   "property": "C123",
   "status": "proved",
   "theorems": [
    "Cista.Win.C123_calls",
    "Cista.Win.C123_content",
    "Cista.Ser.C123_serialize"
   ],
   "note": "targets/file.h (Windows). Complete for alignments up to 16."
  },
  {
   "property": "C124",
   "status": "partial",
   "theorems": [
    "Cista.Win.C124_agree_partial",
    "Cista.Win.C124_overaligned_violated",
    "Cista.Win.C124_retry_violated",
    "Cista.Win.C124_content_violated",
    "Cista.Ser.C124_serialize_violated"
   ],
   "note": "Partial because the code violates it: padding of 16 or more bytes is refused, content() ignores the result of ReadFile. Proved for alignments up to 16 and systems without failures."
  },
  {
   "property": "C125",
   "status": "proved",
   "theorems": [
    "Cista.MmapFail.C125_history",
    "Cista.MmapFail.C125_read_only",
    "Cista.MmapFail.C125_throw"
   ],
   "note": "Complete for protection MODIFY/WRITE on POSIX; munmap cannot fail; a shared mapping shows the bytes of the file."
  },
  {
   "property": "C126",
   "status": "partial",
   "theorems": [
    "Cista.MmapFail.C126_unmapped_violated",
    "Cista.MmapFail.C126_length_violated",
    "Cista.MmapFail.C126_terminate_violated",
    "Cista.MmapFail.C126_huge_violated",
    "Cista.MmapFail.C126_push_back_violated"
   ],
   "note": "Partial because the code violates it: resize_map unmaps first and sets size_ before ftruncate/mmap may throw; the destructor calls sync() which throws; next_power_of_two wraps to 0 and the file is truncated to nothing; push_back counts before resizing. What holds is C125."
  },
  {
   "property": "C127",
   "status": "partial",
   "theorems": [
    "Cista.Hash.Equal.C127_tuple_partial",
    "Cista.Hash.Equal.C127_equal_partial",
    "Cista.Hash.Equal.C127_separates",
    "Cista.Hash.Equal.C127_variant",
    "Cista.Hash.Equal.C127_variant_index",
    "Cista.Hash.Equal.C127_c_string_violated"
   ],
   "note": "Partial because the code violates it: build_hash instantiates hashing with a reference type, so a char const* is hashed by its address (C127_c_string_violated). Complete for all other arguments; std::pair, std::tuple, std::variant and std::chrono arguments do not compile."
  },
  {
   "property": "C128",
   "status": "partial",
   "theorems": [
    "Cista.MM.C128_push_back_partial",
    "Cista.MM.C128_insert_partial",
    "Cista.MM.C128_moved_violated",
    "Cista.MM.C128_shifted_violated"
   ],
   "note": "Partial because the code violates it: the argument is a reference that is read after the bucket has grown. C128_moved_violated: if data_ has to be reallocated, every own element dangles; C128_shifted_violated: inserting an element from behind the position into a bucket with room inserts its predecessor. What holds: C128_push_back_partial for every element when data_ does not have to be reallocated (moving the bucket inside of data_ keeps the old cells), C128_insert_partial the same for elements of other buckets and elements not behind the position."
  },
  {
   "property": "C129",
   "status": "partial",
   "theorems": [
    "Cista.Multi.VecVec.C129_argument_partial",
    "Cista.Multi.VecVec.C129_moved_out_violated",
    "Cista.Multi.VecVec.C129_element_partial",
    "Cista.Multi.VecVec.C129_bucket_partial",
    "Cista.Multi.VecVec.C129_growth_violated",
    "Cista.Multi.VecVec.C129_own_moved_violated"
   ],
   "note": "Partial because the code violates it: emplace_back(Container&&) is a forwarding reference but always uses move iterators, so the elements of an lvalue container are moved out (C129_moved_out_violated, C129_own_moved_violated for an own bucket); own elements are read after a reallocation (C129_growth_violated). What holds, exceptions included: elements that moving does not change and a data_ with room."
  },
  {
   "property": "C130",
   "status": "proved",
   "theorems": [
    "Cista.Ser.C130_vecvec",
    "Cista.Ser.C130_vecvec_history",
    "Cista.Ser.C130_fws",
    "Cista.Ser.C130_mutable_fws",
    "Cista.Ser.C130_nvec",
    "Cista.Ser.C130_flat_matrix",
    "Cista.Ser.C130_bitset",
    "Cista.Ser.C130_plain"
   ],
   "note": "C130_plain is the general statement (contents of structures of integers, byte blocks, arrays and vectors); C130_vecvec, C130_fws, C130_mutable_fws, C130_nvec, C130_flat_matrix and C130_bitset apply it to the layouts of the containers, whose states are those of their own models; C130_vecvec_history adds the histories of C22."
  },
  {
   "property": "C131",
   "status": "partial",
   "theorems": [
    "Cista.Ser.C131_bitvec_partial",
    "Cista.Ser.C131_bitvec_violated",
    "Cista.Ser.C131_paged_partial",
    "Cista.Ser.C131_paged_words_partial",
    "Cista.Ser.C131_paged_violated"
   ],
   "note": "Partial because the code violates the claim across byte orders: basic_bitvec::cista_members lists only blocks_ (bitvec.h:47), so size_ is copied but never converted (C131_bitvec_violated); paged stores the links of its free lists inside the elements (paged.h:86-98), where they are converted as elements (C131_paged_violated). C131_bitvec_partial and C131_paged_partial prove the claim for the same byte order, C131_paged_words_partial for every byte order if elements are as wide as size_type."
  },
  {
   "property": "C132",
   "status": "partial",
   "theorems": [
    "Cista.Ser.C132_same_order_partial",
    "Cista.Ser.C132_search_partial",
    "Cista.Ser.C132_other_order_violated"
   ],
   "note": "Partial because the code violates the claim across byte orders: the deserialize function of the node (rtree.h:245-250) converts only the data of leaves, so that count_, the rectangles and the children keep the byte order of the writer (C132_other_order_violated). C132_same_order_partial and C132_search_partial prove the claim for machines of the same byte order."
  },
  {
   "property": "C133",
   "status": "partial",
   "theorems": [
    "Cista.Bits.C133_history_partial",
    "Cista.Bits.C133_assign_violated",
    "Cista.Bits.C133_noexcept_violated",
    "Cista.Bits.C133_operators"
   ],
   "note": "Holds for all calls but copies (C133_history_partial); C133_operators: the operators that return a new bitvec agree with lists while memory lasts. A failed copy assignment leaves the size of the source with the blocks of the target, so accesses to the last bit are undefined (C133_assign_violated: implicit assignment, size_ declared before blocks_, bitvec.h:481-482); ~, &, |, ^, >>, << are noexcept but copy, so a failed allocation calls std::terminate (C133_noexcept_violated)."
  },
  {
   "property": "C134",
   "status": "partial",
   "theorems": [
    "Cista.Multi.NVec.C134_throws_iff",
    "Cista.Multi.NVec.C134_returns",
    "Cista.Multi.NVec.C134_history_partial",
    "Cista.Multi.NVec.C134_index_violated",
    "Cista.Multi.NVec.C134_earlier",
    "Cista.Multi.NVec.C134_retry_violated",
    "Cista.Multi.NVec.C134_first_violated"
   ],
   "note": "Holds if the first vector operation of a call fails (C134_history_partial) and for calls that return (C134_returns); wherever a call fails, the earlier containers stay readable (C134_earlier). Later failures: an index is pushed before what it points to, so a failure of any later vector operation leaves one more container, and reading it is undefined (C134_index_violated, all depths of at least two); repeating the call puts the content at the wrong position (C134_retry_violated, all depths of at least two); a failure between the leading zeros makes the nvec report size 0 for good (C134_first_violated). C134_throws_iff: a call throws exactly if one of its vector operations fails, and how many there are."
  },
  {
   "property": "C135",
   "status": "proved",
   "theorems": [
    "Cista.Paged.C135_history",
    "Cista.Paged.C135_lost_pages",
    "Cista.Paged.C135_throws_iff"
   ],
   "note": "Caller obligations as in C25 (bucket sizes up to MaxPageSize, arguments outside of the container). Lost pages are described by C135_lost_pages."
  },
  {
   "property": "C136",
   "status": "partial",
   "theorems": [
    "Cista.RTree.C136_balanced",
    "Cista.RTree.C136_height_partial",
    "Cista.RTree.C136_growing",
    "Cista.RTree.C136_shrink_violated"
   ],
   "note": "Proved: balance and number of nodes for every history, the height bound for histories without deletions, and with insertions instead of stored entries for all histories. Violated after deletions: delete_0 (rtree.h:572) tests m_.count_ == 1 (the number of entries of the tree) where the number of children of the root is meant, so that no deletion that leaves two entries ever lowers the tree (C136_shrink_violated, for every reachable tree)."
  },
  {
   "property": "C137",
   "status": "proved",
   "theorems": [
    "Cista.MM.C137_history",
    "Cista.MM.C137_capacity",
    "Cista.MM.C137_bound",
    "Cista.MM.C137_total",
    "Cista.MM.C137_linear",
    "Cista.MM.C137_adding",
    "Cista.MM.C137_fragmentation"
   ],
   "note": "Complete. C137_history lifts the limit of C18 on the accumulated storage to a limit on the peaks; C137_fragmentation shows that the restriction of C137_linear to histories without erase(key) is needed."
  },
  {
   "property": "C138",
   "status": "partial",
   "theorems": [
    "Cista.RTree.C138_history_partial",
    "Cista.RTree.C138_failure_partial",
    "Cista.RTree.C138_nodes_partial",
    "Cista.RTree.C138_node_lost_violated"
   ],
   "note": "Holds for histories with fewer than limit M insertions tried (more than 2^47 for the default capacity), except for the last sentence: the split of the root takes a node for the new root and then another for the right half (rtree.h:282-286); if the second allocation fails, the first node is neither in the tree nor free, for ever (C138_node_lost_violated, for every capacity and all entries). C138_nodes_partial bounds the loss by one node for each failed insertion. The vector is assumed to be unchanged by an emplace_back that throws."
  },
  {
   "property": "C139",
   "status": "partial",
   "theorems": [
    "Cista.Handles.C139_history_partial",
    "Cista.Handles.C139_assign_violated",
    "Cista.Handles.C139_self_violated",
    "Cista.Handles.C139_stat_violated",
    "Cista.Handles.C139_moved_violated",
    "Cista.Handles.C139_pages_violated"
   ],
   "note": "Proved for all histories that do not assign to a variable holding a file, do not use moved-from variables, destroy only variables whose pages are all in use and in which fstat does not fail in the constructor of file; the other uses are shown to lose the FILE* or the mapping for ever (general theorems about every state and every continuation)."
  },
  {
   "property": "C140",
   "status": "partial",
   "theorems": [
    "Cista.HS.C140_insert",
    "Cista.HS.C140_assign_partial",
    "Cista.HS.C140_copy_partial",
    "Cista.HS.C140_copy_violated",
    "Cista.HS.C140_init_list_violated",
    "Cista.HS.C140_memory_violated"
   ],
   "note": "Range insertion (C140_insert) and copy assignment (C140_assign_partial) keep the promise for throwing copies. Violated for the constructors: an exception after the first entry leaks the table's memory and the copied entries (C140_copy_violated, C140_init_list_violated), because hash_storage's constructors do not delegate and so the destructor does not run. Violated for assignment when the second allocation fails (C140_memory_violated)."
  },
  {
   "property": "C141",
   "status": "partial",
   "theorems": [
    "Cista.HS.C141_history_partial",
    "Cista.HS.C141_dangling_violated",
    "Cista.HS.C141_single_violated"
   ],
   "note": "Complete for calls that insert nothing, for emplace and erase, and for operator[] while room is left. Violated otherwise: bracket_operator_impl reads its argument again after the array was replaced; m[m.at(k)] is undefined in every table with the single entry k (C141_single_violated)."
  },
  {
   "property": "C142",
   "status": "partial",
   "theorems": [
    "Cista.Paged.C142_own_buckets",
    "Cista.Paged.C142_same_type_partial",
    "Cista.Paged.C142_short_source_violated",
    "Cista.Paged.C142_reinterpreted_violated"
   ],
   "note": "Complete for own buckets (C142_own_buckets) and for arrays of the same element type (C142_same_type_partial). Violated for other containers that are accepted: the bytes at the address of the first element are copied without conversion, and bytes behind it are read if the elements are smaller or not in one array."
  },
  {
   "property": "C143",
   "status": "partial",
   "theorems": [
    "Cista.Multi.NVec.C143_history_partial",
    "Cista.Multi.NVec.C143_argument_partial",
    "Cista.Multi.NVec.C143_moved_out_violated",
    "Cista.Multi.NVec.C143_own_moved_violated",
    "Cista.Multi.NVec.C143_growth_violated"
   ],
   "note": "Partial because the code violates it: add() always uses move iterators, so every nested element of an lvalue argument is moved out (C143_moved_out_violated; C143_own_moved_violated for an own container), and the elements of an own container are read after data_ was reallocated (C143_growth_violated, for every content and depth). What holds for all histories: elements that moving does not change, own containers with room in data_."
  },
  {
   "property": "C144",
   "status": "partial",
   "theorems": [
    "Cista.Conc.Fetch.C144_word",
    "Cista.Conc.Fetch.C144_winners_partial",
    "Cista.Conc.Fetch.C144_race_partial",
    "Cista.Conc.Fetch.C144_builtin_violated"
   ],
   "note": "The word itself is right for every implementation (C144_word). The results are right with MSVC and with std::atomic_ref (C144_winners_partial, C144_race_partial). Violated: GCC and Clang before C++20 use __atomic_or_fetch/__atomic_and_fetch, which return the value after the change, so that no caller is ever told that it changed a bit (C144_builtin_violated, all schedules). Inside of the library the results are not used."
  },
  {
   "property": "C145",
   "status": "proved",
   "theorems": [
    "Cista.Wy.C145_multiply",
    "Cista.Wy.C145_wyhash",
    "Cista.Wy.C145_fastest"
   ],
   "note": "Model of tools/wyhash/wyhash.h and hash.h:41-104 in Hash/Wy.lean; the result is the one of a specification over bytes that has no pointers and no byte order."
  },
  {
   "property": "C146",
   "status": "partial",
   "theorems": [
    "Cista.Wy.C146_one_block_partial",
    "Cista.Wy.C146_blocks_fastest_violated",
    "Cista.Wy.C146_blocks_wyhash_violated",
    "Cista.Wy.C146_secret_violated",
    "Cista.Wy.C146_unread_violated"
   ],
   "note": "Holds for data of at most one block of 512 kB. C146_blocks_*_violated: the file target hashes block by block and uses each hash value as seed of the next block; for FNV-1a that is the hash of the whole (C03), for wyhash and FastestHash it is not, so larger files are rejected with 'invalid checksum' when they are read. C146_unread_violated, C146_secret_violated: changes that are not noticed."
  },
  {
   "property": "C147",
   "status": "partial",
   "theorems": [
    "Cista.Wy.C147_fnv_partial",
    "Cista.Wy.C147_zero_violated",
    "Cista.Wy.C147_byte_order_violated",
    "Cista.Wy.C147_empty_violated"
   ],
   "note": "Holds for the default hash function. C147_zero_violated: with WYHASH_FASTEST, combining with a zero of four or eight bytes gives zero whatever was combined before. C147_byte_order_violated: the object representation is hashed, so type hashes (WITH_VERSION) differ between machines of different byte order although SERIALIZE_BIG_ENDIAN makes files exchangeable. C147_empty_violated: hash of an empty string_view and of an empty container differ with WYHASH."
  },
  {
   "property": "C148",
   "status": "partial",
   "theorems": [
    "Cista.Wy.C148_bytes_partial",
    "Cista.Wy.C148_wide_violated"
   ],
   "note": "Holds for elements of one byte. C148_wide_violated: buf.size() counts elements but is passed as number of bytes (hash.h:34-37, 66-71, 100-104, 139-147), so only the first size() bytes of wider elements are hashed."
  }
 ]
}