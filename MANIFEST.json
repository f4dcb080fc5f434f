{
 "claims": [
  {
   "property": "C01",
   "status": "proved",
   "theorems": [
    "Verif.RWMap.rwmap_linearizable"
   ],
   "note": "Every history of every interleaving, any number of calls, keys and values. Store is Swap and Delete is LoadAndDelete with the result dropped, as in the code."
  },
  {
   "property": "C02",
   "status": "proved",
   "theorems": [
    "Verif.RWMap.rwmap_range",
    "Verif.RWMap.rwmap_range_visits",
    "Verif.RWMap.rwmap_range_stop"
   ],
   "note": ""
  },
  {
   "property": "C03",
   "status": "proved",
   "theorems": [
    "Verif.RWMap.rwmap_no_panic",
    "Verif.RWMap.lock_invariant",
    "Verif.RWMap.rwmap_plain_fields"
   ],
   "note": "dirty and misses. The plain write m.len = 0 in Clear (under the mutex) races with the atomic counter updates of other calls; its consequence is C04."
  },
  {
   "property": "C04",
   "status": "partial",
   "theorems": [
    "Verif.RWMap.rwmap_len_false",
    "Verif.RWMap.rwmap_len_partial"
   ],
   "note": "False of the code when a Clear overlaps a writing call (witness). Proved if no Clear overlaps another writing or reading call."
  },
  {
   "property": "C05",
   "status": "proved",
   "theorems": [
    "Verif.RWMap.rwmap_loadOrStore_once",
    "Verif.RWMap.rwmap_loadOrStore_once_since"
   ],
   "note": "The second theorem is for keys that have been in use and were found missing or removed."
  },
  {
   "property": "C06",
   "status": "proved",
   "theorems": [
    "Verif.RWMap.rwmap_one_remover"
   ],
   "note": ""
  },
  {
   "property": "C07",
   "status": "proved",
   "theorems": [
    "Verif.RWMap.rwmap_can_complete",
    "Verif.RWMap.rwmap_unlocked"
   ],
   "note": ""
  },
  {
   "property": "C08",
   "status": "proved",
   "theorems": [
    "Verif.SyncCache.sync_load_live",
    "Verif.SyncCache.sync_range_live"
   ],
   "note": "Over an atomic map; C93 carries what can be seen over to the steps of RWMap."
  },
  {
   "property": "C09",
   "status": "proved",
   "theorems": [
    "Verif.SyncCache.sync_cb_once",
    "Verif.SyncCache.sync_cb_only",
    "Verif.SyncCache.sync_removed_once",
    "Verif.SyncCache.sync_not_removed",
    "Verif.SyncCache.sync_leaves"
   ],
   "note": "Over an atomic map; C93 carries what can be seen over to the steps of RWMap."
  },
  {
   "property": "C10",
   "status": "proved",
   "theorems": [
    "Verif.SyncCache.sync_removal",
    "Verif.SyncCache.sync_expiry_only"
   ],
   "note": "Over an atomic map; C93 carries what can be seen over to the steps of RWMap."
  },
  {
   "property": "C100",
   "status": "partial",
   "theorems": [
    "Verif.Refresh.C100_false",
    "Verif.Refresh.C100_partial",
    "Verif.Refresh.C100_noClear"
   ],
   "note": "False of the code: Get reads last under the lock without sync/atomic while Clear resets it without the lock. Proved that this is the only race, and that there is none without Clear."
  },
  {
   "property": "C101",
   "status": "proved",
   "theorems": [
    "Verif.RWMap.rwmap_seen"
   ],
   "note": "Not to wait: to be able to make a step, whoever holds the mutex."
  },
  {
   "property": "C102",
   "status": "proved",
   "theorems": [
    "Verif.RWMap.rwmap_settled",
    "Verif.RWMap.rwmap_cleared"
   ],
   "note": ""
  },
  {
   "property": "C103",
   "status": "proved",
   "theorems": [
    "Verif.RWMap.rwmap_lookups"
   ],
   "note": "CompareAndSwap is not among these calls: it locks for an absent key every time without counting a miss (example beside the theorem)."
  },
  {
   "property": "C104",
   "status": "proved",
   "theorems": [
    "Verif.RWMap.rwmap_copying",
    "Verif.RWMap.rwmap_copying_noRange"
   ],
   "note": ""
  },
  {
   "property": "C105",
   "status": "proved",
   "theorems": [
    "Verif.RWMap.rwmap_len_window"
   ],
   "note": ""
  },
  {
   "property": "C106",
   "status": "partial",
   "theorems": [
    "Verif.RWMap.rwmap_len_nonneg_false",
    "Verif.RWMap.rwmap_len_nonneg_partial"
   ],
   "note": "False of the code: a removal is counted before the insertion of the key it removed. Proved when no insertion and no Clear overlaps the call (and no Clear overlaps a call that changes the map)."
  },
  {
   "property": "C107",
   "status": "proved",
   "theorems": [
    "Verif.RWMap.rwmap_map_contents",
    "Verif.RWMap.rwmap_map_writes",
    "Verif.RWMap.rwmap_map_reads",
    "Verif.RWMap.rwmap_map_frozen",
    "Verif.RWMap.rwmap_map_range"
   ],
   "note": ""
  },
  {
   "property": "C108",
   "status": "partial",
   "theorems": [
    "Verif.RWMap.rwmap_race_false",
    "Verif.RWMap.rwmap_race_partial",
    "Verif.RWMap.rwmap_race_noClear"
   ],
   "note": "False of the code: Clear assigns to len while other calls access it by sync/atomic. Proved that this is the only race, and that there is none without Clear."
  },
  {
   "property": "C109",
   "status": "proved",
   "theorems": [
    "Verif.Heap.heap_counted",
    "Verif.Heap.heap_init_cost",
    "Verif.Heap.heap_push_cost",
    "Verif.Heap.heap_pop_cost",
    "Verif.Heap.heap_remove_cost",
    "Verif.Heap.heap_fix_cost"
   ],
   "note": "slice_init, slice_hpush, slice_hpop, slice_remove and slice_fix prove that the model over heap.Interface used here is the one of C22-C26 on slices."
  },
  {
   "property": "C11",
   "status": "partial",
   "theorems": [
    "Verif.SyncCache.sync_los_live_false",
    "Verif.SyncCache.sync_los",
    "Verif.SyncCache.sync_los_live_partial"
   ],
   "note": "False of the code: when another thread removes the expired entry first, LoadOrStore returns it as loaded. Proved when no other thread changes the key during the call; sync_los says what holds in general."
  },
  {
   "property": "C110",
   "status": "proved",
   "theorems": [
    "Verif.Heap.heap_index",
    "Verif.Heap.heap_index_init",
    "Verif.Heap.heap_index_push",
    "Verif.Heap.heap_index_pop",
    "Verif.Heap.heap_index_remove",
    "Verif.Heap.heap_index_update"
   ],
   "note": "The implementation of heap.Interface is that of heap/example_pq_test.go."
  },
  {
   "property": "C111",
   "status": "partial",
   "theorems": [
    "Verif.Dllist.C111_clear_false",
    "Verif.Dllist.C111_range_partial"
   ],
   "note": "False of the code: after Clear (or Sort) in the function, Range goes on through the old elements. Proved for functions that make no such call. C138 says exactly what Range does in all cases."
  },
  {
   "property": "C112",
   "status": "proved",
   "theorems": [
    "Verif.Dllist.C112_range"
   ],
   "note": ""
  },
  {
   "property": "C113",
   "status": "partial",
   "theorems": [
    "Verif.Lhashmap.C113_range_false",
    "Verif.Lhashmap.C113_range_partial"
   ],
   "note": "False of the code: Load of the key the function is given moves it to the front, and Range never ends with two keys or more. Proved for functions that use other keys only. C137 says exactly what Range does with every function."
  },
  {
   "property": "C114",
   "status": "partial",
   "theorems": [
    "Verif.Refresh.C114_false",
    "Verif.Refresh.C114_get_false",
    "Verif.Refresh.C114_partial"
   ],
   "note": "False of the code: Refresh called by a refresh function on its own cache waits for the lock that its caller holds, forever; so does Get when it comes to the lock. Proved for refresh functions that call neither (clear functions may call everything)."
  },
  {
   "property": "C115",
   "status": "proved",
   "theorems": [
    "Verif.SyncCache.world_cache"
   ],
   "note": "So the theorems about one cache (C08-C13, C82-C95) hold of each."
  },
  {
   "property": "C116",
   "status": "proved",
   "theorems": [
    "Verif.SyncCache.world_one_trimmer",
    "Verif.SyncCache.world_started",
    "Verif.SyncCache.world_round_by",
    "Verif.SyncCache.world_start_goes_on"
   ],
   "note": ""
  },
  {
   "property": "C117",
   "status": "proved",
   "theorems": [
    "Verif.SyncCache.world_round",
    "Verif.SyncCache.world_trim",
    "Verif.SyncCache.world_one_at_a_time"
   ],
   "note": ""
  },
  {
   "property": "C118",
   "status": "partial",
   "theorems": [
    "Verif.SyncCache.world_blocked_false",
    "Verif.SyncCache.world_goes_on_partial"
   ],
   "note": "False of the code: the one trimmer runs the callbacks itself and waits for them. Proved: it waits for nothing else."
  },
  {
   "property": "C119",
   "status": "proved",
   "theorems": [
    "Verif.Vec.C119_range",
    "Verif.Vec.C119_ends",
    "Verif.Vec.C119_push_forever"
   ],
   "note": ""
  },
  {
   "property": "C12",
   "status": "proved",
   "theorems": [
    "Verif.SyncCache.sync_cvd_yes",
    "Verif.SyncCache.sync_cvd_no",
    "Verif.SyncCache.sync_cvd_why"
   ],
   "note": "The comparison by reflect is a parameter. Over an atomic map; C93 carries what can be seen over to the steps of RWMap."
  },
  {
   "property": "C120",
   "status": "partial",
   "theorems": [
    "Verif.Vec.C120_false",
    "Verif.Vec.C120_passes_partial"
   ],
   "note": "False of the code: removing the element given makes Range skip the next one; proved for every vector that exactly every second element is passed. Proved for functions that leave the elements ahead in place and may append."
  },
  {
   "property": "C121",
   "status": "proved",
   "theorems": [
    "Verif.GoSet.Float.C121_float"
   ],
   "note": "Sets are values here; aliasing between sets is in C47 for types with lawful equality. Clear is covered both as clear(m) and as a loop of deletes."
  },
  {
   "property": "C122",
   "status": "partial",
   "theorems": [
    "Verif.GoSet.Float.C122_laws_false",
    "Verif.GoSet.Float.C122_laws_partial"
   ],
   "note": "False for every set with a NaN. Proved for all sets whose elements equal themselves, with == only symmetric and transitive (so 0 and -0 count as one element)."
  },
  {
   "property": "C123",
   "status": "partial",
   "theorems": [
    "Verif.Vec.C123_false",
    "Verif.Vec.C123_partial",
    "Verif.Vec.C123_numbers",
    "Verif.Vec.C123_strings",
    "Verif.Vec.eltOf_less",
    "Verif.Vec.eltOf_eq"
   ],
   "note": "False for pointers, of every kind: the type is looked through, the values are not. Proved: with pointers to numbers every comparison panics, with pointers to strings all elements are equal (Search returns 0, Compact keeps one element). Proved for numbers and strings themselves; natural.Less is a parameter."
  },
  {
   "property": "C124",
   "status": "partial",
   "theorems": [
    "Verif.Vec.C124_false",
    "Verif.Vec.C124_partial",
    "Verif.Vec.C124_stays"
   ],
   "note": "False of the code: the comparison gives 1 whenever a NaN is involved; with insertion sort (what slices uses for short slices) [3, NaN, 1] stays as it is and IsSorted is true. Proved for vectors without NaN and every sorting function with the contract."
  },
  {
   "property": "C125",
   "status": "proved",
   "theorems": [
    "Verif.RWMap.rwmap_incomparable",
    "Verif.RWMap.rwmap_incomparable_unlocked",
    "Verif.RWMap.rwmap_comparable"
   ],
   "note": "The comparison of values is a parameter that may panic; the call unwinds through the deferred unlock. Linearizability (C01) and all other theorems about RWMap are about this machine."
  },
  {
   "property": "C126",
   "status": "proved",
   "theorems": [
    "Verif.Vec.C126_binarySearch",
    "Verif.Vec.C126_three",
    "Verif.Vec.C126_search",
    "Verif.Vec.C126_searchAll",
    "Verif.Vec.C126_pairs",
    "Verif.Vec.C126_isSorted",
    "Verif.Vec.C126_extremes",
    "Verif.Vec.C126_pure"
   ],
   "note": "Functions act on an arbitrary state and may panic; the vector does not change meanwhile. C126_pure: with functions without effects this is the model of the other theorems."
  },
  {
   "property": "C127",
   "status": "partial",
   "theorems": [
    "Verif.SyncCache.C127_false",
    "Verif.SyncCache.C127_false_add",
    "Verif.SyncCache.C127_exact",
    "Verif.SyncCache.C127_partial"
   ],
   "note": "False of the code: the milliseconds of a far time wrap around, SetExpiration(time.Unix(1<<60, 0)) gives an expired entry. Proved: exact modulo 2^64 always; exact for clocks and times up to 2262 and up to 999997 calls of AddExpiration with any durations."
  },
  {
   "property": "C128",
   "status": "partial",
   "theorems": [
    "Verif.Tree.C128_false",
    "Verif.Tree.C128_exact",
    "Verif.Tree.C128_partial",
    "Verif.Tree.C128_call"
   ],
   "note": "False of the code: SetLeft and SetRight accept the receiver and nodes above it. C128_exact says for every memory which calls end and which run forever; C128_partial: all end if no call closes a loop; C128_call: one that does is enough."
  },
  {
   "property": "C129",
   "status": "proved",
   "theorems": [
    "Verif.RWMap.rwmap_ledger"
   ],
   "note": ""
  },
  {
   "property": "C13",
   "status": "proved",
   "theorems": [
    "Verif.SyncCache.sync_clear",
    "Verif.SyncCache.sync_clear_empty",
    "Verif.SyncCache.sync_clear_reports"
   ],
   "note": "Over an atomic map; C93 carries what can be seen over to the steps of RWMap."
  },
  {
   "property": "C130",
   "status": "partial",
   "theorems": [
    "Verif.Ring.C130_false",
    "Verif.Ring.C130_exact",
    "Verif.Ring.C130_nothing",
    "Verif.Ring.C130_partial",
    "Verif.Ring.C130_wrong"
   ],
   "note": "False of the code: Unlink(math.MaxInt) computes Move(math.MinInt) and cuts out another number of elements, unless Len is a power of two. C130_exact says what every Unlink does; C130_wrong: the number is wrong in all cases that C130_partial leaves out."
  },
  {
   "property": "C131",
   "status": "proved",
   "theorems": [
    "Verif.RWMap.rwmap_ends",
    "Verif.RWMap.rwmap_goes",
    "Verif.RWMap.rwmap_all_return",
    "Verif.RWMap.rwmap_waits"
   ],
   "note": "A call counts as in progress also while the function of its Range runs; calls made by that function are calls of their own. Nothing is said of fairness of the mutex: none is needed."
  },
  {
   "property": "C132",
   "status": "partial",
   "theorems": [
    "Verif.RWMap.rwmap_turns_false",
    "Verif.RWMap.rwmap_turns_partial"
   ],
   "note": "False of the code: a Swap can be kept retrying by other Swaps of the key. Proved for Load, Clear (8 steps), Len (3) and Range (8 + keys); for the others the bound grows by 2 with every change of an entry by another call meanwhile."
  },
  {
   "property": "C133",
   "status": "proved",
   "theorems": [
    "Verif.SyncCache.sync_finite",
    "Verif.SyncCache.sync_goes",
    "Verif.SyncCache.sync_all_return"
   ],
   "note": "Operations of the underlying map are single steps here; C93 and C131 connect them with the steps of RWMap. Calls made by callbacks or by the function of Range are calls of their own."
  },
  {
   "property": "C134",
   "status": "proved",
   "theorems": [
    "Verif.GenMap.During.range_current",
    "Verif.GenMap.During.range_once",
    "Verif.GenMap.During.range_all",
    "Verif.GenMap.During.range_bound",
    "Verif.GenMap.During.range_stops",
    "Verif.GenMap.During.range_result",
    "Verif.GenMap.During.range_goes",
    "Verif.GenMap.During.range_perm",
    "Verif.GenMap.During.range_endless"
   ],
   "note": "The order of a loop over a Go map is any the language specification allows. range_endless: the bound is needed, a function that makes an entry in every call can keep the loop going."
  },
  {
   "property": "C135",
   "status": "proved",
   "theorems": [
    "Verif.GenMap.During.deleteFunc_only",
    "Verif.GenMap.During.deleteFunc_true",
    "Verif.GenMap.During.deleteFunc_goes_on",
    "Verif.GenMap.During.range_all",
    "Verif.GenMap.During.loadOrStoreFunc_spec"
   ],
   "note": ""
  },
  {
   "property": "C136",
   "status": "proved",
   "theorems": [
    "Verif.Dllist.C136_pushFrontListTo_last",
    "Verif.Dllist.C136_pushFrontListTo_inner",
    "Verif.Dllist.C136_pushBackListTo"
   ],
   "note": ""
  },
  {
   "property": "C137",
   "status": "proved",
   "theorems": [
    "Verif.Lhashmap.C137_range"
   ],
   "note": "The function makes no nested call of Range (C113, C38 allow it). Visits.unique: there is one order of last use only, so the course is determined."
  },
  {
   "property": "C138",
   "status": "proved",
   "theorems": [
    "Verif.Dllist.C138_range"
   ],
   "note": "UsesAny: the function uses lists and elements it knows, as arguments only elements that are not left behind by Clear or Sort (those are C35). A call of Range by the function itself is a sequence of the calls its function makes."
  },
  {
   "property": "C139",
   "status": "proved",
   "theorems": [
    "Verif.Dllist.C139_sort",
    "Verif.Dllist.C139_panic",
    "Verif.Dllist.C139_pure",
    "Verif.Dllist.C139_asked",
    "Verif.Dllist.C139_worst"
   ],
   "note": "The comparison function does not use the lists. Sorts is the sorting by the first value on plain lists, with the function's own state."
  },
  {
   "property": "C14",
   "status": "proved",
   "theorems": [
    "Verif.Refresh.C14",
    "Verif.Refresh.C14_pair"
   ],
   "note": ""
  },
  {
   "property": "C140",
   "status": "proved",
   "theorems": [
    "Verif.Dllist.C140_returns",
    "Verif.Dllist.C140_any",
    "Verif.Dllist.C140_walk",
    "Verif.Dllist.C140_range",
    "Verif.Dllist.C140_inverse",
    "Verif.Dllist.C140_front",
    "Verif.Dllist.C140_back",
    "Verif.Dllist.C140_lists_panic",
    "Verif.Dllist.C140_sentinel_panic"
   ],
   "note": "Any: all calls, no condition on arguments. Arguments are elements, not sentinels (for those see C140_sentinel_panic). C140_any: the calls with loops, where the model says they come back, lead to no other states. Range with a function that makes calls: every round of it is one of these calls."
  },
  {
   "property": "C141",
   "status": "proved",
   "theorems": [
    "Verif.HashRing.Float.C141_ring",
    "Verif.HashRing.Float.C141_stay",
    "Verif.HashRing.Float.C141_clear",
    "Verif.HashRing.Float.C141_doubles",
    "Verif.HashRing.Float.C141_points",
    "Verif.HashRing.Float.C141_zero"
   ],
   "note": "Sets and the vector as values (Set/Float.lean); aliasing is in the model of C61-C65. Both ways maps.Clear has been written are covered."
  },
  {
   "property": "C142",
   "status": "proved",
   "theorems": [
    "Verif.Lhashmap.Float.C142_float",
    "Verif.Lhashmap.Float.C142_returns",
    "Verif.Lhashmap.Float.C142_nan_miss",
    "Verif.Lhashmap.Float.C142_nan_stays"
   ],
   "note": "On the pointer level of dllist. A function passed to Range that uses the map is C137."
  },
  {
   "property": "C143",
   "status": "proved",
   "theorems": [
    "Verif.GenMap.Float.C143_float",
    "Verif.GenMap.Float.C143_self",
    "Verif.GenMap.Float.C143_self_any",
    "Verif.GenMap.Float.C143_self_same",
    "Verif.GenMap.Float.C143_equal"
   ],
   "note": "Maps as values; a map copied to itself is CopyLoop. DeleteFunc: for functions that give the same for equal keys."
  },
  {
   "property": "C144",
   "status": "proved",
   "theorems": [
    "Verif.Heap.Panic.C144_init",
    "Verif.Heap.Panic.C144_fix",
    "Verif.Heap.Panic.C144_push",
    "Verif.Heap.Panic.C144_pop",
    "Verif.Heap.Panic.C144_remove",
    "Verif.Heap.Panic.C144_total",
    "Verif.Heap.Panic.C144_init_returns",
    "Verif.Heap.Panic.C144_push_returns",
    "Verif.Heap.Panic.C144_pop_returns",
    "Verif.Heap.Panic.C144_remove_returns",
    "Verif.Heap.Panic.C144_fix_returns",
    "Verif.Heap.Panic.C144_push_order",
    "Verif.Heap.Panic.C144_pop_order",
    "Verif.Heap.Panic.C144_remove_order",
    "Verif.Heap.Panic.C144_fix_order",
    "Verif.Heap.Panic.C144_repair",
    "Verif.Heap.Panic.C144_calls"
   ],
   "note": "The heap is a slice whose Len, Swap, Push and Pop are the usual ones; Less does not use the heap."
  },
  {
   "property": "C145",
   "status": "partial",
   "theorems": [
    "Verif.Heap.Float.C145_false",
    "Verif.Heap.Float.C145_init",
    "Verif.Heap.Float.C145_init_drain",
    "Verif.Heap.Float.C145_push_pop",
    "Verif.Heap.Float.C145_pop_order",
    "Verif.Heap.Float.C145_partial",
    "Verif.Heap.Float.C145_push"
   ],
   "note": "False with a NaN: for every a < b, Init leaves b, NaN, a as it is, and Pop returns b before a; the same if b, NaN, b, a are pushed. A NaN also makes Pop leave elements out of order that were in order. Holds as long as no NaN comes in (C145_partial); Push never leaves an element less than its parent."
  },
  {
   "property": "C146",
   "status": "partial",
   "theorems": [
    "Verif.RWMap.rwmap_hash_false",
    "Verif.RWMap.rwmap_hash_partial",
    "Verif.RWMap.rwmap_hash_harmless",
    "Verif.RWMap.rwmap_hash_no_len",
    "Verif.RWMap.rwmap_hash_panics",
    "Verif.RWMap.rwmap_hash_alone"
   ],
   "note": "False because of Len: the deferred functions of Swap and LoadOrStore run when the lookup panics, and add one to the counter (rwmap_hash_false, for every key that cannot be hashed). Up to what Len returns every execution is one without the panicking calls (rwmap_hash_partial), with the counter off by exactly one for each storing call that panicked, if there is no Clear."
  },
  {
   "property": "C147",
   "status": "proved",
   "theorems": [
    "Verif.RWMap.Float.rwmap_nan",
    "Verif.RWMap.Float.rwmap_nan_iff",
    "Verif.RWMap.Float.rwmap_nan_ends",
    "Verif.RWMap.Float.rwmap_nan_absent",
    "Verif.RWMap.Float.rwmap_nan_no_panic",
    "Verif.RWMap.Float.rwmap_nan_stays",
    "Verif.RWMap.Float.rwmap_nan_visited",
    "Verif.RWMap.Float.rwmap_nan_len",
    "Verif.RWMap.Float.nnext_next"
   ],
   "note": "The machine of C01 over Go maps with NaN keys; 0 and -0 count as one key. rwmap_nan is the simulation by the machine of C01 over tagged keys; the others follow from it by C01, C02 and C04. nnext_next: without NaNs it is the machine of C01."
  },
  {
   "property": "C148",
   "status": "proved",
   "theorems": [
    "Verif.Misc.C148_max",
    "Verif.Misc.C148_greatest",
    "Verif.Misc.C148_order",
    "Verif.Misc.C148_newNode",
    "Verif.Misc.C148_newTree"
   ],
   "note": ""
  },
  {
   "property": "C149",
   "status": "partial",
   "theorems": [
    "Verif.RWMap.rwmap_forgets_removed_false",
    "Verif.RWMap.rwmap_keeps_no_value",
    "Verif.RWMap.rwmap_forgets",
    "Verif.RWMap.rwmap_keeps_keys",
    "Verif.RWMap.rwmap_clear_forgets"
   ],
   "note": "False for keys: after Store 7, Range, Store 8, Delete 7 both maps have an empty entry for 7. Proved for values. rwmap_forgets: gone after dirty became read twice (the example beside it: once is not enough); rwmap_keeps_keys: forever if the calls only use keys of a complete read; rwmap_clear_forgets: Clear forgets all."
  },
  {
   "property": "C15",
   "status": "proved",
   "theorems": [
    "Verif.Refresh.C15"
   ],
   "note": "Any other thread may run at the same time as long as no other refresh ends and no Clear takes effect."
  },
  {
   "property": "C150",
   "status": "partial",
   "theorems": [
    "Verif.Vec.C150_false",
    "Verif.Vec.C150_exact",
    "Verif.Vec.C150_pop",
    "Verif.Vec.C150_partial",
    "Verif.Vec.C150_compact_partial"
   ],
   "note": "False: a popped element is still in the array. C150_exact gives the array after every program of calls (HRun, hspec); Pop and Clear change nothing in it; Delete, Replace by nothing and CompactFunc leave zero values."
  },
  {
   "property": "C151",
   "status": "partial",
   "theorems": [
    "Verif.Vec.C151_false",
    "Verif.Vec.C151_cap",
    "Verif.Vec.C151_push",
    "Verif.Vec.C151_clip"
   ],
   "note": "False as the comment of Clear has it; which calls change the capacity, and how Push uses it, is proved. Grow is C52."
  },
  {
   "property": "C152",
   "status": "proved",
   "theorems": [
    "Verif.RWMap.rwmap_value_sync",
    "Verif.RWMap.rwmap_visit_sync",
    "Verif.RWMap.rwmap_put_once"
   ],
   "note": "CExec is the machine of C01 with the happens-before past of every call and location; Exec.hb: every execution is one of them."
  },
  {
   "property": "C153",
   "status": "proved",
   "theorems": [
    "Verif.RWMap.rwmap_write_sync",
    "Verif.RWMap.rwmap_range_sync",
    "Verif.RWMap.rwmap_last_write_sync",
    "Verif.RWMap.rwmap_change_sync_false"
   ],
   "note": "rwmap_change_sync_false is the last sentence."
  },
  {
   "property": "C154",
   "status": "proved",
   "theorems": [
    "Verif.SyncCache.sys_finite",
    "Verif.SyncCache.sys_goes",
    "Verif.SyncCache.sys_stuck",
    "Verif.SyncCache.sys_all_return"
   ],
   "note": "Sys: the cache over the steps of RWMap, each operation of the map taking the steps of the machine of C01. sys_goes and sys_stuck ask that the list prog of calls of the map still has the call that a thread is about to make; in Go it always has."
  },
  {
   "property": "C155",
   "status": "proved",
   "theorems": [
    "Verif.Refresh.C155_values",
    "Verif.Refresh.C155_errors",
    "Verif.Refresh.C155_mixed_false"
   ],
   "note": "C155_mixed_false is the last sentence: a concrete execution with clocks in order."
  },
  {
   "property": "C156",
   "status": "partial",
   "theorems": [
    "Verif.Heap.Retain.C156_clean_false",
    "Verif.Heap.Retain.C156_kept",
    "Verif.Heap.Retain.C156_pop",
    "Verif.Heap.Retain.C156_remove",
    "Verif.Heap.Retain.C156_init",
    "Verif.Heap.Retain.C156_fix",
    "Verif.Heap.Retain.C156_push",
    "Verif.Heap.Retain.C156_stays",
    "Verif.Heap.Retain.C156_grows",
    "Verif.Heap.Retain.C156_drain"
   ],
   "note": "False (C156_clean_false, C156_kept); what is in the array after each call is proved exactly."
  },
  {
   "property": "C157",
   "status": "partial",
   "theorems": [
    "Verif.Refresh.HB.C157_sources",
    "Verif.Refresh.HB.C157_serial",
    "Verif.Refresh.HB.C157_clear",
    "Verif.Refresh.HB.C157_clear_last",
    "Verif.Refresh.HB.C157_refresh_false"
   ],
   "note": "(1), (2) and (3) are proved; the last wish is false (C157_refresh_false)."
  },
  {
   "property": "C158",
   "status": "partial",
   "theorems": [
    "Verif.Refresh.Weak.C158_serial",
    "Verif.Refresh.Weak.C158_exclusive",
    "Verif.Refresh.Weak.C158_lastErr",
    "Verif.Refresh.Weak.C158_last",
    "Verif.Refresh.Weak.C158_exec",
    "Verif.Refresh.Weak.C158_noClear",
    "Verif.Refresh.Weak.C158_served",
    "Verif.Refresh.Weak.C158_clear",
    "Verif.Refresh.Weak.C158_false"
   ],
   "note": "(1) to (4) are proved; the last wish is false (C158_false): a Get waiting for the lock while a refresh and then a Clear take place may still see the time of before the Clear."
  },
  {
   "property": "C159",
   "status": "proved",
   "theorems": [
    "Verif.SyncCache.C159_order",
    "Verif.SyncCache.C159_entry",
    "Verif.SyncCache.C159_yield",
    "Verif.SyncCache.C159_callback",
    "Verif.SyncCache.C159_reads"
   ],
   "note": "The atomic accesses to expirations would add to happens-before; they are left out, what is proved does not need them. CompareAndDelete with an entry that the caller has by other means hands nothing out."
  },
  {
   "property": "C16",
   "status": "partial",
   "theorems": [
    "Verif.Refresh.C16_false",
    "Verif.Refresh.C16_partial"
   ],
   "note": "False of the code when maxAge is larger than the Unix clock (time 0 then counts as fresh; witness: the largest time.Duration) and after panics. Proved for clocks not below maxAge and errAge and functions that do not panic."
  },
  {
   "property": "C160",
   "status": "proved",
   "theorems": [
    "Verif.SyncCache.Float.nsys_sys",
    "Verif.SyncCache.Float.C160_absent",
    "Verif.SyncCache.Float.C160_callback",
    "Verif.SyncCache.Float.C160_stays",
    "Verif.SyncCache.Float.exNan"
   ],
   "note": "nsys_sys: without NaNs the machine is that of C118-C120, C154. C160_stays without a callback needs that Clear is not called. 0 and -0 count as one key."
  },
  {
   "property": "C161",
   "status": "proved",
   "theorems": [
    "Verif.SyncCache.Hash.hsys_sys",
    "Verif.SyncCache.Hash.C161_without",
    "Verif.SyncCache.Hash.C161_atomic",
    "Verif.SyncCache.Hash.C161_panics",
    "Verif.SyncCache.Hash.C161_alone",
    "Verif.SyncCache.Hash.C161_keys",
    "Verif.SyncCache.Hash.exHash",
    "Verif.SyncCache.Hash.exHash_hide"
   ],
   "note": "hsys_sys: if all keys can be hashed the machine is that of C118-C120, C154. The counter of the map (Len, C146) goes wrong, but the cache does not use it."
  },
  {
   "property": "C162",
   "status": "proved",
   "theorems": [
    "Verif.SyncCache.Proc.C162_cache",
    "Verif.SyncCache.Proc.C162_atomic",
    "Verif.SyncCache.Proc.C162_one_trimmer",
    "Verif.SyncCache.Proc.C162_trimmer",
    "Verif.SyncCache.Proc.C162_in_turn",
    "Verif.SyncCache.Proc.C162_round",
    "Verif.SyncCache.Proc.C162_registered",
    "Verif.SyncCache.Proc.exG_exec",
    "Verif.SyncCache.Proc.exG_seen"
   ],
   "note": "C115-C118 with caches and the maps as RWMaps step by step. All caches have the same types. In C162_registered a Start that is under way while Close is may count as the later one. Trimming is the function trim from its first line to its return."
  },
  {
   "property": "C163",
   "status": "proved",
   "theorems": [
    "Verif.GenMap.Hash.C163_panics",
    "Verif.GenMap.Hash.C163_panics_loadOrStore",
    "Verif.GenMap.Hash.C163_loadOrStore",
    "Verif.GenMap.Hash.C163_map",
    "Verif.Lhashmap.Hash.C163_linked"
   ],
   "note": "LoadOrStore, which does not return what it should (C50), is not among the calls of C163_map; C163_panics_loadOrStore and C163_loadOrStore are on it."
  },
  {
   "property": "C164",
   "status": "proved",
   "theorems": [
    "Verif.Refresh.Zero.C164"
   ],
   "note": "One goroutine; the lock is left out."
  },
  {
   "property": "C165",
   "status": "partial",
   "theorems": [
    "Verif.Vec.Panic.C165_false",
    "Verif.Vec.Panic.C165_compact",
    "Verif.Vec.Panic.C165_sort_partial",
    "Verif.Vec.Panic.C165_sort_calls",
    "Verif.Vec.Panic.C165_compareAndRemove"
   ],
   "note": "False for Compact (C165_false); what it leaves is exactly in C165_compact."
  },
  {
   "property": "C166",
   "status": "proved",
   "theorems": [
    "Verif.GenMap.Panic.C166_range",
    "Verif.GenMap.Panic.C166_deleteFunc",
    "Verif.GenMap.Panic.C166_equalFunc",
    "Verif.GenMap.Panic.C166_loadOrStoreFunc"
   ],
   "note": "Functions that change the map are in C134 and C135."
  },
  {
   "property": "C167",
   "status": "proved",
   "theorems": [
    "Verif.Zero.C167_linked",
    "Verif.Zero.C167_ring",
    "Verif.Zero.C167_queue",
    "Verif.Zero.C167_cache"
   ],
   "note": "The zero RefreshData is C164. Zero Vec, Dllist, Set, RWMap and SyncCache values are part of the models of those packages."
  },
  {
   "property": "C168",
   "status": "partial",
   "theorems": [
    "Verif.PQueue.C168_false",
    "Verif.PQueue.C168_same_partial",
    "Verif.PQueue.C168_drain",
    "Verif.PQueue.C168_starves",
    "Verif.PQueue.C168_distinct_partial"
   ],
   "note": "False of the code: three items of the same priority come out first, third, second. Exactly what happens when all priorities are equal: C168_same_partial, C168_drain; an item may then never come out (C168_starves). Proved when no two items have the same priority."
  },
  {
   "property": "C169",
   "status": "proved",
   "theorems": [
    "Verif.RWMap.rwmap_range_unlocked",
    "Verif.RWMap.rwmap_park_go",
    "Verif.RWMap.rwmap_park_all",
    "Verif.RWMap.rwmap_range_calls"
   ],
   "note": "The calls the function makes are calls of the model made while the Range makes no step."
  },
  {
   "property": "C17",
   "status": "proved",
   "theorems": [
    "Verif.Refresh.C17"
   ],
   "note": ""
  },
  {
   "property": "C170",
   "status": "proved",
   "theorems": [
    "Verif.SyncCache.sys_park_go",
    "Verif.SyncCache.sys_park_all",
    "Verif.SyncCache.sys_fn_calls"
   ],
   "note": "Over the machine of C154. The calls a function makes are calls of other threads of the model, made while its own makes no step."
  },
  {
   "property": "C171",
   "status": "partial",
   "theorems": [
    "Verif.RWMap.fair_false",
    "Verif.RWMap.fair_partial",
    "Verif.RWMap.fair_others"
   ],
   "note": "fair_false: a run under a fair scheduler in which a Swap and a Load are in progress for ever. fair_partial: if only finitely many calls of Store, Swap, LoadOrStore, Delete, LoadAndDelete, CompareAndSwap and CompareAndDelete return, every call does, whatever Loads, Ranges and Clears are made without end. fair_others: the same the other way round; if a call does not return, then again and again one that changes entries does."
  },
  {
   "property": "C172",
   "status": "proved",
   "theorems": [
    "Verif.Refresh.C172_returns",
    "Verif.Refresh.C172_weak"
   ],
   "note": "C172_weak: with a mutex that is not fair a call may wait for ever."
  },
  {
   "property": "C173",
   "status": "partial",
   "theorems": [
    "Verif.SyncCache.C173_partial",
    "Verif.SyncCache.C173_others_partial",
    "Verif.SyncCache.C173_quiet_partial",
    "Verif.SyncCache.C173_false"
   ],
   "note": "False of LoadOrStore (C173_false): a fair run without end in which it never returns. What is true: all other calls return, and LoadOrStore does unless others store its key for ever."
  },
  {
   "property": "C174",
   "status": "proved",
   "theorems": [
    "Verif.SyncCache.C174_trimmed"
   ],
   "note": ""
  },
  {
   "property": "C175",
   "status": "proved",
   "theorems": [
    "Verif.SyncCache.C175_round",
    "Verif.SyncCache.C175_trimmed"
   ],
   "note": ""
  },
  {
   "property": "C176",
   "status": "proved",
   "theorems": [
    "Verif.Zero.C176_linked",
    "Verif.Zero.C176_ring",
    "Verif.Zero.C176_queue",
    "Verif.Zero.C176_queue_all",
    "Verif.Zero.C176_cache"
   ],
   "note": ""
  },
  {
   "property": "C177",
   "status": "proved",
   "theorems": [
    "Verif.HashRing.C177_burst",
    "Verif.HashRing.C177_replicas",
    "Verif.HashRing.C177_ten",
    "Verif.HashRing.C177_eleven",
    "Verif.HashRing.C177_nodes",
    "Verif.HashRing.C177_member",
    "Verif.HashRing.C177_history",
    "Verif.HashRing.C177_twins",
    "Verif.HashRing.C177_prefix",
    "Verif.HashRing.C177_same_replicas",
    "Verif.HashRing.C177_labels"
   ],
   "note": ""
  },
  {
   "property": "C178",
   "status": "proved",
   "theorems": [
    "Verif.Dllist.C178_list",
    "Verif.Dllist.C178_apart",
    "Verif.Dllist.C178_removed",
    "Verif.Dllist.C178_list_removed",
    "Verif.Dllist.C178_out",
    "Verif.Dllist.C178_idle",
    "Verif.Dllist.C178_cleared",
    "Verif.Dllist.C178_left_false"
   ],
   "note": "C178_left_false is the witness that the elements left by Clear and Sort do keep others."
  },
  {
   "property": "C179",
   "status": "proved",
   "theorems": [
    "Verif.Lhashmap.C179_entries",
    "Verif.Lhashmap.C179_keys",
    "Verif.Lhashmap.C179_elems"
   ],
   "note": ""
  },
  {
   "property": "C18",
   "status": "partial",
   "theorems": [
    "Verif.Refresh.C18_false",
    "Verif.Refresh.C18_partial",
    "Verif.Refresh.C18_never"
   ],
   "note": "False of the code when maxAge is larger than the Unix clock: old data is served with a nil error. Proved for clocks not below maxAge; errAge <= 0 without restriction."
  },
  {
   "property": "C180",
   "status": "proved",
   "theorems": [
    "Verif.Vec.C180_moves",
    "Verif.Vec.C180_grow",
    "Verif.Vec.C180_frozen",
    "Verif.Vec.C180_others",
    "Verif.Vec.C180_sliceCut",
    "Verif.Vec.C180_slice"
   ],
   "note": ""
  },
  {
   "property": "C181",
   "status": "proved",
   "theorems": [
    "Verif.Ring.C181_ring",
    "Verif.Ring.C181_unlink"
   ],
   "note": ""
  },
  {
   "property": "C182",
   "status": "proved",
   "theorems": [
    "Verif.Tree.C182_tree",
    "Verif.Tree.C182_setLeft",
    "Verif.Tree.C182_setRight",
    "Verif.Tree.C182_shared_false"
   ],
   "note": "C182_shared_false: without the conditions a removed child can still be kept by another node."
  },
  {
   "property": "C183",
   "status": "partial",
   "theorems": [
    "Verif.HashRing.C183_false",
    "Verif.HashRing.C183_partial",
    "Verif.HashRing.C183_call",
    "Verif.HashRing.C183_remove",
    "Verif.HashRing.C183_all"
   ],
   "note": "False of the code: Clear only sets the length, so the array keeps the old points behind it (C183_false). What is proved instead: the array refers only to nodes that were members at some time, its first cells exactly to present members (C183_partial); every call leaves everything beyond the new length as it is, or makes a new array with zero values there (C183_call); RemoveNodes never makes a new array (C183_remove); removing all nodes changes nothing in the array (C183_all)."
  },
  {
   "property": "C184",
   "status": "proved",
   "theorems": [
    "Verif.Dllist.C184_get",
    "Verif.Dllist.getT_fst"
   ],
   "note": ""
  },
  {
   "property": "C185",
   "status": "partial",
   "theorems": [
    "Verif.Ring.DoF.C185_false",
    "Verif.Ring.DoF.C185_do",
    "Verif.Ring.DoF.C185_nil",
    "Verif.Ring.DoF.C185_noNil",
    "Verif.Ring.DoF.C185_ends",
    "Verif.Ring.DoF.C185_once",
    "Verif.Ring.DoF.C185_forever",
    "Verif.Ring.DoF.IsRing.path"
   ],
   "note": "False of the code: a function that takes the first element out makes Do go round for ever (C185_false, in general C185_forever). Proved instead: exactly what Do does for every function (C185_do), no nil pointers (C185_noNil), when it ends (C185_ends) and that nothing is passed twice or left out if elements are only taken out behind (C185_once)."
  },
  {
   "property": "C186",
   "status": "proved",
   "theorems": [
    "Verif.HashRing.C186_getNode",
    "Verif.HashRing.getNodeT_fst"
   ],
   "note": ""
  },
  {
   "property": "C187",
   "status": "proved",
   "theorems": [
    "Verif.Tree.Nil.C187_panics",
    "Verif.Tree.Nil.C187_nil",
    "Verif.Tree.Nil.C187_node"
   ],
   "note": ""
  },
  {
   "property": "C188",
   "status": "proved",
   "theorems": [
    "Verif.Dllist.Nil.C188_panics",
    "Verif.Dllist.Nil.C188_some",
    "Verif.Dllist.Nil.C188_same",
    "Verif.Dllist.Nil.C188_nil"
   ],
   "note": ""
  },
  {
   "property": "C189",
   "status": "proved",
   "theorems": [
    "Verif.Ring.Nil.C189_total",
    "Verif.Ring.Nil.C189_panics",
    "Verif.Ring.Nil.C189_nil",
    "Verif.Ring.Nil.C189_some"
   ],
   "note": ""
  },
  {
   "property": "C19",
   "status": "partial",
   "theorems": [
    "Verif.Refresh.C19_false",
    "Verif.Refresh.C19_partial",
    "Verif.Refresh.C19_source"
   ],
   "note": "False of the code: a refresh in flight during Clear writes its value back afterwards. Proved when none is in flight; C19_source says where served values come from in general. Clocks not below maxAge and errAge."
  },
  {
   "property": "C190",
   "status": "proved",
   "theorems": [
    "Verif.Dllist.Push.C190_pushBackList",
    "Verif.Dllist.Push.C190_pushFrontList",
    "Verif.Dllist.Push.C190_pushBackListTo",
    "Verif.Dllist.Push.C190_pushFrontListTo",
    "Verif.Dllist.Push.C190_model"
   ],
   "note": ""
  },
  {
   "property": "C191",
   "status": "proved",
   "theorems": [
    "Verif.Dllist.Push.C191_slice",
    "Verif.Dllist.Push.C191_model",
    "Verif.Dllist.Push.C191_negative"
   ],
   "note": ""
  },
  {
   "property": "C192",
   "status": "proved",
   "theorems": [
    "Verif.Dllist.Push.C192_sort",
    "Verif.Dllist.Push.C192_model"
   ],
   "note": ""
  },
  {
   "property": "C193",
   "status": "proved",
   "theorems": [
    "Verif.Dllist.Push.C193_all",
    "Verif.Dllist.Push.C193_zero",
    "Verif.Dllist.Push.C193_sort"
   ],
   "note": ""
  },
  {
   "property": "C20",
   "status": "partial",
   "theorems": [
    "Verif.Refresh.C20_false",
    "Verif.Refresh.C20_partial",
    "Verif.Refresh.C20_exact"
   ],
   "note": "False of the code: a panicking refresh function overwrites the value by the zero value. Proved without panics; C20_exact says what is passed in general."
  },
  {
   "property": "C21",
   "status": "partial",
   "theorems": [
    "Verif.Refresh.C21_false",
    "Verif.Refresh.C21_partial",
    "Verif.Refresh.C16_partial"
   ],
   "note": "False of the code for panics: the zero value is then served as a success. Proved for errors."
  },
  {
   "property": "C22",
   "status": "proved",
   "theorems": [
    "Verif.Heap.C22_init_heap",
    "Verif.Heap.C22_reachable_heap"
   ],
   "note": ""
  },
  {
   "property": "C23",
   "status": "proved",
   "theorems": [
    "Verif.Heap.C23_pop_least"
   ],
   "note": ""
  },
  {
   "property": "C24",
   "status": "proved",
   "theorems": [
    "Verif.Heap.C24_init_perm",
    "Verif.Heap.C24_push_perm",
    "Verif.Heap.C24_pop_perm",
    "Verif.Heap.C24_remove_perm",
    "Verif.Heap.C24_fix_perm"
   ],
   "note": ""
  },
  {
   "property": "C25",
   "status": "proved",
   "theorems": [
    "Verif.Heap.C25_fix_restores"
   ],
   "note": ""
  },
  {
   "property": "C26",
   "status": "proved",
   "theorems": [
    "Verif.Heap.C26_init_drain_sorted",
    "Verif.Heap.C26_push_drain_sorted",
    "Verif.Heap.C26_minheap",
    "Verif.Heap.C26_maxheap"
   ],
   "note": ""
  },
  {
   "property": "C27",
   "status": "proved",
   "theorems": [
    "Verif.PQueue.C27_priority_queue"
   ],
   "note": ""
  },
  {
   "property": "C28",
   "status": "proved",
   "theorems": [
    "Verif.Dllist.C28_sequence"
   ],
   "note": "Refinement of the pointer-level model to plain sequences for every adaptive client; Safe excludes handles that were in a list when it was cleared/sorted (C35) and Push*ListTo of a list to itself (C33)."
  },
  {
   "property": "C29",
   "status": "proved",
   "theorems": [
    "Verif.Dllist.C29_foreign_noop",
    "Verif.Dllist.C29_frame"
   ],
   "note": "Foreign or removed element: memory unchanged. Frame: other lists unchanged."
  },
  {
   "property": "C30",
   "status": "proved",
   "theorems": [
    "Verif.Dllist.C30_swap"
   ],
   "note": ""
  },
  {
   "property": "C31",
   "status": "proved",
   "theorems": [
    "Verif.Dllist.C31_get"
   ],
   "note": ""
  },
  {
   "property": "C32",
   "status": "proved",
   "theorems": [
    "Verif.Dllist.C32_pushBackList",
    "Verif.Dllist.C32_pushFrontList"
   ],
   "note": "Includes other == receiver."
  },
  {
   "property": "C33",
   "status": "partial",
   "theorems": [
    "Verif.Dllist.C33_pushFrontListTo_partial",
    "Verif.Dllist.C33_pushBackListTo_partial",
    "Verif.Dllist.C33_self_false"
   ],
   "note": "Proved for other != l; false for other == l (witness); C136 says exactly what happens then."
  },
  {
   "property": "C34",
   "status": "proved",
   "theorems": [
    "Verif.Dllist.C34_sort"
   ],
   "note": ""
  },
  {
   "property": "C35",
   "status": "partial",
   "theorems": [
    "Verif.Dllist.C35_stale_partial",
    "Verif.Dllist.C35_stale_false"
   ],
   "note": "False of the code (witnesses: negative length etc.); holds for methods of other lists."
  },
  {
   "property": "C36",
   "status": "proved",
   "theorems": [
    "Verif.Dllist.C36_zero_value"
   ],
   "note": ""
  },
  {
   "property": "C37",
   "status": "proved",
   "theorems": [
    "Verif.Lhashmap.C37_map"
   ],
   "note": "On the pointer-level dllist model; specification computed from the list of calls."
  },
  {
   "property": "C38",
   "status": "proved",
   "theorems": [
    "Verif.Lhashmap.C38_range",
    "Verif.Lhashmap.Visits.unique"
   ],
   "note": "For callbacks that do not call methods of the map being iterated."
  },
  {
   "property": "C39",
   "status": "proved",
   "theorems": [
    "Verif.Ring.C39_new",
    "Verif.Ring.C39_zero",
    "Verif.Ring.C39_inverse",
    "Verif.Ring.C39_period",
    "Verif.Ring.ring_len",
    "Verif.Ring.ring_refines",
    "Verif.Ring.ring_total",
    "Verif.Ring.every_ring"
   ],
   "note": "Rings are described by what Next and Prev return (IsRing); holds in every state reachable by any program of the API."
  },
  {
   "property": "C40",
   "status": "proved",
   "theorems": [
    "Verif.Ring.C40_move"
   ],
   "note": "Move(n) equals |n| calls of Next/Prev and the element n mod Len; the wrap of n+1 at the maximal int is not modelled."
  },
  {
   "property": "C41",
   "status": "proved",
   "theorems": [
    "Verif.Ring.C41_join",
    "Verif.Ring.C41_split",
    "Verif.Ring.C41_self",
    "Verif.Ring.C41_nil"
   ],
   "note": "Both cases, plus r.Link(r) and Link(nil); all other rings and all values unchanged."
  },
  {
   "property": "C42",
   "status": "proved",
   "theorems": [
    "Verif.Ring.C42_unlink"
   ],
   "note": "n+1 is computed on unbounded integers."
  },
  {
   "property": "C43",
   "status": "proved",
   "theorems": [
    "Verif.Ring.C43_do",
    "Verif.Ring.C43_nil"
   ],
   "note": "f is the callback that records its arguments; callbacks that change the ring are not covered."
  },
  {
   "property": "C44",
   "status": "proved",
   "theorems": [
    "Verif.GoSet.C44_difference",
    "Verif.GoSet.C44_symmetricDifference",
    "Verif.GoSet.C44_intersection",
    "Verif.GoSet.C44_union"
   ],
   "note": "For all memories of sets (nil and aliased operands included) and every iteration order."
  },
  {
   "property": "C45",
   "status": "proved",
   "theorems": [
    "Verif.GoSet.C45_isSubSet"
   ],
   "note": ""
  },
  {
   "property": "C46",
   "status": "partial",
   "theorems": [
    "Verif.GoSet.C46_isSupperSet_false",
    "Verif.GoSet.C46_isSupperSet_partial"
   ],
   "note": "False of the code: the result is negated. The partial theorem says exactly what it returns."
  },
  {
   "property": "C47",
   "status": "proved",
   "theorems": [
    "Verif.GoSet.C47_history"
   ],
   "note": "All histories of all methods against mathematical sets; keys with lawful equality (no NaN)."
  },
  {
   "property": "C48",
   "status": "proved",
   "theorems": [
    "Verif.GoSet.C48_equal",
    "Verif.GoSet.C48_clone",
    "Verif.GoSet.C48_independent"
   ],
   "note": ""
  },
  {
   "property": "C49",
   "status": "proved",
   "theorems": [
    "Verif.GenMap.C49_history"
   ],
   "note": "All histories of all methods against finite partial functions."
  },
  {
   "property": "C50",
   "status": "partial",
   "theorems": [
    "Verif.GenMap.C50_loadOrStore_false",
    "Verif.GenMap.C50_loadOrStore_partial"
   ],
   "note": "False of the code: returns the zero value instead of v when the key is absent."
  },
  {
   "property": "C51",
   "status": "proved",
   "theorems": [
    "Verif.GenMap.C51_equalFunc"
   ],
   "note": ""
  },
  {
   "property": "C52",
   "status": "proved",
   "theorems": [
    "Verif.Vec.C52_history",
    "Verif.Vec.C52_panic",
    "Verif.Vec.C52_grow",
    "Verif.Vec.C52_clip"
   ],
   "note": "All histories of all 25 mutating methods on any number of vectors, all allocator decisions; every observer in Shows."
  },
  {
   "property": "C53",
   "status": "partial",
   "theorems": [
    "Verif.Vec.C53_false",
    "Verif.Vec.C53_exact",
    "Verif.Vec.C53_cut_partial"
   ],
   "note": "False of the code for cuts with elements behind them: the returned slice shows the shifted elements. C53_exact says what is returned for every cut."
  },
  {
   "property": "C54",
   "status": "proved",
   "theorems": [
    "Verif.Vec.C54_independent",
    "Verif.Vec.C54_views",
    "Verif.Vec.C54_views_stay",
    "Verif.Vec.C54_clone",
    "Verif.Vec.C54_splitOff",
    "Verif.Vec.C54_cloneToSlice"
   ],
   "note": "Also writes through slices obtained from a vector reach no other vector."
  },
  {
   "property": "C55",
   "status": "proved",
   "theorems": [
    "Verif.Vec.C55_binarySearch",
    "Verif.Vec.C55_binarySearch_on",
    "Verif.Vec.C55_binarySearchFunc"
   ],
   "note": "The _on theorem needs an order only of the elements and the target (floats other than NaN)."
  },
  {
   "property": "C56",
   "status": "proved",
   "theorems": [
    "Verif.Vec.C56_searchFunc",
    "Verif.Vec.C56_search",
    "Verif.Vec.C56_panic"
   ],
   "note": ""
  },
  {
   "property": "C57",
   "status": "proved",
   "theorems": [
    "Verif.Vec.C57_sort",
    "Verif.Vec.C57_sort_on",
    "Verif.Vec.C57_sortFunc_on",
    "Verif.Vec.C57_isSorted",
    "Verif.Vec.C57_isSorted_on",
    "Verif.Vec.C57_moves"
   ],
   "note": "Relative to the contract of slices.SortFunc and slices.SortStableFunc (SortImpl, inhabited by mergeImpl, insertImpl, insImpl). The _on theorems need an order only of the elements of the vector. C57_moves: whatever the comparisons, sorting moves elements; when it panics."
  },
  {
   "property": "C58",
   "status": "proved",
   "theorems": [
    "Verif.Vec.C58_extremes",
    "Verif.Vec.C58_func",
    "Verif.Vec.C58_extremes_on",
    "Verif.Vec.C58_func_on"
   ],
   "note": ""
  },
  {
   "property": "C59",
   "status": "proved",
   "theorems": [
    "Verif.Vec.C59_compact"
   ],
   "note": ""
  },
  {
   "property": "C60",
   "status": "proved",
   "theorems": [
    "Verif.Vec.C60_compare",
    "Verif.Vec.C60_compare_on",
    "Verif.Vec.C60_equal",
    "Verif.Vec.C60_at"
   ],
   "note": ""
  },
  {
   "property": "C61",
   "status": "partial",
   "theorems": [
    "Verif.HashRing.C61_false",
    "Verif.HashRing.C61_partial"
   ],
   "note": "False of the code: on a hash collision GetNode returns the key itself (crc32(\"itstrus-0\") = crc32(\"node1-0\")). Holds when the hash of the key is no point of another node."
  },
  {
   "property": "C62",
   "status": "proved",
   "theorems": [
    "Verif.HashRing.C62",
    "Verif.HashRing.C62_exact"
   ],
   "note": "C62_exact also says what happens on collisions."
  },
  {
   "property": "C63",
   "status": "proved",
   "theorems": [
    "Verif.HashRing.C63"
   ],
   "note": "Absent collisions between members; C63_collision shows the hypothesis is needed."
  },
  {
   "property": "C64",
   "status": "proved",
   "theorems": [
    "Verif.HashRing.C64_add",
    "Verif.HashRing.C64_remove"
   ],
   "note": "Absent collisions; C64_collision shows the hypothesis is needed."
  },
  {
   "property": "C65",
   "status": "proved",
   "theorems": [
    "Verif.HashRing.C65",
    "Verif.HashRing.C65_noop",
    "Verif.HashRing.C65_count"
   ],
   "note": ""
  },
  {
   "property": "C66",
   "status": "proved",
   "theorems": [
    "Verif.Tree.C66_build",
    "Verif.Tree.C66_full"
   ],
   "note": ""
  },
  {
   "property": "C67",
   "status": "proved",
   "theorems": [
    "Verif.Tree.C67_dfs",
    "Verif.Tree.C67_bfs",
    "Verif.Tree.C67_once",
    "Verif.Tree.C67_depth",
    "Verif.Tree.C67_nil"
   ],
   "note": "Finite trees; TraversalDFS on a nil receiver panics. Each node once if no node is reachable along two paths."
  },
  {
   "property": "C68",
   "status": "partial",
   "theorems": [
    "Verif.Tree.C68_links_false",
    "Verif.Tree.C68_links_partial",
    "Verif.Tree.C68_exact",
    "Verif.Tree.C68_setLeft",
    "Verif.Tree.C68_setRight"
   ],
   "note": "False of the code when a node that has a parent is given to another one (witness). Holds for histories where the new child has no parent or already is that child; C68_exact says exactly when one call keeps the links consistent."
  },
  {
   "property": "C69",
   "status": "proved",
   "theorems": [
    "Verif.Tree.C69_layer",
    "Verif.Tree.C69_layer_nil",
    "Verif.Tree.C69_layer_depth",
    "Verif.Tree.C69_maxDepth",
    "Verif.Tree.C69_maxDepth_nil"
   ],
   "note": ""
  },
  {
   "property": "C70",
   "status": "proved",
   "theorems": [
    "Verif.Tree.C70_ancestor",
    "Verif.Tree.C70_nil"
   ],
   "note": ""
  },
  {
   "property": "C71",
   "status": "partial",
   "theorems": [
    "Verif.Tree.C71_descendant_false",
    "Verif.Tree.C71_negated_partial"
   ],
   "note": "False of the code: the result is always the negation."
  },
  {
   "property": "C72",
   "status": "proved",
   "theorems": [
    "Verif.Tree.C72_sibling",
    "Verif.Tree.C72_uncle",
    "Verif.Tree.C72_grandparent",
    "Verif.Tree.C72_predicates",
    "Verif.Tree.C72_has"
   ],
   "note": "In states with consistent links (Links, established by C68_links_partial)."
  },
  {
   "property": "C73",
   "status": "partial",
   "theorems": [
    "Verif.Tree.C73_draw_false",
    "Verif.Tree.C73_exact",
    "Verif.Tree.C73_iff",
    "Verif.Tree.C73_build",
    "Verif.Tree.C73_draw_partial",
    "Verif.Tree.C73_values"
   ],
   "note": "False of the code from the fourth layer on (witness: 15 nodes). Proved for all trees: the values are in level order on lines of 1, 2, 4, 6, 8, ... values (C73_exact); for which trees these are the layers (C73_iff), for BuildTree(vals) exactly those with at most 13 values (C73_build)."
  },
  {
   "property": "C74",
   "status": "partial",
   "theorems": [
    "Verif.Vec.C74_false",
    "Verif.Vec.C74_partial"
   ],
   "note": "False of the code: the new vector keeps method values of the original, so SetCmpLess on the original changes it. Without SetCmp calls on the original it holds."
  },
  {
   "property": "C75",
   "status": "proved",
   "theorems": [
    "Verif.Refresh.C75_bound",
    "Verif.Refresh.C75_progress",
    "Verif.Refresh.C75_free"
   ],
   "note": ""
  },
  {
   "property": "C76",
   "status": "proved",
   "theorems": [
    "Verif.Refresh.C76",
    "Verif.Refresh.C76_set"
   ],
   "note": ""
  },
  {
   "property": "C77",
   "status": "proved",
   "theorems": [
    "Verif.Refresh.C77"
   ],
   "note": "A panicking refresh counts as one that leaves the zero value."
  },
  {
   "property": "C78",
   "status": "proved",
   "theorems": [
    "Verif.Refresh.C78"
   ],
   "note": ""
  },
  {
   "property": "C79",
   "status": "proved",
   "theorems": [
    "Verif.Refresh.C79_ok",
    "Verif.Refresh.C79_err"
   ],
   "note": "A panicking refresh counts as a success with the zero value."
  },
  {
   "property": "C80",
   "status": "proved",
   "theorems": [
    "Verif.Refresh.C80_ok",
    "Verif.Refresh.C80_err"
   ],
   "note": "A panicking refresh counts as a success with the zero value."
  },
  {
   "property": "C81",
   "status": "proved",
   "theorems": [
    "Verif.Refresh.C81"
   ],
   "note": ""
  },
  {
   "property": "C82",
   "status": "proved",
   "theorems": [
    "Verif.SyncCache.sync_isExpired",
    "Verif.SyncCache.sync_expiration",
    "Verif.SyncCache.sync_expiration_calls",
    "Verif.SyncCache.sync_fresh_entry"
   ],
   "note": ""
  },
  {
   "property": "C83",
   "status": "proved",
   "theorems": [
    "Verif.SyncCache.sync_trim"
   ],
   "note": "Over an atomic map; C93 carries what can be seen over to the steps of RWMap."
  },
  {
   "property": "C84",
   "status": "proved",
   "theorems": [
    "Verif.SyncCache.sync_range_once",
    "Verif.SyncCache.sync_range_all"
   ],
   "note": "Over an atomic map; C93 carries what can be seen over to the steps of RWMap."
  },
  {
   "property": "C85",
   "status": "proved",
   "theorems": [
    "Verif.SyncCache.sync_store",
    "Verif.SyncCache.sync_load_stored",
    "Verif.SyncCache.sync_load_nil"
   ],
   "note": "Over an atomic map; C93 carries what can be seen over to the steps of RWMap."
  },
  {
   "property": "C86",
   "status": "proved",
   "theorems": [
    "Verif.SyncCache.sync_closed",
    "Verif.SyncCache.sync_reg"
   ],
   "note": "The set of all caches is reduced to whether this cache is in it."
  },
  {
   "property": "C87",
   "status": "proved",
   "theorems": [
    "Verif.SyncCache.sync_panic"
   ],
   "note": "Over an atomic map; C93 carries what can be seen over to the steps of RWMap."
  },
  {
   "property": "C88",
   "status": "proved",
   "theorems": [
    "Verif.SyncCache.sync_los_tries"
   ],
   "note": "Over an atomic map; C93 carries what can be seen over to the steps of RWMap."
  },
  {
   "property": "C89",
   "status": "proved",
   "theorems": [
    "Verif.SyncCache.sync_no_wait",
    "Verif.SyncCache.sync_ends"
   ],
   "note": "Over an atomic map; C93 carries what can be seen over to the steps of RWMap."
  },
  {
   "property": "C90",
   "status": "proved",
   "theorems": [
    "Verif.SyncCache.sync_lad",
    "Verif.SyncCache.sync_lad_once",
    "Verif.SyncCache.sync_cad",
    "Verif.SyncCache.sync_delete"
   ],
   "note": "Over an atomic map; C93 carries what can be seen over to the steps of RWMap."
  },
  {
   "property": "C91",
   "status": "proved",
   "theorems": [
    "Verif.SyncCache.sync_put_once",
    "Verif.SyncCache.sync_no_return"
   ],
   "note": "Over an atomic map; C93 carries what can be seen over to the steps of RWMap."
  },
  {
   "property": "C92",
   "status": "proved",
   "theorems": [
    "Verif.SyncCache.sync_ends_at"
   ],
   "note": "Over an atomic map; C93 carries what can be seen over to the steps of RWMap."
  },
  {
   "property": "C93",
   "status": "proved",
   "theorems": [
    "Verif.SyncCache.sync_whole",
    "Verif.SyncCache.sync_whole_all"
   ],
   "note": "A Range of the map whose function stopped it or panicked is left where it is: it does nothing more with the map."
  },
  {
   "property": "C94",
   "status": "proved",
   "theorems": [
    "Verif.SyncCache.whole_load",
    "Verif.SyncCache.whole_range",
    "Verif.SyncCache.whole_newest",
    "Verif.SyncCache.whole_lad_once",
    "Verif.SyncCache.whole_cb",
    "Verif.SyncCache.whole_panic"
   ],
   "note": "About the events of the composed machine; entries put into and taken out of the map are not among them."
  },
  {
   "property": "C95",
   "status": "proved",
   "theorems": [
    "Verif.SyncCache.sync_results",
    "Verif.SyncCache.whole_results"
   ],
   "note": ""
  },
  {
   "property": "C96",
   "status": "proved",
   "theorems": [
    "Verif.Refresh.C96_get",
    "Verif.Refresh.C96_none"
   ],
   "note": ""
  },
  {
   "property": "C97",
   "status": "proved",
   "theorems": [
    "Verif.Refresh.C97_clear",
    "Verif.Refresh.C97_set"
   ],
   "note": ""
  },
  {
   "property": "C98",
   "status": "proved",
   "theorems": [
    "Verif.Refresh.C98_others",
    "Verif.Refresh.C98_fresh",
    "Verif.Refresh.C98_err"
   ],
   "note": "Not to wait: to be able to make a step, whoever holds the lock."
  },
  {
   "property": "C99",
   "status": "proved",
   "theorems": [
    "Verif.Refresh.C99"
   ],
   "note": ""
  }
 ]
}