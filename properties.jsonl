{"id": "C01", "title": "RWMap is linearizable", "statement": "Any concurrent mix of Load, Store, Swap, LoadOrStore, LoadAndDelete, Delete, CompareAndSwap, CompareAndDelete and Clear calls on one RWMap returns results that could have been produced by executing the calls one at a time, each at one instant between its invocation and its return, on an ordinary map.", "quantifier": "all key/value types, all finite collections of calls, all interleavings of their atomic steps (lock operations, atomic loads, stores, CAS), all map iteration orders", "why_tests_cant": "The read/dirty/expunged protocol only misbehaves under particular schedules of several goroutines; a test samples a vanishing share of schedules.", "anchors": ["rwmap/rwmap.go:Load", "rwmap/rwmap.go:Swap", "rwmap/rwmap.go:LoadOrStore", "rwmap/rwmap.go:LoadAndDelete", "rwmap/rwmap.go:CompareAndSwap", "rwmap/rwmap.go:CompareAndDelete", "rwmap/rwmap.go:Clear", "rwmap/rwmap.go:missLocked", "rwmap/rwmap.go:dirtyLocked", "rwmap/rwmap.go:Store", "rwmap/rwmap.go:Delete", "rwmap/rwmap.go:load", "rwmap/rwmap.go:loadReadOnly", "rwmap/rwmap.go:trySwap", "rwmap/rwmap.go:swapLocked", "rwmap/rwmap.go:unexpungeLocked", "rwmap/rwmap.go:tryExpungeLocked", "rwmap/rwmap.go:newEntry"]}
{"id": "C02", "title": "RWMap.Range visits each key at most once with a value it really had", "statement": "During one Range call no key is passed to f twice; every pair (k,v) passed to f was the content of the map for k at some instant during the call before f is called with it; Range calls f until f returns false, and not again after that; and if f never returns false, every key that was in the map during the whole call is passed to f.", "quantifier": "all schedules of a Range call with any other calls on the map, including calls made by f", "why_tests_cant": "Needs every interleaving of a multi-step iteration with promotions, expunging, Clear and writers.", "anchors": ["rwmap/rwmap.go:Range"]}
{"id": "C03", "title": "RWMap never panics and never corrupts its internal maps", "statement": "No sequence of concurrent calls makes a method of RWMap write to a nil map (panic), and the plain (non atomic) fields are only touched by the goroutine that holds the mutex.", "quantifier": "all reachable states of all interleavings", "why_tests_cant": "A nil-map write would need a precise race between expunging, promotion and a store; tests cannot exhaust the races.", "anchors": ["rwmap/rwmap.go:Swap", "rwmap/rwmap.go:LoadOrStore", "rwmap/rwmap.go:dirtyLocked", "rwmap/rwmap.go:missLocked"]}
{"id": "C04", "title": "RWMap.Len equals the number of keys when the map is quiescent", "statement": "Whenever no call is in progress, Len() equals the number of keys a Range would visit.", "quantifier": "all histories and interleavings of calls ending in a quiescent state", "why_tests_cant": "The counter is updated after the map, outside the lock; drift only appears under specific races (in particular with Clear) and then stays for ever.", "anchors": ["rwmap/rwmap.go:Len", "rwmap/rwmap.go:Clear", "rwmap/rwmap.go:Swap", "rwmap/rwmap.go:LoadOrStore", "rwmap/rwmap.go:LoadAndDelete", "rwmap/rwmap.go:CompareAndDelete", "rwmap/rwmap.go:SlowLen"]}
{"id": "C05", "title": "RWMap.LoadOrStore elects one winner per key", "statement": "If any number of goroutines call LoadOrStore on the same absent key, and nobody else writes that key, exactly one call reports loaded=false and every call returns that winner's value.", "quantifier": "all numbers of concurrent callers, all schedules", "why_tests_cant": "Once-only initialisation depends on every schedule of the fast and slow paths.", "anchors": ["rwmap/rwmap.go:LoadOrStore", "rwmap/rwmap.go:tryLoadOrStore"]}
{"id": "C06", "title": "A stored RWMap value is handed out by at most one remover", "statement": "If several goroutines concurrently delete (LoadAndDelete, CompareAndDelete) a key whose value was stored once, at most one of them reports success, and the value a remover returns is the value that was present.", "quantifier": "all schedules of any number of removers", "why_tests_cant": "Double removal is a race that depends on the orphaned-entry path (dirty-map deletion followed by an unlocked CAS).", "anchors": ["rwmap/rwmap.go:LoadAndDelete", "rwmap/rwmap.go:CompareAndDelete", "rwmap/rwmap.go:delete"]}
{"id": "C07", "title": "RWMap calls cannot deadlock", "statement": "From every reachable state with calls in progress there is a continuation in which every call in progress returns; in particular the mutex is never left locked by a finished call.", "quantifier": "all reachable states of all interleavings", "why_tests_cant": "A missed Unlock on one path or a lock cycle shows only on that path and schedule.", "anchors": ["rwmap/rwmap.go:Load", "rwmap/rwmap.go:Swap", "rwmap/rwmap.go:Range", "rwmap/rwmap.go:Clear"]}
{"id": "C08", "title": "SyncCache never serves an expired entry from Load or Range", "statement": "An entry returned by Load, or passed to the Range callback, was not expired at the instant the call checked it: its expiration was not before the clock at that instant, and that instant lies within the call.", "quantifier": "all clock behaviours, expirations, histories and interleavings of cache operations", "why_tests_cant": "Depends on every relation between the clock, the stored expiration and concurrent AddExpiration/SetExpiration.", "anchors": ["synccache/synccache.go:Load", "synccache/synccache.go:Range", "synccache/item.go:IsExpired"]}
{"id": "C09", "title": "SyncCache calls the deleted callback exactly once per removed entry", "statement": "With a deleted callback configured, each entry that leaves the cache through Delete, LoadAndDelete, CompareAndDelete, CompareValueAndDelete, Clear, expiry in Load/LoadOrStore/Range or background trimming triggers the callback exactly once with its value, an entry still in the cache or overwritten by Store triggers none.", "quantifier": "all interleavings of all cache operations including the background trimmer", "why_tests_cant": "Double or missing callbacks need two removers racing on the same entry.", "anchors": ["synccache/synccache.go:CompareAndDelete", "synccache/synccache.go:Delete", "synccache/synccache.go:LoadAndDelete", "synccache/synccache.go:Clear", "synccache/synccache.go:trim", "synccache/synccache.go:WithDeletedCallback", "synccache/synccache.go:NewSyncCache"]}
{"id": "C10", "title": "Background trimming only removes expired entries", "statement": "Trimming and lazy expiry never remove an entry that was not expired when it was examined, and in particular never remove an entry that replaced the expired one in the meantime.", "quantifier": "all interleavings of trim with Store, Load, LoadOrStore, Delete", "why_tests_cant": "Needs a Store landing between the expiry check and the removal.", "anchors": ["synccache/synccache.go:trim", "synccache/synccache.go:CompareAndDelete"]}
{"id": "C11", "title": "SyncCache.LoadOrStore returns a live entry", "statement": "LoadOrStore returns either the entry it stored (loaded=false) or an entry that was not expired when checked (loaded=true), never an expired entry.", "quantifier": "all histories, clocks and interleavings", "why_tests_cant": "The bad branch needs a concurrent removal of the expired entry between the check and the CompareAndDelete.", "anchors": ["synccache/synccache.go:LoadOrStore"]}
{"id": "C12", "title": "SyncCache.CompareValueAndDelete removes only a matching live value", "statement": "CompareValueAndDelete(key, v) returns true only if the live entry for key had value v and that very entry has been removed by this call; it returns false only if, at some instant of the call, there was no entry for key, or the entry was expired, or had another value, or was removed or overwritten by another call.", "quantifier": "all histories and interleavings", "why_tests_cant": "An overwrite between the value check and the removal must not be removed; needs all schedules.", "anchors": ["synccache/synccache.go:CompareValueAndDelete"]}
{"id": "C13", "title": "SyncCache.Clear empties the cache and reports every entry", "statement": "When no other operation runs concurrently, after Clear the cache holds no entry, and with a callback configured the callback has been called exactly once for each entry that was in it.", "quantifier": "all cache contents, all iteration orders", "why_tests_cant": "Quantifies over all contents and map iteration orders.", "anchors": ["synccache/synccache.go:Clear"]}
{"id": "C14", "title": "At most one refresh function runs at a time", "statement": "For one RefreshData, refresh functions started by Get and Refresh never overlap in time.", "quantifier": "all interleavings of Get, Refresh, Clear, Raw", "why_tests_cant": "Mutual exclusion is a statement about every schedule.", "anchors": ["refreshcache/refreshcache.go:RefreshData.Get", "refreshcache/refreshcache.go:RefreshData.Refresh", "refreshcache0/refreshcache0.go:RefreshData.Get", "refreshcache1/refreshcache1.go:RefreshData.Get", "refreshcache0/refreshcache0.go:RefreshData.Refresh", "refreshcache1/refreshcache1.go:RefreshData.Refresh"]}
{"id": "C15", "title": "A fresh value is served without refreshing", "statement": "If the last refresh succeeded at time t, and neither Clear nor a failed refresh happened since, a Get at a time now with now - t < maxAge (or any time if maxAge < 0, given t > 0, that is a clock after 1970) returns that refresh's value with nil error without calling the refresh function and without taking the lock.", "quantifier": "all clocks, maxAge values, values and prior histories", "why_tests_cant": "Boundary arithmetic over all clock values and ages.", "anchors": ["refreshcache/refreshcache.go:RefreshData.Get", "refreshcache0/refreshcache0.go:RefreshData.Get", "refreshcache1/refreshcache1.go:RefreshData.Get"]}
{"id": "C16", "title": "Get never serves stale data", "statement": "Whenever Get returns without calling the refresh function and with nil error, the value it returns was produced by a successful refresh that completed within maxAge of the instant Get checked the clock (or maxAge < 0), or by a newer one.", "quantifier": "all interleavings, all clocks, all maxAge", "why_tests_cant": "The check and the load of the value are separate atomic reads; only an argument over all schedules settles it.", "anchors": ["refreshcache/refreshcache.go:RefreshData.Get", "refreshcache0/refreshcache0.go:RefreshData.Get", "refreshcache1/refreshcache1.go:RefreshData.Get"]}
{"id": "C17", "title": "Concurrent Gets share one refresh", "statement": "If any number of Gets find the cache stale while a refresh is running and that refresh succeeds with a value still fresh when they acquire the lock, they all return that value and none of them calls the refresh function.", "quantifier": "all numbers of callers and schedules", "why_tests_cant": "Cache stampede prevention is a property of all schedules of the double check.", "anchors": ["refreshcache/refreshcache.go:RefreshData.Get", "refreshcache0/refreshcache0.go:RefreshData.Get", "refreshcache1/refreshcache1.go:RefreshData.Get"]}
{"id": "C18", "title": "Errors are cached for errAge", "statement": "If the last refresh failed with error e at time t, and no refresh succeeded since, then Get at a time now with now - t < errAge returns the zero value and e without calling the refresh function; with errAge <= 0 errors are never cached.", "quantifier": "all clocks, error ages, histories", "why_tests_cant": "Boundary arithmetic over all clock values, and histories mixing success, failure and Clear.", "anchors": ["refreshcache/refreshcache.go:RefreshData.Get", "refreshcache/refreshcache.go:WithErrAge", "refreshcache0/refreshcache0.go:RefreshData.Get", "refreshcache1/refreshcache1.go:RefreshData.Get", "refreshcache0/refreshcache0.go:WithErrAge", "refreshcache1/refreshcache1.go:WithErrAge"]}
{"id": "C19", "title": "Clear forces the next Get to refresh", "statement": "After Clear returns (and with no error cached), the next Get calls the refresh function rather than returning data obtained before the Clear.", "quantifier": "all histories and interleavings, including a refresh in flight during Clear", "why_tests_cant": "The violation needs Clear to land while a refresh function is running.", "anchors": ["refreshcache/refreshcache.go:RefreshData.Clear", "refreshcache0/refreshcache0.go:RefreshData.Clear", "refreshcache1/refreshcache1.go:RefreshData.Clear"]}
{"id": "C20", "title": "The refresh function sees the previous value", "statement": "The context handed to a refresh function carries, under OldValKey, the value of the most recent successful refresh, or the zero value if there was none.", "quantifier": "all histories and interleavings", "why_tests_cant": "Quantifies over histories of successes and failures and over schedules.", "anchors": ["refreshcache/refreshcache.go:RefreshData.Get", "refreshcache/refreshcache.go:RefreshData.Refresh", "refreshcache/refreshcache.go:OldValKey", "refreshcache0/refreshcache0.go:RefreshData.Get", "refreshcache1/refreshcache1.go:RefreshData.Get", "refreshcache0/refreshcache0.go:RefreshData.Refresh", "refreshcache1/refreshcache1.go:RefreshData.Refresh"]}
{"id": "C21", "title": "A failed or panicking refresh does not fabricate a value", "statement": "If a refresh function does not return successfully (it returns an error or panics), later Gets do not return data from that call as a success.", "quantifier": "all histories including panicking refresh functions", "why_tests_cant": "Requires reasoning about the deferred write-back on every exit path.", "anchors": ["refreshcache/refreshcache.go:RefreshData.Get", "refreshcache/refreshcache.go:RefreshData.Refresh", "refreshcache0/refreshcache0.go:RefreshData.Get", "refreshcache1/refreshcache1.go:RefreshData.Get", "refreshcache0/refreshcache0.go:RefreshData.Refresh", "refreshcache1/refreshcache1.go:RefreshData.Refresh"]}
{"id": "C22", "title": "Heap operations keep the heap order", "statement": "Init establishes, and Push, Pop, Remove(i) and Fix(i) preserve, the heap order: no element is less than its parent.", "quantifier": "all element types with a strict weak order, all sizes, all indices in range", "why_tests_cant": "Unbounded sizes and arrangements.", "anchors": ["heap/heap.go:Init", "heap/heap.go:Push", "heap/heap.go:Pop", "heap/heap.go:Remove", "heap/heap.go:Fix", "heap/heap.go:up", "heap/heap.go:down", "heap/minheap.go:Less", "heap/minheap.go:Swap", "heap/minheap.go:Push", "heap/minheap.go:Pop", "heap/minheap.go:Len", "heap/maxheap.go:Less", "heap/maxheap.go:Swap", "heap/maxheap.go:Push", "heap/maxheap.go:Pop", "heap/maxheap.go:Len"]}
{"id": "C23", "title": "Pop returns a minimum", "statement": "On a nonempty heap Pop returns an element such that no element of the heap is less than it.", "quantifier": "all heaps of all sizes", "why_tests_cant": "Unbounded sizes and arrangements.", "anchors": ["heap/heap.go:Pop"]}
{"id": "C24", "title": "Heap operations neither lose nor invent elements", "statement": "Init and Fix permute the elements; Push adds exactly the pushed element; Pop and Remove take out exactly the returned element; Remove(i) returns the element that was at index i.", "quantifier": "all contents, sizes and indices; no order law on Less needed", "why_tests_cant": "Multiset equality over all inputs.", "anchors": ["heap/heap.go:Init", "heap/heap.go:Push", "heap/heap.go:Pop", "heap/heap.go:Remove", "heap/heap.go:Fix"]}
{"id": "C25", "title": "Fix repairs a heap after one element changed arbitrarily", "statement": "If a heap is changed at one index to any value, Fix at this index restores the heap order with the same elements.", "quantifier": "all heaps, indices and new values", "why_tests_cant": "Up and down cases over unbounded sizes.", "anchors": ["heap/heap.go:Fix"]}
{"id": "C26", "title": "Draining a heap yields sorted order", "statement": "Pushing or Init-ing any elements and popping until empty yields all of them in nondecreasing order (MinHeap) or nonincreasing order (MaxHeap).", "quantifier": "all finite inputs", "why_tests_cant": "Unbounded inputs.", "anchors": ["heap/heap.go:Pop", "heap/minheap.go:MinHeap", "heap/maxheap.go:MaxHeap"]}
{"id": "C27", "title": "PQueue is a priority queue", "statement": "After any interleaving of Push and Pop, Pop returns a (priority, value) pair that was pushed and not yet popped, whose priority is minimal (maximal for the max queue) among those present, and Len is pushes minus pops.", "quantifier": "all operation sequences", "why_tests_cant": "Refinement to a multiset over all histories.", "anchors": ["pqueue/pqueue.go:Push", "pqueue/pqueue.go:Pop", "pqueue/minqueue.go:Less", "pqueue/maxqueue.go:Less", "pqueue/pqueue.go:NewMinPriorityQueue", "pqueue/pqueue.go:NewMaxPriorityQueue", "pqueue/pqueue.go:Len", "pqueue/pqueue.go:newItem", "pqueue/minqueue.go:Swap", "pqueue/minqueue.go:Push", "pqueue/minqueue.go:Pop", "pqueue/minqueue.go:Len", "pqueue/maxqueue.go:Swap", "pqueue/maxqueue.go:Push", "pqueue/maxqueue.go:Pop", "pqueue/maxqueue.go:Len"]}
{"id": "C28", "title": "Dllist behaves as a sequence", "statement": "After any sequence of PushFront, PushBack, InsertBefore, InsertAfter, Remove, MoveToFront, MoveToBack, MoveBefore, MoveAfter and Swap calls, forward and backward iteration, Len, Front, Back and Get(i) all agree with the abstract sequence obtained by performing the same operations on a plain sequence of elements.", "quantifier": "all operation sequences, all lists in one program, all element handles (live, removed, or belonging to another list)", "why_tests_cant": "Pointer surgery must be right for every position, adjacency pattern and history.", "anchors": ["dllist/dllist.go:insert", "dllist/dllist.go:remove", "dllist/dllist.go:move", "dllist/dllist.go:Swap", "dllist/dllist.go:Get", "dllist/dllist.go:Range", "dllist/dllist.go:Len", "dllist/dllist.go:Front", "dllist/dllist.go:Back", "dllist/dllist.go:PushFront", "dllist/dllist.go:PushBack", "dllist/dllist.go:InsertBefore", "dllist/dllist.go:InsertAfter", "dllist/dllist.go:MoveToFront", "dllist/dllist.go:MoveToBack", "dllist/dllist.go:MoveBefore", "dllist/dllist.go:MoveAfter", "dllist/dllist.go:Slice", "dllist/dllist.go:insertValue", "dllist/element.go:Next", "dllist/element.go:Prev", "dllist/element.go:Remove", "dllist/element.go:InsertAfter", "dllist/element.go:InsertBefore", "dllist/element.go:Range"]}
{"id": "C29", "title": "Operations on a Dllist never disturb other lists", "statement": "Calling a Dllist method with an element of another list, or with a removed element, changes nothing, and an operation on one list leaves the sequence of every other list unchanged.", "quantifier": "all pairs of lists, all elements, all histories", "why_tests_cant": "Frame property over all heaps.", "anchors": ["dllist/dllist.go:Remove", "dllist/dllist.go:InsertBefore", "dllist/dllist.go:MoveToFront", "dllist/dllist.go:Swap"]}
{"id": "C30", "title": "Dllist.Swap exchanges two elements and nothing else", "statement": "Swap(a,b) exchanges the positions of a and b and keeps all the other elements where they are, including when a and b are adjacent in either order or equal.", "quantifier": "all lists, all pairs of elements", "why_tests_cant": "Adjacency cases at all positions.", "anchors": ["dllist/dllist.go:Swap"]}
{"id": "C31", "title": "Dllist.Get(i) returns the i-th element", "statement": "Get(i) is the i-th element from the front for 0 <= i < Len() and nil otherwise, whichever end it walks from.", "quantifier": "all lists, all indices", "why_tests_cant": "Two walks over unbounded lengths.", "anchors": ["dllist/dllist.go:Get"]}
{"id": "C32", "title": "PushBackList and PushFrontList append a copy of another list", "statement": "PushBackList(other) appends, and PushFrontList(other) prepends, other's values in order, other is unchanged unless it is the receiver, and pushing a list to itself doubles it.", "quantifier": "all pairs of lists, including l == other", "why_tests_cant": "Iteration over a list while it is being extended.", "anchors": ["dllist/dllist.go:PushBackList", "dllist/dllist.go:PushFrontList"]}
{"id": "C33", "title": "PushFrontListTo and PushBackListTo insert another list after the mark", "statement": "PushFrontListTo(other, mark) and PushBackListTo(other, mark) insert all of other's values contiguously directly after mark, in order and in reverse order respectively.", "quantifier": "all lists, marks, including other == l", "why_tests_cant": "Iteration while inserting, aliasing of the two lists.", "anchors": ["dllist/dllist.go:PushBackListTo", "dllist/dllist.go:PushFrontListTo"]}
{"id": "C34", "title": "Dllist.Sort sorts", "statement": "Sort(less) leaves a sorted list that is a permutation of the previous values, and the sort is stable.", "quantifier": "all lists, all strict weak orders", "why_tests_cant": "Unbounded recursion over all inputs.", "anchors": ["dllist/dllist.go:Sort"]}
{"id": "C35", "title": "Handles that predate Clear or Sort are harmless", "statement": "After Clear (or Sort) of a list, passing an element that was in it before to Remove, InsertAfter, MoveToFront etc. changes nothing.", "quantifier": "all histories containing Clear/Sort and stale handles", "why_tests_cant": "Needs histories mixing Clear with old handles.", "anchors": ["dllist/dllist.go:Clear", "dllist/dllist.go:Remove", "dllist/dllist.go:Sort"]}
{"id": "C36", "title": "A zero Dllist works like New()", "statement": "Every method of a zero-value Dllist behaves as on an empty list created by New.", "quantifier": "all first operations on a zero list", "why_tests_cant": "Every entry point must initialise lazily.", "anchors": ["dllist/dllist.go:lazyInit", "dllist/dllist.go:New"]}
{"id": "C37", "title": "Lhashmap is a map", "statement": "After any sequence of Store, Load, Remove and Clear, Load(k) returns the last value stored for k since its removal or Clear, or not-ok, and Len is the number of such keys.", "quantifier": "all operation sequences", "why_tests_cant": "Two structures (hash map and list) must stay in step for every history.", "anchors": ["lhashmap/lhashmap.go:Load", "lhashmap/lhashmap.go:Store", "lhashmap/lhashmap.go:Remove", "lhashmap/lhashmap.go:Clear", "lhashmap/lhashmap.go:Len", "lhashmap/lhashmap.go:New", "lhashmap/lhashmap.go:WithCap"]}
{"id": "C38", "title": "Lhashmap.Range goes from most to least recently used", "statement": "Range visits every key exactly once, ordered by most recent successful Load or Store first.", "quantifier": "all operation sequences", "why_tests_cant": "Order is a function of the whole history.", "anchors": ["lhashmap/lhashmap.go:Range", "lhashmap/lhashmap.go:Load", "lhashmap/lhashmap.go:Store"]}
{"id": "C39", "title": "ring.New(n) builds a ring of n elements", "statement": "New(n) has Len n for n > 0 and is nil for n <= 0; Next and Prev are inverse and going Next n times returns to the start, and not earlier.", "quantifier": "all n", "why_tests_cant": "All sizes.", "anchors": ["ring/ring.go:New", "ring/ring.go:Len", "ring/ring.go:Next", "ring/ring.go:Prev", "ring/ring.go:init"]}
{"id": "C40", "title": "Ring.Move(n) is n steps and wraps around", "statement": "Move(n) equals n applications of Next (or -n of Prev) and Move(n) = Move(n mod Len).", "quantifier": "all rings, all integers n", "why_tests_cant": "All sizes and counts.", "anchors": ["ring/ring.go:Move"]}
{"id": "C41", "title": "Ring.Link splices two rings or splits one", "statement": "For r and s in different rings, Link joins them into one ring, with s's ring inserted after r, and returns r's old next; for r and s in the same ring it cuts out the elements strictly between r and s, leaving two rings, and returns the old r.Next().", "quantifier": "all rings, all elements", "why_tests_cant": "Pointer surgery for every relative position.", "anchors": ["ring/ring.go:Link"]}
{"id": "C42", "title": "Ring.Unlink(n) removes n mod Len elements", "statement": "Unlink(n) removes the n mod Len() elements after r and returns the removed subring (r's next if n mod Len is 0).", "quantifier": "all rings, all n for which n+1 is an int (for the largest int see C130)", "why_tests_cant": "All sizes and counts, wrap-around.", "anchors": ["ring/ring.go:Unlink"]}
{"id": "C43", "title": "Ring.Do visits each element once in order", "statement": "Do calls f exactly once for every element, forward, starting with r, and terminates.", "quantifier": "all rings", "why_tests_cant": "All sizes; termination.", "anchors": ["ring/ring.go:Do", "ring/ring.go:Len"]}
{"id": "C44", "title": "Set algebra is exact", "statement": "Union, Intersection, Difference, SymmetricDifference return exactly the mathematical results, do not modify their operands, and do not depend on map iteration order.", "quantifier": "all sets, all iteration orders", "why_tests_cant": "Iteration order is random and sets unbounded.", "anchors": ["set/set.go:Union", "set/set.go:Intersection", "set/set.go:Difference", "set/set.go:SymmetricDifference", "set/set.go:New", "set/set.go:Push", "set/set.go:Slice", "set/set.go:CopyFrom", "set/set.go:Range", "set/set.go:IsEmpty", "set/set.go:ContainAndRemove"]}
{"id": "C45", "title": "IsSubSet decides inclusion", "statement": "s.IsSubSet(t) is true exactly if every element of s is in t.", "quantifier": "all sets, all iteration orders", "why_tests_cant": "Early exit under any iteration order.", "anchors": ["set/set.go:IsSubSet"]}
{"id": "C46", "title": "IsSupperSet decides reverse inclusion", "statement": "s.IsSupperSet(t) is true exactly if every element of t is in s.", "quantifier": "all sets", "why_tests_cant": "All sets.", "anchors": ["set/set.go:IsSupperSet"]}
{"id": "C47", "title": "Set.Insert and Remove report membership changes truthfully", "statement": "After any sequence of Push, Insert, Remove, ContainAndRemove, Clear, CopyFrom: Contain answers membership, Insert returns true iff the value was absent, Remove iff it was present, Len counts the members.", "quantifier": "all operation sequences", "why_tests_cant": "All histories.", "anchors": ["set/set.go:Insert", "set/set.go:Remove", "set/set.go:Contain", "set/set.go:Len"]}
{"id": "C48", "title": "Set.Equal is set equality", "statement": "s.Equal(t) is true iff s and t have the same members; Clone is Equal to the original and independent of it.", "quantifier": "all sets", "why_tests_cant": "All sets.", "anchors": ["set/set.go:Equal", "set/set.go:Clone"]}
{"id": "C49", "title": "GenMap operations follow map semantics", "statement": "Load, Store, Delete, LoadAndDelete, LoadAndStore, LoadOrStoreFunc, CopyFrom, CopyTo, Clone, DeleteFunc, Clear behave as on a mathematical finite map after every sequence of operations; Keys and Values list each binding once.", "quantifier": "all operation sequences and iteration orders", "why_tests_cant": "All histories.", "anchors": ["genmap/genmap.go:Load", "genmap/genmap.go:Store", "genmap/genmap.go:LoadAndDelete", "genmap/genmap.go:LoadAndStore", "genmap/genmap.go:CopyFrom", "genmap/genmap.go:DeleteFunc", "genmap/genmap.go:New", "genmap/genmap.go:From", "genmap/genmap.go:Map", "genmap/genmap.go:Len", "genmap/genmap.go:Delete", "genmap/genmap.go:Clone", "genmap/genmap.go:Keys", "genmap/genmap.go:Values", "genmap/genmap.go:Range", "genmap/genmap.go:LoadOrStoreFunc", "genmap/genmap.go:Clear", "genmap/genmap.go:CopyTo", "genmap/genmap.go:CopyToRaw", "genmap/genmap.go:CopyFromRaw"]}
{"id": "C50", "title": "GenMap.LoadOrStore returns the value in the map", "statement": "LoadOrStore(k,v) returns the existing value and true if k is present, else stores v and returns v and false.", "quantifier": "all maps, keys, values", "why_tests_cant": "All maps and values.", "anchors": ["genmap/genmap.go:LoadOrStore"]}
{"id": "C51", "title": "GenMap.EqualFunc compares contents", "statement": "EqualFunc(m2, eq) is true iff both maps have the same keys and eq holds for the values at every key.", "quantifier": "all maps, all eq functions, all iteration orders", "why_tests_cant": "Early exit under all orders.", "anchors": ["genmap/genmap.go:EqualFunc"]}
{"id": "C52", "title": "Vec behaves as a sequence", "statement": "After any sequence of Push, Pop, Remove, Set, Swap, Insert, Delete, Replace, Cut, SplitOff, Reverse, Clear, Grow, Clip, the observable contents (Get, Len, Slice, Range, First, Last) are those of the abstract sequence, out-of-range indices being rejected without effect where documented.", "quantifier": "all operation sequences, all capacities chosen by the allocator", "why_tests_cant": "Aliasing and capacity cases at every index.", "anchors": ["vec/vec.go:Push", "vec/vec.go:Pop", "vec/vec.go:Remove", "vec/vec.go:Insert", "vec/vec.go:Replace", "vec/vec.go:Delete", "vec/vec.go:Cut", "vec/vec.go:SplitOff", "vec/vec.go:New", "vec/vec.go:WithCmpLess", "vec/vec.go:WithCmpEqual", "vec/vec.go:Len", "vec/vec.go:Get", "vec/vec.go:Set", "vec/vec.go:Cap", "vec/vec.go:IsEmpty", "vec/vec.go:Clear", "vec/vec.go:First", "vec/vec.go:Last", "vec/vec.go:SliceCut", "vec/vec.go:Slice", "vec/vec.go:Swap", "vec/vec.go:ConpareAndRemove", "vec/vec.go:Less", "vec/vec.go:Equal", "vec/vec.go:CmpLess", "vec/vec.go:CmpEqual", "vec/vec.go:Grow", "vec/vec.go:Clip", "vec/vec.go:Reverse"]}
{"id": "C53", "title": "Vec.Cut returns the removed elements", "statement": "Cut(i,j) removes the elements in [i,j) and returns them.", "quantifier": "all vectors, all i <= j", "why_tests_cant": "The returned slice aliases the buffer being shifted.", "anchors": ["vec/vec.go:Cut"]}
{"id": "C54", "title": "Vec.Clone and SplitOff are independent copies", "statement": "After Clone or SplitOff, no operation on one vector changes the contents of the other.", "quantifier": "all contents, all later operation sequences", "why_tests_cant": "Aliasing through shared backing arrays depends on capacities.", "anchors": ["vec/vec.go:Clone", "vec/vec.go:SplitOff", "vec/vec.go:CloneToSlice"]}
{"id": "C55", "title": "Vec.BinarySearch finds the insertion point", "statement": "On a vector sorted by its order, BinarySearch(t) returns the first index whose element is not less than t, and true iff the element there equals t.", "quantifier": "all sorted vectors, all targets", "why_tests_cant": "All sizes and positions.", "anchors": ["vec/vec.go:BinarySearch"]}
{"id": "C56", "title": "Vec.Search, SearchAll and Contains find exactly the matches", "statement": "Search returns the first matching index or -1; SearchAll returns exactly the matching indices in order; Contains is true iff there is one.", "quantifier": "all vectors, all predicates", "why_tests_cant": "All sizes and predicates.", "anchors": ["vec/vec.go:Search", "vec/vec.go:SearchAll", "vec/vec.go:Contains", "vec/vec.go:SearchFunc", "vec/vec.go:SearchAllFunc", "vec/vec.go:ContainsFunc"]}
{"id": "C57", "title": "Vec.Sort sorts and SortStable is stable", "statement": "After Sort or SortStable the vector is a sorted permutation of its former contents, IsSorted returns true; SortStable keeps equal elements in their order.", "quantifier": "all vectors, all strict weak orders with a matching equality", "why_tests_cant": "All inputs.", "anchors": ["vec/vec.go:Sort", "vec/vec.go:SortStable", "vec/vec.go:IsSorted", "vec/vec.go:SortStableFunc", "vec/vec.go:IsSortedFunc"]}
{"id": "C58", "title": "Vec.Max and Min return extrema", "statement": "On a nonempty vector Min (Max) returns an element of the vector such that no element is less (greater); they panic on an empty one.", "quantifier": "all nonempty vectors, all total preorders", "why_tests_cant": "All inputs.", "anchors": ["vec/vec.go:Max", "vec/vec.go:Min", "vec/vec.go:MaxFunc", "vec/vec.go:MinFunc"]}
{"id": "C59", "title": "Vec.Compact on a sorted vector removes duplicates", "statement": "Compact keeps the first of each run of adjacent equal elements; on a sorted vector the result has each element once.", "quantifier": "all vectors", "why_tests_cant": "All runs.", "anchors": ["vec/vec.go:Compact", "vec/vec.go:CompactFunc"]}
{"id": "C60", "title": "Vec.Compare is lexicographic, EqualVec pointwise", "statement": "Compare is the lexicographic comparison by the vector's order; EqualVec/EqualSlice are true iff the lengths agree and the elements are pairwise equal.", "quantifier": "all pairs of vectors", "why_tests_cant": "All inputs.", "anchors": ["vec/vec.go:Compare", "vec/vec.go:EqualVec", "vec/vec.go:EqualSlice", "vec/vec.go:CompareFunc", "vec/vec.go:EqualVecFunc", "vec/vec.go:EqualSliceFunc"]}
{"id": "C61", "title": "GetNode returns a member of the ring", "statement": "If the ring has at least one node and replicas > 0, GetNode(key) returns a node that was added and not removed.", "quantifier": "all node sets, keys and histories", "why_tests_cant": "Fails only for keys whose hash equals that of a virtual node.", "anchors": ["hashring/hashring.go:GetNode"]}
{"id": "C62", "title": "GetNode maps a key to its clockwise successor", "statement": "GetNode(key) is the node owning the first virtual point with hash >= hash(key), wrapping to the smallest point.", "quantifier": "all node sets, replicas, keys (absent hash collisions)", "why_tests_cant": "Binary search and wrap-around over all hash configurations.", "anchors": ["hashring/hashring.go:GetNode", "hashring/hashring.go:AddNodes"]}
{"id": "C63", "title": "Hash ring placement is independent of history", "statement": "GetNode depends only on the current set of nodes and the replica count, not on the order of AddNodes/RemoveNodes/ResetNodes calls or map iteration order.", "quantifier": "all histories leading to the same node set (absent hash collisions)", "why_tests_cant": "All histories.", "anchors": ["hashring/hashring.go:AddNodes", "hashring/hashring.go:RemoveNodes", "hashring/hashring.go:ResetNodes"]}
{"id": "C64", "title": "Adding or removing a node only moves the keys of that node", "statement": "After AddNodes(n) every key maps to the node it had before or to n; after RemoveNodes(n) every key not previously mapped to n keeps its node.", "quantifier": "all rings, all keys (absent hash collisions)", "why_tests_cant": "Consistency over all keys.", "anchors": ["hashring/hashring.go:AddNodes", "hashring/hashring.go:RemoveNodes", "hashring/hashring.go:GetNode"]}
{"id": "C65", "title": "Hash ring membership follows the calls", "statement": "After any sequence of AddNodes, RemoveNodes, ResetNodes the ring holds exactly replicas points for each current member and none for others; adding a member again or removing a non-member changes nothing.", "quantifier": "all histories", "why_tests_cant": "All histories.", "anchors": ["hashring/hashring.go:AddNodes", "hashring/hashring.go:RemoveNodes", "hashring/hashring.go:ResetNodes", "hashring/hashring.go:New", "hashring/hashring.go:hashKey"]}
{"id": "C66", "title": "BuildTree and TraversalBFS are inverse", "statement": "TraversalBFS of BuildTree(vals) lists nodes whose values are vals in order; the tree is complete (all layers full but the last, filled from the left).", "quantifier": "all slices", "why_tests_cant": "All sizes.", "anchors": ["tree/tree.go:BuildTree", "tree/tree.go:TraversalBFS"]}
{"id": "C67", "title": "TraversalDFS is preorder, TraversalBFS is level order", "statement": "TraversalDFS lists the nodes of the subtree in preorder and TraversalBFS by nondecreasing depth and left to right; both visit each node exactly once.", "quantifier": "all finite trees", "why_tests_cant": "All shapes.", "anchors": ["tree/tree.go:TraversalDFS", "tree/tree.go:TraversalBFS", "tree/tree.go:traversalBFS"]}
{"id": "C68", "title": "SetLeft and SetRight keep parent and child links consistent", "statement": "After any sequence of SetLeft/SetRight calls, x is a child of y iff y is x's Parent.", "quantifier": "all sequences of link operations", "why_tests_cant": "Needs histories that move a node between parents.", "anchors": ["tree/tree.go:SetLeft", "tree/tree.go:SetRight"]}
{"id": "C69", "title": "Layer and MaxDepth measure depth", "statement": "Layer is the distance to the root and MaxDepth the largest distance to a descendant.", "quantifier": "all finite trees", "why_tests_cant": "All shapes.", "anchors": ["tree/tree.go:Layer", "tree/tree.go:MaxDepth", "utils/utils.go:Max"]}
{"id": "C70", "title": "IsAncestorRelation decides ancestry", "statement": "n.IsAncestorRelation(m) is true iff n is m or a proper ancestor of m.", "quantifier": "all trees, all pairs", "why_tests_cant": "All shapes.", "anchors": ["tree/tree.go:IsAncestorRelation"]}
{"id": "C71", "title": "IsDescendantRelation decides descent", "statement": "n.IsDescendantRelation(m) is true iff n is a descendant of m (n lies in m's subtree).", "quantifier": "all trees, all pairs", "why_tests_cant": "All shapes; the code negates an ancestry test.", "anchors": ["tree/tree.go:IsDescendantRelation"]}
{"id": "C72", "title": "Sibling, Uncle and Grandparent follow the family relations", "statement": "In a consistent tree Sibling returns the other child of the parent, Uncle the parent's sibling, Grandparent the parent's parent, each nil when there is none, and the Is...Relation predicates agree.", "quantifier": "all trees, all nodes", "why_tests_cant": "All shapes.", "anchors": ["tree/tree.go:Sibling", "tree/tree.go:Uncle", "tree/tree.go:Grandparent", "tree/tree.go:NewNode", "tree/tree.go:IsLeaf", "tree/tree.go:IsRoot", "tree/tree.go:IsLeft", "tree/tree.go:IsRight", "tree/tree.go:IsLeftRelation", "tree/tree.go:IsRightRelation", "tree/tree.go:IsChildRelation", "tree/tree.go:IsUncleRelation", "tree/tree.go:IsSiblingRelation", "tree/tree.go:IsGrandparentRelation", "tree/tree.go:HasLeft", "tree/tree.go:HasRight", "tree/tree.go:HasChild", "tree/tree.go:HasBothChild", "tree/tree.go:HasParent", "tree/tree.go:HasSibling", "tree/tree.go:HasUncle", "tree/tree.go:HasGrandparent"]}
{"id": "C73", "title": "DrawTree prints one line per layer", "statement": "The non-empty lines of DrawTree are the layers of the tree from the root down, each from left to right, and every value is printed exactly once in level order.", "quantifier": "all finite trees", "why_tests_cant": "The newline test uses 2*layer instead of 2^layer, right for the first three layers only.", "anchors": ["tree/tree.go:DrawTree"]}
{"id": "C74", "title": "A cloned or split-off Vec has its own comparison functions", "statement": "Clone and SplitOff give the new vector the comparison functions the original has at that time; setting other ones on the original later does not affect the new vector.", "quantifier": "all vectors, all histories", "why_tests_cant": "The new vector stores method values bound to the original; only a later SetCmp call on the original shows it.", "anchors": ["vec/vec.go:Clone", "vec/vec.go:SplitOff", "vec/vec.go:SetCmpLess", "vec/vec.go:SetCmpEqual"]}
{"id": "C75", "title": "RefreshData calls end and never deadlock", "statement": "Every call ends after a bounded number of its own steps, apart from waiting for the lock and running the user's functions; a call that cannot go on waits for a lock whose holder can; the lock is free again when all calls have ended, also by panic.", "quantifier": "all interleavings, all outcomes of the user's functions", "why_tests_cant": "Absence of deadlocks is a statement about every reachable state.", "anchors": ["refreshcache/refreshcache.go:RefreshData.Get", "refreshcache/refreshcache.go:RefreshData.Refresh", "refreshcache/refreshcache.go:RefreshData.Clear", "refreshcache/refreshcache.go:RefreshData.Raw", "refreshcache0/refreshcache0.go:RefreshData.Get", "refreshcache1/refreshcache1.go:RefreshData.Get", "refreshcache0/refreshcache0.go:RefreshData.Refresh", "refreshcache1/refreshcache1.go:RefreshData.Refresh", "refreshcache0/refreshcache0.go:RefreshData.Clear", "refreshcache1/refreshcache1.go:RefreshData.Clear", "refreshcache0/refreshcache0.go:RefreshData.Raw", "refreshcache1/refreshcache1.go:RefreshData.Raw"]}
{"id": "C76", "title": "Get and Refresh call the right function with the right arguments", "statement": "A refresh function is called only by Get and Refresh; it is the function passed to the call (for a RefreshCache, one that was its current function at some moment of the call) with the arguments of the call.", "quantifier": "all interleavings with SetRefreshFunc", "why_tests_cant": "Needs schedules where SetRefreshFunc runs during a call.", "anchors": ["refreshcache/refreshcache.go:RefreshCache.Get", "refreshcache/refreshcache.go:RefreshCache.Refresh", "refreshcache/refreshcache.go:RefreshCache.SetRefreshFunc", "refreshcache0/refreshcache0.go:RefreshCache.Get", "refreshcache1/refreshcache1.go:RefreshCache.Get", "refreshcache0/refreshcache0.go:RefreshCache.Refresh", "refreshcache1/refreshcache1.go:RefreshCache.Refresh", "refreshcache0/refreshcache0.go:RefreshCache.SetRefreshFunc", "refreshcache1/refreshcache1.go:RefreshCache.SetRefreshFunc"]}
{"id": "C77", "title": "Clear clears before it calls the clear function", "statement": "A clear function is called only by Clear, after the cached time is reset, with the function and arguments of the call and, under OldValKey, a value at least as new as that of every refresh that returned before the call.", "quantifier": "all interleavings", "why_tests_cant": "The order of the two effects only shows in concurrent schedules.", "anchors": ["refreshcache/refreshcache.go:RefreshData.Clear", "refreshcache/refreshcache.go:RefreshCache.Clear", "refreshcache/refreshcache.go:RefreshCache.SetClearFunc", "refreshcache0/refreshcache0.go:RefreshData.Clear", "refreshcache1/refreshcache1.go:RefreshData.Clear", "refreshcache0/refreshcache0.go:RefreshCache.Clear", "refreshcache1/refreshcache1.go:RefreshCache.Clear", "refreshcache0/refreshcache0.go:RefreshCache.SetClearFunc", "refreshcache1/refreshcache1.go:RefreshCache.SetClearFunc"]}
{"id": "C78", "title": "Refresh always refreshes", "statement": "Refresh runs its refresh function exactly once, whatever the cache holds, and returns the outcome of that run.", "quantifier": "all interleavings, all outcomes", "why_tests_cant": "A stored value or error, or another refresh that ends while the call waits, must not be served instead.", "anchors": ["refreshcache/refreshcache.go:RefreshData.Refresh", "refreshcache0/refreshcache0.go:RefreshData.Refresh", "refreshcache1/refreshcache1.go:RefreshData.Refresh"]}
{"id": "C79", "title": "Last and LastErr report the newest refresh", "statement": "With no refresh and no Clear since: after a success stamped t, Last returns t and LastErr 0; after an error stamped t, Last returns 0 and LastErr t.", "quantifier": "all histories and interleavings of other calls", "why_tests_cant": "Quantifies over all histories before the refresh.", "anchors": ["refreshcache/refreshcache.go:RefreshData.Last", "refreshcache/refreshcache.go:RefreshData.LastErr", "refreshcache/refreshcache.go:RefreshData.Refresh", "refreshcache/refreshcache.go:RefreshData.LastTime", "refreshcache/refreshcache.go:RefreshData.LastErrTime", "refreshcache0/refreshcache0.go:RefreshData.Last", "refreshcache1/refreshcache1.go:RefreshData.Last", "refreshcache0/refreshcache0.go:RefreshData.LastErr", "refreshcache1/refreshcache1.go:RefreshData.LastErr", "refreshcache0/refreshcache0.go:RefreshData.Refresh", "refreshcache1/refreshcache1.go:RefreshData.Refresh", "refreshcache0/refreshcache0.go:RefreshData.LastTime", "refreshcache1/refreshcache1.go:RefreshData.LastTime", "refreshcache0/refreshcache0.go:RefreshData.LastErrTime", "refreshcache1/refreshcache1.go:RefreshData.LastErrTime"]}
{"id": "C80", "title": "Raw reads the cache without refreshing", "statement": "Raw starts no refresh. With no refresh and no Clear since the newest one: after a success it returns its value, with a nil error while fresh and with the most recent error (if any) once stale; after an error it returns that error, with the zero value during errAge and with the last good value after that (clocks not below maxAge and errAge).", "quantifier": "all histories, all clocks as stated", "why_tests_cant": "Quantifies over all histories and ages.", "anchors": ["refreshcache/refreshcache.go:RefreshData.Raw", "refreshcache0/refreshcache0.go:RefreshData.Raw", "refreshcache1/refreshcache1.go:RefreshData.Raw"]}
{"id": "C81", "title": "Get serves only recent errors", "statement": "An error that Get serves without a refresh of its own comes with the zero value and belongs to a failed refresh, the same as or newer than one stamped less than errAge before a clock reading of the call (clocks not below errAge).", "quantifier": "all interleavings", "why_tests_cant": "The check and the read of the error are separate steps between which a refresh may end.", "anchors": ["refreshcache/refreshcache.go:RefreshData.Get", "refreshcache0/refreshcache0.go:RefreshData.Get", "refreshcache1/refreshcache1.go:RefreshData.Get"]}
{"id": "C82", "title": "Entry expiry arithmetic", "statement": "An entry made at clock t for a duration d expires when the millisecond of t+d is over; AddExpiration moves that by the whole milliseconds of its duration, SetExpiration sets it; IsExpired compares it with the clock read during the call.", "quantifier": "all clocks, durations (negative ones too), histories and interleavings", "why_tests_cant": "Rounding and concurrent changes of the expiration are easy to miss.", "anchors": ["synccache/item.go:NewEntry", "synccache/item.go:IsExpired", "synccache/item.go:AddExpiration", "synccache/item.go:SetExpiration", "synccache/item.go:Value"]}
{"id": "C83", "title": "A round of the trimmer removes everything expired", "statement": "Of the entries in a registered cache when a round of the background trimmer begins, those still there when it ends had, when the round read it, an expiration not before the clock of the round.", "quantifier": "all contents, clocks, iteration orders and interleavings", "why_tests_cant": "The trimmer runs every five seconds in the background.", "anchors": ["synccache/synccache.go:trim", "synccache/synccache.go:runTrim"]}
{"id": "C84", "title": "SyncCache.Range passes every entry once", "statement": "Range passes no key twice, and unless its function returns false, every entry that is in the cache during the whole call.", "quantifier": "all contents, iteration orders and interleavings", "why_tests_cant": "Quantifies over all iteration orders and interleavings.", "anchors": ["synccache/synccache.go:Range"]}
{"id": "C85", "title": "SyncCache.Load finds what was stored", "statement": "Load of a key for which an entry was stored, and which no other call has changed since, returns that entry, or nothing if it found that entry expired. In general it returns nothing only if at some instant of the call there was no entry for the key or it found one expired, which is then no longer in the cache.", "quantifier": "all histories, clocks and interleavings", "why_tests_cant": "Quantifies over all histories and interleavings.", "anchors": ["synccache/synccache.go:Store", "synccache/synccache.go:Load"]}
{"id": "C86", "title": "A closed cache is not trimmed", "statement": "A round of the trimmer removes nothing from a cache that is not started during the round.", "quantifier": "all interleavings", "why_tests_cant": "The trimmer runs in the background.", "anchors": ["synccache/synccache.go:Start", "synccache/synccache.go:Close", "synccache/synccache.go:runTrim"]}
{"id": "C87", "title": "SyncCache does not panic of itself", "statement": "A call panics only if the deleted callback or the function given to Range panicked in it, or the two values of CompareValueAndDelete cannot be compared, or it is a method of a nil entry.", "quantifier": "all histories and interleavings", "why_tests_cant": "Quantifies over all interleavings.", "anchors": ["synccache/synccache.go:CompareValueAndDelete", "synccache/synccache.go:Range", "synccache/synccache.go:CompareAndDelete"]}
{"id": "C88", "title": "SyncCache.LoadOrStore retries only when others store the key", "statement": "LoadOrStore tries at most twice plus once for each time another call has stored the key since it began.", "quantifier": "all clocks and interleavings", "why_tests_cant": "A loop without a bound could spin for ever.", "anchors": ["synccache/synccache.go:LoadOrStore"]}
{"id": "C89", "title": "Calls of SyncCache do not wait and come to an end", "statement": "No call waits for another one, and a call whose goroutine runs alone comes to an end (the callbacks and the functions given to Range returning), however many keys there are.", "quantifier": "all states, clocks and schedules", "why_tests_cant": "Termination cannot be tested.", "anchors": ["synccache/synccache.go:LoadOrStore", "synccache/synccache.go:Range", "synccache/synccache.go:Clear", "synccache/synccache.go:trim"]}
{"id": "C90", "title": "SyncCache hands out a removed entry at most once", "statement": "LoadAndDelete returns an entry only if this very call removed it and found it not expired, and no two calls return the same entry; CompareAndDelete returns true exactly if it removed the given entry; when Delete returns there was no entry for the key at some instant of the call.", "quantifier": "all histories and interleavings", "why_tests_cant": "Races between removing calls.", "anchors": ["synccache/synccache.go:LoadAndDelete", "synccache/synccache.go:CompareAndDelete", "synccache/synccache.go:Delete"]}
{"id": "C91", "title": "Entries of SyncCache never come back", "statement": "An entry is put into the cache at most once and under one key; one that has left it never comes back.", "quantifier": "all histories and interleavings", "why_tests_cant": "Quantifies over all interleavings.", "anchors": ["synccache/synccache.go:Store", "synccache/synccache.go:LoadOrStore", "synccache/synccache.go:CompareAndDelete"]}
{"id": "C92", "title": "Calls of SyncCache stop at a panic or a false", "statement": "If the deleted callback or the function given to Range panics, the call does nothing more and panics; if the function given to Range returns false, the call does nothing more and returns.", "quantifier": "all histories, clocks and interleavings", "why_tests_cant": "Quantifies over all interleavings and over what the functions do.", "anchors": ["synccache/synccache.go:Range", "synccache/synccache.go:Clear", "synccache/synccache.go:CompareAndDelete"]}
{"id": "C93", "title": "SyncCache over the steps of RWMap does what it does over an atomic map", "statement": "For every execution of the cache in which the operations of the underlying RWMap run step by step, interleaved with everything else, there is an execution over a map whose operations are atomic and whose Range looks up a snapshot of the keys, with the same calls, results, readings of the clock, entries, expirations and functions called, in the same order.", "quantifier": "all programs, interleavings of the steps of both packages, clocks, callbacks and iteration orders", "why_tests_cant": "Composition of two concurrent packages; no test reaches all interleavings of their steps.", "anchors": ["synccache/synccache.go:Load", "synccache/synccache.go:Range", "synccache/synccache.go:LoadOrStore", "rwmap/rwmap.go:Range", "rwmap/rwmap.go:CompareAndDelete"]}
{"id": "C94", "title": "What the user of SyncCache sees, over the steps of RWMap", "statement": "Load and LoadAndDelete return, and Range passes to its function, only entries that were stored for that key and that the call found not expired; never one for whose key a Store or Delete began after the call that stored it had returned and ended before the reading call began; no two calls of LoadAndDelete return the same entry; no entry gets two callbacks; a call panics only for the reasons of C87.", "quantifier": "all programs, interleavings of the steps of both packages, clocks, callbacks and iteration orders", "why_tests_cant": "End-to-end over all interleavings of the steps of both packages.", "anchors": ["synccache/synccache.go:Load", "synccache/synccache.go:LoadAndDelete", "synccache/synccache.go:Range", "synccache/synccache.go:Store", "synccache/synccache.go:Delete"]}
{"id": "C95", "title": "Results of SyncCache are of their kind", "statement": "Unless it panics, Load returns (nil, false) or a non-nil entry with true, and so does LoadAndDelete; LoadOrStore always returns a non-nil entry; every other call returns a result of its kind.", "quantifier": "all histories, clocks, callbacks and interleavings, also over the steps of RWMap", "why_tests_cant": "That no branch returns a nil entry with true, or an entry with false, quantifies over all interleavings.", "anchors": ["synccache/synccache.go:Load", "synccache/synccache.go:LoadAndDelete", "synccache/synccache.go:LoadOrStore"]}
{"id": "C96", "title": "What Get returns comes from its own refresh or from the cache", "statement": "A Get that calls the refresh function calls it once and returns exactly its outcome (value and error, or the panic); one that does not returns a nil error or the zero value.", "quantifier": "all interleavings and outcomes", "why_tests_cant": "A result mixed from two refreshes shows only in some schedules.", "anchors": ["refreshcache/refreshcache.go:RefreshData.Get", "refreshcache0/refreshcache0.go:RefreshData.Get", "refreshcache1/refreshcache1.go:RefreshData.Get"]}
{"id": "C97", "title": "What Clear and the setters return", "statement": "Clear takes effect, and then either there is no clear function, none is called and it returns nil; or it calls one once, after taking effect, and returns its error or panics with it. When SetRefreshFunc or SetClearFunc returns, its function was the current one at a moment of the call.", "quantifier": "all interleavings and outcomes", "why_tests_cant": "Quantifies over setters running during Clear.", "anchors": ["refreshcache/refreshcache.go:RefreshData.Clear", "refreshcache/refreshcache.go:RefreshCache.Clear", "refreshcache/refreshcache.go:RefreshCache.SetRefreshFunc", "refreshcache/refreshcache.go:RefreshCache.SetClearFunc", "refreshcache0/refreshcache0.go:RefreshData.Clear", "refreshcache1/refreshcache1.go:RefreshData.Clear", "refreshcache0/refreshcache0.go:RefreshCache.Clear", "refreshcache1/refreshcache1.go:RefreshCache.Clear", "refreshcache0/refreshcache0.go:RefreshCache.SetRefreshFunc", "refreshcache1/refreshcache1.go:RefreshCache.SetRefreshFunc", "refreshcache0/refreshcache0.go:RefreshCache.SetClearFunc", "refreshcache1/refreshcache1.go:RefreshCache.SetClearFunc"]}
{"id": "C98", "title": "Who waits for the lock of RefreshData", "statement": "Clear, Raw, Last, LastErr and the setters never wait for the lock. A Get that finds a fresh value, or an error younger than errAge, does not wait either, even while a refresh function is running.", "quantifier": "all interleavings and reachable states", "why_tests_cant": "A reader blocked behind a slow refresh shows only under certain schedules.", "anchors": ["refreshcache/refreshcache.go:RefreshData.Get", "refreshcache/refreshcache.go:RefreshData.Clear", "refreshcache/refreshcache.go:RefreshData.Raw", "refreshcache/refreshcache.go:RefreshData.Last", "refreshcache/refreshcache.go:RefreshData.LastErr", "refreshcache0/refreshcache0.go:RefreshData.Get", "refreshcache1/refreshcache1.go:RefreshData.Get", "refreshcache0/refreshcache0.go:RefreshData.Clear", "refreshcache1/refreshcache1.go:RefreshData.Clear", "refreshcache0/refreshcache0.go:RefreshData.Raw", "refreshcache1/refreshcache1.go:RefreshData.Raw", "refreshcache0/refreshcache0.go:RefreshData.Last", "refreshcache1/refreshcache1.go:RefreshData.Last", "refreshcache0/refreshcache0.go:RefreshData.LastErr", "refreshcache1/refreshcache1.go:RefreshData.LastErr"]}
{"id": "C99", "title": "Concurrent Gets share one failed refresh", "statement": "If any number of Gets find the cache stale while a refresh is running, that refresh fails with error e, and e is younger than errAge when they check it under the lock (clocks not below maxAge), they all return the zero value and e, and none of them calls the refresh function.", "quantifier": "all numbers of callers and schedules", "why_tests_cant": "The stampede after a failure is a property of all schedules of the double check.", "anchors": ["refreshcache/refreshcache.go:RefreshData.Get", "refreshcache0/refreshcache0.go:RefreshData.Get", "refreshcache1/refreshcache1.go:RefreshData.Get"]}
{"id": "C100", "title": "RefreshData has no data races", "statement": "No two calls on a RefreshData access one of its fields at the same time with at least one of the accesses writing and at least one of them not atomic.", "quantifier": "all interleavings and reachable states", "why_tests_cant": "The race detector reports only races in schedules that happen to run.", "anchors": ["refreshcache/refreshcache.go:RefreshData.Get", "refreshcache/refreshcache.go:RefreshData.Clear", "refreshcache/refreshcache.go:RefreshData.Refresh", "refreshcache0/refreshcache0.go:RefreshData.Get", "refreshcache1/refreshcache1.go:RefreshData.Get", "refreshcache0/refreshcache0.go:RefreshData.Clear", "refreshcache1/refreshcache1.go:RefreshData.Clear", "refreshcache0/refreshcache0.go:RefreshData.Refresh", "refreshcache1/refreshcache1.go:RefreshData.Refresh"]}
{"id": "C101", "title": "A key that Range has seen is accessed without the lock", "statement": "A call of Load, Swap, LoadOrStore, LoadAndDelete, CompareAndSwap or CompareAndDelete on a key that some Range has already called its function with neither takes the mutex nor waits for it, whatever other calls are doing with the mutex, if since the invocation of the Range no Clear and no call that removes that key has been in progress.", "quantifier": "all programs and interleavings", "why_tests_cant": "That no schedule makes a reader wait for a writer is a statement about all schedules.", "anchors": ["rwmap/rwmap.go:Range", "rwmap/rwmap.go:Load", "rwmap/rwmap.go:Swap"]}
{"id": "C102", "title": "A settled RWMap is not locked", "statement": "Once a Range has returned, if since its invocation the map has not been cleared and values have been stored only for keys the Range has called its function with, no call invoked later takes the mutex or waits for it. The same holds once a Clear has returned, if since its invocation no Swap or LoadOrStore has been in progress.", "quantifier": "all programs and interleavings", "why_tests_cant": "Absence of locking over all schedules.", "anchors": ["rwmap/rwmap.go:Range", "rwmap/rwmap.go:Clear", "rwmap/rwmap.go:missLocked"]}
{"id": "C103", "title": "Lookups of RWMap lock only so often", "statement": "After any history that has come to rest, calls of Load, LoadAndDelete, CompareAndDelete, Range and Len made one after another lock the mutex in total at most max(1, n) times, where n is the number of keys ever stored.", "quantifier": "all histories, all sequences of such calls of any length", "why_tests_cant": "A bound over sequences of unbounded length.", "anchors": ["rwmap/rwmap.go:missLocked", "rwmap/rwmap.go:Load", "rwmap/rwmap.go:LoadAndDelete"]}
{"id": "C104", "title": "Copying in RWMap is paid for by locking", "statement": "The number of entries dirtyLocked goes over, in all calls together, is at most the number of times the mutex was locked plus the number of entries Ranges have taken over under it; without Range, at most the number of times the mutex was locked.", "quantifier": "all programs and interleavings", "why_tests_cant": "Amortised cost over all executions.", "anchors": ["rwmap/rwmap.go:dirtyLocked", "rwmap/rwmap.go:missLocked", "rwmap/rwmap.go:Swap"]}
{"id": "C105", "title": "Len is off by the calls in progress only", "statement": "If no Clear overlaps a call that changes the map, and no Clear overlaps the Len call, Len returns the number of keys the map has at some instant of the call, less the insertions and plus the removals that are in progress at that instant and have taken effect but have not been counted.", "quantifier": "all programs and interleavings, all Len calls", "why_tests_cant": "The counter is behind the map only for an instant between two steps; a test would have to stop calls there.", "anchors": ["rwmap/rwmap.go:Len", "rwmap/rwmap.go:Swap", "rwmap/rwmap.go:LoadAndDelete"]}
{"id": "C106", "title": "Len is never negative", "statement": "A call of Len never returns a negative number.", "quantifier": "all programs and interleavings", "why_tests_cant": "Needs a removal to be counted before the insertion of the key it removed.", "anchors": ["rwmap/rwmap.go:Len", "rwmap/rwmap.go:Swap", "rwmap/rwmap.go:LoadAndDelete"]}
{"id": "C107", "title": "A map RWMap has published is never written again", "statement": "A Go map that has been reachable through read (and may be read, or iterated over by Range, without the mutex) is never written to afterwards; a map that is written to is only accessed by the holder of the mutex; what Range iterates over does not change while it does. So the runtime never stops the program with a concurrent map access.", "quantifier": "all programs and interleavings, all maps", "why_tests_cant": "The runtime detects concurrent map accesses only if they happen to coincide.", "anchors": ["rwmap/rwmap.go:missLocked", "rwmap/rwmap.go:dirtyLocked", "rwmap/rwmap.go:Range", "rwmap/rwmap.go:Clear"]}
{"id": "C108", "title": "RWMap has no data races on its fields", "statement": "No two calls on an RWMap access one of its fields at the same time with at least one of the accesses writing and at least one of them not atomic.", "quantifier": "all interleavings and reachable states", "why_tests_cant": "The race detector reports only races in schedules that happen to run.", "anchors": ["rwmap/rwmap.go:Clear", "rwmap/rwmap.go:Len", "rwmap/rwmap.go:Swap"]}
{"id": "C109", "title": "Heap operations call Less and Swap logarithmically often", "statement": "For every implementation of heap.Interface: Init of n elements calls Less at most 2n and Swap at most n times; Push calls either at most log2 of the new length times; Pop and Remove call Less at most 2 log2 n and Swap at most 1 + log2 n times, Fix at most 2 log2 n and log2 n times.", "quantifier": "all implementations of heap.Interface, all sizes, all results of Less", "why_tests_cant": "The bounds are reached only by particular contents of particular sizes.", "anchors": ["heap/heap.go:Init", "heap/heap.go:up", "heap/heap.go:down"]}
{"id": "C110", "title": "Items of an indexed priority queue know their position", "statement": "If Swap, Push and Pop of the implementation keep each item's position in the item (as in the package's example), then after any sequence of Init, Push, Pop, Remove and update each item in the queue has its own position and each removed item -1, so Fix and Remove through it reach the right item; Pop returns an item of the highest priority.", "quantifier": "all sequences of calls, items and priorities", "why_tests_cant": "A test follows a few updates of a few items.", "anchors": ["heap/heap.go:Fix", "heap/heap.go:Remove", "heap/example_pq_test.go:update"]}
{"id": "C111", "title": "Dllist.Range goes on from the element its function was given", "statement": "While the function of Range changes the list by calls, every element it is given is in the list at that moment; Range begins with the first element, and goes on with the one that then follows the element just given; if that one has been removed or is the last, Range ends and returns true.", "quantifier": "all lists and functions, whatever calls the function makes", "why_tests_cant": "A test changes the list during Range in one or two ways; which pointers are followed afterwards depends on all of them.", "anchors": ["dllist/dllist.go:Range", "dllist/element.go:Next"]}
{"id": "C112", "title": "Dllist.Range passes the elements that stay once each", "statement": "If the function of Range neither clears, sorts nor reorders the list nor removes the element it is given (it may insert and remove others), no element is passed twice, and the elements that stay in the list are passed once each, in their order (all of them if Range returns true).", "quantifier": "all lists and such functions", "why_tests_cant": "Needs insertions and removals at all places around the current element.", "anchors": ["dllist/dllist.go:Range", "dllist/element.go:Next"]}
{"id": "C113", "title": "Lhashmap.Range ends and passes each key once while its function uses the map", "statement": "While the function of Range calls Load, Store and Remove, Range ends; it passes only bindings that were there when it was called, in that order, with the value current at that moment, none twice; and it passes every key for which the function makes no call, unless the function stops it.", "quantifier": "all maps and functions", "why_tests_cant": "A test has to let the function use the map in every way; the failure is an endless loop.", "anchors": ["lhashmap/lhashmap.go:Range", "lhashmap/lhashmap.go:Load"]}
{"id": "C114", "title": "A refresh function can use its own cache", "statement": "If the functions given to the cache (refresh and clear functions) call methods of the same cache, then as long as a call is in progress some call can go on: the calls inside a function return, and then the function ends.", "quantifier": "all executions in which functions call the cache, to any depth", "why_tests_cant": "The refresh function of a test calls nothing; whether a Get inside it blocks depends on the age of the value.", "anchors": ["refreshcache/refreshcache.go:RefreshData.Get", "refreshcache/refreshcache.go:RefreshData.Refresh", "refreshcache/refreshcache.go:RefreshData.Clear", "refreshcache0/refreshcache0.go:RefreshData.Get", "refreshcache1/refreshcache1.go:RefreshData.Get", "refreshcache0/refreshcache0.go:RefreshData.Refresh", "refreshcache1/refreshcache1.go:RefreshData.Refresh", "refreshcache0/refreshcache0.go:RefreshData.Clear", "refreshcache1/refreshcache1.go:RefreshData.Clear"]}
{"id": "C115", "title": "Several caches do not affect each other", "statement": "When several caches share the process-wide trimmer, what happens in any one of them (calls, results, entries, expirations, callbacks, trimming) is what can happen in a cache that is the only one.", "quantifier": "all numbers of caches, all interleavings of calls, starts, closes and rounds of the trimmer", "why_tests_cant": "Tests have one cache.", "anchors": ["synccache/synccache.go:Start", "synccache/synccache.go:Close", "synccache/synccache.go:runTrim"]}
{"id": "C116", "title": "There is one trimmer", "statement": "However many caches are started, by whatever goroutines at the same time, at most one trimming goroutine is ever made; when a call of Start returns it has been made, and Start does not wait forever; every round is a round of that goroutine.", "quantifier": "all interleavings of calls of Start on any caches", "why_tests_cant": "The goroutine cannot be observed by a test, and starting at the same time is a matter of scheduling.", "anchors": ["synccache/synccache.go:runTrim", "synccache/synccache.go:Start"]}
{"id": "C117", "title": "A round trims every registered cache, one after the other", "statement": "Every round that ends has trimmed each cache that was registered when it began (or a close intervened); of the entries in a cache registered during the round only those remain whose expiration, read in the round, was not before the clock of the round; the trimmer works on one cache at a time.", "quantifier": "all caches, all interleavings with calls, starts and closes", "why_tests_cant": "Rounds come every five seconds; tests do not wait for them, and cannot choose what happens during one.", "anchors": ["synccache/synccache.go:runTrim", "synccache/synccache.go:trim"]}
{"id": "C118", "title": "The callback of one cache does not keep the trimmer from the others", "statement": "Whatever the deleted callbacks of other caches do, the trimmer goes on with a registered cache.", "quantifier": "all executions with several caches", "why_tests_cant": "Needs two caches and a callback that blocks during a round.", "anchors": ["synccache/synccache.go:runTrim", "synccache/synccache.go:CompareAndDelete"]}
{"id": "C119", "title": "Vec.Range looks at the vector anew before every call", "statement": "Whatever the function of Range does to the vector, its calls have the indices 0, 1, 2, ... and the element that is at that index at the moment of the call; Range ends when the function returns false or the index has reached the length; it does not panic; it makes at most n calls if the length never exceeds n (and does not end if every call appends).", "quantifier": "all vectors and functions, whatever methods and slices the function uses", "why_tests_cant": "A test changes the vector in one or two ways during Range.", "anchors": ["vec/vec.go:Range", "vec/vec.go:Remove", "vec/vec.go:Push"]}
{"id": "C120", "title": "Vec.Range passes every element", "statement": "The elements the vector has when Range is called are passed to the function once each, in order, all of them if the function always returns true, whatever it does to the vector.", "quantifier": "all vectors and functions", "why_tests_cant": "The function of a test does not change the vector.", "anchors": ["vec/vec.go:Range", "vec/vec.go:Remove"]}
{"id": "C121", "title": "Sets of floats", "statement": "For every element type, also where == is not reflexive: Contain sees the elements up to ==; every value not equal to itself (NaN) that is put into a set is one more element, counted by Len, listed by Slice, found by no Contain, removed by no Remove; what Push, Insert, Remove, CopyFrom, Equal, IsSubSet, Difference, SymmetricDifference, Intersection, Union do to both kinds of elements is determined exactly.", "quantifier": "all symmetric and transitive ==, all contents, all visiting orders", "why_tests_cant": "Tests use ints and strings; floats are allowed by the type constraint.", "anchors": ["set/set.go:Insert", "set/set.go:Equal", "set/set.go:IsSubSet", "set/set.go:Union", "set/set.go:Clear"]}
{"id": "C122", "title": "Laws of sets hold for every element type", "statement": "For all sets, of any element type: every element is contained, inserting twice is inserting once, Remove undoes Insert, a clone is equal, a set is a subset of itself, its difference with itself is empty, its union and intersection with itself have its size, Clear empties it.", "quantifier": "all ordered element types, floats included", "why_tests_cant": "Tests use ints and strings.", "anchors": ["set/set.go:Contain", "set/set.go:Equal", "set/set.go:IsSubSet", "set/set.go:Difference", "set/set.go:Union", "set/set.go:Intersection"]}
{"id": "C123", "title": "Comparisons detected from the element type compare the values", "statement": "For a vector without comparison functions of its own whose elements are integers, unsigned integers, floats or strings, or pointers to such values, the comparisons are found and compare the values: less is <, or the natural order of strings, equal is ==; so searching, sorting and compacting work without setting comparisons.", "quantifier": "all kinds of elements, all values, all vectors", "why_tests_cant": "Tests use ints and strings; the code looks through pointer types, but no test has a vector of pointers without comparisons.", "anchors": ["vec/vec.go:autoDetectSetCmpLess", "vec/vec.go:autoDetectSetCmpEqual", "vec/vec.go:Search", "vec/vec.go:Sort", "vec/vec.go:Compact"]}
{"id": "C124", "title": "Sort puts NaNs before other values", "statement": "As the comment on Sort says: after Sort of a vector of floats all NaNs come first and the other values follow in ascending order.", "quantifier": "all vectors of floats", "why_tests_cant": "No test sorts floats.", "anchors": ["vec/vec.go:Sort", "vec/vec.go:SortFunc", "vec/vec.go:SortStable", "vec/vec.go:IsSorted"]}
{"id": "C125", "title": "A comparison that panics leaves RWMap unharmed", "statement": "CompareAndSwap and CompareAndDelete panic exactly if, at the instant they take effect, the key is present with a value that cannot be compared with the old value given (as with interface values holding functions or maps). Then they change nothing, and they do not leave the lock behind locked: all other calls, before and after, behave as the atomic map says.", "quantifier": "all numbers of threads, all programs, all interleavings, all values and comparisons", "why_tests_cant": "Tests compare integers; the paths under the lock are only taken in a race, and a lock left locked shows up as a hang in another goroutine.", "anchors": ["rwmap/rwmap.go:CompareAndSwap", "rwmap/rwmap.go:CompareAndDelete", "rwmap/rwmap.go:tryCompareAndSwap"]}
{"id": "C126", "title": "How often Vec calls comparison functions", "statement": "BinarySearch in n elements makes at most floor(log2 n) + 2 comparisons and ends with a position from 0 to n; Search, SearchFunc and Contains call the function on the elements in order up to the first match; SearchAll on every element once; Compare and the Equal methods only on pairs of elements at the same position, in order, none if the lengths differ (Equal); IsSorted makes at most n - 1 comparisons, Max and Min exactly n - 1, and return an element of the vector. A comparison calls less once and equal at most once.", "quantifier": "all vectors, all functions: with effects, with inconsistent answers, with panics", "why_tests_cant": "Tests check results with honest comparisons; costs and dishonest comparisons are not looked at.", "anchors": ["vec/vec.go:BinarySearch", "vec/vec.go:BinarySearchFunc", "vec/vec.go:Search", "vec/vec.go:SearchAll", "vec/vec.go:Compare", "vec/vec.go:EqualVec", "vec/vec.go:IsSorted", "vec/vec.go:Max", "vec/vec.go:Min"]}
{"id": "C127", "title": "Expirations stay exact, however late", "statement": "SetExpiration with a time that is not past makes an entry that is not expired, and AddExpiration with a duration that is not negative does not make an entry expire; NewEntry, AddExpiration and SetExpiration have their exact effect in spite of 64 bit arithmetic.", "quantifier": "all entries, all times and durations, all numbers of calls", "why_tests_cant": "Tests use durations of seconds; times that do not fit into 64 bit milliseconds are not tried.", "anchors": ["synccache/item.go:NewEntry", "synccache/item.go:AddExpiration", "synccache/item.go:SetExpiration", "synccache/item.go:IsExpired"]}
{"id": "C128", "title": "Calls on tree nodes come to an end", "statement": "After any calls of NewNode, SetLeft and SetRight, the calls TraversalDFS, TraversalBFS, DrawTree, MaxDepth, Layer and IsAncestorRelation on every node return.", "quantifier": "all histories of calls, all nodes, including nodes with several parents", "why_tests_cant": "Tests build proper trees; a node linked below itself makes the calls run forever.", "anchors": ["tree/tree.go:SetLeft", "tree/tree.go:SetRight", "tree/tree.go:TraversalDFS", "tree/tree.go:TraversalBFS", "tree/tree.go:MaxDepth", "tree/tree.go:Layer", "tree/tree.go:IsAncestorRelation"]}
{"id": "C129", "title": "Every value put into RWMap comes out at most once", "statement": "Every value that a call took out of the map (LoadAndDelete, Swap, and successful CompareAndSwap and CompareAndDelete) or saw in it (Load, LoadOrStore) was put in for the same key by another call that was invoked before; that call reports, if it has returned, that it put the value in. Each value put in is taken out by at most one call, and calls that start when that call has returned do not see it any more.", "quantifier": "all numbers of threads, all programs, all interleavings", "why_tests_cant": "Handing over values (tokens, connections, locks) through a map relies on all schedules of all methods together.", "anchors": ["rwmap/rwmap.go:Swap", "rwmap/rwmap.go:LoadAndDelete", "rwmap/rwmap.go:CompareAndSwap", "rwmap/rwmap.go:CompareAndDelete", "rwmap/rwmap.go:LoadOrStore", "rwmap/rwmap.go:Load"]}
{"id": "C130", "title": "Ring.Unlink is right for every int", "statement": "Unlink(n) removes the n mod Len() elements after r for every positive value of type int, with the arithmetic of int (n+1 wraps around at the largest one).", "quantifier": "all rings, all word sizes, all positive ints", "why_tests_cant": "One value of 2^63 goes wrong, and no test waits for that many steps of Move.", "anchors": ["ring/ring.go:Unlink", "ring/ring.go:Move"]}
{"id": "C131", "title": "Calls of RWMap come to an end", "statement": "If no new calls are made, the calls in progress make only finitely many steps, in whatever order they are given their turns, and all of them return: no two calls keep each other retrying forever, and as long as one is in progress some call can go on. Only a call about to lock the mutex ever waits.", "quantifier": "all reachable states, all schedules", "why_tests_cant": "Livelock: retries of compare-and-swap loops under all schedules; tests only see the schedules that happen.", "anchors": ["rwmap/rwmap.go:Load", "rwmap/rwmap.go:Swap", "rwmap/rwmap.go:LoadOrStore", "rwmap/rwmap.go:LoadAndDelete", "rwmap/rwmap.go:CompareAndSwap", "rwmap/rwmap.go:CompareAndDelete", "rwmap/rwmap.go:Range", "rwmap/rwmap.go:Clear", "rwmap/rwmap.go:trySwap", "rwmap/rwmap.go:tryExpungeLocked"]}
{"id": "C132", "title": "A call of RWMap makes a bounded number of steps, whatever other calls do", "statement": "The number of steps (atomic accesses and lock operations) of a call is bounded by a number that depends only on the number of keys.", "quantifier": "all programs and interleavings", "why_tests_cant": "A goroutine starved by others appears only under adversarial schedules.", "anchors": ["rwmap/rwmap.go:Load", "rwmap/rwmap.go:Swap", "rwmap/rwmap.go:LoadOrStore", "rwmap/rwmap.go:LoadAndDelete", "rwmap/rwmap.go:CompareAndSwap", "rwmap/rwmap.go:CompareAndDelete", "rwmap/rwmap.go:Range", "rwmap/rwmap.go:Clear", "rwmap/rwmap.go:Len"]}
{"id": "C133", "title": "All calls of SyncCache return if no new ones are made", "statement": "If from some moment on no new calls are made, all calls in progress return after finitely many steps, in whatever order they are given their turns, whatever the clock says, and however the callbacks and the functions given to Range end: no two calls of LoadOrStore, Clear, Range or the trimmer can keep each other going.", "quantifier": "all states that can be reached, all schedules, all clocks", "why_tests_cant": "a test sees one schedule; a livelock between LoadOrStore calls deleting each other's expired entries would need a very particular one", "anchors": ["synccache/synccache.go:92-107", "synccache/synccache.go:66-75", "synccache/synccache.go:145-165", "synccache/synccache.go:132-138"]}
{"id": "C134", "title": "Loops over GenMap and Set with functions that change the map", "statement": "While the function given to GenMap.Range, GenMap.DeleteFunc or Set.Range writes into the map, deletes from it or loops over it again: every call gets the value the map has for the key at that moment; no key is passed twice unless its entry was removed in between; a loop that comes to its end has passed every entry that was there at the beginning and has not been removed; there are no more calls than entries at the beginning plus entries made meanwhile; false from the function of Range ends the loop at once and is the result. A function that makes no entries and removes only entries it has been given gets every entry exactly once.", "quantifier": "all maps, all iteration orders Go allows, all functions, whatever they do to the map between their start and their end", "why_tests_cant": "the order of Go map iteration is random and entries made during a loop may or may not be passed; tests see few of the orders", "anchors": ["genmap/genmap.go:54-61", "genmap/genmap.go:125-127", "set/set.go:85-91"]}
{"id": "C135", "title": "DeleteFunc and LoadOrStoreFunc with functions that change the map", "statement": "DeleteFunc removes the entry of a key, whatever it is by then, exactly when its function called for that key has returned true, and calls the function for every entry that stays. LoadOrStoreFunc calls its function exactly if the key is not in the map, and afterwards the map has the returned value for the key, even if the function has stored another one, and is otherwise as the function left it.", "quantifier": "all maps, all iteration orders Go allows, all functions, whatever they do to the map", "why_tests_cant": "tests use functions that only look at their arguments", "anchors": ["genmap/genmap.go:125-127", "genmap/genmap.go:72-80"]}
{"id": "C136", "title": "What pushing a list onto itself after a mark does", "statement": "PushFrontListTo(l, mark) on l itself: if mark is the last element, the values of l follow it in order; if elements follow mark, as many values as l has are inserted directly after mark, and read from their end they repeat the values behind mark over and over. PushBackListTo(l, mark) on l itself inserts directly after mark, in reverse order, the values in front of mark, the value of mark, and then, once for every element behind mark, the values of what it has just inserted, from mark on. The elements that were there stay as they are, other lists are not changed.", "quantifier": "all lists, all marks in them, after all histories of proper calls", "why_tests_cant": "the loop meets its own insertions; the result depends on where mark is", "anchors": ["dllist/dllist.go:180-187", "dllist/dllist.go:196-203"]}
{"id": "C137", "title": "Where Lhashmap.Range goes on, whatever its function does to the map", "statement": "Range calls its function first for the key used last. After a call for a key that returns true, Range goes on with the key behind it in the order of last use as it is then, and with its current value; it ends if there is none, if the key has been removed meanwhile (even if it was stored again), or if the function returned false. After a Clear it goes on through the bindings that were behind the key when the map was cleared, whatever is stored later. It does not panic, and if it returns, the map is what the calls made meanwhile leave.", "quantifier": "all maps reachable by calls, all functions that call Load, Store, Remove, Len and Clear for any keys", "why_tests_cant": "the failure is an endless loop or a key left out, and depends on the calls the function makes", "anchors": ["lhashmap/lhashmap.go:Range", "lhashmap/lhashmap.go:Load", "lhashmap/lhashmap.go:Clear"]}
{"id": "C138", "title": "Where Dllist.Range goes on, whatever its function does to the lists", "statement": "Range gives its function the first element first. After a call for an element e that returns true it goes on with the element that follows e in the list at that moment; it ends if there is none, or if e has been removed meanwhile. If the function has cleared the list, or sorted it (two elements or more), Range goes on through the elements that were behind e when that happened, in their order, though they are not in the list any more and whatever is done to the list later.", "quantifier": "all lists, all functions, whatever calls the function makes (elements left behind by Clear or Sort are not passed to methods)", "why_tests_cant": "which pointers are followed depends on all calls made meanwhile; Clear inside the function is not tested at all", "anchors": ["dllist/dllist.go:Range", "dllist/dllist.go:Clear", "dllist/dllist.go:Sort", "dllist/element.go:Next"]}
{"id": "C139", "title": "Dllist.Sort and its comparison function: calls, answers, panics", "statement": "Sort comes to an end whatever the comparison function answers and whether or not it is consistent, and leaves a permutation of the values. If the function panics, the panic leaves every list as it was, the list being sorted included: the same elements, in the same order, usable as before. Each call compares two elements of the list, the later one being the first argument; for n elements there are at most n(n-1)/2 calls, and at least n-1 if none panics; no pair of different values is compared twice. A list that is sorted already takes all n(n-1)/2.", "quantifier": "all lists, all comparison functions (with any state of their own, any answers, panicking in any call)", "why_tests_cant": "the number of comparisons and the state after a panic depend on all answers the function gives; tests use consistent functions that do not panic", "anchors": ["dllist/dllist.go:Sort"]}
{"id": "C140", "title": "Dllist: calls with elements left behind by Clear or Sort come back, and walks end", "statement": "Whatever elements are passed to whatever methods (of another list, of no list, left behind by Clear or Sort), every call but Sort, Slice and the four that push another list comes back without a panic; from every element Next leads to nil without meeting an element twice, and so does Prev; Next(a) = b exactly if Prev(b) = a; Front answers nil, an element of this list without Prev, or the list's sentinel; Back the same with Next. The four calls that push another list can panic then, and Remove of the sentinel (which Front handed out) makes the next push panic.", "quantifier": "all sequences of calls, with no condition on the arguments", "why_tests_cant": "the links after such calls are neither those of the list nor those of the old one; no test passes an element that Clear left behind", "anchors": ["dllist/dllist.go:Clear", "dllist/dllist.go:insert", "dllist/dllist.go:remove", "dllist/dllist.go:move", "dllist/dllist.go:Swap", "dllist/element.go:Next", "dllist/element.go:Prev", "dllist/element.go:Remove"]}
{"id": "C141", "title": "Hash rings of floats", "statement": "For nodes of a float type: a node equal (==) to a member is not added again, whichever of the two it is, and RemoveNodes takes away what is equal to an argument. Every NaN passed to AddNodes comes on the ring, with replicas points of its own; RemoveNodes takes none off. If maps.Clear empties the map, ResetNodes leaves exactly the NaNs among its arguments; if it deletes key by key, NaNs stay in the set of nodes, and every RemoveNodes doubles their number. Of 0 and -0 the one added first has the points, so where keys go depends on the order of the calls.", "quantifier": "all sequences of calls, all numbers of replicas, all visiting orders, every == that is symmetric and transitive", "why_tests_cant": "== on floats is not reflexive and equal floats can print differently; tests use strings", "anchors": ["hashring/hashring.go:AddNodes", "hashring/hashring.go:ResetNodes", "hashring/hashring.go:RemoveNodes", "hashring/hashring.go:hashKey"]}
{"id": "C142", "title": "Linked hash maps with float keys", "statement": "For keys of a float type: Load gives the value last stored for an equal (==) key since such a key was last removed; 0 and -0 are one entry, listed by Range under the one stored first, with the newest value. Every Store of a NaN adds an entry, counted by Len and visited by Range, found by no Load, taken away by no Remove, only by Clear. Range visits the entries of both kinds by their last use, the newest first; a NaN is used only when stored. No call panics or fails to return.", "quantifier": "all sequences of calls, all keys and values, every == that is symmetric and transitive", "why_tests_cant": "== on floats is not reflexive and equal floats can differ; tests use strings", "anchors": ["lhashmap/lhashmap.go:Load", "lhashmap/lhashmap.go:Store", "lhashmap/lhashmap.go:Remove", "lhashmap/lhashmap.go:Range", "lhashmap/lhashmap.go:Len", "lhashmap/lhashmap.go:Clear"]}
{"id": "C143", "title": "Maps with float keys", "statement": "For keys of a float type: lookups see the values up to ==; every assignment to a NaN (Store, LoadAndStore, LoadOrStore, LoadOrStoreFunc, copying) adds an entry, counted by Len and listed by Keys, Values and Range, found by no Load and deleted by no Delete, LoadAndDelete or DeleteFunc. A map with a NaN key is not equal to itself, nor to its clone, under any function. CopyFrom and Clone copy every NaN entry. m.CopyFrom(m) and m.CopyTo(m) change nothing in a map without NaN keys; otherwise they add at least one copy of each NaN entry, and the language allows any number.", "quantifier": "all contents, all visiting orders, every == that is symmetric and transitive, keys replaced by assignment or not, both ways of maps.Clear", "why_tests_cant": "== on floats is not reflexive; tests use strings; the number of copies depends on the iteration order", "anchors": ["genmap/genmap.go:Load", "genmap/genmap.go:Store", "genmap/genmap.go:Delete", "genmap/genmap.go:LoadOrStore", "genmap/genmap.go:LoadAndDelete", "genmap/genmap.go:EqualFunc", "genmap/genmap.go:CopyFrom", "genmap/genmap.go:DeleteFunc", "genmap/genmap.go:Clear"]}
{"id": "C144", "title": "Heaps whose Less panics or contradicts itself", "statement": "Whatever Less answers, whether or not it panics, and whatever it does to its own state: Init and Fix leave a rearrangement of the contents; Push has added its element, also if it panicked; Pop and Remove remove exactly the element they return (the one at the root, at the index), and if they panic have removed nothing, that element being the last one now. If Less does not panic, no call does. If the answers given are those of an ordering: a call that returns has done what it does with a Less that cannot panic; a Push onto a heap, or a Fix after one change, that panics leaves at most the one element out of place, so that Fix at its position repairs the heap; a Pop or Remove that panics leaves at most the formerly last element out of place among the others. The number of calls of Less is bounded as always: 2n for Init, log n for Push, 2 log n for Pop, Remove, Fix.", "quantifier": "all contents, all comparison functions with any state, all points at which they may panic", "why_tests_cant": "tests compare integers; a panic in the middle leaves states no test looks at", "anchors": ["heap/heap.go:Init", "heap/heap.go:Push", "heap/heap.go:Pop", "heap/heap.go:Remove", "heap/heap.go:Fix", "heap/heap.go:up", "heap/heap.go:down"]}
{"id": "C145", "title": "Heaps of floats", "statement": "Popping a MinHeap or MaxHeap of floats until it is empty lists its elements in order, after Init and after pushing: no element is less (greater) than one listed earlier.", "quantifier": "all contents, all orders like < on floats", "why_tests_cant": "tests use integers; whether a NaN does harm depends on where in the slice it is", "anchors": ["heap/minheap.go:Less", "heap/maxheap.go:Less", "heap/heap.go:Init", "heap/heap.go:Push", "heap/heap.go:Pop"]}
{"id": "C146", "title": "RWMap: keys that cannot be hashed", "statement": "If the key type of an RWMap is an interface type, a key may hold a value that cannot be hashed (a slice, a map, a function). A call with such a key panics, whatever else is going on: it never waits, and it stores and removes nothing. Apart from the calls that panicked, the history is that of an execution in which they were not made. (False of the code as far as Len is concerned: Store, Swap and LoadOrStore count one more entry although they panicked, so Len is too great, for good or until Clear, already without any concurrency. True if the panicking calls are others, or if Len is not called; and up to what Len returns in any case. Without Clear, Len is too great by one for each such call that has panicked.)", "quantifier": "all sets of keys that can be hashed, all programs of calls, all interleavings, all iteration orders, all callbacks of Range", "why_tests_cant": "no test uses a key that cannot be hashed, and the panic hides that the deferred function has run; that the other calls are not affected is a statement about all interleavings", "anchors": ["rwmap/rwmap.go:Swap", "rwmap/rwmap.go:LoadOrStore", "rwmap/rwmap.go:LoadAndDelete", "rwmap/rwmap.go:CompareAndDelete", "rwmap/rwmap.go:Load", "rwmap/rwmap.go:CompareAndSwap", "rwmap/rwmap.go:Len"]}
{"id": "C147", "title": "RWMap: float keys", "statement": "With float keys an RWMap behaves as if the NaN of each call were a key of its own, different from every other key: the same interleaving of the same calls, with such keys, has the same events and states, and conversely. So a Load, LoadAndDelete, Swap, LoadOrStore, CompareAndSwap or CompareAndDelete with a NaN returns, if it returns, what it returns when the key is not there, and no call panics; a NaN that has been stored stays until Clear: a Range call that began after the stores had returned and was not stopped visits each of these pairs, as many times as it was stored; the pairs with NaNs it visits are those of as many different calls; in a quiescent state Len counts them all, if no Clear overlapped another call; and all calls come to an end if no new ones are made.", "quantifier": "all programs of calls, all interleavings, all iteration orders, all callbacks of Range, all sets of keys that are not equal to themselves", "why_tests_cant": "the tests use strings and integers; with NaNs, lookups and range loops over the same Go map disagree, and the code copies entries from one map to the other by looping", "anchors": ["rwmap/rwmap.go:Load", "rwmap/rwmap.go:Swap", "rwmap/rwmap.go:LoadOrStore", "rwmap/rwmap.go:LoadAndDelete", "rwmap/rwmap.go:CompareAndSwap", "rwmap/rwmap.go:CompareAndDelete", "rwmap/rwmap.go:Range", "rwmap/rwmap.go:Clear", "rwmap/rwmap.go:Len", "rwmap/rwmap.go:dirtyLocked"]}
{"id": "C148", "title": "utils.Max and the constructors of rbtree", "statement": "Max(a, b) is a if a > b and b otherwise: on ordered values the greatest of the two, in either order of the arguments; with a NaN it is the second argument, so the order matters exactly if the arguments differ and neither is greater. rbtree.NewNode(v) returns a new red node with value v and no relatives, rbtree.NewTree() a new tree without a root; existing nodes and trees stay as they are.", "quantifier": "all types with any relation >, all linear orders, all values, all memories", "why_tests_cant": "there are no tests of these packages; utils.Max is used by tree.MaxDepth for integers only", "anchors": ["utils/utils.go:Max", "rbtree/rbtree.go:NewNode", "rbtree/rbtree.go:NewTree"]}
{"id": "C149", "title": "RWMap: what is kept of removed keys and values", "statement": "At every moment the values an RWMap refers to are exactly the values of the map after the calls so far, in some order that explains them (C01), each key having one: a value that was removed or overwritten is not kept. Keys that are not in the map are not kept either, nor entries for them. (The part about keys is false: a key that was removed can stay, with an empty entry, in both internal maps. It is forgotten after the second time dirty becomes read, if no call stores under it meanwhile, but while read is complete no key in it is forgotten until a key not in it is stored, or Clear is called. When Clear has cleared the maps, nothing is kept.)", "quantifier": "all programs of calls, all interleavings, all keys, all iteration orders, all callbacks of Range", "why_tests_cant": "what is kept is not visible through the API; a test could only measure memory", "anchors": ["rwmap/rwmap.go:LoadAndDelete", "rwmap/rwmap.go:Swap", "rwmap/rwmap.go:CompareAndDelete", "rwmap/rwmap.go:Clear", "rwmap/rwmap.go:dirtyLocked", "rwmap/rwmap.go:missLocked", "rwmap/rwmap.go:tryExpungeLocked"]}
{"id": "C150", "title": "Vec: what is kept of removed elements", "statement": "v.Slice()[:v.Cap()], which anybody with the vector can take, shows the elements of the vector and then only zero values: elements that were removed are not kept (not referred to). (This is false for Pop, Remove, ConpareAndRemove, Clear, Cut and SplitOff, which only shorten the slice: Pop and Clear leave the whole array as it was, Remove leaves the last element twice, Cut the last j-i elements twice; true for Delete, Replace, Compact and CompactFunc, which write zero values to the places they vacate.) What lies beyond the length after any sequence of calls is a function of the calls and of the capacities chosen by the runtime for new arrays.", "quantifier": "all element types, all sequences of calls, all vectors, all sorting functions, all excess capacities of new arrays", "why_tests_cant": "what is beyond the length is not part of any result; the tests look at elements only, and a leak shows as memory in use", "anchors": ["vec/vec.go:Pop", "vec/vec.go:Remove", "vec/vec.go:Clear", "vec/vec.go:Cut", "vec/vec.go:SplitOff", "vec/vec.go:Delete", "vec/vec.go:Compact", "vec/vec.go:Replace", "vec/vec.go:Slice", "vec/vec.go:Cap"]}
{"id": "C151", "title": "Vec: capacity", "statement": "Clear empties the vector and shrinks its capacity, as its comment says. (This is false: Clear keeps the capacity.) Only Push, Insert, Replace, Grow and Clip change the capacity of an existing vector; Push of elements for which there is room makes no new array, keeps the capacity and writes behind the last element; Clip makes capacity and length equal.", "quantifier": "all element types, all sequences of calls, all vectors, all excess capacities of new arrays", "why_tests_cant": "there is no test of capacities; that no call changes the capacity of another vector is a statement about all pairs of vectors", "anchors": ["vec/vec.go:Clear", "vec/vec.go:Cap", "vec/vec.go:Push", "vec/vec.go:Clip", "vec/vec.go:Grow"]}
{"id": "C152", "title": "RWMap: a write synchronizes before a read that observes its value", "statement": "In every execution of concurrent calls on an RWMap, a call that returns a value for a key that it found in the map (Load, LoadAndDelete, Swap, LoadOrStore with loaded true), that recognizes the value it was given (CompareAndSwap or CompareAndDelete returning true), or that passes a value to the function of Range, returns after (in the happens-before order of the Go memory model: program order within a call, a lock after the previous unlock, an atomic operation after the atomic write whose effect it observes) the step with which another call, a Store, Swap, LoadOrStore or CompareAndSwap of that value for that key, put it into the map; every call puts its value into the map in at most one step.", "quantifier": "all keys, values, programs of calls, interleavings, iteration orders; calls by goroutines that do not synchronize otherwise", "why_tests_cant": "The race detector only sees the orders that occur, and on strongly ordered hardware a missing edge has no visible effect; that the edge is there on every path (fast path, dirty, after promotion, unexpunging) is a property of all interleavings.", "anchors": ["rwmap/rwmap.go:RWMap", "rwmap/rwmap.go:Load", "rwmap/rwmap.go:Swap", "rwmap/rwmap.go:LoadOrStore", "rwmap/rwmap.go:LoadAndDelete", "rwmap/rwmap.go:CompareAndSwap", "rwmap/rwmap.go:CompareAndDelete", "rwmap/rwmap.go:Range", "rwmap/rwmap.go:newEntry", "rwmap/rwmap.go:unexpungeLocked", "rwmap/rwmap.go:swapLocked"]}
{"id": "C153", "title": "RWMap: writes before the invocation of a read, deletions too, synchronize before it or are overwritten by one that does", "statement": "For every step that writes a key (changes what the map has for it; Clear emptying the map; LoadAndDelete deleting the entry) and is made before a call on the key is invoked, that step or a later write of the key happens before the return of the call, whatever it returns, in particular if it finds nothing; so if there is no later write, the step itself happens before the return. The same holds for all keys when a Range that was not stopped returns. It does not hold if only those writes count that change what is in the map: if LoadAndDelete finds an entry that CompareAndDelete has emptied, a later Load that finds nothing is not ordered after the CompareAndDelete.", "quantifier": "all keys, values, programs of calls, interleavings, iteration orders; calls by goroutines that do not synchronize otherwise", "why_tests_cant": "Absence is not tied to any value that was read, so the ordering comes from whichever atomic or lock the call happened to use on its path; a test sees no difference when an edge is missing.", "anchors": ["rwmap/rwmap.go:RWMap", "rwmap/rwmap.go:Load", "rwmap/rwmap.go:LoadAndDelete", "rwmap/rwmap.go:CompareAndDelete", "rwmap/rwmap.go:Clear", "rwmap/rwmap.go:Range", "rwmap/rwmap.go:missLocked", "rwmap/rwmap.go:dirtyLocked", "rwmap/rwmap.go:tryExpungeLocked"]}
{"id": "C154", "title": "SyncCache: calls in progress all return and never deadlock, over the machine of RWMap", "statement": "Take a SyncCache whose map is the RWMap machine itself, step by step, with its mutex, retry loops, promotions, and Range functions that call back into the same map (Range deletes expired entries, Clear with a callback, trim). If from some moment on no new call of the cache is made, only finitely many steps follow, whatever order the scheduler gives the calls in progress and their calls of the map; as long as a call is in progress some step can be made; so all of them return.", "quantifier": "all keys, values, configurations, numbers of threads, clocks, iteration orders, callback and function results, schedules; callbacks and functions that return (or panic) by themselves", "why_tests_cant": "Deadlock through the mutex of the map (a deletion from within Range) and livelock between the retry loop of LoadOrStore and those of the map depend on the schedule; a test sees only the schedules it happens to get.", "anchors": ["synccache/synccache.go:LoadOrStore", "synccache/synccache.go:Range", "synccache/synccache.go:Clear", "synccache/synccache.go:trim", "synccache/synccache.go:CompareAndDelete", "rwmap/rwmap.go:Range", "rwmap/rwmap.go:CompareAndDelete", "rwmap/rwmap.go:LoadOrStore", "rwmap/rwmap.go:Clear"]}
{"id": "C155", "title": "What calls of RefreshData return does not go back", "statement": "In every execution, each value that Get, Refresh or Raw returns without an error can be ascribed to a refresh that had ended (one that panicked counts with the zero value) or, if it is the zero value, to the beginning, such that a call that starts after another one has returned is never ascribed to an older refresh, nor to one older than a refresh (without an error) whose call had returned before. The same holds for the errors that calls return. Values and errors together are not in order: a Get called after another one has returned the error of a refresh can still return the value of an older one, because a failed refresh takes back the time of the value only after it has published the error.", "quantifier": "all value and error types, functions and their outcomes, numbers of threads, schedules; clocks that read errAge or more (as all real clocks do) for values", "why_tests_cant": "The fields are separate atomics written one after the other while readers do not lock; whether a reader can observe them in the wrong order is a question about all interleavings.", "anchors": ["refreshcache/refreshcache.go:RefreshData.Get", "refreshcache/refreshcache.go:RefreshData.Refresh", "refreshcache/refreshcache.go:RefreshData.Raw", "refreshcache0/refreshcache0.go:RefreshData.Get", "refreshcache1/refreshcache1.go:RefreshData.Get", "refreshcache0/refreshcache0.go:RefreshData.Refresh", "refreshcache1/refreshcache1.go:RefreshData.Refresh", "refreshcache0/refreshcache0.go:RefreshData.Raw", "refreshcache1/refreshcache1.go:RefreshData.Raw"]}
{"id": "C156", "title": "A heap does not keep what was popped in its array", "statement": "One would like: after Pop or Remove on MinHeap, MaxHeap or a PQueue, the array behind the heap no longer holds the element taken out (so that what it refers to can be freed). It is false, at every Pop and Remove of an element that is not the zero value: the element stays in the array at the place directly behind the end of the slice. What holds: everything behind the end stays in its place through any number of Pop, Remove, Init and Fix calls; only Push changes it, overwriting the first place behind the end, or, if there is none, moving the heap to a new array with zeros behind its end. The array never gets smaller. Popping a heap until it is empty leaves all its elements in the array, sorted with the first popped last.", "quantifier": "all element types, comparisons, contents, capacities, growth of append, sequences of calls", "why_tests_cant": "Len and the results of Pop show nothing of the array; a memory leak through retained pointers appears only under load and the garbage collector.", "anchors": ["heap/minheap.go:Pop", "heap/maxheap.go:Pop", "heap/minheap.go:Push", "pqueue/minqueue.go:Pop", "pqueue/maxqueue.go:Pop", "heap/heap.go:Remove"]}
{"id": "C157", "title": "RefreshCache: what happens before what", "statement": "In the sense of the Go memory model: (1) whatever value or error Get, Refresh, Raw return, whatever time Last and LastErr return, whatever function is called and whatever old value is passed to it: it has been there from the beginning, or the refresh function returned it, the clock gave it, or the caller of Get, Refresh, Clear or a setter passed it, in an event that happens before (so what the function wrote into the value is visible to who gets the value). (2) The beginnings and ends of all runs of refresh functions, whichever goroutines run them, are totally ordered by happens-before, so a refresh function needs no lock of its own. (3) If Clear has taken effect before Get, Raw or Last is called, then Clear, or a later change of the time of the value, happens before that call returns or starts a refresh function. One would like (3) for Refresh too; that is false: nothing in Refresh synchronizes with an earlier Clear.", "quantifier": "all executions (any number of goroutines, any interleaving, functions, outcomes, times); the last a concrete execution", "why_tests_cant": "The race detector sees only the orders of the runs made, and on amd64 missing edges rarely show.", "anchors": ["refreshcache/refreshcache.go:Get", "refreshcache/refreshcache.go:Refresh", "refreshcache/refreshcache.go:Clear", "refreshcache/refreshcache.go:Raw", "refreshcache/refreshcache.go:Last", "refreshcache0/refreshcache0.go:Get", "refreshcache1/refreshcache1.go:Get", "refreshcache0/refreshcache0.go:Refresh", "refreshcache1/refreshcache1.go:Refresh", "refreshcache0/refreshcache0.go:Clear", "refreshcache1/refreshcache1.go:Clear", "refreshcache0/refreshcache0.go:Raw", "refreshcache1/refreshcache1.go:Raw", "refreshcache0/refreshcache0.go:Last", "refreshcache1/refreshcache1.go:Last"]}
{"id": "C158", "title": "RefreshCache: the plain reads under the lock may see old values", "statement": "Let the two reads of r.last in line 108 and that of r.lastErr in line 111 see, as the Go memory model allows for plain reads, the initial 0 or any value stored, unless a later store of the field happens before the read. Then: (1) the refresh function is still never run twice at once, and all that is done under the lock is totally ordered by happens-before; (2) the read of lastErr sees the newest value; that of last sees the newest value, or the one last stored under the lock if since then there have only been Clears and none of them happens before the read; (3) without Clear there are no further executions; (4) with Clear, a Get that returns a value and no error and starts no refresh still serves fresh data, and if it was called after a Clear, still that of a refresh whose call had not returned before the Clear, or newer. Wanted too: no further executions at all; that is false.", "quantifier": "all executions of any number of goroutines, all choices of the values that plain reads may see, all clocks and functions", "why_tests_cant": "a test sees the values that one machine and compiler happen to give; on amd64 the stale value is hardly ever seen", "anchors": ["refreshcache/refreshcache.go:Get", "refreshcache/refreshcache.go:Clear", "refreshcache0/refreshcache0.go:Get", "refreshcache1/refreshcache1.go:Get", "refreshcache0/refreshcache0.go:Clear", "refreshcache1/refreshcache1.go:Clear"]}
{"id": "C159", "title": "SyncCache: entries are safely published", "statement": "In the Go memory model, over the steps of RWMap: an entry that Load, LoadOrStore or LoadAndDelete returns, or that Range hands to its function, was made with the value that some call of Store, LoadOrStore or NewEntry was given, and that call and the making of the entry (the only write of its value) happen before the return; a value handed to the callback was given to such a call, which with the making of an entry of it happens before the callback; and when the cache itself is about to read an entry, its making happens before that. So what the caller wrote before storing is seen by whoever gets the value, and the plain reads of the value race with nothing.", "quantifier": "all executions of any number of goroutines, calls, keys, values, clocks and comparisons; RWMap step by step", "why_tests_cant": "a missing happens-before edge shows only on some machines and schedules; the race detector sees only the runs it is given", "anchors": ["synccache/synccache.go:Load", "synccache/synccache.go:LoadOrStore", "synccache/synccache.go:LoadAndDelete", "synccache/synccache.go:Range", "synccache/item.go:NewEntry", "rwmap/rwmap.go:Swap"]}
{"id": "C160", "title": "SyncCache with NaN keys", "statement": "Keys that are not equal to themselves, over the steps of RWMap: a call with a NaN returns what it returns for a key the cache does not have (Load and LoadAndDelete nil, CompareAndDelete and CompareValueAndDelete false, LoadOrStore a new entry of its own), and does not panic; the callback gets only values that were stored with keys that are not NaN; what has been stored with a NaN stays: every Range called later that comes to its end is given the entry or finds it expired. With a callback even Clear does not remove it, nor does the trimmer.", "quantifier": "all executions of any number of goroutines, calls, keys, values, clocks and comparisons; any set of NaN keys; RWMap step by step, any iteration order", "why_tests_cant": "the tests use no float keys, and what stays behind shows only when it has piled up", "anchors": ["synccache/synccache.go:trim", "synccache/synccache.go:Clear", "synccache/synccache.go:Range", "synccache/synccache.go:Store", "synccache/synccache.go:LoadOrStore", "synccache/synccache.go:CompareAndDelete"]}
{"id": "C161", "title": "SyncCache with keys that cannot be hashed", "statement": "With keys such as a slice in an interface, over the steps of RWMap: a call with such a key panics, waits for nobody (it runs to its end alone whatever the others are doing, also while another goroutine holds the map's mutex), calls no function of the user, and leaves all entries, the map and the registration as they are; Store and LoadOrStore have made their entry by then, which nobody gets to see. All that can be seen of the other calls is what it would be without these calls (with NewEntry in place of Store and LoadOrStore). No such key is given to the function of Range.", "quantifier": "all executions of any number of goroutines, calls, keys, values, clocks and comparisons; any set of keys that cannot be hashed; RWMap step by step, any iteration order", "why_tests_cant": "the tests use strings and numbers as keys; a panic that leaves a lock held or an entry half made shows only in what other goroutines do later", "anchors": ["synccache/synccache.go:Store", "synccache/synccache.go:Load", "synccache/synccache.go:LoadOrStore", "synccache/synccache.go:Delete", "synccache/synccache.go:LoadAndDelete", "synccache/synccache.go:CompareAndDelete", "synccache/synccache.go:CompareValueAndDelete", "synccache/synccache.go:Range"]}
{"id": "C162", "title": "All caches of a process, step by step", "statement": "Many caches and the one set of caches the trimmer goes through, all of them RWMaps taken step by step: what one sees of each cache is what one sees in an execution of that cache alone, so all that holds of one cache holds of each; the calls of Start make one trimming goroutine in all, and it is there when any call of Start returns; it trims one cache after the other; every round trims each cache whose Start returned before the round, unless Close is called in between or during the round; and a round trims no cache whose last Start was over before a call of Close that was over before the round.", "quantifier": "all executions of any number of caches, goroutines, calls, keys, values and clocks; every RWMap step by step, any iteration order", "why_tests_cant": "the set of caches and the goroutine belong to the process, not to one cache; the tests look at one cache at a time", "anchors": ["synccache/synccache.go:runTrim", "synccache/synccache.go:Start", "synccache/synccache.go:Close", "synccache/synccache.go:trim", "rwmap/rwmap.go:Range"]}
{"id": "C163", "title": "Maps and linked hash maps with keys that cannot be hashed", "statement": "In GenMap and the linked hash map, a call with a key that cannot be hashed (a slice in an interface, say) panics, also on an empty or a nil map, and leaves everything as it was: LoadOrStoreFunc does not call its function, and the list of a linked hash map stays in step with its map. Storing into a nil map, or copying a map with elements into a nil map, panics as well and changes no map. If the program recovers, all other calls return what they return in the program without those that panicked, and no map ever has a key that cannot be hashed.", "quantifier": "all histories of calls with panics recovered, all keys, values, sets of keys that cannot be hashed, iteration orders", "why_tests_cant": "the tests use integers and strings as keys; what is left after a panic in the midst of a call is not looked at", "anchors": ["genmap/genmap.go:Load", "genmap/genmap.go:Store", "genmap/genmap.go:Delete", "genmap/genmap.go:LoadOrStore", "genmap/genmap.go:LoadOrStoreFunc", "genmap/genmap.go:LoadAndDelete", "genmap/genmap.go:LoadAndStore", "genmap/genmap.go:CopyFrom", "genmap/genmap.go:CopyTo", "lhashmap/lhashmap.go:Load", "lhashmap/lhashmap.go:Store", "lhashmap/lhashmap.go:Remove"]}
{"id": "C164", "title": "A RefreshData that was not made by NewRefreshData", "statement": "On a zero RefreshData the first Get or Refresh panics without calling the refresh function; every later one calls it, with the newest value (the zero value if there is none or the function panicked) under OldValKey, and returns its result. Raw panics until there was such a call and a refresh has failed; then it returns the newest value and the newest error. Clear with a function panics before the first Get or Refresh, without calling it.", "quantifier": "all sequences of calls with panics recovered, all refresh and clear functions, all clocks that do not go back and are not before 1970", "why_tests_cant": "the tests use the constructor only; the panic happens in the argument of the call, between the deferred function and the refresh function, so that it initialises the data as a side effect", "anchors": ["refreshcache/refreshcache.go:RefreshData.Get", "refreshcache/refreshcache.go:RefreshData.Refresh", "refreshcache/refreshcache.go:RefreshData.Raw", "refreshcache/refreshcache.go:RefreshData.Clear", "refreshcache0/refreshcache0.go:RefreshData.Get", "refreshcache1/refreshcache1.go:RefreshData.Get", "refreshcache0/refreshcache0.go:RefreshData.Refresh", "refreshcache1/refreshcache1.go:RefreshData.Refresh", "refreshcache0/refreshcache0.go:RefreshData.Raw", "refreshcache1/refreshcache1.go:RefreshData.Raw", "refreshcache0/refreshcache0.go:RefreshData.Clear", "refreshcache1/refreshcache1.go:RefreshData.Clear"]}
{"id": "C165", "title": "Vec: comparison functions with effects, and panics, in methods that change the vector", "statement": "One would like: if a comparison function panics in Sort, SortStable, Compact or ConpareAndRemove, the vector has the elements it had. It holds but for Compact, which after a panic leaves the elements it has kept so far, and behind them what was at these places. Compact calls the function once for each neighbouring pair, in order, as they were at the beginning, whatever it does elsewhere; without a panic the first element and those that differ from the one before are left.", "quantifier": "all vectors, all comparison functions, with any effects outside the vector and any answers, panicking at any call; all sorting procedures that compare and exchange", "why_tests_cant": "the tests use functions that do not panic and compare consistently", "anchors": ["vec/vec.go:Sort", "vec/vec.go:SortFunc", "vec/vec.go:SortStable", "vec/vec.go:SortStableFunc", "vec/vec.go:Compact", "vec/vec.go:CompactFunc", "vec/vec.go:ConpareAndRemove"]}
{"id": "C166", "title": "Maps: functions with effects and panics", "statement": "Range, DeleteFunc, EqualFunc and LoadOrStoreFunc of GenMap, and Range of Set, given functions that do anything outside the map, answer as they like and may panic: Range and DeleteFunc call the function once per entry, in the order of the iteration, until it panics or (Range) returns false; after a panic in DeleteFunc exactly the keys are gone for which it had returned true; EqualFunc calls its function with the two values of a key, for one key after the other, until a key is missing, it returns false or panics, and not at all if the sizes differ; LoadOrStoreFunc calls its function only if the key is not there, and stores nothing if it panics.", "quantifier": "all maps, iteration orders, functions with any effects outside the map, panicking at any call", "why_tests_cant": "the tests use functions without effects that do not panic", "anchors": ["genmap/genmap.go:Range", "genmap/genmap.go:DeleteFunc", "genmap/genmap.go:EqualFunc", "genmap/genmap.go:LoadOrStoreFunc", "set/set.go:Range"]}
{"id": "C167", "title": "Containers declared without their constructors", "statement": "A linked hash map, hash ring, priority queue or RefreshCache that is the zero value of its type, in any sequence of calls whose panics are recovered: of the linked hash map, Load finds nothing, Remove does nothing and Len is 0, while Store, Range and Clear panic, each time; of the hash ring, AddNodes and RemoveNodes without nodes do nothing and all else panics, GetNode included; of the priority queue everything panics; of the RefreshCache the functions can be set and are returned as set (GetRefreshFunc panics before), Data is nil, and all else panics. No function of the user is called.", "quantifier": "all sequences of calls with all arguments, node types, heaps and hash functions", "why_tests_cant": "the tests make all containers with their constructors", "anchors": ["lhashmap/lhashmap.go:Store", "lhashmap/lhashmap.go:Clear", "hashring/hashring.go:GetNode", "hashring/hashring.go:AddNodes", "pqueue/pqueue.go:Push", "refreshcache/refreshcache.go:Get", "refreshcache/refreshcache.go:GetRefreshFunc", "refreshcache0/refreshcache0.go:Get", "refreshcache1/refreshcache1.go:Get", "refreshcache0/refreshcache0.go:GetRefreshFunc", "refreshcache1/refreshcache1.go:GetRefreshFunc"]}
{"id": "C168", "title": "PQueue is first in, first out among equal priorities", "statement": "Of the items with the extremal priority, Pop returns the one that was pushed first.", "quantifier": "all sequences of Push and Pop, both kinds of queue", "why_tests_cant": "the tests look at the order of priorities only", "anchors": ["pqueue/pqueue.go:Push", "pqueue/pqueue.go:Pop", "heap/heap.go:Pop"]}
{"id": "C169", "title": "Functions given to RWMap.Range may use the map", "statement": "While the function given to RWMap.Range runs, the Range holds no lock: whatever calls the function makes, and calls of other goroutines, return, however many Ranges are in their functions and even if a function panics or never returns. More generally, calls that stop without the mutex keep no other call from returning.", "quantifier": "all executions, all sets of Ranges in their functions, all other calls", "why_tests_cant": "the tests call no method of the map in the function, and a deadlock needs a particular moment", "anchors": ["rwmap/rwmap.go:Range"]}
{"id": "C170", "title": "The deleted callback and functions given to SyncCache.Range may use the cache", "statement": "While the deleted callback or the function given to Range runs, its call keeps no other call of the cache from returning, the calls that the function itself makes among them, even if the function never returns. More generally, threads that stop outside the methods of the underlying map keep no other call from returning.", "quantifier": "all executions over the steps of RWMap, all sets of threads in callbacks and functions, all other calls", "why_tests_cant": "a deadlock needs a particular moment; the tests have no callback that uses the cache", "anchors": ["synccache/synccache.go:Range", "synccache/synccache.go:CompareAndDelete", "synccache/synccache.go:Clear", "synccache/synccache.go:WithDeletedCallback"]}
{"id": "C171", "title": "Under a fair scheduler every call of RWMap returns, however many others are made", "statement": "In an execution without end in which new calls may be made for ever, and in which a call that can make a step again and again makes one again and again, every call that has been made returns. It is false: a Swap of a new key that holds the mutex can be kept in tryExpungeLocked for ever by Swaps and LoadAndDeletes of another key, and a Load that waits for the mutex then never returns either. It is true when no more than finitely many calls that change entries return: if a call does not return, such calls return again and again.", "quantifier": "all executions without end, all fair schedulers, all sets of calls", "why_tests_cant": "no test can run for ever", "anchors": ["rwmap/rwmap.go:Load", "rwmap/rwmap.go:Swap", "rwmap/rwmap.go:dirtyLocked", "rwmap/rwmap.go:tryExpungeLocked"]}
{"id": "C172", "title": "Under a fair scheduler every call of RefreshData returns, however many others are made", "statement": "In an execution without end in which new calls may be made for ever, a call that can make a step again and again makes one again and again, and the functions of the user come to an end, every call returns. A mutex that keeps a call waiting though it could let it in again and again would not do.", "quantifier": "all executions without end, all fair schedulers, all sets of calls", "why_tests_cant": "no test can run for ever", "anchors": ["refreshcache/refreshcache.go:Get", "refreshcache/refreshcache.go:Refresh", "refreshcache/refreshcache.go:Clear", "refreshcache/refreshcache.go:Raw", "refreshcache0/refreshcache0.go:Get", "refreshcache1/refreshcache1.go:Get", "refreshcache0/refreshcache0.go:Refresh", "refreshcache1/refreshcache1.go:Refresh", "refreshcache0/refreshcache0.go:Clear", "refreshcache1/refreshcache1.go:Clear", "refreshcache0/refreshcache0.go:Raw", "refreshcache1/refreshcache1.go:Raw"]}
{"id": "C173", "title": "Under a fair scheduler every call of SyncCache returns", "statement": "In an execution without end in which new calls may be made for ever, every goroutine has its turns, and the callbacks and the functions given to Range come to an end, every call of SyncCache returns. (A call of the map counts as one step; see C171 for the map.) False of LoadOrStore: while others store entries for its key that expire at once, it may go on for ever, finding each expired and taking it out. True of all other calls; and a LoadOrStore that does not return takes out, again and again, an entry stored by another call.", "quantifier": "all executions without end, all fair schedulers, all sets of calls", "why_tests_cant": "no test can run for ever", "anchors": ["synccache/synccache.go:LoadOrStore", "synccache/synccache.go:Load", "synccache/synccache.go:Range", "synccache/synccache.go:Clear", "synccache/synccache.go:trim"]}
{"id": "C174", "title": "The trimmer removes every expired entry in the end", "statement": "In an execution without end in which every goroutine has its turns and new calls may be made for ever, a cache stays registered, rounds of the trimmer begin again and again and its deleted callback does not panic: an entry whose expiration stays before the clock from some time on leaves the cache and never comes back, whatever the other calls do. (A call of the map counts as one step; see C171 for the map.)", "quantifier": "all executions without end, all fair schedulers, all entries, all sets of calls", "why_tests_cant": "no test can run for ever or try all schedules", "anchors": ["synccache/synccache.go:trim", "synccache/synccache.go:runTrim", "synccache/synccache.go:Start", "rwmap/rwmap.go:Range", "rwmap/rwmap.go:CompareAndDelete"]}
{"id": "C175", "title": "The one trimmer serves all caches for ever", "statement": "In an execution of the whole process without end, with any number of caches sharing the one trimmer and users calling them for ever, if the goroutine that trims has its turns: every round that begins comes to an end, unless a deleted callback it runs panics; and if rounds begin again and again, none of these callbacks panics and a cache stays registered, an entry of that cache whose expiration stays before the clock from some time on leaves the cache and never comes back, whatever is done with this cache and the others. (A call of the map counts as one step; see C171 for the map.)", "quantifier": "all executions of the process without end, all fair schedulers, all numbers of caches, all entries, all sets of calls", "why_tests_cant": "no test can run for ever, try all schedules or all sets of caches", "anchors": ["synccache/synccache.go:runTrim", "synccache/synccache.go:trim", "synccache/synccache.go:Start", "rwmap/rwmap.go:Range"]}
{"id": "C176", "title": "Containers made by their constructors, panics recovered", "statement": "In any sequence of calls on a linked hash map made by New, where the functions given to Range may panic and every panic is recovered: the results and the pairs these functions are called with are those of a list of pairs kept in order of last use; only Range panics, only when its function does, and the map goes on as before. After any sequence of AddNodes, ResetNodes, RemoveNodes and GetNode on a hash ring made by New(r), no call has panicked, the ring has exactly the nodes added or reset to and not removed since, each with r points (none if r is not positive), and GetNode searches these points in sorted order or gives the zero value if there are none. A call on a priority queue is the push (or length, swap and pop) of its heap and the moves up or down, in that order, and ends at the first that panics, the heap being as that left it. A call on a RefreshCache goes to its data with the functions set last, and panics only if that does.", "quantifier": "all sequences of calls, all functions panicking or not, all numbers of replicas, all hash functions, all heaps", "why_tests_cant": "the tests recover no panic and try a few sequences", "anchors": ["lhashmap/lhashmap.go:Load", "lhashmap/lhashmap.go:Store", "lhashmap/lhashmap.go:Remove", "lhashmap/lhashmap.go:Range", "lhashmap/lhashmap.go:Clear", "hashring/hashring.go:AddNodes", "hashring/hashring.go:ResetNodes", "hashring/hashring.go:RemoveNodes", "pqueue/pqueue.go:Push", "pqueue/pqueue.go:Pop", "refreshcache/refreshcache.go:Get", "refreshcache/refreshcache.go:SetRefreshFunc", "refreshcache0/refreshcache0.go:Get", "refreshcache1/refreshcache1.go:Get", "refreshcache0/refreshcache0.go:SetRefreshFunc", "refreshcache1/refreshcache1.go:SetRefreshFunc"]}
{"id": "C177", "title": "Hash ring: which points coincide under CRC-32", "statement": "For a hash ring of strings with the CRC-32 of the code: two labels (node-index) of the same length that differ only within four bytes in a row have different points. So the replicas below 10000 of one node whose numbers have as many digits have different points, a node with at most ten replicas has exactly that many points (with eleven it may have ten: xusund-4 and xusund-10 coincide), and nodes whose names are alike but for the last two bytes have no point in common if there are at most ten replicas: then GetNode of a key of the same form returns a node of the ring, and every key goes to the same node whatever the history. Two nodes that share the point of one replica share those of all replicas. Whether two replicas with as many digits coincide does not depend on the node. Different nodes or replicas never have the same label.", "quantifier": "all strings as names and keys, all numbers of replicas up to ten (or all indexes, where said), all histories, iteration orders, allocators and sorting functions", "why_tests_cant": "no test can try all names; collisions of CRC-32 are one in four billion for a random pair", "anchors": ["hashring/hashring.go:hashKey", "hashring/hashring.go:AddNodes", "hashring/hashring.go:GetNode"]}
{"id": "C178", "title": "Lists: what a list and an element keep from being collected", "statement": "A list keeps, through the pointers of the package, exactly the elements iteration shows, and so does each of its elements: no element that was removed or was there before Clear or Sort, none of another list, and no helper list of Sort. Two lists never keep the same thing, whatever calls were made. After e.Remove(), and after l.Remove(e) of an element of l, the element keeps only itself and nothing keeps it; for a client that neither clears nor sorts this is so of every element outside its lists, at any time. Whatever calls were made, an element keeps only itself just when its InsertAfter returns nil. After Clear the list keeps nothing, but each of the old elements keeps the list and all the other old elements.", "quantifier": "all clients, call histories, lists and elements; Safe clients where iteration is mentioned", "why_tests_cant": "what is kept cannot be seen through the API; a leak shows only as memory use", "anchors": ["dllist/dllist.go:Clear", "dllist/dllist.go:remove", "dllist/dllist.go:Sort", "dllist/element.go:Remove"]}
{"id": "C179", "title": "Linked hash maps: what is kept from being collected", "statement": "After any calls, a linked hash map keeps (through its table, its list and the entries) a key with a value just when that is the value last stored for the key and the key was not removed, nor the map cleared, since: nothing is kept of what was overwritten, removed or cleared. Its table has just the keys that have a value, and it keeps as many list elements as Len says.", "quantifier": "all sequences of calls, all keys and values", "why_tests_cant": "what is kept cannot be seen through the API; a leak shows only as memory use", "anchors": ["lhashmap/lhashmap.go:Store", "lhashmap/lhashmap.go:Remove", "lhashmap/lhashmap.go:Clear"]}
{"id": "C180", "title": "Vec.Slice and SliceCut: what the slice and the vector see of each other", "statement": "A slice returned by Slice() or SliceCut(i, j) stays tied to the vector as long as the vector keeps its array: element k of the slice is element i+k of the vector as far as both have one, and a write through the slice is a write to the vector. A call gives the vector a new array exactly when the elements it then has exceed the Cap it had (Grow(n): when n more would). From then on the slice is the caller's alone: no method of any vector changes it, the vector never returns to that array, and writes through the slice do not reach the vector. Methods of other vectors never change the slice.", "quantifier": "all contents, capacities, later calls and writes through slices", "why_tests_cant": "whether two slices share an array depends on the capacities, which append chooses", "anchors": ["vec/vec.go:Slice", "vec/vec.go:SliceCut", "vec/vec.go:Push", "vec/vec.go:Grow"]}
{"id": "C181", "title": "Rings: what is kept from being collected", "statement": "After any calls, an element of a ring keeps (through next and prev) the elements of its own ring from being collected, and no others. In particular, after Unlink the ring that was cut out and the rest keep nothing of each other; an element that was never linked keeps only itself.", "quantifier": "all sequences of calls", "why_tests_cant": "what is kept cannot be seen through the API; a leak shows only as memory use", "anchors": ["ring/ring.go:Link", "ring/ring.go:Unlink", "ring/ring.go:New"]}
{"id": "C182", "title": "Trees: what a node keeps from being collected", "statement": "As long as SetLeft and SetRight are given children without a parent and no loop is closed, a node keeps (through Parent, Left and Right) its own tree from being collected and nothing else; and once another node (or nil) was put in the place of a child, that child keeps just the nodes that were below it, which no node of the rest keeps any more.", "quantifier": "all sequences of NewNode, SetLeft and SetRight that keep the conditions", "why_tests_cant": "what is kept cannot be seen through the API; a leak shows only as memory use", "anchors": ["tree/tree.go:SetLeft", "tree/tree.go:SetRight"]}
{"id": "C183", "title": "A hash ring does not keep removed nodes", "statement": "After RemoveNodes or ResetNodes, a HashRing refers to no node that is not a member: the array behind its list of points holds only points of members and zero values, so that the memory of a removed (string) node can be reclaimed.", "quantifier": "for all hash functions, allocator decisions, sorting functions and map orders, all replica counts and all sequences of AddNodes, RemoveNodes and ResetNodes", "why_tests_cant": "The list of points is private and what lies beyond its length is not visible through any method; only a heap profile would show it.", "anchors": ["hashring/hashring.go:func (hr *HashRing[Node]) ResetNodes", "hashring/hashring.go:func (hr *HashRing[Node]) RemoveNodes", "vec/vec.go:func (v *Vec[T]) Clear()"]}
{"id": "C184", "title": "Dllist.Get goes the shorter way", "statement": "In a list of n elements Get(i) follows min(i+1, n-i) links: from the front over the elements before i if i < n/2, otherwise from the back over the elements behind i, and it looks at no other element of any list; for an i that is negative or at least n it follows none.", "quantifier": "for all lists reachable by any safe client and all i", "why_tests_cant": "The way is not visible in the result; a test of time can only sample.", "anchors": ["dllist/dllist.go:func (l *Dllist[T]) Get(i int)"]}
{"id": "C185", "title": "Ring.Do with functions that change the rings, or panic", "statement": "One would like: Do returns, if the function it is given always returns and changes the rings only by calls of the package. (This is false: if the function takes the element Do was called for out of the ring, or the element it was called for, Do goes round for ever. What holds: Do calls the function with the first element and after each call goes on with the element that then follows, until that is the first one; with a function that makes only calls of the package it meets no nil pointer; if each call leaves a way to the first element that is no longer than before, Do ends after at most Len calls; if the function only takes elements out behind the one it was called for, each element is passed at most once and in order, and those that stay in the ring all are.)", "quantifier": "for all functions on the memory of the rings and a state of their own, which may panic, and all states of the rings", "why_tests_cant": "Tests of Do only use functions that leave the ring alone.", "anchors": ["ring/ring.go:func (r *Ring[T]) Do(f func(T))"]}
{"id": "C186", "title": "HashRing.GetNode looks at logarithmically many points", "statement": "In a ring that has n members and r replicas GetNode compares the key with at most log2(n*r)+2 points, every one of them a point of a member; if there are no points it compares nothing.", "quantifier": "for all rings reachable by any calls, all keys and all hash functions", "why_tests_cant": "The comparisons are not visible in the result; a test of time can only sample.", "anchors": ["hashring/hashring.go:func (hr *HashRing[Node]) GetNode(key Node)"]}
{"id": "C187", "title": "Which methods of a tree node may be called on nil", "statement": "A call of a method of *Node panics if and only if the receiver is nil and the method is not one of IsLeftRelation, IsRightRelation, IsChildRelation, IsAncestorRelation, IsDescendantRelation, Layer, MaxDepth, TraversalBFS and DrawTree; these return false, false, false, false, true, -1, 0, no nodes and the empty text on nil (IsAncestorRelation if the walk up from its argument ends). Nil arguments never panic, traversals return no nil pointers, and on nodes no call panics, whatever the nodes are linked to, also if it does not come to an end.", "quantifier": "for all memories (cycles included), receivers and arguments", "why_tests_cant": "Tests call a few methods on a few trees; which calls survive nil, as BuildTree of nothing returns it, is not tested.", "anchors": ["tree/tree.go:func (n *Node[T]) TraversalDFS()", "tree/tree.go:func (n *Node[T]) Layer() int", "tree/tree.go:func (n *Node[T]) IsLeftRelation(node *Node[T]) bool"]}
{"id": "C188", "title": "Which calls on lists and elements panic because of nil", "statement": "In every state that calls lead to, a call of a method of Dllist or Element panics if and only if: the receiver is a nil element; or the list is nil and the method is Clear, Len, Front, Back, PushFront, PushBack or Get of an index that is not negative; or the first element given is nil; or the list is nil and the element given to Remove, InsertBefore, InsertAfter, MoveToFront or MoveToBack is in no list; or, for MoveBefore, MoveAfter and Swap, the first element is in the list (in no list if the list is nil) and the second one is nil, or the list is nil and the two are different elements of no list. So the second element may be nil if the first is not in the list. Other calls on a nil list change nothing and return nil, or the value for Remove. Calls that panic so change no list, no element in a list and no value; InsertAfter on a nil list leaves the next pointer of its mark set.", "quantifier": "for all memories that sequences of calls lead to, all calls with pointers that may be nil", "why_tests_cant": "Tests pass no nil pointers, and none use a nil list.", "anchors": ["dllist/dllist.go:func (l *Dllist[T]) MoveBefore(e, mark *Element[T])", "dllist/dllist.go:func (l *Dllist[T]) Get(i int) *Element[T]", "dllist/dllist.go:func (l *Dllist[T]) Remove(e *Element[T]) T"]}
{"id": "C189", "title": "Which calls on rings panic because of nil", "statement": "In every state that calls lead to, a call of a method of Ring, or a use of Value, panics if and only if the ring is nil and the call is none of Len, Do and Unlink of n <= 0; on nil these return 0, nothing and nil. So Move(0) on nil panics, Unlink(0) does not, and a nil argument of Link is never followed. Calls that panic change nothing. All other calls end.", "quantifier": "for all states that sequences of calls lead to, all calls with pointers that may be nil", "why_tests_cant": "Tests call Len and Do on nil and none of the other methods.", "anchors": ["ring/ring.go:func (r *Ring[T]) Unlink(n int) *Ring[T]", "ring/ring.go:func (r *Ring[T]) Link(s *Ring[T]) *Ring[T]", "ring/ring.go:func (r *Ring[T]) Move(n int) *Ring[T]"]}
{"id": "C190", "title": "Pushing another list, whatever calls were made before", "statement": "Let any calls be made before, also with elements that Clear or Sort left behind. PushBackList of another list then panics if and only if fewer elements than its Len are reached from its Front by Next; otherwise that many new elements are put into the list, with the values met on the way (the zero value if Front is the sentinel); Len grows by that many, and all other lists, the values and the owners of old elements stay as they are. PushFrontList does the same with Back and Prev. The calls with a mark do nothing if the mark is not in the list, and otherwise the same.", "quantifier": "for all memories that sequences of calls lead to, all pairs of different lists, all marks", "why_tests_cant": "No test pushes a list whose count is not that of the elements reached.", "anchors": ["dllist/dllist.go:func (l *Dllist[T]) PushBackList(other *Dllist[T])", "dllist/dllist.go:func (l *Dllist[T]) PushBackListTo(other *Dllist[T], mark *Element[T])", "dllist/dllist.go:func (l *Dllist[T]) PushFrontList(other *Dllist[T])", "dllist/dllist.go:func (l *Dllist[T]) PushFrontListTo(other *Dllist[T], mark *Element[T])"]}
{"id": "C191", "title": "Slice, whatever calls were made before", "statement": "Let any calls be made before, also with elements that Clear or Sort left behind. Slice of a list panics if its Len is negative (which Remove of an element left behind by Clear makes it), because it makes room for that many values first; otherwise it returns the values of the elements reached from Front by Next, each once, with the zero value if Front is the sentinel.", "quantifier": "for all memories that sequences of calls lead to, all lists", "why_tests_cant": "No test calls Slice on a list whose Len is not the number of its elements.", "anchors": ["dllist/dllist.go:func (l *Dllist[T]) Slice() []T", "dllist/dllist.go:func (l *Dllist[T]) Range(f func(e *Element[T]) (Continue bool)) (RangeAll bool)"]}
{"id": "C192", "title": "Sort, whatever calls were made before", "statement": "Let any calls be made before, also with elements that Clear or Sort left behind. Sort of a list with Len at most 1 does nothing. With a larger Len, right or not, Sort does not panic and comes back; afterwards the list has exactly the values that were reached from Front by Next (with the zero value if Front was the sentinel), sorted stably if the function is a strict weak order, and in any case none lost or doubled; Len is their number, even if it was wrong before; and other lists have what they had.", "quantifier": "for all memories that sequences of calls lead to, all initialised lists, all comparison functions", "why_tests_cant": "No test calls Sort on a list whose Len is not the number of its elements, or on one whose front is the sentinel.", "anchors": ["dllist/dllist.go:func (l *Dllist[T]) Sort(cmpLess func(T, T) bool)"]}
{"id": "C193", "title": "No call makes a worse list than those without loops", "statement": "The calls that read values of a sentinel (Slice, Sort and the pushes of a list, also of a list to itself), made in any order with all other calls and with any arguments, lead to no memory that the calls without loops do not lead to; so what holds after the latter (no crash, walks that end, Next and Prev inverse, and what Slice, Sort and the pushes do) holds after all calls. A list that was never initialised has Len 0 then, so Sort of any list that exists comes back and leaves exactly the values reached from Front by Next.", "quantifier": "for all sequences of calls that return, all arguments, all zero values", "why_tests_cant": "Tests make a few calls in a fixed order, and none mixes elements left behind by Clear with Sort and pushes of lists.", "anchors": ["dllist/dllist.go:func (l *Dllist[T]) Sort(cmpLess func(T, T) bool)", "dllist/dllist.go:func (l *Dllist[T]) PushBackList(other *Dllist[T])", "dllist/dllist.go:func (l *Dllist[T]) lazyInit()"]}
