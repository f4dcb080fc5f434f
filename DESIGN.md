# Formal model of zijiren233/gencontainer — design

The model lives in `lean/Verif/`, one directory per Go package. Each directory has

* `Model.lean` — the code, function by function, every definition citing `/repo` lines;
* `Spec.lean` (or a spec section at the head of the props file) — the small independent
  specification (plain lists, functions, multisets);
* `Lemmas.lean`/`Inv.lean` — helper lemmas and invariants;
* `Props.lean` — the property theorems, named in `MANIFEST.json`, with non-vacuity `example`s.

## Conventions of the model

* A Go panic (nil dereference, index out of range, write to nil map) is the value `none`
  (sequential models) or an explicit `panicked` flag/pc (concurrent models); theorems say when it
  cannot happen.
* Pointers are natural numbers (addresses) into an explicit memory; `nil` is `none`.
* Slices are (backing array, offset, length, capacity) over an explicit memory; capacities chosen by
  the Go allocator are an arbitrary parameter.
* Go map iteration order is an arbitrary permutation, universally quantified.
* Integers are unbounded (`Nat`/`Int`); overflow is out of scope except where stated.
* Concurrency: interleaving of atomic steps; each `sync/atomic` operation and each lock operation is
  one step, Go atomics being sequentially consistent. Plain fields protected by a mutex are read and
  written in the step of the lock holder's preceding atomic action.
* Time is an arbitrary value supplied at each `time.Now()`; where monotonicity is needed it is a
  stated hypothesis.
* Standard library pieces (`sort`/`slices` sorting, the ring's hash (CRC32 itself only in `HashRing/Crc.lean`), `fmt`, `reflect.Value.Equal`, `append`
  growth) are parameters constrained only by their documented contract.

## Properties: what is modelled and how it is proved

| id | model | proof |
|----|-------|-------|
| C01 | RWMap step machine: read/dirty maps, entries, mutex, one program counter per call | invariant + ghost timeline of linearization points (inserted in the middle for orphaned entries) |
| C02 | same machine, Range as snapshot + one entry load per step | each entry load is linearized as a lookup inside the call |
| C03 | explicit panic state, nil dirty map | unreachable by the invariant |
| C04 | len counter steps | counting over the timeline; refuted with concurrent Clear by a concrete execution, partial without |
| C05, C06 | — | corollaries of C01 (`Corollaries.lean`, `Handover.lean`) |
| C07 | same machine | termination measure for a schedule |
| C101, C102 | same machine | what stays in `read` since a Range has seen it, since a Range or Clear has returned |
| C103, C104 | same machine with counters of lock operations and copied entries | amortised accounting: misses and the length of `read` as potential |
| C105, C106 | same machine | effects in the timeline against what has been counted; C106 refuted, partial |
| C107 | the Go maps as objects on a heap, beside the same machine (`Maps.lean`) | invariant: `dirty` is none of the maps that have been in `read` |
| C125 | same machine; comparisons of values that panic | the panic is a result of the specification; the panicking call releases the lock |
| C108 | accesses of the next step of each call, checked against the steps (`accs_len`, `rwmap_plain_fields`) | refuted by `Clear`, partial: the mutex excludes all others |
| C08–C10, C12, C13 | SyncCache step machine over an atomic map (justified by C01 and C02), entries with mutable expiration, arbitrary clock | trace invariants: what each thread has found, checked, put and removed in its call; entries come once and go once; account of callbacks owed |
| C11 | same machine | refuted by a concrete execution, partial |
| C82–C87, C90–C92, C95 | same machine | same invariants |
| C93, C94 | the cache over the step machine of `RWMap` | forward simulation along the linearization; transfer of visible events |
| C115–C118 | all caches of a process: `caches`, `startOnce`, the trimming goroutine (`World.lean`) | projection to each cache; invariants on `startOnce` and on how far a round is; C118 refuted, partial |
| C88, C89 | same machine | counting tries against stores; well-founded measure of a call running alone |
| C14, C15, C17 | RefreshData step machine: one step per field access, lock operation and reading of the clock; outcome of a refresh function: ok / error / panic | trace invariants: what each thread has seen, who holds the lock, what the fields hold in terms of the newest refresh |
| C16, C18 | same machine | refuted for `maxAge` above the clock (e.g. the largest `time.Duration`), partial |
| C19 | same machine | refuted with a refresh in flight, partial |
| C20, C21 | same machine | refuted for panics, partial |
| C75–C77 | same machine | rank of the program counter; invariants on the functions in it |
| C78–C81, C96, C97 | same machine | invariant on what each call has seen when it comes to its result |
| C98, C99 | same machine | what a thread at the lock has seen; the argument of C17 for errors |
| C133 | same machine | puts to come, size of the map, snapshots to come, steps to come: a lexicographic rank over all calls in progress |
| C127 | expirations as integers modulo 2^64, over the events of C08–C13 | congruence and bounds along the events; refuted by far times, partial |
| C100 | accesses of the next step of each thread, checked against the steps (`acc_write`, `acc_read`) | refuted by `Get` and `Clear`, partial: the lock excludes all others |
| C129 | the histories of C01 | the call that put the current value in, followed along the linearization |
| C131, C132 | the step machine of C01 | a rank that every step of a call in progress lowers; C132 refuted by Swaps of one key, partial |
| C22–C26 | list-backed heap with a `less` parameter | sift-up/sift-down invariants, permutation lemmas |
| C109 | the functions of `heap.go` over any implementation of `heap.Interface` (`Iface.lean`), calls counted | simulation to the list-backed heap; induction along the path; sum of the heights for `Init` |
| C110 | the same over the items of `heap/example_pq_test.go`, which hold their position | simulation to the list-backed heap; invariant on positions |
| C27 | queue over the heap model | refinement to a multiset |
| C28–C36 | pointer memory with next/prev/list fields and list headers | refinement to `List` of element addresses; C33 (self), C35 refuted, partial |
| C136 | the same | induction along the loop: in front of the mark, behind it |
| C138 | the same, all calls | every call leaves the elements outside the lists it works on alone (`Frame.lean`); the place of the loop (in the list, removed, left behind) is kept by every call |
| C139 | `Sort` with a comparison function that has effects and may panic | refinement of a sort on plain lists (`Sorts`) by induction on the length; the original list is not touched before the last comparison (`sortE_kept`) |
| C140 | the same, all calls with any arguments (`Any`) | invariant `Sound`: the elements of a list are chains from the sentinel to the sentinel, with a rank that falls along `next`; kept by taking out, putting in, exchanging, `Clear`. The value of a sentinel, which Go has as the zero value and `Slice`, `Sort` and the pushes of a list could read in such states, is not modelled (`none`), so no theorem of C140 is about these calls there (C190 to C193 are) |
| C111, C112 | the same; `Range` over a function that makes calls | induction along the loop over the refinement; C111 refuted for `Clear`, partial |
| C37, C38 | hash map of addresses + the dllist pointer model | refinement to a recency list |
| C113 | the same; the function of `Range` as a program of calls | induction along the loop: what is behind the current element only shrinks; refuted for `Load` of the key itself, partial |
| C137 | the same, `Clear` too, for all keys | the place of the loop (at a key, removed, cleared) is kept by every call; old elements are left alone by later calls |
| C114 | the interleaving model of C14–C21; calls inside a function are calls of a thread that belongs to the thread running the function | invariants (who is inside what; who can wait for the lock), descent along the nesting; refuted for `Get` and `Refresh`, partial |
| C39–C43 | pointer memory with next/prev | cyclic chain predicate |
| C130 | the ring model with `n+1` in `w` bits | residues; refuted by the largest int, partial |
| C44–C48 | finite key lists with arbitrary iteration order | membership characterisation; C46 refuted |
| C121, C122 | sets as values, `==` only symmetric and transitive | members up to `==` and the multiset of NaNs determine every operation; C122 refuted for NaN, partial |
| C141 | `HashRing/Float.lean`: the calls of `hashring` over the sets of `Set/Float.lean`, one visiting order per loop | refinement to members up to `==` and two lists of NaNs (in the set, on the ring); 0 and -0 with the CRC of the code as example |
| C142 | `Lhashmap/Float.lean`: the map as in `Lhashmap/Model.lean`, on the pointers of `dllist`, the Go map with an `==` that is only symmetric and transitive | refinement to the list of the entries by last use; the statement (`Ok`, `Visits`) is on the calls made |
| C143 | `GenMap/Float.lean`: the calls on the entries of one or two maps; `CopyLoop` for a map copied to itself | refinement to values up to `==` and a multiset of NaN entries |
| C144 | `Heap/Panic.lean`: the functions of heap.go on a slice, with a comparison that has a state, may panic and may answer anything; the contents left by a panic are part of the result | loop invariants; the order after a panic by the invariants of `up` and `down` with one free position |
| C145 | `Heap/Model.lean` with an order that has elements comparable with nothing (`FloatLt`) | witnesses; the operations commute with `map`, so C22-C26 hold on the elements that are not NaN |
| C146 | `RWMap/Hash.lean`: the machine of C01 with lookups that panic (`hnext`), before the mutex, followed by the deferred functions | witness; simulation by the machine of C01, whose steps do not depend on `len` (`act_len`) |
| C147 | `RWMap/Float.lean`: the machine of C01 over Go maps in which lookups never find a NaN and assignments to one add an entry | simulation by the machine of C01 in which the NaN of each call is a key of its own (`rwmap_nan`); no call meets its own key before its last steps (`KeysOk`) |
| C148 | `Misc/Model.lean`: `utils.Max` with any `>`, the constructors of `rbtree` over a memory of nodes and trees | case analysis |
| C149 | `RWMap/Retain.lean`: the entries of `read.m` and `dirty`, and what they hold (`Kept`), on the machine of C01 | witness; invariant of C01; what a step adds to `dirty` (`next_keys`), to `read` (`next_read`), and to an entry (`next_val`) |
| C150, C151 | `Vec/Hidden.lean`: `v.Slice()[:v.Cap()]` (`room`); `hspec`, what is beyond the lengths after a call, on top of the sequences of C50 | witnesses; refinement: every call takes arrays that show `l ++ h` to arrays that show what `spec` and `hspec` say (`step_hid`), induction over the program |
| C152, C153 | `RWMap/HB.lean`: the machine of C01, every step with the steps that happen before it: those of its call, those before the last operation on what it loads or locks (`acqs`, `rels`, `Clk.next`); the last write of a key (`Wrote`) | invariant (`Wk`): what a place has published knows the last write of each key found there, or the key's writes up to the invocations of the calls that can still look there; witness |
| C154 | `SyncCache/SysEnds.lean`: the machine of `SyncCache/Sys.lean` (the cache over the steps of RWMap), steps without new calls (`SysGoes`) | lexicographic rank: puts to come less deletions made, lists of `Range` to come, steps to come of the cache (the entries left in the `Range` calls it is in included), then the rank of the map (`Goes`, C131); progress from `lock_invariant` and where a `Range` can be |
| C155 | `Refresh/Order.lean`: the machine of C14-C21; the value and the error as registers (`Reg`) that a refresh writes in its first step after its function has ended | invariant (`Held`): the register is what the newest refresh has left that has made that step; sources chosen at the moment of the read |
| C156 | `Heap/Retain.lean`: `Iface` over a slice with the array behind it (`Arr`); growth of `append` arbitrary | simulation (`arr_sim`) with the slices of C22-C26 that fixes the array from a place on; induction over calls |
| C157 | `Refresh/HB.lean`: what each step loads, stores, locks (`acq`, `rel`), happens-before over a trace (`Before`) | invariant: what a goroutine has at hand was given by an event it knows of, what is in a place by one known to the last store (`Inv`); the lock orders all events under it (`Serial`); every `Get`, `Raw`, `Last` loads the time (`Looking`) |
| C158 | `Refresh/Weak.lean`: the machine of C14-C21 with plain reads of any visible value (`Visible`, `WStep`, `WExec`) | the stores under the lock happen before a read under it, so only a `Clear` may be missed; invariant over the points of a `Get` (`Look`); the same statements as C14, C16, C19 |
| C159 | `SyncCache/SysHB.lean`: the machine of `Sys.lean` with happens-before (`SClk`, `HSys`); the steps of the map are ordered as in `RWMap/HB.lean` | every execution of the whole projects to one of `RWMap` with happens-before (`Embed`), so C152 gives what a call of the map knows; invariant over the points of the calls of the cache (`HInv`, `PcKnows`) |
| C160 | `SyncCache/Float.lean`: the cache's part of `Sys.lean` over the map of `RWMap/Float.lean` (`NSys`) | invariant over the points of the calls of the cache (`NInv`, `Says`); C147 for what the calls of the map return and what `Range` visits |
| C161 | `SyncCache/Hash.lean`: the cache's part of `Sys.lean` over the map of `RWMap/Hash.lean` (`HSys`) | simulation by the machine without the calls that panic (`HInv`), an explicit function (`hide`) from one execution to the other; the run of a call left alone, built step by step |
| C162 | `SyncCache/Proc.lean`: the caches of a process, `caches`, `startOnce` and the trimmer over the steps of `RWMap` | simulation of each cache (`ProcSim.lean`: the flag of `Model.lean` changes where the call of `caches` takes effect, and the trimmer looks at it where its `Range` finds the cache; C01 and C02 say there is such a place); invariants on `startOnce`, on where threads are, on whose the calls of `caches` are (`ProcInv.lean`) |
| C163 | `GenMap/Hash.lean`, `Lhashmap/Hash.lean`: every map access checks its key, and a panic keeps the state (`Lib/Pan.lean`) | induction over calls; those that do not panic do what `Model.lean` says, those that do are left out |
| C164 | `Refresh/Zero.lean`: the methods line by line, for one goroutine, with nil pointers and the deferred function (`Lib/Pan.lean`) | simulation by a small specification |
| C165 | `Vec/Panic.lean`: the methods on the elements of the vector, comparison functions with effects and panics (`Lib/Pan.lean`). `slices.SortFunc` and `SortStableFunc` are any procedure that compares elements and exchanges them, as those of the library do | invariant of the loop of `slices.CompactFunc`; induction over the procedure |
| C166 | `GenMap/Panic.lean`: the loops over the entries of a map, functions with effects and panics (`Lib/Pan.lean`) | induction over the entries |
| C167 | `Misc/Zero.lean`: the methods with nil fields, step by step (`Lib/Pan.lean`); heaps and `RefreshData` that are not nil are any | invariant over calls |
| C168 | the model of C27, `PQueue/Ties.lean` | with equal priorities nothing is moved by `up` and `down`: the last item takes the place of the first |
| C169 | the model of C05, `RWMap/Park.lean` | some calls make no more steps; a `Range` in its function is one that makes no step |
| C170 | the model of C154, `SyncCache/Park.lean` | threads in the deleted callback or the function of `Range` make no steps |
| C171 | `RWMap/Fair.lean` over the steps of `RWMap/Model.lean` | false as stated: `fair_false`; `fair_partial` and `fair_others`: if a call does not return, calls that change entries return again and again |
| C172 | the model of C14, `Refresh/Fair.lean` | runs without end; fairness is a condition on the run |
| C173 | the model of C08, `SyncCache/Fair.lean` | runs without end; fairness is a condition on the run; a call of the map is one step |
| C174 | the model of C08, `SyncCache/Settle.lean` | as C173; the ticker is the assumption that rounds begin again and again |
| C175 | the model of C115-C118 (`SyncCache/World.lean`), `SyncCache/WorldFair.lean` | as C115; the ticker is the assumption that rounds begin again and again, callbacks come to an end |
| C176 | the definitions of C167 (`Misc/Zero.lean`) on values made by `New`, `Misc/ZeroMade.lean` | as C167; keys and nodes with an ordinary `==` (no NaN); the sort gives a permutation (that it sorts is the contract of the library, as in C52–C60), the search is any function of the points; the heap, its moves and the data of the cache are any |
| C177 | the CRC-32 of `HashRing/Crc.lean` (bit by bit), `HashRing/Burst.lean` | as C61–C65, nodes and keys are strings (lists of bytes); the tables of the Go library are taken to compute the same |
| C178 | the memory of `Dllist/Model.lean`, `Dllist/Retain.lean`: reachability over `next`, `prev`, `list` | `Any` (no condition on calls) where no iteration is mentioned; what the values refer to, and the stack of a running call, are not counted |
| C179 | `Lhashmap/Model.lean` over the memory of `Dllist/Model.lean`, `Lhashmap/Retain.lean` | a Go map keeps what is in it and nothing else; functions given to `Range` do not use the map |
| C180 | `Vec/Model.lean` (arrays, slices as parts of arrays), `Vec/Slices.lean` | how much more than needed a new array holds is arbitrary for each; a call that panics ends the program |
| C181 | `Ring/Model.lean`, `Ring/Retain.lean` | what the Values refer to is not followed |
| C182 | `Tree/Model.lean`, `Tree/Retain.lean` | what the values refer to is not followed; fields are written by SetLeft and SetRight only |
| C183 | `HashRing/Retain.lean` | as the hash ring model; a cell of the array is taken to keep its node, the set of members keeps exactly the members (C65) |
| C184 | `Dllist/Cost.lean` | `Get` with notes of the elements whose links are read (the notes change nothing: `getT_fst`); the checks in `lazyInit` are not counted |
| C185 | `Ring/DoF.lean` | the function is any function of the value on the rings and a state of its own; one goroutine; `Do` inside `Do` is covered as far as the inner one ends |
| C186 | `HashRing/Cost.lean` | `GetNode` with notes of the points compared (the notes change nothing: `getNodeT_fst`); one comparison is a call of the function that `BinarySearch` gives to `slices.BinarySearchFunc`, which calls `Less` and perhaps `Equal` |
| C187 | `Tree/Nil.lean` | all methods of `*Node` with every dereference and index spelled out, panics and endless calls told apart; `C187_node`: on nodes it is the model of `Tree/Model.lean`; a stack overflow of endless recursion counts as not ending |
| C188 | `Dllist/Nil.lean` | the methods statement by statement with pointers that may be nil, in `Pan`; `C188_some`: without nil it is the model of `Dllist/Model.lean`; `Get`'s walk on a list that is not nil is the one of that model; `Slice`, `Sort` and `Range`, which look at the list first, and the pushes of whole lists are left out |
| C189 | `Ring/Nil.lean` | the methods statement by statement with pointers that may be nil, in `Pan`; `C189_some`: without nil it is the model of `Ring/Model.lean`; integers are unbounded (C130 has the wraparound of `n + 1`) |
| C190 | `Dllist/Push.lean` | the four pushes of a list with the zero value of sentinels, in the states of C140; `C190_model`: where the calls of `Dllist/Model.lean` return, these do the same; the two lists are different (C33 is about pushing a list onto itself); clients do not write the value of a sentinel |
| C191 | `Dllist/SliceAny.lean` | `Slice` with the zero value of sentinels and the panic of `make` for a negative count, in the states of C140; `C191_model`: where the count is not negative and `Slice` of `Dllist/Model.lean` returns, it is the same |
| C192 | `Dllist/SortAny.lean` | `Sort` with the zero value of sentinels, in the states of C140; hypotheses: the list exists and, for a count above 1, was initialised (a list that no push or `Init` touched counts 0); the comparison is a pure function; clients do not write the `Value` of the sentinel; `C192_model`: where `Sort` of `Dllist/Model.lean` returns, it is the same |
| C193 | `Dllist/AllCalls.lean` | as C190 to C192, with `All`: the calls of C140 and those with the zero value of sentinels; calls that panic half way (a push of a list whose `Len` is too large) and are recovered from are left out; the lists given exist |
| C49–C51 | association lists | refinement to partial functions; C50 refuted, partial |
| C134, C135 | a loop over a Go map as the language specification has it, with functions that change the map (`During.lean`) | invariants on the keys that must and must not be passed, along the events |
| C52–C60 | slices over backing arrays; std `slices` algorithms transcribed, sorting by contract | refinement to `List`; C53 refuted, partial |
| C119, C120 | the same; `Range` over a function that makes calls and writes to slices | induction along the loop over the refinement; C120 refuted for `Remove`, partial |
| C123 | kinds, values and accessors of `reflect`; the detected comparisons as an `Elt` | case analysis; refuted for all pointers, partial |
| C124 | floats as an order with unordered elements; insertion sort of `slices` transcribed | induction over the insertion sort; refuted by `[3, NaN, 1]`, partial |
| C126 | the read-only methods again, with functions acting on a state | induction over the loops with a log of the calls |
| C74 | comparison functions as references to the original vector | refuted by a concrete program, partial |
| C61–C65 | ring over set and vec with a hash parameter | successor characterisation; C61 refuted by a real CRC32 collision, partial |
| C66–C73 | node memory with Val/Parent/Left/Right; inductive trees as spec | refinement to inductive trees; C68, C71, C73 refuted, partial |
| C128 | the node memory of C66–C73 | a finite tree below a node or an endless way down; refuted by a node below itself, partial |

## What is not modelled, and how the pieces fit

* **RWMap** is modelled step by step and proved linearizable (C01). **SyncCache** is modelled over an atomic map: an
  operation of `RWMap` is one step, and its `Range` is a snapshot of the keys (any superset of those present, any
  order) followed by one look-up per key, which sees what the map held for that key at *some* instant since the snapshot. C93 proves that nothing is
  lost by this: in `Sys.lean` the cache runs over the step machine of `RWMap`, the two meeting where a call of the map is made, where its
  `Range` calls its function and where it returns; every execution of that has the same visible events as one of the atomic model (the operation done
  at its linearization point, the snapshot taken where `Range` is called). A `Range` of the map whose function stopped it is left unfinished there:
  after that it does nothing with the map. Calls made inside a callback count as another thread. A zero `Entry` made by the program is what
  `NewEntry` makes of the zero value when the clock and the duration add up to 0.
* Keys: `==` is an equality (no NaN keys, no two equal keys that differ, none that cannot be hashed, except for `rwmap` in `RWMap/Hash.lean`, C146, `synccache` in `SyncCache/Hash.lean`, C161, and maps and linked hash maps in `GenMap/Hash.lean`, `Lhashmap/Hash.lean`, C163), except for sets, hash rings, linked hash maps, maps, `rwmap` in `Set/Float.lean`, `HashRing/Float.lean`, `Lhashmap/Float.lean`, `GenMap/Float.lean`, `RWMap/Float.lean`, and `synccache` in `SyncCache/Float.lean` (C121, C122, C141-C143, C147, C160; in the last two, 0 and -0 count as one key). Values compared by `CompareAndSwap`/`CompareAndDelete`/`reflect` are compared by a parameter that
  may be undefined (a panic).
* Happens-before (C152, C153, C157, C159; in C157 the plain reads in refreshcache.go:108 and 111 synchronize with nothing): `sync/atomic` operations and locks as in the Go memory model: a load (also of a swap or of a compare-and-swap, failed or not) comes after the
  last store to the same place; a store that is not part of a swap or compare-and-swap is not after earlier stores. In C152 and C153 the calls are each in a goroutine of its own that does not synchronize in any other way; in C159 a call of the map belongs to the goroutine of the call of the cache.
* Integers do not overflow (`Ring.Unlink(n)` computes `n+1`; lengths); for expirations see C127.
* `vec` imports `golang.org/x/exp/slices` (October 2024), whose source is not in the sandbox: it is read as package `slices` of Go 1.22, where `Delete`,
  `Replace` and `CompactFunc` write zero values to the places they vacate (of this only C150 depends).
* The comparisons given to `WithCmpLess`, `SetCmpLess` and the like are functions of their arguments or nil; method values of vectors
  (`v.SetCmpLess(v.CmpLess)`, after which comparing would never end) appear only where `Clone` and `SplitOff` make them.
* Capacity hints (`NewSet(cap)`, `make(…, n)`) have no effect. Growth of slices by `append` is an arbitrary function.
* `natural.Less` and the other comparisons given by the user are parameters; theorems about sorting say what they need of them.
  A comparison may be missing (calling it panics); sorting is a function of such a comparison (`SortImpl` in `Vec/Spec.lean`): the contract
  says that it moves elements, when it panics, and that it sorts if the comparison is a strict weak order on the elements of the slice.
  After a panic inside a sort nothing is said of the vector.
* `refreshcache0` and `refreshcache1` are the code of `refreshcache` with no argument and one argument of `Get` instead of any number; one model stands
  for the three. Likewise `Store`, `Delete` and `SlowLen` of `RWMap` are `Swap`, `LoadAndDelete` and `Range` with part of the result dropped.
* The plain (racy) read of `r.last` and friends in `refreshcache` is one step that sees the newest value; but in C158 any value that happens-before leaves visible.
  The memory model also says that a read of one word sees a value that was stored there, not a mixture: on a 32-bit machine this does not hold of an int64.
  The `ctx` argument is not modelled, it is only passed on.
* `NewSyncCache(trimTime)`: the code ignores `trimTime`, the trimmer always runs every 5 seconds; rounds of the trimmer may come at any
  time in the model. In `Model.lean` the process-wide set of caches is reduced to whether this cache is in it; `World.lean` has all the caches of a
  process (of the same types), the set and `startOnce`. The set is a `RWMap`, in `World.lean` with atomic operations as above, in `Proc.lean` (C162) step by
  step, as are the maps of the caches.
* An `Entry` made by the user without `NewEntry` (`&Entry[V]{}`) is not modelled.
* Copies of the structs made by the user (`l2 := *l`, `e2 := *e`), and elements, entries and nodes made by the user without the constructors, are not modelled.
* Not modelled at all: the methods of `utils.NoCopy` (they do nothing), `sllist` (empty), the terminal output of `Tree.DrawTree` apart from the layers
  it prints.

## Where the code disagrees with its description

Each of these is a theorem `…_false` with a concrete witness; the true part is proved beside it.

* `Set.IsSupperSet` returns the negation (C46); so does `Tree`'s `IsDescendantRelation` (C71).
* `GenMap.LoadOrStore` returns the zero value when it stores (C50).
* `PQueue`: items of equal priority do not come out in the order they were pushed, and one may stay in the queue forever (C168).
* `SyncCache.LoadOrStore` may never return even though the scheduler is fair, while other calls store entries for the key that expire at once (C173).
* `RWMap`: a call may never return even though the scheduler is fair: other calls can keep a `Swap` that holds the mutex in `tryExpungeLocked` for ever, and every call that waits for the mutex with it (C171).
* `Dllist`: pushing a list onto itself, stale elements (C33, C35); `Range` goes on through a cleared list (C111); elements left by `Clear` or `Sort` keep the list and each other (C178).
* `Vec.Range` skips the element after one that its function removes (C120).
* Vectors of pointers: comparisons are detected for what the pointers point to, but called on the pointers: they panic, or (strings) all elements
  are equal (C123). `Sort` does not put NaNs first (C124).
* Sets of floats: NaNs pile up and cannot be removed (C121, C122). A cache with a callback does not remove what was stored with a NaN, neither in `Clear` nor when it has expired (C160). Heaps of floats with NaNs are not heaps: `Pop` need not return the least (C145).
* `RWMap`: a deletion need not synchronize before a `Load` that finds nothing, if a `LoadAndDelete` that found the emptied entry came between (C153); the documentation counts that one as a write too.
* `RWMap` keeps removed keys, with empty entries, until `dirty` has become `read` twice (C149).
* `RWMap`: `Store`, `Swap` and `LoadOrStore` of a key that cannot be hashed panic and still count the entry in `Len` (C146).
* `Lhashmap.Range` never ends if its function loads the key it is given (C113).
* `RWMap.Len` after a `Clear` that overlaps other calls (C04); it can be negative (C106); `Clear` assigns to `len`, which other calls access by
  `sync/atomic`: a data race (C108).
* Updates of one key can keep another update of it retrying as long as they go on (C132).
* `SetExpiration` with a time some 292 million years away or more can give an expired entry (C127).
* `SetLeft`/`SetRight` accept a node that is above the receiver; then most calls run forever (C128). They leave the old parent pointing at the node (C68); `DrawTree` breaks lines after 1, 2, 4, 6, 8, … values (C73).
* `Ring.Unlink(math.MaxInt)` overflows and removes the wrong number of elements (C130).
* `Vec.Clear` does not shrink the capacity as its comment says (C151); Pop, Remove, Clear, Cut and SplitOff keep removed elements in the array (C150).
* `Pop` and `Remove` of the heaps and of `PQueue` leave the element in the array (C156); nothing in the documentation says otherwise.
* A `Clear` that has returned need not happen before the run of the refresh function in a later `Refresh` (C157).
* A `Get` that takes the lock after a `Clear` may still see the time of before it, because it reads the field without synchronization (C158).
* `Vec.Cut` returns a slice that is overwritten by the cut itself (C53); comparators of a copied `Vec` are those of the original (C74); a comparison
  function that panics in `Compact` leaves some elements twice and others not at all (C165).
* `HashRing.GetNode` returns the key if its hash collides with a point (C61).
* `RefreshCache`: a panic in the refresh function stores the zero value as a success (C20, C21); a refresh in flight undoes `Clear` (C19); a
  `maxAge` above the Unix clock makes everything fresh (C16, C18); `Get` reads `last` without `sync/atomic` under the lock, `Clear` writes it
  without the lock: a data race (C100); a refresh function that calls `Refresh` of its own cache, or `Get` when the value is not fresh, waits
  forever (C114).
* `SyncCache.LoadOrStore` can return an expired entry (C11). The trimmer waits for the deleted callbacks it calls: one that does not return ends all
  trimming, of all caches (C118).

## Wrong programs

`seeded/LOG.jsonl` has one line per wrong version of a definition that was tried: what was edited, which claim it breaks, which theorems failed to
check. That a proof fails does not show that the statement is false. For `RWMap`, `SyncCache` and `RefreshCache` the scripts in `seeded/fuzz/` run random
executions of the edited step machine against the statements of the theorems written out as programs; `violating_executions_found` in a line of the log
lists the statements found violated. Edits that violated none led to stronger or new statements (`tightened`).

A line whose `result` begins with INVALID counts for nothing: the edited definition, or a definition or structure that uses it, did not compile (`compile_errors`), so
no theorem was put to the test. Fifteen such lines had first been logged as caught; where an edit that compiles does the same, it was tried again and is
further down in the log.

## Trusted base

Lean 4.33.0's kernel; the axioms `propext`, `Classical.choice`, `Quot.sound` at most (checked with
`#print axioms`); the reading of the Go source in the `Model.lean` files. No `sorry`, no own axioms,
no `native_decide`/`bv_decide`.

### Axioms of the theorems in `MANIFEST.json`

Printed by `#print axioms` (names without the prefix `Verif.`):

* none (9): Dllist.C111_clear_false, Dllist.C140_lists_panic, Dllist.C178_left_false, Dllist.getT_fst, Ring.DoF.C185_nil, Ring.DoF.C185_forever, Dllist.C33_self_false, Dllist.C35_stale_false, Ring.C43_nil

* `propext` (41): Refresh.C100_false, RWMap.rwmap_race_false, Vec.C123_false, Vec.C123_partial, Vec.eltOf_less, Vec.eltOf_eq, Vec.C126_three, SyncCache.C127_false, SyncCache.C127_false_add, Ring.C130_nothing, GenMap.During.deleteFunc_only, GenMap.During.deleteFunc_true, GenMap.During.deleteFunc_goes_on, Lhashmap.Float.C142_nan_miss, Lhashmap.Float.C142_nan_stays, RWMap.Float.nnext_next, Misc.C148_max, Misc.C148_order, Misc.C148_newNode, Misc.C148_newTree, RWMap.rwmap_forgets_removed_false, SyncCache.Float.nsys_sys, SyncCache.Float.exNan, SyncCache.Hash.exHash, SyncCache.Hash.exHash_hide, GenMap.Hash.C163_panics, GenMap.Hash.C163_panics_loadOrStore, GenMap.Hash.C163_loadOrStore, Vec.Panic.C165_sort_calls, Zero.C167_queue, Zero.C167_cache, Zero.C176_queue, Zero.C176_cache, Tree.C182_shared_false, Ring.Nil.C189_nil, Tree.C68_links_false, Tree.C68_exact, Tree.C68_setLeft, Tree.C68_setRight, Tree.C70_nil, Tree.C72_grandparent

* `Quot.sound`, `propext` (134): RWMap.rwmap_len_false, RWMap.rwmap_len_nonneg_false, Heap.heap_counted, SyncCache.sync_los_live_false, Heap.heap_index_push, Vec.C119_push_forever, Vec.C126_binarySearch, Vec.C126_search, Vec.C126_searchAll, Vec.C126_extremes, Vec.C126_pure, GenMap.During.range_stops, GenMap.During.range_result, GenMap.During.range_endless, GenMap.During.loadOrStoreFunc_spec, Dllist.C139_pure, Dllist.C140_returns, Dllist.C140_any, Dllist.C140_inverse, Dllist.C140_front, Dllist.C140_back, Dllist.C140_sentinel_panic, HashRing.Float.C141_stay, HashRing.Float.C141_clear, HashRing.Float.C141_doubles, HashRing.Float.C141_zero, GenMap.Float.C143_self, GenMap.Float.C143_self_same, Heap.Panic.C144_push, Heap.Panic.C144_init_returns, Heap.Panic.C144_push_returns, Heap.Panic.C144_pop_returns, Heap.Panic.C144_remove_returns, Heap.Panic.C144_fix_returns, Heap.Panic.C144_push_order, Heap.Panic.C144_calls, Heap.Float.C145_false, Heap.Float.C145_init, Heap.Float.C145_init_drain, Heap.Float.C145_push_pop, Heap.Float.C145_pop_order, Heap.Float.C145_push, RWMap.rwmap_hash_alone, Misc.C148_greatest, RWMap.rwmap_change_sync_false, Refresh.C155_mixed_false, Heap.Retain.C156_push, Refresh.HB.C157_refresh_false, Refresh.C16_false, SyncCache.Proc.exG_exec, SyncCache.Proc.exG_seen, Refresh.Zero.C164, Vec.Panic.C165_false, Vec.Panic.C165_sort_partial, Vec.Panic.C165_compareAndRemove, GenMap.Panic.C166_range, GenMap.Panic.C166_deleteFunc, GenMap.Panic.C166_equalFunc, GenMap.Panic.C166_loadOrStoreFunc, Zero.C167_linked, Zero.C167_ring, PQueue.C168_false, PQueue.C168_same_partial, PQueue.C168_drain, PQueue.C168_starves, Refresh.C172_weak, SyncCache.C173_false, Zero.C176_queue_all, HashRing.C177_eleven, HashRing.C177_prefix, HashRing.C177_same_replicas, Dllist.C178_apart, Dllist.C178_removed, Dllist.C178_idle, Refresh.C18_false, Ring.DoF.C185_false, Ring.DoF.C185_do, Ring.DoF.C185_ends, Ring.DoF.C185_once, Ring.DoF.IsRing.path, HashRing.getNodeT_fst, Tree.Nil.C187_panics, Tree.Nil.C187_nil, Tree.Nil.C187_node, Dllist.Nil.C188_panics, Dllist.Nil.C188_some, Dllist.Nil.C188_same, Dllist.Nil.C188_nil, Ring.Nil.C189_panics, Ring.Nil.C189_some, Refresh.C19_false, Dllist.Push.C190_pushBackList, Dllist.Push.C190_pushFrontList, Dllist.Push.C190_pushBackListTo, Dllist.Push.C190_pushFrontListTo, Dllist.Push.C190_model, Dllist.Push.C191_model, Dllist.Push.C191_negative, Dllist.Push.C192_model, Refresh.C20_false, Refresh.C21_false, Heap.C24_push_perm, GoSet.C46_isSupperSet_false, GenMap.C50_loadOrStore_false, GenMap.C50_loadOrStore_partial, Vec.C52_clip, Vec.C54_views_stay, Vec.C55_binarySearch, Vec.C55_binarySearchFunc, Vec.C56_searchFunc, Vec.C56_search, Vec.C56_panic, Vec.C58_extremes, Vec.C58_func, Vec.C60_compare, Vec.C60_equal, Tree.C67_dfs, Tree.C67_bfs, Tree.C67_depth, Tree.C67_nil, Tree.C69_layer, Tree.C69_layer_nil, Tree.C69_layer_depth, Tree.C69_maxDepth_nil, Tree.C70_ancestor, Tree.C71_negated_partial, Tree.C72_sibling, Tree.C72_uncle, Tree.C72_has, Tree.C73_draw_false, Tree.C73_exact, Tree.C73_draw_partial, Tree.C73_values, SyncCache.sync_expiration

* `Classical.choice`, `Quot.sound`, `propext` (452): RWMap.rwmap_linearizable, RWMap.rwmap_range, RWMap.rwmap_range_visits, RWMap.rwmap_range_stop, RWMap.rwmap_no_panic, RWMap.lock_invariant, RWMap.rwmap_plain_fields, RWMap.rwmap_len_partial, RWMap.rwmap_loadOrStore_once, RWMap.rwmap_loadOrStore_once_since, RWMap.rwmap_one_remover, RWMap.rwmap_can_complete, RWMap.rwmap_unlocked, SyncCache.sync_load_live, SyncCache.sync_range_live, SyncCache.sync_cb_once, SyncCache.sync_cb_only, SyncCache.sync_removed_once, SyncCache.sync_not_removed, SyncCache.sync_leaves, SyncCache.sync_removal, SyncCache.sync_expiry_only, Refresh.C100_partial, Refresh.C100_noClear, RWMap.rwmap_seen, RWMap.rwmap_settled, RWMap.rwmap_cleared, RWMap.rwmap_lookups, RWMap.rwmap_copying, RWMap.rwmap_copying_noRange, RWMap.rwmap_len_window, RWMap.rwmap_len_nonneg_partial, RWMap.rwmap_map_contents, RWMap.rwmap_map_writes, RWMap.rwmap_map_reads, RWMap.rwmap_map_frozen, RWMap.rwmap_map_range, RWMap.rwmap_race_partial, RWMap.rwmap_race_noClear, Heap.heap_init_cost, Heap.heap_push_cost, Heap.heap_pop_cost, Heap.heap_remove_cost, Heap.heap_fix_cost, SyncCache.sync_los, SyncCache.sync_los_live_partial, Heap.heap_index, Heap.heap_index_init, Heap.heap_index_pop, Heap.heap_index_remove, Heap.heap_index_update, Dllist.C111_range_partial, Dllist.C112_range, Lhashmap.C113_range_false, Lhashmap.C113_range_partial, Refresh.C114_false, Refresh.C114_get_false, Refresh.C114_partial, SyncCache.world_cache, SyncCache.world_one_trimmer, SyncCache.world_started, SyncCache.world_round_by, SyncCache.world_start_goes_on, SyncCache.world_round, SyncCache.world_trim, SyncCache.world_one_at_a_time, SyncCache.world_blocked_false, SyncCache.world_goes_on_partial, Vec.C119_range, Vec.C119_ends, SyncCache.sync_cvd_yes, SyncCache.sync_cvd_no, SyncCache.sync_cvd_why, Vec.C120_false, Vec.C120_passes_partial, GoSet.Float.C121_float, GoSet.Float.C122_laws_false, GoSet.Float.C122_laws_partial, Vec.C123_numbers, Vec.C123_strings, Vec.C124_false, Vec.C124_partial, Vec.C124_stays, RWMap.rwmap_incomparable, RWMap.rwmap_incomparable_unlocked, RWMap.rwmap_comparable, Vec.C126_pairs, Vec.C126_isSorted, SyncCache.C127_exact, SyncCache.C127_partial, Tree.C128_false, Tree.C128_exact, Tree.C128_partial, Tree.C128_call, RWMap.rwmap_ledger, SyncCache.sync_clear, SyncCache.sync_clear_empty, SyncCache.sync_clear_reports, Ring.C130_false, Ring.C130_exact, Ring.C130_partial, Ring.C130_wrong, RWMap.rwmap_ends, RWMap.rwmap_goes, RWMap.rwmap_all_return, RWMap.rwmap_waits, RWMap.rwmap_turns_false, RWMap.rwmap_turns_partial, SyncCache.sync_finite, SyncCache.sync_goes, SyncCache.sync_all_return, GenMap.During.range_current, GenMap.During.range_once, GenMap.During.range_all, GenMap.During.range_bound, GenMap.During.range_goes, GenMap.During.range_perm, Dllist.C136_pushFrontListTo_last, Dllist.C136_pushFrontListTo_inner, Dllist.C136_pushBackListTo, Lhashmap.C137_range, Dllist.C138_range, Dllist.C139_sort, Dllist.C139_panic, Dllist.C139_asked, Dllist.C139_worst, Refresh.C14, Refresh.C14_pair, Dllist.C140_walk, Dllist.C140_range, HashRing.Float.C141_ring, HashRing.Float.C141_points, Lhashmap.Float.C142_float, Lhashmap.Float.C142_returns, GenMap.Float.C143_float, GenMap.Float.C143_self_any, GenMap.Float.C143_equal, Heap.Panic.C144_init, Heap.Panic.C144_fix, Heap.Panic.C144_pop, Heap.Panic.C144_remove, Heap.Panic.C144_total, Heap.Panic.C144_pop_order, Heap.Panic.C144_remove_order, Heap.Panic.C144_fix_order, Heap.Panic.C144_repair, Heap.Float.C145_partial, RWMap.rwmap_hash_false, RWMap.rwmap_hash_partial, RWMap.rwmap_hash_harmless, RWMap.rwmap_hash_no_len, RWMap.rwmap_hash_panics, RWMap.Float.rwmap_nan, RWMap.Float.rwmap_nan_iff, RWMap.Float.rwmap_nan_ends, RWMap.Float.rwmap_nan_absent, RWMap.Float.rwmap_nan_no_panic, RWMap.Float.rwmap_nan_stays, RWMap.Float.rwmap_nan_visited, RWMap.Float.rwmap_nan_len, RWMap.rwmap_keeps_no_value, RWMap.rwmap_forgets, RWMap.rwmap_keeps_keys, RWMap.rwmap_clear_forgets, Refresh.C15, Vec.C150_false, Vec.C150_exact, Vec.C150_pop, Vec.C150_partial, Vec.C150_compact_partial, Vec.C151_false, Vec.C151_cap, Vec.C151_push, Vec.C151_clip, RWMap.rwmap_value_sync, RWMap.rwmap_visit_sync, RWMap.rwmap_put_once, RWMap.rwmap_write_sync, RWMap.rwmap_range_sync, RWMap.rwmap_last_write_sync, SyncCache.sys_finite, SyncCache.sys_goes, SyncCache.sys_stuck, SyncCache.sys_all_return, Refresh.C155_values, Refresh.C155_errors, Heap.Retain.C156_clean_false, Heap.Retain.C156_kept, Heap.Retain.C156_pop, Heap.Retain.C156_remove, Heap.Retain.C156_init, Heap.Retain.C156_fix, Heap.Retain.C156_stays, Heap.Retain.C156_grows, Heap.Retain.C156_drain, Refresh.HB.C157_sources, Refresh.HB.C157_serial, Refresh.HB.C157_clear, Refresh.HB.C157_clear_last, Refresh.Weak.C158_serial, Refresh.Weak.C158_exclusive, Refresh.Weak.C158_lastErr, Refresh.Weak.C158_last, Refresh.Weak.C158_exec, Refresh.Weak.C158_noClear, Refresh.Weak.C158_served, Refresh.Weak.C158_clear, Refresh.Weak.C158_false, SyncCache.C159_order, SyncCache.C159_entry, SyncCache.C159_yield, SyncCache.C159_callback, SyncCache.C159_reads, Refresh.C16_partial, SyncCache.Float.C160_absent, SyncCache.Float.C160_callback, SyncCache.Float.C160_stays, SyncCache.Hash.hsys_sys, SyncCache.Hash.C161_without, SyncCache.Hash.C161_atomic, SyncCache.Hash.C161_panics, SyncCache.Hash.C161_alone, SyncCache.Hash.C161_keys, SyncCache.Proc.C162_cache, SyncCache.Proc.C162_atomic, SyncCache.Proc.C162_one_trimmer, SyncCache.Proc.C162_trimmer, SyncCache.Proc.C162_in_turn, SyncCache.Proc.C162_round, SyncCache.Proc.C162_registered, GenMap.Hash.C163_map, Lhashmap.Hash.C163_linked, Vec.Panic.C165_compact, PQueue.C168_distinct_partial, RWMap.rwmap_range_unlocked, RWMap.rwmap_park_go, RWMap.rwmap_park_all, RWMap.rwmap_range_calls, Refresh.C17, SyncCache.sys_park_go, SyncCache.sys_park_all, SyncCache.sys_fn_calls, RWMap.fair_false, RWMap.fair_partial, RWMap.fair_others, Refresh.C172_returns, SyncCache.C173_partial, SyncCache.C173_others_partial, SyncCache.C173_quiet_partial, SyncCache.C174_trimmed, SyncCache.C175_round, SyncCache.C175_trimmed, Zero.C176_linked, Zero.C176_ring, HashRing.C177_burst, HashRing.C177_replicas, HashRing.C177_ten, HashRing.C177_nodes, HashRing.C177_member, HashRing.C177_history, HashRing.C177_twins, HashRing.C177_labels, Dllist.C178_list, Dllist.C178_list_removed, Dllist.C178_out, Dllist.C178_cleared, Lhashmap.C179_entries, Lhashmap.C179_keys, Lhashmap.C179_elems, Refresh.C18_partial, Refresh.C18_never, Vec.C180_moves, Vec.C180_grow, Vec.C180_frozen, Vec.C180_others, Vec.C180_sliceCut, Vec.C180_slice, Ring.C181_ring, Ring.C181_unlink, Tree.C182_tree, Tree.C182_setLeft, Tree.C182_setRight, HashRing.C183_false, HashRing.C183_partial, HashRing.C183_call, HashRing.C183_remove, HashRing.C183_all, Dllist.C184_get, Ring.DoF.C185_noNil, HashRing.C186_getNode, Ring.Nil.C189_total, Refresh.C19_partial, Refresh.C19_source, Dllist.Push.C191_slice, Dllist.Push.C192_sort, Dllist.Push.C193_all, Dllist.Push.C193_zero, Dllist.Push.C193_sort, Refresh.C20_partial, Refresh.C20_exact, Refresh.C21_partial, Heap.C22_init_heap, Heap.C22_reachable_heap, Heap.C23_pop_least, Heap.C24_init_perm, Heap.C24_pop_perm, Heap.C24_remove_perm, Heap.C24_fix_perm, Heap.C25_fix_restores, Heap.C26_init_drain_sorted, Heap.C26_push_drain_sorted, Heap.C26_minheap, Heap.C26_maxheap, PQueue.C27_priority_queue, Dllist.C28_sequence, Dllist.C29_foreign_noop, Dllist.C29_frame, Dllist.C30_swap, Dllist.C31_get, Dllist.C32_pushBackList, Dllist.C32_pushFrontList, Dllist.C33_pushFrontListTo_partial, Dllist.C33_pushBackListTo_partial, Dllist.C34_sort, Dllist.C35_stale_partial, Dllist.C36_zero_value, Lhashmap.C37_map, Lhashmap.C38_range, Lhashmap.Visits.unique, Ring.C39_new, Ring.C39_zero, Ring.C39_inverse, Ring.C39_period, Ring.ring_len, Ring.ring_refines, Ring.ring_total, Ring.every_ring, Ring.C40_move, Ring.C41_join, Ring.C41_split, Ring.C41_self, Ring.C41_nil, Ring.C42_unlink, Ring.C43_do, GoSet.C44_difference, GoSet.C44_symmetricDifference, GoSet.C44_intersection, GoSet.C44_union, GoSet.C45_isSubSet, GoSet.C46_isSupperSet_partial, GoSet.C47_history, GoSet.C48_equal, GoSet.C48_clone, GoSet.C48_independent, GenMap.C49_history, GenMap.C51_equalFunc, Vec.C52_history, Vec.C52_panic, Vec.C52_grow, Vec.C53_false, Vec.C53_exact, Vec.C53_cut_partial, Vec.C54_independent, Vec.C54_views, Vec.C54_clone, Vec.C54_splitOff, Vec.C54_cloneToSlice, Vec.C55_binarySearch_on, Vec.C57_sort, Vec.C57_sort_on, Vec.C57_sortFunc_on, Vec.C57_isSorted, Vec.C57_isSorted_on, Vec.C57_moves, Vec.C58_extremes_on, Vec.C58_func_on, Vec.C59_compact, Vec.C60_compare_on, Vec.C60_at, HashRing.C61_false, HashRing.C61_partial, HashRing.C62, HashRing.C62_exact, HashRing.C63, HashRing.C64_add, HashRing.C64_remove, HashRing.C65, HashRing.C65_noop, HashRing.C65_count, Tree.C66_build, Tree.C66_full, Tree.C67_once, Tree.C68_links_partial, Tree.C69_maxDepth, Tree.C71_descendant_false, Tree.C72_predicates, Tree.C73_iff, Tree.C73_build, Vec.C74_false, Vec.C74_partial, Refresh.C75_bound, Refresh.C75_progress, Refresh.C75_free, Refresh.C76, Refresh.C76_set, Refresh.C77, Refresh.C78, Refresh.C79_ok, Refresh.C79_err, Refresh.C80_ok, Refresh.C80_err, Refresh.C81, SyncCache.sync_isExpired, SyncCache.sync_expiration_calls, SyncCache.sync_fresh_entry, SyncCache.sync_trim, SyncCache.sync_range_once, SyncCache.sync_range_all, SyncCache.sync_store, SyncCache.sync_load_stored, SyncCache.sync_load_nil, SyncCache.sync_closed, SyncCache.sync_reg, SyncCache.sync_panic, SyncCache.sync_los_tries, SyncCache.sync_no_wait, SyncCache.sync_ends, SyncCache.sync_lad, SyncCache.sync_lad_once, SyncCache.sync_cad, SyncCache.sync_delete, SyncCache.sync_put_once, SyncCache.sync_no_return, SyncCache.sync_ends_at, SyncCache.sync_whole, SyncCache.sync_whole_all, SyncCache.whole_load, SyncCache.whole_range, SyncCache.whole_newest, SyncCache.whole_lad_once, SyncCache.whole_cb, SyncCache.whole_panic, SyncCache.sync_results, SyncCache.whole_results, Refresh.C96_get, Refresh.C96_none, Refresh.C97_clear, Refresh.C97_set, Refresh.C98_others, Refresh.C98_fresh, Refresh.C98_err, Refresh.C99
